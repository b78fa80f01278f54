import Verif.Model.Ieee
import Verif.Lemmas.Float

/-! # The bounded exponent of float64: when it makes no difference -/

set_option autoImplicit false

namespace PyMarket

/-! ## Multiples of a power of two -/

/-- `x` is a multiple of `2^-e`. -/
def Grid (e : ℕ) (x : ℚ) : Prop := ∃ k : ℤ, x = (k : ℚ) / 2 ^ e

namespace Grid
variable {e e' : ℕ} {x y : ℚ}

theorem zero (e : ℕ) : Grid e 0 := ⟨0, by simp⟩

theorem int (e : ℕ) (n : ℤ) : Grid e n := ⟨n * 2 ^ e, by push_cast; field_simp⟩

theorem add (hx : Grid e x) (hy : Grid e y) : Grid e (x + y) := by
  obtain ⟨a, rfl⟩ := hx
  obtain ⟨b, rfl⟩ := hy
  exact ⟨a + b, by push_cast; ring⟩

theorem neg (hx : Grid e x) : Grid e (-x) := by
  obtain ⟨a, rfl⟩ := hx
  exact ⟨-a, by push_cast; ring⟩

theorem sub (hx : Grid e x) (hy : Grid e y) : Grid e (x - y) := by
  rw [sub_eq_add_neg]; exact hx.add hy.neg

theorem mul (hx : Grid e x) (hy : Grid e' y) : Grid (e + e') (x * y) := by
  obtain ⟨a, rfl⟩ := hx
  obtain ⟨b, rfl⟩ := hy
  exact ⟨a * b, by push_cast; rw [pow_add]; field_simp⟩

theorem mono (h : e ≤ e') (hx : Grid e x) : Grid e' x := by
  obtain ⟨a, rfl⟩ := hx
  obtain ⟨d, rfl⟩ := Nat.exists_eq_add_of_le h
  exact ⟨a * 2 ^ d, by push_cast; rw [pow_add]; field_simp⟩

theorem half (hx : Grid e x) : Grid (e + 1) (1 / 2 * x) := by
  obtain ⟨a, rfl⟩ := hx
  exact ⟨a, by rw [pow_succ]; field_simp⟩

theorem abs (hx : Grid e x) : Grid e |x| := by
  rcases abs_choice x with h | h <;> rw [h]
  · exact hx
  · exact hx.neg

/-- A multiple of `2^-e` other than zero is at least `2^-e`. -/
theorem le_abs (hx : Grid e x) (h : x ≠ 0) : 1 / 2 ^ e ≤ |x| := by
  obtain ⟨a, rfl⟩ := hx
  have ha : a ≠ 0 := by rintro rfl; simp at h
  have : (1 : ℚ) ≤ |(a : ℚ)| := by
    rw [← Int.cast_abs]
    exact_mod_cast Int.one_le_abs ha
  rw [abs_div, abs_of_pos (by positivity : (0 : ℚ) < 2 ^ e)]
  gcongr

end Grid

/-! ## Rounding -/

theorem float64_rnd (x : ℚ) : float64.rnd x = roundBin 53 x := rfl

/-- A multiple of its last place is not rounded. -/
theorem roundBin_of_int {x : ℚ} (k : ℤ) (h : x / (2 : ℚ) ^ (Int.log 2 |x| - 52) = k) : float64.rnd x = x := by
  rw [float64_rnd]
  unfold roundBin
  have hu : (0 : ℚ) < (2 : ℚ) ^ (Int.log 2 |x| - 52) := two_zpow_pos _
  have e : ((53 : ℕ) : ℤ) - 1 = 52 := by norm_num
  simp only [e]
  rw [h, rint_int, ← h]
  field_simp

theorem Grid.div_zpow {e : ℕ} {x : ℚ} (hx : Grid e x) {n : ℤ} (hn : n ≤ -(e : ℤ)) :
    ∃ k : ℤ, x / (2 : ℚ) ^ n = k := by
  obtain ⟨a, rfl⟩ := hx
  obtain ⟨d, hd⟩ := Int.eq_ofNat_of_zero_le (show 0 ≤ -(e : ℤ) - n by omega)
  refine ⟨a * 2 ^ d, ?_⟩
  have h2 : (2 : ℚ) ^ n = ((2 : ℚ) ^ e)⁻¹ * ((2 : ℚ) ^ d)⁻¹ := by
    rw [← zpow_natCast, ← zpow_natCast, ← zpow_neg, ← zpow_neg, ← zpow_add₀ (by norm_num)]
    congr 1
    omega
  rw [h2]
  push_cast
  field_simp

theorem zpow_grid {n : ℤ} {e : ℕ} (h : -(e : ℤ) ≤ n) (k : ℤ) : Grid e ((k : ℚ) * (2 : ℚ) ^ n) := by
  obtain ⟨d, hd⟩ := Int.eq_ofNat_of_zero_le (show 0 ≤ n + e by omega)
  refine ⟨k * 2 ^ d, ?_⟩
  have : (2 : ℚ) ^ n = (2 : ℚ) ^ d / 2 ^ e := by
    rw [eq_div_iff (by positivity), ← zpow_natCast, ← zpow_natCast, ← zpow_add₀ (by norm_num)]
    congr 1
  rw [this]
  push_cast
  ring

/-- Rounding stays on the grid. -/
theorem Grid.rnd {e : ℕ} {x : ℚ} (hx : Grid e x) : Grid e (float64.rnd x) := by
  rcases le_total (-(e : ℤ)) (Int.log 2 |x| - 52) with h | h
  · exact zpow_grid h _
  · obtain ⟨k, hk⟩ := hx.div_zpow h
    rw [roundBin_of_int k hk]
    exact hx

/-- A rounded number that is not too small is on the grid. -/
theorem grid_rnd_of_le {e : ℕ} {x : ℚ} (hx : x = 0 ∨ 1 / 2 ^ e ≤ |x|) : Grid (e + 52) (float64.rnd x) := by
  rcases hx with rfl | hx
  · rw [float64.rnd_zero]; exact Grid.zero _
  · have hpos : 0 < |x| := lt_of_lt_of_le (by positivity) hx
    have : -(e : ℤ) ≤ Int.log 2 |x| := by
      refine (Int.zpow_le_iff_le_log (b := 2) (by norm_num) hpos).mp ?_
      push_cast
      rw [zpow_neg, zpow_natCast, ← one_div]
      exact hx
    exact zpow_grid (by push_cast; omega) _

/-- Small multiples of powers of two are representable. -/
theorem rep_nat_zpow (n : ℕ) (hn : n ≤ 2 ^ 53) (m : ℤ) : float64.rnd ((n : ℚ) * (2 : ℚ) ^ m) = (n : ℚ) * (2 : ℚ) ^ m := by
  rcases Nat.eq_zero_or_pos n with rfl | hpos
  · simp [float64.rnd_zero]
  have hx : (0 : ℚ) < (n : ℚ) * (2 : ℚ) ^ m := mul_pos (by exact_mod_cast hpos) (two_zpow_pos _)
  have key : ∀ k : ℕ, 0 < k → k < 2 ^ 53 → ∀ m : ℤ,
      float64.rnd ((k : ℚ) * (2 : ℚ) ^ m) = (k : ℚ) * (2 : ℚ) ^ m := by
    intro k hk hlt m
    have hx : (0 : ℚ) < (k : ℚ) * (2 : ℚ) ^ m := mul_pos (by exact_mod_cast hk) (two_zpow_pos _)
    have hlog : Int.log 2 |(k : ℚ) * (2 : ℚ) ^ m| < m + 53 := by
      rw [abs_of_pos hx]
      refine (Int.lt_zpow_iff_log_lt (b := 2) (by norm_num) hx).mp ?_
      push_cast
      rw [zpow_add₀ (by norm_num), mul_comm]
      refine mul_lt_mul_of_pos_left ?_ (two_zpow_pos _)
      rw [show ((53 : ℤ)) = ((53 : ℕ) : ℤ) by norm_num, zpow_natCast]
      exact_mod_cast hlt
    obtain ⟨d, hd⟩ := Int.eq_ofNat_of_zero_le
      (show 0 ≤ m - (Int.log 2 |(k : ℚ) * (2 : ℚ) ^ m| - 52) by omega)
    refine roundBin_of_int ((k : ℤ) * 2 ^ d) ?_
    rw [mul_div_assoc, ← zpow_sub₀ (by norm_num), hd]
    push_cast
    rfl
  rcases lt_or_eq_of_le hn with h | h
  · exact key n hpos h m
  · have := key 1 (by norm_num) (by norm_num) (53 + m)
    have e : (n : ℚ) * (2 : ℚ) ^ m = ((1 : ℕ) : ℚ) * (2 : ℚ) ^ (53 + m) := by
      rw [h, zpow_add₀ (by norm_num), show ((53 : ℤ)) = ((53 : ℕ) : ℤ) by norm_num, zpow_natCast]
      push_cast
      ring
    rw [e]; exact this

/-- A bound with few bits survives rounding. -/
theorem abs_rnd_le {x : ℚ} (n : ℕ) (hn : n ≤ 2 ^ 53) (m : ℕ) (h : |x| ≤ n * 2 ^ m) :
    |float64.rnd x| ≤ n * 2 ^ m := by
  have hr : float64.Rep ((n : ℚ) * 2 ^ m) := by
    have := rep_nat_zpow n hn m
    rw [zpow_natCast] at this
    exact this
  rw [abs_le] at h ⊢
  exact ⟨float64.le_rnd (float64.rep_neg hr) h.1, float64.rnd_le hr h.2⟩

theorem abs_rnd_le_pow {x : ℚ} (m : ℕ) (h : |x| ≤ 2 ^ m) : |float64.rnd x| ≤ 2 ^ m := by
  have := abs_rnd_le (x := x) 1 (by norm_num) m (by simpa using h)
  simpa using this

/-! ## The bounded exponent -/

/-- Where the bounded exponent makes no difference. -/
def Safe (x : ℚ) : Prop := |x| ≤ 2 ^ 1023 ∧ (1 / 2 ^ 1022 ≤ |x| ∨ Grid 1074 x)

theorem roundIeee_safe {x : ℚ} (h : Safe x) : roundIeee x = some (float64.rnd x) := by
  obtain ⟨hub, hlb⟩ := h
  have hfin : |float64.rnd x| < 2 ^ 1024 :=
    lt_of_le_of_lt (abs_rnd_le_pow 1023 hub) (pow_lt_pow_right₀ (by norm_num) (by norm_num))
  have key : ((rint (x / (2 : ℚ) ^ max (Int.log 2 |x| - 52) (-1074)) : ℚ) *
      (2 : ℚ) ^ max (Int.log 2 |x| - 52) (-1074)) = float64.rnd x := by
    rcases le_or_gt (-1074) (Int.log 2 |x| - 52) with hl | hl
    · rw [max_eq_left hl]
      rfl
    · rw [max_eq_right hl.le]
      have hg : Grid 1074 x := by
        rcases hlb with hlb | hg
        · exfalso
          have hpos : 0 < |x| := lt_of_lt_of_le (by positivity) hlb
          have : -((1022 : ℕ) : ℤ) ≤ Int.log 2 |x| := by
            refine (Int.zpow_le_iff_le_log (b := 2) (by norm_num) hpos).mp ?_
            rw [zpow_neg, zpow_natCast, ← one_div]
            exact_mod_cast hlb
          push_cast at this
          omega
        · exact hg
      obtain ⟨k, hk⟩ := hg.div_zpow (n := -1074) (by norm_num)
      obtain ⟨k', hk'⟩ := hg.div_zpow (n := Int.log 2 |x| - 52) (by push_cast; omega)
      rw [roundBin_of_int k' hk', hk, rint_int, ← hk]
      have := two_zpow_pos (-1074)
      field_simp
  unfold roundIeee
  simp only
  rw [key, if_pos hfin]

theorem IsIeee.rnd {A : Arith} (hA : IsIeee A) {x : ℚ} (h : Safe x) : A.rnd x = float64.rnd x :=
  hA x _ (roundIeee_safe h)

/-! ## Numbers on a grid with a bound -/

/-- `x` is a multiple of `2^-e` and at most `n * 2^m` in absolute value. -/
structure Bd (e m n : ℕ) (x : ℚ) : Prop where
  grid : Grid e x
  le : |x| ≤ n * 2 ^ m

namespace Bd
variable {e e' m m' n n' : ℕ} {x y : ℚ}

theorem zero (e m n : ℕ) : Bd e m n 0 := ⟨Grid.zero e, by simp⟩

theorem mono (h : Bd e m n x) (he : e ≤ e') (hm : m ≤ m') (hn : n ≤ n') : Bd e' m' n' x := by
  refine ⟨h.grid.mono he, h.le.trans ?_⟩
  have h1 : (n : ℚ) ≤ n' := by exact_mod_cast hn
  have h2 : (2 : ℚ) ^ m ≤ 2 ^ m' := pow_le_pow_right₀ (by norm_num) hm
  exact mul_le_mul h1 h2 (by positivity) (by positivity)

theorem neg (h : Bd e m n x) : Bd e m n (-x) := ⟨h.grid.neg, by rw [abs_neg]; exact h.le⟩

theorem add (h : Bd e m n x) (h' : Bd e m n' y) : Bd e m (n + n') (x + y) := by
  refine ⟨h.grid.add h'.grid, (abs_add_le _ _).trans ?_⟩
  push_cast
  linarith [h.le, h'.le, add_mul (n : ℚ) n' (2 ^ m)]

theorem sub (h : Bd e m n x) (h' : Bd e m n' y) : Bd e m (n + n') (x - y) := by
  rw [sub_eq_add_neg]; exact h.add h'.neg

theorem mul (h : Bd e m n x) (h' : Bd e' m' n' y) : Bd (e + e') (m + m') (n * n') (x * y) := by
  refine ⟨h.grid.mul h'.grid, ?_⟩
  rw [abs_mul]
  refine (mul_le_mul h.le h'.le (abs_nonneg _) (by positivity)).trans (le_of_eq ?_)
  push_cast
  rw [pow_add]
  ring

/-- Trade the factor for a power of two. -/
theorem lift (h : Bd e m n x) (k : ℕ) (hk : n ≤ 2 ^ k) : Bd e (m + k) 1 x := by
  refine ⟨h.grid, h.le.trans ?_⟩
  have h1 : (n : ℚ) ≤ 2 ^ k := by exact_mod_cast hk
  rw [pow_add, Nat.cast_one, one_mul, mul_comm]
  exact mul_le_mul_of_nonneg_left h1 (by positivity)

theorem half (h : Bd e m n x) : Bd (e + 1) m n (1 / 2 * x) := by
  refine ⟨h.grid.half, ?_⟩
  rw [abs_mul, abs_of_pos (by norm_num : (0 : ℚ) < 1 / 2)]
  have := abs_nonneg x
  linarith [h.le]

theorem min (h : Bd e m n x) (h' : Bd e m n y) : Bd e m n (min x y) := by
  rcases min_choice x y with hc | hc <;> rw [hc] <;> assumption

theorem max (h : Bd e m n x) (h' : Bd e m n y) : Bd e m n (max x y) := by
  rcases max_choice x y with hc | hc <;> rw [hc] <;> assumption

/-- Between zero and a bounded number. -/
theorem of_le (hg : Grid e x) (h0 : 0 ≤ x) (hxy : x ≤ y) (h : Bd e m n y) : Bd e m n x := by
  refine ⟨hg, ?_⟩
  rw [abs_of_nonneg h0]
  exact hxy.trans ((le_abs_self y).trans h.le)

theorem safe (h : Bd e m n x) (he : e ≤ 1074) (hm : m ≤ 970) (hn : n ≤ 2 ^ 53) : Safe x := by
  refine ⟨h.le.trans ?_, Or.inr (h.grid.mono he)⟩
  have h1 : (n : ℚ) ≤ 2 ^ 53 := by exact_mod_cast hn
  have h2 : (2 : ℚ) ^ m ≤ 2 ^ 970 := pow_le_pow_right₀ (by norm_num) hm
  rw [show 1023 = 53 + 970 by norm_num, pow_add]
  exact mul_le_mul h1 h2 (by positivity) (by positivity)

theorem rnd (h : Bd e m n x) (hn : n ≤ 2 ^ 53) : Bd e m n (float64.rnd x) :=
  ⟨h.grid.rnd, abs_rnd_le n hn m h.le⟩

end Bd

/-- A quotient of two numbers on a grid. -/
theorem Bd.div {e m n e' m' n' : ℕ} {x y : ℚ} (hx : Bd e m n x) (hy : Bd e' m' n' y) (k k' : ℕ)
    (hn : n ≤ 2 ^ k) (hn' : n' ≤ 2 ^ k') :
    (x / y = 0 ∨ 1 / 2 ^ (e + m' + k') ≤ |x / y|) ∧ |x / y| ≤ 2 ^ (m + k + e') := by
  by_cases hx0 : x = 0
  · subst hx0; simp
  by_cases hy0 : y = 0
  · subst hy0; simp
  have hx1 := hx.grid.le_abs hx0
  have hy1 := hy.grid.le_abs hy0
  have hx2 := (hx.lift k hn).le
  have hy2 := (hy.lift k' hn').le
  rw [Nat.cast_one, one_mul] at hx2 hy2
  have hyp : 0 < |y| := abs_pos.mpr hy0
  rw [abs_div]
  constructor
  · right
    rw [le_div_iff₀ hyp]
    calc 1 / 2 ^ (e + m' + k') * |y| ≤ 1 / 2 ^ (e + m' + k') * 2 ^ (m' + k') :=
          mul_le_mul_of_nonneg_left hy2 (by positivity)
      _ = 1 / 2 ^ e := by rw [add_assoc, pow_add]; field_simp
      _ ≤ |x| := hx1
  · rw [div_le_iff₀ hyp]
    calc |x| ≤ 2 ^ (m + k) := hx2
      _ = 2 ^ (m + k + e') * (1 / 2 ^ e') := by rw [pow_add _ (m + k)]; field_simp
      _ ≤ 2 ^ (m + k + e') * |y| := mul_le_mul_of_nonneg_left hy1 (by positivity)

/-- The rounded quotient is on a grid and bounded, and the bounded exponent does not matter. -/
theorem Bd.div_rnd {e m n e' m' n' : ℕ} {x y : ℚ} (hx : Bd e m n x) (hy : Bd e' m' n' y) (k k' : ℕ)
    (hn : n ≤ 2 ^ k) (hn' : n' ≤ 2 ^ k') (hlo : e + m' + k' ≤ 1022) (hhi : m + k + e' ≤ 1023) :
    Safe (x / y) ∧ Bd (e + m' + k' + 52) (m + k + e') 1 (float64.rnd (x / y)) := by
  obtain ⟨h1, h2⟩ := hx.div hy k k' hn hn'
  refine ⟨⟨h2.trans (pow_le_pow_right₀ (by norm_num) hhi), ?_⟩, grid_rnd_of_le h1, ?_⟩
  · rcases h1 with h1 | h1
    · right; rw [h1]; exact Grid.zero _
    · left
      refine le_trans ?_ h1
      exact one_div_le_one_div_of_le (by positivity) (pow_le_pow_right₀ (by norm_num) hlo)
  · rw [Nat.cast_one, one_mul]
    exact abs_rnd_le_pow _ h2

/-! ## Sums -/

/-- Adding from left to right is an order of summation in any arithmetic. -/
theorem seqSum_isSum (A : Arith) (l : List ℚ) : IsFSum A l (seqSum A l) := by
  cases l with
  | nil => exact .nil
  | cons x l =>
    have : ∀ (m l : List ℚ) (a : ℚ), l ≠ [] → IsFSum A l a → IsFSum A (l ++ m) (addFrom A a m) := by
      intro m
      induction m with
      | nil => intro l a _ h; rw [List.append_nil]; exact h
      | cons y m ih =>
        intro l a hl h
        have := ih (l ++ [y]) (A.rnd (a + y)) (by simp) (.add hl (by simp) h (.one y))
        rwa [List.append_assoc] at this
    exact this l [x] x (by simp) (.one x)

theorem IsFSum.toBin {A : Arith} (hA : IsIeee A) {e m : ℕ} (he : e ≤ 1074) (hm : m ≤ 970) {l : List ℚ} {v : ℚ}
    (h : IsFSum A l v) (hl : ∀ x ∈ l, Bd e m 1 x) (hn : l.length ≤ 2 ^ 53) :
    IsFSum float64 l v ∧ Bd e m l.length v := by
  induction h with
  | nil => exact ⟨.nil, Bd.zero _ _ _⟩
  | one x => exact ⟨.one x, by simpa using hl x (by simp)⟩
  | @add l k a b h1 h2 _ _ ih1 ih2 =>
    rw [List.length_append] at hn
    obtain ⟨a1, a2⟩ := ih1 (fun x hx => hl x (List.mem_append_left _ hx)) (by omega)
    obtain ⟨b1, b2⟩ := ih2 (fun x hx => hl x (List.mem_append_right _ hx)) (by omega)
    have hs := a2.add b2
    rw [List.length_append, hA.rnd (hs.safe he hm hn)]
    exact ⟨.add h1 h2 a1 b1, hs.rnd hn⟩
  | perm hp _ ih =>
    obtain ⟨a1, a2⟩ := ih (fun x hx => hl x (hp.subset hx)) (by rw [hp.length_eq]; exact hn)
    exact ⟨.perm hp a1, by rw [← hp.length_eq]; exact a2⟩

open Classical in
/-- The order of summation of `s`, wherever the bounded exponent makes no difference to it. -/
noncomputable def Summer.toBin {A : Arith} (s : Summer A) : Summer float64 where
  sum l := if IsFSum float64 l (s.sum l) then s.sum l else seqSum float64 l
  isSum l := by
    split
    · assumption
    · exact seqSum_isFSum float64 l

theorem Summer.toBin_sum {A : Arith} (hA : IsIeee A) (s : Summer A) {e m : ℕ} (he : e ≤ 1074) (hm : m ≤ 970)
    {l : List ℚ} (hl : ∀ x ∈ l, Bd e m 1 x) (hn : l.length ≤ 2 ^ 53) : s.sum l = s.toBin.sum l := by
  unfold Summer.toBin
  exact (if_pos ((s.isSum l).toBin hA he hm hl hn).1).symm

theorem IsFSum.bd {e m : ℕ} {l : List ℚ} {v : ℚ}
    (h : IsFSum float64 l v) (hl : ∀ x ∈ l, Bd e m 1 x) (hn : l.length ≤ 2 ^ 53) : Bd e m l.length v := by
  induction h with
  | nil => exact Bd.zero _ _ _
  | one x => simpa using hl x (by simp)
  | @add l k a b h1 h2 _ _ ih1 ih2 =>
    rw [List.length_append] at hn ⊢
    exact ((ih1 (fun x hx => hl x (List.mem_append_left _ hx)) (by omega)).add
      (ih2 (fun x hx => hl x (List.mem_append_right _ hx)) (by omega))).rnd hn
  | perm hp _ ih =>
    rw [← hp.length_eq] at hn ⊢
    exact ih (fun x hx => hl x (hp.subset hx)) hn

theorem cumsumF_bin {A : Arith} (hA : IsIeee A) {e m : ℕ} (he : e ≤ 1074) (hm : m ≤ 970) {l : List ℚ}
    (hl : ∀ x ∈ l, Bd e m 1 x) (hn : l.length ≤ 2 ^ 53) : cumsumF A l = cumsumF float64 l := by
  have : ∀ (l : List ℚ) (acc : ℚ) (c : ℕ), Bd e m c acc → (∀ x ∈ l, Bd e m 1 x) → c + l.length ≤ 2 ^ 53 →
      cumsumFromF A acc l = cumsumFromF float64 acc l := by
    intro l
    induction l with
    | nil => intros; rfl
    | cons x l ih =>
      intro acc c hc hl hn
      rw [List.length_cons] at hn
      have hs := hc.add (hl x List.mem_cons_self)
      simp only [cumsumFromF]
      rw [hA.rnd (hs.safe he hm (by omega)),
        ih _ (c + 1) (hs.rnd (by omega)) (fun y hy => hl y (List.mem_cons_of_mem _ hy)) (by omega)]
  exact this l 0 0 (Bd.zero _ _ _) hl (by omega)

end PyMarket
