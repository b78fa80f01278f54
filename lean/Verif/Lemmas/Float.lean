import Verif.Model.Float
import Verif.Lemmas.Merge
import Mathlib.Algebra.Order.BigOperators.Group.List

/-! # Lemmas about rounded arithmetic -/

set_option autoImplicit false

namespace PyMarket

/-! ## `rint` -/

theorem rint_int (n : ℤ) : rint (n : ℚ) = n := by
  unfold rint
  simp

theorem rint_unique {x : ℚ} {z : ℤ} (h1 : |(z : ℚ) - x| ≤ 1 / 2) (h2 : |(z : ℚ) - x| = 1 / 2 → Even z) :
    rint x = z := by
  have hf1 := Int.floor_le x
  have hf2 := Int.lt_floor_add_one x
  rw [abs_le] at h1
  have hz : z = ⌊x⌋ ∨ z = ⌊x⌋ + 1 := by
    have a1 : (⌊x⌋ : ℚ) - 1 < z := by linarith
    have a2 : (z : ℚ) < ⌊x⌋ + 2 := by linarith
    have b1 : ⌊x⌋ - 1 < z := by exact_mod_cast a1
    have b2 : z < ⌊x⌋ + 2 := by exact_mod_cast a2
    omega
  unfold rint
  simp only
  rcases hz with hz | hz
  · have hc : (z : ℚ) = ⌊x⌋ := by rw [hz]
    split_ifs with c1 c2 c3
    · exact hz.symm
    · exfalso; linarith
    · exact hz.symm
    · exfalso
      have : |(z : ℚ) - x| = 1 / 2 := by
        rw [abs_of_nonpos (by linarith)]; linarith
      have := h2 this
      rw [hz, Int.even_iff] at this
      exact c3 this
  · have hc : (z : ℚ) = ⌊x⌋ + 1 := by rw [hz]; push_cast; ring
    split_ifs with c1 c2 c3
    · exfalso; linarith
    · exact hz.symm
    · exfalso
      have : |(z : ℚ) - x| = 1 / 2 := by
        rw [abs_of_nonneg (by linarith)]; linarith
      have := h2 this
      rw [hz, Int.even_iff] at this
      omega
    · exact hz.symm

theorem rint_even {x : ℚ} (h : |(rint x : ℚ) - x| = 1 / 2) : Even (rint x) := by
  have hf1 := Int.floor_le x
  have hf2 := Int.lt_floor_add_one x
  unfold rint at *
  simp only at *
  split_ifs at * with c1 c2 c3
  · exfalso
    rw [abs_of_nonpos (by linarith)] at h
    linarith
  · exfalso
    push_cast at h
    rw [abs_of_nonneg (by linarith)] at h
    linarith
  · exact Int.even_iff.mpr c3
  · rw [Int.even_iff]; omega

theorem rint_neg (x : ℚ) : rint (-x) = -rint x := by
  apply rint_unique
  · have := rint_near x
    rw [← abs_neg]
    push_cast
    convert this using 2
    ring
  · intro h
    rw [even_neg]
    apply rint_even
    rw [← abs_neg, ← h]
    push_cast
    congr 1
    ring

theorem rint_le_int {x : ℚ} {n : ℤ} (h : x ≤ n) : rint x ≤ n := by
  rw [← rint_int n]; exact rint_mono h

theorem int_le_rint {x : ℚ} {n : ℤ} (h : (n : ℚ) ≤ x) : n ≤ rint x := by
  rw [← rint_int n]; exact rint_mono h

/-! ## Rounding to `p` bits -/

theorem two_zpow_pos (n : ℤ) : (0 : ℚ) < (2 : ℚ) ^ n := zpow_pos (by norm_num) n

theorem roundBin_zero (p : ℕ) : roundBin p 0 = 0 := by
  simp [roundBin, rint]

theorem roundBin_neg (p : ℕ) (x : ℚ) : roundBin p (-x) = -roundBin p x := by
  unfold roundBin
  simp only [abs_neg, neg_div, rint_neg]
  push_cast
  ring

section
variable {p : ℕ}

/-- The mantissa of a positive number. -/
theorem mantissa_bounds {x : ℚ} (hx : 0 < x) :
    ((2 : ℚ) ^ ((p : ℤ) - 1) ≤ x / (2 : ℚ) ^ (Int.log 2 x - ((p : ℤ) - 1))) ∧
    x / (2 : ℚ) ^ (Int.log 2 x - ((p : ℤ) - 1)) < (2 : ℚ) ^ (p : ℤ) := by
  have h1 := Int.zpow_log_le_self (b := 2) (by norm_num) hx
  have h2 := Int.lt_zpow_succ_log_self (b := 2) (by norm_num) x
  push_cast at h1 h2
  have hu : (0 : ℚ) < (2 : ℚ) ^ (Int.log 2 x - ((p : ℤ) - 1)) := two_zpow_pos _
  constructor
  · rw [le_div_iff₀ hu, ← zpow_add₀ (by norm_num)]
    convert h1 using 2
    ring
  · rw [div_lt_iff₀ hu, ← zpow_add₀ (by norm_num)]
    convert h2 using 2
    ring

/-- A positive number is rounded within its binade. -/
theorem roundBin_pos (hp : 1 ≤ p) {x : ℚ} (hx : 0 < x) :
    ∃ k : ℤ, roundBin p x = (k : ℚ) * (2 : ℚ) ^ (Int.log 2 x - ((p : ℤ) - 1)) ∧
      (2 : ℤ) ^ (p - 1) ≤ k ∧ k ≤ (2 : ℤ) ^ p ∧
      k = rint (x / (2 : ℚ) ^ (Int.log 2 x - ((p : ℤ) - 1))) := by
  have hm := mantissa_bounds (p := p) hx
  refine ⟨rint (x / (2 : ℚ) ^ (Int.log 2 x - ((p : ℤ) - 1))), ?_, ?_, ?_, rfl⟩
  · unfold roundBin
    simp only [abs_of_pos hx]
  · apply int_le_rint
    refine le_trans (le_of_eq ?_) hm.1
    push_cast
    rw [← zpow_natCast]
    congr 1
    omega
  · apply rint_le_int
    refine hm.2.le.trans (le_of_eq ?_)
    push_cast
    rw [← zpow_natCast]

theorem roundBin_between (hp : 1 ≤ p) {x : ℚ} (hx : 0 < x) :
    (2 : ℚ) ^ (Int.log 2 x) ≤ roundBin p x ∧ roundBin p x ≤ (2 : ℚ) ^ (Int.log 2 x + 1) := by
  obtain ⟨k, h1, h2, h3, _⟩ := roundBin_pos hp hx
  have hu : (0 : ℚ) < (2 : ℚ) ^ (Int.log 2 x - ((p : ℤ) - 1)) := two_zpow_pos _
  have h2' : ((2 : ℚ) ^ (p - 1)) ≤ k := by exact_mod_cast h2
  have h3' : (k : ℚ) ≤ (2 : ℚ) ^ p := by exact_mod_cast h3
  rw [h1]
  constructor
  · refine le_trans (le_of_eq ?_) (mul_le_mul_of_nonneg_right h2' hu.le)
    rw [← zpow_natCast, ← zpow_add₀ (by norm_num)]
    congr 1
    omega
  · refine (mul_le_mul_of_nonneg_right h3' hu.le).trans (le_of_eq ?_)
    rw [← zpow_natCast, ← zpow_add₀ (by norm_num)]
    congr 1
    ring

theorem roundBin_mono_pos (hp : 1 ≤ p) {x y : ℚ} (hx : 0 < x) (h : x ≤ y) :
    roundBin p x ≤ roundBin p y := by
  have hy := lt_of_lt_of_le hx h
  have hl : Int.log 2 x ≤ Int.log 2 y := Int.log_mono_right hx h
  rcases eq_or_lt_of_le hl with he | hl
  · unfold roundBin
    simp only [abs_of_pos hx, abs_of_pos hy, he]
    have hu : (0 : ℚ) < (2 : ℚ) ^ (Int.log 2 y - ((p : ℤ) - 1)) := two_zpow_pos _
    apply mul_le_mul_of_nonneg_right _ hu.le
    exact_mod_cast rint_mono (div_le_div_of_nonneg_right h hu.le)
  · refine (roundBin_between hp hx).2.trans (le_trans ?_ (roundBin_between hp hy).1)
    exact zpow_le_zpow_right₀ (by norm_num) (by omega)

theorem roundBin_mono (hp : 1 ≤ p) {x y : ℚ} (h : x ≤ y) : roundBin p x ≤ roundBin p y := by
  have nn : ∀ {z : ℚ}, 0 ≤ z → 0 ≤ roundBin p z := by
    intro z hz
    rcases eq_or_lt_of_le hz with rfl | hz
    · rw [roundBin_zero]
    · exact le_trans (two_zpow_pos _).le (roundBin_between hp hz).1
  rcases lt_trichotomy x 0 with hx | rfl | hx
  · rcases lt_or_ge y 0 with hy | hy
    · have := roundBin_mono_pos hp (x := -y) (y := -x) (by linarith) (by linarith)
      rw [roundBin_neg, roundBin_neg] at this
      linarith
    · have h1 := nn (z := -x) (by linarith)
      rw [roundBin_neg] at h1
      have h2 := nn hy
      linarith
  · rw [roundBin_zero]; exact nn h
  · exact roundBin_mono_pos hp hx h

theorem roundBin_idem_pos (hp : 1 ≤ p) {x : ℚ} (hx : 0 < x) :
    roundBin p (roundBin p x) = roundBin p x := by
  obtain ⟨k, h1, h2, h3, _⟩ := roundBin_pos hp hx
  have hb := roundBin_between hp hx
  have hu : (0 : ℚ) < (2 : ℚ) ^ (Int.log 2 x - ((p : ℤ) - 1)) := two_zpow_pos _
  have hr : 0 < roundBin p x := lt_of_lt_of_le (two_zpow_pos _) hb.1
  rcases eq_or_lt_of_le hb.2 with he | hlt
  · rw [he]
    unfold roundBin
    have hpos : (0 : ℚ) < (2 : ℚ) ^ (Int.log 2 x + 1) := two_zpow_pos _
    have hlog : Int.log 2 ((2 : ℚ) ^ (Int.log 2 x + 1)) = Int.log 2 x + 1 := by
      have := Int.log_zpow (R := ℚ) (b := 2) (by norm_num) (Int.log 2 x + 1)
      exact_mod_cast this
    simp only [abs_of_pos hpos, hlog]
    have : (2 : ℚ) ^ (Int.log 2 x + 1) / (2 : ℚ) ^ (Int.log 2 x + 1 - ((p : ℤ) - 1)) =
        ((2 ^ (p - 1) : ℤ) : ℚ) := by
      rw [← zpow_sub₀ (by norm_num)]
      push_cast
      rw [← zpow_natCast]
      congr 1
      omega
    rw [this, rint_int, ← this]
    field_simp
  · have hlog : Int.log 2 (roundBin p x) = Int.log 2 x := by
      apply le_antisymm
      · have := (Int.lt_zpow_iff_log_lt (b := 2) (by norm_num) (x := Int.log 2 x + 1) hr).mp
          (by exact_mod_cast hlt)
        omega
      · exact (Int.zpow_le_iff_le_log (b := 2) (by norm_num) hr).mp (by exact_mod_cast hb.1)
    have hr' := hr
    generalize hy : roundBin p x = y at *
    unfold roundBin
    simp only [abs_of_pos hr', hlog]
    rw [h1, mul_div_assoc, div_self hu.ne', mul_one, rint_int]

theorem roundBin_idem (hp : 1 ≤ p) (x : ℚ) : roundBin p (roundBin p x) = roundBin p x := by
  rcases lt_trichotomy x 0 with hx | rfl | hx
  · have := roundBin_idem_pos hp (x := -x) (by linarith)
    rw [roundBin_neg, roundBin_neg] at this
    exact neg_injective this
  · rw [roundBin_zero, roundBin_zero]
  · exact roundBin_idem_pos hp hx

theorem log_two_mul {x : ℚ} (hx : 0 < x) : Int.log 2 (2 * x) = Int.log 2 x + 1 := by
  have h1 := Int.zpow_log_le_self (b := 2) (by norm_num) hx
  have h2 := Int.lt_zpow_succ_log_self (b := 2) (by norm_num) x
  push_cast at h1 h2
  have hx2 : 0 < 2 * x := by linarith
  apply le_antisymm
  · have := (Int.lt_zpow_iff_log_lt (b := 2) (by norm_num) (x := Int.log 2 x + 1 + 1) hx2).mp (by
      push_cast
      rw [zpow_add₀ (by norm_num : (2 : ℚ) ≠ 0), zpow_one]
      linarith)
    omega
  · refine (Int.zpow_le_iff_le_log (b := 2) (by norm_num) hx2).mp ?_
    push_cast
    rw [zpow_add₀ (by norm_num : (2 : ℚ) ≠ 0), zpow_one]
    linarith

theorem roundBin_double (x : ℚ) : roundBin p (2 * x) = 2 * roundBin p x := by
  have pos : ∀ {z : ℚ}, 0 < z → roundBin p (2 * z) = 2 * roundBin p z := by
    intro z hz
    have hz2 : 0 < 2 * z := by linarith
    unfold roundBin
    simp only [abs_of_pos hz, abs_of_pos hz2, log_two_mul hz]
    have : (2 : ℚ) ^ (Int.log 2 z + 1 - ((p : ℤ) - 1)) = 2 * (2 : ℚ) ^ (Int.log 2 z - ((p : ℤ) - 1)) := by
      rw [show Int.log 2 z + 1 - ((p : ℤ) - 1) = 1 + (Int.log 2 z - ((p : ℤ) - 1)) by ring,
        zpow_add₀ (by norm_num : (2 : ℚ) ≠ 0), zpow_one]
    rw [this, mul_div_mul_left _ _ (by norm_num : (2 : ℚ) ≠ 0)]
    ring
  rcases lt_trichotomy x 0 with hx | rfl | hx
  · have := pos (z := -x) (by linarith)
    rw [roundBin_neg, mul_neg, roundBin_neg] at this
    linarith
  · rw [mul_zero, roundBin_zero, mul_zero]
  · exact pos hx

theorem roundBin_err (x : ℚ) : |roundBin p x - x| ≤ (1 / 2 ^ p : ℚ) * |x| := by
  have pos : ∀ {z : ℚ}, 0 < z → |roundBin p z - z| ≤ (1 / 2 ^ p : ℚ) * |z| := by
    intro z hz
    have hu : (0 : ℚ) < (2 : ℚ) ^ (Int.log 2 z - ((p : ℤ) - 1)) := two_zpow_pos _
    have h1 := Int.zpow_log_le_self (b := 2) (by norm_num) hz
    push_cast at h1
    have hn := rint_near (z / (2 : ℚ) ^ (Int.log 2 z - ((p : ℤ) - 1)))
    have he : roundBin p z - z = ((rint (z / (2 : ℚ) ^ (Int.log 2 z - ((p : ℤ) - 1))) : ℚ) -
        z / (2 : ℚ) ^ (Int.log 2 z - ((p : ℤ) - 1))) * (2 : ℚ) ^ (Int.log 2 z - ((p : ℤ) - 1)) := by
      unfold roundBin
      simp only [abs_of_pos hz]
      field_simp
    rw [he, abs_mul, abs_of_pos hu, abs_of_pos hz]
    have hs : (2 : ℚ) ^ (Int.log 2 z - ((p : ℤ) - 1)) = 2 * ((1 / 2 ^ p : ℚ) * (2 : ℚ) ^ (Int.log 2 z)) := by
      rw [show Int.log 2 z - ((p : ℤ) - 1) = 1 + ((-(p : ℤ)) + Int.log 2 z) by ring,
        zpow_add₀ (by norm_num : (2 : ℚ) ≠ 0), zpow_add₀ (by norm_num : (2 : ℚ) ≠ 0), zpow_one,
        zpow_neg, zpow_natCast, one_div]
    calc _ ≤ 1 / 2 * (2 : ℚ) ^ (Int.log 2 z - ((p : ℤ) - 1)) := mul_le_mul_of_nonneg_right hn hu.le
      _ = (1 / 2 ^ p : ℚ) * (2 : ℚ) ^ (Int.log 2 z) := by rw [hs]; ring
      _ ≤ _ := mul_le_mul_of_nonneg_left h1 (by positivity)
  rcases lt_trichotomy x 0 with hx | rfl | hx
  · have := pos (z := -x) (by linarith)
    rw [roundBin_neg, abs_neg, ← neg_sub', abs_neg] at this
    exact this
  · rw [roundBin_zero]; simp
  · exact pos hx

theorem roundBin_one (hp : 1 ≤ p) : roundBin p 1 = 1 := by
  unfold roundBin
  simp only [abs_one, Int.log_one_right]
  have : (1 : ℚ) / (2 : ℚ) ^ (0 - ((p : ℤ) - 1)) = ((2 ^ (p - 1) : ℤ) : ℚ) := by
    rw [one_div, ← zpow_neg]
    push_cast
    rw [← zpow_natCast]
    congr 1
    omega
  rw [this, rint_int, ← this]
  field_simp

end

/-- `p` significant bits. -/
def binary (p : ℕ) (hp : 1 ≤ p) : Fmt where
  rnd := roundBin p
  eps := 1 / 2 ^ p
  mono := fun _ _ h => roundBin_mono hp h
  idem := roundBin_idem hp
  neg := roundBin_neg p
  double := roundBin_double
  one := roundBin_one hp
  eps_nonneg := by positivity
  eps_lt := by
    rw [div_lt_one (by positivity)]
    exact one_lt_pow₀ (by norm_num) (by omega)
  err := roundBin_err

/-- IEEE 754 binary64, the float of Python and the float64 of NumPy. -/
def float64 : Fmt := binary 53 (by norm_num)

/-! ## Consequences of the axioms -/

namespace Fmt
variable (F : Fmt)

theorem rnd_zero : F.rnd 0 = 0 := by
  have := F.err 0
  simpa using this

theorem rep_zero : F.Rep 0 := F.rnd_zero
theorem rep_one : F.Rep 1 := F.one
theorem rep_rnd (x : ℚ) : F.Rep (F.rnd x) := F.idem x

theorem rnd_nonneg {x : ℚ} (h : 0 ≤ x) : 0 ≤ F.rnd x := by
  have := F.mono 0 x h
  rwa [F.rnd_zero] at this

theorem rnd_nonpos {x : ℚ} (h : x ≤ 0) : F.rnd x ≤ 0 := by
  have := F.mono x 0 h
  rwa [F.rnd_zero] at this

theorem rnd_pos {x : ℚ} (h : 0 < x) : 0 < F.rnd x := by
  have h1 := F.err x
  rw [abs_of_pos h, abs_le] at h1
  have := F.eps_lt
  nlinarith [h1.1]

theorem rnd_pos_iff {x : ℚ} : 0 < F.rnd x ↔ 0 < x := by
  refine ⟨fun h => ?_, F.rnd_pos⟩
  by_contra hc
  exact absurd (F.rnd_nonpos (not_lt.mp hc)) (not_le.mpr h)

theorem rnd_eq_zero {x : ℚ} : F.rnd x = 0 ↔ x = 0 := by
  constructor
  · intro h
    have h1 := F.err x
    rw [h, zero_sub, abs_neg] at h1
    by_contra hne
    have := abs_pos.mpr hne
    have := F.eps_lt
    nlinarith
  · rintro rfl; exact F.rnd_zero

theorem rnd_le {x y : ℚ} (hy : F.Rep y) (h : x ≤ y) : F.rnd x ≤ y := by
  have := F.mono x y h
  rwa [hy] at this

theorem le_rnd {x y : ℚ} (hx : F.Rep x) (h : x ≤ y) : x ≤ F.rnd y := by
  have := F.mono x y h
  rwa [hx] at this

theorem rep_half {x : ℚ} (h : F.Rep x) : F.Rep (x / 2) := by
  have := F.double (x / 2)
  rw [mul_div_cancel₀ x (by norm_num : (2 : ℚ) ≠ 0), h] at this
  unfold Fmt.Rep
  linarith

theorem rep_neg {x : ℚ} (h : F.Rep x) : F.Rep (-x) := by
  unfold Fmt.Rep; rw [F.neg, h]

end Fmt

theorem exactFmt_rnd (x : ℚ) : exactFmt.rnd x = x := rfl

theorem exactFmt_rep (x : ℚ) : exactFmt.Rep x := rfl

/-! ## Sums -/

theorem IsFSum.exact {l : List ℚ} {v : ℚ} (h : IsFSum exactFmt l v) : v = l.sum := by
  induction h with
  | nil => rfl
  | one x => simp
  | add _ _ _ _ h1 h2 => rw [exactFmt_rnd, h1, h2, List.sum_append]
  | perm hp _ h => rw [h, hp.sum_eq]

theorem IsFSum.nonneg {F : Fmt} {l : List ℚ} {v : ℚ} (h : IsFSum F l v) (hl : ∀ x ∈ l, 0 ≤ x) :
    0 ≤ v := by
  induction h with
  | nil => exact le_refl _
  | one x => exact hl x (by simp)
  | add _ _ _ _ h1 h2 =>
    apply F.rnd_nonneg
    exact add_nonneg (h1 (fun x hx => hl x (List.mem_append_left _ hx)))
      (h2 (fun x hx => hl x (List.mem_append_right _ hx)))
  | perm hp _ h => exact h (fun x hx => hl x (hp.mem_iff.mp hx))

/-- A rounded sum of non-negative numbers is positive exactly when one of them is. -/
theorem IsFSum.pos_iff {F : Fmt} {l : List ℚ} {v : ℚ} (h : IsFSum F l v) (hl : ∀ x ∈ l, 0 ≤ x) :
    0 < v ↔ ∃ x ∈ l, 0 < x := by
  induction h with
  | nil => simp
  | one x => simp
  | @add l m a b hne1 hne2 ha hb h1 h2 =>
    have hl1 : ∀ x ∈ l, 0 ≤ x := fun x hx => hl x (List.mem_append_left _ hx)
    have hl2 : ∀ x ∈ m, 0 ≤ x := fun x hx => hl x (List.mem_append_right _ hx)
    have n1 := ha.nonneg hl1
    have n2 := hb.nonneg hl2
    rw [F.rnd_pos_iff]
    constructor
    · intro h
      by_cases hc : 0 < a
      · obtain ⟨x, hx, hp⟩ := (h1 hl1).mp hc
        exact ⟨x, List.mem_append_left _ hx, hp⟩
      · obtain ⟨x, hx, hp⟩ := (h2 hl2).mp (by linarith)
        exact ⟨x, List.mem_append_right _ hx, hp⟩
    · rintro ⟨x, hx, hp⟩
      rcases List.mem_append.mp hx with hx | hx
      · have := (h1 hl1).mpr ⟨x, hx, hp⟩
        linarith
      · have := (h2 hl2).mpr ⟨x, hx, hp⟩
        linarith
  | perm hp _ h =>
    rw [h (fun x hx => hl x (hp.mem_iff.mp hx))]
    constructor
    · rintro ⟨x, hx, h0⟩; exact ⟨x, hp.mem_iff.mp hx, h0⟩
    · rintro ⟨x, hx, h0⟩; exact ⟨x, hp.mem_iff.mpr hx, h0⟩

theorem IsFSum.rep {F : Fmt} {l : List ℚ} {v : ℚ} (h : IsFSum F l v) (hl : ∀ x ∈ l, F.Rep x) :
    F.Rep v := by
  induction h with
  | nil => exact F.rep_zero
  | one x => exact hl x (by simp)
  | add _ _ _ _ _ _ => exact F.rep_rnd _
  | perm hp _ h => exact h (fun x hx => hl x (hp.mem_iff.mp hx))

/-- The error of a rounded sum of non-negative numbers: at most `(1 + eps)^(n-1)` too large or
`(1 - eps)^(n-1)` too small. -/
theorem IsFSum.bounds {F : Fmt} {l : List ℚ} {v : ℚ} (h : IsFSum F l v) (hl : ∀ x ∈ l, 0 ≤ x) :
    (1 - F.eps) ^ (l.length - 1) * l.sum ≤ v ∧ v ≤ (1 + F.eps) ^ (l.length - 1) * l.sum := by
  have e0 := F.eps_nonneg
  have e1 := F.eps_lt
  induction h with
  | nil => simp
  | one x => simp
  | @add l m a b hne1 hne2 ha hb h1 h2 =>
    have hl1 : ∀ x ∈ l, 0 ≤ x := fun x hx => hl x (List.mem_append_left _ hx)
    have hl2 : ∀ x ∈ m, 0 ≤ x := fun x hx => hl x (List.mem_append_right _ hx)
    have n1 := ha.nonneg hl1
    have n2 := hb.nonneg hl2
    have s1 : 0 ≤ l.sum := List.sum_nonneg hl1
    have s2 : 0 ≤ m.sum := List.sum_nonneg hl2
    obtain ⟨a1, a2⟩ := h1 hl1
    obtain ⟨b1, b2⟩ := h2 hl2
    rw [List.sum_append, List.length_append]
    obtain ⟨n, hn⟩ : ∃ n, l.length = n + 1 := ⟨l.length - 1, by
      have := List.length_pos_of_ne_nil hne1; omega⟩
    obtain ⟨k, hk⟩ : ∃ k, m.length = k + 1 := ⟨m.length - 1, by
      have := List.length_pos_of_ne_nil hne2; omega⟩
    rw [hn, Nat.add_sub_cancel] at a1 a2
    rw [hk, Nat.add_sub_cancel] at b1 b2
    have he : l.length + m.length - 1 = n + k + 1 := by omega
    rw [he, pow_succ, pow_succ]
    have hr := F.err (a + b)
    rw [abs_of_nonneg (add_nonneg n1 n2), abs_le] at hr
    have p1 : (1 - F.eps) ^ (n + k) ≤ (1 - F.eps) ^ n :=
      pow_le_pow_of_le_one (by linarith) (by linarith) (by omega)
    have p2 : (1 - F.eps) ^ (n + k) ≤ (1 - F.eps) ^ k :=
      pow_le_pow_of_le_one (by linarith) (by linarith) (by omega)
    have p3 : (1 + F.eps) ^ n ≤ (1 + F.eps) ^ (n + k) :=
      pow_le_pow_right₀ (by linarith) (by omega)
    have p4 : (1 + F.eps) ^ k ≤ (1 + F.eps) ^ (n + k) :=
      pow_le_pow_right₀ (by linarith) (by omega)
    have lo : (1 - F.eps) ^ (n + k) * (l.sum + m.sum) ≤ a + b := by
      have := mul_le_mul_of_nonneg_right p1 s1
      have := mul_le_mul_of_nonneg_right p2 s2
      linarith
    have hi : a + b ≤ (1 + F.eps) ^ (n + k) * (l.sum + m.sum) := by
      have := mul_le_mul_of_nonneg_right p3 s1
      have := mul_le_mul_of_nonneg_right p4 s2
      linarith
    constructor
    · have := mul_le_mul_of_nonneg_left lo (by linarith : 0 ≤ 1 - F.eps)
      nlinarith [hr.1]
    · have := mul_le_mul_of_nonneg_left hi (by linarith : 0 ≤ 1 + F.eps)
      nlinarith [hr.2]
  | perm hp _ h =>
    rw [← hp.sum_eq, ← hp.length_eq]
    exact h (fun x hx => hl x (hp.mem_iff.mp hx))

/-! ## Orders of summation -/

theorem addFrom_isFSum (F : Fmt) {l m : List ℚ} {a : ℚ} (hl : l ≠ []) (h : IsFSum F l a) :
    IsFSum F (l ++ m) (addFrom F a m) := by
  induction m generalizing l a with
  | nil => rw [List.append_nil]; exact h
  | cons x m ih =>
    have := ih (l := l ++ [x]) (a := F.rnd (a + x)) (by simp)
      (IsFSum.add hl (by simp) h (IsFSum.one x))
    rw [List.append_assoc] at this
    exact this

theorem seqSum_isFSum (F : Fmt) (l : List ℚ) : IsFSum F l (seqSum F l) := by
  cases l with
  | nil => exact IsFSum.nil
  | cons x l => exact addFrom_isFSum F (l := [x]) (by simp) (IsFSum.one x)

/-- Left to right summation. -/
def seqSummer (F : Fmt) : Summer F := ⟨seqSum F, seqSum_isFSum F⟩

theorem filter_lt_perm {α : Type*} (key : α → ℕ) (l : List α) (k : ℕ) :
    (l.filter (fun x => decide (key x < k))).Perm
      ((List.range k).flatMap (fun j => l.filter (fun x => decide (key x = j)))) := by
  induction k with
  | zero => simp
  | succ k ih =>
    rw [List.range_succ, List.flatMap_append, List.flatMap_singleton]
    have h := List.filter_append_perm (fun x => decide (key x < k))
      (l.filter (fun x => decide (key x < k + 1)))
    rw [List.filter_filter, List.filter_filter] at h
    refine h.symm.trans ?_
    have e1 : l.filter (fun a => decide (key a < k) && decide (key a < k + 1)) =
        l.filter (fun a => decide (key a < k)) := by
      apply List.filter_congr
      intro x _
      by_cases hx : key x < k
      · simp [hx]; omega
      · simp [hx]
    have e2 : l.filter (fun a => (!decide (key a < k)) && decide (key a < k + 1)) =
        l.filter (fun a => decide (key a = k)) := by
      apply List.filter_congr
      intro x _
      rw [← decide_not, ← Bool.decide_and]
      apply decide_eq_decide.mpr
      omega
    rw [e1, e2]
    exact ih.append_right _

theorem pairSum_isFSum (F : Fmt) (l : List ℚ) : IsFSum F l (pairSum F l) := by
  unfold pairSum
  split_ifs with h
  · exact seqSum_isFSum F l
  push Not at h
  simp only
  set m := l.length - l.length % 8 with hm
  have hm8 : 8 ≤ m := by omega
  have hml : m ≤ l.length := by omega
  set Z := (l.take m).zipIdx with hZ
  set C : ℕ → List ℚ := fun j => (Z.filter (fun p => decide (p.2 % 8 = j))).map (fun p => p.1) with hC
  have hne : ∀ j, j < 8 → C j ≠ [] := by
    intro j hj
    have hjl : j < (l.take m).length := by rw [List.length_take]; omega
    have : ((l.take m)[j], j) ∈ Z := by
      rw [hZ, List.mem_zipIdx_iff_getElem?, List.getElem?_eq_getElem hjl]
    have h2 : (l.take m)[j] ∈ C j :=
      List.mem_map.mpr ⟨_, List.mem_filter.mpr ⟨this, by simp; omega⟩, rfl⟩
    intro h0
    rw [h0] at h2
    cases h2
  have hs : ∀ j, IsFSum F (C j) (seqSum F (C j)) := fun j => seqSum_isFSum F _
  have hperm : ((List.range 8).flatMap C).Perm (l.take m) := by
    have h1 := filter_lt_perm (fun p : ℚ × ℕ => p.2 % 8) Z 8
    have h2 : Z.filter (fun p => decide (p.2 % 8 < 8)) = Z := by
      apply List.filter_eq_self.mpr
      intro p _
      simp only [decide_eq_true_eq]
      omega
    rw [h2] at h1
    have h3 := h1.map (fun p => p.1)
    rw [hZ, List.zipIdx_map_fst, ← hZ, List.map_flatMap] at h3
    exact h3.symm
  have hflat : (List.range 8).flatMap C =
      (((C 0 ++ C 1) ++ (C 2 ++ C 3)) ++ ((C 4 ++ C 5) ++ (C 6 ++ C 7))) := by
    simp [List.range_succ]
  have n0 := hne 0 (by norm_num)
  have n2 := hne 2 (by norm_num)
  have n4 := hne 4 (by norm_num)
  have n6 := hne 6 (by norm_num)
  have tree := IsFSum.add (by simp [n0]) (by simp [n4])
    (IsFSum.add (by simp [n0]) (by simp [n2])
      (IsFSum.add n0 (hne 1 (by norm_num)) (hs 0) (hs 1))
      (IsFSum.add n2 (hne 3 (by norm_num)) (hs 2) (hs 3)))
    (IsFSum.add (by simp [n4]) (by simp [n6])
      (IsFSum.add n4 (hne 5 (by norm_num)) (hs 4) (hs 5))
      (IsFSum.add n6 (hne 7 (by norm_num)) (hs 6) (hs 7)))
  rw [← hflat] at tree
  have htake : l.take m ≠ [] := by
    intro h0
    have : (l.take m).length = 0 := by rw [h0]; rfl
    rw [List.length_take] at this
    omega
  have := addFrom_isFSum F (m := l.drop m) htake (IsFSum.perm hperm tree)
  rw [List.take_append_drop] at this
  exact this

/-- NumPy's pairwise summation. -/
def pairSummer (F : Fmt) : Summer F := ⟨pairSum F, pairSum_isFSum F⟩

theorem Summer.exact (s : Summer exactFmt) (l : List ℚ) : s.sum l = l.sum := (s.isSum l).exact

/-! ## Running totals -/

theorem cumsumFromF_exact (acc : ℚ) (l : List ℚ) : cumsumFromF exactFmt acc l = cumsumFrom acc l := by
  induction l generalizing acc with
  | nil => rfl
  | cons x l ih => simp only [cumsumFromF, cumsumFrom, exactFmt_rnd, ih]

theorem cumsumF_exact (l : List ℚ) : cumsumF exactFmt l = cumsum l := cumsumFromF_exact 0 l

theorem cumsumFromF_length (F : Fmt) (acc : ℚ) (l : List ℚ) : (cumsumFromF F acc l).length = l.length := by
  induction l generalizing acc with
  | nil => rfl
  | cons x l ih => simp [cumsumFromF, ih]

theorem le_cumsumFromF (F : Fmt) {acc : ℚ} (ha : F.Rep acc) {l : List ℚ} (hl : ∀ x ∈ l, 0 ≤ x) :
    ∀ y ∈ cumsumFromF F acc l, acc ≤ y := by
  induction l generalizing acc with
  | nil => intro y hy; cases hy
  | cons x l ih =>
    intro y hy
    have h0 : acc ≤ F.rnd (acc + x) := F.le_rnd ha (by linarith [hl x List.mem_cons_self])
    rcases List.mem_cons.mp hy with rfl | hy
    · exact h0
    · exact h0.trans (ih (F.rep_rnd _) (fun z hz => hl z (List.mem_cons_of_mem _ hz)) y hy)

theorem cumsumFromF_sorted (F : Fmt) (acc : ℚ) {l : List ℚ} (hl : ∀ x ∈ l, 0 ≤ x) :
    (cumsumFromF F acc l).Pairwise (fun a b => a ≤ b) := by
  induction l generalizing acc with
  | nil => exact List.Pairwise.nil
  | cons x l ih =>
    have hl' : ∀ z ∈ l, 0 ≤ z := fun z hz => hl z (List.mem_cons_of_mem _ hz)
    exact List.pairwise_cons.mpr ⟨le_cumsumFromF F (F.rep_rnd _) hl', ih _ hl'⟩

end PyMarket
