import Verif.Lemmas.Float
import Verif.Model.FloatStats
import Verif.Lemmas.Accounting

/-! # Errors of sums of numbers of any sign, and of the compensated sum -/

set_option autoImplicit false

namespace PyMarket

open Spec

/-- The sum of the absolute values. -/
def Spec.absSum (l : List ℚ) : ℚ := (l.map (fun x => |x|)).sum

/-- `sum` adds up lists of at most `N` entries with an error of at most `K n` times the sum of the
absolute values, where `n` is the number of entries. -/
def Spec.Accurate (K : ℕ → ℚ) (N : ℕ) (sum : List ℚ → ℚ) : Prop :=
  ∀ l : List ℚ, l.length ≤ N → |sum l - l.sum| ≤ K l.length * absSum l

/-- `sum` does not turn non-negative numbers into a negative one. -/
def Spec.KeepsSign (N : ℕ) (sum : List ℚ → ℚ) : Prop :=
  ∀ l : List ℚ, l.length ≤ N → (∀ x ∈ l, 0 ≤ x) → 0 ≤ sum l

theorem absSum_nonneg (l : List ℚ) : 0 ≤ absSum l := by
  apply List.sum_nonneg
  intro y hy
  obtain ⟨x, _, rfl⟩ := List.mem_map.mp hy
  exact abs_nonneg x

theorem absSum_of_nonneg {l : List ℚ} (h : ∀ x ∈ l, 0 ≤ x) : absSum l = l.sum := by
  unfold absSum
  congr 1
  conv_rhs => rw [← List.map_id l]
  apply List.map_congr_left
  intro x hx
  exact abs_of_nonneg (h x hx)

theorem abs_sum_le (l : List ℚ) : |l.sum| ≤ absSum l := by
  induction l with
  | nil => simp [absSum]
  | cons x l ih =>
    simp only [absSum, List.map_cons, List.sum_cons] at ih ⊢
    exact (abs_add_le _ _).trans (by linarith)

theorem absSum_append (l m : List ℚ) : absSum (l ++ m) = absSum l + absSum m := by
  simp [absSum]

/-- The error of a rounded sum of any numbers. -/
theorem IsFSum.err_abs {F : Fmt} {l : List ℚ} {v : ℚ} (h : IsFSum F l v) :
    |v - l.sum| ≤ ((1 + F.eps) ^ (l.length - 1) - 1) * absSum l := by
  have e0 := F.eps_nonneg
  induction h with
  | nil => simp [absSum]
  | one x => simp
  | @add l m a b hne1 hne2 ha hb i1 i2 =>
    rw [List.sum_append, List.length_append, absSum_append]
    obtain ⟨n, hn⟩ : ∃ n, l.length = n + 1 := ⟨l.length - 1, by
      have := List.length_pos_of_ne_nil hne1; omega⟩
    obtain ⟨k, hk⟩ : ∃ k, m.length = k + 1 := ⟨m.length - 1, by
      have := List.length_pos_of_ne_nil hne2; omega⟩
    rw [hn, Nat.add_sub_cancel] at i1
    rw [hk, Nat.add_sub_cancel] at i2
    have he : l.length + m.length - 1 = n + k + 1 := by omega
    rw [he, pow_succ]
    have s1 := absSum_nonneg l
    have s2 := absSum_nonneg m
    have p1 : (1 + F.eps) ^ n ≤ (1 + F.eps) ^ (n + k) := pow_le_pow_right₀ (by linarith) (by omega)
    have p2 : (1 + F.eps) ^ k ≤ (1 + F.eps) ^ (n + k) := pow_le_pow_right₀ (by linarith) (by omega)
    have j1 := mul_le_mul_of_nonneg_right p1 s1
    have j2 := mul_le_mul_of_nonneg_right p2 s2
    have hr := F.err (a + b)
    set P := (1 + F.eps) ^ (n + k)
    have hab : |a + b| ≤ P * (absSum l + absSum m) := by
      have h1 := abs_sum_le l
      have h2 := abs_sum_le m
      rw [abs_le] at i1 i2 h1 h2 ⊢
      constructor <;> linarith [i1.1, i1.2, i2.1, i2.2, h1.1, h1.2, h2.1, h2.2]
    have h3 : |F.rnd (a + b) - (a + b)| ≤ F.eps * (P * (absSum l + absSum m)) :=
      hr.trans (mul_le_mul_of_nonneg_left hab e0)
    rw [abs_le] at h3 i1 i2 ⊢
    constructor
    · nlinarith [h3.1, i1.1, i2.1]
    · nlinarith [h3.2, i1.2, i2.2]
  | @perm l m a hp _ h =>
    have : absSum m = absSum l := ((hp.map _).sum_eq).symm
    rw [← hp.sum_eq, ← hp.length_eq, this]
    exact h

/-- Any order of summation is accurate. -/
theorem Summer.accurate {F : Fmt} (s : Summer F) (N : ℕ) :
    Accurate (fun n => (1 + F.eps) ^ (n - 1) - 1) N s.sum := fun l _ => (s.isSum l).err_abs

theorem Summer.keepsSign {F : Fmt} (s : Summer F) (N : ℕ) : KeepsSign N s.sum :=
  fun l _ h => (s.isSum l).nonneg h

theorem seqSum_accurate (F : Fmt) (N : ℕ) :
    Accurate (fun n => (1 + F.eps) ^ (n - 1) - 1) N (seqSum F) := fun l _ => (seqSum_isFSum F l).err_abs

theorem seqSum_keepsSign (F : Fmt) (N : ℕ) : KeepsSign N (seqSum F) :=
  fun l _ h => (seqSum_isFSum F l).nonneg h

/-! ## The compensated sum -/

theorem kahan_step (F : Fmt) (he : F.eps ≤ 1 / 64) {s c x A : ℚ} (hA : 0 ≤ A) (hs : |s| ≤ 2 * A)
    (hc : |c| ≤ 8 * (F.eps * A)) :
    |(kahanStep F (s, c) x).2| ≤ 8 * (F.eps * (A + |x|)) ∧
    |(kahanStep F (s, c) x).1 - (kahanStep F (s, c) x).2 - (s - c + x)| ≤
      3 * (F.eps * |x|) + 40 * (F.eps * F.eps * (A + |x|)) := by
  set e := F.eps with hedef
  have e0 : 0 ≤ e := F.eps_nonneg
  unfold kahanStep
  simp only
  set X := |x| with hX
  have hX0 : 0 ≤ X := abs_nonneg x
  have hxX := le_abs_self x
  have hxX' := neg_abs_le x
  have hy := F.err (x - c)
  set y := F.rnd (x - c) with hyd
  have hw := F.err (s + y)
  set t := F.rnd (s + y) with htd
  have hd := F.err (t - s)
  set d := F.rnd (t - s) with hdd
  have hc' := F.err (d - y)
  set c' := F.rnd (d - y) with hcd
  have eA0 : 0 ≤ e * A := mul_nonneg e0 hA
  have eA : e * A ≤ A / 64 := by nlinarith
  set P := X + 8 * (e * A) with hP
  have hP0 : 0 ≤ P := by linarith
  have eP0 : 0 ≤ e * P := mul_nonneg e0 hP0
  have eP : e * P ≤ P / 64 := by nlinarith
  have a1 : |x - c| ≤ P := (abs_sub _ _).trans (by linarith)
  have a2 : |y - (x - c)| ≤ e * P := hy.trans (mul_le_mul_of_nonneg_left a1 e0)
  have a3 : |y| ≤ P + e * P := by
    have : y = (x - c) + (y - (x - c)) := by ring
    rw [this]
    exact (abs_add_le _ _).trans (add_le_add a1 a2)
  set W := 3 * (A + X) with hW
  have hW0 : 0 ≤ W := by linarith
  have a4 : |s + y| ≤ W := (abs_add_le _ _).trans (by linarith)
  have a5 : |t - (s + y)| ≤ e * W := hw.trans (mul_le_mul_of_nonneg_left a4 e0)
  have eW : e * W ≤ W / 64 := by nlinarith
  have a6 : |t - s| ≤ P + e * P + e * W := by
    have : t - s = y + (t - (s + y)) := by ring
    rw [this]
    exact (abs_add_le _ _).trans (add_le_add a3 a5)
  have a7 : |d - (t - s)| ≤ e * (P + e * P + e * W) := hd.trans (mul_le_mul_of_nonneg_left a6 e0)
  have a8 : |d - y| ≤ e * (P + e * P + e * W) + e * W := by
    have : d - y = (d - (t - s)) + (t - (s + y)) := by ring
    rw [this]
    exact (abs_add_le _ _).trans (add_le_add a7 a5)
  have a9 : |d - y| ≤ 5 * (e * (A + X)) := by
    refine a8.trans ?_
    have : e * (P + e * P + e * W) + e * W = e * (P + e * P + e * W + W) := by ring
    rw [this]
    have h2 : e * (P + e * P + e * W + W) ≤ e * (5 * (A + X)) :=
      mul_le_mul_of_nonneg_left (by linarith) e0
    linarith
  have a10 : |c' - (d - y)| ≤ e * (5 * (e * (A + X))) := hc'.trans (mul_le_mul_of_nonneg_left a9 e0)
  have eAX0 : 0 ≤ e * (A + X) := mul_nonneg e0 (by linarith)
  have eeAX : e * (5 * (e * (A + X))) ≤ 5 * (e * (A + X)) / 64 := by nlinarith
  constructor
  · have : c' = (d - y) + (c' - (d - y)) := by ring
    rw [this]
    refine (abs_add_le _ _).trans ?_
    linarith
  · have : t - c' - (s - c + x) = (y - (x - c)) - (d - (t - s)) - (c' - (d - y)) := by ring
    rw [this]
    refine (abs_sub _ _).trans ?_
    have h1 := abs_sub (y - (x - c)) (d - (t - s))
    have h2 : e * (P + e * P + e * W) ≤ e * (P + P / 64) + e * (e * W) := by
      have := mul_le_mul_of_nonneg_left eP e0
      linarith
    have h3 : e * P = e * X + 8 * (e * e * A) := by rw [hP]; ring
    have h4 : e * (P + P / 64) = (65 / 64) * (e * X + 8 * (e * e * A)) := by rw [hP]; ring
    have h5 : e * (e * W) = 3 * (e * e * (A + X)) := by rw [hW]; ring
    have h6 : e * (5 * (e * (A + X))) = 5 * (e * e * (A + X)) := by ring
    have h7 : e * e * A ≤ e * e * (A + X) := mul_le_mul_of_nonneg_left (by linarith) (mul_nonneg e0 e0)
    have h8 : 0 ≤ e * e * A := mul_nonneg (mul_nonneg e0 e0) hA
    have h9 : 0 ≤ e * X := mul_nonneg e0 hX0
    linarith

theorem kahan_inv (F : Fmt) (he : F.eps ≤ 1 / 64) (l : List ℚ)
    (hn : (l.length : ℚ) * (F.eps * F.eps) ≤ 1 / 80) :
    |(l.foldl (kahanStep F) (0, 0)).2| ≤ 8 * (F.eps * absSum l) ∧
    |(l.foldl (kahanStep F) (0, 0)).1 - (l.foldl (kahanStep F) (0, 0)).2 - l.sum| ≤
      (3 * F.eps + 40 * (l.length * (F.eps * F.eps))) * absSum l := by
  have e0 := F.eps_nonneg
  induction l using List.reverseRecOn with
  | nil => simp [absSum]
  | append_singleton l x ih =>
    have hlen : ((l ++ [x]).length : ℚ) = l.length + 1 := by simp
    rw [hlen] at hn ⊢
    have hee : 0 ≤ F.eps * F.eps := mul_nonneg e0 e0
    have hn' : (l.length : ℚ) * (F.eps * F.eps) ≤ 1 / 80 := by nlinarith
    obtain ⟨i1, i2⟩ := ih hn'
    rw [List.foldl_append]
    simp only [List.foldl_cons, List.foldl_nil]
    set a := l.foldl (kahanStep F) (0, 0)
    have hA := absSum_nonneg l
    have hs : |a.1| ≤ 2 * absSum l := by
      have h1 := abs_sum_le l
      have h2 : (3 * F.eps + 40 * (l.length * (F.eps * F.eps))) * absSum l ≤ (3 / 64 + 40 / 80) * absSum l :=
        mul_le_mul_of_nonneg_right (by linarith) hA
      have h3 : F.eps * absSum l ≤ 1 / 64 * absSum l := mul_le_mul_of_nonneg_right he hA
      have h4 : a.1 = (a.1 - a.2 - l.sum) + (a.2 + l.sum) := by ring
      rw [h4]
      have h5 := abs_add_le (a.1 - a.2 - l.sum) (a.2 + l.sum)
      have h6 := abs_add_le a.2 l.sum
      linarith
    obtain ⟨k1, k2⟩ := kahan_step F he (x := x) hA hs i1
    have hsum : absSum (l ++ [x]) = absSum l + |x| := by rw [absSum_append]; simp [absSum]
    rw [hsum, List.sum_append]
    simp only [List.sum_cons, List.sum_nil, add_zero]
    refine ⟨k1, ?_⟩
    set b := kahanStep F (a.1, a.2) x
    have : b.1 - b.2 - (l.sum + x) = (b.1 - b.2 - (a.1 - a.2 + x)) + (a.1 - a.2 - l.sum) := by ring
    rw [this]
    refine (abs_add_le _ _).trans ?_
    have hx0 := abs_nonneg x
    have hm : 0 ≤ (l.length : ℚ) * (F.eps * F.eps) := by positivity
    nlinarith

/-- The compensated sum: its error is about `11 eps` times the sum of the absolute values, however many
entries there are (up to `1 / (80 eps²)`, about `10^30` in float64). -/
theorem kahanSum_accurate (F : Fmt) (he : F.eps ≤ 1 / 64) (N : ℕ) (hN : (N : ℚ) * (F.eps * F.eps) ≤ 1 / 80) :
    Accurate (fun n => 11 * F.eps + 40 * (n * (F.eps * F.eps))) N (kahanSum F) := by
  intro l hl
  have hl' : (l.length : ℚ) * (F.eps * F.eps) ≤ 1 / 80 :=
    le_trans (mul_le_mul_of_nonneg_right (by exact_mod_cast hl) (mul_nonneg F.eps_nonneg F.eps_nonneg)) hN
  obtain ⟨h1, h2⟩ := kahan_inv F he l hl'
  unfold kahanSum
  set a := l.foldl (kahanStep F) (0, 0)
  have : a.1 - l.sum = (a.1 - a.2 - l.sum) + a.2 := by ring
  rw [this]
  refine (abs_add_le _ _).trans ?_
  linarith

theorem kahanSum_keepsSign (F : Fmt) (he : F.eps ≤ 1 / 64) (N : ℕ)
    (hN : (N : ℚ) * (F.eps * F.eps) ≤ 1 / 80) : KeepsSign N (kahanSum F) := by
  intro l hl hpos
  have h1 := kahanSum_accurate F he N hN l hl
  have hl' : (l.length : ℚ) * (F.eps * F.eps) ≤ 1 / 80 :=
    le_trans (mul_le_mul_of_nonneg_right (by exact_mod_cast hl) (mul_nonneg F.eps_nonneg F.eps_nonneg)) hN
  have hA := absSum_nonneg l
  rw [← absSum_of_nonneg hpos, abs_le] at h1
  have h2 : (11 * F.eps + 40 * (l.length * (F.eps * F.eps))) * absSum l ≤ 1 * absSum l :=
    mul_le_mul_of_nonneg_right (by linarith) hA
  linarith [h1.1]

end PyMarket
