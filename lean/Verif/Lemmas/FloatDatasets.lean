import Verif.Model.FloatDatasets
import Verif.Spec.FloatDatasets
import Verif.Props.Datasets
import Verif.Lemmas.Ieee
import Verif.Lemmas.Merge

/-! # Lemmas about the bid generator in floating point arithmetic -/

set_option autoImplicit false

namespace PyMarket

open Spec

theorem chooseFrom_some (ch : Chooser) (call : ℕ) {l : List ℚ} {q : ℕ} (hq : q ≤ l.length) :
    ∃ xs, chooseFrom ch call l q = .ok xs ∧ xs.length = q ∧ (∀ x ∈ xs, x ∈ l) ∧ (l.Nodup → xs.Nodup) :=
  ⟨takeIdx l (ch.pick call l.length q), if_pos hq,
    by rw [takeIdx_length (ch.lt _ _ _ hq), ch.length_eq _ _ _ hq], fun _ hx => takeIdx_mem hx,
    fun hl => takeIdx_nodup hl (ch.nodup _ _ _ hq)⟩

theorem arange01F_length (F : Arith) (eps : ℚ) : (arange01F F eps).length = ⌈F.rnd (1 / eps)⌉₊ := by
  simp [arange01F]

theorem mem_arange01F {F : Fmt} {eps x : ℚ} : x ∈ arange01F F eps ↔ OnGrid F eps x := by
  unfold arange01F OnGrid
  simp only [List.mem_map, List.mem_range, Nat.lt_ceil]
  constructor
  · rintro ⟨k, h, rfl⟩; exact ⟨k, h, rfl⟩
  · rintro ⟨k, h, rfl⟩; exact ⟨k, h, rfl⟩

theorem Fmt.rnd_half (F : Fmt) (x : ℚ) : F.rnd (x / 2) = F.rnd x / 2 := by
  have := F.double (x / 2)
  rw [mul_div_cancel₀ x (by norm_num : (2 : ℚ) ≠ 0)] at this
  linarith

theorem Fmt.le_err (F : Fmt) {x : ℚ} (hx : 0 ≤ x) : F.rnd x ≤ (1 + F.eps) * x := by
  have := F.err x
  rw [abs_of_nonneg hx, abs_le] at this
  linarith

theorem Fmt.ge_err (F : Fmt) {x : ℚ} (hx : 0 ≤ x) : (1 - F.eps) * x ≤ F.rnd x := by
  have := F.err x
  rw [abs_of_nonneg hx, abs_le] at this
  linarith

theorem adjustEpsF_ok (F : Fmt) (hF : F.eps ≤ 1 / 8) (nb ns : ℕ) {eps : ℚ}
    (he : 0 < eps ∨ eps < 0 ∧ 0 < max nb ns) :
    adjustEpsF F nb ns eps = .ok (gridStepF F nb ns eps) ∧ 0 < gridStepF F nb ns eps ∧
      max nb ns ≤ ⌈F.rnd (1 / gridStepF F nb ns eps)⌉₊ := by
  unfold adjustEpsF gridStepF
  rw [if_neg (by rcases he with h | h; exacts [h.ne', h.1.ne])]
  by_cases h : F.rnd (1 / eps) < ((max nb ns : ℕ) : ℚ)
  · have hpos : (0 : ℚ) < ((max nb ns : ℕ) : ℚ) := by
      rcases he with he | he
      · exact lt_of_le_of_lt (F.rnd_nonneg (by positivity)) h
      · exact_mod_cast he.2
    have h0 : max nb ns ≠ 0 := by
      intro h0; rw [h0] at hpos; simp at hpos
    rw [if_pos h, if_neg h0, if_neg (not_le.mpr h)]
    set n : ℚ := ((max nb ns : ℕ) : ℚ) with hn
    have hr : 0 < F.rnd (1 / n) := F.rnd_pos (by positivity)
    refine ⟨?_, by positivity, ?_⟩
    · rw [F.rnd_half, F.idem]
    · apply Nat.cast_le (α := ℚ).mp
      refine le_trans ?_ (Nat.le_ceil _)
      rw [← hn, show 1 / (F.rnd (1 / n) / 2) = 2 * (1 / F.rnd (1 / n)) by field_simp, F.double]
      have h1 : F.rnd (1 / n) ≤ (1 + F.eps) * (1 / n) := F.le_err (by positivity)
      have he0 := F.eps_nonneg
      have h2 : n / (1 + F.eps) ≤ 1 / F.rnd (1 / n) := by
        rw [div_le_div_iff₀ (by linarith) hr]
        calc n * F.rnd (1 / n) ≤ n * ((1 + F.eps) * (1 / n)) := mul_le_mul_of_nonneg_left h1 hpos.le
          _ = 1 * (1 + F.eps) := by field_simp
      have h3 := F.ge_err (x := 1 / F.rnd (1 / n)) (by positivity)
      have h4 : (1 - F.eps) * (n / (1 + F.eps)) ≤ (1 - F.eps) * (1 / F.rnd (1 / n)) :=
        mul_le_mul_of_nonneg_left h2 (by linarith)
      have h5 : n / 2 ≤ (1 - F.eps) * (n / (1 + F.eps)) := by
        rw [mul_div_assoc', div_le_div_iff₀ (by norm_num) (by linarith)]
        nlinarith
      linarith
  · have he : 0 < eps := by
      rcases he with he | he
      · exact he
      · refine absurd (lt_of_le_of_lt (F.rnd_nonpos (one_div_neg.mpr he.1).le) ?_) h
        exact_mod_cast he.2
    rw [if_neg h, if_pos (not_lt.mp h)]
    refine ⟨rfl, he, ?_⟩
    apply Nat.cast_le (α := ℚ).mp
    exact le_trans (not_lt.mp h) (Nat.le_ceil _)

/-- Neighbouring points of the grid stay apart. -/
theorem grid_lt (F : Fmt) {s : ℚ} (hs : 4 * F.eps ≤ s) (hs0 : 0 < s) {j k : ℕ} (hjk : j < k)
    (hk : (k : ℚ) < F.rnd (1 / s)) : F.rnd (j * s) < F.rnd (k * s) := by
  have he0 := F.eps_nonneg
  have he1 := F.eps_lt
  have h1 := F.le_err (x := (j : ℚ) * s) (by positivity)
  have h2 := F.ge_err (x := (k : ℚ) * s) (by positivity)
  have h3 := F.le_err (x := 1 / s) (by positivity)
  have hjk' : (j : ℚ) + 1 ≤ k := by exact_mod_cast hjk
  have h4 : (k : ℚ) * s < 1 + F.eps := by
    have : (k : ℚ) < (1 + F.eps) * (1 / s) := lt_of_lt_of_le hk h3
    rw [mul_one_div, lt_div_iff₀ hs0] at this
    exact this
  have h5 : (1 + F.eps) * (j * s) ≤ (1 + F.eps) * ((k - 1) * s) :=
    mul_le_mul_of_nonneg_left (mul_le_mul_of_nonneg_right (by linarith) hs0.le) (by linarith)
  have h6 : (1 + F.eps) * ((k - 1) * s) < (1 - F.eps) * (k * s) := by
    rcases he0.eq_or_lt with h0 | h0
    · rw [← h0]; nlinarith
    · have : F.eps * (2 * (k * s)) < F.eps * (2 * (1 + F.eps)) := mul_lt_mul_of_pos_left (by linarith) h0
      nlinarith
  linarith

theorem arange01F_nodup (F : Fmt) {s : ℚ} (hs : 4 * F.eps ≤ s) (hs0 : 0 < s) : (arange01F F s).Nodup := by
  unfold arange01F
  rw [List.Nodup, List.pairwise_map]
  apply List.Pairwise.imp_of_mem _ (List.pairwise_lt_range)
  intro j k _ hk hjk
  exact (grid_lt F hs hs0 hjk (Nat.lt_ceil.1 (List.mem_range.1 hk))).ne

/-- Shifted neighbours stay apart if the offset is not too large. -/
theorem shifted_lt (F : Fmt) (hF : F.eps ≤ 1 / 8) {s o : ℚ} (hs : F.eps * (2 * |o| + 5) < s) {j k : ℕ} (hjk : j < k)
    (hk : (k : ℚ) < F.rnd (1 / s)) : F.rnd (F.rnd (j * s) + o) < F.rnd (F.rnd (k * s) + o) := by
  have he0 := F.eps_nonneg
  have ho := abs_nonneg o
  have hs0 : 0 < s := lt_of_le_of_lt (by positivity) hs
  have h3 := F.le_err (x := 1 / s) (by positivity)
  have hjk' : (j : ℚ) + 1 ≤ k := by exact_mod_cast hjk
  have h4 : (k : ℚ) * s < 1 + F.eps := by
    have : (k : ℚ) < (1 + F.eps) * (1 / s) := lt_of_lt_of_le hk h3
    rw [mul_one_div, lt_div_iff₀ hs0] at this
    exact this
  have hjs : (j : ℚ) * s ≤ k * s - s := by nlinarith
  have hj0 : 0 ≤ (j : ℚ) * s := by positivity
  have hk0 : 0 ≤ (k : ℚ) * s := by positivity
  set x := F.rnd (j * s)
  set y := F.rnd (k * s)
  have x1 : x ≤ (1 + F.eps) * (j * s) := F.le_err hj0
  have y1 : (1 - F.eps) * (k * s) ≤ y := F.ge_err hk0
  have y2 : y ≤ (1 + F.eps) * (k * s) := F.le_err hk0
  have x0 : 0 ≤ x := F.rnd_nonneg hj0
  have y0 : 0 ≤ y := F.rnd_nonneg hk0
  have ex := F.err (x + o)
  have ey := F.err (y + o)
  have ax : |x + o| ≤ x + |o| := by
    refine (abs_add_le _ _).trans ?_
    rw [abs_of_nonneg x0]
  have ay : |y + o| ≤ y + |o| := by
    refine (abs_add_le _ _).trans ?_
    rw [abs_of_nonneg y0]
  have ex' : F.rnd (x + o) ≤ x + o + F.eps * (x + |o|) := by
    have := (abs_le.1 ex).2
    have := mul_le_mul_of_nonneg_left ax he0
    linarith
  have ey' : y + o - F.eps * (y + |o|) ≤ F.rnd (y + o) := by
    have := (abs_le.1 ey).1
    have := mul_le_mul_of_nonneg_left ay he0
    linarith
  have hx2 : x ≤ 5 / 4 := by nlinarith
  have hy2 : y ≤ 5 / 4 + 1 / 16 := by nlinarith
  have hgap : s - F.eps * (9 / 4) ≤ y - x := by
    have : F.eps * (j * s + k * s) ≤ F.eps * (9 / 4) := mul_le_mul_of_nonneg_left (by linarith) he0
    nlinarith
  have h1 : F.eps * (x + |o|) ≤ F.eps * (5 / 4 + |o|) := mul_le_mul_of_nonneg_left (by linarith) he0
  have h2 : F.eps * (y + |o|) ≤ F.eps * (5 / 4 + 1 / 16 + |o|) := mul_le_mul_of_nonneg_left (by linarith) he0
  nlinarith

/-! ## float64 -/

/-- In the binade of `x`, rounding moves a number by at most half a unit. -/
theorem roundBin_half_ulp (p : ℕ) (x : ℚ) :
    |roundBin p x - x| ≤ (2 : ℚ) ^ (Int.log 2 |x| - ((p : ℤ) - 1)) / 2 := by
  unfold roundBin
  simp only
  set u : ℚ := (2 : ℚ) ^ (Int.log 2 |x| - ((p : ℤ) - 1)) with hu
  have hu0 : 0 < u := two_zpow_pos _
  have h := rint_near (x / u)
  have : |(rint (x / u) : ℚ) * u - x| = |(rint (x / u) : ℚ) - x / u| * u := by
    rw [← abs_of_pos hu0, ← abs_mul, abs_of_pos hu0]
    congr 1
    field_simp
  rw [this]
  nlinarith

/-- Numbers of `[1/2, 1)` that are more than a quarter of the last place away from 1 are not rounded up to 1. -/
theorem float64_lt_one {x : ℚ} (h0 : 0 ≤ x) (h : x < 1 - 1 / 2 ^ 54) : float64.rnd x < 1 := by
  rcases lt_or_ge x (1 / 2) with hx | hx
  · have h1 := float64.mono x (1 / 2) hx.le
    have h2 : float64.rnd (1 / 2) = 1 / 2 := float64.rep_half float64.rep_one
    linarith
  · have hlog : Int.log 2 |x| = -1 := by
      rw [abs_of_nonneg h0]
      apply le_antisymm
      · rw [← Int.lt_add_one_iff]
        refine (Int.lt_zpow_iff_log_lt (b := 2) (by norm_num) (by linarith)).mp ?_
        norm_num
        have : (0 : ℚ) < 1 / 2 ^ 54 := by positivity
        linarith
      · refine (Int.zpow_le_iff_le_log (b := 2) (by norm_num) (by linarith)).mp ?_
        norm_num
        linarith
    have hu := roundBin_half_ulp 53 x
    rw [hlog] at hu
    have e : (2 : ℚ) ^ (-1 - (((53 : ℕ) : ℤ) - 1)) / 2 = 1 / 2 ^ 54 := by norm_num
    rw [e, ← float64_rnd, abs_le] at hu
    linarith [hu.2]

/-- A number that is rounded above the natural number `i` is at least half a last place above it. -/
theorem float64_gt_nat {y : ℚ} {i e : ℕ} (hi : 2 ^ e ≤ i) (hi' : i < 2 ^ (e + 1)) (he : e ≤ 52)
    (h : (i : ℚ) < float64.rnd y) : (i : ℚ) + (2 : ℚ) ^ ((e : ℤ) - 53) ≤ y := by
  have hrep : float64.rnd (i : ℚ) = i := by
    have h1 := rep_nat_zpow i (le_trans hi'.le (Nat.pow_le_pow_right (by norm_num) (by omega))) 0
    simpa using h1
  have hiy : (i : ℚ) < y := by
    by_contra hc
    have := float64.mono y i (not_lt.mp hc)
    rw [hrep] at this
    linarith
  by_contra hc
  push Not at hc
  have hi0 : (2 : ℚ) ^ (e : ℤ) ≤ i := by
    rw [zpow_natCast]; exact_mod_cast hi
  have hi1 : (i : ℚ) + 1 ≤ 2 ^ ((e : ℤ) + 1) := by
    rw [show ((e : ℤ) + 1) = ((e + 1 : ℕ) : ℤ) by push_cast; ring, zpow_natCast]
    exact_mod_cast hi'
  have hy0 : 0 < y := lt_of_le_of_lt (by positivity) hiy
  have hle : (2 : ℚ) ^ ((e : ℤ) - 53) ≤ 1 := zpow_le_one_of_nonpos₀ (by norm_num) (by omega)
  have hlog : Int.log 2 |y| = e := by
    rw [abs_of_pos hy0]
    apply le_antisymm
    · rw [← Int.lt_add_one_iff]
      refine (Int.lt_zpow_iff_log_lt (b := 2) (by norm_num) hy0).mp ?_
      push_cast
      linarith
    · refine (Int.zpow_le_iff_le_log (b := 2) (by norm_num) hy0).mp ?_
      push_cast
      linarith
  have hrnd : float64.rnd y = i := by
    rw [float64_rnd]
    unfold roundBin
    simp only [hlog]
    rw [show (e : ℤ) - (((53 : ℕ) : ℤ) - 1) = (e : ℤ) - 52 by norm_num]
    have hu0 : (0 : ℚ) < 2 ^ ((e : ℤ) - 52) := two_zpow_pos _
    obtain ⟨d, hd⟩ := Nat.exists_eq_add_of_le he
    have hinv : (2 : ℚ) ^ ((e : ℤ) - 52) = 1 / 2 ^ d := by
      rw [show (e : ℤ) - 52 = -(d : ℤ) by omega, zpow_neg, zpow_natCast, one_div]
    have hhalf : (2 : ℚ) ^ ((e : ℤ) - 53) = 2 ^ ((e : ℤ) - 52) / 2 := by
      rw [show (e : ℤ) - 53 = (e : ℤ) - 52 - 1 by ring, zpow_sub_one₀ (by norm_num)]
      ring
    rw [hhalf] at hc
    have hz : ((i * 2 ^ d : ℕ) : ℤ) = rint (y / 2 ^ ((e : ℤ) - 52)) := by
      have hclose : |(((i * 2 ^ d : ℕ) : ℤ) : ℚ) - y / 2 ^ ((e : ℤ) - 52)| < 1 / 2 := by
        have : (((i * 2 ^ d : ℕ) : ℤ) : ℚ) - y / 2 ^ ((e : ℤ) - 52) = (i - y) / 2 ^ ((e : ℤ) - 52) := by
          rw [hinv]; push_cast; field_simp
        rw [this, abs_div, abs_of_pos hu0, abs_sub_comm, abs_of_pos (by linarith), div_lt_div_iff₀ hu0 (by norm_num)]
        linarith
      exact (rint_unique hclose.le (fun h => absurd h hclose.ne)).symm
    rw [← hz, hinv]
    push_cast
    field_simp
  linarith

/-- The points of the rounded grid are below 1. -/
theorem float64_grid_lt_one {s x : ℚ} (hs : 1 / 2 ^ 52 ≤ s) (hx : OnGrid float64 s x) : 0 ≤ x ∧ x < 1 := by
  have hs0 : 0 < s := lt_of_lt_of_le (by positivity) hs
  obtain ⟨i, hi, rfl⟩ := hx
  refine ⟨float64.rnd_nonneg (by positivity), ?_⟩
  rcases Nat.eq_zero_or_pos i with rfl | hpos
  · simp [float64.rnd_zero]
  have hle : 1 / s ≤ 2 ^ 52 := by
    rw [div_le_iff₀ hs0]
    rw [div_le_iff₀ (by positivity)] at hs
    linarith
  have h52 : float64.rnd ((2 : ℚ) ^ 52) = 2 ^ 52 := by
    have := rep_nat_zpow (2 ^ 52) (by norm_num) 0
    norm_num at this ⊢
    exact this
  have hi52 : i < 2 ^ 52 := by
    have h1 := float64.mono _ _ hle
    rw [h52] at h1
    have : (i : ℚ) < 2 ^ 52 := lt_of_lt_of_le hi h1
    exact_mod_cast this
  have hlog1 : 2 ^ Nat.log 2 i ≤ i := Nat.pow_log_le_self 2 hpos.ne'
  have hlog2 : i < 2 ^ (Nat.log 2 i + 1) := Nat.lt_pow_succ_log_self (by norm_num) i
  have hlog3 : Nat.log 2 i < 52 := Nat.log_lt_of_lt_pow hpos.ne' hi52
  apply float64_lt_one (by positivity)
  rcases le_or_gt ((i : ℚ) + 1) (1 / s) with h | h
  · have h1 : ((i : ℚ) + 1) * s ≤ 1 := by rwa [le_div_iff₀ hs0] at h
    have h2 : (1 : ℚ) / 2 ^ 54 < 1 / 2 ^ 52 := by norm_num
    linarith
  · have h1 := float64_gt_nat hlog1 hlog2 hlog3.le hi
    rw [div_lt_iff₀ hs0] at h
    rw [le_div_iff₀ hs0] at h1
    have h2 : (i : ℚ) + 1 ≤ 2 ^ (Nat.log 2 i + 1) := by exact_mod_cast hlog2
    have h3 : (1 : ℚ) < 2 ^ (Nat.log 2 i + 1) * s := lt_of_lt_of_le h (mul_le_mul_of_nonneg_right h2 hs0.le)
    have h4 : (2 : ℚ) ^ ((Nat.log 2 i : ℤ) - 53) = 2 ^ (Nat.log 2 i + 1) * (1 / 2 ^ 54) := by
      rw [show ((Nat.log 2 i : ℤ) - 53) = ((Nat.log 2 i + 1 : ℕ) : ℤ) - 54 by push_cast; ring,
        zpow_sub₀ (by norm_num), zpow_natCast]
      rw [div_eq_mul_one_div]
      norm_num
    rw [add_mul, h4] at h1
    nlinarith

end PyMarket
