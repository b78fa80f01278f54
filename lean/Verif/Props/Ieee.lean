import Verif.Lemmas.IeeeRun
import Verif.Props.FloatP2P

/-! # C101: the range of float64 -/

set_option autoImplicit false

namespace PyMarket

open Spec

/-- The unit in the last place. -/
theorem ulp_double {x : ℚ} {w : ℚ} (hw : IsDouble w) (h : (2 : ℚ) ^ Int.log 2 |x| ≤ |w|) :
    ∃ n : ℤ, w = (n : ℚ) * (2 : ℚ) ^ max (Int.log 2 |x| - 52) (-1074) := by
  obtain ⟨k, j, hk, hj1, hj2, rfl⟩ := hw
  have hj : max (Int.log 2 |x| - 52) (-1074) ≤ j := by
    refine max_le ?_ hj1
    by_contra hlt
    push Not at hlt
    have h1 : |(k : ℚ) * (2 : ℚ) ^ j| < (2 : ℚ) ^ Int.log 2 |x| := by
      rw [abs_mul, abs_of_pos (two_zpow_pos j)]
      have h2 : |(k : ℚ)| < 2 ^ 53 := by
        rw [← Int.cast_abs]; exact_mod_cast hk
      calc |(k : ℚ)| * (2 : ℚ) ^ j < 2 ^ 53 * (2 : ℚ) ^ j := mul_lt_mul_of_pos_right h2 (two_zpow_pos j)
        _ = (2 : ℚ) ^ (53 + j) := by
          rw [zpow_add₀ (by norm_num), show (53 : ℤ) = ((53 : ℕ) : ℤ) by norm_num, zpow_natCast]
        _ ≤ (2 : ℚ) ^ Int.log 2 |x| := zpow_le_zpow_right₀ (by norm_num) (by omega)
    exact absurd h (not_le.mpr h1)
  obtain ⟨d, hd⟩ := Int.eq_ofNat_of_zero_le (show 0 ≤ j - max (Int.log 2 |x| - 52) (-1074) by omega)
  refine ⟨k * 2 ^ d, ?_⟩
  have : (2 : ℚ) ^ j = 2 ^ d * (2 : ℚ) ^ max (Int.log 2 |x| - 52) (-1074) := by
    rw [← zpow_natCast, ← zpow_add₀ (by norm_num)]
    congr 1
    omega
  rw [this]
  push_cast
  ring

theorem rint_closest (y : ℚ) (n : ℤ) : |(rint y : ℚ) - y| ≤ |(n : ℚ) - y| := by
  by_contra h
  push Not at h
  have h1 := rint_near y
  have hne : n ≠ rint y := by rintro rfl; exact lt_irrefl _ h
  have h2 : (1 : ℚ) ≤ |(n : ℚ) - (rint y : ℚ)| := by
    rw [← Int.cast_sub, ← Int.cast_abs]
    exact_mod_cast Int.one_le_abs (sub_ne_zero.mpr hne)
  have h3 : |(n : ℚ) - (rint y : ℚ)| ≤ |(n : ℚ) - y| + |(rint y : ℚ) - y| := by
    rw [abs_sub_comm (rint y : ℚ) y]
    exact abs_sub_le _ _ _
  linarith

/-- The result of `roundIeee` is closest among the multiples of the last place. -/
theorem ulp_closest (x : ℚ) (u : ℚ) (hu : 0 < u) (n : ℤ) : |(rint (x / u) : ℚ) * u - x| ≤ |(n : ℚ) * u - x| := by
  have h := mul_le_mul_of_nonneg_right (rint_closest (x / u) n) hu.le
  have e : ∀ a : ℚ, |a - x / u| * u = |a * u - x| := by
    intro a
    rw [← abs_of_pos hu, ← abs_mul, abs_of_pos hu, sub_mul, div_mul_cancel₀ _ hu.ne']
  rwa [e, e] at h

/-- **C101** (the rounding) `roundIeee` is the rounding of IEEE 754: its result is a binary64 number, and none is
closer to the exact value. -/
theorem C101_nearest (x v : ℚ) (h : roundIeee x = some v) :
    IsDouble v ∧ ∀ w, IsDouble w → |v - x| ≤ |w - x| := by
  unfold roundIeee at h
  simp only at h
  split at h
  · rename_i hfin
    injection h with hv
    by_cases hx : x = 0
    · subst hx
      have : v = 0 := by rw [← hv]; simp [rint]
      subst this
      exact ⟨⟨0, 0, by norm_num, by norm_num, by norm_num, by norm_num⟩, fun w _ => by simp⟩
    have hxp : 0 < |x| := abs_pos.mpr hx
    have hL1 := Int.zpow_log_le_self (b := 2) (by norm_num) hxp
    have hL2 := Int.lt_zpow_succ_log_self (b := 2) (by norm_num) |x|
    push_cast at hL1 hL2
    set L := Int.log 2 |x| with hL
    set j := max (L - 52) (-1074) with hj
    have hu := two_zpow_pos j
    have hjL : L - 52 ≤ j := le_max_left _ _
    have hj0 : -1074 ≤ j := le_max_right _ _
    rw [hv] at hfin
    constructor
    · have hy : |x / (2 : ℚ) ^ j| ≤ 2 ^ 53 := by
        rw [abs_div, abs_of_pos hu, div_le_iff₀ hu]
        refine hL2.le.trans ?_
        rw [← zpow_natCast, ← zpow_add₀ (by norm_num)]
        exact zpow_le_zpow_right₀ (by norm_num) (by push_cast; omega)
      have hr : |rint (x / (2 : ℚ) ^ j)| ≤ 2 ^ 53 := by
        rw [abs_le] at hy ⊢
        exact ⟨int_le_rint (by push_cast; exact hy.1), rint_le_int (by push_cast; exact hy.2)⟩
      have habs : |v| = |(rint (x / (2 : ℚ) ^ j) : ℚ)| * (2 : ℚ) ^ j := by
        rw [← hv, abs_mul, abs_of_pos hu]
      have hbig : ∀ n : ℕ, (2 : ℚ) ^ n ≤ |(rint (x / (2 : ℚ) ^ j) : ℚ)| → (n : ℤ) + j < 1024 := by
        intro n hn
        have h1 : (2 : ℚ) ^ ((n : ℤ) + j) < (2 : ℚ) ^ ((1024 : ℕ) : ℤ) := by
          rw [zpow_add₀ (by norm_num), zpow_natCast, zpow_natCast]
          refine lt_of_le_of_lt (mul_le_mul_of_nonneg_right hn hu.le) ?_
          rw [← habs]; exact hfin
        have := (zpow_lt_zpow_iff_right₀ (by norm_num : (1 : ℚ) < 2)).mp h1
        exact_mod_cast this
      rcases lt_or_eq_of_le hr with hlt | heq
      · refine ⟨rint (x / (2 : ℚ) ^ j), j, hlt, hj0, ?_, hv.symm⟩
        by_contra hbad
        push Not at hbad
        have hjj : j = L - 52 := by omega
        have hy2 : (2 : ℚ) ^ 52 ≤ |x / (2 : ℚ) ^ j| := by
          rw [abs_div, abs_of_pos hu, le_div_iff₀ hu]
          refine le_trans (le_of_eq ?_) hL1
          rw [← zpow_natCast, ← zpow_add₀ (by norm_num)]
          congr 1
          push_cast
          omega
        have hr2 : (2 : ℚ) ^ 52 ≤ |(rint (x / (2 : ℚ) ^ j) : ℚ)| := by
          rcases le_abs.mp hy2 with h1 | h1
          · have := int_le_rint (x := x / (2 : ℚ) ^ j) (n := 2 ^ 52) (by push_cast; exact h1)
            refine le_trans ?_ (le_abs_self _)
            exact_mod_cast this
          · have := rint_le_int (x := x / (2 : ℚ) ^ j) (n := -(2 ^ 52)) (by push_cast; linarith)
            refine le_trans ?_ (neg_le_abs _)
            have h2 : (rint (x / (2 : ℚ) ^ j) : ℚ) ≤ -(2 ^ 52) := by exact_mod_cast this
            linarith
        have := hbig 52 hr2
        push_cast at this
        omega
      · have h53 : (2 : ℚ) ^ 53 ≤ |(rint (x / (2 : ℚ) ^ j) : ℚ)| := by
          rw [← Int.cast_abs, heq]; norm_num
        have hj1 := hbig 53 h53
        push_cast at hj1
        have e2 : (2 : ℚ) ^ (j + 1) = 2 * (2 : ℚ) ^ j := by rw [zpow_add₀ (by norm_num)]; ring
        rcases (abs_eq (by norm_num)).mp heq with h1 | h1
        · refine ⟨2 ^ 52, j + 1, by norm_num, by omega, by omega, ?_⟩
          rw [← hv, h1, e2]; push_cast; ring
        · refine ⟨-2 ^ 52, j + 1, by norm_num, by omega, by omega, ?_⟩
          rw [← hv, h1, e2]; push_cast; ring
    · intro w hw
      have hmul : ∀ n : ℤ, |v - x| ≤ |(n : ℚ) * (2 : ℚ) ^ j - x| := by
        intro n
        rw [← hv]
        exact ulp_closest x _ hu n
      by_cases hbig : (2 : ℚ) ^ L ≤ |w|
      · obtain ⟨n, hn⟩ := ulp_double (x := x) hw hbig
        rw [hn]
        exact hmul n
      · push Not at hbig
        by_cases hL0 : -1074 ≤ L
        · obtain ⟨d, hd⟩ := Int.eq_ofNat_of_zero_le (show 0 ≤ L - j by omega)
          have e : (2 : ℚ) ^ L = 2 ^ d * (2 : ℚ) ^ j := by
            rw [← zpow_natCast, ← zpow_add₀ (by norm_num)]
            congr 1
            omega
          have hlow : |x| - (2 : ℚ) ^ L ≤ |w - x| := by
            have : |x| - |w| ≤ |x - w| := abs_sub_abs_le_abs_sub x w
            rw [abs_sub_comm w x]
            linarith
          refine le_trans ?_ hlow
          rcases abs_choice x with hs | hs
          · have := hmul (2 ^ d)
            push_cast at this
            rw [← e] at this
            rw [abs_of_nonpos (by linarith : (2 : ℚ) ^ L - x ≤ 0)] at this
            linarith
          · have := hmul (-2 ^ d)
            push_cast at this
            rw [neg_mul, ← e] at this
            rw [abs_of_nonneg (by linarith : (0 : ℚ) ≤ -(2 : ℚ) ^ L - x)] at this
            linarith
        · push Not at hL0
          obtain ⟨k, i, _, hi, _, rfl⟩ := hw
          have hk : k = 0 := by
            by_contra hk
            have h1 : (1 : ℚ) ≤ |(k : ℚ)| := by
              rw [← Int.cast_abs]; exact_mod_cast Int.one_le_abs hk
            have h2 : (2 : ℚ) ^ L ≤ (2 : ℚ) ^ i := zpow_le_zpow_right₀ (by norm_num) (by omega)
            rw [abs_mul, abs_of_pos (two_zpow_pos i)] at hbig
            have := two_zpow_pos i
            nlinarith
          have := hmul 0
          rw [hk]
          simpa using this
  · cases h

/-- **C101** (float64 numbers of ordinary size are moderate) Zero and the binary64 numbers between `2^-148` and `2^200`
(about `10^-44` to `10^60`). -/
theorem C101_moderate (x : ℚ) (h : IsDouble x) (hlo : x = 0 ∨ 1 / 2 ^ 148 ≤ |x|) (hhi : |x| ≤ 2 ^ 200) :
    Moderate x := by
  refine ⟨?_, hhi⟩
  obtain ⟨k, j, hk, _, _, rfl⟩ := h
  rcases hlo with h0 | hlo
  · rw [h0]; exact Grid.zero 200
  refine zpow_grid ?_ k
  by_contra hj
  push Not at hj
  have h1 : |(k : ℚ)| < 2 ^ 53 := by rw [← Int.cast_abs]; exact_mod_cast hk
  have h2 : |(k : ℚ) * (2 : ℚ) ^ j| < 1 / 2 ^ 148 := by
    rw [abs_mul, abs_of_pos (two_zpow_pos j)]
    calc |(k : ℚ)| * (2 : ℚ) ^ j < 2 ^ 53 * (2 : ℚ) ^ j := mul_lt_mul_of_pos_right h1 (two_zpow_pos j)
      _ = (2 : ℚ) ^ (((53 : ℕ) : ℤ) + j) := by rw [zpow_add₀ (by norm_num), zpow_natCast]
      _ ≤ (2 : ℚ) ^ (-((148 : ℕ) : ℤ)) := zpow_le_zpow_right₀ (by norm_num) (by push_cast at hj ⊢; omega)
      _ = 1 / 2 ^ 148 := by rw [zpow_neg, zpow_natCast, one_div]
  linarith

/-- **C101** For prices, quantities and coefficients of moderate size a run of any mechanism in float64, with its
subnormal numbers and overflow, gives exactly the result of the same run with an unbounded exponent. In particular no
operation overflows: nothing is assumed about the value of an operation that does. -/
theorem C101 (A : Arith) (hA : IsIeee A) (s g o : Summer A) :
    ∃ s' g' o' : Summer float64, ∀ (S : Sorter) (smp : Sampler) (call : AlgoCall) (df : DF), IsTable df →
      ModerateBook df → (∀ r ∈ df, 0 ≤ r.quantity) →
      (∀ merge c choice, call = .p2p merge c choice → Moderate c) →
      runAlgoF A s g o S smp call df = runAlgoF float64 s' g' o' S smp call df :=
  ⟨s.toBin, g.toBin, o.toBin, fun S smp _ _ ht hb hq hc => runAlgoF_bin hA s g o S smp ht hb hq hc⟩

/-- Binary64 numbers are not rounded. -/
theorem Spec.IsDouble.rep {x : ℚ} (h : IsDouble x) : float64.Rep x := by
  obtain ⟨k, j, hk, _, _, rfl⟩ := h
  have hn : k.natAbs ≤ 2 ^ 53 := by zify; exact hk.le
  have h1 : float64.Rep ((k.natAbs : ℚ) * 2 ^ j) := rep_nat_zpow k.natAbs hn j
  rcases Int.natAbs_eq k with he | he
  · have : (k : ℚ) = (k.natAbs : ℚ) := by rw [← Int.cast_natCast, ← he]
    rw [this]
    exact h1
  · have : (k : ℚ) = -(k.natAbs : ℚ) := by rw [← Int.cast_natCast, ← Int.cast_neg, ← he]
    rw [this, neg_mul]
    exact float64.rep_neg h1

/-- float64 with its subnormal numbers; an overflow gives 0 here. -/
def ieee64 : Arith := ⟨fun x => (roundIeee x).getD 0⟩

theorem ieee64_isIeee : IsIeee ieee64 := fun x v h => by simp [ieee64, h]

/-- Two bids of ordinary size. -/
def ordinaryPair : DF := labelFrom 0 [⟨1, 3 / 2, 0, true, 0, true⟩, ⟨2, 5 / 4, 1, false, 0, true⟩]

/-- The hypotheses of `C101` can be met, and the run trades. -/
example : IsIeee ieee64 ∧ IsTable ordinaryPair ∧ ModerateBook ordinaryPair ∧ (∀ r ∈ ordinaryPair, 0 ≤ r.quantity) ∧
    (∀ merge c choice, AlgoCall.p2p false (1 / 2) (fun _ => 0) = .p2p merge c choice → Moderate c) := by
  refine ⟨ieee64_isIeee, by decide +kernel, ⟨by decide +kernel, ?_⟩, by decide +kernel, ?_⟩
  · intro r hr
    have hr' : r = ordinaryPair[0] ∨ r = ordinaryPair[1] := by
      simpa [ordinaryPair, labelFrom] using hr
    rcases hr' with rfl | rfl
    · exact ⟨⟨⟨3 * 2 ^ 199, by decide +kernel⟩, by decide +kernel⟩, ⟨2 ^ 200, by decide +kernel⟩, by decide +kernel⟩
    · exact ⟨⟨⟨5 * 2 ^ 198, by decide +kernel⟩, by decide +kernel⟩, ⟨2 ^ 201, by decide +kernel⟩, by decide +kernel⟩
  · intro merge c choice h
    cases h
    exact ⟨⟨2 ^ 199, by norm_num⟩, by norm_num [abs_of_pos]⟩

example : ∃ tm R, p2pRandomF ieee64 ⟨seqSum ieee64, seqSum_isSum ieee64⟩ (1 / 2) (fun _ => 0) ordinaryPair =
    .ok (tm, .p2p R) ∧ tm.trans.map (fun t => (t.quantity, t.price)) = [(1, 11 / 8), (1, 11 / 8)] :=
  ⟨_, _, rfl, by decide +kernel⟩

/-- **C101** (an instance) In float64, P2P trading with the default coefficient never sets a price that one of the
parties does not accept, for bids of moderate size. -/
theorem C101_p2p (A : Arith) (hA : IsIeee A) (s : Summer A) (choice : ℕ → ℕ) (df : DF) (ht : IsTable df)
    (hb : ModerateBook df) (hq : ∀ r ∈ df, 0 ≤ r.quantity)
    (hd : ∀ r ∈ df, IsDouble r.price ∧ IsDouble r.quantity) :
    ∃ tm R, p2pRandomF A s (1 / 2) choice df = .ok (tm, .p2p R) ∧
      ∀ t ∈ tm.trans, t.quantity ≠ 0 → ∃ b r, (b, r) ∈ R.flatten ∧ IsPair df b r ∧
        ((t.bid = b ∧ t.source = (r : ℤ)) ∨ (t.bid = r ∧ t.source = (b : ℤ))) ∧
        priceOf df r ≤ t.price ∧ t.price ≤ priceOf df b := by
  have hc : Bd 200 200 1 (1 / 2 : ℚ) := ⟨⟨2 ^ 199, by norm_num⟩, by norm_num [abs_of_pos]⟩
  rw [(p2pRandomF_bin hA s ht (ModerateBook.bookBd hb) hq hc choice).1]
  exact C77_prices float64 s.toBin choice df ht (fun r hr => ⟨(hd r hr).2.rep, (hd r hr).1.rep⟩)

/-- A buyer and a seller at the smallest positive float64 number. -/
def smallestPrice : DF := labelFrom 0 [⟨1, 1 / 2 ^ 1074, 0, true, 0, true⟩, ⟨1, 1 / 2 ^ 1074, 1, false, 0, true⟩]

/-- **C101** (the condition is needed) Outside the range the bounded exponent matters: with prices of `2^-1074` half a price is
rounded to 0, and P2P trading gives the energy away. -/
theorem C101_needs_range :
    IsIeee ieee64 ∧ IsTable smallestPrice ∧ (∀ r ∈ smallestPrice, 0 ≤ r.quantity) ∧
    (∀ r ∈ smallestPrice, IsDouble r.price ∧ IsDouble r.quantity) ∧
    ∃ tm R, p2pRandomF ieee64 ⟨seqSum ieee64, seqSum_isSum ieee64⟩ (1 / 2) (fun _ => 0) smallestPrice =
        .ok (tm, .p2p R) ∧
      ∃ t ∈ tm.trans, isBuy smallestPrice t.bid = false ∧ 0 < t.quantity ∧
        t.price < priceOf smallestPrice t.bid := by
  refine ⟨ieee64_isIeee, by decide +kernel, by decide +kernel, ?_, _, _, rfl, by decide +kernel⟩
  have h1 : IsDouble 1 := ⟨1, 0, by norm_num, by norm_num, by norm_num, by norm_num⟩
  have h2 : IsDouble (1 / 2 ^ 1074) :=
    ⟨1, -((1074 : ℕ) : ℤ), by norm_num, by norm_num, by norm_num, by rw [zpow_neg, zpow_natCast]; simp⟩
  intro r hr
  have hr' : r = smallestPrice[0] ∨ r = smallestPrice[1] := by
    simpa [smallestPrice, labelFrom] using hr
  rcases hr' with rfl | rfl <;> exact ⟨h2, h1⟩

end PyMarket
