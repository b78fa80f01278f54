import Verif.Props.RandomDraws
import Mathlib.Order.Interval.Finset.Nat

/-! # C93: the coin of MUDA

`muda` puts a bid on the left if `r.rand() > 0.5`. `rand` returns a multiple of `2^-53`, and one half itself
is such a multiple that counts as failure. -/

set_option autoImplicit false

namespace PyMarket

open Spec

theorem rand_gt (a b : ℕ) (ha : a < 2 ^ 32) (hb : b < 2 ^ 32) :
    (1 / 2 : ℚ) < (randBits a b : ℚ) / 2 ^ 53 ↔ 2 ^ 31 + 32 ≤ a ∨ (2 ^ 31 ≤ a ∧ 64 ≤ b) := by
  have h1 : (1 / 2 : ℚ) < (randBits a b : ℚ) / 2 ^ 53 ↔ 2 ^ 52 < randBits a b := by
    rw [lt_div_iff₀ (by positivity)]
    rw [show (1 / 2 : ℚ) * 2 ^ 53 = ((2 ^ 52 : ℕ) : ℚ) by norm_num]
    exact Nat.cast_lt
  rw [h1]
  unfold randBits
  rw [Nat.shiftRight_eq_div_pow, Nat.shiftRight_eq_div_pow]
  norm_num at ha hb ⊢
  omega

theorem ncard_pair (A : Set (ℕ × ℕ)) (B : Set (List ℕ)) :
    {l : List ℕ | ∃ p ∈ A, ∃ t ∈ B, l = p.1 :: p.2 :: t}.ncard = A.ncard * B.ncard := by
  have : {l : List ℕ | ∃ p ∈ A, ∃ t ∈ B, l = p.1 :: p.2 :: t} =
      (fun p : (ℕ × ℕ) × List ℕ => p.1.1 :: p.1.2 :: p.2) '' (A ×ˢ B) := by
    ext l
    constructor
    · rintro ⟨p, hp, t, ht, rfl⟩
      exact ⟨(p, t), ⟨hp, ht⟩, rfl⟩
    · rintro ⟨⟨p, t⟩, ⟨hp, ht⟩, rfl⟩
      exact ⟨p, hp, t, ht, rfl⟩
  rw [this, Set.ncard_image_of_injective _ (fun p q h => by
    simp only [List.cons.injEq] at h; exact Prod.ext (Prod.ext h.1 h.2.1) h.2.2), Set.ncard_prod]

theorem ncard_between (m n : ℕ) : {w : ℕ | m ≤ w ∧ w < n}.ncard = n - m := by
  rw [show {w : ℕ | m ≤ w ∧ w < n} = ((Finset.Ico m n : Finset ℕ) : Set ℕ) by ext; simp,
    Set.ncard_coe_finset]
  simp

/-- The pairs of words for which the coin falls on `c`. -/
def coinPairs (c : Bool) : Set (ℕ × ℕ) :=
  {p | p.1 < 2 ^ 32 ∧ p.2 < 2 ^ 32 ∧ decide ((1 / 2 : ℚ) < (randBits p.1 p.2 : ℚ) / 2 ^ 53) = c}

theorem coinPairs_true : (coinPairs true).ncard = (2 ^ 52 - 1) * 2 ^ 11 := by
  have e : coinPairs true =
      ({w : ℕ | 2 ^ 31 + 32 ≤ w ∧ w < 2 ^ 32} ×ˢ {w : ℕ | w < 2 ^ 32}) ∪
      ({w : ℕ | 2 ^ 31 ≤ w ∧ w < 2 ^ 31 + 32} ×ˢ {w : ℕ | 64 ≤ w ∧ w < 2 ^ 32}) := by
    ext ⟨a, b⟩
    constructor
    · rintro ⟨ha, hb, h⟩
      have := (rand_gt a b ha hb).1 (of_decide_eq_true h)
      by_cases hc : 2 ^ 31 + 32 ≤ a
      · exact Or.inl ⟨⟨hc, ha⟩, hb⟩
      · rcases this with h | h
        · exact absurd h hc
        · exact Or.inr ⟨⟨h.1, not_le.1 hc⟩, h.2, hb⟩
    · rintro (⟨⟨h1, h2⟩, h3⟩ | ⟨⟨h1, h2⟩, h3, h4⟩)
      · exact ⟨h2, h3, decide_eq_true ((rand_gt a b h2 h3).2 (Or.inl h1))⟩
      · have ha : a < 2 ^ 32 := lt_trans h2 (by norm_num)
        exact ⟨ha, h4, decide_eq_true ((rand_gt a b ha h4).2 (Or.inr ⟨h1, h3⟩))⟩
  have f1 : ({w : ℕ | 2 ^ 31 + 32 ≤ w ∧ w < 2 ^ 32} ×ˢ {w : ℕ | w < 2 ^ 32} : Set (ℕ × ℕ)).Finite :=
    Set.Finite.prod ((Set.finite_lt_nat _).subset (fun x h => h.2)) (Set.finite_lt_nat _)
  have f2 : ({w : ℕ | 2 ^ 31 ≤ w ∧ w < 2 ^ 31 + 32} ×ˢ
      {w : ℕ | 64 ≤ w ∧ w < 2 ^ 32} : Set (ℕ × ℕ)).Finite :=
    Set.Finite.prod ((Set.finite_lt_nat (2 ^ 31 + 32)).subset (fun x h => h.2))
      ((Set.finite_lt_nat (2 ^ 32)).subset (fun x h => h.2))
  rw [e, Set.ncard_union_eq ?_ f1 f2, Set.ncard_prod, Set.ncard_prod, ncard_between, ncard_between,
    ncard_between, ncard_below]
  · norm_num
  · rw [Set.disjoint_left]
    rintro ⟨a, b⟩ h h'
    exact absurd h'.1.2 (not_lt.2 h.1.1)

theorem coinPairs_false : (coinPairs false).ncard = (2 ^ 52 + 1) * 2 ^ 11 := by
  have hu : coinPairs true ∪ coinPairs false = {w : ℕ | w < 2 ^ 32} ×ˢ {w : ℕ | w < 2 ^ 32} := by
    ext p
    constructor
    · rintro (h | h) <;> exact ⟨h.1, h.2.1⟩
    · rintro ⟨h1, h2⟩
      cases hd : decide ((1 / 2 : ℚ) < (randBits p.1 p.2 : ℚ) / 2 ^ 53)
      · exact Or.inr ⟨h1, h2, hd⟩
      · exact Or.inl ⟨h1, h2, hd⟩
  have hfin : ({w : ℕ | w < 2 ^ 32} ×ˢ {w : ℕ | w < 2 ^ 32} : Set (ℕ × ℕ)).Finite :=
    (Set.finite_lt_nat _).prod (Set.finite_lt_nat _)
  have hd : Disjoint (coinPairs true) (coinPairs false) := by
    rw [Set.disjoint_left]
    intro p h h'
    have := h.2.2.symm.trans h'.2.2
    simp at this
  have hc := congrArg Set.ncard hu
  rw [Set.ncard_union_eq hd (hfin.subset (hu ▸ Set.subset_union_left))
    (hfin.subset (hu ▸ Set.subset_union_right)), Set.ncard_prod, ncard_below, coinPairs_true] at hc
  norm_num at hc ⊢
  omega

theorem coins_words (n : ℕ) (c : Bool) (cs : List Bool) :
    {ws | ws ∈ words (2 * (n + 1)) ∧ coinsFrom (n + 1) ws = some (c :: cs, [])} =
      {l : List ℕ | ∃ p ∈ coinPairs c, ∃ t ∈ {ws | ws ∈ words (2 * n) ∧ coinsFrom n ws = some (cs, [])},
        l = p.1 :: p.2 :: t} := by
  ext l
  constructor
  · rintro ⟨⟨h1, h2⟩, h3⟩
    match l, h1, h2, h3 with
    | a :: b :: t, h1, h2, h3 =>
      simp only [coinsFrom, randFrom, Option.bind_eq_bind, Option.bind_some,
        Option.bind_eq_some_iff] at h3
      obtain ⟨⟨cs1, w1⟩, h4, h5⟩ := h3
      simp only [Option.some.injEq, Prod.mk.injEq, List.cons.injEq] at h5
      obtain ⟨⟨h6, rfl⟩, rfl⟩ := h5
      exact ⟨(a, b), ⟨h2 a (by simp), h2 b (by simp), h6⟩, t,
        ⟨⟨by simp at h1; omega, fun w hw => h2 w (by simp [hw])⟩, h4⟩, rfl⟩
    | [a], h1, _, _ => simp at h1; omega
    | [], h1, _, _ => simp at h1
  · rintro ⟨⟨a, b⟩, ⟨ha, hb, hc⟩, t, ⟨⟨h1, h2⟩, h3⟩, rfl⟩
    refine ⟨⟨by simp [h1]; omega, fun w hw => ?_⟩, ?_⟩
    · simp only [List.mem_cons] at hw
      rcases hw with rfl | rfl | hw
      · exact ha
      · exact hb
      · exact h2 w hw
    · simp only [coinsFrom, randFrom, Option.bind_eq_bind, Option.bind_some, h3]
      simp only at hc
      rw [hc]

/-- **C93, distribution of the coins (partial).** Of all generators of `2n` words, those for which `n` coins
fall in a given way number `(2^52 - 1)^l (2^52 + 1)^r 2^(11 n)`, where `l` coins succeed and `r` fail. So the
coins are independent and identical, and ways with equally many successes are equally likely. Missing for
fairness: the two factors differ. -/
theorem C93_coins_partial (cs : List Bool) :
    {ws | ws ∈ words (2 * cs.length) ∧ coinsFrom cs.length ws = some (cs, [])}.ncard =
      (2 ^ 52 - 1) ^ (cs.count true) * (2 ^ 52 + 1) ^ (cs.count false) * (2 ^ 11) ^ cs.length := by
  induction cs with
  | nil =>
    have : {ws | ws ∈ words (2 * ([] : List Bool).length) ∧
        coinsFrom ([] : List Bool).length ws = some ([], [])} = {[]} := by
      ext l
      constructor
      · rintro ⟨⟨h, _⟩, _⟩
        exact List.length_eq_zero_iff.1 (by simpa using h)
      · rintro rfl
        exact ⟨⟨rfl, by simp⟩, rfl⟩
    rw [this]
    simp
  | cons c cs ih =>
    rw [List.length_cons, coins_words, ncard_pair, ih]
    cases c
    · rw [coinPairs_false]
      simp only [List.count_cons_self, List.count_cons_of_ne (by decide : (false : Bool) ≠ true)]
      rw [pow_succ (2 ^ 52 + 1) (cs.count false), pow_succ (2 ^ 11) cs.length]
      ac_rfl
    · rw [coinPairs_true]
      simp only [List.count_cons_self, List.count_cons_of_ne (by decide : (true : Bool) ≠ false)]
      rw [pow_succ (2 ^ 52 - 1) (cs.count true), pow_succ (2 ^ 11) cs.length]
      ac_rfl

/-- **C93, refuted.** The coin is not fair: it fails more often than it succeeds. -/
theorem C93_refuted :
    {ws | ws ∈ words 2 ∧ coinsFrom 1 ws = some ([true], [])}.ncard <
      {ws | ws ∈ words 2 ∧ coinsFrom 1 ws = some ([false], [])}.ncard ∧
    2 * {ws | ws ∈ words 2 ∧ coinsFrom 1 ws = some ([true], [])}.ncard < (words 2).ncard := by
  have h1 := C93_coins_partial [true]
  have h2 := C93_coins_partial [false]
  simp only [List.length_cons, List.length_nil] at h1 h2
  norm_num at h1 h2
  rw [h1, h2, ncard_words]
  norm_num

/-- **C93, the bias.** The fraction of generators for which the coin succeeds is `1/2 - 2^-53`. -/
theorem C93_bias :
    ({ws | ws ∈ words 2 ∧ coinsFrom 1 ws = some ([true], [])}.ncard : ℚ) / (words 2).ncard =
      1 / 2 - 1 / 2 ^ 53 := by
  have h1 := C93_coins_partial [true]
  simp only [List.length_cons, List.length_nil] at h1
  norm_num at h1
  rw [h1, ncard_words]
  norm_num

theorem count_coins (cs : List Bool) : cs.count true + cs.count false = cs.length := by
  induction cs with
  | nil => rfl
  | cons c cs ih => cases c <;> simp <;> omega

/-- **C93, near fairness.** The probability of any way `n` coins can fall lies between `(1 - 2^-52)^n / 2^n`
and `(1 + 2^-52)^n / 2^n`. -/
theorem C93_near (cs : List Bool) :
    (1 - 1 / 2 ^ 52 : ℚ) ^ cs.length / 2 ^ cs.length ≤
      ({ws | ws ∈ words (2 * cs.length) ∧ coinsFrom cs.length ws = some (cs, [])}.ncard : ℚ) /
        (words (2 * cs.length)).ncard ∧
    ({ws | ws ∈ words (2 * cs.length) ∧ coinsFrom cs.length ws = some (cs, [])}.ncard : ℚ) /
        (words (2 * cs.length)).ncard ≤ (1 + 1 / 2 ^ 52 : ℚ) ^ cs.length / 2 ^ cs.length := by
  have hlen := count_coins cs
  have e : ({ws | ws ∈ words (2 * cs.length) ∧ coinsFrom cs.length ws = some (cs, [])}.ncard : ℚ) /
        (words (2 * cs.length)).ncard =
      (1 - 1 / 2 ^ 52 : ℚ) ^ (cs.count true) * (1 + 1 / 2 ^ 52) ^ (cs.count false) / 2 ^ cs.length := by
    rw [C93_coins_partial, ncard_words, pow_mul]
    rw [div_eq_div_iff (by positivity) (by positivity)]
    have h1 : (((2 ^ 52 - 1 : ℕ) : ℚ)) = (1 - 1 / 2 ^ 52) * 2 ^ 52 := by norm_num
    have h2 : (((2 ^ 52 + 1 : ℕ) : ℚ)) = (1 + 1 / 2 ^ 52) * 2 ^ 52 := by norm_num
    have h3 : (((2 ^ 32) ^ 2 : ℕ) : ℚ) = 2 ^ 52 * ((2 ^ 11 : ℕ) : ℚ) * 2 := by norm_num
    rw [Nat.cast_mul, Nat.cast_mul, Nat.cast_pow (2 ^ 52 - 1), Nat.cast_pow (2 ^ 52 + 1),
      Nat.cast_pow (2 ^ 11), Nat.cast_pow ((2 ^ 32) ^ 2), h1, h2, h3, mul_pow, mul_pow, mul_pow, mul_pow]
    have h4 : ((2 : ℚ) ^ 52) ^ cs.length = (2 ^ 52) ^ cs.count true * (2 ^ 52) ^ cs.count false := by
      rw [← pow_add, hlen]
    rw [h4]
    ring
  rw [e]
  have hp : (0 : ℚ) < 1 - 1 / 2 ^ 52 := by norm_num
  have hle : (1 - 1 / 2 ^ 52 : ℚ) ≤ 1 + 1 / 2 ^ 52 := by norm_num
  constructor
  · rw [div_le_div_iff_of_pos_right (by positivity), ← hlen, pow_add]
    gcongr
  · rw [div_le_div_iff_of_pos_right (by positivity), ← hlen, pow_add]
    gcongr

/-- **C93, partitions.** The empty left half is the most likely partition: no other way is given by more
generators. -/
theorem C93_empty_left (cs : List Bool) :
    {ws | ws ∈ words (2 * cs.length) ∧ coinsFrom cs.length ws = some (cs, [])}.ncard ≤
      {ws | ws ∈ words (2 * cs.length) ∧
        coinsFrom cs.length ws = some (List.replicate cs.length false, [])}.ncard := by
  have h := C93_coins_partial (List.replicate cs.length false)
  simp only [List.length_replicate] at h
  rw [C93_coins_partial, h]
  have hlen := count_coins cs
  refine Nat.mul_le_mul_right _ ?_
  rw [List.count_replicate_self, show (List.replicate cs.length false).count true = 0 by
    simp [List.count_replicate], pow_zero, one_mul, ← hlen, pow_add]
  exact Nat.mul_le_mul_right _ (Nat.pow_le_pow_left (by norm_num) _)

theorem muda_left {S : Sorter} {coin : ℕ → Bool} {df : DF} {tm : TransactionManager}
    {left right : List ℕ} {pl pr : Val} {fees : List ℚ} (ht : IsTable df)
    (h : muda S coin df = .ok (tm, .muda left right pl pr fees)) :
    left = (List.range df.length).filter coin := by
  obtain ⟨l, r, a, b, f, he, hr⟩ := muda_run ht h
  cases he
  exact hr.left_eq

/-- **C93, the mechanism.** Every outcome that MUDA can have on a book of `n` bids, if `l` of them are on its
left half, is the outcome for `(2^52 - 1)^l (2^52 + 1)^(n - l) 2^(11 n)` of the generators of `2n` words. -/
theorem C93_muda (S : Sorter) (df : DF) (ht : IsTable df) (coin : ℕ → Bool) (tm : TransactionManager)
    (left right : List ℕ) (pl pr : Val) (fees : List ℚ)
    (h : muda S coin df = .ok (tm, .muda left right pl pr fees)) :
    {ws | ws ∈ words (2 * df.length) ∧
      mudaFrom S ws df = some (.ok (tm, .muda left right pl pr fees), [])}.ncard =
      (2 ^ 52 - 1) ^ left.length * (2 ^ 52 + 1) ^ (df.length - left.length) * (2 ^ 11) ^ df.length := by
  have hc : ¬ checkEqualPriceRaises df = true := fun hc => by simp [muda, hc] at h
  have hb : mudaBody S coin df = .ok (tm, .muda left right pl pr fees) := by
    simpa [muda, hc] using h
  have hl := muda_left ht h
  have key := C93_coins_partial ((List.range df.length).map coin)
  have hcount : ((List.range df.length).map coin).count true = left.length := by
    rw [hl, List.count_eq_countP, List.countP_map, List.countP_eq_length_filter]
    congr 1
    exact List.filter_congr (fun i _ => by simp)
  have hn := count_coins ((List.range df.length).map coin)
  simp only [List.length_map, List.length_range] at key hn
  rw [hcount] at key hn
  rw [show df.length - left.length = ((List.range df.length).map coin).count false by omega, ← key]
  congr 1
  ext ws
  constructor
  · rintro ⟨hw, hr⟩
    refine ⟨hw, ?_⟩
    rw [mudaFrom, if_neg hc] at hr
    simp only [Option.bind_eq_bind, Option.bind_eq_some_iff] at hr
    obtain ⟨⟨cs, w⟩, h1, h2⟩ := hr
    simp only [Option.some.injEq, Prod.mk.injEq] at h2
    obtain ⟨h2, rfl⟩ := h2
    have h3 := muda_left (S := S) ht (by rw [muda, if_neg hc]; exact h2)
    have hlen := coinsFrom_length _ _ _ _ h1
    rw [h1]
    congr 2
    apply List.ext_getElem (by simp [hlen])
    intro i hi _
    have hi' : i < df.length := hlen ▸ hi
    have : i ∈ left ↔ i ∈ left := Iff.rfl
    nth_rw 1 [h3] at this
    rw [hl] at this
    simp only [List.mem_filter, List.mem_range, hi', true_and] at this
    simp only [List.getElem_map, List.getElem_range]
    rw [show cs.getD i false = cs[i] by simp [hi]] at this
    exact Bool.eq_iff_iff.2 this
  · rintro ⟨hw, hr⟩
    refine ⟨hw, ?_⟩
    have := C68_coins S (fun k => ((List.range df.length).map coin).getD k false) coin df ht
      (fun i hi => by simp [hi])
    rw [mudaFrom, if_neg hc, hr]
    simp only [muda, if_neg hc] at this
    simp only [Option.bind_eq_bind, Option.bind_some, this, hb]

/-- A book on which the outcome with bids 0 and 1 on the left occurs. -/
example : let df : DF := [⟨⟨1, 3, 0, true, 0, true⟩, 0⟩, ⟨⟨1, 1, 1, false, 0, true⟩, 1⟩,
      ⟨⟨1, 4, 2, true, 0, true⟩, 2⟩, ⟨⟨1, 2, 3, false, 0, true⟩, 3⟩]
    IsTable df ∧ ∃ tm right pl pr fees, tm.trans ≠ [] ∧
      muda stableSorter (fun k => decide (k < 2)) df = .ok (tm, .muda [0, 1] right pl pr fees) := by
  refine ⟨by decide, ⟨4, [⟨1, 1, 3, -1, false⟩, ⟨0, 1, 3, -1, false⟩,
    ⟨3, 1, 2, -1, false⟩, ⟨2, 1, 2, -1, false⟩]⟩, [2, 3], .fin 2, .fin 3, [0, 0, 0, 0], ?_, ?_⟩
  · simp
  · decide +kernel

/-- Two bids: a generator for which the first goes left and the second right. -/
example : [2 ^ 31 + 32, 0, 2 ^ 31, 63] ∈ words (2 * [true, false].length) ∧
    coinsFrom 2 [2 ^ 31 + 32, 0, 2 ^ 31, 63] = some ([true, false], []) :=
  ⟨⟨rfl, by decide⟩, by decide +kernel⟩

end PyMarket
