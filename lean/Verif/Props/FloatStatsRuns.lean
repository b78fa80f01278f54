import Verif.Props.FloatStats
import Verif.Props.FloatP2P
import Verif.Props.ClosedForm

/-! # C86: the statistics of peer to peer runs, and concrete cases -/

set_option autoImplicit false

namespace PyMarket

open Spec

/-- The entries of the buyers and those of the sellers are the same list of quantities and prices. -/
theorem tradeRoundF_mirror (F : Fmt) (df : DF) (prices : ℕ → ℚ) (c : ℚ) (q : ℕ → ℚ) (M : List (ℕ × ℕ))
    (hM : ∀ p ∈ M, IsPair df p.1 p.2) :
    (((tradeRoundF F prices c q M).2.filter (fun t => isBuy df t.bid)).map (fun t => (t.quantity, t.price))) =
    (((tradeRoundF F prices c q M).2.filter (fun t => isSell df t.bid)).map (fun t => (t.quantity, t.price))) := by
  induction M generalizing q with
  | nil => rfl
  | cons p M ih =>
    have i1 := ih (tradeOneF F prices c q p).1 (fun p' hp' => hM p' (List.mem_cons_of_mem _ hp'))
    simp only [tradeRoundF]
    obtain ⟨hb, hs⟩ := hM p List.mem_cons_self
    have hb' : isSell df p.1 = false := by
      cases h : isSell df p.1 with
      | false => rfl
      | true => exact absurd rfl (isPair_ne (df := df) (b := p.1) (s := p.1) ⟨hb, h⟩)
    have hs' : isBuy df p.2 = false := by
      cases h : isBuy df p.2 with
      | false => rfl
      | true => exact absurd rfl (isPair_ne (df := df) (b := p.2) (s := p.2) ⟨h, hs⟩)
    simp only [List.filter_append, List.map_append]
    rw [i1, tradeOneF_entries]
    split_ifs <;> simp [hb, hs, hb', hs']

/-- **C86, the market maker of a peer to peer market.** Its profit is computed as exactly zero. -/
theorem C86_p2p_market (F : Fmt) (s s' : Summer F) (g : List ℚ → ℚ) (c : ℚ) (choice : ℕ → ℕ) (df : DF)
    (ht : IsTable df) (res : Option ResPrices) :
    ∃ tm R, p2pRandomF F s c choice df = .ok (tm, .p2p R) ∧
      (calculateProfitsF F s' g df tm.trans res none).1.market = 0 := by
  obtain ⟨tm, R, h, hR⟩ := p2pF_run F s c choice df ht
  refine ⟨tm, R, h, ?_⟩
  rw [market_no_fees, hR.loop.trans]
  have hm := tradeRoundF_mirror F df (priceOf df) c (qtyOf df) R.flatten hR.pair
  have h2 := congrArg (List.map (fun x : ℚ × ℚ => F.rnd (x.2 * x.1))) hm
  rw [List.map_map, List.map_map] at h2
  unfold calculateProfitsF
  simp only [Option.getD_some]
  rw [join_map_buy ht (fun t _ => F.rnd (t.price * t.quantity)),
    join_map_sell ht (fun t _ => F.rnd (t.price * t.quantity)), sum_zeros s' [] (by simp)]
  have h3 : ∀ l l' : List ℚ, l = l' → F.rnd (F.rnd (s'.sum l - s'.sum l') + 0) = 0 := by
    rintro l _ rfl
    rw [sub_self, F.rnd_zero, add_zero, F.rnd_zero]
  exact h3 _ _ h2

/-- **C86, the players of a peer to peer market.** With the default coefficient ½ no player is reported
a loss at the bid prices. -/
theorem C86_p2p_players (F : Fmt) (s s' : Summer F) (g : List ℚ → ℚ) (choice : ℕ → ℕ) (df : DF)
    (ht : IsTable df) (hq : NonNeg df) (hr : RepBook F df) (res : Option ResPrices) (fees : Option (List ℚ)) :
    ∃ tm R, p2pRandomF F s (1 / 2) choice df = .ok (tm, .p2p R) ∧
      (KeepsSign tm.trans.length g →
        ∀ x ∈ (calculateProfitsF F s' g df tm.trans res fees).1.playerBid, 0 ≤ x) := by
  obtain ⟨tm, R, h, hlen, hlog⟩ := C77_log F s (1 / 2) choice df ht hq hr
  obtain ⟨tm', R', h', hpr⟩ := C77_prices F s choice df ht hr
  rw [h] at h'
  injection h' with h'
  obtain ⟨rfl, h''⟩ := Prod.mk.inj h'
  injection h'' with h''
  subst h''
  refine ⟨tm, R, h, fun hg => ?_⟩
  have hne : ∀ b r, IsPair df b r → isSell df b = false ∧ isBuy df r = false := by
    intro b r hbr
    constructor
    · cases hh : isSell df b with
      | false => rfl
      | true => exact absurd rfl (isPair_ne (df := df) (b := b) (s := b) ⟨hbr.1, hh⟩)
    · cases hh : isBuy df r with
      | false => rfl
      | true => exact absurd rfl (isPair_ne (df := df) (b := r) (s := r) ⟨hh, hbr.2⟩)
  refine C86_no_losses F s' g df ht tm.trans hg res fees ?_ ?_ ?_
  · intro t htm
    obtain ⟨i, hi, rfl⟩ := List.mem_iff_getElem.mp htm
    have hk : i / 2 < R.flatten.length := by omega
    obtain ⟨q, pr, a, a', e1, e2, h0, -⟩ := hlog (i / 2) _ (List.getElem?_eq_getElem hk)
    rcases Nat.mod_two_eq_zero_or_one i with hm | hm
    · have : 2 * (i / 2) = i := by omega
      rw [this] at e1
      have := (List.getElem?_eq_some_iff.mp e1).2
      rw [this]; exact h0
    · have : 2 * (i / 2) + 1 = i := by omega
      rw [this] at e2
      have := (List.getElem?_eq_some_iff.mp e2).2
      rw [this]; exact h0
  · intro t htm h0 hb
    obtain ⟨b, r, -, hp, hor, -, hle⟩ := hpr t htm h0
    rcases hor with ⟨e, -⟩ | ⟨e, -⟩
    · rw [e]; exact hle
    · rw [e, (hne b r hp).2] at hb; cases hb
  · intro t htm h0 hs
    obtain ⟨b, r, -, hp, hor, hle, -⟩ := hpr t htm h0
    rcases hor with ⟨e, -⟩ | ⟨e, -⟩
    · rw [e, (hne b r hp).1] at hs; cases hs
    · rw [e]; exact hle

/-! ## Concrete cases -/

/-- **C86, sums of the groups.** Both ways of summing the groups are accurate and keep the sign, the
compensated one with an error that does not grow with the number of transactions to first order. -/
theorem C86_group_sums (F : Fmt) (he : F.eps ≤ 1 / 64) (N : ℕ) (hN : (N : ℚ) * (F.eps * F.eps) ≤ 1 / 80) :
    Accurate (fun n => (1 + F.eps) ^ (n - 1) - 1) N (seqSum F) ∧ KeepsSign N (seqSum F) ∧
    Accurate (fun n => 11 * F.eps + 40 * (n * (F.eps * F.eps))) N (kahanSum F) ∧ KeepsSign N (kahanSum F) :=
  ⟨seqSum_accurate _ _, seqSum_keepsSign _ _, kahanSum_accurate _ he _ hN, kahanSum_keepsSign _ he _ hN⟩

/-- float64 meets the hypotheses for up to a million transactions. -/
example : float64.eps ≤ 1 / 64 ∧ ((1000000 : ℕ) : ℚ) * (float64.eps * float64.eps) ≤ 1 / 80 := by
  decide +kernel

/-- A log for the market `samePrice` in which buyer and seller exchange `0.1` at price `0.3` and `0.2` at
price `0.7`: rounding makes a difference to the profits of the players, none to the market maker's. -/
def smallLog : List Transaction :=
  [⟨0, roundBin 53 (1 / 10), roundBin 53 (3 / 10), 1, true⟩, ⟨1, roundBin 53 (1 / 10), roundBin 53 (3 / 10), 0, true⟩,
   ⟨0, roundBin 53 (2 / 10), roundBin 53 (7 / 10), 1, false⟩, ⟨1, roundBin 53 (2 / 10), roundBin 53 (7 / 10), 0, false⟩]

example : IsTable samePrice ∧ (∀ t ∈ smallLog, 0 ≤ t.quantity) ∧
    (calculateProfitsF float64 (pairSummer float64) (seqSum float64) samePrice smallLog none none).1.playerBid ≠
      (calculateProfits samePrice smallLog none none).1.playerBid ∧
    (calculateProfitsF float64 (pairSummer float64) (kahanSum float64) samePrice smallLog none none).1.playerBid ≠
      (calculateProfits samePrice smallLog none none).1.playerBid ∧
    (calculateProfitsF float64 (pairSummer float64) (seqSum float64) samePrice smallLog none none).1.market = 0 ∧
    percentageTradedF float64 (pairSummer float64) (fun _ => 1) samePrice smallLog ≠
      percentageTraded (fun _ => 1) samePrice smallLog ∧
    (∀ x ∈ (calculateProfitsF float64 (pairSummer float64) (kahanSum float64) samePrice smallLog none
      none).1.playerBid, x ≠ 0) := by
  decide +kernel

/-- A buyer of 1 and nine sellers, eight of which offer next to nothing. -/
def tinySellers8 : DF := labelFrom 0
  (⟨1, 3, 0, true, 0, true⟩ :: (List.replicate 8 ⟨1 / 2 ^ 55, 1, 1, false, 0, true⟩ ++
    [⟨1, 1, 5, false, 0, true⟩]))

/-- The table satisfies the hypotheses of the theorems in float64. -/
example : IsTable tinySellers8 ∧ NonNeg tinySellers8 ∧ RepBook float64 tinySellers8 := by
  refine ⟨by decide +kernel, by decide +kernel, ?_⟩
  unfold RepBook Fmt.Rep
  decide +kernel

/-- The most that can be traded in that market is 1. -/
theorem tinySellers8_optimum : IsOptimum (volumeLP tinySellers8) 1 := by
  rw [C84_volume tinySellers8 (by decide +kernel) (by decide +kernel)]
  constructor
  · exact ⟨0, by decide +kernel⟩
  rintro c ⟨t, rfl⟩
  have hq : ∀ r ∈ tinySellers8, 0 ≤ r.quantity := by decide +kernel
  unfold volumeBound
  have h1 : 0 ≤ demandQtyAbove tinySellers8 t := by
    unfold demandQtyAbove
    apply List.sum_nonneg
    intro x hx
    obtain ⟨r, hr, rfl⟩ := List.mem_map.mp hx
    exact hq r (List.mem_filter.mp hr).1
  have h2 : 0 ≤ supplyQty tinySellers8 t := by
    unfold supplyQty
    apply List.sum_nonneg
    intro x hx
    obtain ⟨r, hr, rfl⟩ := List.mem_map.mp hx
    exact hq r (List.mem_filter.mp hr).1
  rcases lt_or_ge t 3 with h | h
  · have : 1 ≤ demandQtyAbove tinySellers8 t := by
      have := demandQty_anti hq (f := fun r => r.buying && decide (2 < r.price))
        (g := fun r => r.buying && decide (t < r.price)) (by
          intro r hr hf
          simp only [Bool.and_eq_true, decide_eq_true_eq] at *
          have : ∀ r ∈ tinySellers8, r.buying = true → r.price = 3 := by decide +kernel
          exact ⟨hf.1, by rw [this r hr hf.1]; exact h⟩)
      refine le_trans ?_ this
      decide +kernel
    linarith
  · have : 1 ≤ supplyQty tinySellers8 t := by
      have := demandQty_anti hq (f := fun r => !r.buying)
        (g := fun r => !r.buying && decide (r.price ≤ t)) (by
          intro r hr hf
          have : ∀ r ∈ tinySellers8, r.price ≤ 3 := by decide +kernel
          simp only [Bool.and_eq_true, decide_eq_true_eq]
          exact ⟨hf, (this r hr).trans h⟩)
      refine le_trans ?_ this
      decide +kernel
    linarith

/-- **C86, finding.** In float64 a peer to peer market can report that more than everything was traded,
even against the exact optimum. -/
theorem C86_share_above_one :
    IsOptimum (volumeLP tinySellers8) 1 ∧
    ∃ tm R x, p2pRandomF float64 (pairSummer float64) (1 / 2) (fun _ => 0) tinySellers8 = .ok (tm, .p2p R) ∧
      percentageTradedF float64 (pairSummer float64) (fun _ => 1) tinySellers8 tm.trans = some x ∧ 1 < x := by
  refine ⟨tinySellers8_optimum, _, _, _, rfl, rfl, ?_⟩
  decide +kernel

end PyMarket
