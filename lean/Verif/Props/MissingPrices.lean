import Verif.Lemmas.MissingPricesHuang
import Verif.Props.Missing

/-! # C138: missing prices in the curves and in Huang's auction

`pricedRows price df` is the book of the bids that have a price. A bid without one should trade nothing, and the others
should trade as without it. -/

set_option autoImplicit false

namespace PyMarket

open Spec

section

variable (S : Sorter) (price : ℕ → Option ℚ) (df : DF)

/-- **C138, missing prices in Huang's auction.** If the quantity where the bids with prices cross uses up neither their
total demand nor their total supply (or there is nothing without a price on that side), the auction is the one of the
bids with prices. -/
theorem C138_huang_prices_partial (h : NonNegP price df) (x : Ext)
    (hx : CrossesAt (demandCurve S (pricedRows price df)).1 (supplyCurve S (pricedRows price df)).1 ⊤ x)
    (hb : Covered price true df x) (hs : Covered price false df x) :
    huangAuctionP S price df = huangAuction S (pricedRows price df) := by
  rcases missing_cases (S := S) h with ⟨i, x', b, s, h1, _, h3, h4, h5, h6, h7, _⟩ | ⟨i, _, _, _, h4⟩
  · exact huangAuctionP_eq h1 h3 h4 h5 h6 h7
  · exact absurd ⟨hb, hs⟩ ((h4 x).2 ((h4 x).1.mpr hx))

/-- **C138, missing prices in Huang's auction:** otherwise nobody trades. -/
theorem C138_huang_prices_blocked (h : NonNegP price df) (x : Ext)
    (hx : CrossesAt (demandCurve S (pricedRows price df)).1 (supplyCurve S (pricedRows price df)).1 ⊤ x)
    (hc : ¬ (Covered price true df x ∧ Covered price false df x)) :
    huangAuctionP S price df = .ok (TransactionManager.init, .empty) := by
  rcases missing_cases (S := S) h with ⟨i, x', b, s, _, _, _, _, _, _, _, h8, h9, h10⟩ | ⟨i, _, h2, _⟩
  · rw [crossesAt_unique hx h8] at hc
    exact absurd ⟨h9, h10⟩ hc
  · exact huangAuctionP_none h2

/-- **C138, missing prices in Huang's auction:** nobody trades either if the bids with prices do not cross. -/
theorem C138_huang_prices_apart (h : NonNegP price df)
    (hx : ∀ x, ¬ CrossesAt (demandCurve S (pricedRows price df)).1 (supplyCurve S (pricedRows price df)).1 ⊤ x) :
    huangAuctionP S price df = .ok (TransactionManager.init, .empty) ∧
      huangAuction S (pricedRows price df) = .ok (TransactionManager.init, .empty) := by
  rcases missing_cases (S := S) h with ⟨i, x', b, s, _, _, _, _, _, _, _, h8, _⟩ | ⟨i, h1, h2, h3, h4⟩
  · exact absurd h8 (hx x')
  · refine ⟨huangAuctionP_none h2, ?_⟩
    have hn : i.x = none := by
      cases e : i.x with
      | none => rfl
      | some x => exact absurd ((h4 x).1.mp e) (hx x)
    unfold huangAuction
    simp only [bind, Except.bind, h1, (h3 hn).1, (h3 hn).2]

/-- **C138, missing prices in Huang's auction:** in no case does a bid without a price trade. -/
theorem C138_huang_prices_silent (h : NonNegP price df) (tm : TransactionManager) (e : Extra)
    (ho : huangAuctionP S price df = .ok (tm, e)) : ∀ t ∈ tm.trans, price t.bid ≠ none := by
  intro t ht
  rcases missing_cases (S := S) h with ⟨i, x', b, s, h1, _, h3, h4, h5, h6, h7, _⟩ | ⟨i, _, h2, _⟩
  · rw [huangAuctionP_eq h1 h3 h4 h5 h6 h7] at ho
    obtain ⟨r, hr, e⟩ := huangAuction_bids ho t ht
    rw [← e, (mem_pricedRows hr).1]
    simp
  · rw [huangAuctionP_none h2] at ho
    cases ho
    cases ht

/-- **C138, missing prices in the uniform price:** under the same condition the outcome is that of the bids with
prices. -/
theorem C138_uniform_prices_partial (h : NonNegP price df) (x : Ext)
    (hx : CrossesAt (demandCurve S (pricedRows price df)).1 (supplyCurve S (pricedRows price df)).1 ⊤ x)
    (hb : Covered price true df x) (hs : Covered price false df x) :
    uniformPriceP S price df = uniformPrice S (pricedRows price df) := by
  rcases missing_cases (S := S) h with ⟨i, x', b, s, h1, h2, h3, h4, h5, h6, h7, h8, _⟩ | ⟨i, _, _, _, h4⟩
  · exact uniformPriceP_eq h h1 h2 h3 h4 h5 h6 h7 h8
  · exact absurd ⟨hb, hs⟩ ((h4 x).2 ((h4 x).1.mpr hx))

/-- **C138, missing prices in the uniform price:** otherwise it raises `TypeError`. -/
theorem C138_uniform_prices_blocked (h : NonNegP price df) (x : Ext)
    (hx : CrossesAt (demandCurve S (pricedRows price df)).1 (supplyCurve S (pricedRows price df)).1 ⊤ x)
    (hc : ¬ (Covered price true df x ∧ Covered price false df x)) :
    uniformPriceP S price df = .error .typeError := by
  rcases missing_cases (S := S) h with ⟨i, x', b, s, _, _, _, _, _, _, _, h8, h9, h10⟩ | ⟨i, _, h2, _⟩
  · rw [crossesAt_unique hx h8] at hc
    exact absurd ⟨h9, h10⟩ hc
  · unfold uniformPriceP
    simp only [bind, Except.bind, h2]

/-- **C138, missing prices in the uniform price:** it raises as without them if the bids with prices do not cross. -/
theorem C138_uniform_prices_apart (h : NonNegP price df)
    (hx : ∀ x, ¬ CrossesAt (demandCurve S (pricedRows price df)).1 (supplyCurve S (pricedRows price df)).1 ⊤ x) :
    uniformPriceP S price df = .error .typeError ∧ uniformPrice S (pricedRows price df) = .error .typeError := by
  rcases missing_cases (S := S) h with ⟨i, x', b, s, _, _, _, _, _, _, _, h8, _⟩ | ⟨i, h1, h2, h3, h4⟩
  · exact absurd h8 (hx x')
  · have hn : i.x = none := by
      cases e : i.x with
      | none => rfl
      | some x => exact absurd ((h4 x).1.mp e) (hx x)
    constructor
    · unfold uniformPriceP
      simp only [bind, Except.bind, h2]
    · unfold uniformPrice
      simp only [bind, Except.bind, h1, (h3 hn).1, (h3 hn).2]

/-- **C138, all prices known:** the auction is the one of the book. -/
theorem C138_huang_prices_known (h : ∀ r ∈ df, 0 ≤ r.quantity ∧ 0 ≤ r.price)
    (hp : ∀ r ∈ df, price r.label = some r.price) : huangAuctionP S price df = huangAuction S df := by
  have hn : NonNegP price df := fun r hr => ⟨(h r hr).1, fun p e => by
    rw [hp r hr] at e
    cases e
    exact (h r hr).2⟩
  have e : pricedRows price df = df := by
    unfold pricedRows
    rw [List.filterMap_congr (g := some) (fun r hr => by rw [hp r hr]; rfl), List.filterMap_some]
  have z : ∀ b, openQty price b df = 0 := by
    intro b
    unfold openQty
    rw [List.filter_eq_nil_iff.mpr (fun r hr => by simp [hp r hr])]
    rfl
  by_cases c : ∃ x, CrossesAt (demandCurve S (pricedRows price df)).1 (supplyCurve S (pricedRows price df)).1 ⊤ x
  · obtain ⟨x, hx⟩ := c
    rw [C138_huang_prices_partial S price df hn x hx (Or.inr (z _)) (Or.inr (z _)), e]
  · push Not at c
    obtain ⟨h1, h2⟩ := C138_huang_prices_apart S price df hn c
    rw [h1, ← h2, e]

end

/-- Buyers @ 10, @ 9, @ 1; sellers @ 2, @ 3, @ 8; one unit each. The price of the last bid, a buyer, is not used. -/
def openBook : DF := labelFrom 0 [⟨1, 10, 0, true, 0, true⟩, ⟨1, 9, 1, true, 0, true⟩, ⟨1, 2, 2, false, 0, true⟩,
  ⟨1, 3, 3, false, 0, true⟩, ⟨1, 8, 4, false, 0, true⟩, ⟨1, 1, 5, true, 0, true⟩, ⟨1, 0, 6, true, 0, true⟩]

/-- All prices but that of the bid `k`. -/
def openPrices (k i : ℕ) : Option ℚ := if i = k then none else some (valueAt openBook (fun r => r.price) i)

/-- The bids with prices but the last one cross at two units. -/
theorem open_crosses : (intersectStepwise (demandCurve stableSorter (pricedRows (openPrices 6) openBook)).1
      (supplyCurve stableSorter (pricedRows (openPrices 6) openBook)).1).toOption.map (fun i => i.x) =
        some (some ((2 : ℚ) : Ext)) ∧
    (intersectStepwise (demandCurve stableSorter (pricedRows (openPrices 5) (openBook.take 6))).1
      (supplyCurve stableSorter (pricedRows (openPrices 5) (openBook.take 6))).1).toOption.map (fun i => i.x) =
        some (some ((2 : ℚ) : Ext)) := by
  constructor <;> decide +kernel

/-- **C138 refuted for prices as well.** The buyers @ 10 and @ 9 are all the demand with a price, and they trade with
the sellers. A third buyer, without a price, makes that nobody trades. -/
theorem C138_huang_prices_refuted :
    NonNegP (openPrices 5) (openBook.take 6) ∧
    (huangAuction stableSorter (pricedRows (openPrices 5) (openBook.take 6))).toOption.map
      (fun o => o.1.trans.map (fun t => (t.bid, t.quantity, t.price))) = some [(2, 1, 3), (0, 1, 9)] ∧
    (huangAuctionP stableSorter (openPrices 5) (openBook.take 6)).toOption.map (fun o => o.1.trans) = some [] := by
  refine ⟨?_, by decide +kernel, by decide +kernel⟩
  intro r hr
  simp only [openBook, labelFrom, List.take_succ_cons, List.take_zero, List.mem_cons, List.not_mem_nil, or_false] at hr
  rcases hr with rfl | rfl | rfl | rfl | rfl | rfl <;>
    refine ⟨by norm_num, fun p hp => ?_⟩ <;>
    simp [openPrices, valueAt, openBook, labelFrom] at hp <;> subst hp <;> norm_num

/-- The hypotheses of `C138_huang_prices_partial` are met: with the buyer @ 1 in the book, the two units do not use up
the demand with a price, and the buyer without a price changes nothing. -/
example : (intersectStepwise (demandCurve stableSorter (pricedRows (openPrices 6) openBook)).1
      (supplyCurve stableSorter (pricedRows (openPrices 6) openBook)).1).toOption.map (fun i => i.x) =
        some (some ((2 : ℚ) : Ext)) ∧
    Covered (openPrices 6) true openBook ((2 : ℚ) : Ext) ∧ Covered (openPrices 6) false openBook ((2 : ℚ) : Ext) ∧
    openQty (openPrices 6) true openBook = 1 ∧
    (huangAuctionP stableSorter (openPrices 6) openBook).toOption.map
      (fun o => o.1.trans.map (fun t => (t.bid, t.quantity, t.price))) = some [(2, 1, 3), (0, 1, 9)] :=
  ⟨open_crosses.1, Or.inl (by decide +kernel), Or.inl (by decide +kernel), by decide +kernel, by decide +kernel⟩

/-- The hypotheses of `C138_huang_prices_blocked` are met. -/
example : ¬ Covered (openPrices 5) true (openBook.take 6) ((2 : ℚ) : Ext) := by
  unfold Covered
  push Not
  exact ⟨by decide +kernel, by decide +kernel⟩

/-- The uniform price in the two cases: two units at 6, as without the buyer that has no price, and `TypeError`. -/
example : (uniformPriceP stableSorter (openPrices 6) openBook).toOption.map
      (fun o => (o.1.trans.map (fun t => (t.bid, t.quantity)), o.2)) =
        some ([(0, 1), (1, 1), (2, 1), (3, 1)], some ((2 : ℚ) : Ext), Val.fin 6) ∧
    uniformPriceP stableSorter (openPrices 5) (openBook.take 6) = .error .typeError := by
  decide +kernel

/-- Nothing to trade: a lone buyer without a price. -/
example : huangAuctionP stableSorter (fun _ => none) (openBook.take 1) = .ok (TransactionManager.init, .empty) := by
  decide +kernel

end PyMarket
