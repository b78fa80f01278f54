import Verif.Lemmas.MudaMissingPrices
import Verif.Props.MissingPrices
import Verif.Lemmas.Surcharge
import Verif.Props.Phantom

/-! # C138: missing prices in MUDA -/

set_option autoImplicit false

namespace PyMarket

open Spec

section

variable (S : Sorter) (price : ℕ → Option ℚ) (df : DF)

/-- **C138, missing prices in a half of MUDA.** At any price, a half trades and pays fees as without the bids that have
no price. -/
theorem C138_muda_side (p : Val) (fees : List ℚ) :
    solveSideP S price df p fees = solveSide S (pricedRows price df) p fees := solveSideP_eq df p fees

/-- **C138, the price of a half of MUDA** is that of the bids with prices, under the condition of
`C138_huang_prices_partial`. -/
theorem C138_muda_price_partial (h : NonNegP price df) (x : Ext)
    (hx : CrossesAt (demandCurve S (pricedRows price df)).1 (supplyCurve S (pricedRows price df)).1 ⊤ x)
    (hb : Covered price true df x) (hs : Covered price false df x) :
    findCompetitivePriceP S price df = findCompetitivePrice S (pricedRows price df) := by
  rcases missing_cases (S := S) h with ⟨i, x', b, s, h1, h2, h3, h4, h5, h6, h7, h8, _⟩ | ⟨i, _, _, _, h4⟩
  · exact competitiveP_eq h h1 h2 h3 h4 h5 h6 h7 h8
  · exact absurd ⟨hb, hs⟩ ((h4 x).2 ((h4 x).1.mpr hx))

/-- **C138, the price of a half of MUDA** is infinite otherwise. -/
theorem C138_muda_price_blocked (h : NonNegP price df) (x : Ext)
    (hx : CrossesAt (demandCurve S (pricedRows price df)).1 (supplyCurve S (pricedRows price df)).1 ⊤ x)
    (hc : ¬ (Covered price true df x ∧ Covered price false df x)) :
    findCompetitivePriceP S price df = .ok .inf := by
  rcases missing_cases (S := S) h with ⟨i, x', b, s, _, _, _, _, _, _, _, h8, h9, h10⟩ | ⟨i, _, h2, _⟩
  · rw [crossesAt_unique hx h8] at hc
    exact absurd ⟨h9, h10⟩ hc
  · exact competitiveP_none h2

/-- **C138, the price of a half of MUDA** is infinite as without the other bids if the bids with prices do not cross. -/
theorem C138_muda_price_apart (h : NonNegP price df)
    (hx : ∀ x, ¬ CrossesAt (demandCurve S (pricedRows price df)).1 (supplyCurve S (pricedRows price df)).1 ⊤ x) :
    findCompetitivePriceP S price df = .ok .inf ∧ findCompetitivePrice S (pricedRows price df) = .ok .inf := by
  rcases missing_cases (S := S) h with ⟨i, x', b, s, _, _, _, _, _, _, _, h8, _⟩ | ⟨i, h1, h2, h3, h4⟩
  · exact absurd h8 (hx x')
  · refine ⟨competitiveP_none h2, ?_⟩
    have hn : i.x = none := by
      cases e : i.x with
      | none => rfl
      | some x => exact absurd ((h4 x).1.mp e) (hx x)
    have hq : NonNeg (pricedRows price df) := by
      intro r hr
      obtain ⟨h1, r', hr', e1, e2, _⟩ := mem_pricedRows hr
      obtain ⟨h2, h3⟩ := h r' hr'
      exact ⟨e2 ▸ h2, h3 _ (by rw [e1]; exact h1)⟩
    rcases intersect_cases S hq (1 / 2) with ⟨y, hc', he⟩ | ⟨he, _⟩
    · rw [he] at h1
      cases h1
      cases hn
    · unfold findCompetitivePrice
      simp only [he, bind, Except.bind]
      decide +kernel

/-- **C138, the other half does not trade** when the price of a half is infinite: nobody pays it. -/
theorem C138_muda_infinite (fees : List ℚ) :
    solveSideP S price df .inf fees = .ok (TransactionManager.init, fees) := by
  rw [solveSideP_eq, solveSide_inf]

/-- **C138, MUDA:** a bid without a price never trades. -/
theorem C138_muda_silent (coin : ℕ → Bool) (tm : TransactionManager) (e : Extra)
    (ho : mudaP S coin price df = .ok (tm, e)) : ∀ t ∈ tm.trans, price t.bid ≠ none := by
  unfold mudaP at ho
  split at ho
  · cases ho
  simp only [bind, Except.bind] at ho
  split at ho
  · cases ho
  split at ho
  · cases ho
  split at ho
  · cases ho
  rename_i o1 h1
  split at ho
  · cases ho
  rename_i o2 h2
  cases ho
  rw [solveSideP_eq] at h1 h2
  intro t ht
  rw [TransactionManager.merge_trans] at ht
  rcases List.mem_append.mp ht with ht | ht
  · obtain ⟨r, hr, e⟩ := solveSide_label h1 t ht
    rw [e, (mem_pricedRows hr).1]
    simp
  · obtain ⟨r, hr, e⟩ := solveSide_label h2 t ht
    rw [e, (mem_pricedRows hr).1]
    simp

/-- Wherever the bids with prices cross, both sides are covered. -/
def Spec.CrossingCovered (S : Sorter) (price : ℕ → Option ℚ) (df : DF) : Prop :=
  ∀ x, CrossesAt (demandCurve S (pricedRows price df)).1 (supplyCurve S (pricedRows price df)).1 ⊤ x →
    Covered price true df x ∧ Covered price false df x

theorem muda_price_covered (h : NonNegP price df) (hu : CrossingCovered S price df) :
    findCompetitivePriceP S price df = findCompetitivePrice S (pricedRows price df) := by
  by_cases c : ∃ x, CrossesAt (demandCurve S (pricedRows price df)).1 (supplyCurve S (pricedRows price df)).1 ⊤ x
  · obtain ⟨x, hx⟩ := c
    exact C138_muda_price_partial S price df h x hx (hu x hx).1 (hu x hx).2
  · push Not at c
    obtain ⟨h1, h2⟩ := C138_muda_price_apart S price df h c
    rw [h1, h2]

/-- **C138, MUDA with missing prices:** if both halves are covered, the prices, the transactions and the fees are those
of the two halves without the bids that have no price. -/
theorem C138_muda_prices_partial (h : NonNegP price df) (coin : ℕ → Bool) (left right : List ℕ)
    (hl : left = coinLeft coin (df.map (fun r => r.label)))
    (hr : right = (df.map (fun r => r.label)).filter (fun i => decide (i ∉ left)))
    (ul : CrossingCovered S price (locLabels df left)) (ur : CrossingCovered S price (locLabels df right))
    (hd : checkEqualPriceRaises (pricedRows price df) = false) (pl pr : Val) (tl tr : TransactionManager)
    (fees fees' : List ℚ)
    (h1 : findCompetitivePrice S (pricedRows price (locLabels df left)) = .ok pl)
    (h2 : findCompetitivePrice S (pricedRows price (locLabels df right)) = .ok pr)
    (h3 : solveSide S (pricedRows price (locLabels df left)) pr
      (List.replicate (df.map (fun r => r.user)).dedup.length 0) = .ok (tl, fees))
    (h4 : solveSide S (pricedRows price (locLabels df right)) pl fees = .ok (tr, fees')) :
    mudaP S coin price df = .ok (tl.merge tr, .muda left right pl pr fees') := by
  have sub : ∀ ls, NonNegP price (locLabels df ls) := by
    intro ls r hr
    obtain ⟨i, _, hi⟩ := List.mem_filterMap.mp hr
    exact h r (List.mem_of_find?_eq_some hi)
  unfold mudaP
  rw [if_neg (by rw [hd]; simp)]
  simp only [bind, Except.bind, ← hl, ← hr, muda_price_covered S price _ (sub _) ul,
    muda_price_covered S price _ (sub _) ur, h1, h2, solveSideP_eq, h3, h4]

/-- The crossing from the computed one. -/
theorem crossingCovered_of (h : NonNegP price df) {x : Ext} (hx : (intersectStepwise (demandCurve S (pricedRows price df)).1
      (supplyCurve S (pricedRows price df)).1).toOption.map (fun i => i.x) = some (some x))
    (hb : Covered price true df x) (hs : Covered price false df x) : CrossingCovered S price df := by
  intro y hy
  rcases missing_cases (S := S) h with ⟨i, x', b, s, h1, h2, _, _, _, _, _, h8, _⟩ | ⟨i, h1, _, _, h4⟩
  · rw [h1] at hx
    have e : some x' = some x := by
      rw [← h2]
      simpa [Except.toOption] using hx
    cases e
    rw [crossesAt_unique hy h8]
    exact ⟨hb, hs⟩
  · rw [h1] at hx
    have e : i.x = some x := by simpa [Except.toOption] using hx
    exact absurd ⟨hb, hs⟩ ((h4 x).2 e)

end

/-- Two halves of buyers @ 10 and @ 9 and sellers @ 2 and @ 3; the second one has a seller @ 8 and a buyer, the last
bid, whose price is not used. One unit each. -/
def unpricedHalvesBook : DF := labelFrom 0 [⟨1, 10, 0, true, 0, true⟩, ⟨1, 9, 1, true, 0, true⟩, ⟨1, 2, 2, false, 0, true⟩,
  ⟨1, 3, 3, false, 0, true⟩, ⟨1, 10, 4, true, 0, true⟩, ⟨1, 9, 5, true, 0, true⟩, ⟨1, 2, 6, false, 0, true⟩,
  ⟨1, 3, 7, false, 0, true⟩, ⟨1, 8, 8, false, 0, true⟩, ⟨1, 0, 9, true, 0, true⟩]

/-- All prices but that of the last bid. -/
def halvesPrices (i : ℕ) : Option ℚ := if i = 9 then none else some (valueAt unpricedHalvesBook (fun r => r.price) i)

/-- **C138 refuted for MUDA as well.** Without the last bid both halves trade. With it, the price of its half is
infinite and the other half does not trade. -/
theorem C138_muda_prices_refuted :
    (muda stableSorter (fun k => decide (4 ≤ k)) (pricedRows halvesPrices unpricedHalvesBook)).toOption.map
      (fun o => o.1.trans.map (fun t => (t.bid, t.quantity, t.price))) =
      some [(6, 1, 6), (7, 1, 6), (4, 1, 6), (5, 1, 6), (2, 1, 6), (3, 1, 6), (0, 1, 6), (1, 1, 6)] ∧
    (mudaP stableSorter (fun k => decide (4 ≤ k)) halvesPrices unpricedHalvesBook).toOption.map
      (fun o => o.1.trans.map (fun t => (t.bid, t.quantity, t.price))) =
      some [(6, 1, 6), (7, 1, 6), (4, 1, 6), (5, 1, 6)] := by
  decide +kernel

/-- The hypotheses of `C138_muda_prices_partial` are met: in the half of `openBook` the trade leaves demand and supply,
with and without its last bid. -/
example : NonNegP (openPrices 6) openBook ∧ CrossingCovered stableSorter (openPrices 6) openBook ∧
    openQty (openPrices 6) true openBook = 1 ∧
    findCompetitivePriceP stableSorter (openPrices 6) openBook = .ok (.fin 6) ∧
    checkEqualPriceRaises (pricedRows (openPrices 6) openBook) = false := by
  have hn : NonNegP (openPrices 6) openBook := by
    intro r hr
    simp only [openBook, labelFrom, List.mem_cons, List.not_mem_nil, or_false] at hr
    rcases hr with rfl | rfl | rfl | rfl | rfl | rfl | rfl <;>
      refine ⟨by norm_num, fun p hp => ?_⟩ <;>
      simp [openPrices, valueAt, openBook, labelFrom] at hp <;> subst hp <;> norm_num
  exact ⟨hn, crossingCovered_of _ _ _ hn open_crosses.1 (Or.inl (by decide +kernel)) (Or.inl (by decide +kernel)),
    by decide +kernel, by decide +kernel, by decide +kernel⟩

end PyMarket
