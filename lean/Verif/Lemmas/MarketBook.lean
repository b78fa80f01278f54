import Verif.Lemmas.MarketOrders

/-! # Books with infinite prices -/

set_option autoImplicit false

namespace PyMarket

open Spec

/-- The row with the price of the column. -/
def priceRow (prc : ℕ → Ext) (P : ℚ) (r : Row) : Row := { r with price := (prc r.label).untopD P }

section

variable (S : Sorter) (SE : ExtSorter) (prc : ℕ → Ext) (P : ℚ)

theorem atPrice_eq (df : DF) : atPrice prc P df = df.map (priceRow prc P) := rfl

theorem buys_price (df : DF) : buys (atPrice prc P df) = (buys df).map (priceRow prc P) := by
  unfold buys
  rw [atPrice_eq, List.filter_map]
  rfl

theorem sells_price (df : DF) : sells (atPrice prc P df) = (sells df).map (priceRow prc P) := by
  unfold sells
  rw [atPrice_eq, List.filter_map]
  rfl

theorem prices_price (rows : DF) : (rows.map (priceRow prc P)).map (fun r => r.price) =
    (priceCol prc rows).map (fun e => e.untopD P) := by
  unfold priceCol
  rw [List.map_map, List.map_map]
  rfl

theorem qtys_price (rows : DF) : (rows.map (priceRow prc P)).map (fun r => r.quantity) =
    rows.map (fun r => r.quantity) := by
  rw [List.map_map]
  rfl

end

section

variable {S : Sorter} {SE : ExtSorter} {prc : ℕ → Ext} {P : ℚ} {df : DF}

theorem sortDesc_price (hs : SortsAlike SE S P) {rows : DF} (hr : ∀ r ∈ rows, prc r.label ≠ ⊤ → prc r.label < (P : Ext)) :
    sortDesc S (rows.map (priceRow prc P)) = (sortDescM SE prc rows).map (priceRow prc P) := by
  unfold sortDesc sortDescM
  rw [prices_price, (hs (priceCol prc rows) (by
    intro e he
    obtain ⟨r, h1, rfl⟩ := List.mem_map.mp he
    exact hr r h1)).2, takeIdx_map]

theorem sortAsc_price (hs : SortsAlike SE S P) {rows : DF} (hr : ∀ r ∈ rows, prc r.label ≠ ⊤ → prc r.label < (P : Ext)) :
    sortAsc S (rows.map (priceRow prc P)) = (sortAscM SE prc rows).map (priceRow prc P) := by
  unfold sortAsc sortAscM
  rw [prices_price, (hs (priceCol prc rows) (by
    intro e he
    obtain ⟨r, h1, rfl⟩ := List.mem_map.mp he
    exact hr r h1)).1, takeIdx_map]

theorem mem_ofIdx {rows : DF} {is : List ℕ} (h : is.Perm (List.range (priceCol prc rows).length)) {r : Row}
    (hr : r ∈ takeIdx rows is) : r ∈ rows := by
  unfold priceCol at h
  rw [List.length_map] at h
  exact (takeIdx_perm rows is h).mem_iff.mp hr

theorem buysM_mem {r : Row} (h : r ∈ sortDescM SE prc (buys df)) : r ∈ df ∧ r.buying = true :=
  mem_buys.mp (mem_ofIdx (SE.desc_perm _) h)

theorem sellsM_mem {r : Row} (h : r ∈ sortAscM SE prc (sells df)) : r ∈ df ∧ r.buying = false :=
  mem_sells.mp (mem_ofIdx (SE.asc_perm _) h)

theorem infFor_untop {e : Ext} (h : e ≠ ⊤ → e < (P : Ext)) : infFor P ((e.untopD P : ℚ) : Ext) = e := by
  induction e using WithTop.recTopCoe with
  | top => exact infFor_self
  | coe q => exact infFor_ne (h WithTop.coe_ne_top).ne

/-- The curve of rows with infinite prices is that of the filled rows with infinity in place of `P`. -/
theorem curve_price {rows : DF} (hr : ∀ r ∈ rows, prc r.label ≠ ⊤ → prc r.label < (P : Ext)) (y : Ext)
    (hy : infFor P y = y) :
    (List.zip (cumsum (rows.map (fun r => r.quantity))) (priceCol prc rows)).map (fun p => ((p.1 : Ext), p.2)) ++
        [((⊤ : Ext), y)] =
      liftY (infFor P) ((List.zip (cumsum ((rows.map (priceRow prc P)).map (fun r => r.quantity)))
        ((rows.map (priceRow prc P)).map (fun r => r.price))).map (fun p => ((p.1 : Ext), (p.2 : Ext))) ++ [((⊤ : Ext), y)]) := by
  unfold liftY
  rw [List.map_append, qtys_price, prices_price, List.map_cons, List.map_nil, hy]
  congr 1
  rw [List.map_map, ← List.map_id (cumsum _), List.map_id, List.zip_map_right, List.map_map]
  apply List.map_congr_left
  rintro ⟨a, e⟩ h
  obtain ⟨r, h1, h2⟩ := List.mem_map.mp (List.of_mem_zip h).2
  show ((a : Ext), e) = ((a : Ext), infFor P ((e.untopD P : ℚ) : Ext))
  rw [infFor_untop (h2 ▸ hr r h1)]

theorem demandCurveM_eq (hs : SortsAlike SE S P) (ha : AbovePrices prc df P) :
    demandCurveM SE df prc = liftY (infFor P) (demandCurve S (atPrice prc P df)).1 := by
  unfold demandCurveM demandCurve
  simp only [buys_price, sortDesc_price hs (fun r hr => ha.2 r (mem_buys.mp hr).1)]
  exact curve_price (fun r hr => ha.2 r (buysM_mem hr).1) _ (infFor_zero ha.1)

theorem supplyCurveM_eq (hs : SortsAlike SE S P) (ha : AbovePrices prc df P) :
    supplyCurveM SE df prc = liftY (infFor P) (supplyCurve S (atPrice prc P df)).1 := by
  unfold supplyCurveM supplyCurve
  simp only [sells_price, sortAsc_price hs (fun r hr => ha.2 r (mem_sells.mp hr).1)]
  exact curve_price (fun r hr => ha.2 r (sellsM_mem hr).1) _ infFor_top

theorem atPrice_nonNeg (h : NonNegM prc df) (hP : 0 < P) : NonNeg (atPrice prc P df) := by
  intro r hr
  obtain ⟨s, hs, rfl⟩ := List.mem_map.mp hr
  refine ⟨(h s hs).1, ?_⟩
  have := (h s hs).2
  show 0 ≤ (prc s.label).untopD P
  generalize prc s.label = e at this ⊢
  induction e using WithTop.recTopCoe with
  | top => exact hP.le
  | coe q => exact WithTop.coe_le_coe.mp this

theorem atPrice_le (ha : AbovePrices prc df P) {r : Row} (hr : r ∈ atPrice prc P df) : r.price ≤ P := by
  obtain ⟨s, hs, rfl⟩ := List.mem_map.mp hr
  have := ha.2 s hs
  show (prc s.label).untopD P ≤ P
  generalize prc s.label = e at this ⊢
  induction e using WithTop.recTopCoe with
  | top => exact le_refl P
  | coe q => exact (WithTop.coe_lt_coe.mp (this WithTop.coe_ne_top)).le

theorem stepFun_demand (x : Ext) : stepFun (demandCurve S df).1 x = demandAt S df x := by
  unfold stepFun demandAt
  rw [demandCurve_eq, stepLookup_stepCurve]
  rfl

theorem stepFun_supply (x : Ext) : stepFun (supplyCurve S df).1 x = supplyAt S df x := by
  unfold stepFun supplyAt
  rw [supplyCurve_eq, stepLookup_stepCurve]
  rfl

theorem curvePair (h : NonNegM prc df) (ha : AbovePrices prc df P) :
    CurvePair P (demandCurve S (atPrice prc P df)).1 (supplyCurve S (atPrice prc P df)).1 := by
  have hq := atPrice_nonNeg h ha.1
  have tl : ∀ {f : Curve} {y : Ext}, ∃ s ∈ f ++ [((⊤ : Ext), y)], s.1 = ⊤ := fun {f y} =>
    ⟨_, List.mem_append_right _ (List.mem_singleton.mpr rfl), rfl⟩
  refine ⟨ha.1, ?_, ?_, tl, tl, ?_, ?_, ?_, ?_⟩
  · exact curve_isStep (by
      intro x hx
      obtain ⟨r, hr, rfl⟩ := List.mem_map.mp hx
      exact (hq r (buyRows_mem hr).1).1) _
  · exact curve_isStep (by
      intro x hx
      obtain ⟨r, hr, rfl⟩ := List.mem_map.mp hx
      exact (hq r (sellRows_mem hr).1).1) _
  · intro s hs
    have : s.2 ∈ ((demandCurve S (atPrice prc P df)).1).map Prod.snd := List.mem_map_of_mem hs
    rw [demandCurve_eq, stepCurve_snd] at this
    rcases List.mem_append.mp this with h1 | h1
    · obtain ⟨r, hr, h2⟩ := List.mem_map.mp h1
      rw [← h2]
      exact WithTop.coe_le_coe.mpr (atPrice_le ha (buyRows_mem hr).1)
    · rw [List.mem_singleton.mp h1]
      exact WithTop.coe_le_coe.mpr ha.1.le
  · intro s hs
    have : s.2 ∈ ((supplyCurve S (atPrice prc P df)).1).map Prod.snd := List.mem_map_of_mem hs
    rw [supplyCurve_eq, stepCurve_snd] at this
    rcases List.mem_append.mp this with h1 | h1
    · obtain ⟨r, hr, h2⟩ := List.mem_map.mp h1
      rw [← h2]
      exact Or.inl (WithTop.coe_le_coe.mpr (atPrice_le ha (sellRows_mem hr).1))
    · exact Or.inr (List.mem_singleton.mp h1)
  · have := C05_demand_nonincreasing S (atPrice prc P df) (fun r hr => (hq r hr).2)
    rwa [List.pairwise_map] at this
  · have := C06_supply_nondecreasing S (atPrice prc P df)
    rwa [List.pairwise_map] at this

theorem marketQty_eq (ha : AbovePrices prc df P) : demandQty (atPrice prc P df) P = marketQty prc df := by
  unfold demandQty marketQty
  rw [atPrice_eq, List.filter_map, List.map_map]
  congr 2
  apply List.filter_congr
  intro r hr
  have := ha.2 r hr
  show (r.buying && decide (P ≤ (prc r.label).untopD P)) = _
  congr 1
  generalize prc r.label = e at this ⊢
  induction e using WithTop.recTopCoe with
  | top => simp
  | coe q =>
    have h2 := WithTop.coe_lt_coe.mp (this WithTop.coe_ne_top)
    simp [not_le.mpr h2]

theorem offeredQty_eq (ha : AbovePrices prc df P) : supplyQty (atPrice prc P df) P = offeredQty df := by
  unfold supplyQty offeredQty
  rw [atPrice_eq, List.filter_map, List.map_map]
  congr 2
  apply List.filter_congr
  intro r hr
  have : (prc r.label).untopD P ≤ P := atPrice_le ha (List.mem_map_of_mem (f := priceRow prc P) hr)
  show (!r.buying && decide ((prc r.label).untopD P ≤ P)) = _
  rw [decide_eq_true this, Bool.and_true]

theorem pricedQty_eq (ha : AbovePrices prc df P) : supplyQtyBelow (atPrice prc P df) P = pricedQty prc df := by
  unfold supplyQtyBelow pricedQty
  rw [atPrice_eq, List.filter_map, List.map_map]
  congr 2
  apply List.filter_congr
  intro r hr
  have := ha.2 r hr
  show (!r.buying && decide ((prc r.label).untopD P < P)) = _
  congr 1
  generalize prc r.label = e at this ⊢
  induction e using WithTop.recTopCoe with
  | top => simp
  | coe q =>
    have h2 := WithTop.coe_lt_coe.mp (this WithTop.coe_ne_top)
    simp [h2]

/-- No clash when the buyers at any price ask for no more than is offered. -/
theorem no_tie_at_top (h : NonNegM prc df) (ha : AbovePrices prc df P) (hm : marketQty prc df ≤ offeredQty df) (z : Ext)
    (hz : ((0 : ℚ) : Ext) < z) :
    ¬ (stepFun (demandCurve S (atPrice prc P df)).1 z = (P : Ext) ∧
      stepFun (supplyCurve S (atPrice prc P df)).1 z = ⊤) := by
  have hq := fun r hr => (atPrice_nonNeg h ha.1 r hr).1
  rintro ⟨h1, h2⟩
  rw [stepFun_demand] at h1
  rw [stepFun_supply] at h2
  induction z using WithTop.recTopCoe with
  | top =>
    have : demandAt S (atPrice prc P df) ⊤ = ((0 : ℚ) : Ext) := by
      unfold demandAt
      exact stepVal_top _ _ _
    rw [this] at h1
    exact absurd (WithTop.coe_injective h1) ha.1.ne
  | coe q =>
    have h0 := WithTop.coe_lt_coe.mp hz
    have h3 := (demandAt_galois S hq h0 ha.1).mp h1.ge
    rw [marketQty_eq ha] at h3
    have h4 := (supplyAt_galois S hq h0 (p := P)).mpr (by rw [offeredQty_eq ha]; exact h3.trans hm)
    rw [h2] at h4
    exact absurd h4 (not_le.mpr (WithTop.coe_lt_top P))

/-- The intersection in the book with infinite prices, see `CurvePair.intersect`. -/
theorem marketBook_blocked (h : NonNegM prc df) (hs : SortsAlike SE S P) (ha : AbovePrices prc df P)
    (hm : pricedQty prc df < marketQty prc df) (k : ℚ) :
    ∃ iM, intersectStepwise (demandCurveM SE df prc) (supplyCurveM SE df prc) k = .ok iM ∧ iM.x = none ∧
      iM.f = none ∧ iM.g = none ∧ iM.v = kMix k ⊤ ((0 : ℚ) : Ext) := by
  have hq := fun r hr => (atPrice_nonNeg h ha.1 r hr).1
  rw [demandCurveM_eq hs ha, supplyCurveM_eq hs ha]
  have hp : 0 ≤ pricedQty prc df := by
    unfold pricedQty
    exact List.sum_nonneg (by
      intro x hx
      obtain ⟨r, hr, rfl⟩ := List.mem_map.mp hx
      exact (h r (List.mem_of_mem_filter hr)).1)
  have h0 : 0 < marketQty prc df := lt_of_le_of_lt hp hm
  have c := curvePair (S := S) h ha
  obtain ⟨iM, h1, h2, h3, h4, h5⟩ := c.blocked (z := ((marketQty prc df : ℚ) : Ext)) (by
      refine le_antisymm (c.funF _) ?_
      rw [stepFun_demand, demandAt_galois S hq h0 ha.1, marketQty_eq ha]) (by
      rw [stepFun_supply, supplyAt_galois_lt S hq h0, pricedQty_eq ha]
      exact not_le.mpr hm) k
  refine ⟨iM, h1, h2, h3, h4, ?_⟩
  rw [h5, stepFun_demand, stepFun_supply]
  unfold demandAt supplyAt
  rw [stepVal_top, stepVal_top, infFor_top, infFor_zero ha.1]

end

end PyMarket
