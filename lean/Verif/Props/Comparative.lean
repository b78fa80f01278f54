import Verif.Props.Equilibrium

/-! # C71: more demand or more supply moves the equilibrium in the expected direction -/

set_option autoImplicit false

namespace PyMarket

open Spec

/-- At every price at least as much is demanded in `df'` as in `df`, and the same is offered: a buyer
enters, or some buyers raise their prices or quantities. -/
def Spec.MoreDemand (df df' : DF) : Prop :=
  (∀ p, demandQty df p ≤ demandQty df' p) ∧ ∀ p, supplyQty df p = supplyQty df' p

/-- At every price at least as much is offered in `df'` as in `df`, and the same is demanded. -/
def Spec.MoreSupply (df df' : DF) : Prop :=
  (∀ p, supplyQty df p ≤ supplyQty df' p) ∧ ∀ p, demandQty df p = demandQty df' p

theorem crossing_pos {S : Sorter} {df : DF} (h : Pos df) {x : ℚ} (hc : Crossing S df x) : 0 < x := by
  have key : ∀ (rows : DF) (a : ℚ) (e : Ext), (∀ r ∈ rows, 0 < r.quantity) →
      ∀ s ∈ stepCurve a rows e, (a : Ext) < s.1 := by
    intro rows
    induction rows with
    | nil =>
      intro a e _ s hs
      simp only [stepCurve, List.mem_singleton] at hs
      rw [hs]; exact WithTop.coe_lt_top a
    | cons r rows ih =>
      intro a e hr s hs
      have h0 : (a : Ext) < ((a + r.quantity : ℚ) : Ext) :=
        WithTop.coe_lt_coe.mpr (by linarith [hr r List.mem_cons_self])
      simp only [stepCurve, List.mem_cons] at hs
      rcases hs with rfl | hs
      · exact h0
      · exact lt_trans h0 (ih _ e (fun r' h' => hr r' (List.mem_cons_of_mem _ h')) s hs)
  have hm := hc.mem
  rw [demandCurve_eq, supplyCurve_eq] at hm
  rcases hm with hm | hm <;> obtain ⟨s, hs, he⟩ := List.mem_map.mp hm
  · have := key _ _ _ (fun r hr => (h r (mem_buys.mp (mem_sortDesc.mp hr)).1).1) s hs
    rw [he] at this
    exact WithTop.coe_lt_coe.mp this
  · have := key _ _ _ (fun r hr => (h r (mem_sells.mp (mem_sortAsc.mp hr)).1).1) s hs
    rw [he] at this
    exact WithTop.coe_lt_coe.mp this

theorem demandAt_le_of_qty (S S' : Sorter) {df df' : DF} (h : NonNeg df) (h' : NonNeg df')
    (hD : ∀ p, demandQty df p ≤ demandQty df' p) {z : ℚ} (hz : 0 < z) :
    demandAt S df z ≤ demandAt S' df' z := by
  obtain ⟨d, hd⟩ := demand_fin S df z
  rcases le_or_gt d 0 with h0 | h0
  · rw [hd]
    exact le_trans (WithTop.coe_le_coe.mpr h0) (demandAt_nonneg S' (fun r hr => (h' r hr).2) _)
  · have := (demandAt_galois S (fun r hr => (h r hr).1) hz h0).mp hd.ge
    rw [hd]
    exact (demandAt_galois S' (fun r hr => (h' r hr).1) hz h0).mpr (le_trans this (hD d))

theorem supplyAt_le_of_qty (S S' : Sorter) {df df' : DF} (h : NonNeg df) (h' : NonNeg df')
    (hS : ∀ p, supplyQty df p ≤ supplyQty df' p) {z : ℚ} (hz : 0 < z) :
    supplyAt S' df' z ≤ supplyAt S df z := by
  rcases eq_or_ne (supplyAt S df z) ⊤ with ht | ht
  · rw [ht]; exact le_top
  · obtain ⟨s, hs⟩ := WithTop.ne_top_iff_exists.mp ht
    have := (supplyAt_galois S (fun r hr => (h r hr).1) hz).mp hs.symm.le
    rw [← hs]
    exact (supplyAt_galois S' (fun r hr => (h' r hr).1) hz).mpr (le_trans this (hS s))

/-- Less of neither side: the crossing cannot move to the left. -/
theorem crossing_le_of_more {S S' : Sorter} {df df' : DF} (h : Pos df) (h' : NonNeg df')
    (hD : ∀ p, demandQty df p ≤ demandQty df' p) (hS : ∀ p, supplyQty df p ≤ supplyQty df' p)
    {x x' : ℚ} (hc : Crossing S df x) (hc' : Crossing S' df' x') : x ≤ x' := by
  have hx := crossing_pos h hc
  by_contra hlt
  rw [not_le] at hlt
  have h1 := hc'.above x (WithTop.coe_lt_coe.mpr hlt)
  have h2 := demandAt_le_of_qty S S' h.nonNeg h' hD hx
  have h3 := supplyAt_le_of_qty S S' h.nonNeg h' hS hx
  exact absurd (lt_of_le_of_lt h3 (lt_of_lt_of_le hc.at_x h2)) (not_lt.mpr h1.le)

/-- **C71, quantity.** With more demand or more supply (or both) the equilibrium quantity does not
fall. -/
theorem C71_quantity (S S' : Sorter) (df df' : DF) (h : Pos df) (h' : NonNeg df') (k k' : ℚ)
    (hD : ∀ p, demandQty df p ≤ demandQty df' p) (hS : ∀ p, supplyQty df p ≤ supplyQty df' p)
    (i i' : Intersection) (x x' : Ext)
    (hi : intersectStepwise (demandCurve S df).1 (supplyCurve S df).1 k = .ok i) (hx : i.x = some x)
    (hi' : intersectStepwise (demandCurve S' df').1 (supplyCurve S' df').1 k' = .ok i')
    (hx' : i'.x = some x') : x ≤ x' := by
  obtain ⟨q, rfl, hc, -⟩ := intersect_some h.nonNeg hi hx
  obtain ⟨q', rfl, hc', -⟩ := intersect_some h' hi' hx'
  exact WithTop.coe_le_coe.mpr (crossing_le_of_more h h' hD hS hc hc')

/-- The curve that does not step at `x` keeps its value up to some later quantity. -/
theorem demandAt_stays {S : Sorter} {df : DF} {x : ℚ}
    (hn : (x : Ext) ∉ (demandCurve S df).1.map Prod.fst) :
    ∃ y : ℚ, x < y ∧ ∀ z : ℚ, x ≤ z → z ≤ y → demandAt S df x = demandAt S df z := by
  obtain ⟨y, hxy, hy⟩ := gap_after x _ hn
  refine ⟨y, hxy, fun z hz hzy => ?_⟩
  apply stepVal_const _ _ _ (WithTop.coe_le_coe.mpr hz)
  intro b hb hxb
  rw [← demandCurve_eq] at hb
  exact le_trans (WithTop.coe_le_coe.mpr hzy) (hy b hb hxb)

@[inherit_doc demandAt_stays]
theorem supplyAt_stays {S : Sorter} {df : DF} {x : ℚ}
    (hn : (x : Ext) ∉ (supplyCurve S df).1.map Prod.fst) :
    ∃ y : ℚ, x < y ∧ ∀ z : ℚ, x ≤ z → z ≤ y → supplyAt S df x = supplyAt S df z := by
  obtain ⟨y, hxy, hy⟩ := gap_after x _ hn
  refine ⟨y, hxy, fun z hz hzy => ?_⟩
  apply stepVal_const _ _ _ (WithTop.coe_le_coe.mpr hz)
  intro b hb hxb
  rw [← supplyCurve_eq] at hb
  exact le_trans (WithTop.coe_le_coe.mpr hzy) (hy b hb hxb)

/-- Only one of the two curves steps at `x`. -/
def Spec.StepsOnce (S : Sorter) (df : DF) (x : Ext) : Prop :=
  ¬ (x ∈ (demandCurve S df).1.map Prod.fst ∧ x ∈ (supplyCurve S df).1.map Prod.fst)

instance (S : Sorter) (df : DF) (x : Ext) : Decidable (StepsOnce S df x) := by
  unfold StepsOnce; infer_instance

/-- C71 as claimed: with more demand the competitive price does not fall. -/
def Spec.DemandRaisesPrice (S : Sorter) (df df' : DF) : Prop :=
  MoreDemand df df' → ∀ p p' : ℚ, findCompetitivePrice S df = .ok (.fin p) →
    findCompetitivePrice S df' = .ok (.fin p') → p ≤ p'

/-- Price at a crossing where only one curve steps. -/
theorem crossPrice_once {S : Sorter} {df : DF} {k x p : ℚ} (hc : Crossing S df x)
    (ho : StepsOnce S df x) (hv : crossPrice S df k x = .fin p) :
    ((x : Ext) ∉ (supplyCurve S df).1.map Prod.fst ∧ supplyAt S df x = (p : Ext)) ∨
      ((x : Ext) ∉ (demandCurve S df).1.map Prod.fst ∧ demandAt S df x = (p : Ext)) := by
  obtain ⟨s, hs⟩ := hc.supply_fin
  obtain ⟨d, hd⟩ := demand_fin S df x
  unfold crossPrice at hv
  rw [if_neg ho] at hv
  split_ifs at hv with hm
  · rw [hs] at hv
    left
    refine ⟨fun hm' => ho ⟨hm, hm'⟩, ?_⟩
    rw [hs]
    simpa [Val.ofExt] using hv
  · rw [hd] at hv
    right
    refine ⟨hm, ?_⟩
    rw [hd]
    simpa [Val.ofExt] using hv

/-- **C71, price, more demand.** The part that holds: when at each of the two equilibria only one curve
steps, more demand does not lower the price. -/
theorem C71_demand_partial (S S' : Sorter) (df df' : DF) (h : Pos df) (h' : NonNeg df')
    (k k' : ℚ) (hm : MoreDemand df df') (i i' : Intersection) (x x' p p' : ℚ)
    (hi : intersectStepwise (demandCurve S df).1 (supplyCurve S df).1 k = .ok i)
    (hx : i.x = some (x : Ext)) (hv : i.v = .fin p)
    (hi' : intersectStepwise (demandCurve S' df').1 (supplyCurve S' df').1 k' = .ok i')
    (hx' : i'.x = some (x' : Ext)) (hv' : i'.v = .fin p')
    (ho : StepsOnce S df x) (ho' : StepsOnce S' df' x') : p ≤ p' := by
  obtain ⟨q, hq, hc, rfl⟩ := intersect_some h.nonNeg hi hx
  obtain rfl := WithTop.coe_injective hq
  obtain ⟨q', hq', hc', rfl⟩ := intersect_some h' hi' hx'
  obtain rfl := WithTop.coe_injective hq'
  have hx0 := crossing_pos h hc
  have hxx := crossing_le_of_more h h' hm.1 (fun p => (hm.2 p).le) hc hc'
  have hS : ∀ z : ℚ, 0 < z → supplyAt S' df' z = supplyAt S df z := fun z hz => le_antisymm
    (supplyAt_le_of_qty S S' h.nonNeg h' (fun p => (hm.2 p).le) hz)
    (supplyAt_le_of_qty S' S h' h.nonNeg (fun p => (hm.2 p).ge) hz)
  have hD : ∀ z : ℚ, 0 < z → demandAt S df z ≤ demandAt S' df' z := fun z hz =>
    demandAt_le_of_qty S S' h.nonNeg h' hm.1 hz
  -- the new price lies between the curves at the new quantity
  have hb' : supplyAt S' df' x' ≤ (p' : Ext) := by
    rcases crossPrice_once hc' ho' hv' with ⟨_, e⟩ | ⟨_, e⟩
    · exact e.le
    · rw [← e]; exact hc'.at_x.le
  rcases crossPrice_once hc ho hv with ⟨_, e⟩ | ⟨hn, e⟩
  · have h1 := supplyAt_monotone S df (WithTop.coe_le_coe.mpr hxx)
    rw [e, ← hS x' (lt_of_lt_of_le hx0 hxx)] at h1
    exact WithTop.coe_le_coe.mp (le_trans h1 hb')
  · obtain ⟨y, hxy, hy⟩ := demandAt_stays hn
    rcases eq_or_lt_of_le hxx with heq | hlt
    · subst heq
      rcases crossPrice_once hc' ho' hv' with ⟨hn', e'⟩ | ⟨_, e'⟩
      · exfalso
        obtain ⟨y', hxy', hy'⟩ := supplyAt_stays hn'
        have hz : x < min y y' := lt_min hxy hxy'
        have h1 := hc'.above _ (WithTop.coe_lt_coe.mpr hz)
        rw [← hy' _ hz.le (min_le_right _ _), hS x hx0] at h1
        have h2 := hD _ (lt_trans hx0 hz)
        rw [← hy _ hz.le (min_le_left _ _)] at h2
        exact absurd hc.at_x (not_lt.mpr (le_trans h2 h1.le))
      · have := hD x hx0
        rw [e, e'] at this
        exact WithTop.coe_le_coe.mp this
    · have hz : x < min y x' := lt_min hxy hlt
      have h1 := hc.above _ (WithTop.coe_lt_coe.mpr hz)
      rw [← hy _ hz.le (min_le_left _ _), e] at h1
      have h2 := supplyAt_monotone S df
        (WithTop.coe_le_coe.mpr (min_le_right y x') : ((min y x' : ℚ) : Ext) ≤ (x' : Ext))
      rw [← hS x' (lt_of_lt_of_le hx0 hxx)] at h2
      exact WithTop.coe_le_coe.mp (le_trans h1.le (le_trans h2 hb'))

/-- **C71, price, more supply.** When at each of the two equilibria only one curve steps, more supply
does not raise the price. -/
theorem C71_supply_partial (S S' : Sorter) (df df' : DF) (h : Pos df) (h' : NonNeg df')
    (k k' : ℚ) (hm : MoreSupply df df') (i i' : Intersection) (x x' p p' : ℚ)
    (hi : intersectStepwise (demandCurve S df).1 (supplyCurve S df).1 k = .ok i)
    (hx : i.x = some (x : Ext)) (hv : i.v = .fin p)
    (hi' : intersectStepwise (demandCurve S' df').1 (supplyCurve S' df').1 k' = .ok i')
    (hx' : i'.x = some (x' : Ext)) (hv' : i'.v = .fin p')
    (ho : StepsOnce S df x) (ho' : StepsOnce S' df' x') : p' ≤ p := by
  obtain ⟨q, hq, hc, rfl⟩ := intersect_some h.nonNeg hi hx
  obtain rfl := WithTop.coe_injective hq
  obtain ⟨q', hq', hc', rfl⟩ := intersect_some h' hi' hx'
  obtain rfl := WithTop.coe_injective hq'
  have hx0 := crossing_pos h hc
  have hxx := crossing_le_of_more h h' (fun p => (hm.2 p).le) hm.1 hc hc'
  have hD : ∀ z : ℚ, 0 < z → demandAt S' df' z = demandAt S df z := fun z hz => le_antisymm
    (demandAt_le_of_qty S' S h' h.nonNeg (fun p => (hm.2 p).ge) hz)
    (demandAt_le_of_qty S S' h.nonNeg h' (fun p => (hm.2 p).le) hz)
  have hS : ∀ z : ℚ, 0 < z → supplyAt S' df' z ≤ supplyAt S df z := fun z hz =>
    supplyAt_le_of_qty S S' h.nonNeg h' hm.1 hz
  have hb' : (p' : Ext) ≤ demandAt S' df' x' := by
    rcases crossPrice_once hc' ho' hv' with ⟨_, e⟩ | ⟨_, e⟩
    · rw [← e]; exact hc'.at_x.le
    · exact e.ge
  have hpr : ∀ r ∈ df, 0 ≤ r.price := fun r hr => (h r hr).2
  rcases crossPrice_once hc ho hv with ⟨hn, e⟩ | ⟨_, e⟩
  · obtain ⟨y, hxy, hy⟩ := supplyAt_stays hn
    rcases eq_or_lt_of_le hxx with heq | hlt
    · subst heq
      rcases crossPrice_once hc' ho' hv' with ⟨_, e'⟩ | ⟨hn', e'⟩
      · have := hS x hx0
        rw [e, e'] at this
        exact WithTop.coe_le_coe.mp this
      · exfalso
        obtain ⟨y', hxy', hy'⟩ := demandAt_stays hn'
        have hz : x < min y y' := lt_min hxy hxy'
        have h1 := hc'.above _ (WithTop.coe_lt_coe.mpr hz)
        rw [← hy' _ hz.le (min_le_right _ _), hD x hx0] at h1
        have h2 := hS _ (lt_trans hx0 hz)
        rw [← hy _ hz.le (min_le_left _ _)] at h2
        exact absurd hc.at_x (not_lt.mpr (le_trans h1.le h2))
    · have hz : x < min y x' := lt_min hxy hlt
      have h1 := hc.above _ (WithTop.coe_lt_coe.mpr hz)
      rw [← hy _ hz.le (min_le_left _ _), e] at h1
      have h2 := demandAt_antitone S hpr
        (WithTop.coe_le_coe.mpr (min_le_right y x') : ((min y x' : ℚ) : Ext) ≤ (x' : Ext))
      rw [← hD x' (lt_of_lt_of_le hx0 hxx)] at h2
      exact WithTop.coe_le_coe.mp (le_trans hb' (le_trans h2 h1.le))
  · have h1 := demandAt_antitone S hpr (WithTop.coe_le_coe.mpr hxx)
    rw [e, ← hD x' (lt_of_lt_of_le hx0 hxx)] at h1
    exact WithTop.coe_le_coe.mp (le_trans hb' h1)

/-! ## What counts as more demand or supply -/

/-- A new buyer is more demand, a new seller more supply. -/
theorem C71_entry (df : DF) (r : Row) (hq : 0 ≤ r.quantity) :
    (r.buying = true → MoreDemand df (df ++ [r])) ∧
      (r.buying = false → MoreSupply df (df ++ [r])) := by
  constructor
  · intro hb
    refine ⟨fun p => ?_, fun p => ?_⟩
    · unfold demandQty
      rw [List.filter_append, List.map_append, List.sum_append]
      by_cases hp : p ≤ r.price <;> simp [hb, hp, hq]
    · unfold supplyQty
      rw [List.filter_append, List.map_append, List.sum_append]
      simp [hb]
  · intro hb
    refine ⟨fun p => ?_, fun p => ?_⟩
    · unfold supplyQty
      rw [List.filter_append, List.map_append, List.sum_append]
      by_cases hp : r.price ≤ p <;> simp [hb, hp, hq]
    · unfold demandQty
      rw [List.filter_append, List.map_append, List.sum_append]
      simp [hb]

/-! ## Refutation and examples -/

/-- A buyer of 2 units at 9 and a seller of 1 unit at 1. -/
def thinBook : DF := labelFrom 0 [⟨2, 9, 0, true, 0, true⟩, ⟨1, 1, 1, false, 0, true⟩]

/-- The same with one more buyer: 1 unit at 10. -/
def thinBook' : DF := thinBook ++ [⟨⟨1, 10, 2, true, 0, true⟩, 2⟩]

/-- C71 is violated by the code: a new buyer offering more than everybody else lowers the competitive
price from 9 to 11/2, because then both curves step at the equilibrium quantity. -/
theorem C71_refuted : Pos thinBook ∧ Pos thinBook' ∧ MoreDemand thinBook thinBook' ∧
    findCompetitivePrice stableSorter thinBook = .ok (.fin 9) ∧
    findCompetitivePrice stableSorter thinBook' = .ok (.fin (11 / 2)) ∧
    ¬ DemandRaisesPrice stableSorter thinBook thinBook' := by
  have h1 : findCompetitivePrice stableSorter thinBook = .ok (.fin 9) := by decide +kernel
  have h2 : findCompetitivePrice stableSorter thinBook' = .ok (.fin (11 / 2)) := by decide +kernel
  have h3 : MoreDemand thinBook thinBook' :=
    (C71_entry thinBook _ (by decide +kernel)).1 rfl
  refine ⟨by decide +kernel, by decide +kernel, h3, h1, h2, fun h => ?_⟩
  have := h h3 _ _ h1 h2
  norm_num at this

/-- Equilibria at which one curve steps: a buyer of 3 units at 10 and sellers of 1 at 1 and 4 at 5 trade 3
at price 5; with another buyer of 5 units at 8 they trade 5 at price 8, with another seller of 1 unit at 2
still 3 at price 5. -/
example :
    let df := labelFrom 0 [⟨3, 10, 0, true, 0, true⟩, ⟨1, 1, 2, false, 0, true⟩, ⟨4, 5, 3, false, 0, true⟩]
    let r : Row := ⟨⟨5, 8, 4, true, 0, true⟩, 3⟩
    let r' : Row := ⟨⟨1, 2, 4, false, 0, true⟩, 3⟩
    let f := fun df : DF => (intersectStepwise (demandCurve stableSorter df).1
      (supplyCurve stableSorter df).1).toOption.map (fun i => (i.x, i.v))
    Pos df ∧ Pos (df ++ [r]) ∧ Pos (df ++ [r']) ∧
    f df = some (some ((3 : ℚ) : Ext), .fin 5) ∧ f (df ++ [r]) = some (some ((5 : ℚ) : Ext), .fin 8) ∧
    f (df ++ [r']) = some (some ((3 : ℚ) : Ext), .fin 5) ∧
    StepsOnce stableSorter df ((3 : ℚ) : Ext) ∧ StepsOnce stableSorter (df ++ [r]) ((5 : ℚ) : Ext) ∧
    StepsOnce stableSorter (df ++ [r']) ((3 : ℚ) : Ext) := by
  decide +kernel

end PyMarket
