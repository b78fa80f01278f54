import Verif.Props.Curves
import Verif.Model.Muda
import Mathlib.Order.Bounds.Basic

/-! # C08, C09, C10, C11, C51: the intersection of demand and supply -/

set_option autoImplicit false

namespace PyMarket

open Spec

/-- `d` and `s` are the demand and the supply price of the book `df` at the quantity `z`. -/
def Spec.PricesAt (S : Sorter) (df : DF) (z d s : Ext) : Prop :=
  getValueStepwise z (demandCurve S df).1 = some d ∧
    getValueStepwise z (supplyCurve S df).1 = some s

theorem pricesAt_iff {S : Sorter} {df : DF} {z d s : Ext} :
    PricesAt S df z d s ↔ ((0 : ℚ) : Ext) ≤ z ∧ d = demandAt S df z ∧ s = supplyAt S df z := by
  unfold PricesAt
  by_cases hz : z < ((0 : ℚ) : Ext)
  · simp only [getValueStepwise, if_pos hz]
    exact ⟨fun h => (by cases h.1), fun h => absurd hz (not_lt.mpr h.1)⟩
  · rw [demandAt_eq_some (not_lt.mp hz), supplyAt_eq_some (not_lt.mp hz)]
    simp only [Option.some.injEq]
    exact ⟨fun h => ⟨not_lt.mp hz, h.1.symm, h.2.symm⟩, fun h => ⟨h.2.1.symm, h.2.2.symm⟩⟩

/-- What an intersection at `x` means. -/
theorem intersect_some {S : Sorter} {df : DF} (h : NonNeg df) {k : ℚ} {i : Intersection} {x : Ext}
    (hi : intersectStepwise (demandCurve S df).1 (supplyCurve S df).1 k = .ok i)
    (hx : i.x = some x) : ∃ q : ℚ, x = (q : Ext) ∧ Crossing S df q ∧
      i = ⟨some (q : Ext), some (demandIdx S df q), some (supplyIdx S df q),
        crossPrice S df k q⟩ := by
  rcases intersect_cases S h k with ⟨q, hc, he⟩ | ⟨he, _⟩
  · rw [he] at hi
    cases hi
    simp only [Option.some.injEq] at hx
    exact ⟨q, hx.symm, hc, rfl⟩
  · rw [he] at hi
    cases hi
    cases hx

/-! ## C08 -/

/-- `intersect_stepwise` never fails on the two curves of a book with non-negative quantities. -/
theorem C08_total (S : Sorter) (df : DF) (h : ∀ r ∈ df, 0 ≤ r.quantity) (k : ℚ) :
    ∃ i, intersectStepwise (demandCurve S df).1 (supplyCurve S df).1 k = .ok i :=
  intersect_total S h k

/-- C08: at a returned intersection `x`, demand exceeds supply up to `x` and supply exceeds demand
after `x`; the returned positions are the first rows reaching `x`. -/
theorem C08_equilibrium (S : Sorter) (df : DF) (h : NonNeg df) (k : ℚ) (i : Intersection) (x : Ext)
    (hi : intersectStepwise (demandCurve S df).1 (supplyCurve S df).1 k = .ok i)
    (hx : i.x = some x) :
    (∃ q : ℚ, x = (q : Ext) ∧ 0 ≤ q) ∧
    (∀ z d s, PricesAt S df z d s → (z ≤ x → s < d) ∧ (x < z → d < s)) ∧
    (∃ j b d, i.f = some j ∧ (demandCurve S df).1[j]? = some (b, d) ∧ x ≤ b ∧
      ∀ (j' : ℕ) (r : Ext × Ext), j' < j → (demandCurve S df).1[j']? = some r → r.1 < x) ∧
    (∃ j b s, i.g = some j ∧ (supplyCurve S df).1[j]? = some (b, s) ∧ x ≤ b ∧
      ∀ (j' : ℕ) (r : Ext × Ext), j' < j → (supplyCurve S df).1[j']? = some r → r.1 < x) := by
  have key : ∀ (c : Curve) (n : ℕ) (y : Ext),
      (c.map (fun s => decide (y ≤ s.1))).findIdx? id = some n →
      ∀ (j' : ℕ) (r : Ext × Ext), j' < n → c[j']? = some r → r.1 < y := by
    intro c n y hn j' r hj hr
    rw [List.findIdx?_eq_some_iff_getElem] at hn
    obtain ⟨hlt, _, h3⟩ := hn
    have := h3 j' hj
    obtain ⟨hj', hr⟩ := List.getElem?_eq_some_iff.mp hr
    simp only [List.getElem_map, id, decide_eq_true_eq, not_le] at this
    rwa [hr] at this
  obtain ⟨q, rfl, hc, rfl⟩ := intersect_some h hi hx
  refine ⟨⟨q, rfl, hc.nonneg⟩, ?_, ?_, ?_⟩
  · intro z d s hp
    obtain ⟨hz, rfl, rfl⟩ := pricesAt_iff.mp hp
    refine ⟨fun hzx => ?_, fun hzx => hc.above z hzx⟩
    exact lt_of_le_of_lt (supplyAt_monotone S df hzx)
      (lt_of_lt_of_le hc.at_x (demandAt_antitone S (fun r hr => (h r hr).2) hzx))
  · obtain ⟨b, hb1, hb2⟩ := stepCurve_get_idx (q : Ext) 0 (sortDesc S (buys df)) ((0 : ℚ) : Ext)
    refine ⟨demandIdx S df q, b, _, rfl, by rw [demandCurve_eq]; exact hb2, hb1, ?_⟩
    apply key
    rw [demandCurve_eq]; exact findIdx?_stepCurve _ _ _ _
  · obtain ⟨b, hb1, hb2⟩ := stepCurve_get_idx (q : Ext) 0 (sortAsc S (sells df)) ⊤
    refine ⟨supplyIdx S df q, b, _, rfl, by rw [supplyCurve_eq]; exact hb2, hb1, ?_⟩
    apply key
    rw [supplyCurve_eq]; exact findIdx?_stepCurve _ _ _ _

theorem demandQty_nonneg {df : DF} (h : NonNeg df) (p : ℚ) : 0 ≤ demandQty df p :=
  List.sum_nonneg (by
    intro q hq
    obtain ⟨r, hr, rfl⟩ := List.mem_map.mp hq
    exact (h r (List.mem_filter.mp hr).1).1)

theorem supplyQty_nonneg {df : DF} (h : NonNeg df) (p : ℚ) : 0 ≤ supplyQty df p :=
  List.sum_nonneg (by
    intro q hq
    obtain ⟨r, hr, rfl⟩ := List.mem_map.mp hq
    exact (h r (List.mem_filter.mp hr).1).1)

theorem supplyQty_neg {df : DF} (h : NonNeg df) {p : ℚ} (hp : p < 0) : supplyQty df p = 0 := by
  unfold supplyQty
  have : df.filter (fun r => !r.buying && decide (r.price ≤ p)) = [] := by
    rw [List.filter_eq_nil_iff]
    intro r hr
    have := (h r hr).2
    simp only [Bool.and_eq_true, decide_eq_true_eq, not_and, not_le]
    intro _
    linarith
  rw [this]; rfl

/-- C08: the intersection is the largest quantity that can be traded at a uniform price. -/
theorem C08_max_volume (S : Sorter) (df : DF) (h : NonNeg df) (k : ℚ) (i : Intersection) (q : ℚ)
    (hi : intersectStepwise (demandCurve S df).1 (supplyCurve S df).1 k = .ok i)
    (hx : i.x = some (q : Ext)) :
    IsGreatest {v | ∃ p : ℚ, v = min (demandQty df p) (supplyQty df p)} q := by
  obtain ⟨q', hq', hc, rfl⟩ := intersect_some h hi hx
  obtain rfl := WithTop.coe_injective hq'
  have hub : ∀ p : ℚ, min (demandQty df p) (supplyQty df p) ≤ q := by
    intro p
    by_contra hlt
    rw [not_le] at hlt
    generalize hm : min (demandQty df p) (supplyQty df p) = m at hlt
    have hm0 : 0 < m := lt_of_le_of_lt hc.nonneg hlt
    have hms : m ≤ supplyQty df p := hm ▸ min_le_right _ _
    have hmd : m ≤ demandQty df p := hm ▸ min_le_left _ _
    have hp : 0 ≤ p := by
      by_contra hp
      rw [supplyQty_neg h (not_le.mp hp)] at hms
      linarith
    have h1 := (supplyAt_galois S (fun r hr => (h r hr).1) hm0).mpr hms
    have h2 : (p : Ext) ≤ demandAt S df m := by
      rcases eq_or_lt_of_le hp with rfl | hp
      · exact demandAt_nonneg S (fun r hr => (h r hr).2) _
      · exact (demandAt_galois S (fun r hr => (h r hr).1) hm0 hp).mpr hmd
    exact absurd (hc.above m (WithTop.coe_lt_coe.mpr hlt)) (not_lt.mpr (le_trans h1 h2))
  refine ⟨?_, ?_⟩
  · obtain ⟨d, hd⟩ := demand_fin S df q
    refine ⟨d, le_antisymm (le_min ?_ ?_) (hub d)⟩
    · rcases eq_or_lt_of_le hc.nonneg with h0 | h0
      · rw [← h0]; exact demandQty_nonneg h d
      · have hlt := hc.at_x
        have hs0 := supplyAt_nonneg S (fun r hr => (h r hr).2) (q : Ext)
        have hd0 : 0 < d := by
          rw [hd] at hlt
          exact WithTop.coe_lt_coe.mp (lt_of_le_of_lt hs0 hlt)
        exact (demandAt_galois S (fun r hr => (h r hr).1) h0 hd0).mp hd.ge
    · rcases eq_or_lt_of_le hc.nonneg with h0 | h0
      · rw [← h0]; exact supplyQty_nonneg h d
      · refine (supplyAt_galois S (fun r hr => (h r hr).1) h0).mp ?_
        rw [← hd]; exact hc.at_x.le
  · rintro v ⟨p, rfl⟩
    exact hub p

/-- C08: neither the tie-breaking of the sort, nor the order of the book, nor `k` changes the
intersection quantity (or whether there is one). -/
theorem C08_tie_independent (S S' : Sorter) (df df' : DF) (h : NonNeg df) (hp : SameBids df df')
    (k k' : ℚ) (i i' : Intersection)
    (hi : intersectStepwise (demandCurve S df).1 (supplyCurve S df).1 k = .ok i)
    (hi' : intersectStepwise (demandCurve S' df').1 (supplyCurve S' df').1 k' = .ok i') :
    i.x = i'.x := by
  have h' : NonNeg df' := hp.nonNeg h
  have eD : ∀ z : Ext, ((0 : ℚ) : Ext) ≤ z → demandAt S df z = demandAt S' df' z :=
    fun z hz => demandAt_perm S S' h hp hz
  have eS : ∀ z : Ext, ((0 : ℚ) : Ext) ≤ z → supplyAt S df z = supplyAt S' df' z :=
    fun z hz => supplyAt_perm S S' h hp hz
  rcases intersect_cases S h k with ⟨q, hc, he⟩ | ⟨he, hn⟩ <;>
    rcases intersect_cases S' h' k' with ⟨q', hc', he'⟩ | ⟨he', hn'⟩ <;>
    rw [he] at hi <;> rw [he'] at hi' <;> cases hi <;> cases hi'
  · have : q = q' := by
      have c0 := WithTop.coe_le_coe.mpr hc.nonneg
      have c0' := WithTop.coe_le_coe.mpr hc'.nonneg
      rcases lt_trichotomy q q' with hl | hl | hl
      · have h1 := hc.above q' (WithTop.coe_lt_coe.mpr hl)
        rw [eD _ c0', eS _ c0'] at h1
        exact absurd hc'.at_x (not_lt.mpr h1.le)
      · exact hl
      · have h1 := hc'.above q (WithTop.coe_lt_coe.mpr hl)
        rw [← eD _ c0, ← eS _ c0] at h1
        exact absurd hc.at_x (not_lt.mpr h1.le)
    rw [this]
  · exfalso
    have c0 := WithTop.coe_le_coe.mpr hc.nonneg
    apply hn'
    refine ⟨⟨q, c0, ?_⟩, ?_⟩
    · rw [← eD _ c0, ← eS _ c0]; exact hc.at_x
    · intro z hz
      rw [← eD _ hz, ← eS _ hz]
      exact hc.no_tie h z
  · exfalso
    have c0 := WithTop.coe_le_coe.mpr hc'.nonneg
    apply hn
    refine ⟨⟨q', c0, ?_⟩, ?_⟩
    · rw [eD _ c0, eS _ c0]; exact hc'.at_x
    · intro z hz
      rw [eD _ hz, eS _ hz]
      exact hc'.no_tie h' z
  · rfl

/-- Demand 2 @ 5, 5 @ 3; supply 2 @ 1, 3 @ 4: the curves cross at 2. -/
example : NonNeg curveBook ∧
    intersectStepwise (demandCurve stableSorter curveBook).1 (supplyCurve stableSorter curveBook).1 =
      .ok ⟨some ((2 : ℚ) : Ext), some 0, some 0, .fin 3⟩ ∧
    min (demandQty curveBook 3) (supplyQty curveBook 3) = 2 := by
  decide +kernel

/-! ## C09 -/

/-- C09 as claimed: an intersection is returned whenever demand exceeds supply somewhere. -/
def Spec.FindsProfitableTrade (S : Sorter) (df : DF) (k : ℚ) : Prop :=
  (∃ z d s, PricesAt S df z d s ∧ s < d) →
    ∃ i x, intersectStepwise (demandCurve S df).1 (supplyCurve S df).1 k = .ok i ∧ i.x = some x

/-- C09, the part that holds (exact condition): an intersection is returned if and only if demand
strictly exceeds supply at some quantity *and* the two prices never coincide. The full claim
`FindsProfitableTrade` drops the second condition and is refuted below. -/
theorem C09_intersection_found_partial (S : Sorter) (df : DF) (h : NonNeg df) (k : ℚ) :
    (∃ i x, intersectStepwise (demandCurve S df).1 (supplyCurve S df).1 k = .ok i ∧ i.x = some x) ↔
      (∃ z d s, PricesAt S df z d s ∧ s < d) ∧ (∀ z d s, PricesAt S df z d s → d ≠ s) := by
  constructor
  · rintro ⟨i, x, hi, hx⟩
    obtain ⟨q, rfl, hc, rfl⟩ := intersect_some h hi hx
    refine ⟨⟨q, _, _, pricesAt_iff.mpr ⟨WithTop.coe_le_coe.mpr hc.nonneg, rfl, rfl⟩, hc.at_x⟩, ?_⟩
    intro z d s hp
    obtain ⟨_, rfl, rfl⟩ := pricesAt_iff.mp hp
    exact hc.no_tie h z
  · rintro ⟨⟨z, d, s, hp, hlt⟩, hne⟩
    rcases intersect_cases S h k with ⟨q, _, he⟩ | ⟨_, hn⟩
    · exact ⟨_, _, he, rfl⟩
    · exfalso
      apply hn
      obtain ⟨hz, rfl, rfl⟩ := pricesAt_iff.mp hp
      exact ⟨⟨z, hz, hlt⟩, fun y hy => hne y _ _ (pricesAt_iff.mpr ⟨hy, rfl, rfl⟩)⟩

/-- Buyers 1 @ 5 and 1 @ 3, sellers 1 @ 1 and 1 @ 3: one unit is worth 4, but the prices tie on the
second unit. -/
def tieBook : DF :=
  [⟨⟨1, 5, 0, true, 0, true⟩, 0⟩, ⟨⟨1, 3, 1, true, 0, true⟩, 1⟩,
   ⟨⟨1, 1, 2, false, 0, true⟩, 2⟩, ⟨⟨1, 3, 3, false, 0, true⟩, 3⟩]

/-- C09 is violated by the code: `tieBook` has profitable trades but no intersection is returned. -/
theorem C09_refuted : NonNeg tieBook ∧ ¬ FindsProfitableTrade stableSorter tieBook (1 / 2) := by
  refine ⟨by decide +kernel, fun hf => ?_⟩
  have h0 : getValueStepwise ((1 : ℚ) : Ext) (demandCurve stableSorter tieBook).1 =
      some ((5 : ℚ) : Ext) := by decide +kernel
  have h1 : getValueStepwise ((1 : ℚ) : Ext) (supplyCurve stableSorter tieBook).1 =
      some ((1 : ℚ) : Ext) := by decide +kernel
  obtain ⟨i, x, hi, hx⟩ := hf ⟨((1 : ℚ) : Ext), _, _, ⟨h0, h1⟩, by decide +kernel⟩
  have h2 : intersectStepwise (demandCurve stableSorter tieBook).1
      (supplyCurve stableSorter tieBook).1 (1 / 2) = .ok ⟨none, none, none, .inf⟩ := by
    decide +kernel
  rw [h2] at hi
  cases hi
  cases hx

example : (∃ z d s, PricesAt stableSorter curveBook z d s ∧ s < d) ∧
    (∀ z d s, PricesAt stableSorter curveBook z d s → d ≠ s) :=
  (C09_intersection_found_partial stableSorter curveBook (by decide +kernel) (1 / 2)).mp
    ⟨_, _, (by decide +kernel : intersectStepwise (demandCurve stableSorter curveBook).1
      (supplyCurve stableSorter curveBook).1 (1 / 2) =
      .ok ⟨some ((2 : ℚ) : Ext), some 0, some 0, .fin 3⟩), rfl⟩

/-! ## C10 -/

theorem kMix_fin (k s d : ℚ) : kMix k (s : Ext) (d : Ext) = .fin (k * s + (1 - k) * d) := rfl

theorem crossPrice_between {S : Sorter} {df : DF} {k q : ℚ} (hk0 : 0 ≤ k) (hk1 : k ≤ 1)
    (hc : Crossing S df q) : ∃ p : ℚ, crossPrice S df k q = .fin p ∧
      supplyAt S df q ≤ (p : Ext) ∧ (p : Ext) ≤ demandAt S df q := by
  obtain ⟨s, hs⟩ := hc.supply_fin
  obtain ⟨d, hd⟩ := demand_fin S df q
  have hlt := hc.at_x
  rw [hs, hd] at hlt
  have hlt' : s < d := WithTop.coe_lt_coe.mp hlt
  unfold crossPrice
  rw [hs, hd]
  split_ifs
  · refine ⟨_, kMix_fin k s d, WithTop.coe_le_coe.mpr ?_, WithTop.coe_le_coe.mpr ?_⟩
    · nlinarith
    · nlinarith
  · exact ⟨s, rfl, le_refl _, hlt.le⟩
  · exact ⟨d, rfl, hlt.le, le_refl _⟩

/-- C10: with an intersection at `x`, the price is finite and lies between the supply and the demand
price at every quantity up to `x`. -/
theorem C10_price_supported (S : Sorter) (df : DF) (h : NonNeg df) (k : ℚ) (hk0 : 0 ≤ k)
    (hk1 : k ≤ 1) (i : Intersection) (x : Ext)
    (hi : intersectStepwise (demandCurve S df).1 (supplyCurve S df).1 k = .ok i)
    (hx : i.x = some x) :
    ∃ p : ℚ, i.v = .fin p ∧ ∀ z d s, z ≤ x → PricesAt S df z d s → s ≤ (p : Ext) ∧ (p : Ext) ≤ d := by
  obtain ⟨q, rfl, hc, rfl⟩ := intersect_some h hi hx
  obtain ⟨p, h1, h2, h3⟩ := crossPrice_between hk0 hk1 hc
  refine ⟨p, h1, ?_⟩
  intro z d s hz hp
  obtain ⟨_, rfl, rfl⟩ := pricesAt_iff.mp hp
  exact ⟨le_trans (supplyAt_monotone S df hz) h2,
    le_trans h3 (demandAt_antitone S (fun r hr => (h r hr).2) hz)⟩

/-- C10, exact price for any `k`: at a quantity where only the demand curve steps the price is the
supply price, where only the supply curve steps it is the demand price, and where both step it is the
mean of supply and demand price with weight `k` on the supply price. -/
theorem C10_price_value (S : Sorter) (df : DF) (h : NonNeg df) (k : ℚ) (i : Intersection) (x : Ext)
    (hi : intersectStepwise (demandCurve S df).1 (supplyCurve S df).1 k = .ok i)
    (hx : i.x = some x) :
    ∃ d s : ℚ, PricesAt S df x d s ∧
      (x ∈ (demandCurve S df).1.map Prod.fst ∨ x ∈ (supplyCurve S df).1.map Prod.fst) ∧
      (x ∉ (supplyCurve S df).1.map Prod.fst → i.v = .fin s) ∧
      (x ∉ (demandCurve S df).1.map Prod.fst → i.v = .fin d) ∧
      (x ∈ (demandCurve S df).1.map Prod.fst → x ∈ (supplyCurve S df).1.map Prod.fst →
        i.v = .fin (k * s + (1 - k) * d)) := by
  obtain ⟨q, rfl, hc, rfl⟩ := intersect_some h hi hx
  obtain ⟨s, hs⟩ := hc.supply_fin
  obtain ⟨d, hd⟩ := demand_fin S df q
  refine ⟨d, s, pricesAt_iff.mpr ⟨WithTop.coe_le_coe.mpr hc.nonneg, hd.symm, hs.symm⟩, hc.mem,
    ?_, ?_, ?_⟩
  · intro hn
    have hm := hc.mem.resolve_right hn
    simp only [crossPrice, hn, and_false, if_false, hm, if_true, hs]
    rfl
  · intro hn
    simp only [crossPrice, hn, false_and, if_false, hd]
    rfl
  · intro h1 h2
    simp only [crossPrice, h1, h2, and_self, if_true, hs, hd]
    exact kMix_fin k s d

/-- C10: without an intersection the price is `+inf` (for `k > 0`). -/
theorem C10_price_infinite (S : Sorter) (df : DF) (h : NonNeg df) (k : ℚ) (hk : 0 < k)
    (i : Intersection)
    (hi : intersectStepwise (demandCurve S df).1 (supplyCurve S df).1 k = .ok i)
    (hx : i.x = none) : i.v = .inf ∧ i.f = none ∧ i.g = none := by
  rcases intersect_cases S h k with ⟨q, hc, he⟩ | ⟨he, _⟩
  · rw [he] at hi; cases hi; cases hx
  · rw [he] at hi
    cases hi
    refine ⟨?_, rfl, rfl⟩
    have : Val.scale k (⊤ : Ext) = .inf := by
      change (if 0 < k then Val.inf else _) = _
      rw [if_pos hk]
    unfold kMix
    rw [this]; rfl

/-- C10: `find_competitive_price` returns either a price supported at some quantity where the curves
cross, or `+inf` when they do not cross. -/
theorem C10_competitive_price (S : Sorter) (df : DF) (h : NonNeg df) :
    ∃ v, findCompetitivePrice S df = .ok v ∧
      ((∃ (x p : ℚ), 0 ≤ x ∧ v = .fin p ∧ 0 ≤ p ∧
        (∀ z d s, PricesAt S df z d s → z ≤ (x : Ext) → s ≤ (p : Ext) ∧ (p : Ext) ≤ d) ∧
        (∀ z d s, PricesAt S df z d s → (x : Ext) < z → d < s)) ∨
      (v = .inf ∧ ¬ ((∃ z d s, PricesAt S df z d s ∧ s < d) ∧
        (∀ z d s, PricesAt S df z d s → d ≠ s)))) := by
  obtain ⟨i, hi⟩ := C08_total S df (fun r hr => (h r hr).1) (1 / 2)
  refine ⟨i.v, ?_, ?_⟩
  · unfold findCompetitivePrice; rw [hi]; rfl
  · cases hx : i.x with
    | some x =>
      left
      obtain ⟨⟨q, rfl, hq0⟩, h2, _⟩ := C08_equilibrium S df h _ i x hi hx
      obtain ⟨p, h3, h4⟩ := C10_price_supported S df h _ (by norm_num) (by norm_num) i _ hi hx
      refine ⟨q, p, hq0, h3, ?_, fun z d s hp hz => h4 z d s hz hp,
        fun z d s hp hz => (h2 z d s hp).2 hz⟩
      have := h4 ((0 : ℚ) : Ext) _ _ (WithTop.coe_le_coe.mpr hq0)
        (pricesAt_iff.mpr ⟨le_refl _, rfl, rfl⟩)
      exact WithTop.coe_le_coe.mp
        (le_trans (supplyAt_nonneg S (fun r hr => (h r hr).2) _) this.1)
    | none =>
      right
      refine ⟨(C10_price_infinite S df h _ (by norm_num) i hi hx).1, ?_⟩
      intro hn
      obtain ⟨i', x, hi', hx'⟩ := (C09_intersection_found_partial S df h (1 / 2)).mpr hn
      rw [hi] at hi'
      cases hi'
      rw [hx] at hx'
      cases hx'

example : findCompetitivePrice stableSorter curveBook = .ok (.fin 3) ∧
    findCompetitivePrice stableSorter tieBook = .ok .inf := by
  decide +kernel

/-- The three cases of the price, with `k = 1/4`: one buyer for 1 unit at 9, one seller of 1 unit at 1
(both step), of 2 units (only demand steps), and two units wanted of one offered (only supply). -/
example :
    let v := fun (a b : ℚ) =>
      let df := labelFrom 0 [⟨a, 9, 0, true, 0, true⟩, ⟨b, 1, 1, false, 0, true⟩]
      (intersectStepwise (demandCurve stableSorter df).1 (supplyCurve stableSorter df).1
        (1 / 4)).toOption.map (fun i => (i.x, i.v))
    v 1 1 = some (some ((1 : ℚ) : Ext), .fin 7) ∧ v 1 2 = some (some ((1 : ℚ) : Ext), .fin 1) ∧
      v 2 1 = some (some ((1 : ℚ) : Ext), .fin 9) := by
  decide +kernel

/-! ## C11 -/

/-- The price `p` clears the quantity `x`: everybody strictly interested is served and `x` does not
exceed what is offered at `p`, on both sides. -/
def Spec.Clears (df : DF) (p x : ℚ) : Prop :=
  demandQtyAbove df p ≤ x ∧ x ≤ demandQty df p ∧ supplyQtyBelow df p ≤ x ∧ x ≤ supplyQty df p

instance (df : DF) (p x : ℚ) : Decidable (Clears df p x) := by unfold Clears; infer_instance

theorem demandQty_antitone {df : DF} (h : NonNeg df) {p p' : ℚ} (hp : p ≤ p') :
    demandQty df p' ≤ demandQty df p := by
  unfold demandQty
  apply List.Sublist.sum_le_sum
  · apply List.Sublist.map
    apply List.monotone_filter_right
    intro r hr
    simp only [Bool.and_eq_true, decide_eq_true_eq] at hr ⊢
    exact ⟨hr.1, le_trans hp hr.2⟩
  · intro q hq
    obtain ⟨r, hr, rfl⟩ := List.mem_map.mp hq
    exact (h r (List.mem_filter.mp hr).1).1

theorem crossing_le_demandQty {S : Sorter} {df : DF} (h : NonNeg df) {q p : ℚ}
    (hc : Crossing S df q) (hp : (p : Ext) ≤ demandAt S df q) : q ≤ demandQty df p := by
  rcases eq_or_lt_of_le hc.nonneg with h0 | h0
  · rw [← h0]; exact demandQty_nonneg h p
  obtain ⟨d, hd⟩ := demand_fin S df q
  have hlt := hc.at_x
  have hd0 : 0 < d := by
    rw [hd] at hlt
    exact WithTop.coe_lt_coe.mp
      (lt_of_le_of_lt (supplyAt_nonneg S (fun r hr => (h r hr).2) (q : Ext)) hlt)
  rw [hd] at hp
  exact le_trans ((demandAt_galois S (fun r hr => (h r hr).1) h0 hd0).mp hd.ge)
    (demandQty_antitone h (WithTop.coe_le_coe.mp hp))

theorem crossing_le_supplyQty {S : Sorter} {df : DF} (h : NonNeg df) {q p : ℚ}
    (hc : Crossing S df q) (hp : supplyAt S df q ≤ (p : Ext)) : q ≤ supplyQty df p := by
  rcases eq_or_lt_of_le hc.nonneg with h0 | h0
  · rw [← h0]; exact supplyQty_nonneg h p
  · exact (supplyAt_galois S (fun r hr => (h r hr).1) h0).mp hp

/-- A breakpoint-free interval to the right of a point that is no breakpoint. -/
theorem gap_after (x : ℚ) (l : Curve) : (x : Ext) ∉ l.map Prod.fst →
    ∃ y : ℚ, x < y ∧ ∀ b ∈ l, (x : Ext) ≤ b.1 → (y : Ext) ≤ b.1 := by
  induction l with
  | nil => intro _; exact ⟨x + 1, by linarith, by simp⟩
  | cons b l ih =>
    intro hmem
    simp only [List.map_cons, List.mem_cons, not_or] at hmem
    obtain ⟨y, hy1, hy2⟩ := ih hmem.2
    rcases le_or_gt (x : Ext) b.1 with hb | hb
    · have hb' := lt_of_le_of_ne hb hmem.1
      rcases eq_or_ne b.1 ⊤ with ht | ht
      · refine ⟨y, hy1, ?_⟩
        intro b' hb'' hx'
        rcases List.mem_cons.mp hb'' with rfl | hb''
        · rw [ht]; exact le_top
        · exact hy2 b' hb'' hx'
      · obtain ⟨c, hc'⟩ := WithTop.ne_top_iff_exists.mp ht
        refine ⟨min y c, lt_min hy1 ?_, ?_⟩
        · rw [← hc'] at hb'; exact WithTop.coe_lt_coe.mp hb'
        · intro b' hb'' hx'
          rcases List.mem_cons.mp hb'' with rfl | hb''
          · rw [← hc']; exact WithTop.coe_le_coe.mpr (min_le_right _ _)
          · exact le_trans (WithTop.coe_le_coe.mpr (min_le_left _ _)) (hy2 b' hb'' hx')
    · refine ⟨y, hy1, ?_⟩
      intro b' hb'' hx'
      rcases List.mem_cons.mp hb'' with rfl | hb''
      · exact absurd hx' (not_le.mpr hb)
      · exact hy2 b' hb'' hx'

/-- C11, the part that holds: if `x` is a breakpoint of only one curve, the price clears. -/
theorem C11_price_clears_partial (S : Sorter) (df : DF) (h : NonNeg df) (k : ℚ) (i : Intersection)
    (x p : ℚ) (hi : intersectStepwise (demandCurve S df).1 (supplyCurve S df).1 k = .ok i)
    (hx : i.x = some (x : Ext)) (hv : i.v = .fin p)
    (hone : ¬ ((x : Ext) ∈ (demandCurve S df).1.map Prod.fst ∧
      (x : Ext) ∈ (supplyCurve S df).1.map Prod.fst)) : Clears df p x := by
  obtain ⟨q, hq, hc, rfl⟩ := intersect_some h hi hx
  obtain rfl := WithTop.coe_injective hq
  obtain ⟨s, hs⟩ := hc.supply_fin
  obtain ⟨d, hd⟩ := demand_fin S df x
  have hsd := hc.at_x
  have hs0 : (0 : ℚ) ≤ s := by
    have := supplyAt_nonneg S (fun r hr => (h r hr).2) (x : Ext)
    rw [hs] at this
    exact WithTop.coe_le_coe.mp this
  simp only [crossPrice, if_neg hone] at hv
  have hsd' : s < d := by rw [hs, hd] at hsd; exact WithTop.coe_lt_coe.mp hsd
  -- next grid point after `x`
  by_cases hm : (x : Ext) ∈ (demandCurve S df).1.map Prod.fst
  · rw [if_pos hm, hs] at hv
    obtain rfl : s = p := by simpa [Val.ofExt] using hv
    have hnot : (x : Ext) ∉ (supplyCurve S df).1.map Prod.fst := fun h' => hone ⟨hm, h'⟩
    refine ⟨?_, crossing_le_demandQty h hc (by rw [hd]; exact WithTop.coe_le_coe.mpr hsd'.le), ?_,
      crossing_le_supplyQty h hc hs.le⟩
    · by_contra hlt
      rw [not_le] at hlt
      -- demand stays above `s` up to the total; look just after `x`
      have h0 : 0 < demandQtyAbove df s := lt_of_le_of_lt hc.nonneg hlt
      have h1 := (demandAt_galois_lt S (fun r hr => (h r hr).1) h0 hs0).mpr (le_refl _)
      -- a point z in (x, D] where supply is still `s`
      have hz : ∃ z : ℚ, x < z ∧ z ≤ demandQtyAbove df s ∧ supplyAt S df z = supplyAt S df x := by
        obtain ⟨y, hxy, hy⟩ : ∃ y : ℚ, x < y ∧
            ∀ b ∈ (supplyCurve S df).1, (x : Ext) ≤ b.1 → (y : Ext) ≤ b.1 := by
          exact gap_after x _ hnot
        refine ⟨min y (demandQtyAbove df s), lt_min hxy hlt, min_le_right _ _, ?_⟩
        symm
        apply stepVal_const _ _ _ (WithTop.coe_le_coe.mpr (lt_min hxy hlt).le)
        intro b hb hxb
        rw [← supplyCurve_eq] at hb
        exact le_trans (WithTop.coe_le_coe.mpr (min_le_left _ _)) (hy b hb hxb)
      obtain ⟨z, hz1, hz2, hz3⟩ := hz
      have h2 := hc.above z (WithTop.coe_lt_coe.mpr hz1)
      rw [hz3, hs] at h2
      have h3 := (demandAt_galois_lt S (fun r hr => (h r hr).1)
        (lt_of_le_of_lt hc.nonneg hz1) hs0).mpr hz2
      exact absurd h2 (not_lt.mpr h3.le)
    · by_contra hlt
      rw [not_le] at hlt
      have h0 : 0 < supplyQtyBelow df s := lt_of_le_of_lt hc.nonneg hlt
      have h1 := (supplyAt_galois_lt S (fun r hr => (h r hr).1) h0).mpr (le_refl _)
      have h2 := supplyAt_monotone S df (WithTop.coe_le_coe.mpr hlt.le)
      rw [hs] at h2
      exact absurd h1 (not_lt.mpr h2)
  · rw [if_neg hm, hd] at hv
    obtain rfl : d = p := by simpa [Val.ofExt] using hv
    have hd0 : 0 ≤ d := le_trans hs0 hsd'.le
    refine ⟨?_, crossing_le_demandQty h hc hd.ge, ?_,
      crossing_le_supplyQty h hc (by rw [hs]; exact WithTop.coe_le_coe.mpr hsd'.le)⟩
    · by_contra hlt
      rw [not_le] at hlt
      have h0 : 0 < demandQtyAbove df d := lt_of_le_of_lt hc.nonneg hlt
      have h1 := (demandAt_galois_lt S (fun r hr => (h r hr).1) h0 hd0).mpr (le_refl _)
      have h2 := demandAt_antitone S (fun r hr => (h r hr).2) (WithTop.coe_le_coe.mpr hlt.le)
      rw [hd] at h2
      exact absurd h1 (not_lt.mpr h2)
    · by_contra hlt
      rw [not_le] at hlt
      have hnot : (x : Ext) ∉ (demandCurve S df).1.map Prod.fst := hm
      obtain ⟨y, hxy, hy⟩ := gap_after x _ hnot
      have hz : demandAt S df (x : Ext) = demandAt S df ((min y (supplyQtyBelow df d) : ℚ) : Ext) := by
        apply stepVal_const _ _ _ (WithTop.coe_le_coe.mpr (lt_min hxy hlt).le)
        intro b hb hxb
        rw [← demandCurve_eq] at hb
        exact le_trans (WithTop.coe_le_coe.mpr (min_le_left _ _)) (hy b hb hxb)
      have h2 := hc.above _ (WithTop.coe_lt_coe.mpr (lt_min hxy hlt))
      rw [← hz, hd] at h2
      have h3 := (supplyAt_galois_lt S (fun r hr => (h r hr).1)
        (lt_of_le_of_lt hc.nonneg (lt_min hxy hlt))).mpr (min_le_right _ _)
      exact absurd h2 (not_lt.mpr h3.le)

/-- C11, exactly: the price clears iff beyond `x` the demand price is at most the price and the supply
price at least the price. With both curves stepping at `x` nothing enforces this. -/
theorem C11_exact (S : Sorter) (df : DF) (h : NonNeg df) (k : ℚ) (hk0 : 0 ≤ k) (hk1 : k ≤ 1)
    (i : Intersection) (x p : ℚ)
    (hi : intersectStepwise (demandCurve S df).1 (supplyCurve S df).1 k = .ok i)
    (hx : i.x = some (x : Ext)) (hv : i.v = .fin p) :
    Clears df p x ↔
      ∀ z d s, (x : Ext) < z → PricesAt S df z d s → d ≤ (p : Ext) ∧ (p : Ext) ≤ s := by
  obtain ⟨q, hq, hc, rfl⟩ := intersect_some h hi hx
  obtain rfl := WithTop.coe_injective hq
  obtain ⟨p', e, h2, h3⟩ := crossPrice_between hk0 hk1 hc
  obtain rfl : p' = p := by rw [e] at hv; cases hv; rfl
  have hqn : ∀ r ∈ df, 0 ≤ r.quantity := fun r hr => (h r hr).1
  have hp0 : (0 : ℚ) ≤ p' :=
    WithTop.coe_le_coe.mp (le_trans (supplyAt_nonneg S (fun r hr => (h r hr).2) (x : Ext)) h2)
  constructor
  · rintro ⟨c1, _, c3, _⟩ z d s hz hp
    obtain ⟨_, rfl, rfl⟩ := pricesAt_iff.mp hp
    rcases eq_or_ne z ⊤ with rfl | hne
    · rw [demandAt_top, supplyAt_top]
      exact ⟨WithTop.coe_le_coe.mpr hp0, le_top⟩
    · obtain ⟨y, rfl⟩ := WithTop.ne_top_iff_exists.mp hne
      have hxy : x < y := WithTop.coe_lt_coe.mp hz
      have hy0 : 0 < y := lt_of_le_of_lt hc.nonneg hxy
      constructor
      · rw [← not_lt, demandAt_galois_lt S hqn hy0 hp0]
        linarith
      · rw [← not_lt, supplyAt_galois_lt S hqn hy0]
        linarith
  · intro hall
    have key : ∀ y : ℚ, x < y → demandAt S df y ≤ (p' : Ext) ∧ (p' : Ext) ≤ supplyAt S df y := by
      intro y hy
      exact hall y _ _ (WithTop.coe_lt_coe.mpr hy)
        (pricesAt_iff.mpr ⟨WithTop.coe_le_coe.mpr (le_trans hc.nonneg hy.le), rfl, rfl⟩)
    refine ⟨?_, crossing_le_demandQty h hc h3, ?_, crossing_le_supplyQty h hc h2⟩
    · by_contra hlt
      rw [not_le] at hlt
      exact absurd ((demandAt_galois_lt S hqn (lt_of_le_of_lt hc.nonneg hlt) hp0).mpr (le_refl _))
        (not_lt.mpr (key _ hlt).1)
    · by_contra hlt
      rw [not_le] at hlt
      exact absurd ((supplyAt_galois_lt S hqn (lt_of_le_of_lt hc.nonneg hlt)).mpr (le_refl _))
        (not_lt.mpr (key _ hlt).2)

/-- Both curves step at quantity 1: buyers 1 @ 10 and 1 @ 9, sellers 1 @ 1 and 1 @ 19/2. -/
def alignedBook : DF :=
  [⟨⟨1, 10, 0, true, 0, true⟩, 0⟩, ⟨⟨1, 9, 1, true, 0, true⟩, 1⟩,
   ⟨⟨1, 1, 2, false, 0, true⟩, 2⟩, ⟨⟨1, 19 / 2, 3, false, 0, true⟩, 3⟩]

/-- C11 is violated by the code: the curves of `alignedBook` cross at 1 and the price returned is
11/2, at which two units are demanded by bids strictly above the price and one is offered. -/
theorem C11_refuted : NonNeg alignedBook ∧
    intersectStepwise (demandCurve stableSorter alignedBook).1
      (supplyCurve stableSorter alignedBook).1 =
        .ok ⟨some ((1 : ℚ) : Ext), some 0, some 0, .fin (11 / 2)⟩ ∧
    ¬ Clears alignedBook (11 / 2) 1 ∧ demandQtyAbove alignedBook (11 / 2) = 2 ∧
    supplyQty alignedBook (11 / 2) = 1 := by
  decide +kernel

/-- The hypotheses of `C11_price_clears_partial` hold for `curveBook2` (the crossing at 3 is a
breakpoint of the demand curve only). -/
def curveBook2 : DF :=
  [⟨⟨3, 10, 0, true, 0, true⟩, 0⟩, ⟨⟨1, 2, 1, true, 0, true⟩, 1⟩,
   ⟨⟨1, 1, 2, false, 0, true⟩, 2⟩, ⟨⟨4, 5, 3, false, 0, true⟩, 3⟩]

example : NonNeg curveBook2 ∧
    intersectStepwise (demandCurve stableSorter curveBook2).1
      (supplyCurve stableSorter curveBook2).1 =
        .ok ⟨some ((3 : ℚ) : Ext), some 0, some 1, .fin 5⟩ ∧
    ((3 : ℚ) : Ext) ∉ (supplyCurve stableSorter curveBook2).1.map Prod.fst ∧
    Clears curveBook2 5 3 := by
  decide +kernel

/-! ## C51 -/

/-- C51 as claimed: the price found does not depend on the order of submission. -/
def Spec.PriceOrderIndependent (S : Sorter) (df df' : DF) : Prop :=
  SameBids df df' → findCompetitivePrice S df = findCompetitivePrice S df'

theorem stepCurve_congr (a : ℚ) (rows rows' : DF) (e : Ext)
    (h : rows.map (fun r => r.toBid) = rows'.map (fun r => r.toBid)) :
    stepCurve a rows e = stepCurve a rows' e := by
  induction rows generalizing a rows' with
  | nil =>
    cases rows' with
    | nil => rfl
    | cons r' rows' => simp at h
  | cons r rows ih =>
    cases rows' with
    | nil => simp at h
    | cons r' rows' =>
      simp only [List.map_cons, List.cons.injEq] at h
      simp only [stepCurve, h.1]
      rw [ih _ _ h.2]

theorem sorted_bids_eq {le : Bid → Bid → Prop} {l l' : DF}
    (hp : (l.map (fun r => r.toBid)).Perm (l'.map (fun r => r.toBid)))
    (hs : l.Pairwise (fun r r' => le r.toBid r'.toBid))
    (hs' : l'.Pairwise (fun r r' => le r.toBid r'.toBid))
    (ha : ∀ a b, le a b → le b a → a.price = b.price)
    (hn : (l.map (fun r => r.price)).Nodup) :
    l.map (fun r => r.toBid) = l'.map (fun r => r.toBid) := by
  apply List.Perm.eq_of_pairwise (le := le) _ (List.pairwise_map.mpr hs) (List.pairwise_map.mpr hs')
    hp
  intro a b hma hmb hab hba
  rw [← hp.mem_iff] at hmb
  have hn' : ((l.map (fun r => r.toBid)).map (fun b => b.price)).Nodup := by
    rw [List.map_map]; exact hn
  exact List.inj_on_of_nodup_map hn' hma hmb (ha a b hab hba)

/-- C51, the part that holds: if the prices on each side are distinct, the price (and everything
else `intersect_stepwise` returns) is independent of the order of submission and of the sort. -/
theorem C51_order_independent_partial (S S' : Sorter) (df df' : DF) (hp : SameBids df df')
    (hb : ((df.filter (fun r => r.buying)).map (fun r => r.price)).Nodup)
    (hs : ((df.filter (fun r => !r.buying)).map (fun r => r.price)).Nodup) (k : ℚ) :
    intersectStepwise (demandCurve S df).1 (supplyCurve S df).1 k =
      intersectStepwise (demandCurve S' df').1 (supplyCurve S' df').1 k ∧
    findCompetitivePrice S df = findCompetitivePrice S' df' := by
  have pb : ((sortDesc S (buys df)).map (fun r => r.toBid)).Perm
      ((sortDesc S' (buys df')).map (fun r => r.toBid)) := by
    refine ((sortDesc_perm S _).map _).trans (List.Perm.trans ?_ ((sortDesc_perm S' _).map _).symm)
    have := List.Perm.filter (fun b : Bid => b.buying) hp
    rw [List.filter_map, List.filter_map] at this
    exact this
  have ps : ((sortAsc S (sells df)).map (fun r => r.toBid)).Perm
      ((sortAsc S' (sells df')).map (fun r => r.toBid)) := by
    refine ((sortAsc_perm S _).map _).trans (List.Perm.trans ?_ ((sortAsc_perm S' _).map _).symm)
    have := List.Perm.filter (fun b : Bid => !b.buying) hp
    rw [List.filter_map, List.filter_map] at this
    exact this
  have e1 : (demandCurve S df).1 = (demandCurve S' df').1 := by
    rw [demandCurve_eq, demandCurve_eq]
    apply stepCurve_congr
    exact sorted_bids_eq (le := fun a b => b.price ≤ a.price) pb (sortDesc_sorted S _)
      (sortDesc_sorted S' _) (fun a b h1 h2 => le_antisymm h2 h1)
      (((sortDesc_perm S (buys df)).map (fun r => r.price)).nodup_iff.mpr hb)
  have e2 : (supplyCurve S df).1 = (supplyCurve S' df').1 := by
    rw [supplyCurve_eq, supplyCurve_eq]
    apply stepCurve_congr
    exact sorted_bids_eq (le := fun a b => a.price ≤ b.price) ps (sortAsc_sorted S _)
      (sortAsc_sorted S' _) (fun a b h1 h2 => le_antisymm h1 h2)
      (((sortAsc_perm S (sells df)).map (fun r => r.price)).nodup_iff.mpr hs)
  constructor
  · rw [e1, e2]
  · unfold findCompetitivePrice; rw [e1, e2]

/-- C51, what the order can change on any book: the quantity found (or that there is none) is the same,
and if the prices found differ, both are among the supply price, the demand price and their mean. -/
theorem C51_quantity_partial (S S' : Sorter) (df df' : DF) (h : NonNeg df) (hp : SameBids df df') (k : ℚ)
    (i i' : Intersection)
    (hi : intersectStepwise (demandCurve S df).1 (supplyCurve S df).1 k = .ok i)
    (hi' : intersectStepwise (demandCurve S' df').1 (supplyCurve S' df').1 k = .ok i') :
    i.x = i'.x ∧ (i.x = none → i.v = i'.v) ∧
      ∀ x, i.x = some x → ∃ d s : ℚ, PricesAt S df x d s ∧ PricesAt S' df' x d s ∧
        (∀ v, v = i.v ∨ v = i'.v → v = .fin s ∨ v = .fin d ∨ v = .fin (k * s + (1 - k) * d)) := by
  have h' := hp.nonNeg h
  have hD : ∀ x : Ext, ((0 : ℚ) : Ext) ≤ x → demandAt S df x = demandAt S' df' x :=
    fun x hx => demandAt_perm S S' h hp hx
  have hS : ∀ x : Ext, ((0 : ℚ) : Ext) ≤ x → supplyAt S df x = supplyAt S' df' x :=
    fun x hx => supplyAt_perm S S' h hp hx
  have three : ∀ (S : Sorter) (df : DF) (x d s : ℚ), demandAt S df x = (d : Ext) →
      supplyAt S df x = (s : Ext) → crossPrice S df k x = .fin s ∨ crossPrice S df k x = .fin d ∨
        crossPrice S df k x = .fin (k * s + (1 - k) * d) := by
    intro S df x d s hd hs
    unfold crossPrice
    rw [hd, hs]
    split_ifs
    · exact Or.inr (Or.inr (kMix_fin k s d))
    · exact Or.inl rfl
    · exact Or.inr (Or.inl rfl)
  rcases intersect_cases S h k with ⟨x, hc, e⟩ | ⟨e, hn⟩ <;>
    rcases intersect_cases S' h' k with ⟨x', hc', e'⟩ | ⟨e', hn'⟩ <;>
    rw [hi] at e <;> rw [hi'] at e' <;> cases e <;> cases e'
  · have hx0 : ((0 : ℚ) : Ext) ≤ x := WithTop.coe_le_coe.mpr hc.nonneg
    have hx0' : ((0 : ℚ) : Ext) ≤ x' := WithTop.coe_le_coe.mpr hc'.nonneg
    have hxx : x = x' := by
      rcases lt_trichotomy x x' with hl | hl | hl
      · have h1 := hc.above x' (WithTop.coe_lt_coe.mpr hl)
        rw [hD _ hx0', hS _ hx0'] at h1
        exact absurd hc'.at_x (not_lt.mpr h1.le)
      · exact hl
      · have h1 := hc'.above x (WithTop.coe_lt_coe.mpr hl)
        rw [← hD _ hx0, ← hS _ hx0] at h1
        exact absurd hc.at_x (not_lt.mpr h1.le)
    subst hxx
    refine ⟨rfl, fun h0 => by simp at h0, ?_⟩
    rintro y hy
    obtain rfl : (x : Ext) = y := by simpa using hy
    obtain ⟨s, hs⟩ := hc.supply_fin
    obtain ⟨d, hd⟩ := demand_fin S df x
    refine ⟨d, s, pricesAt_iff.mpr ⟨hx0, hd.symm, hs.symm⟩,
      pricesAt_iff.mpr ⟨hx0, by rw [← hD _ hx0, hd], by rw [← hS _ hx0, hs]⟩, ?_⟩
    rintro v (rfl | rfl)
    · exact three S df x d s hd hs
    · exact three S' df' x d s (by rw [← hD _ hx0, hd]) (by rw [← hS _ hx0, hs])
  · exfalso
    apply hn'
    have hx0 : ((0 : ℚ) : Ext) ≤ x := WithTop.coe_le_coe.mpr hc.nonneg
    refine ⟨⟨x, hx0, by rw [← hD _ hx0, ← hS _ hx0]; exact hc.at_x⟩, fun z hz => ?_⟩
    rw [← hD _ hz, ← hS _ hz]
    exact hc.no_tie h z
  · exfalso
    apply hn
    have hx0 : ((0 : ℚ) : Ext) ≤ x' := WithTop.coe_le_coe.mpr hc'.nonneg
    refine ⟨⟨x', hx0, by rw [hD _ hx0, hS _ hx0]; exact hc'.at_x⟩, fun z hz => ?_⟩
    rw [hD _ hz, hS _ hz]
    exact hc'.no_tie h' z
  · exact ⟨rfl, fun _ => rfl, fun x hx => by simp at hx⟩

/-- Two buyers at the same price: 1 @ 10 and 2 @ 10; sellers 1 @ 2 and 5 @ 12. -/
def orderBook : DF :=
  [⟨⟨1, 10, 0, true, 0, true⟩, 0⟩, ⟨⟨2, 10, 1, true, 0, true⟩, 1⟩,
   ⟨⟨1, 2, 2, false, 0, true⟩, 2⟩, ⟨⟨5, 12, 3, false, 0, true⟩, 3⟩]

/-- The same bids with the two buyers submitted in the opposite order. -/
def orderBook' : DF :=
  [⟨⟨2, 10, 1, true, 0, true⟩, 0⟩, ⟨⟨1, 10, 0, true, 0, true⟩, 1⟩,
   ⟨⟨1, 2, 2, false, 0, true⟩, 2⟩, ⟨⟨5, 12, 3, false, 0, true⟩, 3⟩]

/-- C51 is violated by the code: swapping two buyers with equal prices moves the competitive price
from 6 to 10 (even with a stable sort). -/
theorem C51_refuted : NonNeg orderBook ∧ SameBids orderBook orderBook' ∧
    findCompetitivePrice stableSorter orderBook = .ok (.fin 6) ∧
    findCompetitivePrice stableSorter orderBook' = .ok (.fin 10) ∧
    ¬ PriceOrderIndependent stableSorter orderBook orderBook' := by
  have h1 : SameBids orderBook orderBook' := by decide +kernel
  have h2 : findCompetitivePrice stableSorter orderBook = .ok (.fin 6) := by decide +kernel
  have h3 : findCompetitivePrice stableSorter orderBook' = .ok (.fin 10) := by decide +kernel
  refine ⟨by decide +kernel, h1, h2, h3, fun h => ?_⟩
  have := h h1
  rw [h2, h3] at this
  exact absurd this (by decide)

/-- In the witness the quantity is 1 in both orders, as `C51_quantity_partial` says. -/
example : SameBids orderBook orderBook' ∧ NonNeg orderBook ∧
    ((intersectStepwise (demandCurve stableSorter orderBook).1
      (supplyCurve stableSorter orderBook).1).toOption.map (fun i => i.x)) =
        some (some ((1 : ℚ) : Ext)) ∧
    ((intersectStepwise (demandCurve stableSorter orderBook').1
      (supplyCurve stableSorter orderBook').1).toOption.map (fun i => i.x)) =
        some (some ((1 : ℚ) : Ext)) := by
  decide +kernel

example : SameBids curveBook2 curveBook2.reverse ∧
    ((curveBook2.filter (fun r => r.buying)).map (fun r => r.price)).Nodup ∧
    ((curveBook2.filter (fun r => !r.buying)).map (fun r => r.price)).Nodup := by
  decide +kernel

end PyMarket
