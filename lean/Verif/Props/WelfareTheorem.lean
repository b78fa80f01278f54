import Verif.Lemmas.Welfare

/-! # C63: the equilibrium quantity attains the largest possible gains from trade -/

set_option autoImplicit false

namespace PyMarket

open Spec

theorem isOptimum_of_best {df : DF} (ht : IsTable df) (hq : ∀ r ∈ df, 0 ≤ r.quantity) {y : ℚ}
    (h : BestWelfare df (priceOf df) y) : IsOptimum (utilityLP df (fun _ => none)) y := by
  obtain ⟨⟨z, hz⟩, h2⟩ := C39_welfare df ht hq (fun _ => none)
  have hb := (h2 z hz).2
  have e : valueOf df (fun _ => none) = priceOf df := rfl
  rw [e] at hb
  rw [IsGreatest.unique h hb]
  exact hz

theorem best_of_clears {df : DF} (ht : IsTable df) (hq : ∀ r ∈ df, 0 ≤ r.quantity) {p x : ℚ}
    (hc : Clears df p x) : BestWelfare df (priceOf df) (df.map (fun r => claim p r.toBid)).sum := by
  obtain ⟨q, h1, _, _, h4⟩ := clears_plan ht hq hc
  refine ⟨⟨q, h1, h4.symm⟩, ?_⟩
  rintro y ⟨q', h', rfl⟩
  exact planWelfare_le ht h' p

/-- **C63, quantity.** When the curves cross at `x`, a trade plan of volume `x` between compatible bids
attains the optimal value of the program of `maximum_aggregated_utility`. -/
theorem C63_equilibrium_efficient (S : Sorter) (df : DF) (ht : IsTable df) (h : NonNeg df) (k : ℚ)
    (i : Intersection) (x : ℚ)
    (hi : intersectStepwise (demandCurve S df).1 (supplyCurve S df).1 k = .ok i)
    (hx : i.x = some (x : Ext)) :
    ∃ q, TradePlan df q ∧ Compatible df q ∧ planVolume df q = x ∧
      IsOptimum (utilityLP df (fun _ => none)) (planWelfare df (priceOf df) q) := by
  have hq : ∀ r ∈ df, 0 ≤ r.quantity := fun r hr => (h r hr).1
  obtain ⟨x', he, hc, rfl⟩ := intersect_some h hi hx
  obtain rfl := WithTop.coe_injective he
  obtain ⟨p, _, hp⟩ := hc.clears h
  obtain ⟨q, h1, h2, h3, h4⟩ := clears_plan ht hq hp
  refine ⟨q, h1, h2, h3, ?_⟩
  rw [h4]
  exact isOptimum_of_best ht hq (best_of_clears ht hq hp)

/-- **C63, price.** When moreover only one of the curves steps at `x`, the optimal value of the program
is what all bids together could gain at the price found. -/
theorem C63_price_supports (S : Sorter) (df : DF) (ht : IsTable df) (h : NonNeg df)
    (i : Intersection) (x p : ℚ)
    (hi : intersectStepwise (demandCurve S df).1 (supplyCurve S df).1 = .ok i)
    (hx : i.x = some (x : Ext)) (hp : findCompetitivePrice S df = .ok (.fin p))
    (hone : ¬ ((x : Ext) ∈ (demandCurve S df).1.map Prod.fst ∧
      (x : Ext) ∈ (supplyCurve S df).1.map Prod.fst)) :
    IsOptimum (utilityLP df (fun _ => none)) (df.map (fun r => claim p r.toBid)).sum := by
  have hq : ∀ r ∈ df, 0 ≤ r.quantity := fun r hr => (h r hr).1
  have hv : i.v = .fin p := by
    unfold findCompetitivePrice at hp
    rw [hi] at hp
    exact Except.ok.inj hp
  exact isOptimum_of_best ht hq
    (best_of_clears ht hq (C11_price_clears_partial S df h _ i x p hi hx hv hone))

/-- **C63, bound.** Any price whatsoever overstates the gains: no trade plan gains more than what all
bids together could gain at that price. -/
theorem C63_bound (df : DF) (ht : IsTable df) (hq : ∀ r ∈ df, 0 ≤ r.quantity) (p y : ℚ)
    (hy : IsOptimum (utilityLP df (fun _ => none)) y) :
    y ≤ (df.map (fun r => claim p r.toBid)).sum := by
  obtain ⟨⟨q, h1, rfl⟩, _⟩ := ((C39_welfare df ht hq (fun _ => none)).2 y hy).2
  exact planWelfare_le ht h1 p

/-- The condition of `C63_price_supports` is needed: in `alignedBook` both curves step at 1, the price
found is 11/2, all bids together could gain 25/2 at that price and no plan gains more than 9. -/
theorem C63_condition_needed : NonNeg alignedBook ∧ IsTable alignedBook ∧
    findCompetitivePrice stableSorter alignedBook = .ok (.fin (11 / 2)) ∧
    (alignedBook.map (fun r => claim (11 / 2) r.toBid)).sum = 25 / 2 ∧
    IsOptimum (utilityLP alignedBook (fun _ => none)) 9 := by
  have ht : IsTable alignedBook := by decide +kernel
  refine ⟨by decide +kernel, ht, by decide +kernel, by decide +kernel, ?_⟩
  have hq : ∀ r ∈ alignedBook, 0 ≤ r.quantity := by decide +kernel
  have hc : Clears alignedBook (19 / 2) 1 := by decide +kernel
  have e : (alignedBook.map (fun r => claim (19 / 2) r.toBid)).sum = 9 := by decide +kernel
  rw [← e]
  exact isOptimum_of_best ht hq (best_of_clears ht hq hc)

/-- The hypotheses hold for `curveBook2`: crossing at 3, price 5, optimal gains 15 + 4 = 19. -/
example : NonNeg curveBook2 ∧ IsTable curveBook2 ∧
    intersectStepwise (demandCurve stableSorter curveBook2).1
      (supplyCurve stableSorter curveBook2).1 =
        .ok ⟨some ((3 : ℚ) : Ext), some 0, some 1, .fin 5⟩ ∧
    findCompetitivePrice stableSorter curveBook2 = .ok (.fin 5) ∧
    ((3 : ℚ) : Ext) ∉ (supplyCurve stableSorter curveBook2).1.map Prod.fst ∧
    (curveBook2.map (fun r => claim 5 r.toBid)).sum = 19 := by
  decide +kernel

end PyMarket
