import Verif.Lemmas.MergeMissing
import Verif.Props.MergeMissingPrices

/-! # C138 with merging: missing quantities

Merging adds up quantities with a sum that skips NaN, so that NaN does not reach the mechanism. -/

set_option autoImplicit false

namespace PyMarket

open Spec

variable {qty : ℕ → Option ℚ} {df : DF}

/-- **C138, missing quantities with merging:** the bids that have a quantity trade as if the others asked for nothing.
Missing for the full claim: a bid without a quantity may get a transaction of quantity NaN, see
`C138_merged_quantities_refuted`. -/
theorem C138_merged_quantities_partial (smp : Sampler) (algo : Algo) (ht : IsTable df) :
    (mechanismQ smp qty algo df).map (fun o => (knownTrans o.1, o.2)) =
      (mechanism smp true algo (zeroed qty df)).map
        (fun o => (o.1.trans.filter (fun t => (qty t.bid).isSome), o.2)) := by
  rw [mechanismQ_eq smp algo ht]
  cases mechanism smp true algo (zeroed qty df) with
  | error e => rfl
  | ok o =>
    simp only [Except.map, Except.ok.injEq, Prod.mk.injEq, and_true]
    unfold knownTrans
    induction o.1.trans with
    | nil => rfl
    | cons t ts ih =>
      rw [List.map_cons, List.filterMap_cons, List.filter_cons, ih]
      unfold overlay
      cases h : qty t.bid with
      | none => simp
      | some q => simp

/-- **C138, missing quantities with merging:** exactly the bids without a quantity get transactions of quantity NaN, and
each of them is there because the bid with quantity zero would get one. -/
theorem C138_merged_quantities_nan (smp : Sampler) (algo : Algo) (ht : IsTable df) (ts : List TransQ) (e : Extra)
    (ho : mechanismQ smp qty algo df = .ok (ts, e)) :
    (∀ t ∈ ts, t.quantity = none ↔ qty t.bid = none) ∧
      ∃ tm, mechanism smp true algo (zeroed qty df) = .ok (tm, e) ∧
        ts.map (fun t => (t.bid, t.price)) = tm.trans.map (fun t => (t.bid, t.price)) := by
  rw [mechanismQ_eq smp algo ht] at ho
  cases h : mechanism smp true algo (zeroed qty df) with
  | error e' => rw [h] at ho; cases ho
  | ok o =>
    rw [h] at ho
    simp only [Except.map, Except.ok.injEq, Prod.mk.injEq] at ho
    obtain ⟨rfl, rfl⟩ := ho
    refine ⟨?_, o.1, rfl, ?_⟩
    · intro t htt
      obtain ⟨s, _, rfl⟩ := List.mem_map.mp htt
      simp [overlay]
    · rw [List.map_map]
      rfl

/-- Two buyers @ 10, the second without a quantity, a buyer @ 8, sellers @ 2 and @ 3. -/
def unknownMergeBook : DF := labelFrom 0 [⟨1, 10, 0, true, 0, true⟩, ⟨0, 10, 1, true, 0, true⟩,
  ⟨2, 8, 2, true, 0, true⟩, ⟨1, 2, 3, false, 0, true⟩, ⟨5, 3, 4, false, 0, true⟩]

/-- Its quantities. -/
def unknownMergeQty : ℕ → Option ℚ := fun i => [some 1, none, some 2, some 1, some 5].getD i none

/-- **C138 refuted with merging:** the bid without a quantity gets a transaction of quantity NaN at the price of the
buyers. -/
theorem C138_merged_quantities_refuted :
    IsTable unknownMergeBook ∧ unknownMergeQty 1 = none ∧
    (mechanismQ firstOfGroup unknownMergeQty (huangAuction stableSorter) unknownMergeBook).toOption.map
      (fun o => o.1.map (fun t => (t.bid, t.quantity, t.price))) =
        some [(3, some 1, 3), (0, some 1, 8), (1, none, 8)] := by
  refine ⟨?_, rfl, ?_⟩ <;> decide +kernel

end PyMarket
