import Verif.Model.MergeMissing

/-! # Specification vocabulary: zero in the place of a missing quantity -/

set_option autoImplicit false

namespace PyMarket.Spec

/-- The book in which the bids without a quantity ask for nothing. -/
def zeroed (qty : ℕ → Option ℚ) (df : DF) : DF := df.map (fun r => { r with quantity := (qty r.label).getD 0 })

/-- The transactions whose quantity is a number. -/
def knownTrans (ts : List TransQ) : List Transaction :=
  ts.filterMap (fun t => t.quantity.map (fun q => ⟨t.bid, q, t.price, t.source, t.active⟩))

end PyMarket.Spec
