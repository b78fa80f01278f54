import Verif.Spec.Outcome
import Verif.Model.Bids

/-! # Specification vocabulary: what is left after a run -/

set_option autoImplicit false

namespace PyMarket.Spec

/-- What the bid has not traded. -/
def leftOf (ts : List Transaction) (r : Row) : ℚ := r.quantity - tradedBy ts r.label

/-- The bids that have something left, with what they have left. -/
def leftBids (df : DF) (ts : List Transaction) : List Bid :=
  (df.filter (fun r => decide (0 < leftOf ts r))).map (fun r => { r.toBid with quantity := leftOf ts r })

/-- The table of a new market with the bids that have something left. -/
def leftBook (df : DF) (ts : List Transaction) : DF := labelFrom 0 (leftBids df ts)

end PyMarket.Spec
