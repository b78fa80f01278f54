import Verif.Model.Unlimited

/-! # Specification vocabulary: trades of limited bids -/

set_option autoImplicit false

namespace PyMarket.Spec

/-- A transaction as it should be: a finite quantity, for a bid that has a limit and shares its price with limited bids
only. -/
def LimitedTrade (qty : ℕ → Ext) (df : DF) (t : TransU) : Prop :=
  (∃ q, t.quantity = .fin q) ∧ ∃ r ∈ df, r.label = t.bid ∧
    ∀ r' ∈ df, r'.buying = r.buying → r'.price = r.price → qty r'.label ≠ ⊤

/-- What changes hands at the price `p`. -/
def tradedAt (p : ℚ) (ts : List TransU) : ℚ :=
  ((ts.filter (fun t => decide (t.price = p))).map (fun t => t.quantity.toRat)).sum

end PyMarket.Spec
