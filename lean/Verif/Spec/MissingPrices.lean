import Verif.Model.MissingPrices

/-! # Specification vocabulary: quantities with and without a price -/

set_option autoImplicit false

namespace PyMarket.Spec

/-- The quantity on one side of the book (`b` tells which) that comes with a price. -/
def givenQty (price : ℕ → Option ℚ) (b : Bool) (df : DF) : ℚ :=
  ((df.filter (fun r => r.buying == b && (price r.label).isSome)).map (fun r => r.quantity)).sum

/-- The quantity on one side of the book that comes without a price. -/
def openQty (price : ℕ → Option ℚ) (b : Bool) (df : DF) : ℚ :=
  ((df.filter (fun r => r.buying == b && (price r.label).isNone)).map (fun r => r.quantity)).sum

/-- The quantity `x` does not use up the priced quantity of the side, or there is no other quantity on it. -/
def Covered (price : ℕ → Option ℚ) (b : Bool) (df : DF) (x : Ext) : Prop :=
  x < (givenQty price b df : Ext) ∨ openQty price b df = 0

/-- No negative quantities and no negative prices. -/
def NonNegP (price : ℕ → Option ℚ) (df : DF) : Prop :=
  ∀ r ∈ df, 0 ≤ r.quantity ∧ ∀ p, price r.label = some p → 0 ≤ p

end PyMarket.Spec
