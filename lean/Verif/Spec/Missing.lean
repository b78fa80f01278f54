import Verif.Model.Missing

/-! # Specification vocabulary: missing numbers -/

set_option autoImplicit false

namespace PyMarket.Spec

/-- The price of a bid; a buyer without one bids `L`, a seller without one asks for `H`. -/
def priceOr (price : ℕ → Option ℚ) (L H : ℚ) (r : Row) : ℚ := (price r.label).getD (if r.buying then L else H)

/-- The book with these prices. -/
def withPriceOr (price : ℕ → Option ℚ) (L H : ℚ) (df : DF) : DF :=
  df.map (fun r => { r with price := priceOr price L H r })

/-- No seller takes `L` and no buyer pays `H`. -/
def NobodyTakes (price : ℕ → Option ℚ) (L H : ℚ) (df : DF) : Prop :=
  L < H ∧ ∀ r ∈ df, ∀ p, price r.label = some p → if r.buying then p < H else L < p

end PyMarket.Spec
