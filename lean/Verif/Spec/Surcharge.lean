import Verif.Spec.Reprice

/-! # Specification vocabulary: the same amount added to all prices -/

set_option autoImplicit false

namespace PyMarket.Spec

/-- The book with `b` added to every price. -/
def surcharge (b : ℚ) (df : DF) : DF := withPrices (fun r => r.price + b) df

/-- Quantities are not negative; prices are positive before and after. -/
def Surchargeable (b : ℚ) (df : DF) : Prop := ∀ r ∈ df, 0 ≤ r.quantity ∧ 0 < r.price ∧ 0 < r.price + b

instance (b : ℚ) (df : DF) : Decidable (Surchargeable b df) := by unfold Surchargeable; infer_instance

/-- A price with the surcharge; infinite prices stay as they are. -/
def plusVal (b : ℚ) : Val → Val
  | .fin q => .fin (q + b)
  | v => v

/-- Extra information with the surcharge: fees and quantities do not change. -/
def plusExtra (b : ℚ) : Extra → Extra
  | .empty => .empty
  | .huang ps pb q => .huang (repriceExt (· + b) ps) (repriceExt (· + b) pb) q
  | .muda left right pl pr fees => .muda left right (plusVal b pl) (plusVal b pr) fees
  | .p2p rounds => .p2p rounds

/-- A result with the surcharge added to every price. Exceptions stay the same. -/
def plusResult (b : ℚ) (r : Except PyErr (TransactionManager × Extra)) :
    Except PyErr (TransactionManager × Extra) :=
  match r with
  | .error e => .error e
  | .ok (tm, ex) => .ok (repriceLog (· + b) tm, plusExtra b ex)

/-- A peer to peer transaction with the surcharge. Two bids that meet without trading are recorded with price 0,
which stays as it is. -/
def plusMeeting (b : ℚ) (t : Transaction) : Transaction :=
  if t.price = 0 then t else { t with price := t.price + b }

end PyMarket.Spec
