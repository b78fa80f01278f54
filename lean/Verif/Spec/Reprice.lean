import Verif.Model.Mechanism

/-! # Specification vocabulary: new prices in the same order -/

set_option autoImplicit false

namespace PyMarket.Spec

/-- The same book with other prices: the bid `r` now has the price `g r`. -/
def withPrices (g : Row → ℚ) (df : DF) : DF := df.map (fun r => { r with price := g r })

/-- The new prices are in the same order as the old ones, also relative to 0. -/
def SameOrder (g : Row → ℚ) (df : DF) : Prop :=
  (∀ r ∈ df, ∀ r' ∈ df, (r.price ≤ r'.price ↔ g r ≤ g r')) ∧
  ∀ r ∈ df, (0 ≤ r.price ↔ 0 ≤ g r) ∧ (r.price ≤ 0 ↔ g r ≤ 0)

instance (g : Row → ℚ) (df : DF) : Decidable (SameOrder g df) := by unfold SameOrder; infer_instance

/-- A transaction at another price. -/
def repriceTrans (f : ℚ → ℚ) (t : Transaction) : Transaction := { t with price := f t.price }

/-- A transaction log at other prices. -/
def repriceLog (f : ℚ → ℚ) (tm : TransactionManager) : TransactionManager :=
  { tm with trans := tm.trans.map (repriceTrans f) }

/-- An extended price under the new prices. -/
def repriceExt (f : ℚ → ℚ) : Ext → Ext
  | none => none
  | some q => some (f q)

/-- The result of Huang's auction at other prices: the same bids trade the same quantities. -/
def repriceHuang (f : ℚ → ℚ) (r : Except PyErr (TransactionManager × Extra)) :
    Except PyErr (TransactionManager × Extra) :=
  match r with
  | .error e => .error e
  | .ok (tm, .huang ps pb q) => .ok (repriceLog f tm, .huang (repriceExt f ps) (repriceExt f pb) q)
  | .ok (tm, ex) => .ok (repriceLog f tm, ex)

/-- What a transaction says besides its price: bid, quantity, partner and the flag. -/
def withoutPrice (t : Transaction) : ℕ × ℚ × ℤ × Bool := (t.bid, t.quantity, t.source, t.active)

end PyMarket.Spec
