import Verif.Spec.Outcome

/-! # Specification vocabulary: who would rather have the trade of somebody else -/

set_option autoImplicit false

namespace PyMarket.Spec

/-- What the bid with id `i` gains per unit at the price `p`. -/
def marginAt (df : DF) (i : ℕ) (p : ℚ) : ℚ := if isBuy df i then priceOf df i - p else p - priceOf df i

/-- What the bid with id `i` gains in its own transactions. -/
def ownGain (df : DF) (ts : List Transaction) (i : ℕ) : ℚ :=
  ((ts.filter (fun t => t.bid == i)).map (fun t => marginAt df i t.price * t.quantity)).sum

/-- What the bid with id `i` would gain with the transaction `t`, of which it uses at most its own quantity. -/
def gainWith (df : DF) (i : ℕ) (t : Transaction) : ℚ := marginAt df i t.price * min t.quantity (qtyOf df i)

/-- The bid with id `i` would rather have the transaction `t` of another bid of its side. -/
def Envies (df : DF) (ts : List Transaction) (i : ℕ) (t : Transaction) : Prop :=
  isBuy df i = isBuy df t.bid ∧ ownGain df ts i < gainWith df i t

instance (df : DF) (ts : List Transaction) (i : ℕ) (t : Transaction) : Decidable (Envies df ts i t) := by
  unfold Envies; infer_instance

end PyMarket.Spec
