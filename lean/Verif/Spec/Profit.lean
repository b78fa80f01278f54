import Verif.Spec.Outcome

/-! # Specification vocabulary for the profit statistic -/

set_option autoImplicit false

namespace PyMarket.Spec

/-- Value, at the prices `price` of the bids, of what the buyers obtained. -/
def boughtValue (df : DF) (price : ℕ → ℚ) (ts : List Transaction) : ℚ :=
  ((ts.filter (fun t => isBuy df t.bid)).map (fun t => t.quantity * price t.bid)).sum

/-- Value, at the prices `price` of the bids, of what the sellers gave away. -/
def soldValue (df : DF) (price : ℕ → ℚ) (ts : List Transaction) : ℚ :=
  ((ts.filter (fun t => isSell df t.bid)).map (fun t => t.quantity * price t.bid)).sum

/-- The bid with id `i` exists and was submitted by user `u`. -/
def ownedBy (df : DF) (u : ℤ) (i : ℕ) : Bool := ((df[i]?).map (fun r => decide (r.user = u))).getD false

/-- The transactions of user `u`. -/
def transOf (df : DF) (u : ℤ) (ts : List Transaction) : List Transaction :=
  ts.filter (fun t => ownedBy df u t.bid)

/-- Surplus of user `u` when its bids are worth `price`: value bought minus amount paid, plus amount
received minus value sold. -/
def surplusOf (df : DF) (price : ℕ → ℚ) (u : ℤ) (ts : List Transaction) : ℚ :=
  (boughtValue df price (transOf df u ts) - paid df (transOf df u ts)) +
  (received df (transOf df u ts) - soldValue df price (transOf df u ts))

/-- `us` lists the users of the book, each once, in increasing order. -/
def UsersOf (df : DF) (us : List ℤ) : Prop :=
  us.Pairwise (· < ·) ∧ ∀ u, u ∈ us ↔ ∃ r ∈ df, r.user = u

end PyMarket.Spec
