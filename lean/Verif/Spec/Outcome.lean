import Verif.Spec.Basic
import Verif.Model.Transactions

/-! # Specification vocabulary for the outcome of an auction

Quantities and payments read off a transaction table and the bid table it refers to. -/

set_option autoImplicit false

namespace PyMarket.Spec

/-- Total quantity of the transactions of buying bids. -/
def boughtQty (df : DF) (ts : List Transaction) : ℚ :=
  ((ts.filter (fun t => isBuy df t.bid)).map (fun t => t.quantity)).sum

/-- Total quantity of the transactions of selling bids. -/
def soldQty (df : DF) (ts : List Transaction) : ℚ :=
  ((ts.filter (fun t => isSell df t.bid)).map (fun t => t.quantity)).sum

/-- Total amount paid in the transactions of buying bids. -/
def paid (df : DF) (ts : List Transaction) : ℚ :=
  ((ts.filter (fun t => isBuy df t.bid)).map (fun t => t.quantity * t.price)).sum

/-- Total amount received in the transactions of selling bids. -/
def received (df : DF) (ts : List Transaction) : ℚ :=
  ((ts.filter (fun t => isSell df t.bid)).map (fun t => t.quantity * t.price)).sum

/-- Total quantity traded by the bid with id `i`. -/
def tradedBy (ts : List Transaction) (i : ℕ) : ℚ :=
  ((ts.filter (fun t => t.bid == i)).map (fun t => t.quantity)).sum

end PyMarket.Spec
