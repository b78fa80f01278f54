import Verif.Model.Mechanism

/-! # Specification vocabulary: changing the units of quantity and price -/

set_option autoImplicit false

namespace PyMarket.Spec

/-- A bid with its quantity multiplied by `a` and its price by `c`. -/
def scaleRow (a c : ℚ) (r : Row) : Row := { r with quantity := a * r.quantity, price := c * r.price }

/-- A transaction with its quantity multiplied by `a` and its price by `c`. -/
def scaleTrans (a c : ℚ) (t : Transaction) : Transaction :=
  { t with quantity := a * t.quantity, price := c * t.price }

/-- A transaction log in the new units. -/
def scaleLog (a c : ℚ) (tm : TransactionManager) : TransactionManager :=
  { tm with trans := tm.trans.map (scaleTrans a c) }

/-- An extended number in the new unit. -/
def scaleExt (c : ℚ) : Ext → Ext
  | none => none
  | some q => some (c * q)

/-- A floating point value in the new unit. -/
def scaleVal (c : ℚ) : Val → Val
  | .fin q => .fin (c * q)
  | v => v

/-- The extra information in the new units: prices by `c`, quantities by `a`, fees by `a * c`. -/
def scaleExtra (a c : ℚ) : Extra → Extra
  | .empty => .empty
  | .huang ps pb q => .huang (scaleExt c ps) (scaleExt c pb) (a * q)
  | .muda left right pl pr fees =>
      .muda left right (scaleVal c pl) (scaleVal c pr) (fees.map (fun x => a * c * x))
  | .p2p rounds => .p2p rounds

/-- A result in the new units. Exceptions stay the same. -/
def scaleResult (a c : ℚ) (r : Except PyErr (TransactionManager × Extra)) :
    Except PyErr (TransactionManager × Extra) :=
  match r with
  | .error e => .error e
  | .ok (tm, ex) => .ok (scaleLog a c tm, scaleExtra a c ex)

/-- The sorting algorithm compares keys and uses nothing else: two key columns that compare in the
same way are sorted by the same permutation. -/
def ComparisonSort (S : Sorter) : Prop :=
  ∀ l l' : List ℚ, l.length = l'.length →
    (∀ (i j : ℕ) (x y x' y' : ℚ), l[i]? = some x → l[j]? = some y → l'[i]? = some x' →
      l'[j]? = some y' → (x ≤ y ↔ x' ≤ y')) →
    S.asc l = S.asc l' ∧ S.desc l = S.desc l'

end PyMarket.Spec
