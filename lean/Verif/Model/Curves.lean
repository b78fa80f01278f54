import Verif.Model.Basic

/-! # Model of `pymarket/bids/demand_curves.py` -/

set_option autoImplicit false

namespace PyMarket

/-- A two column matrix: `(x, y)` rows (`pymarket/bids/demand_curves.py:18-25`). -/
abbrev Curve := List (Ext × Ext)

/-- `demand_curve_from_bids` (`pymarket/bids/demand_curves.py:6-76`). -/
def demandCurve (S : Sorter) (bids : DF) : Curve × List ℕ :=
  let buying := sortDesc S (buys bids)
  let acum := cumsum (buying.map (fun r => r.quantity))
  let curve : Curve :=
    (List.zip acum (buying.map (fun r => r.price))).map (fun p => ((p.1 : Ext), (p.2 : Ext)))
  (curve ++ [((⊤ : Ext), ((0 : ℚ) : Ext))], buying.map (fun r => r.label))

/-- `supply_curve_from_bids` (`pymarket/bids/demand_curves.py:79-150`). -/
def supplyCurve (S : Sorter) (bids : DF) : Curve × List ℕ :=
  let selling := sortAsc S (sells bids)
  let acum := cumsum (selling.map (fun r => r.quantity))
  let curve : Curve :=
    (List.zip acum (selling.map (fun r => r.price))).map (fun p => ((p.1 : Ext), (p.2 : Ext)))
  (curve ++ [((⊤ : Ext), (⊤ : Ext))], selling.map (fun r => r.label))

/-- The `for` loop of `get_value_stepwise` (`pymarket/bids/demand_curves.py:194-196`). Falling off
the end of a Python function returns `None`. -/
def stepLookup (x : Ext) : Curve → Option Ext
  | [] => none
  | s :: rest => if x ≤ s.1 then some s.2 else stepLookup x rest

/-- `get_value_stepwise` (`pymarket/bids/demand_curves.py:153-196`). -/
def getValueStepwise (x : Ext) (f : Curve) : Option Ext :=
  if x < ((0 : ℚ) : Ext) then none else stepLookup x f

/-- `a > b` of two results of `get_value_stepwise`: comparing `None` raises `TypeError`
(`pymarket/bids/demand_curves.py:279`). -/
def pyGt : Option Ext → Option Ext → Except PyErr Bool
  | some a, some b => .ok (decide (b < a))
  | _, _ => .error .typeError

/-- Maximum of the first column, `f.max(axis=0)[0]`; `ValueError` on an empty array
(`pymarket/bids/demand_curves.py:273`). -/
def maxX : Curve → Except PyErr Ext
  | [] => .error .valueError
  | s :: rest => .ok (rest.foldl (fun m r => max m r.1) s.1)

/-- The sorted grid `xs` of line `pymarket/bids/demand_curves.py:274`: the distinct breakpoints of
both curves not exceeding `xMax`, increasing. -/
def gridXs (f g : Curve) (xMax : Ext) : List Ext :=
  (((g.map Prod.fst ++ f.map Prod.fst).dedup).filter (fun x => decide (x ≤ xMax))).insertionSort
    (fun a b => a ≤ b)

/-- The crossing loop (`pymarket/bids/demand_curves.py:277-280`): walks consecutive grid points and
remembers the *last* one where `f > g` and then `f < g`. The second comparison is only evaluated if
the first holds (`and`). -/
def crossLoop (f g : Curve) : List Ext → Option Ext → Except PyErr (Option Ext)
  | x :: y :: rest, ast => do
      let gt ← pyGt (getValueStepwise x f) (getValueStepwise x g)
      if gt then do
        let lt ← pyGt (getValueStepwise y g) (getValueStepwise y f)
        crossLoop f g (y :: rest) (if lt then some x else ast)
      else crossLoop f g (y :: rest) ast
  | _, ast => .ok ast

/-- The four results of `intersect_stepwise` (`pymarket/bids/demand_curves.py:234-255`). -/
structure Intersection where
  x : Option Ext
  f : Option ℕ
  g : Option ℕ
  v : Val
  deriving DecidableEq, Repr

/-- `g_val * k + (1 - k) * f_val` (`pymarket/bids/demand_curves.py:292`). -/
def kMix (k : ℚ) (gVal fVal : Ext) : Val := (Val.scale k gVal).add (Val.scale (1 - k) fVal)

/-- `intersect_stepwise` (`pymarket/bids/demand_curves.py:199-294`). With `x_ast = None` the test
`x_ast in f[:, 0]` is false (line 288), so the last branch (line 292) is taken with the values at
the last grid point (lines 285-286). `xs[-1]` of an empty grid raises `IndexError`; arithmetic on
`None` raises `TypeError`. -/
def intersectStepwise (f g : Curve) (k : ℚ := 1 / 2) : Except PyErr Intersection := do
  let mf ← maxX f
  let mg ← maxX g
  let xs := gridXs f g (min mf mg)
  let xAst ← crossLoop f g xs none
  match xAst with
  | some x =>
      let fAst := argmaxTrue (f.map (fun s => decide (x ≤ s.1)))
      let gAst := argmaxTrue (g.map (fun s => decide (x ≤ s.1)))
      match g[gAst]?, f[fAst]? with
      | some gRow, some fRow =>
          let both := decide (x ∈ f.map Prod.fst) && decide (x ∈ g.map Prod.fst)
          let v := if !both then
              (if x ∈ f.map Prod.fst then Val.ofExt gRow.2 else Val.ofExt fRow.2)
            else kMix k gRow.2 fRow.2
          .ok { x := some x, f := some fAst, g := some gAst, v := v }
      | _, _ => .error .indexError
  | none =>
      match xs.getLast? with
      | none => .error .indexError
      | some xl =>
          match getValueStepwise xl g, getValueStepwise xl f with
          | some gVal, some fVal => .ok { x := none, f := none, g := none, v := kMix k gVal fVal }
          | _, _ => .error .typeError

end PyMarket
