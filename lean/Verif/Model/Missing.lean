import Verif.Model.Unlimited
import Verif.Model.Muda

/-! # Missing numbers: NaN as a quantity or as a price

`Market.accept_bid` takes any number, and a `None` given to it ends up as NaN in the frame of the bids. The column
`bids.quantity` is given separately here, as a function of the label of the bid with values in `Option Ext` (`none`
is NaN, the others are as in `Model/Unlimited`); the field `quantity` of the rows is not read. Peer to peer trading
is also given with a column of prices that may be NaN. The curves with NaN prices, negative infinity and merging are
not modelled here. -/

set_option autoImplicit false

namespace PyMarket

/-- A curve whose first column may contain NaN. -/
abbrev CurveN := List (Option Ext × Ext)

/-- `Series.cumsum()` skips NaN entries and leaves NaN in their places (`pymarket/bids/demand_curves.py:72,146`). -/
def cumsumN (acc : Ext) : List (Option Ext) → List (Option Ext)
  | [] => []
  | none :: xs => none :: cumsumN acc xs
  | some x :: xs => some (acc + x) :: cumsumN (acc + x) xs

/-- `demand_curve_from_bids` (`pymarket/bids/demand_curves.py:6-76`), only the curve. -/
def demandCurveN (S : Sorter) (bids : DF) (qty : ℕ → Option Ext) : CurveN :=
  let buying := sortDesc S (buys bids)
  List.zip (cumsumN ((0 : ℚ) : Ext) (buying.map (fun r => qty r.label)))
    (buying.map (fun r => (r.price : Ext))) ++ [(some (⊤ : Ext), ((0 : ℚ) : Ext))]

/-- `supply_curve_from_bids` (`pymarket/bids/demand_curves.py:79-150`), only the curve. -/
def supplyCurveN (S : Sorter) (bids : DF) (qty : ℕ → Option Ext) : CurveN :=
  let selling := sortAsc S (sells bids)
  List.zip (cumsumN ((0 : ℚ) : Ext) (selling.map (fun r => qty r.label)))
    (selling.map (fun r => (r.price : Ext))) ++ [(some (⊤ : Ext), (⊤ : Ext))]

/-- `x <= s` with a NaN is false (`pymarket/bids/demand_curves.py:195,274,282-283`). -/
def leN (x : Ext) : Option Ext → Bool
  | some s => decide (x ≤ s)
  | none => false

/-- NumPy's maximum of two numbers is NaN as soon as one of them is (`pymarket/bids/demand_curves.py:273`). -/
def maxN : Option Ext → Option Ext → Option Ext
  | some a, some b => some (max a b)
  | _, _ => none

/-- `np.min` of two numbers (`pymarket/bids/demand_curves.py:273`). -/
def minN : Option Ext → Option Ext → Option Ext
  | some a, some b => some (min a b)
  | _, _ => none

/-- `f.max(axis=0)[0]` (`pymarket/bids/demand_curves.py:273`), see `maxX`. -/
def maxXN : CurveN → Except PyErr (Option Ext)
  | [] => .error .valueError
  | s :: rest => .ok (rest.foldl (fun m r => maxN m r.1) s.1)

/-- The breakpoints that are numbers; `x <= x_max` removes the others (`pymarket/bids/demand_curves.py:274`). -/
def breaksN (f : CurveN) : List Ext := f.filterMap Prod.fst

/-- The sorted grid (`pymarket/bids/demand_curves.py:274`), see `gridXs`. -/
def gridXsN (f g : CurveN) (xMax : Option Ext) : List Ext :=
  (((breaksN g ++ breaksN f).dedup).filter (fun x => leN x xMax)).insertionSort (fun a b => a ≤ b)

/-- The loop of `get_value_stepwise` (`pymarket/bids/demand_curves.py:194-196`), see `stepLookup`. -/
def stepLookupN (x : Ext) : CurveN → Option Ext
  | [] => none
  | s :: rest => if leN x s.1 then some s.2 else stepLookupN x rest

/-- `get_value_stepwise` (`pymarket/bids/demand_curves.py:153-196`). -/
def getValueStepwiseN (x : Ext) (f : CurveN) : Option Ext :=
  if x < ((0 : ℚ) : Ext) then none else stepLookupN x f

/-- The crossing loop (`pymarket/bids/demand_curves.py:277-280`), see `crossLoop`. -/
def crossLoopN (f g : CurveN) : List Ext → Option Ext → Except PyErr (Option Ext)
  | x :: y :: rest, ast => do
      let gt ← pyGt (getValueStepwiseN x f) (getValueStepwiseN x g)
      if gt then do
        let lt ← pyGt (getValueStepwiseN y g) (getValueStepwiseN y f)
        crossLoopN f g (y :: rest) (if lt then some x else ast)
      else crossLoopN f g (y :: rest) ast
  | _, ast => .ok ast

/-- `intersect_stepwise` (`pymarket/bids/demand_curves.py:199-294`), see `intersectStepwise`. -/
def intersectN (f g : CurveN) (k : ℚ := 1 / 2) : Except PyErr Intersection := do
  let mf ← maxXN f
  let mg ← maxXN g
  let xs := gridXsN f g (minN mf mg)
  let xAst ← crossLoopN f g xs none
  match xAst with
  | some x =>
      let fAst := argmaxTrue (f.map (fun s => leN x s.1))
      let gAst := argmaxTrue (g.map (fun s => leN x s.1))
      match g[gAst]?, f[fAst]? with
      | some gRow, some fRow =>
          let both := decide (x ∈ breaksN f) && decide (x ∈ breaksN g)
          let v := if !both then
              (if x ∈ breaksN f then Val.ofExt gRow.2 else Val.ofExt fRow.2)
            else kMix k gRow.2 fRow.2
          .ok { x := some x, f := some fAst, g := some gAst, v := v }
      | _, _ => .error .indexError
  | none =>
      match xs.getLast? with
      | none => .error .indexError
      | some xl =>
          match getValueStepwiseN xl g, getValueStepwiseN xl f with
          | some gVal, some fVal => .ok { x := none, f := none, g := none, v := kMix k gVal fVal }
          | _, _ => .error .typeError

/-- The column as `Model/Unlimited` has it. Used below the intersection only, which NaN does not get past
(`C138_curves_blocked`). -/
def knownQty (qty : ℕ → Option Ext) (i : ℕ) : Ext := (qty i).getD ⊤

/-- `huang_auction` (`pymarket/mechanisms/huang_auction.py:72-205`): the intersection of the curves (lines 141-144),
and then as in `huangAuctionU`. -/
def huangAuctionN (S : Sorter) (bids : DF) (qty : ℕ → Option Ext) : Except PyErr (TransactionManager × Extra) := do
  let _ ← intersectN (demandCurveN S bids qty) (supplyCurveN S bids qty)
  huangAuctionU S bids (knownQty qty)

/-- `uniform_price_mechanism` (`docs/new_mechanism.ipynb:163-222`): the intersection of the curves, and then as in
`uniformPriceU`. -/
def uniformPriceN (S : Sorter) (bids : DF) (qty : ℕ → Option Ext) : Except PyErr (List TransU × Option Ext × Val) := do
  let _ ← intersectN (demandCurveN S bids qty) (supplyCurveN S bids qty)
  uniformPriceU S bids (knownQty qty)

/-- `find_competitive_price` (`pymarket/mechanisms/muda_auction.py:403-429`). -/
def findCompetitivePriceN (S : Sorter) (bids : DF) (qty : ℕ → Option Ext) : Except PyErr Val := do
  let i ← intersectN (demandCurveN S bids qty) (supplyCurveN S bids qty)
  .ok i.v

/-- The start of `muda` up to the prices of the two halves (`pymarket/utils/decorators.py:22-49`,
`pymarket/mechanisms/muda_auction.py:103-112`). -/
def mudaPricesN (S : Sorter) (coin : ℕ → Bool) (bids : DF) (qty : ℕ → Option Ext) : Except PyErr (Val × Val) :=
  if checkEqualPriceRaises bids then .error .notImplementedError
  else do
    let labels := bids.map (fun r => r.label)
    let left := coinLeft coin labels
    let right := labels.filter (fun i => decide (i ∉ left))
    let pl ← findCompetitivePriceN S (locLabels bids left) qty
    let pr ← findCompetitivePriceN S (locLabels bids right) qty
    .ok (pl, pr)

/-- One meeting (`pymarket/mechanisms/p2p_random.py:112-124`), see `tradeOneU`; a comparison with a price that is NaN
is false. -/
def tradeOneN (prices : ℕ → Option ℚ) (pCoef : ℚ) (quantities : ℕ → Val) (p : ℕ × ℕ) : (ℕ → Val) × List TransU :=
  match prices p.1, prices p.2 with
  | some pb, some ps => tradeOneU (fun i => if i = p.1 then pb else ps) pCoef quantities p
  | _, _ => (quantities, [⟨p.1, .fin 0, 0, (p.2 : ℤ), true⟩, ⟨p.2, .fin 0, 0, (p.1 : ℤ), true⟩])

/-- The `for` loop over the round's meetings (`pymarket/mechanisms/p2p_random.py:112-124`). -/
def tradeRoundN (prices : ℕ → Option ℚ) (pCoef : ℚ) : (ℕ → Val) → List (ℕ × ℕ) → (ℕ → Val) × List TransU
  | quantities, [] => (quantities, [])
  | quantities, p :: ps =>
      let r := tradeOneN prices pCoef quantities p
      let r' := tradeRoundN prices pCoef r.1 ps
      (r'.1, r.2 ++ r'.2)

/-- The outer `while` loop (`pymarket/mechanisms/p2p_random.py:100-131`), see `p2pLoopU`. -/
def p2pLoopN (bids : DF) (prices : ℕ → Option ℚ) (pCoef : ℚ) (choice : ℕ → ℕ) (n : ℕ)
    (quantities : ℕ → Val) (active : List (ℕ × ℕ)) (inactive : List ℕ) :
    List (List (ℕ × ℕ)) × List TransU :=
  let tmp := maskOut active inactive
  if _h : Val.lt (.fin 0) (sumU (bids.map (fun r => quantities r.label))) = true ∧ tmp ≠ [] then
    let m := meetLoop choice n active tmp
    let t := tradeRoundN prices pCoef quantities m.2.2
    let rest := p2pLoopN bids prices pCoef choice m.1 t.1 m.2.1 (exhaustedU bids t.1)
    (m.2.2 :: rest.1, t.2 ++ rest.2)
  else ([], [])
termination_by active.length
decreasing_by
  exact meetLoop_active_lt choice n active _ _h.2 (maskOut_sublist active inactive).subset

/-- A quantity as a float. -/
def Val.ofQty : Option Ext → Val
  | some e => Val.ofExt e
  | none => .nan

/-- `p2p_random` (`pymarket/mechanisms/p2p_random.py:10-134`) with quantities and prices that may be NaN: the rounds
and the transactions. -/
def p2pRandomN (pCoef : ℚ) (choice : ℕ → ℕ) (bids : DF) (qty : ℕ → Option Ext) (price : ℕ → Option ℚ) :
    List (List (ℕ × ℕ)) × List TransU :=
  p2pLoopN bids price pCoef choice 0 (fun i => Val.ofQty (qty i)) (allPairs bids) []

end PyMarket
