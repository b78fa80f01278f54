import Verif.Model.Huang
import Verif.Model.Uniform

/-! # Missing prices: NaN as a price in the curves, in Huang's auction and in the uniform price

The column `bids.price` is given separately, as a function of the label of the bid (`none` is NaN); the field `price`
of the rows is not read. The quantities are numbers. Merging is not modelled here. -/

set_option autoImplicit false

namespace PyMarket

/-- The bids with a price, in the order of the frame, with their prices filled in (no Python counterpart). -/
def pricedRows (price : ℕ → Option ℚ) (rows : DF) : DF :=
  rows.filterMap (fun r => (price r.label).map (fun p => { r with price := p }))

/-- The bids without a price. -/
def unpricedRows (price : ℕ → Option ℚ) (rows : DF) : DF := rows.filter (fun r => (price r.label).isNone)

/-- `df.sort_values('price', ascending=False)` (`pymarket/bids/demand_curves.py:71`,
`pymarket/mechanisms/huang_auction.py:155-156`): the rows without a price come last, in the order of the frame. -/
def sortDescP (S : Sorter) (price : ℕ → Option ℚ) (rows : DF) : DF :=
  sortDesc S (pricedRows price rows) ++ unpricedRows price rows

/-- `df.sort_values('price')` (`pymarket/bids/demand_curves.py:145`, `pymarket/mechanisms/huang_auction.py:157-158`):
the rows without a price come last here as well. -/
def sortAscP (S : Sorter) (price : ℕ → Option ℚ) (rows : DF) : DF :=
  sortAsc S (pricedRows price rows) ++ unpricedRows price rows

/-- A curve whose second column may contain NaN. -/
abbrev CurveP := List (Ext × Option Ext)

/-- The rows of a curve before its last one (`pymarket/bids/demand_curves.py:72-73,146-147`). -/
def curveRowsP (price : ℕ → Option ℚ) (rows : DF) : CurveP :=
  (List.zip (cumsum (rows.map (fun r => r.quantity))) (rows.map (fun r => price r.label))).map
    (fun p => ((p.1 : Ext), p.2.map (fun q => (q : Ext))))

/-- `demand_curve_from_bids` (`pymarket/bids/demand_curves.py:6-76`), only the curve. -/
def demandCurveP (S : Sorter) (price : ℕ → Option ℚ) (bids : DF) : CurveP :=
  curveRowsP price (sortDescP S price (buys bids)) ++ [((⊤ : Ext), some ((0 : ℚ) : Ext))]

/-- `supply_curve_from_bids` (`pymarket/bids/demand_curves.py:79-150`), only the curve. -/
def supplyCurveP (S : Sorter) (price : ℕ → Option ℚ) (bids : DF) : CurveP :=
  curveRowsP price (sortAscP S price (sells bids)) ++ [((⊤ : Ext), some (⊤ : Ext))]

/-- The loop of `get_value_stepwise` (`pymarket/bids/demand_curves.py:194-196`); the outer `none` is Python's `None`,
the inner one NaN. -/
def stepLookupP (x : Ext) : CurveP → Option (Option Ext)
  | [] => none
  | s :: rest => if x ≤ s.1 then some s.2 else stepLookupP x rest

/-- `get_value_stepwise` (`pymarket/bids/demand_curves.py:153-196`). -/
def getValueStepwiseP (x : Ext) (f : CurveP) : Option (Option Ext) :=
  if x < ((0 : ℚ) : Ext) then none else stepLookupP x f

/-- `a > b` (`pymarket/bids/demand_curves.py:279`): `TypeError` for `None`, false for NaN. -/
def pyGtP : Option (Option Ext) → Option (Option Ext) → Except PyErr Bool
  | some (some a), some (some b) => .ok (decide (b < a))
  | some _, some _ => .ok false
  | _, _ => .error .typeError

/-- The crossing loop (`pymarket/bids/demand_curves.py:277-280`), see `crossLoop`. -/
def crossLoopP (f g : CurveP) : List Ext → Option Ext → Except PyErr (Option Ext)
  | x :: y :: rest, ast => do
      let gt ← pyGtP (getValueStepwiseP x f) (getValueStepwiseP x g)
      if gt then do
        let lt ← pyGtP (getValueStepwiseP y g) (getValueStepwiseP y f)
        crossLoopP f g (y :: rest) (if lt then some x else ast)
      else crossLoopP f g (y :: rest) ast
  | _, ast => .ok ast

/-- The first three results of `intersect_stepwise` (`pymarket/bids/demand_curves.py:199-294`). Both curves end at
infinity, and so does the grid (line 273). The ordinate (lines 285-292) is not modelled, only that computing it does
not raise: `xs[-1]` exists and both values there are not `None`. -/
def intersectP (f g : CurveP) : Except PyErr (Option (Ext × ℕ × ℕ)) := do
  let xs := gridXs (f.map (fun s => (s.1, s.1))) (g.map (fun s => (s.1, s.1))) ⊤
  let xAst ← crossLoopP f g xs none
  match xAst with
  | some x =>
      .ok (some (x, argmaxTrue (f.map (fun s => decide (x ≤ s.1))), argmaxTrue (g.map (fun s => decide (x ≤ s.1)))))
  | none =>
      match xs.getLast? with
      | none => .error .indexError
      | some xl =>
          match getValueStepwiseP xl g, getValueStepwiseP xl f with
          | some _, some _ => .ok none
          | _, _ => .error .typeError

/-- `huang_auction` (`pymarket/mechanisms/huang_auction.py:72-205`) with prices that may be NaN, see `huangAuction`. A
transaction at a price that is NaN is marked by the error `nanQuantity`; `huangAuctionP_eq` and `huangAuctionP_none` show that there is none. -/
def huangAuctionP (S : Sorter) (price : ℕ → Option ℚ) (bids : DF) : Except PyErr (TransactionManager × Extra) := do
  let buy := demandCurveP S price bids
  let sell := supplyCurveP S price bids
  let i ← intersectP buy sell
  match i with
  | some (_, b, s) =>
      match sell[s]?, buy[b]? with
      | some (_, some priceSell), some (_, some priceBuy) =>
          let buyingBids := (sortDescP S price (buys bids)).take b
          let sellingBids := (sortAscP S price (sells bids)).take s
          let quantityBuy := buyingBids.map (fun r => r.quantity)
          let quantitySell := sellingBids.map (fun r => r.quantity)
          if 0 < b ∧ 0 < s then do
            let gap := quantitySell.sum - quantityBuy.sum
            let (qs, qb) ←
              if 0 < gap then do
                let qs ← updateQuantity quantitySell gap
                Except.ok (qs, quantityBuy)
              else do
                let qb ← updateQuantity quantityBuy (-gap)
                Except.ok (quantitySell, qb)
            let ts := huangSideTrans sellingBids qs (priceSell.untopD 0) ++
              huangSideTrans buyingBids qb (priceBuy.untopD 0)
            .ok (TransactionManager.init.addAll ts, .huang priceSell priceBuy qb.sum)
          else
            .ok (TransactionManager.init, .huang priceSell priceBuy quantityBuy.sum)
      | some _, some _ => .error .nanQuantity
      | _, _ => .error .indexError
  | none => .ok (TransactionManager.init, .empty)

/-- A value of a curve as a number that may be NaN. -/
def valP : Option Ext → Val
  | some a => Val.ofExt a
  | none => .nan

/-- `g_val * k + (1 - k) * f_val` (`pymarket/bids/demand_curves.py:292`) with values that may be NaN. -/
def kMixP (k : ℚ) : Option Ext → Option Ext → Val
  | some a, some b => kMix k a b
  | _, _ => .nan

/-- The ordinate of `intersect_stepwise` at a crossing (`pymarket/bids/demand_curves.py:281-292`), from the rows at the
crossing. -/
def ordinateP (k : ℚ) (f g : CurveP) (x : Ext) (gRow fRow : Ext × Option Ext) : Val :=
  if !(decide (x ∈ f.map Prod.fst) && decide (x ∈ g.map Prod.fst)) then
    (if x ∈ f.map Prod.fst then valP gRow.2 else valP fRow.2) else kMixP k gRow.2 fRow.2

/-- `uniform_price_mechanism` (`docs/new_mechanism.ipynb:163-222`) with prices that may be NaN, see `uniformPrice`. -/
def uniformPriceP (S : Sorter) (price : ℕ → Option ℚ) (bids : DF) :
    Except PyErr (TransactionManager × Option Ext × Val) := do
  let buy := demandCurveP S price bids
  let sell := supplyCurveP S price bids
  let i ← intersectP buy sell
  match i with
  | some (x, b, s) =>
      match sell[s]?, buy[b]? with
      | some sRow, some bRow =>
          let v := ordinateP (1 / 2) buy sell x sRow bRow
          let buyingBids := (sortDescP S price (buys bids)).take (b + 1)
          let sellingBids := (sortAscP S price (sells bids)).take (s + 1)
          let buyingQuantity := qsum buyingBids
          let sellingQuantity := qsum sellingBids
          let (longSide, shortSide) :=
            if sellingQuantity < buyingQuantity then (buyingBids, sellingBids) else (sellingBids, buyingBids)
          let tradedQuantity := qsum shortSide
          .ok (TransactionManager.init.addAll (uniformShort v.toRat shortSide ++
            uniformLong v.toRat tradedQuantity 0 longSide), some x, v)
      | _, _ => .error .indexError
  | none => .error .typeError

end PyMarket
