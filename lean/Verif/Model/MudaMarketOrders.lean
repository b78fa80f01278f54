import Verif.Model.MarketOrders
import Verif.Model.Muda
import Verif.Model.Nan
import Verif.Model.Unlimited

/-! # MUDA with bids at any price

The column `bids.price` is given separately, as in `Verif.Model.MarketOrders`, with values in `Ext`; the field `price` of the
rows is not read. Quantities are finite. The price of a half may be infinite, and so may be the fees. Negative infinity and
NaN as prices of bids are not modelled. The parts of MUDA that read no price (`getTradingBids`, `withoutUser`, `capLast`,
`tradingUsers`, `coinLeft`) are those of `Verif.Model.Muda`. -/

set_option autoImplicit false

namespace PyMarket

namespace Val

/-- `e >= v`: the test of `demand.query('price >= @price')` (`pymarket/mechanisms/muda_auction.py:184`). -/
def leExt (v : Val) (e : Ext) : Bool :=
  match v with
  | .fin q => decide ((q : Ext) ≤ e)
  | .inf => decide (e = ⊤)
  | .ninf => true
  | .nan => false

/-- `e <= v`: the test of `supply.query('price <= @price')` (`pymarket/mechanisms/muda_auction.py:190`). -/
def extLe (e : Ext) (v : Val) : Bool :=
  match v with
  | .fin q => decide (e ≤ (q : Ext))
  | .inf => true
  | .ninf => false
  | .nan => false

/-- `np.abs` (`pymarket/mechanisms/muda_auction.py:399`). -/
def abs : Val → Val
  | .fin q => .fin |q|
  | .inf => .inf
  | .ninf => .inf
  | .nan => .nan

end Val

/-- The test of `check_equal_price` on one side (`pymarket/utils/decorators.py:43-47`), see `dupOnSide`. -/
def dupOnSideM (prc : ℕ → Ext) (side : DF) : Bool :=
  let keys := side.map (fun r => (prc r.label, r.user))
  keys.any (fun k => decide (1 < keys.count k))

/-- The decorator's check (`pymarket/utils/decorators.py:37-48`), see `checkEqualPriceRaises`. -/
def checkEqualPriceRaisesM (prc : ℕ → Ext) (bids : DF) : Bool :=
  dupOnSideM prc (buys bids) || dupOnSideM prc (sells bids)

/-- The willing bids of the demand side, best first (`pymarket/mechanisms/muda_auction.py:182-185`). -/
def willingDemandM (S : ExtSorter) (prc : ℕ → Ext) (bids : DF) (price : Val) : DF :=
  sortDescM S prc ((buys bids).filter (fun r => price.leExt (prc r.label)))

/-- The willing bids of the supply side, best first (`pymarket/mechanisms/muda_auction.py:188-191`). -/
def willingSupplyM (S : ExtSorter) (prc : ℕ → Ext) (bids : DF) (price : Val) : DF :=
  sortAscM S prc ((sells bids).filter (fun r => Val.extLe (prc r.label) price))

/-- `compute_fee` (`pymarket/mechanisms/muda_auction.py:337-400`), see `computeFee`. `inf - inf` and `inf * 0` are NaN, which
`Series.sum` skips (line 399). -/
def computeFeeM (prc : ℕ → Ext) (df : DF) (index : ℕ) (user : ℤ) (quantity : ℚ) (price : Val) : Val :=
  let others := withoutUser df user
  if others = [] then .fin 0
  else
    let newIndex := lastIndex (others.map (fun p => p.1.quantity)) quantity
    let newWinning := others.take (newIndex + 1)
    let diff := quantity - (newWinning.dropLast.map (fun p => p.1.quantity)).sum
    let newWinning := capLast diff newWinning
    let pureNew := newWinning.filter (fun p => decide (index < p.2))
    (sumSkip (pureNew.map (fun p => Val.times p.1.quantity ((Val.ofExt (prc p.1.label)).sub price)))).abs

/-- `fees[u] = fee` (`pymarket/mechanisms/muda_auction.py:224`), see `npSet`. -/
def npSetM (fees : List Val) (u : ℤ) (v : Val) : Except PyErr (List Val) :=
  if 0 ≤ u ∧ u < fees.length then .ok (fees.set u.toNat v)
  else if u < 0 ∧ -(fees.length : ℤ) ≤ u then .ok (fees.set (u + fees.length).toNat v)
  else .error .indexError

/-- The fee loop (`pymarket/mechanisms/muda_auction.py:222-224`). -/
def feeLoopM (prc : ℕ → Ext) (longSide : DF) (lIndex : ℕ) (total : ℚ) (price : Val) :
    List ℤ → List Val → Except PyErr (List Val)
  | [], fees => .ok fees
  | u :: us, fees => do
      let fees' ← npSetM fees u (computeFeeM prc longSide lIndex u total price)
      feeLoopM prc longSide lIndex total price us fees'

/-- Transactions for the rows at positions `<= index` (`pymarket/mechanisms/muda_auction.py:207-215`). -/
def tradingTransM (rows : DF) (index : ℕ) (price : Val) : List TransM :=
  ((rows.zipIdx.filter (fun p => decide (p.2 ≤ index))).map (fun p =>
    { bid := p.1.label, quantity := p.1.quantity, price := price, source := -1, active := false }))

/-- `solve_market_side_with_exogenous_price` (`pymarket/mechanisms/muda_auction.py:130-226`), see `solveSide`. -/
def solveSideM (S : ExtSorter) (prc : ℕ → Ext) (bids : DF) (price : Val) (fees : List Val) :
    Except PyErr (List TransM × List Val) :=
  if (buys bids).length = 0 then .ok ([], fees)
  else if (sells bids).length = 0 then .ok ([], fees)
  else
    let demand := willingDemandM S prc bids price
    let supply := willingSupplyM S prc bids price
    let supplyQuantity := qsum supply
    let demandQuantity := qsum demand
    let supplyLong := decide (demandQuantity < supplyQuantity)
    let longSide := if supplyLong then supply else demand
    let shortSide := if supplyLong then demand else supply
    let total := if supplyLong then demandQuantity else supplyQuantity
    if 0 < total then do
      let (longRows, lIndex) ← getTradingBids longSide total
      let (shortRows, sIndex) ← getTradingBids shortSide total
      let trans := tradingTransM shortRows sIndex price ++ tradingTransM longRows lIndex price
      let fees' ← feeLoopM prc longRows lIndex total price (tradingUsers longRows lIndex) fees
      .ok (trans, fees')
    else .ok ([], fees)

/-- What `muda` returns: the transactions and the dictionary `extra` (`pymarket/mechanisms/muda_auction.py:119-127`). -/
structure MudaOutM where
  trans : List TransM
  left : List ℕ
  right : List ℕ
  priceLeft : Val
  priceRight : Val
  fees : List Val
  deriving DecidableEq, Repr

/-- The body of `muda` below its decorator (`pymarket/mechanisms/muda_auction.py:103-127`), see `mudaBody`. -/
def mudaBodyM (S : ExtSorter) (prc : ℕ → Ext) (coin : ℕ → Bool) (bids : DF) : Except PyErr MudaOutM := do
  let labels := bids.map (fun r => r.label)
  let left := coinLeft coin labels
  let right := labels.filter (fun i => decide (i ∉ left))
  let pl ← findCompetitivePriceM S (locLabels bids left) prc
  let pr ← findCompetitivePriceM S (locLabels bids right) prc
  let fees := List.replicate (bids.map (fun r => r.user)).dedup.length (Val.fin 0)
  let (transLeft, fees) ← solveSideM S prc (locLabels bids left) pr fees
  let (transRight, fees) ← solveSideM S prc (locLabels bids right) pl fees
  .ok ⟨transLeft ++ transRight, left, right, pl, pr, fees⟩

/-- `muda` with its decorator (`pymarket/mechanisms/muda_auction.py:12-127`, `pymarket/utils/decorators.py:22-49`) with
prices that may be `np.inf`, see `muda`. -/
def mudaM (S : ExtSorter) (prc : ℕ → Ext) (coin : ℕ → Bool) (bids : DF) : Except PyErr MudaOutM :=
  if checkEqualPriceRaisesM prc bids then .error .notImplementedError
  else mudaBodyM S prc coin bids

end PyMarket
