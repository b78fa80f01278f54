import Verif.Model.Curves
import Verif.Model.Transactions
import Verif.Model.Huang

/-! # Model of `pymarket/mechanisms/muda_auction.py` and `pymarket/utils/decorators.py` -/

set_option autoImplicit false

namespace PyMarket

/-- The test of `check_equal_price` on one side (`pymarket/utils/decorators.py:43-47`): some
`(price, user)` group has more than one bid. -/
def dupOnSide (side : DF) : Bool :=
  let keys := side.map (fun r => (r.price, r.user))
  keys.any (fun k => decide (1 < keys.count k))

/-- The decorator's check, `True` when it raises `NotImplementedError`
(`pymarket/utils/decorators.py:37-48`). -/
def checkEqualPriceRaises (bids : DF) : Bool := dupOnSide (buys bids) || dupOnSide (sells bids)

/-- `find_competitive_price` (`pymarket/mechanisms/muda_auction.py:403-429`). -/
def findCompetitivePrice (S : Sorter) (bids : DF) : Except PyErr Val := do
  let i ← intersectStepwise (demandCurve S bids).1 (supplyCurve S bids).1
  .ok i.v

/-- Position of the last trading bid in a side (`pymarket/mechanisms/muda_auction.py:309-312` and
`386-390`): the first position whose running total reaches `quantity` if the side is longer than
`quantity`, else the last position. -/
def lastIndex (qs : List ℚ) (quantity : ℚ) : ℕ :=
  if quantity < qs.sum then argmaxTrue ((cumsum qs).map (fun c => decide (quantity ≤ c)))
  else qs.length - 1

/-- `get_trading_bids` (`pymarket/mechanisms/muda_auction.py:229-334`). The returned rows are in
positional order (their new index is their position, lines 326/332) and keep the original bid id as
label (column `bid`). On an empty frame `np.argmax` raises `ValueError` or `iloc` raises
`IndexError`. -/
def getTradingBids (bids : DF) (quantityTraded : ℚ) : Except PyErr (DF × ℕ) :=
  if bids = [] ∧ quantityTraded < 0 then .error .valueError else
  let bidIndex := lastIndex (bids.map (fun r => r.quantity)) quantityTraded
  match bids[bidIndex]? with
  | none => .error .indexError
  | some row =>
      let diff := quantityTraded - qsum (bids.take bidIndex)
      if diff < row.quantity then
        .ok (bids.take bidIndex ++ { row with quantity := diff } ::
              { row with quantity := row.quantity - diff } :: bids.drop (bidIndex + 1), bidIndex)
      else .ok (bids, bidIndex)

/-- `df[(df.user != user)]` keeping the positional index of each row
(`pymarket/mechanisms/muda_auction.py:382`). -/
def withoutUser (df : DF) (user : ℤ) : List (Row × ℕ) :=
  df.zipIdx.filter (fun p => decide (p.1.user ≠ user))

/-- Replace the quantity of the last row (`new_winning.iloc[new_index, 1] = diff`,
`pymarket/mechanisms/muda_auction.py:394-395`), when smaller. -/
def capLast (diff : ℚ) : List (Row × ℕ) → List (Row × ℕ)
  | [] => []
  | [p] => if diff < p.1.quantity then [({ p.1 with quantity := diff }, p.2)] else [p]
  | p :: q :: rest => p :: capLast diff (q :: rest)

/-- `compute_fee` (`pymarket/mechanisms/muda_auction.py:337-400`). -/
def computeFee (df : DF) (index : ℕ) (user : ℤ) (quantity price : ℚ) : ℚ :=
  let others := withoutUser df user
  if others = [] then 0
  else
    let newIndex := lastIndex (others.map (fun p => p.1.quantity)) quantity
    let newWinning := others.take (newIndex + 1)
    let diff := quantity - (newWinning.dropLast.map (fun p => p.1.quantity)).sum
    let newWinning := capLast diff newWinning
    let pureNew := newWinning.filter (fun p => decide (index < p.2))
    |(pureNew.map (fun p => (p.1.price - price) * p.1.quantity)).sum|

/-- `fees[u] = fee` on a NumPy array: negative indices count from the end, out of range raises
`IndexError` (`pymarket/mechanisms/muda_auction.py:224`). -/
def npSet (fees : List ℚ) (u : ℤ) (v : ℚ) : Except PyErr (List ℚ) :=
  if 0 ≤ u ∧ u < fees.length then .ok (fees.set u.toNat v)
  else if u < 0 ∧ -(fees.length : ℤ) ≤ u then .ok (fees.set (u + fees.length).toNat v)
  else .error .indexError

/-- The fee loop (`pymarket/mechanisms/muda_auction.py:222-224`). -/
def feeLoop (longSide : DF) (lIndex : ℕ) (total price : ℚ) :
    List ℤ → List ℚ → Except PyErr (List ℚ)
  | [], fees => .ok fees
  | u :: us, fees => do
      let fees' ← npSet fees u (computeFee longSide lIndex u total price)
      feeLoop longSide lIndex total price us fees'

/-- Transactions for the rows at positions `<= index`
(`pymarket/mechanisms/muda_auction.py:207-215`). -/
def tradingTrans (rows : DF) (index : ℕ) (price : ℚ) : List Transaction :=
  ((rows.zipIdx.filter (fun p => decide (p.2 ≤ index))).map (fun p =>
    { bid := p.1.label, quantity := p.1.quantity, price := price, source := -1, active := false }))

/-- `.user.unique()` of the trading rows of the long side
(`pymarket/mechanisms/muda_auction.py:217-221`). -/
def tradingUsers (rows : DF) (index : ℕ) : List ℤ :=
  ((rows.zipIdx.filter (fun p => decide (p.2 ≤ index))).map (fun p => p.1.user)).eraseDups

/-- The willing bids of the demand side, best first
(`pymarket/mechanisms/muda_auction.py:182-185`). -/
def willingDemand (S : Sorter) (bids : DF) (price : Val) : DF :=
  sortDesc S ((buys bids).filter (fun r => price.leRat r.price))

/-- The willing bids of the supply side, best first
(`pymarket/mechanisms/muda_auction.py:188-191`). -/
def willingSupply (S : Sorter) (bids : DF) (price : Val) : DF :=
  sortAsc S ((sells bids).filter (fun r => Val.ratLe r.price price))

/-- `solve_market_side_with_exogenous_price` (`pymarket/mechanisms/muda_auction.py:130-226`). The
array `fees` is mutated in place by the code and returned; here it is threaded through. -/
def solveSide (S : Sorter) (bids : DF) (price : Val) (fees : List ℚ) :
    Except PyErr (TransactionManager × List ℚ) :=
  if (buys bids).length = 0 then .ok (TransactionManager.init, fees)
  else if (sells bids).length = 0 then .ok (TransactionManager.init, fees)
  else
    let demand := willingDemand S bids price
    let supply := willingSupply S bids price
    let supplyQuantity := qsum supply
    let demandQuantity := qsum demand
    let supplyLong := decide (demandQuantity < supplyQuantity)
    let longSide := if supplyLong then supply else demand
    let shortSide := if supplyLong then demand else supply
    let total := if supplyLong then demandQuantity else supplyQuantity
    if 0 < total then do
      let (longRows, lIndex) ← getTradingBids longSide total
      let (shortRows, sIndex) ← getTradingBids shortSide total
      let trans := TransactionManager.init.addAll
        (tradingTrans shortRows sIndex price.toRat ++ tradingTrans longRows lIndex price.toRat)
      let fees' ← feeLoop longRows lIndex total price.toRat (tradingUsers longRows lIndex) fees
      .ok (trans, fees')
    else .ok (TransactionManager.init, fees)

/-- `left = [i for i in bids.index if r.rand() > 0.5]` (`pymarket/mechanisms/muda_auction.py:106`);
`coin k` is the outcome of the `k`-th `r.rand() > 0.5`. -/
def coinLeft (coin : ℕ → Bool) (labels : List ℕ) : List ℕ :=
  (labels.zipIdx.filter (fun p => coin p.2)).map (fun p => p.1)

/-- The body of `muda` below its decorator (`pymarket/mechanisms/muda_auction.py:103-127`). -/
def mudaBody (S : Sorter) (coin : ℕ → Bool) (bids : DF) :
    Except PyErr (TransactionManager × Extra) := do
  let labels := bids.map (fun r => r.label)
  let left := coinLeft coin labels
  let right := labels.filter (fun i => decide (i ∉ left))
  let pl ← findCompetitivePrice S (locLabels bids left)
  let pr ← findCompetitivePrice S (locLabels bids right)
  let fees := List.replicate (bids.map (fun r => r.user)).dedup.length (0 : ℚ)
  let (transLeft, fees) ← solveSide S (locLabels bids left) pr fees
  let (transRight, fees) ← solveSide S (locLabels bids right) pl fees
  .ok (transLeft.merge transRight, .muda left right pl pr fees)

/-- `muda` with its decorator (`pymarket/mechanisms/muda_auction.py:12-127`,
`pymarket/utils/decorators.py:22-49`). -/
def muda (S : Sorter) (coin : ℕ → Bool) (bids : DF) : Except PyErr (TransactionManager × Extra) :=
  if checkEqualPriceRaises bids then .error .notImplementedError
  else mudaBody S coin bids

end PyMarket
