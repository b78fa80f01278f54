import Verif.Model.FloatHuang
import Verif.Model.Muda

/-! # `muda_auction.py` in floating point arithmetic

The definitions of `Verif/Model/Muda.lean` with every arithmetic operation rounded. Comparisons,
sorting and the selection of rows are exact. `s` is the order of summation of a float64 column and
`o` that of the object column which `get_trading_bids` leaves behind when it splits a bid
(`pymarket/mechanisms/muda_auction.py:317-327`, the transposed row has dtype `object`). -/

set_option autoImplicit false

namespace PyMarket

/-- `find_competitive_price` (`pymarket/mechanisms/muda_auction.py:403-429`). -/
def findCompetitivePriceF (F : Arith) (S : Sorter) (bids : DF) : Except PyErr Val := do
  let i ← intersectStepwiseF F (demandCurveF F S bids) (supplyCurveF F S bids)
  .ok i.v

/-- Position of the last trading bid (`pymarket/mechanisms/muda_auction.py:309-312` and `386-390`):
the test uses `sum()`, the search `cumsum()`. -/
def lastIndexF (F : Arith) (s : Summer F) (qs : List ℚ) (quantity : ℚ) : ℕ :=
  if quantity < s.sum qs then argmaxTrue ((cumsumF F qs).map (fun c => decide (quantity ≤ c)))
  else qs.length - 1

/-- `get_trading_bids` (`pymarket/mechanisms/muda_auction.py:229-334`). -/
def getTradingBidsF (F : Arith) (s : Summer F) (bids : DF) (quantityTraded : ℚ) :
    Except PyErr (DF × ℕ) :=
  if bids = [] ∧ quantityTraded < 0 then .error .valueError else
  let bidIndex := lastIndexF F s (bids.map (fun r => r.quantity)) quantityTraded
  match bids[bidIndex]? with
  | none => .error .indexError
  | some row =>
      let diff := F.rnd (quantityTraded - s.sum ((bids.take bidIndex).map (fun r => r.quantity)))
      if diff < row.quantity then
        .ok (bids.take bidIndex ++ { row with quantity := diff } ::
              { row with quantity := F.rnd (row.quantity - diff) } :: bids.drop (bidIndex + 1),
              bidIndex)
      else .ok (bids, bidIndex)

/-- `compute_fee` (`pymarket/mechanisms/muda_auction.py:337-400`). -/
def computeFeeF (F : Arith) (o : Summer F) (df : DF) (index : ℕ) (user : ℤ) (quantity price : ℚ) : ℚ :=
  let others := withoutUser df user
  if others = [] then 0
  else
    let newIndex := lastIndexF F o (others.map (fun p => p.1.quantity)) quantity
    let newWinning := others.take (newIndex + 1)
    let diff := F.rnd (quantity - o.sum (newWinning.dropLast.map (fun p => p.1.quantity)))
    let newWinning := capLast diff newWinning
    let pureNew := newWinning.filter (fun p => decide (index < p.2))
    |o.sum (pureNew.map (fun p => F.rnd (F.rnd (p.1.price - price) * p.1.quantity)))|

/-- The fee loop (`pymarket/mechanisms/muda_auction.py:222-224`). -/
def feeLoopF (F : Arith) (o : Summer F) (longSide : DF) (lIndex : ℕ) (total price : ℚ) :
    List ℤ → List ℚ → Except PyErr (List ℚ)
  | [], fees => .ok fees
  | u :: us, fees => do
      let fees' ← npSet fees u (computeFeeF F o longSide lIndex u total price)
      feeLoopF F o longSide lIndex total price us fees'

/-- `solve_market_side_with_exogenous_price` (`pymarket/mechanisms/muda_auction.py:130-226`). -/
def solveSideF (F : Arith) (s o : Summer F) (S : Sorter) (bids : DF) (price : Val) (fees : List ℚ) :
    Except PyErr (TransactionManager × List ℚ) :=
  if (buys bids).length = 0 then .ok (TransactionManager.init, fees)
  else if (sells bids).length = 0 then .ok (TransactionManager.init, fees)
  else
    let demand := willingDemand S bids price
    let supply := willingSupply S bids price
    let supplyQuantity := s.sum (supply.map (fun r => r.quantity))
    let demandQuantity := s.sum (demand.map (fun r => r.quantity))
    let supplyLong := decide (demandQuantity < supplyQuantity)
    let longSide := if supplyLong then supply else demand
    let shortSide := if supplyLong then demand else supply
    let total := if supplyLong then demandQuantity else supplyQuantity
    if 0 < total then do
      let (longRows, lIndex) ← getTradingBidsF F s longSide total
      let (shortRows, sIndex) ← getTradingBidsF F s shortSide total
      let trans := TransactionManager.init.addAll
        (tradingTrans shortRows sIndex price.toRat ++ tradingTrans longRows lIndex price.toRat)
      let fees' ← feeLoopF F o longRows lIndex total price.toRat (tradingUsers longRows lIndex) fees
      .ok (trans, fees')
    else .ok (TransactionManager.init, fees)

/-- The body of `muda` below its decorator (`pymarket/mechanisms/muda_auction.py:103-127`). -/
def mudaBodyF (F : Arith) (s o : Summer F) (S : Sorter) (coin : ℕ → Bool) (bids : DF) :
    Except PyErr (TransactionManager × Extra) := do
  let labels := bids.map (fun r => r.label)
  let left := coinLeft coin labels
  let right := labels.filter (fun i => decide (i ∉ left))
  let pl ← findCompetitivePriceF F S (locLabels bids left)
  let pr ← findCompetitivePriceF F S (locLabels bids right)
  let fees := List.replicate (bids.map (fun r => r.user)).dedup.length (0 : ℚ)
  let (transLeft, fees) ← solveSideF F s o S (locLabels bids left) pr fees
  let (transRight, fees) ← solveSideF F s o S (locLabels bids right) pl fees
  .ok (transLeft.merge transRight, .muda left right pl pr fees)

/-- `muda` with its decorator (`pymarket/mechanisms/muda_auction.py:12-127`,
`pymarket/utils/decorators.py:22-49`). -/
def mudaF (F : Arith) (s o : Summer F) (S : Sorter) (coin : ℕ → Bool) (bids : DF) :
    Except PyErr (TransactionManager × Extra) :=
  if checkEqualPriceRaises bids then .error .notImplementedError
  else mudaBodyF F s o S coin bids

end PyMarket
