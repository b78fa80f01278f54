import Verif.Model.MissingPrices
import Verif.Model.Muda

/-! # Missing prices in MUDA -/

set_option autoImplicit false

namespace PyMarket

/-- `find_competitive_price` (`pymarket/mechanisms/muda_auction.py:403-429`): the ordinate of `intersect_stepwise`
(`pymarket/bids/demand_curves.py:281-294`); without a crossing it is computed from the values at the last point of the
grid (lines 285-286). -/
def findCompetitivePriceP (S : Sorter) (price : ℕ → Option ℚ) (bids : DF) : Except PyErr Val := do
  let f := demandCurveP S price bids
  let g := supplyCurveP S price bids
  let i ← intersectP f g
  match i with
  | some (x, b, s) =>
      match g[s]?, f[b]? with
      | some gRow, some fRow => .ok (ordinateP (1 / 2) f g x gRow fRow)
      | _, _ => .error .indexError
  | none =>
      match (gridXs (f.map (fun s => (s.1, s.1))) (g.map (fun s => (s.1, s.1))) ⊤).getLast? with
      | none => .error .indexError
      | some xl =>
          match getValueStepwiseP xl g, getValueStepwiseP xl f with
          | some gVal, some fVal => .ok (kMixP (1 / 2) gVal fVal)
          | _, _ => .error .typeError

/-- A comparison with NaN is false (`pymarket/mechanisms/muda_auction.py:184,190`). -/
def testP (test : ℚ → Bool) : Option ℚ → Bool
  | some q => test q
  | none => false

/-- The willing bids of the demand side, best first (`pymarket/mechanisms/muda_auction.py:182-185`). -/
def willingDemandP (S : Sorter) (price : ℕ → Option ℚ) (bids : DF) (p : Val) : DF :=
  sortDescP S price ((buys bids).filter (fun r => testP (fun q => p.leRat q) (price r.label)))

/-- The willing bids of the supply side, best first (`pymarket/mechanisms/muda_auction.py:188-191`). -/
def willingSupplyP (S : Sorter) (price : ℕ → Option ℚ) (bids : DF) (p : Val) : DF :=
  sortAscP S price ((sells bids).filter (fun r => testP (fun q => Val.ratLe q p) (price r.label)))

/-- `solve_market_side_with_exogenous_price` (`pymarket/mechanisms/muda_auction.py:130-226`), see `solveSide`. The tests
in lines 182 and 188 count all bids of a side, with and without a price. -/
def solveSideP (S : Sorter) (price : ℕ → Option ℚ) (bids : DF) (p : Val) (fees : List ℚ) :
    Except PyErr (TransactionManager × List ℚ) :=
  if (buys bids).length = 0 then .ok (TransactionManager.init, fees)
  else if (sells bids).length = 0 then .ok (TransactionManager.init, fees)
  else
    let demand := willingDemandP S price bids p
    let supply := willingSupplyP S price bids p
    let supplyQuantity := qsum supply
    let demandQuantity := qsum demand
    let supplyLong := decide (demandQuantity < supplyQuantity)
    let longSide := if supplyLong then supply else demand
    let shortSide := if supplyLong then demand else supply
    let total := if supplyLong then demandQuantity else supplyQuantity
    if 0 < total then do
      let (longRows, lIndex) ← getTradingBids longSide total
      let (shortRows, sIndex) ← getTradingBids shortSide total
      let trans := TransactionManager.init.addAll
        (tradingTrans shortRows sIndex p.toRat ++ tradingTrans longRows lIndex p.toRat)
      let fees' ← feeLoop longRows lIndex total p.toRat (tradingUsers longRows lIndex) fees
      .ok (trans, fees')
    else .ok (TransactionManager.init, fees)

/-- `muda` with its decorator (`pymarket/mechanisms/muda_auction.py:12-127`, `pymarket/utils/decorators.py:22-49`).
`groupby` in the decorator leaves out the rows whose price is NaN. -/
def mudaP (S : Sorter) (coin : ℕ → Bool) (price : ℕ → Option ℚ) (bids : DF) :
    Except PyErr (TransactionManager × Extra) :=
  if checkEqualPriceRaises (pricedRows price bids) then .error .notImplementedError
  else do
    let labels := bids.map (fun r => r.label)
    let left := coinLeft coin labels
    let right := labels.filter (fun i => decide (i ∉ left))
    let pl ← findCompetitivePriceP S price (locLabels bids left)
    let pr ← findCompetitivePriceP S price (locLabels bids right)
    let fees := List.replicate (bids.map (fun r => r.user)).dedup.length (0 : ℚ)
    let (transLeft, fees) ← solveSideP S price (locLabels bids left) pr fees
    let (transRight, fees) ← solveSideP S price (locLabels bids right) pl fees
    .ok (transLeft.merge transRight, .muda left right pl pr fees)

end PyMarket
