import Verif.Model.Unlimited
import Verif.Model.Muda

/-! # A round of MUDA with unlimited bids

One call of `solve_market_side_with_exogenous_price` with quantities that may be `np.inf`, as in
`Model/Unlimited.lean`: the column `qty` gives the quantities, the field `quantity` of the rows is not read. The
fees are modelled apart, for one user and given trading rows (`computeFeeU`). -/

set_option autoImplicit false

namespace PyMarket

/-- Position of the last trading bid (`pymarket/mechanisms/muda_auction.py:309-312`), see `lastIndex`. -/
def lastIndexU (qs : List Ext) (quantity : Ext) : ℕ :=
  if quantity < qs.sum then argmaxTrue ((extCumsumFrom ((0 : ℚ) : Ext) qs).map (fun c => decide (quantity ≤ c)))
  else qs.length - 1

/-- The transactions of one side: `get_trading_bids` and the loop over the rows up to the index it returns
(`pymarket/mechanisms/muda_auction.py:204-215,309-334`). The last row is split when what is left, computed with IEEE
subtraction, is smaller than its quantity. -/
def tradingTransU (price : ℚ) (qty : ℕ → Ext) (rows : DF) (quantity : Ext) : Except PyErr (List TransU) :=
  let bidIndex := lastIndexU (rows.map (fun r => qty r.label)) quantity
  match rows[bidIndex]? with
  | none => .error .indexError
  | some row =>
      let diff := (Val.ofExt quantity).sub (Val.ofExt ((rows.take bidIndex).map (fun r => qty r.label)).sum)
      let own := Val.ofExt (qty row.label)
      .ok ((rows.take bidIndex).map (fun r => ⟨r.label, Val.ofExt (qty r.label), price, -1, false⟩) ++
        [⟨row.label, if diff.lt own then diff else own, price, -1, false⟩])

/-- `solve_market_side_with_exogenous_price` (`pymarket/mechanisms/muda_auction.py:180-226`), only the transactions, at
a finite price. -/
def solveSideU (S : Sorter) (bids : DF) (qty : ℕ → Ext) (price : ℚ) : Except PyErr (List TransU) :=
  if (buys bids).length = 0 then .ok []
  else if (sells bids).length = 0 then .ok []
  else
    let demand := willingDemand S bids (.fin price)
    let supply := willingSupply S bids (.fin price)
    let supplyQuantity := (supply.map (fun r => qty r.label)).sum
    let demandQuantity := (demand.map (fun r => qty r.label)).sum
    let supplyLong := decide (demandQuantity < supplyQuantity)
    let longSide := if supplyLong then supply else demand
    let shortSide := if supplyLong then demand else supply
    let total := if supplyLong then demandQuantity else supplyQuantity
    if ((0 : ℚ) : Ext) < total then do
      let long ← tradingTransU price qty longSide total
      let short ← tradingTransU price qty shortSide total
      .ok (short ++ long)
    else .ok []

namespace Val

/-- Product of a finite float and any float (`pymarket/mechanisms/muda_auction.py:398`). -/
def timesU (k : ℚ) : Val → Val
  | .fin q => .fin (k * q)
  | .inf => if 0 < k then .inf else if k < 0 then .ninf else .nan
  | .ninf => if 0 < k then .ninf else if k < 0 then .inf else .nan
  | .nan => .nan

/-- `np.abs` (`pymarket/mechanisms/muda_auction.py:399`). -/
def absU : Val → Val
  | .fin q => .fin |q|
  | .inf => .inf
  | .ninf => .inf
  | .nan => .nan

end Val

/-- `compute_fee` (`pymarket/mechanisms/muda_auction.py:382-400`), see `computeFee`. The rows of the long side are in
positional order, `col` gives their quantities by position. `fee.sum()` skips NaN. -/
def computeFeeU (df : DF) (col : ℕ → Ext) (index : ℕ) (user : ℤ) (quantity : Ext) (price : ℚ) : Val :=
  let others := withoutUser df user
  if others = [] then .fin 0
  else
    let newIndex := lastIndexU (others.map (fun p => col p.2)) quantity
    let but := others.take newIndex
    let diff := (Val.ofExt quantity).sub (Val.ofExt (but.map (fun p => col p.2)).sum)
    let own := fun p : Row × ℕ => Val.ofExt (col p.2)
    let newWinning := but.map (fun p => (p, own p)) ++
      (others[newIndex]?).toList.map (fun p => (p, if diff.lt (own p) then diff else own p))
    let pureNew := newWinning.filter (fun p => decide (index < p.1.2))
    let fee := (pureNew.map (fun p => Val.timesU (p.1.1.price - price) p.2)).filter (fun v => decide (v ≠ .nan))
    (sumU fee).absU

end PyMarket
