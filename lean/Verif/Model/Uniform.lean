import Verif.Model.Market

/-! # Model of the uniform price mechanism of the documentation

`docs/new_mechanism.ipynb` shows how to add a mechanism to the package; the cited lines are those of the
notebook file. -/

set_option autoImplicit false

namespace PyMarket

/-- All bids of the short side trade their quantity (`docs/new_mechanism.ipynb:199-201`). -/
def uniformShort (price : ℚ) (rows : DF) : List Transaction :=
  rows.map (fun x => { bid := x.label, quantity := x.quantity, price := price, source := -1, active := false })

/-- The bids of the long side trade as long as something is left (`docs/new_mechanism.ipynb:204-213`);
`added` is `quantity_added`. -/
def uniformLong (price traded : ℚ) : ℚ → DF → List Transaction
  | _, [] => []
  | added, x :: xs =>
    { bid := x.label, quantity := if x.quantity + added ≤ traded then x.quantity else traded - added,
      price := price, source := -1, active := false } :: uniformLong price traded (added + x.quantity) xs

/-- `uniform_price_mechanism` (`docs/new_mechanism.ipynb:163-222`): the transactions, the clearing quantity
and the clearing price. When the curves do not cross, `intersect_stepwise` returns `None` for the two
positions and `b_ + 1` (line 180) raises `TypeError`. The price is taken as a number; `uniform_eval` in
`Lemmas/Uniform.lean` shows that it is finite. -/
def uniformPrice (S : Sorter) (bids : DF) : Except PyErr (TransactionManager × Option Ext × Val) := do
  let buy := (demandCurve S bids).1
  let sell := (supplyCurve S bids).1
  let i ← intersectStepwise buy sell
  match i.f, i.g with
  | some b, some s =>
      let buyingBids := (sortDesc S (buys bids)).take (b + 1)
      let sellingBids := (sortAsc S (sells bids)).take (s + 1)
      let buyingQuantity := qsum buyingBids
      let sellingQuantity := qsum sellingBids
      let (longSide, shortSide) :=
        if sellingQuantity < buyingQuantity then (buyingBids, sellingBids) else (sellingBids, buyingBids)
      let tradedQuantity := qsum shortSide
      let price := i.v.toRat
      .ok (TransactionManager.init.addAll (uniformShort price shortSide ++
        uniformLong price tradedQuantity 0 longSide), i.x, i.v)
  | _, _ => .error .typeError

/-- `uniform_price_mechanism` as the algorithm of the class `UniformPrice`
(`docs/new_mechanism.ipynb:239-252`). Its `extra` dictionary has the keys `clearing quantity` and
`clearing price`; no other part of the package reads them (`Market.statistics` looks for `fees`), so they are
left out here. -/
def uniformAlgo (S : Sorter) : Algo := fun bids => (uniformPrice S bids).map (fun r => (r.1, .empty))

/-- `Market.run('uniform', merge=...)` after `MECHANISM['uniform'] = UniformPrice`
(`docs/new_mechanism.ipynb:268`, `pymarket/market.py:149-155`). -/
def Market.runUniform (m : Market) (S : Sorter) (smp : Sampler) (merge : Bool) :
    Market × Except PyErr (TransactionManager × Extra) :=
  match mechanism smp merge (uniformAlgo S) m.bm.getDf with
  | .error e => (m, .error e)
  | .ok (tm, extra) => ({ m with transactions := tm, extra := extra }, .ok (tm, extra))

end PyMarket
