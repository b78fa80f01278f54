import Verif.Model.FloatHuang
import Verif.Model.Uniform

/-! # The uniform price mechanism of the documentation in floating point arithmetic

The definitions of `Verif/Model/Uniform.lean` with every arithmetic operation rounded; the cited lines are
those of the notebook file. -/

set_option autoImplicit false

namespace PyMarket

/-- The bids of the long side trade as long as something is left (`docs/new_mechanism.ipynb:204-213`);
`added` is `quantity_added`. -/
def uniformLongF (F : Arith) (price traded : ℚ) : ℚ → DF → List Transaction
  | _, [] => []
  | added, x :: xs =>
    { bid := x.label,
      quantity := if F.rnd (x.quantity + added) ≤ traded then x.quantity else F.rnd (traded - added),
      price := price, source := -1, active := false } ::
      uniformLongF F price traded (F.rnd (added + x.quantity)) xs

/-- `uniform_price_mechanism` (`docs/new_mechanism.ipynb:163-222`). The two sides are compared, and the traded
quantity is computed, with `Series.sum()` (lines 184-185, 195), in the order of the summer; the curves and the
loop add from left to right. -/
def uniformPriceF (F : Arith) (s : Summer F) (S : Sorter) (bids : DF) :
    Except PyErr (TransactionManager × Option Ext × Val) := do
  let buy := demandCurveF F S bids
  let sell := supplyCurveF F S bids
  let i ← intersectStepwiseF F buy sell
  match i.f, i.g with
  | some b, some g =>
      let buyingBids := (sortDesc S (buys bids)).take (b + 1)
      let sellingBids := (sortAsc S (sells bids)).take (g + 1)
      let buyingQuantity := s.sum (buyingBids.map (fun r => r.quantity))
      let sellingQuantity := s.sum (sellingBids.map (fun r => r.quantity))
      let (longSide, shortSide) :=
        if sellingQuantity < buyingQuantity then (buyingBids, sellingBids) else (sellingBids, buyingBids)
      let tradedQuantity := s.sum (shortSide.map (fun r => r.quantity))
      let price := i.v.toRat
      .ok (TransactionManager.init.addAll (uniformShort price shortSide ++
        uniformLongF F price tradedQuantity 0 longSide), i.x, i.v)
  | _, _ => .error .typeError

end PyMarket
