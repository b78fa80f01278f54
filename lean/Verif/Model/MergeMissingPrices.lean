import Verif.Model.MissingPrices
import Verif.Model.Mechanism

/-! # Missing prices and merging -/

set_option autoImplicit false

namespace PyMarket

/-- `merge_same_price` (`pymarket/bids/processing.py:79-270`) with prices that may be NaN, see `mergeSamePrice`.
`np.round` of NaN is NaN (line 248), and `groupby` leaves out the rows whose key is NaN (line 249). The first new user id
is computed from all bids (line 226). -/
def mergeSamePriceP (smp : Sampler) (price : ℕ → Option ℚ) (df : DF) (prec : ℕ := 5) :
    Except PyErr (DF × List (List ℕ)) := do
  let buy := pricedRows price (buys df)
  let sell := pricedRows price (sells df)
  let (gb, index) ← aggSide smp prec true buy (groupKeys prec buy) (maxUserSucc df)
  let (gs, _) ← aggSide smp prec false sell (groupKeys prec sell) index
  let all := gb ++ gs
  .ok (labelFrom 0 (all.map (fun p => p.1)), all.map (fun p => p.2))

/-- `Mechanism.run` with merging (`pymarket/mechanisms/mechanism.py:72-174`) and prices that may be NaN. The merged bids
have prices; splitting (`pymarket/transactions/processing.py:55-74`) reads only the quantities of the original bids. -/
def mechanismP (smp : Sampler) (price : ℕ → Option ℚ) (algo : Algo) (bids : DF) :
    Except PyErr (TransactionManager × Extra) := do
  let (newBids, maping) ← mergeSamePriceP smp price bids
  let (tm, extra) ← mechRun algo newBids
  let tm' ← splitTransactions tm bids maping
  .ok (tm', extra)

end PyMarket
