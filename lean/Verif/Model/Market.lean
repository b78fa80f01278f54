import Verif.Model.Stats

/-! # Model of `pymarket/market.py` -/

set_option autoImplicit false

namespace PyMarket

/-- The statistics dictionary of `Market.statistics` (`pymarket/market.py:14-19,157-193`): an entry
is absent when its name is excluded. -/
structure StatsResult where
  percentageTraded : Option (Option ℚ)
  percentageWelfare : Option (Option ℚ)
  profits : Option Profits
  deriving DecidableEq, Repr

/-- The state of a `Market` (`pymarket/market.py:96-100`). `stats` is the attribute set by
`statistics` (line 192), `none` before the first call. -/
structure Market where
  bm : BidManager
  transactions : TransactionManager
  extra : Extra
  stats : Option StatsResult
  deriving DecidableEq, Repr

/-- `Market.__init__` (`pymarket/market.py:96-100`). -/
def Market.init : Market :=
  { bm := BidManager.init, transactions := TransactionManager.init, extra := .empty,
    stats := none }

/-- `Market.accept_bid` (`pymarket/market.py:102-118`). -/
def Market.acceptBid (m : Market) (quantity price : ℚ) (user : ℤ) (buying : Bool := true)
    (time : ℚ := 0) (divisible : Bool := true) : Market × ℕ :=
  let (bm, id) := m.bm.addBid quantity price user buying time divisible
  ({ m with bm := bm }, id)

/-- `Market.run` (`pymarket/market.py:120-155`): new state and result. An exception leaves before
the two assignments of lines 153-154. -/
def Market.run (m : Market) (S : Sorter) (smp : Sampler) (call : AlgoCall) :
    Market × Except PyErr (TransactionManager × Extra) :=
  match runAlgo S smp call m.bm.getDf with
  | .error e => (m, .error e)
  | .ok (tm, extra) => ({ m with transactions := tm, extra := extra }, .ok (tm, extra))

/-- `Market.statistics` (`pymarket/market.py:157-193`): new state, returned dictionary, and the
caller's reservation dict after the call (only `calculate_profits` writes to it). -/
def Market.statistics (m : Market) (solve : Solver) (reservationPrices : Option ResPrices)
    (exclude : List String) : Market × StatsResult × Option ResPrices :=
  let bids := m.bm.getDf
  let trans := m.transactions.getDf
  let fees := match m.extra with
    | .muda _ _ _ _ fees => some fees
    | _ => none
  let pr := calculateProfits bids trans reservationPrices fees
  let stats : StatsResult :=
    { percentageTraded :=
        if "percentage_traded" ∈ exclude then none else some (percentageTraded solve bids trans)
      percentageWelfare :=
        if "percentage_welfare" ∈ exclude then none
        else some (percentageWelfare solve bids trans reservationPrices)
      profits := if "profits" ∈ exclude then none else some pr.1 }
  ({ m with stats := some stats }, stats,
    if "profits" ∈ exclude then reservationPrices else pr.2)

end PyMarket
