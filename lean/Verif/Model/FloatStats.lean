import Verif.Model.Float
import Verif.Model.Stats

/-! # The statistics in floating point arithmetic

The definitions of `Verif/Model/Stats.lean` with every arithmetic operation rounded. `s` is the order
of summation of `Series.sum()` and `ndarray.sum()`; `g` adds up the groups of
`groupby('user')['gain'].sum()`, which up to pandas 1.1 is a left to right sum (`seqSum`) and since
pandas 1.2 a compensated sum (`kahanSum`). The value of the optimisation program is that of the solver. -/

set_option autoImplicit false

namespace PyMarket

/-- One step of the compensated sum of pandas (`group_add` in `pandas/_libs/groupby.pyx`, since pandas
1.2): `y = val - compensation; t = sumx + y; compensation = t - sumx - y; sumx = t`. The pair is
`(sumx, compensation)`. -/
def kahanStep (F : Arith) (a : ℚ × ℚ) (x : ℚ) : ℚ × ℚ :=
  let y := F.rnd (x - a.2)
  let t := F.rnd (a.1 + y)
  (t, F.rnd (F.rnd (t - a.1) - y))

/-- The compensated sum of pandas' `groupby(...).sum()`. -/
def kahanSum (F : Arith) (l : List ℚ) : ℚ := (l.foldl (kahanStep F) (0, 0)).1

/-- `get_gain` (`pymarket/statistics/profits.py:107-125`). -/
def getGainF (F : Arith) (t : Transaction) (priceY : ℚ) (buying : Bool) : ℚ :=
  let gap := F.rnd (priceY - t.price)
  let gap := if !buying then -gap else gap
  F.rnd (gap * t.quantity)

/-- `profit_player.get(x, 0)` (`pymarket/statistics/profits.py:86-89`): a user without transactions is
not in the grouped table. -/
def userProfitF (F : Arith) (g : List ℚ → ℚ) (merged : List (Transaction × Row)) (priceOf : Row → ℚ)
    (u : ℤ) : ℚ :=
  let own := merged.filter (fun p => decide (p.2.user = u))
  if own = [] then 0 else g (own.map (fun p => getGainF F p.1 (priceOf p.2) p.2.buying))

/-- `calculate_profits` (`pymarket/statistics/profits.py:6-104`). -/
def calculateProfitsF (F : Arith) (s : Summer F) (g : List ℚ → ℚ) (bids : DF) (trans : List Transaction)
    (reservationPrices : Option ResPrices) (fees : Option (List ℚ)) : Profits × Option ResPrices :=
  let users := sortedUsers bids
  let res := fillRes (reservationPrices.getD (fun _ => none)) bids
  let fees := fees.getD (List.replicate (bids.map (fun r => r.user)).dedup.length 0)
  let merged := joinBids bids trans
  let mb := merged.filter (fun p => p.2.buying)
  let ms := merged.filter (fun p => !p.2.buying)
  let inflow := s.sum (mb.map (fun p => F.rnd (p.1.price * p.1.quantity)))
  let outflow := s.sum (ms.map (fun p => F.rnd (p.1.price * p.1.quantity)))
  let profitMarket := F.rnd (F.rnd (inflow - outflow) + s.sum fees)
  ({ playerBid := users.map (userProfitF F g merged (fun r => r.price))
     playerReservation := users.map (userProfitF F g merged (fun r => (res r.label).getD r.price))
     market := profitMarket },
   reservationPrices.map (fun _ => res))

/-- `percentage_traded` (`pymarket/statistics/maximum_traded_volume.py:82-131`). -/
def percentageTradedF (F : Arith) (s : Summer F) (solve : Solver) (bids : DF) (trans : List Transaction) :
    Option ℚ :=
  let objective := solve (volumeLP bids)
  let total := F.rnd (s.sum (trans.map (fun t => t.quantity)) / 2)
  if 0 < objective then some (F.rnd (total / objective)) else none

/-- `percentage_welfare` (`pymarket/statistics/maximum_aggregated_utility.py:110-174`). -/
def percentageWelfareF (F : Arith) (s : Summer F) (solve : Solver) (bids : DF) (trans : List Transaction)
    (_reservationPrices : Option ResPrices) : Option ℚ :=
  let objective := solve (utilityLP bids (fun _ => none))
  let merged := joinBids bids trans
  let buyers := merged.filter (fun p => p.2.buying)
  let sellers := merged.filter (fun p => !p.2.buying)
  let profitBuyers := s.sum (buyers.map (fun p => F.rnd (F.rnd (p.2.price - p.1.price) * p.1.quantity)))
  let profitSellers := s.sum (sellers.map (fun p => F.rnd (F.rnd (p.1.price - p.2.price) * p.1.quantity)))
  let welfare := F.rnd (profitBuyers + profitSellers)
  if 0 < objective then some (F.rnd (welfare / objective)) else none

end PyMarket
