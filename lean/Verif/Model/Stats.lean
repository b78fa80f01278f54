import Verif.Model.Mechanism

/-! # Model of `pymarket/statistics/*.py` -/

set_option autoImplicit false

namespace PyMarket

/-- A linear program `maximise Σ coeff·q, q ≥ 0, Σ_{v ∈ c.1} q v ≤ c.2 for each constraint c`, over
variables indexed by pairs of bids: what the code hands to pulp
(`pymarket/statistics/maximum_aggregated_utility.py:72-94`,
`pymarket/statistics/maximum_traded_volume.py:50-67`). -/
structure LP where
  vars : List (ℕ × ℕ)
  coeff : ℕ × ℕ → ℚ
  constraints : List (List (ℕ × ℕ) × ℚ)

/-- `reservation_prices`: a Python dict from bid ids to prices. The keys are bid indices, not user
ids (`pymarket/statistics/maximum_aggregated_utility.py:77-84`, `profits.py:71-73,83-84`). -/
abbrev ResPrices := ℕ → Option ℚ

/-- `for i, x in bids.iterrows(): if i not in reservation_prices: reservation_prices[i] = x.price`
(`pymarket/statistics/profits.py:71-73`, `maximum_aggregated_utility.py:77-79`). The dict object is
updated in place. -/
def fillRes (res : ResPrices) : DF → ResPrices
  | [] => res
  | r :: rs =>
      fillRes (if (res r.label).isSome then res
        else fun j => if j = r.label then some r.price else res j) rs

/-- Labels of the buying bids, `bids.loc[bids['buying']].index.values`. -/
def buyerIds (bids : DF) : List ℕ := (buys bids).map (fun r => r.label)

/-- Labels of the selling bids. -/
def sellerIds (bids : DF) : List ℕ := (sells bids).map (fun r => r.label)

/-- The program of `maximum_aggregated_utility`
(`pymarket/statistics/maximum_aggregated_utility.py:69-94`). `bids.iloc[b, 0]` is the quantity of
bid `b`. -/
def utilityLP (bids : DF) (res : ResPrices) : LP :=
  let buyers := buyerIds bids
  let sellers := sellerIds bids
  let res' := fillRes res bids
  { vars := buyers.flatMap (fun i => sellers.map (fun j => (i, j)))
    coeff := fun x => (res' x.1).getD 0 - (res' x.2).getD 0
    constraints :=
      buyers.map (fun b => (sellers.map (fun j => (b, j)), valueAt bids (fun r => r.quantity) b)) ++
      sellers.map (fun s => (buyers.map (fun i => (i, s)), valueAt bids (fun r => r.quantity) s)) }

/-- The program of `maximum_traded_volume`
(`pymarket/statistics/maximum_traded_volume.py:50-67`): only pairs with buyer price at least the
seller price. -/
def volumeLP (bids : DF) : LP :=
  let buyers := buyerIds bids
  let sellers := sellerIds bids
  let price := valueAt bids (fun r => r.price)
  let index := (buyers.flatMap (fun i => sellers.map (fun j => (i, j)))).filter
    (fun x => decide (price x.2 ≤ price x.1))
  { vars := index
    coeff := fun _ => 1
    constraints :=
      buyers.map (fun b => ((sellers.filter (fun j => decide ((b, j) ∈ index))).map
        (fun j => (b, j)), valueAt bids (fun r => r.quantity) b)) ++
      sellers.map (fun s => ((buyers.filter (fun i => decide ((i, s) ∈ index))).map
        (fun i => (i, s)), valueAt bids (fun r => r.quantity) s)) }

/-- A solver: maps a program to `pulp.value(model.objective)` after `model.solve()`. External code;
see the trusted base. -/
abbrev Solver := LP → ℚ

/-- `percentage_traded` (`pymarket/statistics/maximum_traded_volume.py:82-131`). -/
def percentageTraded (solve : Solver) (bids : DF) (trans : List Transaction) : Option ℚ :=
  let objective := solve (volumeLP bids)
  let total := (trans.map (fun t => t.quantity)).sum / 2
  if 0 < objective then some (total / objective) else none

/-- `transactions.merge(tmp, on='bid')` (`pymarket/statistics/profits.py:85`,
`maximum_aggregated_utility.py:159`): inner join of transactions with the bids' columns. Labels of
`bids` are distinct, so a transaction matches at most one bid. -/
def joinBids (bids : DF) (trans : List Transaction) : List (Transaction × Row) :=
  trans.filterMap (fun t => (bids.find? (fun r => r.label == t.bid)).map (fun r => (t, r)))

/-- `percentage_welfare` (`pymarket/statistics/maximum_aggregated_utility.py:110-174`). Line 150
replaces the argument `reservation_prices` by an empty dict, and line 155 passes the filled dict
positionally, where it is swallowed by `*args` of `maximum_aggregated_utility`. -/
def percentageWelfare (solve : Solver) (bids : DF) (trans : List Transaction)
    (_reservationPrices : Option ResPrices) : Option ℚ :=
  let objective := solve (utilityLP bids (fun _ => none))
  let merged := joinBids bids trans
  let buyers := merged.filter (fun p => p.2.buying)
  let sellers := merged.filter (fun p => !p.2.buying)
  let profitBuyers := (buyers.map (fun p => (p.2.price - p.1.price) * p.1.quantity)).sum
  let profitSellers := (sellers.map (fun p => (p.1.price - p.2.price) * p.1.quantity)).sum
  let welfare := profitBuyers + profitSellers
  if 0 < objective then some (welfare / objective) else none

/-- `get_gain` (`pymarket/statistics/profits.py:107-125`) on a joined row whose bid price is
`priceY`. -/
def getGain (t : Transaction) (priceY : ℚ) (buying : Bool) : ℚ :=
  let gap := priceY - t.price
  let gap := if !buying then -gap else gap
  gap * t.quantity

/-- The result of `calculate_profits` (`pymarket/statistics/profits.py:29-38`). -/
structure Profits where
  playerBid : List ℚ
  playerReservation : List ℚ
  market : ℚ
  deriving DecidableEq, Repr

/-- `users = sorted(bids.user.unique())` (`pymarket/statistics/profits.py:65`). -/
def sortedUsers (bids : DF) : List ℤ :=
  ((bids.map (fun r => r.user)).dedup).insertionSort (fun a b => a ≤ b)

/-- `profit_player.get(x, 0)` with `profit_player = merged.groupby('user')['gain'].sum()`
(`pymarket/statistics/profits.py:86-89`): the sum of the gains of user `u`. -/
def userProfit (merged : List (Transaction × Row)) (priceOf : Row → ℚ) (u : ℤ) : ℚ :=
  ((merged.filter (fun p => decide (p.2.user = u))).map
    (fun p => getGain p.1 (priceOf p.2) p.2.buying)).sum

/-- `calculate_profits` (`pymarket/statistics/profits.py:6-104`). Also returns the caller's
reservation dict after the call (it is filled in place when given, lines 69-73). -/
def calculateProfits (bids : DF) (trans : List Transaction) (reservationPrices : Option ResPrices)
    (fees : Option (List ℚ)) : Profits × Option ResPrices :=
  let users := sortedUsers bids
  let res := fillRes (reservationPrices.getD (fun _ => none)) bids
  let fees := fees.getD (List.replicate (bids.map (fun r => r.user)).dedup.length 0)
  let merged := joinBids bids trans
  let mb := merged.filter (fun p => p.2.buying)
  let ms := merged.filter (fun p => !p.2.buying)
  let profitMarket := (mb.map (fun p => p.1.price * p.1.quantity)).sum
    - (ms.map (fun p => p.1.price * p.1.quantity)).sum + fees.sum
  ({ playerBid := users.map (userProfit merged (fun r => r.price))
     playerReservation := users.map (userProfit merged (fun r => (res r.label).getD r.price))
     market := profitMarket },
   reservationPrices.map (fun _ => res))

end PyMarket
