import Verif.Model.Stats

/-! # Splitting with IEEE special values: what the log really contains after a division by zero

`Verif/Model/Processing.lean` stops with the mark `PyErr.nanQuantity` where a merged bid of total quantity
`0` is split. The real code goes on with `NaN` or infinite entries; this file follows it. -/

set_option autoImplicit false

namespace PyMarket

/-- IEEE division of finite numbers: `bids.iloc[rows, :] / bids.iloc[rows, :].quantity.sum()`
(`pymarket/transactions/processing.py:58`). pandas does not raise for a division by zero. The zero is
taken as positive (the sum of the quantities is `-0.0` only if all of them are `-0.0`). -/
def Val.quot (a b : ℚ) : Val :=
  if b ≠ 0 then .fin (a / b) else if 0 < a then .inf else if a < 0 then .ninf else .nan

/-- IEEE product with a finite factor: `t_[1] *= perc[r]` (`pymarket/transactions/processing.py:68`),
`gap * row.quantity` (`pymarket/statistics/profits.py:125`). -/
def Val.times (k : ℚ) : Val → Val
  | .fin q => .fin (k * q)
  | .inf => if 0 < k then .inf else if k < 0 then .ninf else .nan
  | .ninf => if 0 < k then .ninf else if k < 0 then .inf else .nan
  | .nan => .nan

/-- A row of the transaction table (`pymarket/transactions/transactions.py:23`) whose quantity may be an
IEEE special value. -/
structure TransV where
  bid : ℕ
  quantity : Val
  price : ℚ
  source : ℤ
  active : Bool
  deriving DecidableEq, Repr

/-- A transaction with a finite quantity as such a row (no Python counterpart). -/
def Transaction.toV (t : Transaction) : TransV := ⟨t.bid, .fin t.quantity, t.price, t.source, t.active⟩

/-- The loop body of `split_transactions_merged_players` for one transaction
(`pymarket/transactions/processing.py:55-74`) with `fees=None`, without stopping at a division by zero. -/
def splitOneV (bids : DF) (maping : List (List ℕ)) (t : Transaction) : Except PyErr (List TransV) :=
  match maping[t.bid]? with
  | none => .error .keyError
  | some rows =>
      let members := rows.filterMap (fun i => bids[i]?)
      if members.length ≠ rows.length then .error .indexError
      else .ok ((List.zip rows members).map (fun p =>
        ⟨p.1, (Val.quot p.2.quantity (qsum members)).times t.quantity, t.price, t.source, t.active⟩))

/-- The outer loop of `split_transactions_merged_players`
(`pymarket/transactions/processing.py:55-74`). -/
def splitAllV (bids : DF) (maping : List (List ℕ)) : List Transaction → Except PyErr (List TransV)
  | [] => .ok []
  | t :: ts => do
      let r ← splitOneV bids maping t
      let rs ← splitAllV bids maping ts
      .ok (r ++ rs)

/-- `Mechanism.run` (`pymarket/mechanisms/mechanism.py:72-174`): the rows of the log and the extra
information. -/
def mechanismV (smp : Sampler) (merge : Bool) (algo : Algo) (bids : DF) :
    Except PyErr (List TransV × Extra) :=
  if merge then do
    let (newBids, maping) ← mergeSamePrice smp bids
    let (tm, extra) ← mechRun algo newBids
    let rows ← splitAllV bids maping tm.getDf
    .ok (rows, extra)
  else do
    let (tm, extra) ← mechRun algo bids
    .ok (tm.getDf.map Transaction.toV, extra)

/-- `MECHANISM[algo](df, *args, **kwargs).run()` (`pymarket/market.py:150-152`). -/
def runAlgoV (S : Sorter) (smp : Sampler) (call : AlgoCall) (bids : DF) :
    Except PyErr (List TransV × Extra) :=
  match call with
  | .huang => mechanismV smp true (huangAuction S) bids
  | .muda merge coin => mechanismV smp merge (muda S coin) bids
  | .p2p merge pCoef choice => mechanismV smp merge (p2pRandom pCoef choice) bids
  | .other _ => .error .keyError

/-- `ndarray.sum()`: IEEE sum, a `NaN` makes the sum `NaN`
(`(mb.price_x * mb.quantity).values.sum()`, `pymarket/statistics/profits.py:98-99`). -/
def sumStrict (l : List Val) : Val := l.foldr Val.add (.fin 0)

/-- `Series.sum()` and `groupby(...).sum()` of pandas: `NaN` entries are skipped
(`pymarket/statistics/profits.py:87`, `maximum_traded_volume.py:126`,
`maximum_aggregated_utility.py:163,167`). -/
def sumSkip (l : List Val) : Val := sumStrict (l.filter (fun v => decide (v ≠ .nan)))

/-- `percentage_traded` (`pymarket/statistics/maximum_traded_volume.py:82-131`) on such a log. -/
def percentageTradedV (solve : Solver) (bids : DF) (trans : List TransV) : Option Val :=
  let objective := solve (volumeLP bids)
  let total := (sumSkip (trans.map (fun t => t.quantity))).times (1 / 2)
  if 0 < objective then some (total.times (1 / objective)) else none

/-- `transactions.merge(tmp, on='bid')` (`pymarket/statistics/profits.py:85`,
`maximum_aggregated_utility.py:159`) on such a log. -/
def joinBidsV (bids : DF) (trans : List TransV) : List (TransV × Row) :=
  trans.filterMap (fun t => (bids.find? (fun r => r.label == t.bid)).map (fun r => (t, r)))

/-- `percentage_welfare` (`pymarket/statistics/maximum_aggregated_utility.py:110-174`) on such a log;
see `percentageWelfare` for the unused argument. -/
def percentageWelfareV (solve : Solver) (bids : DF) (trans : List TransV) : Option Val :=
  let objective := solve (utilityLP bids (fun _ => none))
  let merged := joinBidsV bids trans
  let buyers := merged.filter (fun p => p.2.buying)
  let sellers := merged.filter (fun p => !p.2.buying)
  let profitBuyers := sumSkip (buyers.map (fun p => p.1.quantity.times (p.2.price - p.1.price)))
  let profitSellers := sumSkip (sellers.map (fun p => p.1.quantity.times (p.1.price - p.2.price)))
  let welfare := profitBuyers.add profitSellers
  if 0 < objective then some (welfare.times (1 / objective)) else none

/-- `get_gain` (`pymarket/statistics/profits.py:107-125`) on such a row. -/
def getGainV (t : TransV) (priceY : ℚ) (buying : Bool) : Val :=
  let gap := priceY - t.price
  let gap := if !buying then -gap else gap
  t.quantity.times gap

/-- `profit_player.get(x, 0)` with `profit_player = merged.groupby('user')['gain'].sum()`
(`pymarket/statistics/profits.py:86-89`) on such a log. -/
def userProfitV (merged : List (TransV × Row)) (priceOf : Row → ℚ) (u : ℤ) : Val :=
  sumSkip ((merged.filter (fun p => decide (p.2.user = u))).map
    (fun p => getGainV p.1 (priceOf p.2) p.2.buying))

/-- The result of `calculate_profits` (`pymarket/statistics/profits.py:29-38`) on such a log. -/
structure ProfitsV where
  playerBid : List Val
  playerReservation : List Val
  market : Val
  deriving DecidableEq, Repr

/-- `calculate_profits` (`pymarket/statistics/profits.py:6-104`) on such a log. The subtraction of line 99
is the addition of the opposite. -/
def calculateProfitsV (bids : DF) (trans : List TransV) (reservationPrices : Option ResPrices)
    (fees : Option (List ℚ)) : ProfitsV :=
  let users := sortedUsers bids
  let res := fillRes (reservationPrices.getD (fun _ => none)) bids
  let fees := fees.getD (List.replicate (bids.map (fun r => r.user)).dedup.length 0)
  let merged := joinBidsV bids trans
  let mb := merged.filter (fun p => p.2.buying)
  let ms := merged.filter (fun p => !p.2.buying)
  let profitMarket := ((sumStrict (mb.map (fun p => p.1.quantity.times p.1.price))).add
    ((sumStrict (ms.map (fun p => p.1.quantity.times p.1.price))).times (-1))).add (.fin fees.sum)
  { playerBid := users.map (userProfitV merged (fun r => r.price))
    playerReservation := users.map (userProfitV merged (fun r => (res r.label).getD r.price))
    market := profitMarket }

end PyMarket
