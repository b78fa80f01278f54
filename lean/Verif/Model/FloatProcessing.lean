import Verif.Model.FloatMuda
import Verif.Model.FloatP2P
import Verif.Model.Mechanism

/-! # Merging, splitting and running a mechanism in floating point arithmetic

The definitions of `Verif/Model/Processing.lean` and `Verif/Model/Mechanism.lean` with every
arithmetic operation rounded. `g` is the order in which `groupby(...).agg(sum)` adds up a group, `s`
that of `Series.sum()`, `o` that of an object column (`Verif/Model/FloatMuda.lean`).

Simplification: the grouped sum is a rounded sum in some order; pandas 1.2 and later use a compensated
sum instead. -/

set_option autoImplicit false

namespace PyMarket

/-- `np.round(x, prec)` (`pymarket/bids/processing.py:248`): NumPy computes
`rint(x * 10**prec) / 10**prec`; `rint` is exact. -/
def npRoundF (F : Arith) (prec : ℕ) (x : ℚ) : ℚ :=
  F.rnd ((rint (F.rnd (x * 10 ^ prec)) : ℚ) / 10 ^ prec)

/-- The group keys of `df_.groupby(rounded_prices)` (`pymarket/bids/processing.py:248-249`). -/
def groupKeysF (F : Arith) (prec : ℕ) (df : DF) : List ℚ :=
  ((df.map (fun r => npRoundF F prec r.price)).dedup).insertionSort (fun a b => a ≤ b)

/-- The rows of a group. -/
def groupRowsF (F : Arith) (prec : ℕ) (df : DF) (key : ℚ) : DF :=
  df.filter (fun r => npRoundF F prec r.price == key)

/-- One aggregated row (`pymarket/bids/processing.py:236-251`). -/
def aggGroupF (F : Arith) (g : Summer F) (smp : Sampler) (side : Bool) (key : ℚ) (rows : DF) (index : ℤ) :
    Except PyErr ((Bid × List ℕ) × ℤ) := do
  let (u, index') ← newId index (rows.map (fun r => r.user))
  .ok (({ quantity := g.sum (rows.map (fun r => r.quantity)), price := key, user := u, buying := side,
          time := smp.time (rows.map (fun r => r.time)),
          divisible := smp.divisible (rows.map (fun r => r.divisible)) },
        rows.map (fun r => r.label)), index')

/-- The loop over the groups of one side (`pymarket/bids/processing.py:247-256`). -/
def aggSideF (F : Arith) (g : Summer F) (smp : Sampler) (prec : ℕ) (side : Bool) (df : DF) :
    List ℚ → ℤ → Except PyErr (List (Bid × List ℕ) × ℤ)
  | [], index => .ok ([], index)
  | key :: keys, index => do
      let (x, index') ← aggGroupF F g smp side key (groupRowsF F prec df key) index
      let (xs, index'') ← aggSideF F g smp prec side df keys index'
      .ok (x :: xs, index'')

/-- `merge_same_price` (`pymarket/bids/processing.py:79-270`). -/
def mergeSamePriceF (F : Arith) (g : Summer F) (smp : Sampler) (df : DF) (prec : ℕ := 5) :
    Except PyErr (DF × List (List ℕ)) := do
  let buy := buys df
  let sell := sells df
  let (gb, index) ← aggSideF F g smp prec true buy (groupKeysF F prec buy) (maxUserSucc df)
  let (gs, _) ← aggSideF F g smp prec false sell (groupKeysF F prec sell) index
  let all := gb ++ gs
  .ok (labelFrom 0 (all.map (fun p => p.1)), all.map (fun p => p.2))

/-- The loop body of `split_transactions_merged_players`
(`pymarket/transactions/processing.py:55-74`): the share is rounded, then its product with the
transaction's quantity. -/
def splitOneF (F : Arith) (s : Summer F) (bids : DF) (maping : List (List ℕ)) (t : Transaction) :
    Except PyErr (List Transaction) :=
  match maping[t.bid]? with
  | none => .error .keyError
  | some rows =>
      let members := rows.filterMap (fun i => bids[i]?)
      let total := s.sum (members.map (fun r => r.quantity))
      if members.length ≠ rows.length then .error .indexError
      else if total = 0 ∧ rows ≠ [] then .error .nanQuantity
      else .ok ((List.zip rows members).map (fun p =>
        { t with bid := p.1, quantity := F.rnd (t.quantity * F.rnd (p.2.quantity / total)) }))

/-- The outer loop of `split_transactions_merged_players`. -/
def splitAllF (F : Arith) (s : Summer F) (bids : DF) (maping : List (List ℕ)) :
    List Transaction → Except PyErr (List Transaction)
  | [] => .ok []
  | t :: ts => do
      let r ← splitOneF F s bids maping t
      let rs ← splitAllF F s bids maping ts
      .ok (r ++ rs)

/-- `split_transactions_merged_players` (`pymarket/transactions/processing.py:10-79`). -/
def splitTransactionsF (F : Arith) (s : Summer F) (transactions : TransactionManager) (bids : DF)
    (maping : List (List ℕ)) : Except PyErr TransactionManager := do
  let ts ← splitAllF F s bids maping transactions.getDf
  .ok (TransactionManager.init.addAll ts)

/-- `Mechanism.__init__` + `Mechanism.run` (`pymarket/mechanisms/mechanism.py:72-174`). -/
def mechanismF (F : Arith) (s g : Summer F) (smp : Sampler) (merge : Bool) (algo : Algo) (bids : DF) :
    Except PyErr (TransactionManager × Extra) :=
  if merge then do
    let (newBids, maping) ← mergeSamePriceF F g smp bids
    let (tm, extra) ← mechRun algo newBids
    let tm' ← splitTransactionsF F s tm bids maping
    .ok (tm', extra)
  else mechRun algo bids

/-- `MECHANISM[algo](df, *args, **kwargs).run()` (`pymarket/market.py:150-152`). -/
def runAlgoF (F : Arith) (s g o : Summer F) (S : Sorter) (smp : Sampler) (call : AlgoCall) (bids : DF) :
    Except PyErr (TransactionManager × Extra) :=
  match call with
  | .huang => mechanismF F s g smp true (huangAuctionF F s S) bids
  | .muda merge coin => mechanismF F s g smp merge (mudaF F s o S coin) bids
  | .p2p merge pCoef choice => mechanismF F s g smp merge (p2pRandomF F s pCoef choice) bids
  | .other _ => .error .keyError

end PyMarket
