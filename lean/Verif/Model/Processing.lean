import Verif.Model.Bids
import Verif.Model.Transactions

/-! # Model of `pymarket/bids/processing.py` and `pymarket/transactions/processing.py` -/

set_option autoImplicit false

namespace PyMarket

/-- Round half to even to the nearest integer, the rounding of `np.round`. -/
def rint (x : ℚ) : ℤ :=
  let f := ⌊x⌋
  let d := x - f
  if d < 1 / 2 then f
  else if 1 / 2 < d then f + 1
  else if f % 2 = 0 then f else f + 1

/-- `np.round(x, prec)` in exact arithmetic (`pymarket/bids/processing.py:248`): NumPy computes
`rint(x * 10**prec) / 10**prec`. `prec` is a non-negative number of digits. -/
def npRound (prec : ℕ) (x : ℚ) : ℚ := (rint (x * 10 ^ prec) : ℚ) / 10 ^ prec

/-- State of `new_player_id` (`pymarket/bids/processing.py:12-76`): the function attribute
`new_player_id.index`. `newId index users` returns the id for the list of users and the updated
counter (`new_id`, lines 42-74). `users[0]` of an empty list raises `IndexError`. -/
def newId (index : ℤ) (users : List ℤ) : Except PyErr (ℤ × ℤ) :=
  if 1 < users.length then .ok (index, index + 1)
  else match users with
    | u :: _ => .ok (u, index)
    | [] => .error .indexError

/-- `x.sample(1)` on the `time` and `divisible` columns of a group
(`pymarket/bids/processing.py:240-242`): an arbitrary member. The `buying` column of a group is
constant, so sampling it is deterministic. -/
structure Sampler where
  time : List ℚ → ℚ
  divisible : List Bool → Bool
  time_mem : ∀ l, l ≠ [] → time l ∈ l
  divisible_mem : ∀ l, l ≠ [] → divisible l ∈ l

/-- The group keys of `df_.groupby(rounded_prices)` in increasing order
(`pymarket/bids/processing.py:248-249`). -/
def groupKeys (prec : ℕ) (df : DF) : List ℚ :=
  ((df.map (fun r => npRound prec r.price)).dedup).insertionSort (fun a b => a ≤ b)

/-- The rows of a group, in original order (`groupby` preserves the order within groups). -/
def groupRows (prec : ℕ) (df : DF) (key : ℚ) : DF :=
  df.filter (fun r => npRound prec r.price == key)

/-- One aggregated row: `agg_fun` (`pymarket/bids/processing.py:236-243`) followed by
`df_new.user.apply(id_gen)` (line 251). Returns the new bid, the list of original bid labels and
the updated id counter. `side` is the common value of the `buying` column. -/
def aggGroup (smp : Sampler) (side : Bool) (key : ℚ) (rows : DF) (index : ℤ) :
    Except PyErr ((Bid × List ℕ) × ℤ) := do
  let (u, index') ← newId index (rows.map (fun r => r.user))
  .ok (({ quantity := qsum rows, price := key, user := u, buying := side,
          time := smp.time (rows.map (fun r => r.time)),
          divisible := smp.divisible (rows.map (fun r => r.divisible)) },
        rows.map (fun r => r.label)), index')

/-- The loop over the groups of one side (`pymarket/bids/processing.py:247-256`). -/
def aggSide (smp : Sampler) (prec : ℕ) (side : Bool) (df : DF) :
    List ℚ → ℤ → Except PyErr (List (Bid × List ℕ) × ℤ)
  | [], index => .ok ([], index)
  | key :: keys, index => do
      let (g, index') ← aggGroup smp side key (groupRows prec df key) index
      let (gs, index'') ← aggSide smp prec side df keys index'
      .ok (g :: gs, index'')

/-- `df.user.max() + 1` (`pymarket/bids/processing.py:226`); `0` on an empty frame (there the real
code computes `nan + 1` and never uses it, because there are no groups). -/
def maxUserSucc (df : DF) : ℤ :=
  match df.map (fun r => r.user) with
  | [] => 0
  | u :: us => us.foldl max u + 1

/-- `merge_same_price` (`pymarket/bids/processing.py:79-270`): the merged frame (fresh `RangeIndex`,
line 258) and the mapping from new labels to lists of old labels (line 259), represented as the
list whose `k`-th entry is the image of label `k`. The two sides share one id counter. -/
def mergeSamePrice (smp : Sampler) (df : DF) (prec : ℕ := 5) :
    Except PyErr (DF × List (List ℕ)) := do
  let buy := buys df
  let sell := sells df
  let (gb, index) ← aggSide smp prec true buy (groupKeys prec buy) (maxUserSucc df)
  let (gs, _) ← aggSide smp prec false sell (groupKeys prec sell) index
  let all := gb ++ gs
  .ok (labelFrom 0 (all.map (fun p => p.1)), all.map (fun p => p.2))

/-- The loop body of `split_transactions_merged_players` for one transaction
(`pymarket/transactions/processing.py:55-74`) with `fees=None`: `perc[r]` is the share of member
`r` in the total quantity of the group (lines 58-59). A group of total quantity `0` makes line 58
compute `0/0`; see `PyErr.nanQuantity`. `bids.iloc[rows]` raises `IndexError` for a position that
does not exist. -/
def splitOne (bids : DF) (maping : List (List ℕ)) (t : Transaction) :
    Except PyErr (List Transaction) :=
  match maping[t.bid]? with
  | none => .error .keyError
  | some rows =>
      let members := rows.filterMap (fun i => bids[i]?)
      if members.length ≠ rows.length then .error .indexError
      else if qsum members = 0 ∧ rows ≠ [] then .error .nanQuantity
      else .ok ((List.zip rows members).map (fun p =>
        { t with bid := p.1, quantity := t.quantity * (p.2.quantity / qsum members) }))

/-- The outer loop of `split_transactions_merged_players`. -/
def splitAll (bids : DF) (maping : List (List ℕ)) :
    List Transaction → Except PyErr (List Transaction)
  | [] => .ok []
  | t :: ts => do
      let r ← splitOne bids maping t
      let rs ← splitAll bids maping ts
      .ok (r ++ rs)

/-- `split_transactions_merged_players` (`pymarket/transactions/processing.py:10-79`) with the
default `fees=None`, the only way the library calls it (`pymarket/mechanisms/mechanism.py:165`). -/
def splitTransactions (transactions : TransactionManager) (bids : DF) (maping : List (List ℕ)) :
    Except PyErr TransactionManager := do
  let ts ← splitAll bids maping transactions.getDf
  .ok (TransactionManager.init.addAll ts)

/-- The loop body of `split_transactions_merged_players` for one transaction when a fee dictionary is
given (`pymarket/transactions/processing.py:55-74`): for a group with several members line 61 reads
`t.user`, but a row of the transaction table has only the columns `bid, quantity, price, source,
active` (`pymarket/transactions/transactions.py:23`), so it raises `AttributeError`; the lines that
would change `fees` (61 and 70) are never reached. -/
def splitOneFees (bids : DF) (maping : List (List ℕ)) (t : Transaction) :
    Except PyErr (List Transaction) :=
  match maping[t.bid]? with
  | none => .error .keyError
  | some rows =>
      if (rows.filterMap (fun i => bids[i]?)).length ≠ rows.length then .error .indexError
      else if 1 < rows.length then .error .attributeError
      else splitOne bids maping t

/-- The outer loop of `split_transactions_merged_players` when a fee dictionary is given. -/
def splitAllFees (bids : DF) (maping : List (List ℕ)) :
    List Transaction → Except PyErr (List Transaction)
  | [] => .ok []
  | t :: ts => do
      let r ← splitOneFees bids maping t
      let rs ← splitAllFees bids maping ts
      .ok (r ++ rs)

/-- `split_transactions_merged_players(transactions, bids, maping, fees)`
(`pymarket/transactions/processing.py:10-79`) with a dictionary of fees by user, here the list of its
items; it returns the new transactions and the dictionary (line 77). -/
def splitTransactionsFees (transactions : TransactionManager) (bids : DF) (maping : List (List ℕ))
    (fees : List (ℤ × ℚ)) : Except PyErr (TransactionManager × List (ℤ × ℚ)) := do
  let ts ← splitAllFees bids maping transactions.getDf
  .ok (TransactionManager.init.addAll ts, fees)

end PyMarket
