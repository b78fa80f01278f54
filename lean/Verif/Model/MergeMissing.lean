import Verif.Model.Mechanism

/-! # Missing quantities and merging

The column `bids.quantity` is a function of the label of the bid (`none` is NaN); the field `quantity` of the rows is not
read. -/

set_option autoImplicit false

namespace PyMarket

/-- A row of the transaction table (`pymarket/transactions/transactions.py:23`) whose quantity may be NaN. -/
structure TransQ where
  bid : ℕ
  quantity : Option ℚ
  price : ℚ
  source : ℤ
  active : Bool
  deriving DecidableEq, Repr

/-- One aggregated row (`pymarket/bids/processing.py:236-251`), see `aggGroup`. pandas replaces the builtin `sum` of
line 239 by `SeriesGroupBy.sum`, which skips NaN and gives `0` for a group without a number. -/
def aggGroupQ (smp : Sampler) (qty : ℕ → Option ℚ) (side : Bool) (key : ℚ) (rows : DF) (index : ℤ) :
    Except PyErr ((Bid × List ℕ) × ℤ) := do
  let (u, index') ← newId index (rows.map (fun r => r.user))
  .ok (({ quantity := (rows.filterMap (fun r => qty r.label)).sum, price := key, user := u, buying := side,
          time := smp.time (rows.map (fun r => r.time)),
          divisible := smp.divisible (rows.map (fun r => r.divisible)) },
        rows.map (fun r => r.label)), index')

/-- The loop over the groups of one side (`pymarket/bids/processing.py:247-256`), see `aggSide`. -/
def aggSideQ (smp : Sampler) (qty : ℕ → Option ℚ) (prec : ℕ) (side : Bool) (df : DF) :
    List ℚ → ℤ → Except PyErr (List (Bid × List ℕ) × ℤ)
  | [], index => .ok ([], index)
  | key :: keys, index => do
      let (g, index') ← aggGroupQ smp qty side key (groupRows prec df key) index
      let (gs, index'') ← aggSideQ smp qty prec side df keys index'
      .ok (g :: gs, index'')

/-- `merge_same_price` (`pymarket/bids/processing.py:79-270`), see `mergeSamePrice`. -/
def mergeSamePriceQ (smp : Sampler) (qty : ℕ → Option ℚ) (df : DF) (prec : ℕ := 5) :
    Except PyErr (DF × List (List ℕ)) := do
  let buy := buys df
  let sell := sells df
  let (gb, index) ← aggSideQ smp qty prec true buy (groupKeys prec buy) (maxUserSucc df)
  let (gs, _) ← aggSideQ smp qty prec false sell (groupKeys prec sell) index
  let all := gb ++ gs
  .ok (labelFrom 0 (all.map (fun p => p.1)), all.map (fun p => p.2))

/-- The loop body of `split_transactions_merged_players` (`pymarket/transactions/processing.py:55-74`), see `splitOne`:
the sum in line 58 skips NaN, the share of a member without a quantity is NaN. -/
def splitOneQ (qty : ℕ → Option ℚ) (bids : DF) (maping : List (List ℕ)) (t : Transaction) :
    Except PyErr (List TransQ) :=
  match maping[t.bid]? with
  | none => .error .keyError
  | some rows =>
      let members := rows.filterMap (fun i => bids[i]?)
      let total := (members.filterMap (fun r => qty r.label)).sum
      if members.length ≠ rows.length then .error .indexError
      else if total = 0 ∧ rows ≠ [] then .error .nanQuantity
      else .ok ((List.zip rows members).map (fun p =>
        { bid := p.1, quantity := (qty p.2.label).map (fun q => t.quantity * (q / total)), price := t.price,
          source := t.source, active := t.active }))

/-- The outer loop of `split_transactions_merged_players`, see `splitAll`. -/
def splitAllQ (qty : ℕ → Option ℚ) (bids : DF) (maping : List (List ℕ)) :
    List Transaction → Except PyErr (List TransQ)
  | [] => .ok []
  | t :: ts => do
      let r ← splitOneQ qty bids maping t
      let rs ← splitAllQ qty bids maping ts
      .ok (r ++ rs)

/-- `Mechanism.run` with merging (`pymarket/mechanisms/mechanism.py:72-174`) and quantities that may be NaN: the
transactions and the extra information. -/
def mechanismQ (smp : Sampler) (qty : ℕ → Option ℚ) (algo : Algo) (bids : DF) :
    Except PyErr (List TransQ × Extra) := do
  let (newBids, maping) ← mergeSamePriceQ smp qty bids
  let (tm, extra) ← mechRun algo newBids
  let ts ← splitAllQ qty bids maping tm.getDf
  .ok (ts, extra)

end PyMarket
