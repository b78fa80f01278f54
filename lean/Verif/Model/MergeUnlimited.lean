import Verif.Model.Unlimited
import Verif.Model.Mechanism

/-! # Unlimited bids and merging -/

set_option autoImplicit false

namespace PyMarket

/-- The column `quantity` of the merged bids (`'quantity': sum`, `pymarket/bids/processing.py:239`): a group with an
unlimited bid is unlimited. The other columns are those of `mergeSamePrice`. -/
def mergedQty (qty : ℕ → Ext) (maping : List (List ℕ)) (k : ℕ) : Ext := ((maping.getD k []).map qty).sum

/-- `t_[1] *= perc[r]` (`pymarket/transactions/processing.py:58-59,69`) for a member of quantity `q` of a group with the
total `total`: a number over `np.inf` is `0`, and `np.inf / np.inf` is NaN. -/
def shareU (traded : ℚ) (q total : Ext) : Val :=
  match q, total with
  | some a, some b => .fin (traded * (a / b))
  | some _, none => .fin 0
  | none, _ => .nan

/-- The loop body of `split_transactions_merged_players` (`pymarket/transactions/processing.py:55-74`), see
`splitOne`. -/
def splitOneU (qty : ℕ → Ext) (bids : DF) (maping : List (List ℕ)) (t : Transaction) : Except PyErr (List TransU) :=
  match maping[t.bid]? with
  | none => .error .keyError
  | some rows =>
      if ∃ i ∈ rows, bids.length ≤ i then .error .indexError
      else if (rows.map qty).sum = 0 ∧ rows ≠ [] then .error .nanQuantity
      else .ok (rows.map (fun i =>
        { bid := i, quantity := shareU t.quantity (qty i) (rows.map qty).sum, price := t.price, source := t.source,
          active := t.active }))

/-- The outer loop of `split_transactions_merged_players`, see `splitAll`. -/
def splitAllU (qty : ℕ → Ext) (bids : DF) (maping : List (List ℕ)) : List Transaction → Except PyErr (List TransU)
  | [] => .ok []
  | t :: ts => do
      let r ← splitOneU qty bids maping t
      let rs ← splitAllU qty bids maping ts
      .ok (r ++ rs)

/-- `Market.run(algo='huang')` (`pymarket/mechanisms/mechanism.py:72-174`, `pymarket/mechanisms/huang_auction.py:208-231`)
with quantities that may be `np.inf`: the transactions and the extra information. -/
def mechanismHuangU (S : Sorter) (smp : Sampler) (bids : DF) (qty : ℕ → Ext) : Except PyErr (List TransU × Extra) := do
  let (newBids, maping) ← mergeSamePrice smp bids
  let (tm, extra) ← mechRun (fun b => huangAuctionU S b (mergedQty qty maping)) newBids
  let ts ← splitAllU qty bids maping tm.getDf
  .ok (ts, extra)

end PyMarket
