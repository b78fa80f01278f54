import Verif.Model.Curves
import Verif.Model.Transactions

/-! # Model of `pymarket/mechanisms/huang_auction.py` -/

set_option autoImplicit false

namespace PyMarket

/-- `np.nanargmin` and `np.nanmin` together: position and value of the first smallest entry that is
not `NaN` (`none`). `none` when all entries are `NaN`, where NumPy raises `ValueError`
(`pymarket/mechanisms/huang_auction.py:48-49,59-60`). -/
def nanArgMin : List (Option ℚ) → Option (ℕ × ℚ)
  | [] => none
  | none :: xs => (nanArgMin xs).map (fun p => (p.1 + 1, p.2))
  | some a :: xs =>
      match nanArgMin xs with
      | none => some (0, a)
      | some (i, v) => if a ≤ v then some (0, a) else some (i + 1, v)

theorem nanArgMin_getElem? :
    ∀ (q : List (Option ℚ)) (i : ℕ) (v : ℚ), nanArgMin q = some (i, v) → q[i]? = some (some v)
  | [], i, v, h => by simp [nanArgMin] at h
  | none :: xs, i, v, h => by
      simp only [nanArgMin, Option.map_eq_some_iff] at h
      obtain ⟨⟨j, w⟩, hj, hp⟩ := h
      have := nanArgMin_getElem? xs j w hj
      cases hp
      simpa using this
  | some a :: xs, i, v, h => by
      unfold nanArgMin at h
      split at h
      · cases h; simp
      · rename_i j w hj
        split at h
        · cases h; simp
        · cases h
          have := nanArgMin_getElem? xs j v hj
          simpa using this

theorem countP_set_none (q : List (Option ℚ)) (i : ℕ) (v : ℚ) (h : q[i]? = some (some v)) :
    (q.set i none).countP Option.isSome < q.countP Option.isSome := by
  induction q generalizing i with
  | nil => simp at h
  | cons x xs ih =>
    cases i with
    | zero =>
      simp only [List.getElem?_cons_zero, Option.some.injEq] at h
      subst h
      simp
    | succ i =>
      simp only [List.getElem?_cons_succ] at h
      have := ih i h
      simp only [List.set_cons_succ, List.countP_cons]
      omega

/-- The `while` loop of `update_quantity` (`pymarket/mechanisms/huang_auction.py:48-64`):
`q` is the array with `NaN` as `none`, `N` the number of remaining players, `gap` the remaining gap.
The recomputation of `i_min, v_min` at the end of an iteration (lines 59-60) is done at the
start of the next one here (lines 48-49 for the first). The termination proof uses that every
iteration turns one entry into `NaN`. -/
def uqLoop (q : List (Option ℚ)) (N : ℕ) (gap : ℚ) : Except PyErr (List (Option ℚ) × ℕ × ℚ) :=
  match _h : nanArgMin q with
  | none => .error .valueError
  | some (i, v) =>
      if v < gap / N then uqLoop (q.set i none) (N - 1) (gap - v)
      else .ok (q, N, gap)
termination_by q.countP Option.isSome
decreasing_by exact countP_set_none q i v (nanArgMin_getElem? q i v _h)

/-- `quantity.max()` of a non-empty array (`pymarket/mechanisms/huang_auction.py:67`). -/
def maxList : List ℚ → ℚ
  | [] => 0
  | x :: xs => xs.foldl max x

/-- `np.clip(x, 0, hi)` (`pymarket/mechanisms/huang_auction.py:68`). -/
def clip0 (hi x : ℚ) : ℚ := min (max x 0) hi

/-- `update_quantity` (`pymarket/mechanisms/huang_auction.py:8-69`). -/
def updateQuantity (quantity : List ℚ) (gap : ℚ) : Except PyErr (List ℚ) := do
  let (q, N, gap') ← uqLoop (quantity.map some) quantity.length gap
  let q0 := q.map (fun o => o.getD 0)          -- np.nan_to_num, line 65
  let q1 := q0.map (fun x => x - gap' / N)     -- line 66
  .ok (q1.map (clip0 (maxList q1)))            -- lines 67-68

/-- The `extra` dictionaries of the mechanisms. `huang`: `pymarket/mechanisms/huang_auction.py:
199-203`; `muda`: `pymarket/mechanisms/muda_auction.py:121-126`; `p2p`:
`pymarket/mechanisms/p2p_random.py:133`; `empty`: the `OrderedDict()` of
`pymarket/mechanisms/mechanism.py:139` and `huang_auction.py:200`. -/
inductive Extra where
  | empty
  | huang (priceSell priceBuy : Ext) (quantityTraded : ℚ)
  | muda (left right : List ℕ) (priceLeft priceRight : Val) (fees : List ℚ)
  | p2p (tradingList : List (List (ℕ × ℕ)))
  deriving DecidableEq, Repr

/-- The transactions of one side of Huang's auction: `zip(bids.iterrows(), quantity)`
(`pymarket/mechanisms/huang_auction.py:179-187`). -/
def huangSideTrans (rows : DF) (qs : List ℚ) (price : ℚ) : List Transaction :=
  (List.zip rows qs).map (fun p =>
    { bid := p.1.label, quantity := p.2, price := price, source := -1, active := false })

/-- `huang_auction` (`pymarket/mechanisms/huang_auction.py:72-205`). Prices taken from the curves are
extended numbers; the transactions use their finite value (`untopD`), and lemma
`huang_prices_finite` shows that they are finite whenever there is a transaction. -/
def huangAuction (S : Sorter) (bids : DF) : Except PyErr (TransactionManager × Extra) := do
  let buy := (demandCurve S bids).1
  let sell := (supplyCurve S bids).1
  let i ← intersectStepwise buy sell
  match i.f, i.g with
  | some b, some s =>
      match sell[s]?, buy[b]? with
      | some sRow, some bRow =>
          let priceSell := sRow.2
          let priceBuy := bRow.2
          let buyingBids := (sortDesc S (buys bids)).take b
          let sellingBids := (sortAsc S (sells bids)).take s
          let quantityBuy := buyingBids.map (fun r => r.quantity)
          let quantitySell := sellingBids.map (fun r => r.quantity)
          if 0 < b ∧ 0 < s then do
            let gap := quantitySell.sum - quantityBuy.sum
            let (qs, qb) ←
              if 0 < gap then do
                let qs ← updateQuantity quantitySell gap
                Except.ok (qs, quantityBuy)
              else do
                let qb ← updateQuantity quantityBuy (-gap)
                Except.ok (quantitySell, qb)
            let ts := huangSideTrans sellingBids qs (priceSell.untopD 0) ++
              huangSideTrans buyingBids qb (priceBuy.untopD 0)
            .ok (TransactionManager.init.addAll ts, .huang priceSell priceBuy qb.sum)
          else
            .ok (TransactionManager.init, .huang priceSell priceBuy quantityBuy.sum)
      | _, _ => .error .indexError
  | _, _ => .ok (TransactionManager.init, .empty)

end PyMarket
