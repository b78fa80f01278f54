import Mathlib.Algebra.Order.Field.Rat
import Mathlib.Algebra.Order.Floor.Defs
import Mathlib.Data.Rat.Floor
import Mathlib.Order.WithBot
import Mathlib.Data.List.Sort

/-!
# Basic vocabulary of the model

Numbers, Python errors, bids, data frames and the sorting / NumPy primitives that the
modelled functions use.
-/

set_option autoImplicit false

namespace PyMarket

/-- The Python exceptions the modelled code can raise.
`nanQuantity` is not an exception of the real code: it marks the point where pandas would silently
produce a `NaN` quantity (`0/0` in `pymarket/transactions/processing.py:58`), so that no theorem
about ordinary numbers can accidentally speak about that outcome. -/
inductive PyErr where
  | keyError
  | indexError
  | typeError
  | valueError
  | notImplementedError
  | zeroDivisionError
  | nanQuantity
  | attributeError
  deriving DecidableEq, Repr

-- Equality of results is decidable (used by the examples only; no Python counterpart).
deriving instance DecidableEq for Except

/-- A bid: the six columns of the bid table.
Models `pymarket/bids/bids.py:21-28` (`col_names`) and the tuple built in line 76. -/
structure Bid where
  quantity : ℚ
  price : ℚ
  user : ℤ
  buying : Bool
  time : ℚ
  divisible : Bool
  deriving DecidableEq, Repr

/-- A row of a bid data frame: a bid together with its pandas index label.
For the frame returned by `BidManager.get_df` (`pymarket/bids/bids.py:82-108`) the label is the
bid id. -/
structure Row extends Bid where
  label : ℕ
  deriving DecidableEq, Repr

/-- A bid data frame: its rows in positional order (`pymarket/bids/bids.py:107`). -/
abbrev DF := List Row

/-- Label the rows `n, n+1, ...`: the default `RangeIndex` of `pd.DataFrame(self.bids, ...)`
(`pymarket/bids/bids.py:107`). -/
def labelFrom : ℕ → List Bid → DF
  | _, [] => []
  | n, b :: bs => { toBid := b, label := n } :: labelFrom (n + 1) bs

/-- Extended numbers occurring in curves: a rational or `np.inf`
(`pymarket/bids/demand_curves.py:74,148`). -/
abbrev Ext := WithTop ℚ

/-- Result of floating point arithmetic on extended numbers (IEEE special values, exact
arithmetic otherwise). Needed for `v = g_val * k + (1 - k) * f_val`
(`pymarket/bids/demand_curves.py:292`). -/
inductive Val where
  | fin (q : ℚ)
  | inf
  | ninf
  | nan
  deriving DecidableEq, Repr

namespace Val

/-- Embedding of curve ordinates into `Val` (no Python counterpart: both are Python floats). -/
def ofExt : Ext → Val
  | none => .inf
  | some q => .fin q

/-- Product of a finite float `k` with a curve ordinate, IEEE rules for `inf`:
`inf * 0 = nan`, sign otherwise (`pymarket/bids/demand_curves.py:292`). -/
def scale (k : ℚ) : Ext → Val
  | some q => .fin (k * q)
  | none => if 0 < k then .inf else if k < 0 then .ninf else .nan

/-- IEEE addition (`pymarket/bids/demand_curves.py:292`). -/
def add : Val → Val → Val
  | .nan, _ => .nan
  | _, .nan => .nan
  | .fin a, .fin b => .fin (a + b)
  | .fin _, .inf => .inf
  | .fin _, .ninf => .ninf
  | .inf, .fin _ => .inf
  | .inf, .inf => .inf
  | .inf, .ninf => .nan
  | .ninf, .fin _ => .ninf
  | .ninf, .ninf => .ninf
  | .ninf, .inf => .nan

/-- `x >= v` for a finite `x`: the test of `demand.query('price >= @price')`
(`pymarket/mechanisms/muda_auction.py:184`). Comparisons with `nan` are false. -/
def leRat (v : Val) (x : ℚ) : Bool :=
  match v with
  | .fin q => decide (q ≤ x)
  | .inf => false
  | .ninf => true
  | .nan => false

/-- `x <= v` for a finite `x`: the test of `supply.query('price <= @price')`
(`pymarket/mechanisms/muda_auction.py:190`). -/
def ratLe (x : ℚ) (v : Val) : Bool :=
  match v with
  | .fin q => decide (x ≤ q)
  | .inf => true
  | .ninf => false
  | .nan => false

/-- The finite value used as a transaction price. The callers only use it when some buyer is
willing to pay the price and some seller to accept it, i.e. when the value is finite
(lemma `solveSide_price_fin`). -/
def toRat : Val → ℚ
  | .fin q => q
  | _ => 0

end Val

/-- `Series.sum()` / `ndarray.sum()` of a quantity column. -/
def qsum (rows : DF) : ℚ := (rows.map (fun r => r.quantity)).sum

/-- `Series.cumsum()` starting from an accumulated value `acc`
(`pymarket/bids/demand_curves.py:72,146`, `pymarket/mechanisms/muda_auction.py:310,388`). -/
def cumsumFrom (acc : ℚ) : List ℚ → List ℚ
  | [] => []
  | x :: xs => (acc + x) :: cumsumFrom (acc + x) xs

/-- `Series.cumsum()`. -/
def cumsum (l : List ℚ) : List ℚ := cumsumFrom 0 l

/-- `np.argmax` of a boolean array: index of the first `True`, `0` if there is none. -/
def argmaxTrue (l : List Bool) : ℕ := (l.findIdx? id).getD 0

/-- Positional selection of the entries at the given positions (`DataFrame.take`). -/
def takeIdx {α : Type*} (l : List α) (is : List ℕ) : List α := is.filterMap (fun i => l[i]?)

/-- `sort_values` sorts by an *unspecified* permutation that sorts the key column: its default
algorithm is quicksort, which is not stable. A `Sorter` is one such choice, for ascending and
descending order; it depends on the key column only. Used by
`pymarket/bids/demand_curves.py:71,145`, `pymarket/mechanisms/muda_auction.py:185,191`,
`pymarket/mechanisms/huang_auction.py:154-157`. -/
structure Sorter where
  asc : List ℚ → List ℕ
  desc : List ℚ → List ℕ
  asc_perm : ∀ l, (asc l).Perm (List.range l.length)
  desc_perm : ∀ l, (desc l).Perm (List.range l.length)
  asc_sorted : ∀ l, (takeIdx l (asc l)).Pairwise (fun a b => a ≤ b)
  desc_sorted : ∀ l, (takeIdx l (desc l)).Pairwise (fun a b => b ≤ a)

/-- `df.sort_values('price')` (`pymarket/bids/demand_curves.py:145`). -/
def sortAsc (S : Sorter) (df : DF) : DF := takeIdx df (S.asc (df.map (fun r => r.price)))

/-- `df.sort_values('price', ascending=False)` (`pymarket/bids/demand_curves.py:71`). -/
def sortDesc (S : Sorter) (df : DF) : DF := takeIdx df (S.desc (df.map (fun r => r.price)))

/-- `df[df.buying]`, `df.loc[df['buying']]` (`pymarket/bids/demand_curves.py:70`,
`pymarket/mechanisms/muda_auction.py:182`, `pymarket/mechanisms/p2p_random.py:74`). -/
def buys (df : DF) : DF := df.filter (fun r => r.buying)

/-- `df[df.buying == False]`, `df.loc[~df['buying']]` (`pymarket/bids/demand_curves.py:144`,
`pymarket/mechanisms/muda_auction.py:188`, `pymarket/mechanisms/p2p_random.py:75`). -/
def sells (df : DF) : DF := df.filter (fun r => !r.buying)

/-- `df.loc[labels]` for labels that all occur once in `df`
(`pymarket/mechanisms/muda_auction.py:109-117`). -/
def locLabels (df : DF) (labels : List ℕ) : DF :=
  labels.filterMap (fun i => df.find? (fun r => r.label == i))

end PyMarket
