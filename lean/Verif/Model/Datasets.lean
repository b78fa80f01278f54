import Verif.Model.Basic

/-! # Model of `pymarket/datasets/uniform_bidders.py` -/

set_option autoImplicit false

namespace PyMarket

/-- `r.choice(n options, q, replace=False)` (`pymarket/datasets/uniform_bidders.py:64-65`): the
`call`-th draw selects `q` distinct positions below `n`, for `q ≤ n`. -/
structure Chooser where
  pick : (call n q : ℕ) → List ℕ
  length_eq : ∀ call n q, q ≤ n → (pick call n q).length = q
  nodup : ∀ call n q, q ≤ n → (pick call n q).Nodup
  lt : ∀ call n q, q ≤ n → ∀ i ∈ pick call n q, i < n

/-- `np.arange(0, 1, eps)` for `eps > 0` in exact arithmetic: `0, eps, 2·eps, ...` below `1`
(`pymarket/datasets/uniform_bidders.py:63`). -/
def arange01 (eps : ℚ) : List ℚ := (List.range ⌈1 / eps⌉₊).map (fun k : ℕ => (k : ℚ) * eps)

/-- `r.choice(options, q, replace=False)`: raises `ValueError` if `q` exceeds the population. -/
def chooseFrom (ch : Chooser) (call : ℕ) (options : List ℚ) (q : ℕ) : Except PyErr (List ℚ) :=
  if q ≤ options.length then .ok (takeIdx options (ch.pick call options.length q))
  else .error .valueError

/-- The bids of one side (`pymarket/datasets/uniform_bidders.py:62-69`), users numbered from
`user`. -/
def sideBids (side : Bool) : ℤ → List ℚ → List ℚ → List Bid
  | user, q :: qs, v :: vs => ⟨q, v, user, side, 0, true⟩ :: sideBids side (user + 1) qs vs
  | _, _, _ => []

/-- The adjusted precision (`pymarket/datasets/uniform_bidders.py:58-59`); `1 / eps` and
`1 / max(quantities)` raise `ZeroDivisionError` for zero. -/
def adjustEps (cantBuyers cantSellers : ℕ) (eps : ℚ) : Except PyErr ℚ :=
  if eps = 0 then .error .zeroDivisionError
  else if 1 / eps < (max cantBuyers cantSellers : ℕ) then
    (if max cantBuyers cantSellers = 0 then .error .zeroDivisionError
     else .ok (1 / (max cantBuyers cantSellers : ℕ) / 2))
  else .ok eps

/-- `generate` (`pymarket/datasets/uniform_bidders.py:4-70`). The four draws happen in the order
buyers' quantities, buyers' prices, sellers' quantities, sellers' prices (lines 62-65). -/
def generate (ch : Chooser) (cantBuyers cantSellers : ℕ) (offsetSellers offsetBuyers eps : ℚ) :
    Except PyErr (List Bid) := do
  let eps ← adjustEps cantBuyers cantSellers eps
  let range := arange01 eps
  let qb ← chooseFrom ch 0 range cantBuyers
  let vb ← chooseFrom ch 1 (range.map (fun x => x + offsetBuyers)) cantBuyers
  let qs ← chooseFrom ch 2 range cantSellers
  let vs ← chooseFrom ch 3 (range.map (fun x => x + offsetSellers)) cantSellers
  .ok (sideBids true 0 qb vb ++ sideBids false cantBuyers qs vs)

end PyMarket
