import Verif.Model.Datasets
import Verif.Model.Float

/-! # Model of `pymarket/datasets/uniform_bidders.py` in floating point arithmetic -/

set_option autoImplicit false

namespace PyMarket

/-- The adjusted precision (`pymarket/datasets/uniform_bidders.py:58-59`): `1 / eps`, `1 / max(quantities)` and the
division by 2 are rounded, the comparison of an `int` with a `float` is exact. -/
def adjustEpsF (F : Arith) (cantBuyers cantSellers : ℕ) (eps : ℚ) : Except PyErr ℚ :=
  if eps = 0 then .error .zeroDivisionError
  else if F.rnd (1 / eps) < (max cantBuyers cantSellers : ℕ) then
    (if max cantBuyers cantSellers = 0 then .error .zeroDivisionError
     else .ok (F.rnd (F.rnd (1 / (max cantBuyers cantSellers : ℕ)) / 2)))
  else .ok eps

/-- `np.arange(0, 1, eps)` (`pymarket/datasets/uniform_bidders.py:63`): NumPy computes the length
`ceil((1 - 0) / eps)` with a rounded division and the `k`-th entry as `0 + k * eps` with a rounded product. -/
def arange01F (F : Arith) (eps : ℚ) : List ℚ :=
  (List.range ⌈F.rnd (1 / eps)⌉₊).map (fun k : ℕ => F.rnd ((k : ℚ) * eps))

/-- `generate` (`pymarket/datasets/uniform_bidders.py:4-70`); `range_ + o_` (line 65) is rounded. -/
def generateF (F : Arith) (ch : Chooser) (cantBuyers cantSellers : ℕ) (offsetSellers offsetBuyers eps : ℚ) :
    Except PyErr (List Bid) := do
  let eps ← adjustEpsF F cantBuyers cantSellers eps
  let range := arange01F F eps
  let qb ← chooseFrom ch 0 range cantBuyers
  let vb ← chooseFrom ch 1 (range.map (fun x => F.rnd (x + offsetBuyers))) cantBuyers
  let qs ← chooseFrom ch 2 range cantSellers
  let vs ← chooseFrom ch 3 (range.map (fun x => F.rnd (x + offsetSellers))) cantSellers
  .ok (sideBids true 0 qb vb ++ sideBids false cantBuyers qs vs)

end PyMarket
