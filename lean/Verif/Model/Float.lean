import Verif.Model.Processing
import Mathlib.Data.Int.Log

/-! # Floating point numbers

The rest of the model computes with exact numbers. The code computes with the float64 columns of
pandas (`pymarket/bids/bids.py:21-28,107`), where every operation rounds its exact result to a
representable number. This file models such an arithmetic; the mechanisms on top of it are in
`Verif/Model/FloatP2P.lean`, `Verif/Model/FloatHuang.lean`, `Verif/Model/FloatMuda.lean`,
`Verif/Model/FloatProcessing.lean` and `Verif/Model/FloatStats.lean`.

Simplifications: the exponent is unbounded (no overflow to `inf`, no subnormal numbers; `Model/Ieee.lean` has
the bounded one, and C101 says when it makes no difference), and `-0.0` is `0`. -/

set_option autoImplicit false

namespace PyMarket

/-- The rounding of an arithmetic: `rnd x` is the number that the machine returns for the exact result
`x`. The definitions of the floating point models use nothing else. -/
structure Arith where
  rnd : ℚ → ℚ

/-- A number format with its rounding: `rnd x` is the representable number that the machine returns
for the exact result `x`. The axioms are what IEEE 754 guarantees for all rounding to nearest with
an unbounded exponent; `exactFmt` (no rounding at all) and `binary p` (`p` significant bits, ties to
even; `p = 53` is float64) are instances. -/
structure Fmt extends Arith where
  eps : ℚ
  mono : ∀ x y, x ≤ y → rnd x ≤ rnd y
  idem : ∀ x, rnd (rnd x) = rnd x
  neg : ∀ x, rnd (-x) = -rnd x
  double : ∀ x, rnd (2 * x) = 2 * rnd x
  one : rnd 1 = 1
  eps_nonneg : 0 ≤ eps
  eps_lt : eps < 1
  err : ∀ x, |rnd x - x| ≤ eps * |x|

instance : CoeOut Fmt Arith := ⟨Fmt.toArith⟩

/-- `x` is representable. -/
def Fmt.Rep (F : Fmt) (x : ℚ) : Prop := F.rnd x = x

/-- Rounding to `p` significant bits, ties to even: the result is an integer multiple of the unit
in the last place `2^(e-(p-1))`, where `2^e ≤ |x| < 2^(e+1)`. -/
def roundBin (p : ℕ) (x : ℚ) : ℚ :=
  let u : ℚ := (2 : ℚ) ^ (Int.log 2 |x| - ((p : ℤ) - 1))
  (rint (x / u) : ℚ) * u

/-- Exact arithmetic. -/
def exactFmt : Fmt where
  rnd := id
  eps := 0
  mono := fun _ _ h => h
  idem := fun _ => rfl
  neg := fun _ => rfl
  double := fun _ => rfl
  one := rfl
  eps_nonneg := le_refl _
  eps_lt := one_pos
  err := fun x => by simp

/-- `v` is the result of adding up `l` with rounded additions, in some order and with some
bracketing. NumPy adds pairwise (with eight accumulators) and the order of `Series.sum()` depends on
the installed libraries, so nothing else is assumed about a sum. -/
inductive IsFSum (F : Arith) : List ℚ → ℚ → Prop
  | nil : IsFSum F [] 0
  | one (x : ℚ) : IsFSum F [x] x
  | add {l m : List ℚ} {a b : ℚ} : l ≠ [] → m ≠ [] → IsFSum F l a → IsFSum F m b →
      IsFSum F (l ++ m) (F.rnd (a + b))
  | perm {l m : List ℚ} {a : ℚ} : l.Perm m → IsFSum F l a → IsFSum F m a

/-- A choice of the order of summation: `ndarray.sum()` and `Series.sum()`
(`pymarket/mechanisms/p2p_random.py:100`, `pymarket/mechanisms/huang_auction.py:171,203`,
`pymarket/mechanisms/muda_auction.py:194-195,309,314,386,393,399`). -/
structure Summer (F : Arith) where
  sum : List ℚ → ℚ
  isSum : ∀ l, IsFSum F l (sum l)

/-- Left to right addition from an accumulated value. -/
def addFrom (F : Arith) (acc : ℚ) (l : List ℚ) : ℚ := l.foldl (fun a x => F.rnd (a + x)) acc

/-- Left to right addition, what NumPy does for less than eight entries. -/
def seqSum (F : Arith) : List ℚ → ℚ
  | [] => 0
  | x :: xs => addFrom F x xs

/-- NumPy's pairwise summation for at most 128 entries (`pairwise_sum` in
`numpy/core/src/umath/loops_utils.h.src`): eight accumulators, combined as a balanced tree, and
the remaining entries added from left to right. Longer arrays are halved first; the model adds them
from left to right. -/
def pairSum (F : Arith) (l : List ℚ) : ℚ :=
  if l.length < 8 ∨ 128 < l.length then seqSum F l
  else
    let m := l.length - l.length % 8
    let col := fun j => seqSum F (((l.take m).zipIdx.filter (fun p => decide (p.2 % 8 = j))).map (fun p => p.1))
    let add := fun a b => F.rnd (a + b)
    let tree := add (add (add (col 0) (col 1)) (add (col 2) (col 3)))
      (add (add (col 4) (col 5)) (add (col 6) (col 7)))
    addFrom F tree (l.drop m)

/-- `Series.cumsum()` from an accumulated value: always from left to right
(`pymarket/bids/demand_curves.py:72,146`, `pymarket/mechanisms/muda_auction.py:310,388`). -/
def cumsumFromF (F : Arith) (acc : ℚ) : List ℚ → List ℚ
  | [] => []
  | x :: xs => F.rnd (acc + x) :: cumsumFromF F (F.rnd (acc + x)) xs

/-- `Series.cumsum()`. -/
def cumsumF (F : Arith) (l : List ℚ) : List ℚ := cumsumFromF F 0 l

end PyMarket
