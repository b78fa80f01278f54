import Verif.Model.FloatProcessing

/-! # The range of float64

`Verif/Model/Float.lean` rounds to 53 bits with an unbounded exponent. The float64 columns of pandas
(`pymarket/bids/bids.py:21-28,107`) have a bounded one: small results are rounded to multiples of `2^-1074`
and large ones overflow to infinity. -/

set_option autoImplicit false

namespace PyMarket

/-- The IEEE 754 binary64 number nearest to `x`, ties to even, with subnormal numbers; `none` on overflow. The
code runs into it with every operation on float64 values, for instance `p = prices[b] * p_coef + (1 - p_coef) *
prices[s]` (`pymarket/mechanisms/p2p_random.py:115`). -/
def roundIeee (x : ℚ) : Option ℚ :=
  let u : ℚ := (2 : ℚ) ^ max (Int.log 2 |x| - 52) (-1074)
  let r := (rint (x / u) : ℚ) * u
  if |r| < 2 ^ 1024 then some r else none

/-- `A` rounds as float64 does. Nothing is assumed about a result that overflows. -/
def IsIeee (A : Arith) : Prop := ∀ x v, roundIeee x = some v → A.rnd x = v

end PyMarket
