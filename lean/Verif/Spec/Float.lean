import Verif.Model.Float
import Verif.Spec.Rounding

/-! # Vocabulary for statements about rounded arithmetic -/

set_option autoImplicit false

namespace PyMarket

/-- The total quantity of a table. -/
def Spec.totalQty (df : DF) : ℚ := (df.map (fun r => r.quantity)).sum

/-- Two tables with the same bids except for the quantities, which differ by at most `d`. -/
def Spec.Nearby (d : ℚ) (df df' : DF) : Prop :=
  List.Forall₂ (fun r r' => r' = { r with quantity := r'.quantity } ∧
    |r'.quantity - r.quantity| ≤ d) df df'

/-- The relative error of a computation with `n` bids: about `2n` units in the last place. -/
def Spec.slack (F : Fmt) (n : ℕ) : ℚ :=
  (1 + F.eps) ^ n - 1 + (n + 1) * (F.eps * (1 + F.eps) ^ n)

/-- The relative error of `n` operations in a row: a result `x` may come out anywhere between
`x / spread n` and `spread n * x`. -/
def Spec.spread (F : Fmt) (n : ℕ) : ℚ := ((1 + F.eps) / (1 - F.eps)) ^ n

/-- `y` is `x` rounded to `prec` decimals with rounded arithmetic: the product with `10^prec` is rounded
to the format, then to the nearest integer (ties to even), and the quotient is rounded to the format. -/
def Spec.DecimalF (F : Fmt) (prec : ℕ) (x y : ℚ) : Prop :=
  ∃ z : ℤ, IsRounded 0 (F.rnd (x * 10 ^ prec)) z ∧ y = F.rnd ((z : ℚ) / 10 ^ prec)

/-- How far rounding to 5 decimals with rounded arithmetic may move the price `x`. -/
def Spec.tick (F : Fmt) (x : ℚ) : ℚ :=
  (1 + F.eps) * (1 / (2 * 10 ^ 5)) + (2 * F.eps + F.eps ^ 2) * |x|

/-- All prices have at most 5 decimals (up to the rounding to the format) and are not too large for
the format: below about `2 · 10^10` in float64. -/
def Spec.FiveDecimalsF (F : Fmt) (df : DF) : Prop := ∀ r ∈ df, ∃ z : ℤ,
  r.price = F.rnd ((z : ℚ) / 10 ^ 5) ∧ (2 * F.eps + F.eps ^ 2) * |(z : ℚ)| < 1 / 2

/-- `x` is a finite IEEE 754 binary64 number: a significand of 53 bits and an exponent from -1074 to 971. -/
def Spec.IsDouble (x : ℚ) : Prop :=
  ∃ k j : ℤ, |k| < 2 ^ 53 ∧ -1074 ≤ j ∧ j ≤ 971 ∧ x = (k : ℚ) * (2 : ℚ) ^ j

/-- A number of moderate size: a multiple of `2^-200`, at most `2^200` in absolute value. -/
def Spec.Moderate (x : ℚ) : Prop := (∃ k : ℤ, x = (k : ℚ) / 2 ^ 200) ∧ |x| ≤ 2 ^ 200

/-- Prices and quantities of moderate size, at most `2^50` bids. -/
def Spec.ModerateBook (df : DF) : Prop :=
  df.length ≤ 2 ^ 50 ∧ ∀ r ∈ df, Moderate r.price ∧ Moderate r.quantity

end PyMarket
