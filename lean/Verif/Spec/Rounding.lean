import Verif.Spec.Basic

/-! # Specification of rounding to `prec` decimals -/

namespace PyMarket.Spec

set_option autoImplicit false

/-- `y` is `x` rounded to `prec` decimals, ties to even: `y` is an integer multiple `z` of
`10^-prec`, at most half a unit away from `x`, and `z` is even when exactly half a unit away. -/
def IsRounded (prec : ℕ) (x y : ℚ) : Prop :=
  ∃ z : ℤ, y = (z : ℚ) / 10 ^ prec ∧ |y - x| ≤ 1 / (2 * 10 ^ prec) ∧
    (|y - x| = 1 / (2 * 10 ^ prec) → Even z)

/-- Non-negative quantities and prices, and every bid with quantity 0 has a companion with a positive
quantity on its side whose price rounds to the same 5 decimals. In particular, all books with
positive quantities (`Pos.groupPos`). -/
def GroupPos (df : DF) : Prop := NonNeg df ∧ ∀ r ∈ df, ∃ r' ∈ df, r'.buying = r.buying ∧
  (∃ y, IsRounded 5 r.price y ∧ IsRounded 5 r'.price y) ∧ 0 < r'.quantity

/-- The same without a condition on the signs of the prices. -/
def GroupQty (df : DF) : Prop := (∀ r ∈ df, 0 ≤ r.quantity) ∧ ∀ r ∈ df, ∃ r' ∈ df,
  r'.buying = r.buying ∧ (∃ y, IsRounded 5 r.price y ∧ IsRounded 5 r'.price y) ∧ 0 < r'.quantity

theorem GroupPos.groupQty {df : DF} (h : GroupPos df) : GroupQty df :=
  ⟨fun r hr => (h.1 r hr).1, h.2⟩

end PyMarket.Spec
