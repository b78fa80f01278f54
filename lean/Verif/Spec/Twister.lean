import Verif.Spec.Basic

/-! # The Mersenne twister MT19937

The generator behind NumPy's `RandomState`, after its published definition (Matsumoto and Nishimura 1998). -/

set_option autoImplicit false

namespace PyMarket

/-- MT19937: the seeding of the first 624 words and the recurrence of the later ones. -/
def Spec.IsTwister (seed : ℕ) (x : ℕ → ℕ) : Prop :=
  x 0 = seed % 2 ^ 32 ∧
  (∀ i < 623, x (i + 1) = (1812433253 * (x i ^^^ x i / 2 ^ 30) + (i + 1)) % 2 ^ 32) ∧
  ∀ k, ∃ y, (∀ i, y.testBit i = if i < 31 then (x (k + 1)).testBit i else (decide (i = 31) && (x k).testBit i)) ∧
    x (k + 624) = x (k + 397) ^^^ y / 2 ^^^ (y % 2) * 0x9908b0df

/-- The output transformation of MT19937, bit by bit. -/
def Spec.Tempered (x z : ℕ) : Prop :=
  ∃ a b c : ℕ, (∀ i, a.testBit i = (x.testBit i ^^ x.testBit (i + 11))) ∧
    (∀ i, b.testBit i = (a.testBit i ^^ ((decide (7 ≤ i) && a.testBit (i - 7)) && (0x9d2c5680 : ℕ).testBit i))) ∧
    (∀ i, c.testBit i = (b.testBit i ^^ ((decide (15 ≤ i) && b.testBit (i - 15)) && (0xefc60000 : ℕ).testBit i))) ∧
    ∀ i, z.testBit i = (c.testBit i ^^ c.testBit (i + 18))

end PyMarket
