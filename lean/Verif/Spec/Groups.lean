import Verif.Spec.Envy
import Verif.Spec.LP
import Mathlib.Algebra.BigOperators.Group.Finset.Basic
import Mathlib.Algebra.Order.Ring.Rat

/-! # Specification vocabulary: groups that would rather trade among themselves -/

set_option autoImplicit false

namespace PyMarket.Spec

/-- Only members of the group take part in the plan. -/
def Within (C : Finset ℕ) (q : ℕ → ℕ → ℚ) : Prop := ∀ i j, q i j ≠ 0 → i ∈ C ∧ j ∈ C

/-- What the members of the group gain in their transactions. -/
def groupGain (df : DF) (ts : List Transaction) (C : Finset ℕ) : ℚ := ∑ i ∈ C, ownGain df ts i

/-- The group would gain more by carrying out the plan `q` among its members. -/
structure Objects (df : DF) (ts : List Transaction) (C : Finset ℕ) (q : ℕ → ℕ → ℚ) : Prop where
  plan : TradePlan df q
  within : Within C q
  better : groupGain df ts C < planWelfare df (priceOf df) q

/-- The plan in which the bids `b` and `s` exchange `x` units and nobody else trades. -/
def onePair (b s : ℕ) (x : ℚ) : ℕ → ℕ → ℚ := fun i j => if i = b ∧ j = s then x else 0

end PyMarket.Spec
