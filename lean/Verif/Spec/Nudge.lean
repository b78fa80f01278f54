import Verif.Spec.Reprice

set_option autoImplicit false
namespace PyMarket.Spec

/-! # Specification vocabulary: logs that differ in their prices by little -/

/-- The same transactions in the same order, with prices that differ by at most `δ`. -/
def NearLog (δ : ℚ) (ts ts' : List Transaction) : Prop :=
  List.Forall₂ (fun t t' => withoutPrice t' = withoutPrice t ∧ |t'.price - t.price| ≤ δ) ts ts'

/-- No bid changes its price by more than `δ`. -/
def Nudged (δ : ℚ) (g : Row → ℚ) (df : DF) : Prop := ∀ r ∈ df, |g r - r.price| ≤ δ

end PyMarket.Spec
