import Verif.Spec.Envy

/-! # Specification vocabulary: groups that agree on what to report -/

set_option autoImplicit false

namespace PyMarket.Spec

/-- The book when the bids of the group report the prices `w` and all others report the truth. -/
def groupReport (df : DF) (G : List ℕ) (w : ℕ → ℚ) : DF :=
  df.map (fun r => if r.label ∈ G then { r with price := w r.label } else r)

/-- With the transactions `ts'` every bid of the group gains more than with the transactions `ts`; the gains
are measured with the prices of `df`. -/
def AllGain (df : DF) (G : List ℕ) (ts ts' : List Transaction) : Prop :=
  ∀ i ∈ G, ownGain df ts i < ownGain df ts' i

/-- No bid of the group loses and some bid of it gains. -/
def SomeGain (df : DF) (G : List ℕ) (ts ts' : List Transaction) : Prop :=
  (∀ i ∈ G, ownGain df ts i ≤ ownGain df ts' i) ∧ ∃ i ∈ G, ownGain df ts i < ownGain df ts' i

instance (df : DF) (G : List ℕ) (ts ts' : List Transaction) : Decidable (AllGain df G ts ts') := by
  unfold AllGain; infer_instance

instance (df : DF) (G : List ℕ) (ts ts' : List Transaction) : Decidable (SomeGain df G ts ts') := by
  unfold SomeGain; infer_instance

end PyMarket.Spec
