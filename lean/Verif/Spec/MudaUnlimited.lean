import Verif.Spec.Unlimited

/-! # Specification vocabulary: unlimited bids at a given price -/

set_option autoImplicit false

namespace PyMarket.Spec

/-- At the price `p` an unlimited buyer and an unlimited seller both want to trade. -/
def BothUnlimited (qty : ℕ → Ext) (df : DF) (p : ℚ) : Prop :=
  (∃ r ∈ df, r.buying = true ∧ p ≤ r.price ∧ qty r.label = ⊤) ∧
    ∃ r ∈ df, r.buying = false ∧ r.price ≤ p ∧ qty r.label = ⊤

/-- The rows with the quantities of the column by position, and `K` for the unlimited ones. -/
def withCol (col : ℕ → Ext) (K : ℕ → ℚ) (df : DF) : DF :=
  df.zipIdx.map (fun p => { p.1 with quantity := (col p.2).untopD (K p.2) })

instance (qty : ℕ → Ext) (df : DF) (p : ℚ) : Decidable (BothUnlimited qty df p) := by
  unfold BothUnlimited; infer_instance

end PyMarket.Spec
