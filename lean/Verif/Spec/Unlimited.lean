import Verif.Model.Unlimited

/-! # Specification vocabulary: bids without a limit -/

set_option autoImplicit false

namespace PyMarket.Spec

/-- The book in which unlimited bids have the quantity `Q`. -/
def withQty (qty : ℕ → Ext) (Q : ℚ) (df : DF) : DF :=
  df.map (fun r => { r with quantity := (qty r.label).untopD Q })

/-- The quantity of all limited bids together. -/
def limitedTotal (qty : ℕ → Ext) (df : DF) : ℚ := (df.map (fun r => (qty r.label).untopD 0)).sum

/-- Quantities and prices are not negative. -/
def NonNegU (qty : ℕ → Ext) (df : DF) : Prop := ∀ r ∈ df, ((0 : ℚ) : Ext) ≤ qty r.label ∧ 0 ≤ r.price

/-- No unlimited buyer offers more than an unlimited seller asks for. -/
def NoUnlimitedTrade (qty : ℕ → Ext) (df : DF) : Prop :=
  ∀ r ∈ df, ∀ r' ∈ df, r.buying = true → r'.buying = false → qty r.label = ⊤ → qty r'.label = ⊤ →
    r.price ≤ r'.price

/-- A transaction with a finite quantity. -/
def ofTransaction (t : Transaction) : TransU := ⟨t.bid, .fin t.quantity, t.price, t.source, t.active⟩

instance (qty : ℕ → Ext) (df : DF) : Decidable (NonNegU qty df) := by unfold NonNegU; infer_instance
instance (qty : ℕ → Ext) (df : DF) : Decidable (NoUnlimitedTrade qty df) := by
  unfold NoUnlimitedTrade; infer_instance

end PyMarket.Spec
