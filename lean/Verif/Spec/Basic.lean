import Verif.Model.Basic

/-! # Specification vocabulary shared by several properties

Plain sums over the submitted bids, written without the helpers of the model. -/

set_option autoImplicit false

namespace PyMarket.Spec

/-- Total quantity of the buying bids with price at least `p`. -/
def demandQty (df : DF) (p : ℚ) : ℚ :=
  ((df.filter (fun r => r.buying && decide (p ≤ r.price))).map (fun r => r.quantity)).sum

/-- Total quantity of the buying bids with price above `p`. -/
def demandQtyAbove (df : DF) (p : ℚ) : ℚ :=
  ((df.filter (fun r => r.buying && decide (p < r.price))).map (fun r => r.quantity)).sum

/-- Total quantity of the selling bids with price at most `p`. -/
def supplyQty (df : DF) (p : ℚ) : ℚ :=
  ((df.filter (fun r => !r.buying && decide (r.price ≤ p))).map (fun r => r.quantity)).sum

/-- Total quantity of the selling bids with price below `p`. -/
def supplyQtyBelow (df : DF) (p : ℚ) : ℚ :=
  ((df.filter (fun r => !r.buying && decide (r.price < p))).map (fun r => r.quantity)).sum

/-- Valid books: non-negative quantities and prices. -/
def NonNeg (df : DF) : Prop := ∀ r ∈ df, 0 ≤ r.quantity ∧ 0 ≤ r.price

/-- Books with positive quantities and non-negative prices. -/
def Pos (df : DF) : Prop := ∀ r ∈ df, 0 < r.quantity ∧ 0 ≤ r.price

instance (df : DF) : Decidable (NonNeg df) := by unfold NonNeg; infer_instance
instance (df : DF) : Decidable (Pos df) := by unfold Pos; infer_instance

theorem NonNeg.qty {df : DF} (h : NonNeg df) : ∀ r ∈ df, 0 ≤ r.quantity := fun r hr => (h r hr).1

theorem Pos.nonNeg {df : DF} (h : Pos df) : NonNeg df := fun r hr => ⟨(h r hr).1.le, (h r hr).2⟩

/-- The `k`-th row of the bid table after submitting `bids` in order: bid `k`, labelled `k`. -/
def table (bids : List Bid) : DF := bids.zipIdx.map (fun p => { toBid := p.1, label := p.2 })

/-- Quantity, price, side and user of the bid with id `i` in a table whose ids are positions. -/
def qtyOf (df : DF) (i : ℕ) : ℚ := ((df[i]?).map (fun r => r.quantity)).getD 0

@[inherit_doc qtyOf]
def priceOf (df : DF) (i : ℕ) : ℚ := ((df[i]?).map (fun r => r.price)).getD 0

@[inherit_doc qtyOf]
def isBuy (df : DF) (i : ℕ) : Bool := ((df[i]?).map (fun r => r.buying)).getD false

@[inherit_doc qtyOf]
def isSell (df : DF) (i : ℕ) : Bool := ((df[i]?).map (fun r => !r.buying)).getD false

/-- The ids of a book are its positions: the tables produced by `BidManager.get_df` (C01). -/
def IsTable (df : DF) : Prop := df.map (fun r => r.label) = List.range df.length

instance (df : DF) : Decidable (IsTable df) := by unfold IsTable; infer_instance

/-- Two books contain the same bids, submitted in any order (and so with other ids). -/
def SameBids (df df' : DF) : Prop := (df.map (fun r => r.toBid)).Perm (df'.map (fun r => r.toBid))

instance (df df' : DF) : Decidable (SameBids df df') := by unfold SameBids; infer_instance

end PyMarket.Spec
