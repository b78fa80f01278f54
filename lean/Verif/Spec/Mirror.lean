import Verif.Spec.Reprice

/-! # Specification vocabulary: buyers and sellers exchange their roles -/

set_option autoImplicit false

namespace PyMarket.Spec

/-- The bid of the other side: who buys a unit for `p` sells a promise, worth `M`, to go without it for `M - p`. -/
def mirrorRow (M : ℚ) (r : Row) : Row := { r with price := M - r.price, buying := !r.buying }

/-- The book with buyers and sellers exchanged and the prices counted from `M` downwards. -/
def mirror (M : ℚ) (df : DF) : DF := df.map (mirrorRow M)

/-- Quantities are not negative, prices lie strictly between 0 and `M`. -/
def Mirrorable (M : ℚ) (df : DF) : Prop := ∀ r ∈ df, 0 ≤ r.quantity ∧ 0 < r.price ∧ r.price < M

instance (M : ℚ) (df : DF) : Decidable (Mirrorable M df) := by unfold Mirrorable; infer_instance

/-- Two sorters agree on mirrored keys: what one does to the descending keys, the other does to the ascending ones. -/
def MirrorSorters (S T : Sorter) : Prop :=
  ∀ (M : ℚ) (l : List ℚ), T.asc (l.map (fun p => M - p)) = S.desc l ∧ T.desc (l.map (fun p => M - p)) = S.asc l

/-- The mirror image of a price. -/
def mirrorVal (M : ℚ) : Val → Val
  | .fin q => .fin (M - q)
  | v => v

/-- No group of buying bids asks for exactly as much as a group of selling bids offers. -/
def Uneven (df : DF) : Prop :=
  ∀ B ∈ (df.filter (fun r => r.buying)).sublists, ∀ A ∈ (df.filter (fun r => !r.buying)).sublists,
    (B.map (fun r => r.quantity)).sum = (A.map (fun r => r.quantity)).sum → (A.map (fun r => r.quantity)).sum = 0

instance (df : DF) : Decidable (Uneven df) := by unfold Uneven; infer_instance

/-- The mirror image of what MUDA returns: the halves and the fees stay. -/
def mirrorExtra (M : ℚ) : Extra → Extra
  | .muda left right pl pr fees => .muda left right (mirrorVal M pl) (mirrorVal M pr) fees
  | e => e

/-- The mirror image of an entry of the log of the peer-to-peer market: meetings without trade keep their price of 0. -/
def mirrorMeeting (M : ℚ) (t : Transaction) : Transaction :=
  { t with price := if t.price = 0 then 0 else M - t.price }

end PyMarket.Spec
