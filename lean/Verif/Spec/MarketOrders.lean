import Verif.Spec.Basic
import Verif.Model.MarketOrders

/-! # Specification vocabulary: bids at any price -/

set_option autoImplicit false

namespace PyMarket.Spec

/-- The book in which the price `P` stands for every infinite price. -/
def atPrice (prc : ℕ → Ext) (P : ℚ) (df : DF) : DF :=
  df.map (fun r => { r with price := (prc r.label).untopD P })

/-- The quantity of the buyers at any price. -/
def marketQty (prc : ℕ → Ext) (df : DF) : ℚ :=
  ((df.filter (fun r => r.buying && decide (prc r.label = ⊤))).map (fun r => r.quantity)).sum

/-- The quantity of all sellers. -/
def offeredQty (df : DF) : ℚ := ((df.filter (fun r => !r.buying)).map (fun r => r.quantity)).sum

/-- The quantity of the sellers with a finite price. -/
def pricedQty (prc : ℕ → Ext) (df : DF) : ℚ :=
  ((df.filter (fun r => !r.buying && decide (prc r.label ≠ ⊤))).map (fun r => r.quantity)).sum

/-- Quantities and prices are not negative. -/
def NonNegM (prc : ℕ → Ext) (df : DF) : Prop := ∀ r ∈ df, 0 ≤ r.quantity ∧ ((0 : ℚ) : Ext) ≤ prc r.label

/-- `P` is positive and larger than all finite prices of the book. -/
def AbovePrices (prc : ℕ → Ext) (df : DF) (P : ℚ) : Prop :=
  0 < P ∧ ∀ r ∈ df, prc r.label ≠ ⊤ → prc r.label < (P : Ext)

/-- The two sorts treat `np.inf` and a number `P` larger than all other entries alike. -/
def SortsAlike (SE : ExtSorter) (S : Sorter) (P : ℚ) : Prop :=
  ∀ l : List Ext, (∀ e ∈ l, e ≠ ⊤ → e < (P : Ext)) →
    S.asc (l.map (fun e => e.untopD P)) = SE.asc l ∧ S.desc (l.map (fun e => e.untopD P)) = SE.desc l

/-- Infinity in place of `P`. -/
def infFor (P : ℚ) (e : Ext) : Ext := if e = (P : Ext) then ⊤ else e

/-- The transaction with infinity in place of the price `P`. -/
def transFor (P : ℚ) (t : Transaction) : TransM :=
  ⟨t.bid, t.quantity, if t.price = P then .inf else .fin t.price, t.source, t.active⟩

/-- The transaction at another price. -/
def withPriceM (v : Val) (t : Transaction) : TransM := ⟨t.bid, t.quantity, v, t.source, t.active⟩

/-- The dictionary returned by Huang's auction with infinity in place of the price `P`. -/
def extraFor (P : ℚ) : Extra → Option (Ext × Ext × ℚ)
  | .huang ps pb q => some (infFor P ps, infFor P pb, q)
  | _ => none

/-- The price of a meeting in which the buyer `b` and the seller `s` agree. -/
def meetingPrice (c : ℚ) (prc : ℕ → Ext) (b s : ℕ) : Val :=
  if prc s ≤ prc b then (Val.scale c (prc b)).add (Val.scale (1 - c) (prc s)) else .fin 0

/-- The transaction with the price of the meeting of its bid and its source. -/
def meetingFor (c : ℚ) (prc : ℕ → Ext) (df : DF) (t : Transaction) : TransM :=
  ⟨t.bid, t.quantity,
    if isBuy df t.bid then meetingPrice c prc t.bid t.source.toNat else meetingPrice c prc t.source.toNat t.bid,
    t.source, t.active⟩

instance (prc : ℕ → Ext) (df : DF) : Decidable (NonNegM prc df) := by unfold NonNegM; infer_instance
instance (prc : ℕ → Ext) (df : DF) (P : ℚ) : Decidable (AbovePrices prc df P) := by
  unfold AbovePrices; infer_instance

end PyMarket.Spec
