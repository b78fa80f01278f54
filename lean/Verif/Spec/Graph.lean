import Verif.Spec.Outcome
import Verif.Model.Plot

/-! # Specification vocabulary for the graph of trades

Which users a bid, a meeting or a transaction belongs to, and how to read the drawing. -/

set_option autoImplicit false

namespace PyMarket.Spec

/-- The user that submitted bid `i`. -/
def userOf (df : DF) (i : ℕ) : Option ℤ := (df[i]?).map (fun r => r.user)

/-- The meeting `p` is one of users `u` and `v`. -/
def Meets (df : DF) (p : ℕ × ℕ) (u v : ℤ) : Prop :=
  (userOf df p.1 = some u ∧ userOf df p.2 = some v) ∨
  (userOf df p.1 = some v ∧ userOf df p.2 = some u)

instance (df : DF) (p : ℕ × ℕ) (u v : ℤ) : Decidable (Meets df p u v) := by
  unfold Meets; infer_instance

/-- The transaction `t` is one between users `u` and `v`. -/
def Between (df : DF) (t : Transaction) (u v : ℤ) : Prop :=
  0 ≤ t.source ∧ Meets df (t.bid, t.source.toNat) u v

instance (df : DF) (t : Transaction) (u v : ℤ) : Decidable (Between df t u v) := by
  unfold Between; infer_instance

/-- Total quantity exchanged between two users: each trade is counted once, through the transaction
of its buying bid. -/
def exchanged (df : DF) (ts : List Transaction) (u v : ℤ) : ℚ :=
  ((ts.filter (fun t => isBuy df t.bid && decide (Between df t u v))).map (fun t => t.quantity)).sum

/-- In the drawing an edge joins the users `u` and `v`. -/
def Joined (fig : TradesFigure) (u v : ℤ) : Prop :=
  (some u, some v) ∈ fig.edges ∨ (some v, some u) ∈ fig.edges

/-- In the drawing the edge between the users `u` and `v` is labelled `x`. -/
def Labelled (fig : TradesFigure) (u v : ℤ) (x : ℚ) : Prop :=
  ((some u, some v), x) ∈ fig.labels ∨ ((some v, some u), x) ∈ fig.labels

/-- In the drawing user `u` is in the first row. -/
def InTopRow (fig : TradesFigure) (u : ℤ) : Prop := ∃ i ∈ fig.top, (i : ℤ) = u

/-- User `u` submitted a buying bid. -/
def IsBuyer (df : DF) (u : ℤ) : Prop := ∃ r ∈ df, r.buying = true ∧ r.user = u

/-- User `u` submitted a selling bid. -/
def IsSeller (df : DF) (u : ℤ) : Prop := ∃ r ∈ df, r.buying = false ∧ r.user = u

end PyMarket.Spec
