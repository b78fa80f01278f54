import Verif.Spec.Outcome
import Mathlib.Order.Bounds.Basic

/-! # Specification vocabulary for MUDA

The two halves of the market, the bids of a half that are willing to trade at a price, the gain of
a bid per unit and the externality (Vickrey fee) of a user. -/

set_option autoImplicit false

namespace PyMarket.Spec

/-- The bids with the given ids. -/
def half (df : DF) (ids : List ℕ) : DF := df.filter (fun r => decide (r.label ∈ ids))

/-- The transactions of the bids with the given ids. -/
def tradesIn (ids : List ℕ) (ts : List Transaction) : List Transaction :=
  ts.filter (fun t => decide (t.bid ∈ ids))

/-- Buying bids that accept to pay `p`. -/
def willingBuyers (H : DF) (p : ℚ) : DF := H.filter (fun r => r.buying && decide (p ≤ r.price))

/-- Selling bids that accept to receive `p`. -/
def willingSellers (H : DF) (p : ℚ) : DF := H.filter (fun r => !r.buying && decide (r.price ≤ p))

/-- The volume that both sides are willing to trade at `p`. -/
def volumeAt (H : DF) (p : ℚ) : ℚ :=
  min (((willingBuyers H p).map (fun r => r.quantity)).sum)
    (((willingSellers H p).map (fun r => r.quantity)).sum)

/-- The willing bids of the longer side (the buyers if both are equal). -/
def longSide (H : DF) (p : ℚ) : DF :=
  if ((willingBuyers H p).map (fun r => r.quantity)).sum <
    ((willingSellers H p).map (fun r => r.quantity)).sum then willingSellers H p
  else willingBuyers H p

/-- Gain per unit of a bid trading at `p`. -/
def unitGain (p : ℚ) (r : Row) : ℚ := if r.buying then r.price - p else p - r.price

/-- The bids of the users other than `u`. -/
def others (rows : DF) (u : ℤ) : DF := rows.filter (fun r => decide (r.user ≠ u))

/-- The bids of user `u`. -/
def own (rows : DF) (u : ℤ) : DF := rows.filter (fun r => decide (r.user = u))

/-- The gains that the bids `rows` can reach together by trading at most `Q` at price `p`, no bid
more than its quantity. -/
def CouldGain (rows : DF) (p Q : ℚ) : Set ℚ :=
  { x | ∃ a : ℕ → ℚ, (∀ r ∈ rows, 0 ≤ a r.label ∧ a r.label ≤ r.quantity) ∧
    (rows.map (fun r => a r.label)).sum ≤ Q ∧
    x = (rows.map (fun r => unitGain p r * a r.label)).sum }

/-- The gain of the bids `rows` in the transactions `ts` at price `p`. -/
def gainIn (rows : DF) (p : ℚ) (ts : List Transaction) : ℚ :=
  (rows.map (fun r => unitGain p r * tradedBy ts r.label)).sum

/-- `x` is the externality of user `u` in the half `H` trading at `p`: the most the other long-side
bids could gain from the traded volume in the absence of `u`, minus what they gain now. -/
def IsExternality (H : DF) (p : ℚ) (ts : List Transaction) (u : ℤ) (x : ℚ) : Prop :=
  ∃ W, IsGreatest (CouldGain (others (longSide H p) u) p (volumeAt H p)) W ∧
    x = W - gainIn (others (longSide H p) u) p ts

/-- User `u` has a transaction on the long side of the half `H`. -/
def TradesLong (H : DF) (p : ℚ) (ts : List Transaction) (u : ℤ) : Prop :=
  ∃ t ∈ ts, ∃ r ∈ longSide H p, r.label = t.bid ∧ r.user = u

/-- Two different bids of the book agree in user, price and side. -/
def HasTwin (df : DF) : Prop :=
  ∃ (i j : ℕ) (ri rj : Row), i ≠ j ∧ df[i]? = some ri ∧ df[j]? = some rj ∧ ri.user = rj.user ∧
    ri.price = rj.price ∧ ri.buying = rj.buying

end PyMarket.Spec
