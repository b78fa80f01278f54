import Verif.Model.Stats
import Verif.Spec.Profit

/-! # Specification vocabulary for the two optimisation problems of the statistics -/

set_option autoImplicit false

namespace PyMarket.Spec

/-- `q` satisfies the constraints of the program. -/
def Feasible (lp : LP) (q : ℕ × ℕ → ℚ) : Prop :=
  (∀ v ∈ lp.vars, 0 ≤ q v) ∧ ∀ c ∈ lp.constraints, (c.1.map q).sum ≤ c.2

/-- The objective of the program at `q`. -/
def objective (lp : LP) (q : ℕ × ℕ → ℚ) : ℚ := (lp.vars.map (fun v => lp.coeff v * q v)).sum

/-- `x` is the optimal value of the program: what a correct solver returns. -/
def IsOptimum (lp : LP) (x : ℚ) : Prop := IsGreatest {y | ∃ q, Feasible lp q ∧ y = objective lp q} x

/-- A trade plan for a book: `q i j` is what the buying bid `i` buys from the selling bid `j`, and no
bid trades more than its quantity. -/
structure TradePlan (df : DF) (q : ℕ → ℕ → ℚ) : Prop where
  nonneg : ∀ i j, 0 ≤ q i j
  pair : ∀ i j, q i j ≠ 0 → isBuy df i = true ∧ isSell df j = true
  buyer : ∀ i, ((List.range df.length).map (fun j => q i j)).sum ≤ qtyOf df i
  seller : ∀ j, ((List.range df.length).map (fun i => q i j)).sum ≤ qtyOf df j

/-- The plan only matches buyers with sellers asking at most the buyer's price. -/
def Compatible (df : DF) (q : ℕ → ℕ → ℚ) : Prop := ∀ i j, q i j ≠ 0 → priceOf df j ≤ priceOf df i

/-- The volume of a plan. -/
def planVolume (df : DF) (q : ℕ → ℕ → ℚ) : ℚ :=
  ((List.range df.length).map (fun i => ((List.range df.length).map (fun j => q i j)).sum)).sum

/-- The gains from trade of a plan when bid `i` is worth `value i` per unit. -/
def planWelfare (df : DF) (value : ℕ → ℚ) (q : ℕ → ℕ → ℚ) : ℚ :=
  ((List.range df.length).map (fun i => ((List.range df.length).map
    (fun j => (value i - value j) * q i j)).sum)).sum

/-- The value of bid `i`: its reservation price if one is given, and the price it was submitted with
otherwise. -/
def valueOf (df : DF) (res : ℕ → Option ℚ) (i : ℕ) : ℚ := (res i).getD (priceOf df i)

/-- A group of transactions that settles among itself: what is bought is sold, and some price
separates the trading buyers from the trading sellers. -/
structure Pool (df : DF) (ts : List Transaction) : Prop where
  known : ∀ t ∈ ts, t.bid < df.length
  nonneg : ∀ t ∈ ts, 0 ≤ t.quantity
  balanced : boughtQty df ts = soldQty df ts
  price : ∃ p, ∀ t ∈ ts, t.quantity ≠ 0 →
    (isBuy df t.bid = true → p ≤ priceOf df t.bid) ∧ (isSell df t.bid = true → priceOf df t.bid ≤ p)

/-- An outcome that falls into self-settling groups and in which no bid trades more than its
quantity. -/
structure Settled (df : DF) (ts : List Transaction) : Prop where
  pools : ∃ ps : List (List Transaction), ps.flatten = ts ∧ ∀ p ∈ ps, Pool df p
  capacity : ∀ i, tradedBy ts i ≤ qtyOf df i

/-- Moreover nobody trades at a loss, and the market maker does not subsidise the trade. -/
structure Sound (df : DF) (ts : List Transaction) : Prop extends Settled df ts where
  rational : ∀ t ∈ ts, t.quantity ≠ 0 → (isBuy df t.bid = true → t.price ≤ priceOf df t.bid) ∧
    (isSell df t.bid = true → priceOf df t.bid ≤ t.price)
  budget : received df ts ≤ paid df ts

/-- `o` reports `achieved` as a share of `best`, and is `None` when nothing can be achieved. -/
def Share (achieved best : ℚ) (o : Option ℚ) : Prop :=
  (best ≤ 0 → o = none) ∧ (0 < best → o = some (achieved / best))

/-- The largest volume a trade plan between compatible bids can reach. -/
def BestVolume (df : DF) (x : ℚ) : Prop :=
  IsGreatest {y | ∃ q, TradePlan df q ∧ Compatible df q ∧ y = planVolume df q} x

/-- The largest gain a trade plan can reach when bid `i` is worth `value i` per unit. -/
def BestWelfare (df : DF) (value : ℕ → ℚ) (x : ℚ) : Prop :=
  IsGreatest {y | ∃ q, TradePlan df q ∧ y = planWelfare df value q} x

/-- What the traders gain in an outcome when bid `i` is worth `value i` per unit. -/
def gains (df : DF) (value : ℕ → ℚ) (ts : List Transaction) : ℚ :=
  (boughtValue df value ts - paid df ts) + (received df ts - soldValue df value ts)

/-- What a bid could gain at the price `p`. -/
def claim (p : ℚ) (b : Bid) : ℚ :=
  b.quantity * (if b.buying then max 0 (b.price - p) else max 0 (p - b.price))

end PyMarket.Spec
