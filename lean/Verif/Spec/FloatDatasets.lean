import Verif.Spec.Datasets
import Verif.Model.Float

/-! # Specification vocabulary for the bids generated in floating point arithmetic -/

set_option autoImplicit false

namespace PyMarket.Spec

/-- The distance between two possible prices: the requested one, unless more players are requested than prices exist. -/
def gridStepF (F : Fmt) (nb ns : ℕ) (eps : ℚ) : ℚ :=
  if ((max nb ns : ℕ) : ℚ) ≤ F.rnd (1 / eps) then eps else F.rnd (1 / ((max nb ns : ℕ) : ℚ)) / 2

/-- `x` is a point of the rounded grid. -/
def OnGrid (F : Fmt) (step x : ℚ) : Prop := ∃ n : ℕ, (n : ℚ) < F.rnd (1 / step) ∧ x = F.rnd (n * step)

/-- `nb` buying bids followed by `ns` selling bids of the users `0, 1, 2, …`, with quantities on the rounded grid and
prices on the shifted one. -/
structure WellFormedF (F : Fmt) (nb ns : ℕ) (offBuy offSell step : ℚ) (bids : List Bid) : Prop where
  length : bids.length = nb + ns
  user : ∀ (k : ℕ) (b : Bid), bids[k]? = some b → b.user = (k : ℤ)
  side : ∀ (k : ℕ) (b : Bid), bids[k]? = some b → (b.buying = true ↔ k < nb)
  quantity : ∀ b ∈ bids, OnGrid F step b.quantity
  price : ∀ b ∈ bids, ∃ x, OnGrid F step x ∧ b.price = F.rnd (x + if b.buying then offBuy else offSell)
  default : ∀ b ∈ bids, b.time = 0 ∧ b.divisible = true

end PyMarket.Spec
