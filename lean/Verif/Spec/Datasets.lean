import Verif.Model.Market

/-! # Specification vocabulary for the generated bids -/

set_option autoImplicit false

namespace PyMarket.Spec

/-- The distance between two possible prices: the requested one, unless more players are requested
than prices exist. -/
def gridStep (nb ns : ℕ) (eps : ℚ) : ℚ :=
  if ((max nb ns : ℕ) : ℚ) ≤ 1 / eps then eps else 1 / (2 * ((max nb ns : ℕ) : ℚ))

/-- `nb` buying bids followed by `ns` selling bids of the users `0, 1, 2, …`, with quantities in
`[0, 1)` and prices in `[offset, offset + 1)`, all of them on a grid, and with pairwise different
quantities and prices on each side. -/
structure WellFormed (nb ns : ℕ) (offBuy offSell step : ℚ) (bids : List Bid) : Prop where
  length : bids.length = nb + ns
  user : ∀ (k : ℕ) (b : Bid), bids[k]? = some b → b.user = (k : ℤ)
  side : ∀ (k : ℕ) (b : Bid), bids[k]? = some b → (b.buying = true ↔ k < nb)
  quantity : ∀ b ∈ bids, 0 ≤ b.quantity ∧ b.quantity < 1 ∧ ∃ n : ℕ, b.quantity = n * step
  buy : ∀ b ∈ bids, b.buying = true → offBuy ≤ b.price ∧ b.price < offBuy + 1 ∧
    ∃ n : ℕ, b.price = n * step + offBuy
  sell : ∀ b ∈ bids, b.buying = false → offSell ≤ b.price ∧ b.price < offSell + 1 ∧
    ∃ n : ℕ, b.price = n * step + offSell
  default : ∀ b ∈ bids, b.time = 0 ∧ b.divisible = true
  distinct : ∀ (i j : ℕ) (a b : Bid), i ≠ j → bids[i]? = some a → bids[j]? = some b →
    a.buying = b.buying → a.price ≠ b.price ∧ a.quantity ≠ b.quantity

/-- Submit bids one after the other. -/
def acceptAll (m : Market) (bids : List Bid) : Market :=
  bids.foldl (fun m b => (m.acceptBid b.quantity b.price b.user b.buying b.time b.divisible).1) m

end PyMarket.Spec
