import Verif.Model.Basic

/-! # Model of `pymarket/bids/bids.py` -/

set_option autoImplicit false

namespace PyMarket

/-- Models `BidManager` (`pymarket/bids/bids.py:4-32`): the counter and the list of bids. -/
structure BidManager where
  nBids : ℕ
  bids : List Bid
  deriving DecidableEq, Repr

/-- `BidManager.__init__` (`pymarket/bids/bids.py:30-32`). -/
def BidManager.init : BidManager := { nBids := 0, bids := [] }

/-- `BidManager.add_bid` (`pymarket/bids/bids.py:34-80`), with the default arguments of lines
39-41. Returns the new state and the returned id. -/
def BidManager.addBid (bm : BidManager) (quantity price : ℚ) (user : ℤ) (buying : Bool := true)
    (time : ℚ := 0) (divisible : Bool := true) : BidManager × ℕ :=
  let newBid : Bid := ⟨quantity, price, user, buying, time, divisible⟩
  let n := bm.nBids + 1
  ({ nBids := n, bids := bm.bids ++ [newBid] }, n - 1)

/-- `BidManager.get_df` (`pymarket/bids/bids.py:82-108`). -/
def BidManager.getDf (bm : BidManager) : DF := labelFrom 0 bm.bids

end PyMarket
