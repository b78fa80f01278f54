import Verif.Model.RandomState
import Verif.Model.Market
import Verif.Lemmas.Sort

/-! # The tests and docstring examples of the repository, replayed on the model

These are tests of the model, not properties: the expected values are those asserted in `/repo/tests` and
printed in the docstrings, read as exact decimals, and the kernel evaluates the model on the same inputs.
Seeded runs use the Mersenne twister of `Model/RandomState.lean` with the seed of the test. Orders of rows
with distinct prices do not depend on the sort algorithm; `stableSorter` is used throughout. -/

set_option autoImplicit false

namespace PyMarket.Tests

/-- The table of a `BidManager` after adding bids (quantity, price, user, buying). -/
def mkBook (l : List (ℚ × ℚ × ℤ × Bool)) : DF :=
  (l.foldl (fun bm b => (bm.addBid b.1 b.2.1 b.2.2.1 b.2.2.2).1) BidManager.init).getDf

/-- A market after accepting bids. -/
def mkMarket (l : List (ℚ × ℚ × ℤ × Bool)) : Market :=
  l.foldl (fun m b => (m.acceptBid b.1 b.2.1 b.2.2.1 b.2.2.2).1) Market.init

/-- `Market.statistics` after a run whose result is given. -/
def statsOf (m : Market) (solve : Solver) (r : TransactionManager × Extra) : StatsResult :=
  ({ m with transactions := r.1, extra := r.2 }.statistics solve none []).2.1

/-- `tests/conftest.py:5-20`. -/
def dataset0 : DF := mkBook [(1, 3, 0, true), (2, 4, 1, true), (5, 1, 2, true),
  (4, 2, 3, false), (1, 1, 4, false), (5, 6, 5, false)]

/-- `tests/conftest.py:41-63`. -/
def dataset1 : DF := mkBook [(1, 67 / 10, 0, true), (1, 66 / 10, 1, true), (1, 65 / 10, 2, true),
  (1, 64 / 10, 3, true), (1, 63 / 10, 4, true), (1, 6, 5, true), (1, 1, 6, false), (1, 2, 7, false),
  (2, 3, 8, false), (2, 4, 9, false), (1, 61 / 10, 10, false)]

/-- `tests/conftest.py:65-97`. -/
def mudaExample : DF := mkBook [(1, 100, 0, true), (1, 90, 0, true), (1, 80, 0, true), (1, 60, 0, true),
  (1, 40, 0, true), (1, 20, 0, true), (1, 10, 1, false), (1, 20, 1, false), (1, 40, 1, false),
  (1, 60, 1, false), (1, 70, 1, false), (1, 15, 2, false), (1, 25, 2, false), (1, 35, 2, false),
  (1, 45, 2, false), (1, 65, 2, false)]

/-- `tests/conftest.py:100-115`. -/
def dataset3 : DF := mkBook [(1, 6, 0, true), (1 / 10, 5, 1, true), (19 / 10, 4, 2, true), (1, 3, 3, true),
  (1, 1, 4, false), (3 / 2, 2, 5, false), (1, 5 / 2, 6, false), (1, 4, 7, false)]

/-- `tests/test_bids.py:27-45` and `tests/test_transactions.py:19-34`. -/
def mergeBook : DF := mkBook [(1, 100, 0, true), (3, 100, 1, true), (23 / 10, 85, 2, true),
  (21 / 10, 90, 7, true), (4 / 10, 90, 8, true), (5 / 10, 90, 4, false), (42 / 10, 1, 5, false),
  (1 / 10, 90, 6, false)]

/-- `tests/test_market.py:16-23`. -/
def marketBids : List (ℚ × ℚ × ℤ × Bool) := [(1, 4, 0, true), (1, 3, 1, true), (1, 2, 2, true),
  (1, 1, 3, true), (1, 1, 10, false), (1, 2, 11, false), (1, 3, 12, false)]

def ext (x : ℚ) : Ext := x

/-! ## `tests/test_bids.py` -/

example : dataset0.map (fun r => (r.label, r.toBid)) =
    [(0, ⟨1, 3, 0, true, 0, true⟩), (1, ⟨2, 4, 1, true, 0, true⟩), (2, ⟨5, 1, 2, true, 0, true⟩),
     (3, ⟨4, 2, 3, false, 0, true⟩), (4, ⟨1, 1, 4, false, 0, true⟩), (5, ⟨5, 6, 5, false, 0, true⟩)] := by
  decide +kernel

example : (mergeSamePrice headSampler mergeBook).toOption.map (fun r => (r.1.map (fun x => x.toBid), r.2)) =
    some ([⟨23 / 10, 85, 2, true, 0, true⟩, ⟨25 / 10, 90, 9, true, 0, true⟩, ⟨4, 100, 10, true, 0, true⟩,
      ⟨42 / 10, 1, 5, false, 0, true⟩, ⟨6 / 10, 90, 11, false, 0, true⟩],
      [[2], [3, 4], [0, 1], [6], [5, 7]]) := by
  decide +kernel

/-! ## `tests/test_demand_curves.py` -/

example : demandCurve stableSorter dataset0 =
    ([(ext 2, ext 4), (ext 3, ext 3), (ext 8, ext 1), (⊤, ext 0)], [1, 0, 2]) := by
  decide +kernel

example : [ext (-1), ext 0, ext 1, ext 2, ext (5 / 2), ext 3, ext 4, ext 8, ext 1000, ⊤].map
    (fun x => getValueStepwise x (demandCurve stableSorter dataset0).1) =
    [none, some (ext 4), some (ext 4), some (ext 4), some (ext 3), some (ext 3), some (ext 1), some (ext 1),
      some (ext 0), some (ext 0)] := by
  decide +kernel

example : supplyCurve stableSorter dataset0 =
    ([(ext 1, ext 1), (ext 5, ext 2), (ext 10, ext 6), (⊤, ⊤)], [4, 3, 5]) := by
  decide +kernel

example : [ext (-1), ext 0, ext 1, ext 2, ext (5 / 2), ext 5, ext 7, ext 10, ext (10001 / 1000), ⊤].map
    (fun x => getValueStepwise x (supplyCurve stableSorter dataset0).1) =
    [none, some (ext 1), some (ext 1), some (ext 2), some (ext 2), some (ext 2), some (ext 6), some (ext 6),
      some ⊤, some ⊤] := by
  decide +kernel

example : (intersectStepwise (demandCurve stableSorter dataset0).1 (supplyCurve stableSorter dataset0).1).toOption =
    some ⟨some (ext 3), some 1, some 1, .fin 2⟩ := by
  decide +kernel

example : (intersectStepwise (demandCurve stableSorter dataset1).1 (supplyCurve stableSorter dataset1).1).toOption =
    some ⟨some (ext 6), some 5, some 3, .fin 5⟩ := by
  decide +kernel

/-! ## `tests/test_huang.py` (compared there after sorting by bid) -/

example : (huangAuction stableSorter dataset0).toOption.map (fun r => r.1.getDf) =
    some [⟨4, 1, 2, -1, false⟩, ⟨1, 1, 3, -1, false⟩] := by
  decide +kernel

example : (huangAuction stableSorter dataset3).toOption.map (fun r => r.1.getDf) =
    some [⟨4, 1, 5 / 2, -1, false⟩, ⟨5, 3 / 2, 5 / 2, -1, false⟩, ⟨0, 8 / 10, 3, -1, false⟩,
      ⟨1, 0, 3, -1, false⟩, ⟨2, 17 / 10, 3, -1, false⟩] := by
  decide +kernel

/-! ## `tests/test_muda.py` -/

example : (solveSide stableSorter mudaExample (.fin 50) [0, 0, 0]).toOption.map (fun r => (r.1.getDf, r.2)) =
    some ([⟨0, 1, 50, -1, false⟩, ⟨1, 1, 50, -1, false⟩, ⟨2, 1, 50, -1, false⟩, ⟨3, 1, 50, -1, false⟩,
      ⟨6, 1, 50, -1, false⟩, ⟨11, 1, 50, -1, false⟩, ⟨7, 1, 50, -1, false⟩, ⟨12, 1, 50, -1, false⟩],
      [0, 20, 10]) := by
  decide +kernel

example : (mudaFrom stableSorter (randomWords 1234 22) dataset1).map (fun r => r.1.toOption.map
      (fun x => (x.1.getDf, x.2))) =
    some (some ([⟨1, 1, 63 / 10, -1, false⟩, ⟨3, 1, 63 / 10, -1, false⟩, ⟨4, 1, 63 / 10, -1, false⟩,
      ⟨7, 1, 63 / 10, -1, false⟩, ⟨8, 2, 63 / 10, -1, false⟩, ⟨6, 1, 465 / 100, -1, false⟩,
      ⟨0, 1, 465 / 100, -1, false⟩],
      .muda [1, 3, 4, 7, 8, 9] [0, 2, 5, 6, 10] (.fin (465 / 100)) (.fin (63 / 10))
        [185 / 100, 0, 0, 0, 0, 0, 0, 23 / 10, 46 / 10, 0, 0])) := by
  decide +kernel

/-! ## `tests/test_p2p_random.py` -/

example : (p2pFrom (1 / 2) (randomWords 1234 20) dataset0).map (fun r => (r.1.getDf, r.2.1)) =
    some ([⟨1, 2, 3, 3, false⟩, ⟨3, 2, 3, 1, true⟩, ⟨2, 1, 1, 4, true⟩, ⟨4, 1, 1, 2, false⟩,
      ⟨0, 0, 0, 5, true⟩, ⟨5, 0, 0, 0, true⟩, ⟨2, 0, 0, 3, true⟩, ⟨3, 0, 0, 2, true⟩,
      ⟨0, 1, 5 / 2, 3, false⟩, ⟨3, 1, 5 / 2, 0, true⟩, ⟨2, 0, 0, 5, true⟩, ⟨5, 0, 0, 2, true⟩],
      .p2p [[(1, 3), (2, 4), (0, 5)], [(2, 3)], [(0, 3), (2, 5)]]) := by
  decide +kernel

/-! ## `tests/test_transactions.py` -/

example : ((mergeSamePrice headSampler mergeBook).bind (fun m =>
      (solveSide stableSorter m.1 (.fin 95) [0, 1, 2, 3, 4, 5]).bind (fun t =>
        splitTransactions t.1 mergeBook m.2))).toOption.map (fun tm => tm.getDf) =
    some [⟨0, 1, 95, -1, false⟩, ⟨1, 3, 95, -1, false⟩, ⟨6, 4, 95, -1, false⟩] := by
  decide +kernel

/-! ## `tests/test_market.py`

The linear programs have the optima 3 (volume) and 4 (welfare); `Tests/Programs.lean` checks this. -/

def marketSolve : Solver := fun lp => if lp.coeff (0, 4) = 1 then 3 else 4

example : ((mkMarket marketBids).run stableSorter headSampler .huang).2.toOption.map (fun r => r.1.getDf) =
    some [⟨4, 1, 2, -1, false⟩, ⟨0, 1, 3, -1, false⟩] := by
  decide +kernel

example : (((mkMarket marketBids).run stableSorter headSampler .huang).1.statistics marketSolve none []).2.1 =
    ⟨some (some (1 / 3)), some (some (1 / 2)), some ⟨[1, 0, 0, 0, 1, 0, 0], [1, 0, 0, 0, 1, 0, 0], 1⟩⟩ := by
  decide +kernel

example : (mudaFrom stableSorter (randomWords 1234 14) (mkMarket marketBids).bm.getDf).map
      (fun r => r.1.toOption.map (fun x => (x.1.getDf,
        (statsOf (mkMarket marketBids) marketSolve x).percentageTraded,
        (statsOf (mkMarket marketBids) marketSolve x).percentageWelfare))) =
    some (some ([⟨4, 1, 3, -1, false⟩, ⟨1, 1, 3, -1, false⟩, ⟨5, 1, 2, -1, false⟩, ⟨0, 1, 2, -1, false⟩],
      some (some (2 / 3)), some (some 1))) := by
  decide +kernel

example : (p2pFrom (1 / 2) (randomWords 1234 40) (mkMarket marketBids).bm.getDf).map (fun r => (r.1.getDf,
      (statsOf (mkMarket marketBids) marketSolve (r.1, r.2.1)).percentageTraded,
      (statsOf (mkMarket marketBids) marketSolve (r.1, r.2.1)).percentageWelfare)) =
    some ([⟨1, 1, 2, 4, false⟩, ⟨4, 1, 2, 1, false⟩, ⟨3, 0, 0, 6, true⟩, ⟨6, 0, 0, 3, true⟩,
      ⟨0, 1, 3, 5, false⟩, ⟨5, 1, 3, 0, false⟩, ⟨2, 0, 0, 6, true⟩, ⟨6, 0, 0, 2, true⟩],
      some (some (2 / 3)), some (some 1)) := by
  decide +kernel

end PyMarket.Tests
