import Verif.Tests.Programs

/-! # The examples of the docstrings and of the notebooks in `docs/`, replayed on the model

Tests, as `Tests/Suite.lean`. -/

set_option autoImplicit false

namespace PyMarket.Tests
open Spec

/-! ## `pymarket/market.py:44-92` -/

example : ((mkMarket [(1, 2, 0, true), (2, 3, 1, true)]).run stableSorter headSampler .huang).2.toOption =
    some (TransactionManager.init, .empty) := by
  decide +kernel

example : ((mkMarket [(1, 2, 0, false), (2, 3, 1, false)]).run stableSorter headSampler .huang).2.toOption =
    some (TransactionManager.init, .empty) := by
  decide +kernel

example : ((mkMarket [(1, 3, 0, true), (1, 2, 1, false)]).run stableSorter headSampler .huang).2.toOption.map
      (fun r => (r.1.getDf, r.2)) = some ([], .huang 2 3 0) := by
  decide +kernel

/-! ## `pymarket/transactions/transactions.py:56-135`, `pymarket/transactions/processing.py:36-49` -/

example : ((TransactionManager.init.addTransaction ⟨1, 1 / 2, 21 / 10, -1, false⟩).1.merge
      (TransactionManager.init.addTransaction ⟨5, 0, 0, 3, true⟩).1).getDf =
    [⟨1, 1 / 2, 21 / 10, -1, false⟩, ⟨5, 0, 0, 3, true⟩] := by
  decide +kernel

example : (splitTransactions (TransactionManager.init.addTransaction ⟨0, 1, 1, -1, false⟩).1
      (mkBook [(1, 1, 0, true), (2, 1, 1, true)]) [[0, 1]]).toOption.map (fun tm => tm.getDf) =
    some [⟨0, 1 / 3, 1, -1, false⟩, ⟨1, 2 / 3, 1, -1, false⟩] := by
  decide +kernel

/-! ## `pymarket/mechanisms/muda_auction.py:53-101,160-178,267-305,372-381` -/

def mudaDoc : List (ℚ × ℚ × ℤ × Bool) := [(1, 4, 0, true), (1, 2, 1, true), (1, 3, 2, false), (1, 1, 3, false)]

example : (mudaFrom stableSorter (randomWords 420 8) (mkBook mudaDoc)).map (fun r => r.1.toOption.map
      (fun x => (x.1.getDf, x.2))) =
    some (some ([], .muda [] [0, 1, 2, 3] .inf (.fin (5 / 2)) [0, 0, 0, 0])) := by
  decide +kernel

example : (mudaFrom stableSorter (randomWords 69 8) (mkBook mudaDoc)).map (fun r => r.1.toOption.map
      (fun x => (x.1.getDf, x.2))) =
    some (some ([], .muda [1, 3] [0, 2] (.fin (3 / 2)) (.fin (7 / 2)) [0, 0, 0, 0])) := by
  decide +kernel

example : (mudaFrom stableSorter (randomWords 69 10) (mkBook (mudaDoc ++ [(1, 5, 4, true)]))).map
      (fun r => r.1.toOption.map (fun x => (x.1.getDf, x.2))) =
    some (some ([⟨3, 1, 7 / 2, -1, false⟩, ⟨4, 1, 7 / 2, -1, false⟩, ⟨2, 1, 3, -1, false⟩,
      ⟨0, 1, 3, -1, false⟩], .muda [1, 3, 4] [0, 2] (.fin 3) (.fin (7 / 2)) [0, 0, 0, 0, 0])) := by
  decide +kernel

/-- Also the book of `mechanism.py:37-45` and `p2p_random.py:51-59`. -/
def sideDoc : DF := mkBook [(1, 3, 0, true), (1, 1 / 2, 1, true), (1, 1, 2, false), (1, 2, 3, false)]

example : (solveSide stableSorter sideDoc (.fin (5 / 2)) [0, 0, 0, 0]).toOption.map
      (fun r => (r.1.getDf, r.2)) =
    some ([⟨0, 1, 5 / 2, -1, false⟩, ⟨2, 1, 5 / 2, -1, false⟩], [0, 0, 1 / 2, 0]) := by
  decide +kernel

example : (getTradingBids (mkBook [(1, 3, 0, true), (1, 2, 1, true)]) 1).toOption.map
      (fun r => (r.1.map (fun x => (x.label, x.quantity, x.price)), r.2)) =
    some ([(0, 1, 3), (1, 1, 2)], 0) := by
  decide +kernel

example : (getTradingBids (mkBook [(1, 3, 0, true), (1, 2, 1, true)]) (3 / 10)).toOption.map
      (fun r => (r.1.map (fun x => (x.label, x.quantity, x.price)), r.2)) =
    some ([(0, 3 / 10, 3), (0, 7 / 10, 3), (1, 1, 2)], 0) := by
  decide +kernel

example : computeFee (mkBook [(1, 1, 1, true), (1, 2, 3, true)]) 0 1 1 (5 / 2) = 1 / 2 := by decide +kernel

/-! ## `pymarket/mechanisms/huang_auction.py:34-45,101-132` -/

example : (updateQuantity [1, 2, 3] (6 / 10)).toOption = some [8 / 10, 18 / 10, 28 / 10] := by decide +kernel

example : (updateQuantity [1, 1 / 2, 2] (18 / 10)).toOption = some [35 / 100, 0, 135 / 100] := by decide +kernel

example : (huangAuction stableSorter (mkBook [(1, 3, 0, true), (2, 1, 1, true), (2, 2, 2, false)])).toOption.map
      (fun r => (r.1.getDf, r.2)) = some ([], .huang 2 3 0) := by
  decide +kernel

example : (huangAuction stableSorter (mkBook [(1, 3, 0, true), (2, 1, 1, true), (2, 2, 2, false),
      (3 / 10, 1, 3, false), (2 / 10, 33 / 10, 4, true)])).toOption.map (fun r => (r.1.getDf, r.2)) =
    some ([⟨3, 2 / 10, 2, -1, false⟩, ⟨4, 2 / 10, 3, -1, false⟩], .huang 2 3 (2 / 10)) := by
  decide +kernel

/-! ## `pymarket/mechanisms/mechanism.py:35-117`, `pymarket/mechanisms/p2p_random.py:49-70` -/

example : (p2pFrom (1 / 2) (randomWords 420 10) sideDoc).map (fun r => (r.1.getDf, r.2.1)) =
    some ([⟨0, 1, 5 / 2, 3, false⟩, ⟨3, 1, 5 / 2, 0, false⟩, ⟨1, 0, 0, 2, true⟩, ⟨2, 0, 0, 1, true⟩],
      .p2p [[(0, 3), (1, 2)]]) := by
  decide +kernel

example : (p2pFrom 1 (randomWords 420 10) sideDoc).map (fun r => (r.1.getDf, r.2.1)) =
    some ([⟨0, 1, 3, 3, false⟩, ⟨3, 1, 3, 0, false⟩, ⟨1, 0, 0, 2, true⟩, ⟨2, 0, 0, 1, true⟩],
      .p2p [[(0, 3), (1, 2)]]) := by
  decide +kernel

example : (mergeSamePrice headSampler (mkBook [(1, 1, 0, true), (1 / 2, 1, 1, true)])).toOption.map
      (fun r => (r.1.map (fun x => (x.label, x.toBid)), r.2)) =
    some ([(0, ⟨3 / 2, 1, 2, true, 0, true⟩)], [[0, 1]]) := by
  decide +kernel

/-! ## `pymarket/datasets/uniform_bidders.py:44-48` (the printed floats are the decimals below, rounded) -/

example : (generateFrom (randomWords 420 60) 2 3 1 2 (1 / 10)).map (fun r => r.1.toOption) =
    some (some [⟨5 / 10, 28 / 10, 0, true, 0, true⟩, ⟨7 / 10, 25 / 10, 1, true, 0, true⟩,
      ⟨6 / 10, 12 / 10, 2, false, 0, true⟩, ⟨1 / 10, 17 / 10, 3, false, 0, true⟩,
      ⟨2 / 10, 13 / 10, 4, false, 0, true⟩]) := by
  decide +kernel

/-! ## `pymarket/bids/demand_curves.py:33-75,107-141,183-188,259-271` -/

example : demandCurve stableSorter (mkBook [(1, 1, 0, true), (1, 1, 1, false), (3, 1 / 2, 2, true),
      (23 / 10, 1 / 10, 3, true)]) =
    ([(ext 1, ext 1), (ext 4, ext (1 / 2)), (ext (63 / 10), ext (1 / 10)), (⊤, ext 0)], [0, 2, 3]) := by
  decide +kernel

example : supplyCurve stableSorter (mkBook [(1, 3, 0, false), (21 / 10, 3, 3, true), (2 / 10, 1, 3, false),
      (17 / 10, 6, 4, false)]) =
    ([(ext (2 / 10), ext 1), (ext (12 / 10), ext 3), (ext (29 / 10), ext 6), (⊤, ⊤)], [2, 0, 3]) := by
  decide +kernel

example : [ext (-1), ext 0, ext (1 / 2), ext 1, ext 2, ext 3, ext 4].map
      (fun x => getValueStepwise x [(ext 1, ext 1), (ext 3, ext 4)]) =
    [none, some (ext 1), some (ext 1), some (ext 1), some (ext 4), some (ext 4), none] := by
  decide +kernel

example : (intersectStepwise [(ext 1, ext 3), (ext 3, ext 1)] [(ext 2, ext 2)]).toOption =
    some ⟨some (ext 1), some 0, some 0, .fin 2⟩ := by
  decide +kernel

example : (intersectStepwise [(ext 1, ext 3), (ext 2, ext (5 / 2))] [(ext 1, ext 1), (ext 2, ext 2)]).toOption =
    some ⟨none, none, none, .fin (9 / 4)⟩ := by
  decide +kernel

/-! ## `pymarket/bids/processing.py:28-39,105-133` -/

example : newId 6 [3] = .ok (3, 6) ∧ newId 6 [5] = .ok (5, 6) ∧ newId 6 [0, 1] = .ok (6, 7) ∧
    newId 7 [2, 4] = .ok (7, 8) := by
  decide +kernel

example : (mergeSamePrice headSampler (mkBook [(3 / 10, 1, 0, true), (7 / 10, 1, 1, true), (2, 1, 2, false),
      (1, 2444446 / 1000000, 3, false), (3, 2444447 / 1000000, 4, false)])).toOption.map
      (fun r => (r.1.map (fun x => x.toBid), r.2)) =
    some ([⟨1, 1, 5, true, 0, true⟩, ⟨2, 1, 2, false, 0, true⟩, ⟨4, 244445 / 100000, 6, false, 0, true⟩],
      [[0, 1], [2], [3, 4]]) := by
  decide +kernel

/-! ## `docs/P2P.ipynb`, `docs/MUDA.ipynb`, `docs/Huang.ipynb` (all on `dataset1`) -/

def market1 : Market := mkMarket [(1, 67 / 10, 0, true), (1, 66 / 10, 1, true), (1, 65 / 10, 2, true),
  (1, 64 / 10, 3, true), (1, 63 / 10, 4, true), (1, 6, 5, true), (1, 1, 6, false), (1, 2, 7, false),
  (2, 3, 8, false), (2, 4, 9, false), (1, 61 / 10, 10, false)]

def solve1 : Solver := fun lp => if lp.coeff (0, 6) = 1 then 6 else 215 / 10

example : IsOptimum (volumeLP market1.bm.getDf) (solve1 (volumeLP market1.bm.getDf)) :=
  volume_cert (t := 0) (q := plan [((0, 6), 1), ((1, 7), 1), ((2, 8), 1), ((3, 8), 1), ((4, 9), 1), ((5, 9), 1)])
    (by decide +kernel) (by decide +kernel) (by unfold Feasible; decide +kernel) (by decide +kernel)
    (by decide +kernel)

example : IsOptimum (utilityLP market1.bm.getDf (fun _ => none)) (solve1 (utilityLP market1.bm.getDf (fun _ => none))) :=
  welfare_cert (p := 5) (q := plan [((0, 6), 1), ((1, 7), 1), ((2, 8), 1), ((3, 8), 1), ((4, 9), 1), ((5, 9), 1)])
    (by decide +kernel) (by decide +kernel) (by unfold Feasible; decide +kernel) (by decide +kernel)
    (by decide +kernel)

example : (p2pFrom (1 / 2) (randomWords 1234 60) market1.bm.getDf).map (fun r => (r.1.getDf, r.2.1)) =
    some ([⟨3, 1, 370 / 100, 6, false⟩, ⟨6, 1, 370 / 100, 3, false⟩, ⟨5, 0, 0, 10, true⟩, ⟨10, 0, 0, 5, true⟩,
      ⟨2, 1, 425 / 100, 7, false⟩, ⟨7, 1, 425 / 100, 2, false⟩, ⟨4, 1, 515 / 100, 9, false⟩,
      ⟨9, 1, 515 / 100, 4, true⟩, ⟨0, 1, 485 / 100, 8, false⟩, ⟨8, 1, 485 / 100, 0, true⟩,
      ⟨5, 1, 5, 9, false⟩, ⟨9, 1, 5, 5, false⟩, ⟨1, 1, 480 / 100, 8, false⟩, ⟨8, 1, 480 / 100, 1, false⟩],
      .p2p [[(3, 6), (5, 10), (2, 7), (4, 9), (0, 8)], [(5, 9), (1, 8)]]) := by
  decide +kernel

example : (p2pFrom (1 / 2) (randomWords 1234 60) market1.bm.getDf).map (fun r =>
      statsOf market1 solve1 (r.1, r.2.1)) =
    some ⟨some (some 1), some (some 1), some
      ⟨[185 / 100, 180 / 100, 225 / 100, 270 / 100, 115 / 100, 1, 270 / 100, 225 / 100, 365 / 100, 215 / 100, 0],
       [185 / 100, 180 / 100, 225 / 100, 270 / 100, 115 / 100, 1, 270 / 100, 225 / 100, 365 / 100, 215 / 100, 0],
       0⟩⟩ := by
  decide +kernel

/-- `0.7906976744186046 = 17 / 21.5`. -/
example : (mudaFrom stableSorter (randomWords 1234 22) market1.bm.getDf).map (fun r => r.1.toOption.map
      (fun x => statsOf market1 solve1 x)) =
    some (some ⟨some (some (2 / 3)), some (some (170 / 215)), some
      ⟨[205 / 100, 30 / 100, 0, 10 / 100, 0, 0, 365 / 100, 430 / 100, 660 / 100, 0, 0],
       [205 / 100, 30 / 100, 0, 10 / 100, 0, 0, 365 / 100, 430 / 100, 660 / 100, 0, 0], 875 / 100⟩⟩) := by
  decide +kernel

/-- `0.4186046511627907 = 9 / 21.5`. -/
example : ((market1.run stableSorter headSampler .huang).1.statistics solve1 none []).2.1 =
    ⟨some (some (2 / 3)), some (some (90 / 215)), some
      ⟨[56 / 100, 48 / 100, 40 / 100, 32 / 100, 24 / 100, 0, 3, 2, 2, 0, 0],
       [56 / 100, 48 / 100, 40 / 100, 32 / 100, 24 / 100, 0, 3, 2, 2, 0, 0], 8⟩⟩ := by
  decide +kernel

/-! ## `docs/quickstart.ipynb` -/

def quick2 : Market := mkMarket [(1, 2, 0, true), (2, 1, 1, false)]

def quick3 : Market := (quick2.acceptBid 1 (1 / 2) 5 true 4).1

def quickSolve : Solver := fun _ => 1

def quickRes : ResPrices := fun i => if i = 0 then some 10 else none

example : IsOptimum (volumeLP quick3.bm.getDf) 1 :=
  volume_cert (t := 3 / 4) (q := plan [((0, 1), 1)]) (by decide +kernel) (by decide +kernel)
    (by unfold Feasible; decide +kernel) (by decide +kernel) (by decide +kernel)

example : IsOptimum (utilityLP quick3.bm.getDf (fun _ => none)) 1 :=
  welfare_cert (p := 1) (q := plan [((0, 1), 1)]) (by decide +kernel) (by decide +kernel)
    (by unfold Feasible; decide +kernel) (by decide +kernel) (by decide +kernel)

example : (p2pFrom (1 / 2) (randomWords 1234 20) quick2.bm.getDf).map (fun r => (r.1.getDf, r.2.1,
      ({ quick2 with transactions := r.1, extra := r.2.1 }.statistics quickSolve (some quickRes) []).2.1)) =
    some ([⟨0, 1, 3 / 2, 1, false⟩, ⟨1, 1, 3 / 2, 0, true⟩], .p2p [[(0, 1)]],
      ⟨some (some 1), some (some 1), some ⟨[1 / 2, 1 / 2], [17 / 2, 1 / 2], 0⟩⟩) := by
  decide +kernel

example : (p2pFrom (1 / 2) (randomWords 1234 20) quick3.bm.getDf).map (fun r => (r.1.getDf, r.2.1,
      ({ quick3 with transactions := r.1, extra := r.2.1 }.statistics quickSolve (some quickRes) []).2.1)) =
    some ([⟨2, 0, 0, 1, true⟩, ⟨1, 0, 0, 2, true⟩, ⟨0, 1, 3 / 2, 1, false⟩, ⟨1, 1, 3 / 2, 0, true⟩],
      .p2p [[(2, 1)], [(0, 1)]],
      ⟨some (some 1), some (some 1), some ⟨[1 / 2, 1 / 2, 0], [17 / 2, 1 / 2, 0], 0⟩⟩) := by
  decide +kernel

end PyMarket.Tests
