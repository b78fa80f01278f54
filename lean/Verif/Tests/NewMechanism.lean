import Verif.Tests.Programs
import Verif.Model.Uniform

/-! # `docs/new_mechanism.ipynb` replayed on the model

Tests, as `Tests/Suite.lean`. The column for P2P depends on an unseeded generator and is left out. -/

set_option autoImplicit false

namespace PyMarket.Tests

open Spec

/-- `docs/new_mechanism.ipynb:74-103`. -/
def powerMarket : Market := mkMarket [(250, 200, 0, true), (300, 110, 1, true), (120, 100, 2, true),
  (80, 90, 3, true), (40, 85, 4, true), (70, 75, 1, true), (60, 65, 0, true), (45, 40, 4, true),
  (30, 38, 3, true), (35, 31, 4, true), (25, 24, 0, true), (10, 21, 1, true), (120, 0, 5, false),
  (50, 0, 6, false), (200, 15, 7, false), (400, 30, 5, false), (60, 65 / 2, 8, false), (50, 34, 8, false),
  (60, 36, 8, false), (100, 75 / 2, 9, false), (70, 39, 9, false), (50, 40, 9, false), (70, 60, 5, false),
  (45, 70, 5, false), (50, 100, 10, false), (60, 150, 10, false), (50, 200, 10, false)]

def powerSolve : Solver := fun lp => if lp.coeff (0, 12) = 1 then 1065 else 189635 / 2

example : IsOptimum (volumeLP powerMarket.bm.getDf) (powerSolve (volumeLP powerMarket.bm.getDf)) :=
  volume_cert (t := -1) (q := plan [((11, 13), 10), ((10, 13), 25), ((9, 13), 15), ((9, 12), 20), ((8, 12), 30),
      ((7, 12), 45), ((6, 12), 25), ((6, 14), 35), ((5, 14), 70), ((4, 14), 40), ((3, 14), 55), ((3, 15), 25),
      ((2, 15), 120), ((1, 15), 255), ((1, 16), 45), ((0, 16), 15), ((0, 17), 50), ((0, 18), 60),
      ((0, 19), 100), ((0, 20), 25)])
    (by decide +kernel) (by decide +kernel) (by unfold Feasible; decide +kernel) (by decide +kernel)
    (by decide +kernel)

example : IsOptimum (utilityLP powerMarket.bm.getDf (fun _ => none))
    (powerSolve (utilityLP powerMarket.bm.getDf (fun _ => none))) :=
  welfare_cert (p := 75 / 2) (q := plan [((0, 13), 50), ((0, 12), 120), ((0, 14), 80), ((1, 14), 120),
      ((1, 15), 180), ((2, 15), 120), ((3, 15), 80), ((4, 15), 20), ((4, 16), 20), ((5, 16), 40), ((5, 17), 30),
      ((6, 17), 20), ((6, 18), 40), ((7, 18), 20), ((7, 19), 25), ((8, 19), 30)])
    (by decide +kernel) (by decide +kernel) (by unfold Feasible; decide +kernel) (by decide +kernel)
    (by decide +kernel)

/-- Lines 320-406, 467-477, 533-542: `0.934` is `995 / 1065` and `1.0` is exact. -/
example : (fun s : StatsResult => (s.percentageTraded, s.percentageWelfare, s.profits.map (fun p => p.playerBid)))
    (((powerMarket.runUniform stableSorter headSampler false).1.statistics powerSolve none []).2.1) =
    (some (some (995 / 1065)), some (some 1), some [42275, 24375, 7500, 4215, 4025 / 2, 7500, 1875, 4500, 565,
      0, 0]) := by
  decide +kernel

/-- `0.883` is `940 / 1065`; `0.98` rounds the share below. -/
example : (fun s : StatsResult => (s.percentageTraded, s.percentageWelfare, s.profits.map (fun p => p.playerBid)))
    (((powerMarket.run stableSorter headSampler .huang).1.statistics powerSolve none []).2.1) =
    (some (some (940 / 1065)), some (some (92879375 / 94817500)), some [41529375 / 1000, 23849375 / 1000,
      724625 / 100, 39975 / 10, 1816875 / 1000, 7500, 1875, 4500, 565, 0, 0]) := by
  decide +kernel

end PyMarket.Tests
