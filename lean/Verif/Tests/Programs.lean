import Verif.Tests.Suite
import Verif.Props.ClosedForm

/-! # The optima asserted in the tests and docstrings

The solver is outside the model, so the values it printed are checked against the definition of the optimum:
a feasible plan reaches them, and the closed forms of C84 bound every plan. These are tests. -/

set_option autoImplicit false

namespace PyMarket.Tests
open Spec

/-- A plan given as a list of pairs and quantities. -/
def plan (l : List ((ℕ × ℕ) × ℚ)) (v : ℕ × ℕ) : ℚ := (l.lookup v).getD 0

theorem volume_cert {df : DF} {t y : ℚ} {q : ℕ × ℕ → ℚ} (ht : IsTable df) (hq : ∀ r ∈ df, 0 ≤ r.quantity)
    (hf : Feasible (volumeLP df) q) (ho : objective (volumeLP df) q = y) (hb : volumeBound df t = y) :
    IsOptimum (volumeLP df) y := by
  obtain ⟨⟨x, hx⟩, -⟩ := C39_volume df ht hq
  have h1 : y ≤ x := hx.2 ⟨q, hf, ho.symm⟩
  have h2 : x ≤ y := ((C84_volume df ht hq x).mp hx).2 ⟨t, hb.symm⟩
  exact (le_antisymm h2 h1) ▸ hx

theorem welfare_cert {df : DF} {res : ResPrices} {p y : ℚ} {q : ℕ × ℕ → ℚ} (ht : IsTable df)
    (hq : ∀ r ∈ df, 0 ≤ r.quantity) (hf : Feasible (utilityLP df res) q)
    (ho : objective (utilityLP df res) q = y) (hb : claimsAt df (valueOf df res) p = y) :
    IsOptimum (utilityLP df res) y := by
  obtain ⟨⟨x, hx⟩, -⟩ := C39_welfare df ht hq res
  have h1 : y ≤ x := hx.2 ⟨q, hf, ho.symm⟩
  have h2 : x ≤ y := ((C84_welfare df ht hq res x).mp hx).2 ⟨p, hb.symm⟩
  exact (le_antisymm h2 h1) ▸ hx

/-! `tests/test_maximum_traded_volume.py`, `tests/test_maximum_aggregated_utility.py` -/

example : IsOptimum (volumeLP dataset0) 4 :=
  volume_cert (t := 1) (q := plan [((0, 3), 1), ((1, 3), 2), ((2, 4), 1)]) (by decide +kernel)
    (by decide +kernel) (by unfold Feasible; decide +kernel) (by decide +kernel) (by decide +kernel)

example : IsOptimum (utilityLP dataset0 (fun _ => none)) 6 :=
  welfare_cert (p := 2) (q := plan [((0, 3), 1), ((1, 3), 1), ((1, 4), 1)]) (by decide +kernel)
    (by decide +kernel) (by unfold Feasible; decide +kernel) (by decide +kernel) (by decide +kernel)

/-! `tests/test_market.py`: the optima used in `Tests/Suite.lean` -/

example : IsOptimum (volumeLP (mkMarket marketBids).bm.getDf)
    (marketSolve (volumeLP (mkMarket marketBids).bm.getDf)) :=
  volume_cert (t := 5) (q := plan [((0, 6), 1), ((1, 5), 1), ((2, 4), 1)]) (by decide +kernel)
    (by decide +kernel) (by unfold Feasible; decide +kernel) (by decide +kernel) (by decide +kernel)

example : IsOptimum (utilityLP (mkMarket marketBids).bm.getDf (fun _ => none))
    (marketSolve (utilityLP (mkMarket marketBids).bm.getDf (fun _ => none))) :=
  welfare_cert (p := 5 / 2) (q := plan [((0, 4), 1), ((1, 5), 1)]) (by decide +kernel)
    (by decide +kernel) (by unfold Feasible; decide +kernel) (by decide +kernel) (by decide +kernel)

/-! The docstrings of `maximum_aggregated_utility` and `maximum_traded_volume`
(`pymarket/statistics/maximum_aggregated_utility.py:30-67`, `maximum_traded_volume.py:30-47`) -/

def docBook : DF := mkBook [(1, 3, 0, true), (1, 2, 1, true), (3 / 2, 1, 2, false)]

example : IsOptimum (utilityLP docBook (fun _ => none)) (5 / 2) :=
  welfare_cert (p := 2) (q := plan [((0, 2), 1), ((1, 2), 1 / 2)]) (by decide +kernel)
    (by decide +kernel) (by unfold Feasible; decide +kernel) (by decide +kernel) (by decide +kernel)

example : IsOptimum (utilityLP docBook (fun i => if i = 2 then some 0 else none)) 4 :=
  welfare_cert (p := 2) (q := plan [((0, 2), 1), ((1, 2), 1 / 2)]) (by decide +kernel)
    (by decide +kernel) (by unfold Feasible; decide +kernel) (by decide +kernel) (by decide +kernel)

example : IsOptimum (volumeLP docBook) (3 / 2) :=
  volume_cert (t := 3) (q := plan [((0, 2), 1), ((1, 2), 1 / 2)]) (by decide +kernel)
    (by decide +kernel) (by unfold Feasible; decide +kernel) (by decide +kernel) (by decide +kernel)

def docSolve : Solver := fun lp => if lp.coeff (0, 2) = 1 then 3 / 2 else 5 / 2

def docTrans : List Transaction := [⟨0, 1, 2, 2, false⟩, ⟨2, 1, 2, 0, false⟩]

example : percentageWelfare docSolve docBook docTrans none = some (8 / 10) := by decide +kernel

example : percentageTraded docSolve docBook docTrans = some (2 / 3) := by decide +kernel

/-- `pymarket/statistics/profits.py:43-63`. -/
example : (calculateProfits docBook docTrans (some (fun i => if i = 2 then some 0 else none)) none).1 =
    ⟨[1, 0, 1], [1, 0, 2], 0⟩ := by
  decide +kernel

end PyMarket.Tests
