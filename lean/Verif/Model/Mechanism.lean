import Verif.Model.Processing
import Verif.Model.Huang
import Verif.Model.Muda
import Verif.Model.P2P

/-! # Model of `pymarket/mechanisms/mechanism.py` and the dispatch of `Market.run` -/

set_option autoImplicit false

namespace PyMarket

/-- An algorithm in the sense of `Mechanism.algo` (`pymarket/mechanisms/mechanism.py:17-18`), with
its extra arguments already applied. -/
abbrev Algo := DF → Except PyErr (TransactionManager × Extra)

/-- `Mechanism._run` (`pymarket/mechanisms/mechanism.py:130-139`). -/
def mechRun (algo : Algo) (bids : DF) : Except PyErr (TransactionManager × Extra) :=
  let N := bids.length
  let nb := (buys bids).length
  if nb ≠ 0 ∧ nb ≠ N then algo bids
  else .ok (TransactionManager.init, .empty)

/-- `Mechanism.__init__` + `Mechanism.run` (`pymarket/mechanisms/mechanism.py:72-174`): sanitise
(merge), run, clean up (split). -/
def mechanism (smp : Sampler) (merge : Bool) (algo : Algo) (bids : DF) :
    Except PyErr (TransactionManager × Extra) :=
  if merge then do
    let (newBids, maping) ← mergeSamePrice smp bids
    let (tm, extra) ← mechRun algo newBids
    let tm' ← splitTransactions tm bids maping
    .ok (tm', extra)
  else mechRun algo bids

/-- The `algo` argument of `Market.run` with its keyword arguments
(`pymarket/market.py:8-12,120-155`). `merge` may be passed for `muda` and `p2p`
(`pymarket/mechanisms/mechanism.py:72`); `huang` always merges
(`pymarket/mechanisms/huang_auction.py:225-231`). `other` is a name not in `MECHANISM`. -/
inductive AlgoCall where
  | huang
  | muda (merge : Bool) (coin : ℕ → Bool)
  | p2p (merge : Bool) (pCoef : ℚ) (choice : ℕ → ℕ)
  | other (name : String)

/-- `MECHANISM[algo](df, *args, **kwargs).run()` (`pymarket/market.py:150-152`). -/
def runAlgo (S : Sorter) (smp : Sampler) (call : AlgoCall) (bids : DF) :
    Except PyErr (TransactionManager × Extra) :=
  match call with
  | .huang => mechanism smp true (huangAuction S) bids
  | .muda merge coin => mechanism smp merge (muda S coin) bids
  | .p2p merge pCoef choice => mechanism smp merge (p2pRandom pCoef choice) bids
  | .other _ => .error .keyError

end PyMarket
