import Verif.Model.Float
import Verif.Model.P2P

/-! # `pymarket/mechanisms/p2p_random.py` in floating point arithmetic

The definitions of `Verif/Model/P2P.lean` with every arithmetic operation rounded; the choice of the
meetings involves no arithmetic and is shared. -/

set_option autoImplicit false

namespace PyMarket

/-- One meeting (`pymarket/mechanisms/p2p_random.py:112-124`). -/
def tradeOneF (F : Arith) (prices : ℕ → ℚ) (pCoef : ℚ) (quantities : ℕ → ℚ) (p : ℕ × ℕ) :
    (ℕ → ℚ) × List Transaction :=
  let b := p.1
  let s := p.2
  if prices s ≤ prices b then
    let q := min (quantities b) (quantities s)
    let pr := F.rnd (F.rnd (prices b * pCoef) + F.rnd (F.rnd (1 - pCoef) * prices s))
    let tb : Transaction := ⟨b, q, pr, (s : ℤ), decide (0 < F.rnd (quantities b - q))⟩
    let ts : Transaction := ⟨s, q, pr, (b : ℤ), decide (0 < F.rnd (quantities s - q))⟩
    let q1 := setQ quantities b (F.rnd (quantities b - q))
    (setQ q1 s (F.rnd (q1 s - q)), [tb, ts])
  else
    (quantities, [⟨b, 0, 0, (s : ℤ), true⟩, ⟨s, 0, 0, (b : ℤ), true⟩])

/-- The `for` loop over the round's meetings (`pymarket/mechanisms/p2p_random.py:112-124`). -/
def tradeRoundF (F : Arith) (prices : ℕ → ℚ) (pCoef : ℚ) :
    (ℕ → ℚ) → List (ℕ × ℕ) → (ℕ → ℚ) × List Transaction
  | quantities, [] => (quantities, [])
  | quantities, p :: ps =>
      let r := tradeOneF F prices pCoef quantities p
      let r' := tradeRoundF F prices pCoef r.1 ps
      (r'.1, r.2 ++ r'.2)

/-- The outer `while` loop (`pymarket/mechanisms/p2p_random.py:100-131`); `s.sum` is
`quantities.sum()`. -/
def p2pLoopF (F : Arith) (s : Summer F) (bids : DF) (prices : ℕ → ℚ) (pCoef : ℚ) (choice : ℕ → ℕ)
    (n : ℕ) (quantities : ℕ → ℚ) (active : List (ℕ × ℕ)) (inactive : List ℕ) :
    List (List (ℕ × ℕ)) × List Transaction :=
  let tmp := maskOut active inactive
  if _h : 0 < s.sum (bids.map (fun r => quantities r.label)) ∧ tmp ≠ [] then
    let m := meetLoop choice n active tmp
    let t := tradeRoundF F prices pCoef quantities m.2.2
    let rest := p2pLoopF F s bids prices pCoef choice m.1 t.1 m.2.1 (exhausted bids t.1)
    (m.2.2 :: rest.1, t.2 ++ rest.2)
  else ([], [])
termination_by active.length
decreasing_by
  exact meetLoop_active_lt choice n active _ _h.2 (maskOut_sublist active inactive).subset

/-- `p2p_random` (`pymarket/mechanisms/p2p_random.py:10-134`). -/
def p2pRandomF (F : Arith) (s : Summer F) (pCoef : ℚ) (choice : ℕ → ℕ) (bids : DF) :
    Except PyErr (TransactionManager × Extra) :=
  let r := p2pLoopF F s bids (valueAt bids (fun r => r.price)) pCoef choice 0
    (valueAt bids (fun r => r.quantity)) (allPairs bids) []
  .ok (TransactionManager.init.addAll r.2, .p2p r.1)

end PyMarket
