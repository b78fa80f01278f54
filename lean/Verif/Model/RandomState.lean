import Verif.Model.P2P
import Verif.Model.Muda
import Verif.Model.Datasets

/-! # Model of `np.random.RandomState` as the library uses it

The mechanisms draw with `r.rand()` (`pymarket/mechanisms/muda_auction.py:106`) and `r.choice(where)`
(`pymarket/mechanisms/p2p_random.py:104`), the generator of bids with `r.choice(_, q, replace=False)`
(`pymarket/datasets/uniform_bidders.py:64-65`), where `r` is a `np.random.RandomState`. NumPy is not part
of the repository; its algorithms for these calls are modelled here from its documented behaviour (the
stream of a `RandomState` is frozen). A generator is the list of the 32-bit words that the Mersenne
twister is going to produce; `none` means that more words are needed than the list has. -/

set_option autoImplicit false

namespace PyMarket

/-- The smallest mask of the form `2^b - 1` that covers `m > 0`. NumPy computes it by or-ing shifted
copies of `m`. -/
def bitMask (m : ℕ) : ℕ := 2 ^ (Nat.log2 m + 1) - 1

/-- Masked rejection sampling: words are masked until the result is at most `m`. -/
def reject (m : ℕ) : List ℕ → Option (ℕ × List ℕ)
  | [] => none
  | w :: ws => if w &&& bitMask m ≤ m then some (w &&& bitMask m, ws) else reject m ws

/-- A number from `0, …, m`; no word is used for `m = 0`. `r.choice(where)` is
`where[r.randint(0, len(where))]`, which draws with `m = len(where) - 1`. -/
def interval (m : ℕ) (ws : List ℕ) : Option (ℕ × List ℕ) :=
  if m = 0 then some (0, ws) else reject m ws

/-- The 53-bit number `k` such that `r.rand()` returns `k / 2^53`, from two words. -/
def randBits (a b : ℕ) : ℕ := (a >>> 5) * 2 ^ 26 + (b >>> 6)

/-- `r.rand()`. All values are representable, so there is no rounding. -/
def randFrom : List ℕ → Option (ℚ × List ℕ)
  | a :: b :: ws => some ((randBits a b : ℚ) / 2 ^ 53, ws)
  | _ => none

/-- `n` times `r.rand() > 0.5` (`pymarket/mechanisms/muda_auction.py:106`). -/
def coinsFrom : ℕ → List ℕ → Option (List Bool × List ℕ)
  | 0, ws => some ([], ws)
  | n + 1, ws => do
      let (x, ws') ← randFrom ws
      let (cs, ws'') ← coinsFrom n ws'
      some (decide (1 / 2 < x) :: cs, ws'')

/-- Exchange two entries. -/
def swapAt (l : List ℕ) (i j : ℕ) : List ℕ := (l.set i (l.getD j 0)).set j (l.getD i 0)

/-- The loop of `shuffle`: entry `i` is exchanged with entry `j ≤ i`, for `i` from the last to 1. -/
def shuffleFrom : ℕ → List ℕ → List ℕ → Option (List ℕ × List ℕ)
  | 0, l, ws => some (l, ws)
  | i + 1, l, ws => do
      let (j, ws') ← interval (i + 1) ws
      shuffleFrom i (swapAt l (i + 1) j) ws'

/-- The positions chosen by `r.choice(_, q, replace=False)` from `n` candidates: the first `q` entries of
`r.permutation(n)`. -/
def choosePositions (n q : ℕ) (ws : List ℕ) : Option (List ℕ × List ℕ) := do
  let (l, ws') ← shuffleFrom (n - 1) (List.range n) ws
  some (l.take q, ws')

/-- The inner `while` loop of `p2p_random` (`pymarket/mechanisms/p2p_random.py:102-109`) with a
generator. -/
def meetLoopR (ws : List ℕ) (active tmp : List (ℕ × ℕ)) :
    Option (List ℕ × List (ℕ × ℕ) × List (ℕ × ℕ)) :=
  if tmp = [] then some (ws, active, [])
  else do
    let (x, ws') ← interval (tmp.length - 1) ws
    match _h : tmp[x]? with
    | none => none
    | some trade =>
        let (ws'', active', rd) ← meetLoopR ws' (active.erase trade) (maskTrade trade tmp)
        some (ws'', active', trade :: rd)
termination_by tmp.length
decreasing_by exact maskTrade_length_lt trade tmp (List.mem_of_getElem? _h)

/-- The outer `while` loop of `p2p_random` (`pymarket/mechanisms/p2p_random.py:100-131`) with a
generator. The first argument bounds the number of rounds; every round uses up a pair. -/
def p2pLoopR (bids : DF) (prices : ℕ → ℚ) (pCoef : ℚ) : ℕ → List ℕ → (ℕ → ℚ) → List (ℕ × ℕ) → List ℕ →
    Option (List (List (ℕ × ℕ)) × List Transaction × List ℕ)
  | 0, ws, _, _, _ => some ([], [], ws)
  | fuel + 1, ws, quantities, active, inactive =>
      let tmp := maskOut active inactive
      if 0 < (bids.map (fun r => quantities r.label)).sum ∧ tmp ≠ [] then do
        let (ws', active', rd) ← meetLoopR ws active tmp
        let t := tradeRound prices pCoef quantities rd
        let (R, ts, ws'') ← p2pLoopR bids prices pCoef fuel ws' t.1 active' (exhausted bids t.1)
        some (rd :: R, t.2 ++ ts, ws'')
      else some ([], [], ws)

/-- `p2p_random` (`pymarket/mechanisms/p2p_random.py:10-134`) with a generator: the result and the words
left over. -/
def p2pFrom (pCoef : ℚ) (ws : List ℕ) (bids : DF) : Option (TransactionManager × Extra × List ℕ) := do
  let (R, ts, ws') ← p2pLoopR bids (valueAt bids (fun r => r.price)) pCoef (allPairs bids).length ws
    (valueAt bids (fun r => r.quantity)) (allPairs bids) []
  some (TransactionManager.init.addAll ts, .p2p R, ws')

/-- `muda` (`pymarket/mechanisms/muda_auction.py:13-127`) with a generator: one `r.rand()` per bid. -/
def mudaFrom (S : Sorter) (ws : List ℕ) (bids : DF) :
    Option (Except PyErr (TransactionManager × Extra) × List ℕ) :=
  if checkEqualPriceRaises bids then some (.error .notImplementedError, ws)
  else do
    let (cs, ws') ← coinsFrom bids.length ws
    some (mudaBody S (fun k => cs.getD k false) bids, ws')

/-- `generate` (`pymarket/datasets/uniform_bidders.py:4-70`) with a generator. -/
def generateFrom (ws : List ℕ) (cantBuyers cantSellers : ℕ) (offsetSellers offsetBuyers eps : ℚ) :
    Option (Except PyErr (List Bid) × List ℕ) :=
  match adjustEps cantBuyers cantSellers eps with
  | .error e => some (.error e, ws)
  | .ok eps =>
    let range := arange01 eps
    if range.length < cantBuyers then some (.error .valueError, ws)
    else do
      let (qb, ws1) ← choosePositions range.length cantBuyers ws
      let (vb, ws2) ← choosePositions range.length cantBuyers ws1
      if range.length < cantSellers then some (.error .valueError, ws2)
      else do
        let (qs, ws3) ← choosePositions range.length cantSellers ws2
        let (vs, ws4) ← choosePositions range.length cantSellers ws3
        some (.ok (sideBids true 0 (takeIdx range qb)
            (takeIdx (range.map (fun x => x + offsetBuyers)) vb) ++
          sideBids false cantBuyers (takeIdx range qs)
            (takeIdx (range.map (fun x => x + offsetSellers)) vs)), ws4)

/-! ## The Mersenne twister -/

/-- The words of the state after `RandomState(seed)`, from the `i`-th on: `x` is the `i`-th word. -/
def mtInitFrom (i x : ℕ) : ℕ → List ℕ
  | 0 => []
  | n + 1 => x :: mtInitFrom (i + 1) ((1812433253 * (x ^^^ (x >>> 30)) + (i + 1)) % 2 ^ 32) n

/-- The state after `RandomState(seed)`. -/
def mtInit (seed : ℕ) : List ℕ := mtInitFrom 0 (seed % 2 ^ 32) 624

/-- The next word of the recurrence, from the last 624 words. -/
def mtNext (l : List ℕ) : ℕ :=
  let y := (l.getD 0 0 &&& 0x80000000) ||| (l.getD 1 0 &&& 0x7fffffff)
  l.getD 397 0 ^^^ (y >>> 1) ^^^ (if y % 2 = 1 then 0x9908b0df else 0)

/-- The output transformation. -/
def temper (x : ℕ) : ℕ :=
  let x := x ^^^ (x >>> 11)
  let x := x ^^^ ((x <<< 7) &&& 0x9d2c5680)
  let x := x ^^^ ((x <<< 15) &&& 0xefc60000)
  x ^^^ (x >>> 18)

/-- The next `n` outputs. -/
def mtStream : ℕ → List ℕ → List ℕ
  | 0, _ => []
  | n + 1, l => temper (mtNext l) :: mtStream n (l.tail ++ [mtNext l])

/-- The first `n` words of `RandomState(seed)`. -/
def randomWords (seed n : ℕ) : List ℕ := mtStream n (mtInit seed)

end PyMarket
