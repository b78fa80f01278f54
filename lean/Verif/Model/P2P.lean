import Verif.Model.Transactions
import Verif.Model.Huang

/-! # Model of `pymarket/mechanisms/p2p_random.py`

The Boolean masks `active` and `tmp_active` over the columns of `pairs` are represented by the list
of the pairs (`pairs_inv`) whose mask entry is `True`, in column order. All pairs are distinct, so
this loses nothing: `np.where(mask)[0]` is the list of their columns, `mask &= pairs[b, :]` removes
the pairs involving bid `b`, and `active[x] = False` erases one pair.
Frames passed to the mechanism have the default index (label = position), so `quantities[b]` is the
entry of the bid labelled `b`. -/

set_option autoImplicit false

namespace PyMarket

/-- `pairs_inv` (`pymarket/mechanisms/p2p_random.py:85-93`): all pairs, buyers outermost. -/
def allPairs (bids : DF) : List (ℕ × ℕ) :=
  (buys bids).flatMap (fun b => (sells bids).map (fun s => (b.label, s.label)))

/-- `pairs[i, x]` for the column of pair `p`: `False` iff the pair involves bid `i`
(`pymarket/mechanisms/p2p_random.py:85-93`). -/
def pairFree (i : ℕ) (p : ℕ × ℕ) : Bool := decide (p.1 ≠ i) && decide (p.2 ≠ i)

/-- `tmp_active &= pairs[trade[0], :]; tmp_active &= pairs[trade[1], :]`
(`pymarket/mechanisms/p2p_random.py:108-109`). -/
def maskTrade (trade : ℕ × ℕ) (tmp : List (ℕ × ℕ)) : List (ℕ × ℕ) :=
  (tmp.filter (pairFree trade.1)).filter (pairFree trade.2)

theorem maskTrade_length_lt (trade : ℕ × ℕ) (tmp : List (ℕ × ℕ)) (hm : trade ∈ tmp) :
    (maskTrade trade tmp).length < tmp.length := by
  have h1 : (tmp.filter (pairFree trade.1)).length < tmp.length := by
    apply List.length_filter_lt_length_iff_exists.mpr
    exact ⟨trade, hm, by simp [pairFree]⟩
  exact lt_of_le_of_lt (List.length_filter_le _ _) h1

/-- The inner `while` loop (`pymarket/mechanisms/p2p_random.py:102-109`). `choice n` is the `n`-th
`r.choice`, reduced modulo the number of candidates (so every element of `where` can be chosen).
Returns the number of random draws so far, the remaining `active` mask and the round's
`trading_list`. -/
def meetLoop (choice : ℕ → ℕ) (n : ℕ) (active tmp : List (ℕ × ℕ)) :
    ℕ × List (ℕ × ℕ) × List (ℕ × ℕ) :=
  match _h : tmp[choice n % tmp.length]? with
  | none => (n, active, [])
  | some trade =>
      let r := meetLoop choice (n + 1) (active.erase trade) (maskTrade trade tmp)
      (r.1, r.2.1, trade :: r.2.2)
termination_by tmp.length
decreasing_by exact maskTrade_length_lt trade tmp (List.mem_of_getElem? _h)

/-- Function update: `quantities[i] -= q` etc. -/
def setQ (quantities : ℕ → ℚ) (i : ℕ) (v : ℚ) : ℕ → ℚ := fun j => if j = i then v else quantities j

/-- One meeting (`pymarket/mechanisms/p2p_random.py:112-124`): the new quantities and the two
transactions, buyer first. -/
def tradeOne (prices : ℕ → ℚ) (pCoef : ℚ) (quantities : ℕ → ℚ) (p : ℕ × ℕ) :
    (ℕ → ℚ) × List Transaction :=
  let b := p.1
  let s := p.2
  if prices s ≤ prices b then
    let q := min (quantities b) (quantities s)
    let pr := prices b * pCoef + (1 - pCoef) * prices s
    let tb : Transaction := ⟨b, q, pr, (s : ℤ), decide (0 < quantities b - q)⟩
    let ts : Transaction := ⟨s, q, pr, (b : ℤ), decide (0 < quantities s - q)⟩
    let q1 := setQ quantities b (quantities b - q)
    (setQ q1 s (q1 s - q), [tb, ts])
  else
    (quantities, [⟨b, 0, 0, (s : ℤ), true⟩, ⟨s, 0, 0, (b : ℤ), true⟩])

/-- The `for` loop over the round's meetings (`pymarket/mechanisms/p2p_random.py:112-124`). -/
def tradeRound (prices : ℕ → ℚ) (pCoef : ℚ) : (ℕ → ℚ) → List (ℕ × ℕ) → (ℕ → ℚ) × List Transaction
  | quantities, [] => (quantities, [])
  | quantities, p :: ps =>
      let r := tradeOne prices pCoef quantities p
      let r' := tradeRound prices pCoef r.1 ps
      (r'.1, r.2 ++ r'.2)

/-- `inactive_buying + inactive_selling` (`pymarket/mechanisms/p2p_random.py:126-127`). -/
def exhausted (bids : DF) (quantities : ℕ → ℚ) : List ℕ :=
  ((buys bids).map (fun r => r.label)).filter (fun i => decide (quantities i = 0)) ++
  ((sells bids).map (fun r => r.label)).filter (fun i => decide (quantities i = 0))

/-- `tmp_active` after masking out the given bids (`pymarket/mechanisms/p2p_random.py:129-131`). -/
def maskOut (active : List (ℕ × ℕ)) (inactive : List ℕ) : List (ℕ × ℕ) :=
  inactive.foldl (fun m i => m.filter (pairFree i)) active

theorem maskOut_sublist (active : List (ℕ × ℕ)) (inactive : List ℕ) :
    (maskOut active inactive).Sublist active := by
  induction inactive generalizing active with
  | nil => simp [maskOut]
  | cons i is ih => exact (ih (active.filter (pairFree i))).trans List.filter_sublist

theorem meetLoop_active_le (choice : ℕ → ℕ) (n : ℕ) (active tmp : List (ℕ × ℕ)) :
    (meetLoop choice n active tmp).2.1.length ≤ active.length := by
  fun_induction meetLoop choice n active tmp with
  | case1 => simp
  | case2 n active tmp trade _ r ih =>
    exact le_trans ih List.length_erase_le

theorem meetLoop_active_lt (choice : ℕ → ℕ) (n : ℕ) (active tmp : List (ℕ × ℕ))
    (hne : tmp ≠ []) (hsub : tmp ⊆ active) :
    (meetLoop choice n active tmp).2.1.length < active.length := by
  unfold meetLoop
  split
  · rename_i h
    exfalso
    rw [List.getElem?_eq_none_iff] at h
    have : 0 < tmp.length := List.length_pos_of_ne_nil hne
    exact absurd (Nat.mod_lt (choice n) this) (by omega)
  · rename_i trade h
    have hm : trade ∈ active := hsub (List.mem_of_getElem? h)
    refine lt_of_le_of_lt (meetLoop_active_le _ _ _ _) ?_
    rw [List.length_erase_of_mem hm]
    have : 0 < active.length := List.length_pos_of_mem hm
    omega

/-- The outer `while` loop (`pymarket/mechanisms/p2p_random.py:100-131`). `labels` are all bids (for
`quantities.sum()`), `inactive` the bids masked out of `active` to obtain the current `tmp_active`
(none in the first round, line 96). Returns the rounds and the transactions in order. -/
def p2pLoop (bids : DF) (prices : ℕ → ℚ) (pCoef : ℚ) (choice : ℕ → ℕ) (n : ℕ)
    (quantities : ℕ → ℚ) (active : List (ℕ × ℕ)) (inactive : List ℕ) :
    List (List (ℕ × ℕ)) × List Transaction :=
  let tmp := maskOut active inactive
  if _h : 0 < (bids.map (fun r => quantities r.label)).sum ∧ tmp ≠ [] then
    let m := meetLoop choice n active tmp
    let t := tradeRound prices pCoef quantities m.2.2
    let rest := p2pLoop bids prices pCoef choice m.1 t.1 m.2.1 (exhausted bids t.1)
    (m.2.2 :: rest.1, t.2 ++ rest.2)
  else ([], [])
termination_by active.length
decreasing_by
  exact meetLoop_active_lt choice n active _ _h.2 (maskOut_sublist active inactive).subset

/-- The price (or quantity) of the bid labelled `i`: `bids.price.values[i]`. -/
def valueAt (bids : DF) (f : Row → ℚ) (i : ℕ) : ℚ := ((bids[i]?).map f).getD 0

/-- `p2p_random` (`pymarket/mechanisms/p2p_random.py:10-134`). -/
def p2pRandom (pCoef : ℚ) (choice : ℕ → ℕ) (bids : DF) :
    Except PyErr (TransactionManager × Extra) :=
  let r := p2pLoop bids (valueAt bids (fun r => r.price)) pCoef choice 0
    (valueAt bids (fun r => r.quantity)) (allPairs bids) []
  .ok (TransactionManager.init.addAll r.2, .p2p r.1)

end PyMarket
