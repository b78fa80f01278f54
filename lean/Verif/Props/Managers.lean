import Verif.Model.Market
import Verif.Lemmas.Managers

/-! # C01, C02: the bid table and the transaction log -/

set_option autoImplicit false

namespace PyMarket

/-- A client that submits `calls` in order to a bid manager, collecting the returned ids. -/
def submitAll (bm : BidManager) : List Bid → BidManager × List ℕ
  | [] => (bm, [])
  | b :: bs =>
      let r := bm.addBid b.quantity b.price b.user b.buying b.time b.divisible
      let r' := submitAll r.1 bs
      (r'.1, r.2 :: r'.2)

theorem submitAll_from (bm : BidManager) (hbm : bm.nBids = bm.bids.length) (calls : List Bid) :
    (submitAll bm calls).2 = List.range' bm.nBids calls.length ∧
    (submitAll bm calls).1.bids = bm.bids ++ calls ∧
    (submitAll bm calls).1.nBids = bm.nBids + calls.length := by
  induction calls generalizing bm with
  | nil => simp [submitAll]
  | cons b bs ih =>
    have h := ih (bm.addBid b.quantity b.price b.user b.buying b.time b.divisible).1
      (by simp [BidManager.addBid, hbm])
    simp only [submitAll, BidManager.addBid] at h ⊢
    refine ⟨?_, ?_, ?_⟩
    · rw [h.1]; simp [List.range'_succ]
    · rw [h.2.1]; simp
    · rw [h.2.2]; simp; omega

/-- **C01.** The `k`-th `add_bid` on a new manager returns `k`; the table then has exactly one row
per call, the `k`-th row being the `k`-th call's values labelled `k`. -/
theorem C01_bid_ids_and_log (calls : List Bid) :
    (submitAll BidManager.init calls).2 = List.range calls.length ∧
    (submitAll BidManager.init calls).1.getDf = Spec.table calls := by
  have h := submitAll_from BidManager.init rfl calls
  refine ⟨?_, ?_⟩
  · rw [h.1, List.range_eq_range']; rfl
  · rw [BidManager.getDf, h.2.1, labelFrom_eq_zipIdx]; rfl

/-- **C01, append-only part.** Whatever is submitted later, the row of an earlier bid, read through
`get_df` at any later time, is the submitted bid under the id that was returned for it. -/
theorem C01_append_only (earlier later : List Bid) (b : Bid) :
    let s₁ := (submitAll BidManager.init earlier).1
    let r := s₁.addBid b.quantity b.price b.user b.buying b.time b.divisible
    (submitAll r.1 later).1.getDf[r.2]? = some { toBid := b, label := r.2 } := by
  intro s₁ r
  have h₁ := submitAll_from BidManager.init rfl earlier
  have hn : s₁.nBids = s₁.bids.length := by
    show (submitAll BidManager.init earlier).1.nBids = _
    rw [h₁.2.2, h₁.2.1]; simp [BidManager.init]
  have hr : r.1.nBids = r.1.bids.length := by simp [r, BidManager.addBid, hn]
  have h := submitAll_from r.1 hr later
  have hid : r.2 = s₁.bids.length := by simp [r, BidManager.addBid, hn]
  rw [BidManager.getDf, h.2.1, labelFrom_getElem?, hid]
  simp [r, BidManager.addBid]

/-- **C01, defaults.** Omitted arguments mean a buying bid at time `0` that is divisible. -/
theorem C01_defaults (bm : BidManager) (q p : ℚ) (u : ℤ) :
    (bm.addBid q p u).1.bids.getLast? = some ⟨q, p, u, true, 0, true⟩ := by
  simp [BidManager.addBid]

/-- **C01 through the market.** `Market.accept_bid` returns the same ids and produces the same
table, without touching transactions or extra information. -/
theorem C01_market_accept (m : Market) (b : Bid) (h : m.bm.nBids = m.bm.bids.length) :
    let r := m.acceptBid b.quantity b.price b.user b.buying b.time b.divisible
    r.2 = m.bm.bids.length ∧
    r.1.bm.getDf = m.bm.getDf ++ [{ toBid := b, label := m.bm.bids.length }] ∧
    r.1.transactions = m.transactions ∧ r.1.extra = m.extra := by
  refine ⟨?_, ?_, rfl, rfl⟩
  · simp [Market.acceptBid, BidManager.addBid, h]
  · simp [Market.acceptBid, BidManager.addBid, BidManager.getDf, labelFrom_eq_zipIdx,
      List.zipIdx_append]

/-- Non-vacuity: three submissions, two of them by the same user. -/
example : (submitAll BidManager.init
      [⟨1, 3, 7, true, 0, true⟩, ⟨2, 1, 7, false, 5, false⟩, ⟨1, 3, 7, true, 0, true⟩]).2
    = [0, 1, 2] := by decide +kernel

/-- A client adding transactions in order, collecting the returned ids. -/
def logAll (tm : TransactionManager) : List Transaction → TransactionManager × List ℕ
  | [] => (tm, [])
  | t :: ts =>
      let r := tm.addTransaction t
      let r' := logAll r.1 ts
      (r'.1, r.2 :: r'.2)

theorem logAll_from (tm : TransactionManager) (htm : tm.nTrans = tm.trans.length)
    (ts : List Transaction) :
    (logAll tm ts).2 = List.range' tm.nTrans ts.length ∧
    (logAll tm ts).1.trans = tm.trans ++ ts ∧
    (logAll tm ts).1.nTrans = tm.nTrans + ts.length := by
  induction ts generalizing tm with
  | nil => simp [logAll]
  | cons t ts ih =>
    have h := ih (tm.addTransaction t).1 (by simp [TransactionManager.addTransaction, htm])
    simp only [logAll, TransactionManager.addTransaction] at h ⊢
    refine ⟨?_, ?_, ?_⟩
    · rw [h.1]; simp [List.range'_succ]
    · rw [h.2.1]; simp
    · rw [h.2.2]; simp; omega

/-- **C02.** Ids are consecutive and the table is the log in insertion order. -/
theorem C02_log (ts : List Transaction) :
    (logAll TransactionManager.init ts).2 = List.range ts.length ∧
    (logAll TransactionManager.init ts).1.getDf = ts := by
  have h := logAll_from TransactionManager.init rfl ts
  refine ⟨?_, ?_⟩
  · rw [h.1, List.range_eq_range']; rfl
  · rw [TransactionManager.getDf, h.2.1]; rfl

/-- **C02, merge.** For any two histories of additions, the merged log is the concatenation, and the
next id handed out by the merged manager is the number of its entries (counter in step with the
log). -/
theorem C02_merge (ts us : List Transaction) (next : Transaction) :
    let a := (logAll TransactionManager.init ts).1
    let b := (logAll TransactionManager.init us).1
    (a.merge b).getDf = ts ++ us ∧
    ((a.merge b).addTransaction next).2 = ts.length + us.length ∧
    a.getDf = ts ∧ b.getDf = us := by
  intro a b
  have ha : a.trans = ts := (C02_log ts).2
  have hb : b.trans = us := (C02_log us).2
  refine ⟨?_, ?_, ha, hb⟩
  · rw [TransactionManager.getDf, TransactionManager.merge_trans, ha, hb]
  · simp [TransactionManager.addTransaction, TransactionManager.merge_nTrans, ha, hb]

/-- Non-vacuity: merging logs of length two and one. -/
example :
    ((logAll TransactionManager.init [⟨0, 1, 2, 1, true⟩, ⟨1, 1, 2, 0, false⟩]).1.merge
      (logAll TransactionManager.init [⟨4, 3, 2, -1, false⟩]).1).getDf
    = [⟨0, 1, 2, 1, true⟩, ⟨1, 1, 2, 0, false⟩, ⟨4, 3, 2, -1, false⟩] := by decide +kernel

end PyMarket
