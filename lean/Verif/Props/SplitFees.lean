import Verif.Props.Merge

/-! # C62: splitting transactions together with fees -/

set_option autoImplicit false

namespace PyMarket

open Spec

/-- The member count of the group of a transaction. -/
def Spec.groupSize (mp : List (List ℕ)) (t : Transaction) : ℕ := ((mp[t.bid]?).getD []).length

theorem members_facts {bids : DF} {ids : List ℕ} (h : ∀ i ∈ ids, i < bids.length) :
    (ids.filterMap (fun i => bids[i]?)).length = ids.length ∧
    qsum (ids.filterMap (fun i => bids[i]?)) = (ids.map (qtyOf bids)).sum := by
  induction ids with
  | nil => exact ⟨rfl, rfl⟩
  | cons i ids ih =>
    have hi := List.getElem?_eq_getElem (h i List.mem_cons_self)
    obtain ⟨h1, h2⟩ := ih (fun j hj => h j (List.mem_cons_of_mem _ hj))
    unfold qsum at h2 ⊢
    simp only [List.filterMap_cons, hi, List.length_cons, h1, List.map_cons, List.sum_cons, h2,
      qtyOf, Option.map_some, Option.getD_some, and_self]

theorem splitOneFees_single {bids : DF} {mp : List (List ℕ)} {t : Transaction}
    (h : ¬ 1 < groupSize mp t) : splitOneFees bids mp t = splitOne bids mp t := by
  unfold splitOneFees
  unfold groupSize at h
  cases hm : mp[t.bid]? with
  | none => simp only [splitOne, hm]
  | some rows =>
    rw [hm, Option.getD_some] at h
    simp only
    split
    · rename_i hl
      simp only [splitOne, hm]
      rw [if_pos hl]
    · rfl

theorem splitAllFees_single {bids : DF} {mp : List (List ℕ)} {ts : List Transaction}
    (h : ∀ t ∈ ts, ¬ 1 < groupSize mp t) : splitAllFees bids mp ts = splitAll bids mp ts := by
  induction ts with
  | nil => rfl
  | cons t ts ih =>
    unfold splitAllFees splitAll
    rw [splitOneFees_single (h t List.mem_cons_self),
      ih (fun t ht => h t (List.mem_cons_of_mem _ ht))]

theorem splitAllFees_merged {bids : DF} {mp : List (List ℕ)} {ts : List Transaction}
    (hs : Splittable bids mp ts) (h : ∃ t ∈ ts, 1 < groupSize mp t) :
    splitAllFees bids mp ts = .error .attributeError := by
  induction ts with
  | nil => obtain ⟨t, ht, _⟩ := h; cases ht
  | cons t ts ih =>
    unfold splitAllFees
    obtain ⟨ids, hm, hlt, hpos⟩ := hs t List.mem_cons_self
    have hlen := (members_facts hlt).1
    by_cases hg : 1 < groupSize mp t
    · have : splitOneFees bids mp t = .error .attributeError := by
        unfold splitOneFees
        unfold groupSize at hg
        rw [hm] at hg ⊢
        simp only
        rw [if_neg (by rw [hlen]; simp), if_pos (by simpa using hg)]
      rw [this]
      rfl
    · have hone : ∃ r, splitOneFees bids mp t = .ok r := by
        rw [splitOneFees_single hg]
        unfold splitOne
        rw [hm]
        simp only
        rw [if_neg (by rw [hlen]; simp), if_neg]
        · exact ⟨_, rfl⟩
        · rintro ⟨h0, _⟩
          have e := (members_facts hlt).2
          rw [e] at h0
          linarith
      obtain ⟨r, hr⟩ := hone
      have hrest : ∃ t' ∈ ts, 1 < groupSize mp t' := by
        obtain ⟨t', ht', hg'⟩ := h
        rcases List.mem_cons.mp ht' with rfl | ht'
        · exact absurd hg' hg
        · exact ⟨t', ht', hg'⟩
      simp only [hr, bind, Except.bind,
        ih (fun t ht => hs t (List.mem_cons_of_mem _ ht)) hrest]

/-- C62: a merged bid's fee is handed on to its members, in proportion to their quantities. `owner k`
is the user of the merged bid `k`; the fee of a user who owns no merged bid is kept. -/
def Spec.SplitsFees (owner : ℕ → ℤ) (mp : List (List ℕ)) (bids : DF) (ts : List Transaction)
    (fees fees' : List (ℤ × ℚ)) : Prop :=
  ∀ t ∈ ts, 1 < groupSize mp t → ∀ x, (owner t.bid, x) ∈ fees →
    ∀ i ∈ (mp[t.bid]?).getD [], ∀ r, bids[i]? = some r →
      (r.user, x * (r.quantity / (((mp[t.bid]?).getD []).map (qtyOf bids)).sum)) ∈ fees'

/-- **C62 fails.** Users 0 and 1 merged into user 2 with a transaction and a fee of 3: the call with a
fee dictionary raises `AttributeError`, although the call without one succeeds. -/
theorem C62_refuted : ¬ ∀ owner bids mp tm fees, IsTable bids → Splittable bids mp tm.trans →
    ∃ tm' fees', splitTransactionsFees tm bids mp fees = .ok (tm', fees') ∧
      splitTransactions tm bids mp = .ok tm' ∧ SplitsFees owner mp bids tm.trans fees fees' := by
  intro h
  obtain ⟨tm', fees', h1, _⟩ := h (fun _ => 2)
    (labelFrom 0 [⟨1, 1, 0, true, 0, true⟩, ⟨2, 1, 1, true, 0, true⟩]) [[0, 1]]
    ⟨1, [⟨0, 1, 1, -1, false⟩]⟩ [(2, 3)] (by decide +kernel) (by
      intro t ht
      simp only [List.mem_singleton] at ht
      subst ht
      exact ⟨[0, 1], rfl, by decide, by decide +kernel⟩)
  have : splitTransactionsFees ⟨1, [⟨0, 1, 1, -1, false⟩]⟩
      (labelFrom 0 [⟨1, 1, 0, true, 0, true⟩, ⟨2, 1, 1, true, 0, true⟩]) [[0, 1]] [(2, 3)] =
      .error .attributeError := by decide +kernel
  rw [this] at h1
  cases h1

/-- **C62, partial and exactly.** With a fee dictionary the call raises `AttributeError` as soon as one
merged bid has a transaction; otherwise it returns what the call without fees returns, and the fees
as they were — which is what the claim asks for in that case. -/
theorem C62_fees_partial (owner : ℕ → ℤ) (bids : DF) (mp : List (List ℕ)) (tm : TransactionManager)
    (fees : List (ℤ × ℚ)) (hs : Splittable bids mp tm.trans) :
    ((∃ t ∈ tm.trans, 1 < groupSize mp t) →
      splitTransactionsFees tm bids mp fees = .error .attributeError) ∧
    ((∀ t ∈ tm.trans, ¬ 1 < groupSize mp t) →
      ∃ tm', splitTransactionsFees tm bids mp fees = .ok (tm', fees) ∧
        splitTransactions tm bids mp = .ok tm' ∧ SplitsFees owner mp bids tm.trans fees fees) := by
  constructor
  · intro h
    unfold splitTransactionsFees
    rw [TransactionManager.getDf, splitAllFees_merged hs h]
    rfl
  · intro h
    obtain ⟨tm', e, _⟩ := C36_split bids mp tm hs
    refine ⟨tm', ?_, e, fun t ht hg => absurd hg (h t ht)⟩
    unfold splitTransactions at e
    unfold splitTransactionsFees
    rw [TransactionManager.getDf] at e ⊢
    rw [splitAllFees_single h]
    cases ha : splitAll bids mp tm.trans with
    | error x => rw [ha] at e; cases e
    | ok ts =>
      rw [ha] at e
      simp only [bind, Except.bind] at e ⊢
      cases e
      rfl

/-- Both cases occur: unmerged bids are relabelled and the fees returned unchanged. -/
example : splitTransactionsFees ⟨1, [⟨0, 1, 1, -1, false⟩]⟩
    (labelFrom 0 [⟨1, 1, 0, true, 0, true⟩, ⟨2, 1, 1, true, 0, true⟩]) [[1], [0]] [(1, 3)] =
    .ok (⟨1, [⟨1, 1, 1, -1, false⟩]⟩, [(1, 3)]) := by decide +kernel

end PyMarket
