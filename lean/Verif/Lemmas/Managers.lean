import Verif.Model.Bids
import Verif.Model.Transactions
import Verif.Spec.Basic

/-! # Lemmas about the bid and transaction managers -/

set_option autoImplicit false

namespace PyMarket

theorem labelFrom_eq_zipIdx (n : ℕ) (bs : List Bid) :
    labelFrom n bs = (bs.zipIdx n).map (fun p => { toBid := p.1, label := p.2 }) := by
  induction bs generalizing n with
  | nil => rfl
  | cons b bs ih => simp [labelFrom, ih]

theorem labelFrom_length (n : ℕ) (bs : List Bid) : (labelFrom n bs).length = bs.length := by
  simp [labelFrom_eq_zipIdx]

theorem labelFrom_getElem? (n : ℕ) (bs : List Bid) (k : ℕ) :
    (labelFrom n bs)[k]? = (bs[k]?).map (fun b => { toBid := b, label := n + k }) := by
  rw [labelFrom_eq_zipIdx, List.getElem?_map, List.getElem?_zipIdx]
  simp [Option.map_map, Function.comp_def]

theorem labelFrom_label {n : ℕ} {bs : List Bid} {k : ℕ} {r : Row}
    (h : (labelFrom n bs)[k]? = some r) : r.label = n + k := by
  rw [labelFrom_getElem?] at h
  rw [Option.map_eq_some_iff] at h
  obtain ⟨b, _, rfl⟩ := h
  rfl

theorem labelFrom_map_label (n : ℕ) (bs : List Bid) :
    (labelFrom n bs).map (fun r => r.label) = List.range' n bs.length := by
  induction bs generalizing n with
  | nil => rfl
  | cons b bs ih => simp [labelFrom, ih, List.range'_succ]

theorem labelFrom_map_toBid (n : ℕ) (bs : List Bid) :
    (labelFrom n bs).map (fun r => r.toBid) = bs := by
  induction bs generalizing n with
  | nil => rfl
  | cons b bs ih => simp [labelFrom, ih]

namespace TransactionManager

/-- The counter of a manager agrees with its log. -/
def Ok (tm : TransactionManager) : Prop := tm.nTrans = tm.trans.length

theorem init_ok : Ok init := rfl

theorem addAll_trans (tm : TransactionManager) (ts : List Transaction) :
    (tm.addAll ts).trans = tm.trans ++ ts := by
  induction ts generalizing tm with
  | nil => simp [addAll]
  | cons t ts ih => simp [addAll, ih, addTransaction]

theorem addAll_nTrans (tm : TransactionManager) (ts : List Transaction) :
    (tm.addAll ts).nTrans = tm.nTrans + ts.length := by
  induction ts generalizing tm with
  | nil => simp [addAll]
  | cons t ts ih => simp [addAll, ih, addTransaction]; omega

@[simp] theorem init_addAll_trans (ts : List Transaction) : (init.addAll ts).trans = ts := by
  simp [addAll_trans, init]

theorem merge_trans (a b : TransactionManager) : (a.merge b).trans = a.trans ++ b.trans := by
  simp [merge, addAll_trans, init]

theorem merge_nTrans (a b : TransactionManager) :
    (a.merge b).nTrans = a.trans.length + b.trans.length := by
  simp [merge, addAll_nTrans, init]

end TransactionManager

end PyMarket
