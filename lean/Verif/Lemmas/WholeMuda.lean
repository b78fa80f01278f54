import Verif.Lemmas.Whole

/-! # MUDA on whole quantities and whole prices -/

set_option autoImplicit false

namespace PyMarket

/-- `x` is an integral multiple of `g`. -/
def Spec.ZMultiple (g x : ℚ) : Prop := ∃ k : ℤ, x = k * g

open Spec

variable {A : Arith} {g h : ℚ} {M P : ℕ}

theorem Spec.Multiple.toInt {x : ℚ} (hx : Multiple g x) : ZMultiple g x := by
  obtain ⟨k, rfl⟩ := hx; exact ⟨k, by simp⟩

theorem Spec.ZMultiple.add {x y : ℚ} (hx : ZMultiple g x) (hy : ZMultiple g y) : ZMultiple g (x + y) := by
  obtain ⟨k, rfl⟩ := hx; obtain ⟨l, rfl⟩ := hy
  exact ⟨k + l, by push_cast; ring⟩

theorem Spec.ZMultiple.sub {x y : ℚ} (hx : ZMultiple g x) (hy : ZMultiple g y) : ZMultiple g (x - y) := by
  obtain ⟨k, rfl⟩ := hx; obtain ⟨l, rfl⟩ := hy
  exact ⟨k - l, by push_cast; ring⟩

theorem Spec.ZMultiple.mul {x y : ℚ} (hx : ZMultiple h x) (hy : ZMultiple g y) :
    ZMultiple (h * g) (x * y) := by
  obtain ⟨k, rfl⟩ := hx; obtain ⟨l, rfl⟩ := hy
  exact ⟨k * l, by push_cast; ring⟩

theorem Spec.ZMultiple.sum {l : List ℚ} (hl : ∀ x ∈ l, ZMultiple g x) : ZMultiple g l.sum := by
  induction l with
  | nil => exact ⟨0, by simp⟩
  | cons a l ih =>
    rw [List.sum_cons]
    exact (hl a List.mem_cons_self).add (ih (fun x hx => hl x (List.mem_cons_of_mem _ hx)))

theorem Spec.ExactOn.rnd_int (hA : ExactOn A g M) {x : ℚ} (hx : ZMultiple g x) (hM : |x| ≤ M * g) :
    A.rnd x = x := by
  obtain ⟨k, rfl⟩ := hx
  refine hA.2 k ?_
  rw [abs_mul, abs_of_pos hA.1] at hM
  have := le_of_mul_le_mul_right hM hA.1
  exact_mod_cast this

theorem abs_sum_le_sum_abs (l : List ℚ) : |l.sum| ≤ (l.map (fun x => |x|)).sum := by
  induction l with
  | nil => simp
  | cons a l ih =>
    simp only [List.sum_cons, List.map_cons]
    exact (abs_add_le a l.sum).trans (by linarith)

theorem sum_abs_nonneg (l : List ℚ) : 0 ≤ (l.map (fun x => |x|)).sum :=
  (abs_nonneg _).trans (abs_sum_le_sum_abs l)

theorem IsFSum.whole_int (hA : ExactOn A g M) {l : List ℚ} {v : ℚ} (hv : IsFSum A l v)
    (hl : ∀ x ∈ l, ZMultiple g x) (hM : (l.map (fun x => |x|)).sum ≤ M * g) : v = l.sum := by
  induction hv with
  | nil => rfl
  | one x => simp
  | @add l m a b _ _ _ _ iha ihb =>
    have h1 : ∀ x ∈ l, ZMultiple g x := fun x hx => hl x (List.mem_append_left _ hx)
    have h2 : ∀ x ∈ m, ZMultiple g x := fun x hx => hl x (List.mem_append_right _ hx)
    rw [List.map_append, List.sum_append] at hM
    have n1 := sum_abs_nonneg l
    have n2 := sum_abs_nonneg m
    rw [iha h1 (by linarith), ihb h2 (by linarith), List.sum_append]
    refine hA.rnd_int ((ZMultiple.sum h1).add (ZMultiple.sum h2)) ?_
    have := abs_add_le l.sum m.sum
    have := abs_sum_le_sum_abs l
    have := abs_sum_le_sum_abs m
    linarith
  | perm hp _ ih =>
    rw [ih (fun x hx => hl x (hp.subset hx)) (by rw [(hp.map _).sum_eq]; exact hM), hp.sum_eq]

/-! ## `get_trading_bids` -/

theorem lastIndexF_whole (hA : ExactOn A g M) (s : Summer A) {l : List ℚ} (hl : Whole g M l) (Q : ℚ) :
    lastIndexF A s l Q = lastIndex l Q := by
  unfold lastIndexF lastIndex
  rw [s.whole hA hl, cumsumF_whole hA hl]

theorem getTradingBidsF_whole (hA : ExactOn A g M) (s : Summer A) {rows : DF} (hb : WholeBook g M rows)
    {Q : ℚ} (hQ : Multiple g Q) (hQM : Q ≤ M * g) :
    getTradingBidsF A s rows Q = getTradingBids rows Q := by
  unfold getTradingBidsF getTradingBids
  split
  · rfl
  simp only [lastIndexF_whole hA s hb]
  generalize lastIndex (rows.map (fun r => r.quantity)) Q = k
  cases hk : rows[k]? with
  | none => rfl
  | some row =>
    have wt : WholeBook g M (rows.take k) := hb.sublist hA.1 (List.take_sublist _ _)
    have wt' : WholeBook g M (rows.take (k + 1)) := hb.sublist hA.1 (List.take_sublist _ _)
    have hs : s.sum ((rows.take k).map (fun r => r.quantity)) = qsum (rows.take k) := s.whole hA wt
    have e : (rows.take (k + 1)) = rows.take k ++ [row] := by
      rw [List.take_add_one, hk]; rfl
    have e1 : A.rnd (Q - qsum (rows.take k)) = Q - qsum (rows.take k) :=
      hA.rnd_sub hQ (Multiple.sum wt.1) hQM wt.2
    have e2 : A.rnd (row.quantity - (Q - qsum (rows.take k))) = row.quantity - (Q - qsum (rows.take k)) := by
      have := hA.rnd_sub (Multiple.sum wt'.1) hQ wt'.2 hQM
      rw [e, List.map_append, List.sum_append] at this
      have e3 : ((rows.take k).map (fun r => r.quantity)).sum + ([row].map (fun r : Row => r.quantity)).sum - Q =
          row.quantity - (Q - qsum (rows.take k)) := by
        simp [qsum]; ring
      rwa [e3] at this
    simp only [hs, e1, e2]

theorem TradeCut.whole (hg : 0 < g) {rows out : DF} {Q : ℚ} {k : ℕ} (hc : TradeCut rows Q out k)
    (hb : WholeBook g M rows) (hQ : Multiple g Q) : WholeBook g M out := by
  obtain ⟨T, r, B, E, rfl, rfl, rfl, h0, h1, h2⟩ := hc.cut
  have wT : WholeBook g M T := hb.sublist hg (List.sublist_append_left _ _)
  have hr : Multiple g r.quantity := hb.1 _ (List.mem_map_of_mem (by simp))
  have hB : ∀ x ∈ B.map (fun r => r.quantity), Multiple g x := by
    intro x hx
    refine hb.1 x ?_
    rw [List.map_append, List.map_cons]
    exact List.mem_append_right _ (List.mem_cons_of_mem _ hx)
  have hd : Multiple g (Q - qsum T) := hQ.sub hg (Multiple.sum wT.1) (by linarith)
  have hsum := hb.2
  rw [List.map_append, List.map_cons, List.sum_append, List.sum_cons] at hsum
  constructor
  · intro x hx
    rw [List.map_append, List.map_cons] at hx
    rcases List.mem_append.mp hx with h' | h'
    · exact wT.1 x h'
    · rcases List.mem_cons.mp h' with rfl | h'
      · exact hd
      · rcases h2 with ⟨rfl, _⟩ | rfl
        · exact hB x h'
        · rcases List.mem_cons.mp h' with rfl | h'
          · exact hr.sub hg hd h1
          · exact hB x h'
  · rw [List.map_append, List.map_cons, List.sum_append, List.sum_cons]
    rcases h2 with ⟨rfl, he⟩ | rfl
    · simp only [he]; exact hsum
    · rw [List.map_cons, List.sum_cons]
      simp only
      linarith

/-! ## Either arithmetic fails in the same way or both return -/

/-- The same exception, or two results with the same first component. -/
def SameFirst {α β : Type*} (x y : Except PyErr (α × β)) : Prop :=
  (∃ e, x = .error e ∧ y = .error e) ∨ ∃ a b b', x = .ok (a, b) ∧ y = .ok (a, b')

theorem npSet_cases (fees fees' : List ℚ) (u : ℤ) (x x' : ℚ) (hl : fees.length = fees'.length) :
    (∃ e, npSet fees u x = .error e ∧ npSet fees' u x' = .error e) ∨
    ∃ f f', npSet fees u x = .ok f ∧ npSet fees' u x' = .ok f' ∧ f.length = f'.length := by
  unfold npSet
  rw [← hl]
  split
  · exact Or.inr ⟨_, _, rfl, rfl, by simp [hl]⟩
  · split
    · exact Or.inr ⟨_, _, rfl, rfl, by simp [hl]⟩
    · exact Or.inl ⟨_, rfl, rfl⟩

theorem feeLoopF_cases (o : Summer A) (rows : DF) (k : ℕ) (q p : ℚ) : ∀ (us : List ℤ) (fees fees' : List ℚ),
    fees.length = fees'.length →
    (∃ e, feeLoopF A o rows k q p us fees = .error e ∧ feeLoop rows k q p us fees' = .error e) ∨
    ∃ f f', feeLoopF A o rows k q p us fees = .ok f ∧ feeLoop rows k q p us fees' = .ok f' ∧
      f.length = f'.length := by
  intro us
  induction us with
  | nil => intro fees fees' hl; exact Or.inr ⟨_, _, rfl, rfl, hl⟩
  | cons u us ih =>
    intro fees fees' hl
    simp only [feeLoopF, feeLoop, bind, Except.bind]
    rcases npSet_cases fees fees' u (computeFeeF A o rows k u q p) (computeFee rows k u q p) hl with
      ⟨e, h1, h2⟩ | ⟨f, f', h1, h2, h3⟩
    · rw [h1, h2]; exact Or.inl ⟨e, rfl, rfl⟩
    · rw [h1, h2]; exact ih f f' h3

/-- What is known about the willing rows of a half. -/
theorem willing_whole (hg : 0 < g) (S : Sorter) {H : DF} (hb : WholeBook g M H) (v : Val) :
    WholeBook g M (willingDemand S H v) ∧ WholeBook g M (willingSupply S H v) := by
  constructor
  · exact (hb.sublist hg (List.filter_sublist.trans List.filter_sublist)).perm (sortDesc_perm S _)
  · exact (hb.sublist hg (List.filter_sublist.trans List.filter_sublist)).perm (sortAsc_perm S _)

theorem solveSideF_trades (hA : ExactOn A g M) (s o : Summer A) (S : Sorter) {H : DF}
    (hb : WholeBook g M H) (v : Val) (fees fees' : List ℚ) (hl : fees.length = fees'.length) :
    SameFirst (solveSideF A s o S H v fees) (solveSide S H v fees') := by
  obtain ⟨wd, ws⟩ := willing_whole hA.1 S hb v
  unfold solveSideF solveSide
  split
  · exact Or.inr ⟨_, _, _, rfl, rfl⟩
  split
  · exact Or.inr ⟨_, _, _, rfl, rfl⟩
  have ed : s.sum ((willingDemand S H v).map (fun r => r.quantity)) = qsum (willingDemand S H v) :=
    s.whole hA wd
  have es : s.sum ((willingSupply S H v).map (fun r => r.quantity)) = qsum (willingSupply S H v) :=
    s.whole hA ws
  simp only [ed, es]
  have key : ∀ (L R : DF) (Q : ℚ), WholeBook g M L → WholeBook g M R → Multiple g Q → Q ≤ M * g →
      SameFirst
        (do
          let (longRows, lIndex) ← getTradingBidsF A s L Q
          let (shortRows, sIndex) ← getTradingBidsF A s R Q
          let trans := TransactionManager.init.addAll
            (tradingTrans shortRows sIndex v.toRat ++ tradingTrans longRows lIndex v.toRat)
          let f ← feeLoopF A o longRows lIndex Q v.toRat (tradingUsers longRows lIndex) fees
          Except.ok (trans, f))
        (do
          let (longRows, lIndex) ← getTradingBids L Q
          let (shortRows, sIndex) ← getTradingBids R Q
          let trans := TransactionManager.init.addAll
            (tradingTrans shortRows sIndex v.toRat ++ tradingTrans longRows lIndex v.toRat)
          let f ← feeLoop longRows lIndex Q v.toRat (tradingUsers longRows lIndex) fees'
          Except.ok (trans, f)) := by
    intro L R Q hL hR hQ hQM
    rw [getTradingBidsF_whole hA s hL hQ hQM, getTradingBidsF_whole hA s hR hQ hQM]
    simp only [bind, Except.bind]
    cases getTradingBids L Q with
    | error e => exact Or.inl ⟨e, rfl, rfl⟩
    | ok a =>
      cases getTradingBids R Q with
      | error e => exact Or.inl ⟨e, rfl, rfl⟩
      | ok b =>
        simp only
        rcases feeLoopF_cases o a.1 a.2 Q v.toRat (tradingUsers a.1 a.2) fees fees' hl with
          ⟨e, h1, h2⟩ | ⟨f, f', h1, h2, _⟩
        · rw [h1, h2]; exact Or.inl ⟨e, rfl, rfl⟩
        · rw [h1, h2]; exact Or.inr ⟨_, _, _, rfl, rfl⟩
  by_cases hlt : qsum (willingDemand S H v) < qsum (willingSupply S H v)
  · simp only [hlt, decide_true, if_true]
    split
    · exact key _ _ _ ws wd (Multiple.sum wd.1) wd.2
    · exact Or.inr ⟨_, _, _, rfl, rfl⟩
  · simp only [hlt, decide_false, Bool.false_eq_true, if_false]
    split
    · exact key _ _ _ wd ws (Multiple.sum ws.1) ws.2
    · exact Or.inr ⟨_, _, _, rfl, rfl⟩

end PyMarket
