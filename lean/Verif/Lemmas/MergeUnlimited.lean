import Verif.Model.MergeUnlimited
import Verif.Props.Unlimited
import Verif.Lemmas.Merge
import Verif.Lemmas.Managers
import Verif.Lemmas.Table

/-! # Merging with unlimited bids -/

set_option autoImplicit false

namespace PyMarket

open Spec

theorem finiteColumn_finite : ∀ {l : List Ext} {q : List ℚ}, finiteColumn l = .ok q → ∀ e ∈ l, e ≠ ⊤
  | [], _, _ => by simp
  | some a :: l, q, h => by
    unfold finiteColumn at h
    cases h' : finiteColumn l with
    | error e => rw [h'] at h; cases h
    | ok q' =>
      intro e he
      rcases List.mem_cons.mp he with rfl | he
      · exact WithTop.coe_ne_top
      · exact finiteColumn_finite h' e he
  | none :: l, q, h => by cases h

theorem huangSideTrans_rows {rows : DF} {qs : List ℚ} {p : ℚ} {t : Transaction} (h : t ∈ huangSideTrans rows qs p) :
    ∃ r ∈ rows, r.label = t.bid := by
  unfold huangSideTrans at h
  obtain ⟨x, hx, rfl⟩ := List.mem_map.mp h
  exact ⟨x.1, (List.of_mem_zip hx).1, rfl⟩

/-- Only bids with a finite quantity trade in Huang's auction. -/
theorem huangAuctionU_finite {S : Sorter} {df : DF} {qty : ℕ → Ext} {tm : TransactionManager} {e : Extra}
    (h : huangAuctionU S df qty = .ok (tm, e)) : ∀ t ∈ tm.trans, qty t.bid ≠ ⊤ ∧ ∃ r ∈ df, r.label = t.bid := by
  unfold huangAuctionU at h
  simp only [bind, Except.bind] at h
  cases hi : intersectStepwise (demandCurveU S df qty) (supplyCurveU S df qty) with
  | error e => rw [hi] at h; cases h
  | ok i =>
    rw [hi] at h
    simp only at h
    split at h
    · rename_i b s _ _
      split at h
      · rename_i sRow bRow _ _
        cases hb : finiteColumn (((sortDesc S (buys df)).take b).map (fun r => qty r.label)) with
        | error e => rw [hb] at h; cases h
        | ok qb =>
          rw [hb] at h
          simp only at h
          cases hs : finiteColumn (((sortAsc S (sells df)).take s).map (fun r => qty r.label)) with
          | error e => rw [hs] at h; cases h
          | ok qs =>
            rw [hs] at h
            simp only at h
            have key : ∀ t : Transaction, (∃ r ∈ (sortAsc S (sells df)).take s, r.label = t.bid) ∨
                  (∃ r ∈ (sortDesc S (buys df)).take b, r.label = t.bid) →
                qty t.bid ≠ ⊤ ∧ ∃ r ∈ df, r.label = t.bid := by
              intro t ht
              rcases ht with ⟨r, hr, e⟩ | ⟨r, hr, e⟩
              · refine ⟨?_, r, ?_, e⟩
                · rw [← e]
                  exact finiteColumn_finite hs _ (List.mem_map_of_mem hr)
                · exact (List.mem_filter.mp ((sortAsc_perm S _).subset (List.mem_of_mem_take hr))).1
              · refine ⟨?_, r, ?_, e⟩
                · rw [← e]
                  exact finiteColumn_finite hb _ (List.mem_map_of_mem hr)
                · exact (List.mem_filter.mp ((sortDesc_perm S _).subset (List.mem_of_mem_take hr))).1
            split at h
            · split at h <;> split at h <;> first
                | (cases h; done)
                | (simp only [Except.ok.injEq, Prod.mk.injEq] at h
                   rw [← h.1]
                   intro t ht
                   rw [TransactionManager.init_addAll_trans] at ht
                   refine key t ?_
                   rcases List.mem_append.mp ht with ht | ht
                   · exact Or.inl (huangSideTrans_rows ht)
                   · exact Or.inr (huangSideTrans_rows ht))
            · cases h
              intro t ht
              cases ht
      · cases h
    · cases h
      intro t ht
      cases ht

theorem sum_ext_nonneg : ∀ {l : List Ext}, (∀ e ∈ l, 0 < e) → 0 ≤ l.sum ∧ (l ≠ [] → l.sum ≠ 0)
  | [], _ => by simp
  | e :: l, h => by
    have h1 := sum_ext_nonneg (l := l) (fun x hx => h x (List.mem_cons_of_mem _ hx))
    have h2 : 0 < e := h e List.mem_cons_self
    have h3 : 0 < e + l.sum := add_pos_of_pos_of_nonneg h2 h1.1
    rw [List.sum_cons]
    exact ⟨h3.le, fun _ => h3.ne'⟩

theorem sum_ext_top : ∀ {l : List Ext}, l.sum ≠ ⊤ → ∀ e ∈ l, e ≠ ⊤
  | [], _ => by simp
  | e :: l, h => by
    rw [List.sum_cons] at h
    have h' := WithTop.add_ne_top.mp h
    intro x hx
    rcases List.mem_cons.mp hx with rfl | hx
    · exact h'.1
    · exact sum_ext_top h'.2 x hx

end PyMarket
