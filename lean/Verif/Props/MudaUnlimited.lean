import Verif.Lemmas.MudaUnlimited

/-! # C129: a round of MUDA with unlimited bids

At the price from the other half of the book. When only one side has unlimited bids that want to trade, the round is
that of the filled book; when both sides have one, every bid that wants to trade does so with its whole quantity. -/

set_option autoImplicit false

namespace PyMarket

open Spec

section

variable (S : Sorter) (qty : ℕ → Ext) (df : DF)

theorem willingDemand_fill (Q : ℚ) (v : Val) :
    willingDemand S (withQty qty Q df) v = (willingDemand S df v).map (fillRow qty Q) := by
  unfold willingDemand
  rw [buys_fill, List.filter_map, sortDesc_fill]
  rfl

theorem willingSupply_fill (Q : ℚ) (v : Val) :
    willingSupply S (withQty qty Q df) v = (willingSupply S df v).map (fillRow qty Q) := by
  unfold willingSupply
  rw [sells_fill, List.filter_map, sortAsc_fill]
  rfl

theorem willingDemand_perm (p : ℚ) :
    (willingDemand S df (.fin p)).Perm (df.filter (fun r => r.buying && decide (p ≤ r.price))) := by
  refine (sortDesc_perm S _).trans (List.Perm.of_eq ?_)
  unfold buys
  rw [List.filter_filter]
  refine List.filter_congr (fun r _ => ?_)
  exact Bool.and_comm _ _

theorem willingSupply_perm (p : ℚ) :
    (willingSupply S df (.fin p)).Perm (df.filter (fun r => !r.buying && decide (r.price ≤ p))) := by
  refine (sortAsc_perm S _).trans (List.Perm.of_eq ?_)
  unfold sells
  rw [List.filter_filter]
  refine List.filter_congr (fun r _ => ?_)
  exact Bool.and_comm _ _

variable {S qty df}

/-- C129, a round of MUDA: at a price at which not both sides have an unlimited bid that wants to trade, the bids trade
as in the book with any large quantity for the unlimited ones. -/
theorem C129_muda_round_partial (h : NonNegU qty df) {p : ℚ} (hn : ¬ BothUnlimited qty df p) {Q : ℚ}
    (hQ : limitedTotal qty df < Q) {fees fees' : List ℚ} {tm : TransactionManager}
    (hs : solveSide S (withQty qty Q df) (.fin p) fees = .ok (tm, fees')) :
    solveSideU S df qty p = .ok (tm.trans.map ofTransaction) := by
  have hB0 := limitedTotal_nonneg h
  have hQ0 : 0 ≤ Q := by linarith
  have hdp := willingDemand_perm S df p
  have hsp := willingSupply_perm S df p
  have hdt := side_total h _ hdp
  have hst := side_total h _ hsp
  have hd0 := side_nonneg (qty := qty) (rows := willingDemand S df (.fin p)) h
    (fun r hr => (List.mem_filter.mp (hdp.mem_iff.mp hr)).1)
  have hs0 := side_nonneg (qty := qty) (rows := willingSupply S df (.fin p)) h
    (fun r hr => (List.mem_filter.mp (hsp.mem_iff.mp hr)).1)
  have sd := sum_sameUpTo (Q := Q) hQ0 hd0 hdt
  have ss := sum_sameUpTo (Q := Q) hQ0 hs0 hst
  have hone : ¬ (((willingDemand S df (.fin p)).map (fun r => qty r.label)).sum = ⊤ ∧
      ((willingSupply S df (.fin p)).map (fun r => qty r.label)).sum = ⊤) := by
    rintro ⟨h1, h2⟩
    obtain ⟨e, he, rfl⟩ := sum_top h1
    obtain ⟨e', he', rfl⟩ := sum_top h2
    obtain ⟨r, hr, e1⟩ := List.mem_map.mp he
    obtain ⟨r', hr', e2⟩ := List.mem_map.mp he'
    have m1 := List.mem_filter.mp (hdp.mem_iff.mp hr)
    have m2 := List.mem_filter.mp (hsp.mem_iff.mp hr')
    simp only [Bool.and_eq_true, Bool.not_eq_true', decide_eq_true_eq] at m1 m2
    exact hn ⟨⟨r, m1.1, m1.2.1, m1.2.2, e1⟩, ⟨r', m2.1, m2.2.1, m2.2.2, e2⟩⟩
  have qs : ∀ rows : DF, qsum (rows.map (fillRow qty Q)) =
      ((rows.map (fun r => qty r.label)).map (fun e => e.untopD Q)).sum := by
    intro rows
    unfold qsum
    rw [qtys_fill]
  have key : ∀ {L M : DF}, (∀ e ∈ L.map (fun r => qty r.label), ((0 : ℚ) : Ext) ≤ e) →
      (∀ e ∈ M.map (fun r => qty r.label), ((0 : ℚ) : Ext) ≤ e) →
      ((L.map (fun r => qty r.label)).map (fun e => e.untopD 0)).sum ≤ limitedTotal qty df →
      ((M.map (fun r => qty r.label)).map (fun e => e.untopD 0)).sum ≤ limitedTotal qty df →
      ∀ q : ℚ, q ≤ limitedTotal qty df →
      ((if 0 < q then do
          let (longRows, lIndex) ← getTradingBids (L.map (fillRow qty Q)) q
          let (shortRows, sIndex) ← getTradingBids (M.map (fillRow qty Q)) q
          let trans := TransactionManager.init.addAll (tradingTrans shortRows sIndex p ++ tradingTrans longRows lIndex p)
          let fees' ← feeLoop longRows lIndex q p (tradingUsers longRows lIndex) fees
          .ok (trans, fees')
        else .ok (TransactionManager.init, fees) : Except PyErr (TransactionManager × List ℚ)) = .ok (tm, fees')) →
      (if ((0 : ℚ) : Ext) < (q : Ext) then do
          let long ← tradingTransU p qty L (q : Ext)
          let short ← tradingTransU p qty M (q : Ext)
          .ok (short ++ long)
        else .ok [] : Except PyErr (List TransU)) = .ok (tm.trans.map ofTransaction) := by
    intro L M hL hM hLB hMB q hq he
    by_cases hq0 : 0 < q
    · rw [if_pos hq0] at he
      rw [if_pos (WithTop.coe_lt_coe.mpr hq0)]
      cases e1 : getTradingBids (L.map (fillRow qty Q)) q with
      | error e => rw [e1] at he; cases he
      | ok o1 =>
        cases e2 : getTradingBids (M.map (fillRow qty Q)) q with
        | error e => rw [e1, e2] at he; cases he
        | ok o2 =>
          obtain ⟨lr, li⟩ := o1
          obtain ⟨sr, si⟩ := o2
          rw [e1, e2] at he
          simp only [bind, Except.bind] at he
          rw [tradingTransU_same hL hLB hB0 hQ hq0.le hq p e1, tradingTransU_same hM hMB hB0 hQ hq0.le hq p e2]
          cases e3 : feeLoop lr li q p (tradingUsers lr li) fees with
          | error e => rw [e3] at he; cases he
          | ok f =>
            rw [e3] at he
            cases he
            simp only [bind, Except.bind]
            rw [TransactionManager.addAll_trans, ← List.map_append]
            rfl
    · rw [if_neg hq0] at he
      rw [if_neg (fun hh => hq0 (WithTop.coe_lt_coe.mp hh))]
      cases he
      rfl
  unfold solveSide at hs
  unfold solveSideU
  rw [buys_fill, sells_fill, List.length_map, List.length_map] at hs
  by_cases hb : (buys df).length = 0
  · rw [if_pos hb] at hs ⊢
    cases hs
    rfl
  rw [if_neg hb] at hs ⊢
  by_cases hsl : (sells df).length = 0
  · rw [if_pos hsl] at hs ⊢
    cases hs
    rfl
  rw [if_neg hsl] at hs ⊢
  simp only [willingDemand_fill, willingSupply_fill, qs] at hs
  dsimp only
  generalize willingDemand S df (.fin p) = D at *
  generalize willingSupply S df (.fin p) = P at *
  have hcmp : ((D.map (fun r => qty r.label)).sum < (P.map (fun r => qty r.label)).sum ↔
      ((D.map (fun r => qty r.label)).map (fun e => e.untopD Q)).sum <
        ((P.map (fun r => qty r.label)).map (fun e => e.untopD Q)).sum) := by
    rcases sd with ⟨b1, b2⟩ | ⟨b1, b2⟩
    · rw [b1] at b2 ⊢
      rcases ss with ⟨c1, _⟩ | ⟨c1, c2⟩
      · rw [c1]; exact WithTop.coe_lt_coe
      · rw [c1]
        have := WithTop.coe_le_coe.mp c2
        have := WithTop.coe_le_coe.mp b2
        exact ⟨fun _ => by linarith, fun _ => WithTop.coe_lt_top _⟩
    · rcases ss with ⟨c1, c2⟩ | ⟨c1, _⟩
      · rw [b1]
        rw [c1] at c2
        have := WithTop.coe_le_coe.mp c2
        have := WithTop.coe_le_coe.mp b2
        exact ⟨fun hh => absurd hh not_top_lt, fun hh => absurd hh (not_lt.mpr (by linarith))⟩
      · exact absurd ⟨b1, c1⟩ hone
  by_cases hlt : (D.map (fun r => qty r.label)).sum < (P.map (fun r => qty r.label)).sum
  · have hlt' := hcmp.mp hlt
    simp only [hlt', decide_true, if_true] at hs
    simp only [hlt, decide_true, if_true]
    rcases sd with ⟨b1, b2⟩ | ⟨b1, _⟩
    · rw [b1] at b2 ⊢
      exact key hs0 hd0 hst hdt _ (WithTop.coe_le_coe.mp b2) hs
    · rw [b1] at hlt
      exact absurd hlt not_top_lt
  · have hlt' := mt hcmp.mpr hlt
    simp only [hlt', decide_false, Bool.false_eq_true, if_false] at hs
    simp only [hlt, decide_false, Bool.false_eq_true, if_false]
    rcases ss with ⟨b1, b2⟩ | ⟨b1, _⟩
    · rw [b1] at b2 ⊢
      exact key hd0 hs0 hdt hst _ (WithTop.coe_le_coe.mp b2) hs
    · rw [b1] at hlt
      have : (D.map (fun r => qty r.label)).sum = ⊤ := by
        by_contra hne
        exact hlt (lt_top_iff_ne_top.mpr hne)
      exact absurd ⟨this, b1⟩ hone

/-- A side of which an infinite quantity is wanted trades completely. -/
theorem tradingTransU_top (p : ℚ) {rows : DF} (hne : rows ≠ []) :
    tradingTransU p qty rows ⊤ =
      .ok (rows.map (fun r => ⟨r.label, Val.ofExt (qty r.label), p, -1, false⟩)) := by
  obtain ⟨A, x, rfl⟩ : ∃ A x, rows = A ++ [x] := ⟨rows.dropLast, rows.getLast hne, (List.dropLast_append_getLast hne).symm⟩
  unfold tradingTransU lastIndexU
  rw [if_neg not_top_lt]
  have hl : ((A ++ [x]).map (fun r => qty r.label)).length - 1 = A.length := by simp
  simp only [hl, List.getElem?_append_right (le_refl _), Nat.sub_self, List.getElem?_cons_zero, List.take_left]
  rw [List.map_append]
  have hlt : ((Val.ofExt ⊤).sub (Val.ofExt (A.map (fun r => qty r.label)).sum)).lt (Val.ofExt (qty x.label)) = false := by
    cases (A.map (fun r => qty r.label)).sum using WithTop.recTopCoe with
    | top => rfl
    | coe c => rfl
  rw [hlt]
  rfl

/-- C129, a round of MUDA: when both sides have an unlimited bid that wants to trade at the price, every bid that wants
to trade does so exactly once, with its whole quantity. -/
theorem C129_muda_round_both {p : ℚ} (hb : BothUnlimited qty df p) :
    ∃ ts, solveSideU S df qty p = .ok ts ∧
      ts.Perm ((df.filter (fun r => if r.buying then decide (p ≤ r.price) else decide (r.price ≤ p))).map
        (fun r => ⟨r.label, Val.ofExt (qty r.label), p, -1, false⟩)) := by
  obtain ⟨⟨r, hr, hrb, hrp, hrq⟩, ⟨r', hr', hrb', hrp', hrq'⟩⟩ := hb
  have hdp := willingDemand_perm S df p
  have hsp := willingSupply_perm S df p
  have md : r ∈ willingDemand S df (.fin p) := hdp.mem_iff.mpr (List.mem_filter.mpr ⟨hr, by simp [hrb, hrp]⟩)
  have ms : r' ∈ willingSupply S df (.fin p) := hsp.mem_iff.mpr (List.mem_filter.mpr ⟨hr', by simp [hrb', hrp']⟩)
  have td : ((willingDemand S df (.fin p)).map (fun r => qty r.label)).sum = ⊤ := by
    by_contra hne
    exact sum_limited hne _ (List.mem_map_of_mem (f := fun r => qty r.label) md) hrq
  have ts : ((willingSupply S df (.fin p)).map (fun r => qty r.label)).sum = ⊤ := by
    by_contra hne
    exact sum_limited hne _ (List.mem_map_of_mem (f := fun r => qty r.label) ms) hrq'
  unfold solveSideU
  have nb : (buys df).length ≠ 0 := by
    intro e
    have : r ∈ buys df := List.mem_filter.mpr ⟨hr, hrb⟩
    rw [List.length_eq_zero_iff.mp e] at this
    cases this
  have ns : (sells df).length ≠ 0 := by
    intro e
    have : r' ∈ sells df := List.mem_filter.mpr ⟨hr', by simp [hrb']⟩
    rw [List.length_eq_zero_iff.mp e] at this
    cases this
  rw [if_neg nb, if_neg ns]
  dsimp only
  simp only [td, ts, lt_irrefl, decide_false, Bool.false_eq_true, if_false]
  rw [if_pos (WithTop.coe_lt_top (0 : ℚ)), tradingTransU_top p (List.ne_nil_of_mem md),
    tradingTransU_top p (List.ne_nil_of_mem ms)]
  refine ⟨_, rfl, ?_⟩
  rw [← List.map_append]
  refine List.Perm.map _ ?_
  refine (List.perm_append_comm.trans (hdp.append hsp)).trans ?_
  clear hdp hsp md ms td ts nb ns hr hr'
  induction df with
  | nil => exact List.Perm.refl _
  | cons x l ih =>
    simp only [List.filter_cons]
    cases hx : x.buying
    · by_cases hp : x.price ≤ p
      · simpa [hp] using (List.perm_middle).trans (ih.cons x)
      · simpa [hp] using ih
    · by_cases hp : p ≤ x.price
      · simpa [hp] using ih.cons x
      · simpa [hp] using ih

theorem lastIndexU_lt {l : List Ext} (h : l ≠ []) (q : Ext) : lastIndexU l q < l.length := by
  have hpos := List.length_pos_iff.mpr h
  unfold lastIndexU
  split
  · have hlen : ∀ (m : List Ext) (a : Ext), (extCumsumFrom a m).length = m.length := by
      intro m
      induction m with
      | nil => intro a; rfl
      | cons e m ih => intro a; exact congrArg (· + 1) (ih (a + e))
    unfold argmaxTrue
    cases hf : ((extCumsumFrom ((0 : ℚ) : Ext) l).map (fun c => decide (q ≤ c))).findIdx? id with
    | none => exact hpos
    | some i =>
      have := (List.findIdx?_eq_some_iff_getElem.mp hf).1
      rwa [List.length_map, hlen] at this
  · omega

/-- One side: no trade is `nan` or more than the quantity of the bid. -/
theorem tradingTransU_ends (p : ℚ) {rows : DF} (hne : rows ≠ []) (q : Ext) :
    ∃ ts, tradingTransU p qty rows q = .ok ts ∧ ∀ t ∈ ts, t.price = p ∧ ∃ r ∈ rows, t.bid = r.label ∧
      t.quantity ≠ .nan ∧ (Val.ofExt (qty r.label)).lt t.quantity = false := by
  have hirr : ∀ v : Val, v.lt v = false := by
    intro v
    cases v <;> simp [Val.lt]
  have hasymm : ∀ v w : Val, v.lt w = true → v ≠ .nan ∧ w.lt v = false := by
    intro v w h
    cases v <;> cases w <;> simp_all [Val.lt]
    exact h.le
  have hnan : ∀ e : Ext, Val.ofExt e ≠ .nan := by
    intro e
    cases e using WithTop.recTopCoe with
    | top => intro h; cases h
    | coe c => intro h; cases h
  have hlt := lastIndexU_lt (l := rows.map (fun r => qty r.label)) (by simpa using hne) q
  rw [List.length_map] at hlt
  unfold tradingTransU
  simp only [List.getElem?_eq_getElem hlt]
  refine ⟨_, rfl, fun t ht => ?_⟩
  rcases List.mem_append.mp ht with ht | ht
  · obtain ⟨r, hr, rfl⟩ := List.mem_map.mp ht
    exact ⟨rfl, r, List.mem_of_mem_take hr, rfl, hnan _, hirr _⟩
  · rw [List.mem_singleton.mp ht]
    refine ⟨rfl, _, List.getElem_mem hlt, rfl, ?_⟩
    dsimp only
    split
    · next h => exact hasymm _ _ h
    · exact ⟨hnan _, hirr _⟩

/-- C129, a round of MUDA: with any bids without a limit the round ends, no quantity is `nan`, and all trades are of
bids that want to trade at the price, with at most their quantity. -/
theorem C129_muda_round_ends (S : Sorter) (qty : ℕ → Ext) (df : DF) (p : ℚ) :
    ∃ ts, solveSideU S df qty p = .ok ts ∧ ∀ t ∈ ts, t.price = p ∧ ∃ r ∈ df, t.bid = r.label ∧
      (if r.buying then p ≤ r.price else r.price ≤ p) ∧ t.quantity ≠ .nan ∧
      (Val.ofExt (qty r.label)).lt t.quantity = false := by
  have hdp := willingDemand_perm S df p
  have hsp := willingSupply_perm S df p
  have md : ∀ r ∈ willingDemand S df (.fin p), r ∈ df ∧ (if r.buying then p ≤ r.price else r.price ≤ p) := by
    intro r hr
    have := List.mem_filter.mp (hdp.mem_iff.mp hr)
    simp only [Bool.and_eq_true, decide_eq_true_eq] at this
    exact ⟨this.1, by rw [if_pos this.2.1]; exact this.2.2⟩
  have ms : ∀ r ∈ willingSupply S df (.fin p), r ∈ df ∧ (if r.buying then p ≤ r.price else r.price ≤ p) := by
    intro r hr
    have := List.mem_filter.mp (hsp.mem_iff.mp hr)
    simp only [Bool.and_eq_true, Bool.not_eq_true', decide_eq_true_eq] at this
    exact ⟨this.1, by rw [if_neg (by rw [this.2.1]; exact Bool.false_ne_true)]; exact this.2.2⟩
  have hne : ∀ {rows : DF}, ((0 : ℚ) : Ext) < (rows.map (fun r => qty r.label)).sum → rows ≠ [] := by
    rintro rows hpos rfl
    exact absurd hpos (lt_irrefl _)
  have key : ∀ {L M : DF} (q : Ext), L ≠ [] → M ≠ [] →
      (∀ r ∈ L, r ∈ df ∧ (if r.buying then p ≤ r.price else r.price ≤ p)) →
      (∀ r ∈ M, r ∈ df ∧ (if r.buying then p ≤ r.price else r.price ≤ p)) →
      ∃ ts, (do
          let long ← tradingTransU p qty L q
          let short ← tradingTransU p qty M q
          .ok (short ++ long) : Except PyErr (List TransU)) = .ok ts ∧ ∀ t ∈ ts, t.price = p ∧ ∃ r ∈ df, t.bid = r.label ∧
        (if r.buying then p ≤ r.price else r.price ≤ p) ∧ t.quantity ≠ .nan ∧
        (Val.ofExt (qty r.label)).lt t.quantity = false := by
    intro L M q hL hM mL mM
    obtain ⟨t1, e1, h1⟩ := tradingTransU_ends (qty := qty) p hL q
    obtain ⟨t2, e2, h2⟩ := tradingTransU_ends (qty := qty) p hM q
    rw [e1, e2]
    refine ⟨t2 ++ t1, rfl, fun t ht => ?_⟩
    rcases List.mem_append.mp ht with ht | ht
    · obtain ⟨e, r, hr, a1, a2, a3⟩ := h2 t ht
      exact ⟨e, r, (mM r hr).1, a1, (mM r hr).2, a2, a3⟩
    · obtain ⟨e, r, hr, a1, a2, a3⟩ := h1 t ht
      exact ⟨e, r, (mL r hr).1, a1, (mL r hr).2, a2, a3⟩
  have hnil : ∃ ts : List TransU, (.ok [] : Except PyErr (List TransU)) = .ok ts ∧ ∀ t ∈ ts, t.price = p ∧
      ∃ r ∈ df, t.bid = r.label ∧ (if r.buying then p ≤ r.price else r.price ≤ p) ∧ t.quantity ≠ .nan ∧
        (Val.ofExt (qty r.label)).lt t.quantity = false := ⟨[], rfl, fun t ht => by cases ht⟩
  unfold solveSideU
  split
  · exact hnil
  split
  · exact hnil
  dsimp only
  by_cases hlt : ((willingDemand S df (.fin p)).map (fun r => qty r.label)).sum <
      ((willingSupply S df (.fin p)).map (fun r => qty r.label)).sum
  · simp only [hlt, decide_true, if_true]
    split
    · next hpos => exact key _ (hne (hpos.trans hlt)) (hne hpos) ms md
    · exact hnil
  · simp only [hlt, decide_false, Bool.false_eq_true, if_false]
    split
    · next hpos => exact key _ (hne (lt_of_lt_of_le hpos (not_lt.mp hlt))) (hne hpos) md ms
    · exact hnil

end

/-- C129, a round of MUDA: with unlimited bids on both sides the last buyer trades, which they do not in the filled
book. -/
theorem C129_muda_round_refuted : ∃ (S : Sorter) (qty : ℕ → Ext) (df : DF) (p Q : ℚ), NonNegU qty df ∧ IsTable df ∧
    limitedTotal qty df < Q ∧
    solveSideU S df qty p = .ok [⟨2, .inf, p, -1, false⟩, ⟨0, .inf, p, -1, false⟩, ⟨1, .fin 1, p, -1, false⟩] ∧
    (solveSide S (withQty qty Q df) (.fin p) [0, 0, 0]).map (fun o => o.1.trans) =
      .ok [⟨2, Q, p, -1, false⟩, ⟨0, Q, p, -1, false⟩] :=
  ⟨stableSorter, fun i => if i = 1 then ((1 : ℚ) : Ext) else ⊤,
    labelFrom 0 [⟨0, 10, 0, true, 0, true⟩, ⟨0, 9, 1, true, 0, true⟩, ⟨0, 1, 2, false, 0, true⟩], 5, 7,
    by decide +kernel⟩

/-- A half with an unlimited seller, two buyers that want to trade at 5 and one that does not. -/
def unlimitedHalf : DF :=
  labelFrom 0 [⟨0, 10, 0, true, 0, true⟩, ⟨0, 9, 1, true, 0, true⟩, ⟨0, 4, 2, true, 0, true⟩, ⟨0, 2, 3, false, 0, true⟩,
    ⟨0, 1, 4, false, 0, true⟩]

/-- The quantities of `unlimitedHalf`. -/
def unlimitedHalfQty : ℕ → Ext := fun i => if i = 3 then ⊤ else ((i + 1 : ℚ) : Ext)

/-- The cheapest seller comes first. The unlimited one sells only what is then still wanted. -/
example : NonNegU unlimitedHalfQty unlimitedHalf ∧ ¬ BothUnlimited unlimitedHalfQty unlimitedHalf 5 ∧
    limitedTotal unlimitedHalfQty unlimitedHalf < 20 ∧
    solveSideU stableSorter unlimitedHalf (fun i => if i = 4 then ((2 : ℚ) : Ext) else unlimitedHalfQty i) 5 =
      .ok [⟨0, .fin 1, 5, -1, false⟩, ⟨1, .fin 2, 5, -1, false⟩, ⟨4, .fin 2, 5, -1, false⟩, ⟨3, .fin 1, 5, -1, false⟩] ∧
    solveSideU stableSorter unlimitedHalf unlimitedHalfQty 5 =
      .ok [⟨0, .fin 1, 5, -1, false⟩, ⟨1, .fin 2, 5, -1, false⟩, ⟨4, .fin 3, 5, -1, false⟩] ∧
    (solveSide stableSorter (withQty unlimitedHalfQty 20 unlimitedHalf) (.fin 5) [0, 0, 0, 0, 0]).map (fun o => o.1.trans) =
      .ok [⟨0, 1, 5, -1, false⟩, ⟨1, 2, 5, -1, false⟩, ⟨4, 3, 5, -1, false⟩] := by decide +kernel

/-- With an unlimited buyer as well, all willing bids trade in full. -/
example : BothUnlimited (fun i => if i = 1 then ⊤ else unlimitedHalfQty i) unlimitedHalf 5 ∧
    solveSideU stableSorter unlimitedHalf (fun i => if i = 1 then ⊤ else unlimitedHalfQty i) 5 =
      .ok [⟨4, .fin 5, 5, -1, false⟩, ⟨3, .inf, 5, -1, false⟩, ⟨0, .fin 1, 5, -1, false⟩, ⟨1, .inf, 5, -1, false⟩] := by
  decide +kernel

end PyMarket
