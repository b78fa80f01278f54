import Verif.Lemmas.ZeroGroups
import Verif.Props.HuangTotal
import Verif.Lemmas.HuangSigned
import Verif.Model.Nan

/-! # C105, C106: what bids of quantity 0 do to the log and to the statistics -/

set_option autoImplicit false

namespace PyMarket

open Spec

/-- All bids on the side of `r` whose prices round to the same 5 decimals, `r` included, have quantity
0. -/
def Spec.EmptyGroup (df : DF) (r : Row) : Prop :=
  ∀ r' ∈ df, r'.buying = r.buying → (∃ y, IsRounded 5 r.price y ∧ IsRounded 5 r'.price y) →
    r'.quantity = 0

/-- A log without infinite quantities. -/
def Spec.NumOrNan (l : List TransV) : Prop := ∀ e ∈ l, e.quantity = .nan ∨ ∃ q, e.quantity = .fin q

theorem MergeSpec0.empty_iff {df nb : DF} {mp : List (List ℕ)} (h : MergeSpec0 df nb mp) (ht : IsTable df)
    (hq : ∀ r ∈ df, 0 ≤ r.quantity) {k : ℕ} {row r : Row} {ids : List ℕ} (hrow : nb[k]? = some row)
    (hids : mp[k]? = some ids) (hr : r ∈ df) (hi : r.label ∈ ids) :
    row.quantity = 0 ↔ EmptyGroup df r := by
  obtain ⟨g1, g2, g3⟩ := h.group k row ids hrow hids
  have hidm := List.mem_of_getElem? hids
  constructor
  · intro h0 r' hr' hb ⟨y, hy, hy'⟩
    have hsame : r.buying = r'.buying ∧ npRound 5 r.price = npRound 5 r'.price := ⟨hb.symm, by
      rw [isRounded_unique (npRound_isRounded 5 _) hy, isRounded_unique (npRound_isRounded 5 _) hy']⟩
    obtain ⟨ids', hids', m1, m2⟩ := (h.same r hr r' hr').mpr hsame
    rw [flatten_nodup_inj h.flatten_nodup hids' hidm m1 hi] at m2
    have hle : qtyOf df r'.label ≤ (ids.map (qtyOf df)).sum := by
      refine List.single_le_sum ?_ _ (List.mem_map_of_mem m2)
      intro q hq'
      obtain ⟨i, hi', rfl⟩ := List.mem_map.mp hq'
      obtain ⟨r₂, hr₂, _⟩ := g3 i hi'
      rw [qtyOf_some hr₂]
      exact hq r₂ (List.mem_of_getElem? hr₂)
    rw [← g2, h0, ht.qty_eq hr'] at hle
    exact le_antisymm hle (hq r' hr')
  · intro hE
    obtain ⟨r₁, hr₁, hb₁, hp₁⟩ := g3 _ hi
    rw [ht.get_label hr] at hr₁
    cases hr₁
    rw [g2]
    apply List.sum_eq_zero
    intro q hq'
    obtain ⟨i, hi', rfl⟩ := List.mem_map.mp hq'
    obtain ⟨r₂, hr₂, hb₂, hp₂⟩ := g3 i hi'
    rw [qtyOf_some hr₂]
    refine hE r₂ (List.mem_of_getElem? hr₂) (hb₂.trans hb₁.symm) ⟨row.price, ?_, ?_⟩
    · rw [← hp₁]; exact npRound_isRounded 5 _
    · rw [← hp₂]; exact npRound_isRounded 5 _

/-- What the rows of a log look like that was split from a log conserving quantities. -/
theorem MergeSpec0.rows {df nb : DF} {mp : List (List ℕ)} (h : MergeSpec0 df nb mp) (ht : IsTable df)
    (hq : ∀ r ∈ df, 0 ≤ r.quantity) {ts : List Transaction} (hC : Conserves nb ts) :
    NumOrNan (ts.flatMap (splitV df mp)) ∧ ∀ e ∈ ts.flatMap (splitV df mp), ∃ r ∈ df, e.bid = r.label ∧
      (e.quantity = .nan ↔ EmptyGroup df r) := by
  have hlt : ∀ t ∈ ts, t.bid < nb.length := fun t htt => (hC.entries t htt).1
  have key : ∀ e ∈ ts.flatMap (splitV df mp), ∃ r ∈ df, e.bid = r.label ∧
      ((e.quantity = .nan ∧ EmptyGroup df r) ∨ ((∃ q, e.quantity = .fin q) ∧ ¬ EmptyGroup df r)) := by
    intro e he
    obtain ⟨t, htt, row, r, g1, g2, g3, g4, g5, g6, g7, g8, ids, g9, g10⟩ := h.mem_rows hlt he
    have hr := List.mem_of_getElem? g2
    have hl : e.bid = r.label := (ht.label g2).symm
    refine ⟨r, hr, hl, ?_⟩
    rw [hl] at g10
    rw [← h.empty_iff ht hq g1 g9 hr g10, g8]
    by_cases h0 : row.quantity = 0
    · left
      have hr0 : r.quantity = 0 := by
        refine (h.empty_iff ht hq g1 g9 hr g10).mp h0 r hr rfl ⟨_, npRound_isRounded 5 _, npRound_isRounded 5 _⟩
      simp [h0, hr0, Val.quot, Val.times]
    · right
      simp [h0, Val.quot, Val.times]
  constructor
  · intro e he
    obtain ⟨r, _, _, h' | h'⟩ := key e he
    · exact Or.inl h'.1
    · exact Or.inr h'.1
  · intro e he
    obtain ⟨r, hr, hl, h' | h'⟩ := key e he
    · exact ⟨r, hr, hl, fun _ => h'.2, fun _ => h'.1⟩
    · refine ⟨r, hr, hl, fun hn => ?_, fun hE => absurd hE h'.2⟩
      obtain ⟨⟨q, hq'⟩, _⟩ := h'
      rw [hq'] at hn; cases hn

/-! ### The two models of splitting -/

theorem splitAll_zero {bids : DF} {mp : List (List ℕ)} {ts : List Transaction}
    (h : ∀ t ∈ ts, ∃ ids, mp[t.bid]? = some ids ∧ ids ≠ [] ∧ ∀ i ∈ ids, i < bids.length)
    (h0 : ∃ t ∈ ts, groupTotal bids mp t = 0) : splitAll bids mp ts = .error .nanQuantity := by
  cases hs : splitAll bids mp ts with
  | error e => rw [splitAll_error (fun t ht => by obtain ⟨ids, a, _, b⟩ := h t ht; exact ⟨ids, a, b⟩) hs]
  | ok r =>
    exfalso
    obtain ⟨t, ht, hz⟩ := h0
    have hone : splitOne bids mp t = .error .nanQuantity := by
      obtain ⟨ids, hm, hne, hin⟩ := h t ht
      unfold groupTotal at hz
      rw [hm, Option.getD_some] at hz
      unfold splitOne
      rw [hm]
      simp only [members_length bids ids hin, qsum_members bids ids hin, ne_eq, not_true_eq_false, if_false]
      rw [if_pos ⟨hz, hne⟩]
    clear h
    induction ts generalizing r with
    | nil => cases ht
    | cons t' ts ih =>
      unfold splitAll at hs
      cases h1 : splitOne bids mp t' with
      | error e => rw [h1] at hs; cases hs
      | ok a =>
        cases h2 : splitAll bids mp ts with
        | error e => rw [h1, h2] at hs; cases hs
        | ok b =>
          rcases List.mem_cons.mp ht with rfl | ht'
          · rw [hone] at h1; cases h1
          · exact ih _ h2 ht'

theorem rows_finite {df : DF} {mp : List (List ℕ)} {ts : List Transaction}
    (h : ∀ t ∈ ts, groupTotal df mp t ≠ 0) :
    ts.flatMap (splitV df mp) = (ts.flatMap (splitT df mp)).map Transaction.toV := by
  rw [List.map_flatMap]
  apply List.flatMap_congr
  intro t ht
  have h0 := h t ht
  unfold groupTotal at h0
  unfold splitV splitT
  rw [List.map_map]
  apply List.map_congr_left
  intro i _
  simp [Transaction.toV, Val.quot, h0, Val.times]

theorem mechanismV_agrees (smp : Sampler) (merge : Bool) (algo : Algo) {df : DF} (ht : IsTable df)
    (hq : ∀ r ∈ df, 0 ≤ r.quantity)
    (hok : ∀ nb : DF, IsTable nb → (∀ r ∈ nb, 0 ≤ r.quantity) → ∀ tm ex, mechRun algo nb = .ok (tm, ex) →
      ∀ t ∈ tm.trans, t.bid < nb.length) :
    (∀ e, mechanismV smp merge algo df = .error e → mechanism smp merge algo df = .error e) ∧
    ∀ l ex, mechanismV smp merge algo df = .ok (l, ex) →
      ((∀ e ∈ l, ∃ q, e.quantity = .fin q) →
        ∃ tm, mechanism smp merge algo df = .ok (tm, ex) ∧ tm.trans.map Transaction.toV = l) ∧
      ((∃ e ∈ l, ∀ q, e.quantity ≠ .fin q) → mechanism smp merge algo df = .error .nanQuantity) := by
  cases merge with
  | false =>
    unfold mechanismV mechanism
    simp only [Bool.false_eq_true, if_false]
    cases hr : mechRun algo df with
    | error e' => exact ⟨fun e he => (by cases he; rfl), fun l ex h => (by cases h)⟩
    | ok o =>
      obtain ⟨tm, ex'⟩ := o
      refine ⟨fun e he => (by cases he), ?_⟩
      intro l ex h
      simp only [bind, Except.bind, Except.ok.injEq, Prod.mk.injEq] at h
      obtain ⟨rfl, rfl⟩ := h
      refine ⟨fun _ => ⟨tm, rfl, rfl⟩, ?_⟩
      rintro ⟨e, he, hn⟩
      obtain ⟨t, _, rfl⟩ := List.mem_map.mp he
      exact absurd rfl (hn t.quantity)
  | true =>
    obtain ⟨nb, mp, hm, hM⟩ := merge_spec0 smp ht hq
    cases hr : mechRun algo nb with
    | error e' =>
      unfold mechanismV mechanism
      simp only [if_true, hm, bind, Except.bind, hr]
      exact ⟨fun e he => (by cases he; rfl), fun l ex h => (by cases h)⟩
    | ok o =>
      obtain ⟨tm, ex'⟩ := o
      have hlt := hok nb hM.table hM.qty tm ex' hr
      have hV := mechanismV_merge smp algo hm hM hr hlt
      have hids : ∀ t ∈ tm.trans, ∃ ids, mp[t.bid]? = some ids ∧ ids ≠ [] ∧ ∀ i ∈ ids, i < df.length := by
        intro t htt
        obtain ⟨row, ids, _, h2, h3, _, _, h6⟩ := hM.get (hlt t htt)
        refine ⟨ids, h2, h3, fun i hi => ?_⟩
        obtain ⟨r, hr', _⟩ := h6 i hi
        exact (List.getElem?_eq_some_iff.mp hr').1
      refine ⟨fun e he => (by rw [hV] at he; cases he), ?_⟩
      intro l ex h
      rw [hV] at h
      cases h
      by_cases hz : ∃ t ∈ tm.trans, groupTotal df mp t = 0
      · have herr : mechanism smp true algo df = .error .nanQuantity := by
          unfold mechanism splitTransactions
          have := splitAll_zero hids hz
          simp only [if_true, hm, bind, Except.bind, hr]
          rw [show tm.getDf = tm.trans from rfl, this]
        refine ⟨fun hfin => ?_, fun _ => herr⟩
        exfalso
        obtain ⟨t, htt, h0⟩ := hz
        obtain ⟨ids, h2, h3, h4⟩ := hids t htt
        obtain ⟨i, hi⟩ := List.exists_mem_of_ne_nil _ h3
        obtain ⟨e, he, _, hqe⟩ := MergeSpec0.rows_mem (df := df) htt h2 hi
        obtain ⟨q, hq'⟩ := hfin e he
        unfold groupTotal at h0
        rw [h2, Option.getD_some] at h0
        rw [hqe, h0] at hq'
        exact quot_zero_times _ _ q hq'
      · push Not at hz
        have hsplit : splitAll df mp tm.trans = .ok (tm.trans.flatMap (splitT df mp)) := by
          rw [splitAll_ok df mp tm.trans]
          · rfl
          · intro t htt
            obtain ⟨ids, h2, h3, h4⟩ := hids t htt
            refine ⟨ids, h2, h4, fun _ => ?_⟩
            have := hz t htt
            unfold groupTotal at this
            rw [h2, Option.getD_some] at this
            exact this
        refine ⟨fun _ => ⟨TransactionManager.init.addAll (tm.trans.flatMap (splitT df mp)), ?_, ?_⟩, ?_⟩
        · unfold mechanism splitTransactions
          simp only [if_true, hm, bind, Except.bind, hr]
          rw [show tm.getDf = tm.trans from rfl, hsplit]
        · rw [TransactionManager.init_addAll_trans, rows_finite hz]
        · rintro ⟨e, he, hn⟩
          rw [rows_finite hz] at he
          obtain ⟨t, _, rfl⟩ := List.mem_map.mp he
          exact absurd rfl (hn t.quantity)

theorem runs_ids (S : Sorter) (nb : DF) (ht : IsTable nb) (hq : ∀ r ∈ nb, 0 ≤ r.quantity) :
    (∀ tm ex, mechRun (huangAuction S) nb = .ok (tm, ex) → ∀ t ∈ tm.trans, t.bid < nb.length) ∧
    (∀ coin tm ex, mechRun (muda S coin) nb = .ok (tm, ex) → ∀ t ∈ tm.trans, t.bid < nb.length) ∧
    ∀ c choice tm ex, mechRun (p2pRandom c choice) nb = .ok (tm, ex) → ∀ t ∈ tm.trans, t.bid < nb.length := by
  refine ⟨?_, ?_, ?_⟩
  · intro tm ex h t htt
    rcases mechRun_two_sided (huangAuction S) nb with h' | h'
    · rw [h] at h'
      rcases huang_direct_signed S ht hq with h1 | ⟨tm', ps, pb, q, h1, hO, _⟩
      · rw [h1] at h'; cases h'; cases htt
      · rw [h1] at h'; cases h'; exact (hO.trade t htt).id_lt
    · rw [h] at h'; cases h'; cases htt
  · intro coin tm ex h t htt
    exact ((muda_mechRun ht hq h).1.entries t htt).1
  · intro c choice tm ex h t htt
    obtain ⟨tm', ex', h', hC, _⟩ := p2p_conserves c choice ht hq
    rw [h] at h'; cases h'
    exact (hC.entries t htt).1

/-- **C105 (the mark).** `nanQuantity`, the mark of the other model, stands for a log with an entry that is
not a number, and for nothing else: the two models raise the same exceptions, return the same logs if all
quantities are numbers, and the mark appears exactly when some quantity is not. -/
theorem C105_mark (S : Sorter) (smp : Sampler) (call : AlgoCall) (df : DF) (ht : IsTable df)
    (hq : ∀ r ∈ df, 0 ≤ r.quantity) :
    (∀ e, runAlgoV S smp call df = .error e → runAlgo S smp call df = .error e) ∧
    ∀ l ex, runAlgoV S smp call df = .ok (l, ex) →
      ((∀ e ∈ l, ∃ q, e.quantity = .fin q) →
        ∃ tm, runAlgo S smp call df = .ok (tm, ex) ∧ tm.trans.map Transaction.toV = l) ∧
      ((∃ e ∈ l, ∀ q, e.quantity ≠ .fin q) → runAlgo S smp call df = .error .nanQuantity) := by
  cases call with
  | huang => exact mechanismV_agrees smp true _ ht hq (fun nb h1 h2 => (runs_ids S nb h1 h2).1)
  | muda merge coin =>
    exact mechanismV_agrees smp merge _ ht hq (fun nb h1 h2 => (runs_ids S nb h1 h2).2.1 coin)
  | p2p merge c choice =>
    exact mechanismV_agrees smp merge _ ht hq (fun nb h1 h2 => (runs_ids S nb h1 h2).2.2 c choice)
  | other name => exact ⟨fun e he => by cases he; rfl, fun l ex h => by cases h⟩

/-! ### The runs -/

/-- The guarantees of a log with some `NaN` entries: every entry is a number or `NaN`, the `NaN` entries are
exactly those of bids in a price group of total quantity 0, and the others conserve quantities. -/
structure Spec.NanLog (df : DF) (l : List TransV) : Prop where
  num : NumOrNan l
  nan_iff : ∀ e ∈ l, ∃ r ∈ df, e.bid = r.label ∧ (e.quantity = .nan ↔ EmptyGroup df r)
  conserves : Conserves df (proper l)

theorem HuangOut.conserves {df : DF} {ps pb q : ℚ} {ts : List Transaction} (hq : ∀ r ∈ df, 0 ≤ r.quantity)
    (h : HuangOut df ps pb q ts) : Conserves df ts := by
  refine ⟨fun t ht => ⟨(h.trade t ht).id_lt, (h.trade t ht).nonneg⟩, ?_, h.balanced⟩
  intro i
  by_cases hi : ∃ t ∈ ts, t.bid = i
  · obtain ⟨t, htt, rfl⟩ := hi
    have : ts.filter (fun t' => t'.bid == t.bid) = [t] := by
      have hn := h.nodup
      clear h
      induction ts with
      | nil => cases htt
      | cons a ts ih =>
        rw [List.map_cons, List.nodup_cons] at hn
        rcases List.mem_cons.mp htt with rfl | htt'
        · rw [List.filter_cons, if_pos (by simp), List.filter_eq_nil_iff.mpr]
          intro b hb he
          exact hn.1 (List.mem_map.mpr ⟨b, hb, beq_iff_eq.mp he⟩)
        · rw [List.filter_cons, if_neg, ih htt' hn.2]
          intro he
          exact hn.1 (List.mem_map.mpr ⟨t, htt', (beq_iff_eq.mp he).symm⟩)
    unfold tradedBy
    rw [this]
    simpa using (h.trade t htt).le
  · have h0 : tradedBy ts i = 0 := by
      unfold tradedBy
      rw [List.filter_eq_nil_iff.mpr]
      · rfl
      · intro t htt he
        exact hi ⟨t, htt, beq_iff_eq.mp he⟩
    rw [h0]
    exact (conserves_nil hq).bounded i

/-- **C105 (Huang).** On every book with non-negative quantities and prices `Market.run('huang')` returns.
If its log is not empty, a bid has a `NaN` entry exactly if its price group has total quantity 0 and its
rounded price is strictly better than the price of its side; no bid has two entries; the other entries
conserve quantities, are at the reported prices and agree with the reported volume. -/
theorem C105_huang (S : Sorter) (smp : Sampler) (df : DF) (ht : IsTable df) (h : NonNeg df)
    (rd : ℚ → ℚ) (hrd : ∀ p, IsRounded 5 p (rd p)) :
    ∃ l ex, runAlgoV S smp .huang df = .ok (l, ex) ∧ NanLog df l ∧ (l.map (fun e => e.bid)).Nodup ∧
      (l ≠ [] → ∃ ps pb q : ℚ, ex = .huang (ps : Ext) (pb : Ext) q ∧ ps < pb ∧
        q = boughtQty df (proper l) ∧
        (∀ e ∈ l, e.source = -1 ∧ e.active = false ∧
          (isBuy df e.bid = true → e.price = pb ∧ pb < priceOf df e.bid) ∧
          (isSell df e.bid = true → e.price = ps ∧ priceOf df e.bid < ps)) ∧
        ∀ r ∈ df, (∃ e ∈ l, e.bid = r.label ∧ e.quantity = .nan) ↔
          EmptyGroup df r ∧ if r.buying then pb < rd r.price else rd r.price < ps) := by
  obtain rfl : rd = npRound 5 := funext (fun p => isRounded_unique (hrd p) (npRound_isRounded 5 p))
  have hq : ∀ r ∈ df, 0 ≤ r.quantity := fun r hr => (h r hr).1
  obtain ⟨nb, mp, hm, hM⟩ := merge_spec0 smp ht hq
  have nil : ∀ ex, mechRun (huangAuction S) nb = .ok (TransactionManager.init, ex) →
      ∃ l ex, runAlgoV S smp .huang df = .ok (l, ex) ∧ NanLog df l ∧ (l.map (fun e => e.bid)).Nodup ∧
        l = [] := by
    intro ex hr
    have := mechanismV_merge smp (huangAuction S) hm hM hr (by intro t ht; cases ht)
    exact ⟨_, ex, this, ⟨(by intro e he; cases he), (by intro e he; cases he), conserves_nil hq⟩,
      List.nodup_nil, rfl⟩
  rcases mechRun_two_sided (huangAuction S) nb with hr | hr
  swap
  · obtain ⟨l, ex, h1, h2, h3, h4⟩ := nil _ hr
    exact ⟨l, ex, h1, h2, h3, fun hne => absurd h4 hne⟩
  rcases huang_direct S hM.table (hM.nonNeg h) with h1 | ⟨tm, ps, pb, q, h1, hO, hmb, hms, hcompl, hstr⟩
  · obtain ⟨l, ex, h1, h2, h3, h4⟩ := nil _ (hr.trans h1)
    exact ⟨l, ex, h1, h2, h3, fun hne => absurd h4 hne⟩
  have hlt := fun t h => (hO.trade t h).id_lt
  have hC := hO.conserves hM.qty
  have hV := mechanismV_merge smp (huangAuction S) hm hM (hr.trans h1) hlt
  have hz : ∀ t ∈ tm.trans, qtyOf nb t.bid = 0 → t.quantity = 0 := fun t ht h0 =>
    le_antisymm (h0 ▸ hC.le ht) (hC.entries t ht).2
  obtain ⟨hnum, hiff⟩ := hM.rows ht hq hC
  have hstr' := hstr hM.buyPrices hM.sellPrices
  obtain ⟨mb, hmb1, hmb2, hmb3⟩ := hmb
  obtain ⟨ms, hms1, hms2, hms3⟩ := hms
  have origin : ∀ row ∈ nb, ∃ m ∈ df, m.buying = row.buying ∧ npRound 5 m.price = row.price := by
    intro row hrow
    obtain ⟨row', ids, g1, g2, g3, _, _, g6⟩ := hM.get (hM.table.label_lt hrow)
    rw [hM.table.get_label hrow] at g1
    cases g1
    obtain ⟨i, hi⟩ := List.exists_mem_of_ne_nil _ g3
    obtain ⟨r, hr, hb, hround⟩ := g6 i hi
    exact ⟨r, List.mem_of_getElem? hr, hb, hround⟩
  obtain ⟨mb', ob1, ob2, ob3⟩ := origin mb hmb1
  obtain ⟨ms', os1, os2, os3⟩ := origin ms hms1
  refine ⟨_, _, hV, ⟨hnum, hiff, hM.conserves hq hC⟩, hM.rows_nodup hlt hO.nodup, ?_⟩
  intro hne
  have hne' : tm.trans ≠ [] := by
    intro h0; apply hne; rw [h0]; rfl
  have strict : ∀ e ∈ tm.trans.flatMap (splitV df mp), ∀ r, df[e.bid]? = some r →
      (r.buying = true → e.price = pb ∧ pb < npRound 5 r.price) ∧
      (r.buying = false → e.price = ps ∧ npRound 5 r.price < ps) ∧ e.source = -1 ∧ e.active = false := by
    intro e he r hr
    obtain ⟨t, htm, row, r', g1, g2, g3, g4, g5, g6, g7, _⟩ := hM.mem_rows hlt he
    rw [hr] at g2
    cases g2
    have hT := hO.trade t htm
    have hS := hstr' t htm
    rw [isBuy_some g1, isSell_some g1, priceOf_some g1, ← g3, ← g4] at hS
    have b1 := hT.buyer
    have b2 := hT.seller
    rw [isBuy_some g1, ← g3] at b1
    rw [isSell_some g1, ← g3] at b2
    refine ⟨fun hb => ⟨g5.trans (b1 hb).1, hS.1 hb⟩, fun hb => ?_, g6.trans hT.source, g7.trans hT.active⟩
    have hb' : (!r.buying) = true := by rw [hb]; rfl
    exact ⟨g5.trans (b2 hb').1, hS.2 hb'⟩
  refine ⟨ps, pb, q, rfl, hO.lt, ?_, ?_, ?_⟩
  · rw [(hM.proper_sums hlt hz).1]; exact hO.volume hne'
  · intro e he
    obtain ⟨t, htm, row, r, g1, g2, _⟩ := hM.mem_rows hlt he
    obtain ⟨s1, s2, s3, s4⟩ := strict e he r g2
    rw [isBuy_some g2, isSell_some g2, priceOf_some g2]
    refine ⟨s3, s4, fun hb => ⟨(s1 hb).1, ?_⟩, fun hb => ?_⟩
    · have := (s1 hb).2
      rw [← hmb3, ← ob3] at this ⊢
      exact lt_of_lt_npRound this
    · have hb' : r.buying = false := by simpa using hb
      refine ⟨(s2 hb').1, ?_⟩
      have := (s2 hb').2
      rw [← hms3, ← os3] at this ⊢
      exact npRound_lt_of_lt this
  · intro r hr
    constructor
    · rintro ⟨e, he, hb, hn⟩
      obtain ⟨r', hr', hl, hE⟩ := hiff e he
      have : r' = r := ht.inj hr' hr (hl.symm.trans hb)
      subst this
      refine ⟨hE.mp hn, ?_⟩
      obtain ⟨s1, s2, _⟩ := strict e he r' (by rw [hb]; exact ht.get_label hr)
      split_ifs with hbuy
      · exact (s1 hbuy).2
      · exact (s2 (by simpa using hbuy)).2
    · rintro ⟨hE, hp⟩
      obtain ⟨k, ids, hk, hids, hi⟩ := hM.exists_group (ht.label_lt hr)
      obtain ⟨row, ids', g1, g2, g3, g4, g5, g6⟩ := hM.get hk
      rw [hids] at g2
      cases g2
      obtain ⟨r', hr', hb, hround⟩ := g6 _ hi
      rw [ht.get_label hr] at hr'
      cases hr'
      have hrow := List.mem_of_getElem? g1
      have hlab : row.label = k := hM.table.label g1
      have : ∃ t ∈ tm.trans, t.bid = row.label := by
        rw [hround, hb] at hp
        split_ifs at hp with hbuy
        · exact (hcompl hne' row hrow).1 hbuy hp
        · exact (hcompl hne' row hrow).2 (by simpa using hbuy) hp
      obtain ⟨t, htm, hbid⟩ := this
      rw [hlab] at hbid
      obtain ⟨e, he, hei, _⟩ := MergeSpec0.rows_mem (df := df) htm (by rw [hbid]; exact hids) hi
      refine ⟨e, he, hei, ?_⟩
      obtain ⟨r', hr', hl, hE'⟩ := hiff e he
      have : r' = r := ht.inj hr' hr (hl.symm.trans hei)
      subst this
      exact hE'.mpr hE

/-- **C105 (P2P).** `Market.run('p2p', merge=True)` returns on every book with non-negative quantities, its
`NaN` entries are exactly those of bids in a price group of total quantity 0, and the others conserve
quantities. -/
theorem C105_p2p (S : Sorter) (smp : Sampler) (c : ℚ) (choice : ℕ → ℕ) (df : DF) (ht : IsTable df)
    (hq : ∀ r ∈ df, 0 ≤ r.quantity) :
    ∃ l ex, runAlgoV S smp (.p2p true c choice) df = .ok (l, ex) ∧ NanLog df l := by
  obtain ⟨nb, mp, hm, hM⟩ := merge_spec0 smp ht hq
  obtain ⟨tm, ex, hrun, hC, _⟩ := p2p_conserves c choice hM.table hM.qty
  have hV := mechanismV_merge smp (p2pRandom c choice) hm hM hrun (fun t htt => (hC.entries t htt).1)
  obtain ⟨hnum, hiff⟩ := hM.rows ht hq hC
  exact ⟨_, _, hV, hnum, hiff, hM.conserves hq hC⟩

/-- **C105 (MUDA).** The same for `Market.run('muda', merge=True)`, whenever it returns. -/
theorem C105_muda (S : Sorter) (smp : Sampler) (coin : ℕ → Bool) (df : DF) (ht : IsTable df)
    (hq : ∀ r ∈ df, 0 ≤ r.quantity) (l : List TransV) (ex : Extra)
    (h : runAlgoV S smp (.muda true coin) df = .ok (l, ex)) : NanLog df l := by
  obtain ⟨nb, mp, hm, hM⟩ := merge_spec0 smp ht hq
  have h' : mechanismV smp true (muda S coin) df = .ok (l, ex) := h
  cases hr : mechRun (muda S coin) nb with
  | error e =>
    unfold mechanismV at h'
    simp only [if_true, hm, bind, Except.bind, hr] at h'
    cases h'
  | ok o =>
    obtain ⟨tm, ex'⟩ := o
    obtain ⟨hC, _⟩ := muda_mechRun hM.table hM.qty hr
    have hV := mechanismV_merge smp (muda S coin) hm hM hr (fun t htt => (hC.entries t htt).1)
    rw [hV] at h'
    cases h'
    obtain ⟨hnum, hiff⟩ := hM.rows ht hq hC
    exact ⟨hnum, hiff, hM.conserves hq hC⟩

/-! ### The statistics -/

theorem sumStrict_fin {α : Type*} (l : List α) (f : α → Val) (g : α → ℚ) (h : ∀ a ∈ l, f a = .fin (g a)) :
    sumStrict (l.map f) = .fin ((l.map g).sum) := by
  induction l with
  | nil => rfl
  | cons a l ih =>
    have e1 := h a List.mem_cons_self
    have e2 := ih (fun b hb => h b (List.mem_cons_of_mem _ hb))
    unfold sumStrict at e2 ⊢
    rw [List.map_cons, List.foldr_cons, e2, e1]
    rfl

theorem sumStrict_cons (v : Val) (l : List Val) : sumStrict (v :: l) = v.add (sumStrict l) := rfl

theorem add_nan (v : Val) : v.add .nan = .nan := by cases v <;> rfl

theorem times_fin (k q : ℚ) : Val.times k (.fin q) = .fin (k * q) := rfl

theorem times_nan (k : ℚ) : Val.times k .nan = .nan := rfl

theorem add_fin (a b : ℚ) : (Val.fin a).add (.fin b) = .fin (a + b) := rfl

theorem sumSkip_nan (l : List Val) : sumSkip (.nan :: l) = sumSkip l := by
  unfold sumSkip
  rw [List.filter_cons, if_neg (by simp)]

theorem sumSkip_fin (q : ℚ) (l : List Val) : sumSkip (.fin q :: l) = (Val.fin q).add (sumSkip l) := by
  unfold sumSkip
  rw [List.filter_cons, if_pos (by simp), sumStrict_cons]

theorem proper_cons_nan {e : TransV} (he : e.quantity = .nan) (l : List TransV) :
    proper (e :: l) = proper l := by
  unfold proper
  rw [List.filterMap_cons]
  simp [he]

theorem proper_cons_fin {e : TransV} {q : ℚ} (he : e.quantity = .fin q) (l : List TransV) :
    proper (e :: l) = ⟨e.bid, q, e.price, e.source, e.active⟩ :: proper l := by
  unfold proper
  rw [List.filterMap_cons]
  simp [he]

theorem joinBidsV_cons (bids : DF) (e : TransV) (l : List TransV) :
    joinBidsV bids (e :: l) = match bids.find? (fun r => r.label == e.bid) with
      | some r => (e, r) :: joinBidsV bids l
      | none => joinBidsV bids l := by
  unfold joinBidsV
  rw [List.filterMap_cons]
  cases bids.find? (fun r => r.label == e.bid) <;> rfl

theorem joinBids_cons' (bids : DF) (t : Transaction) (l : List Transaction) :
    joinBids bids (t :: l) = match bids.find? (fun r => r.label == t.bid) with
      | some r => (t, r) :: joinBids bids l
      | none => joinBids bids l := by
  unfold joinBids
  rw [List.filterMap_cons]
  cases bids.find? (fun r => r.label == t.bid) <;> rfl

/-- Sums that skip `NaN` are the sums over the proper entries. -/
theorem sumSkip_join (bids : DF) {l : List TransV} (hl : NumOrNan l) (P : Row → Bool) (c : ℚ → Row → ℚ) :
    sumSkip (((joinBidsV bids l).filter (fun p => P p.2)).map
      (fun p => p.1.quantity.times (c p.1.price p.2))) =
    .fin ((((joinBids bids (proper l)).filter (fun p => P p.2)).map
      (fun p => c p.1.price p.2 * p.1.quantity)).sum) := by
  induction l with
  | nil => rfl
  | cons e l ih =>
    have ih := ih (fun e he => hl e (List.mem_cons_of_mem _ he))
    rw [joinBidsV_cons]
    rcases hl e List.mem_cons_self with he | ⟨q, he⟩
    · rw [proper_cons_nan he]
      cases hf : bids.find? (fun r => r.label == e.bid) with
      | none => exact ih
      | some r =>
        simp only
        rw [List.filter_cons]
        split_ifs
        · rw [List.map_cons]
          simp only [he, times_nan]
          rw [sumSkip_nan]
          exact ih
        · exact ih
    · rw [proper_cons_fin he, joinBids_cons']
      cases hf : bids.find? (fun r => r.label == e.bid) with
      | none => exact ih
      | some r =>
        simp only
        rw [List.filter_cons, List.filter_cons]
        simp only
        split_ifs
        · rw [List.map_cons, List.map_cons, List.sum_cons]
          simp only [he, times_fin]
          rw [sumSkip_fin, ih]
          rfl
        · exact ih

/-- Sums that do not skip `NaN` are the same if no entry is `NaN`, and `NaN` otherwise. -/
theorem sumStrict_join (bids : DF) {l : List TransV} (hl : NumOrNan l) (P : Row → Bool) (c : ℚ → Row → ℚ) :
    ((∀ p ∈ joinBidsV bids l, P p.2 = true → p.1.quantity ≠ .nan) →
      sumStrict (((joinBidsV bids l).filter (fun p => P p.2)).map
        (fun p => p.1.quantity.times (c p.1.price p.2))) =
      .fin ((((joinBids bids (proper l)).filter (fun p => P p.2)).map
        (fun p => c p.1.price p.2 * p.1.quantity)).sum)) ∧
    ((∃ p ∈ joinBidsV bids l, P p.2 = true ∧ p.1.quantity = .nan) →
      sumStrict (((joinBidsV bids l).filter (fun p => P p.2)).map
        (fun p => p.1.quantity.times (c p.1.price p.2))) = .nan) := by
  constructor
  · intro h
    rw [← sumSkip_join bids hl P c]
    unfold sumSkip
    congr 1
    symm
    rw [List.filter_eq_self]
    intro v hv
    obtain ⟨p, hp, rfl⟩ := List.mem_map.mp hv
    obtain ⟨hp1, hp2⟩ := List.mem_filter.mp hp
    have hn := h p hp1 hp2
    have hmem : p.1 ∈ l := by
      unfold joinBidsV at hp1
      obtain ⟨e, he, hs⟩ := List.mem_filterMap.mp hp1
      cases hf : bids.find? (fun r => r.label == e.bid) with
      | none => rw [hf] at hs; cases hs
      | some r => rw [hf] at hs; cases hs; exact he
    rcases hl p.1 hmem with h' | ⟨q, h'⟩
    · exact absurd h' hn
    · rw [h']; simp [Val.times]
  · rintro ⟨p, hp, hP, hn⟩
    have hv : Val.nan ∈ ((joinBidsV bids l).filter (fun p => P p.2)).map
        (fun p => p.1.quantity.times (c p.1.price p.2)) :=
      List.mem_map.mpr ⟨p, List.mem_filter.mpr ⟨hp, hP⟩, by rw [hn]; rfl⟩
    generalize ((joinBidsV bids l).filter (fun p => P p.2)).map
        (fun p => p.1.quantity.times (c p.1.price p.2)) = vs at hv ⊢
    induction vs with
    | nil => cases hv
    | cons v vs ih =>
      rw [sumStrict_cons]
      rcases List.mem_cons.mp hv with rfl | hv'
      · rfl
      · rw [ih hv', add_nan]

theorem mem_joinBidsV {bids : DF} (ht : IsTable bids) {l : List TransV} {e : TransV} (he : e ∈ l)
    (hlt : e.bid < bids.length) : ∃ r, (e, r) ∈ joinBidsV bids l := by
  unfold joinBidsV
  have hr : (bids.find? (fun r => r.label == e.bid)).isSome := by
    rw [List.find?_isSome]
    exact ⟨bids[e.bid], List.getElem_mem hlt, by
      rw [beq_iff_eq]; exact ht.label (List.getElem?_eq_getElem hlt)⟩
  obtain ⟨r, hr⟩ := Option.isSome_iff_exists.mp hr
  exact ⟨r, List.mem_filterMap.mpr ⟨e, he, by rw [hr]; rfl⟩⟩

/-- **C106** (partial). On a log of numbers and `NaN`s of submitted bids, the percentages and the profits
of the players are those of the log without the `NaN` entries. The market's profit is `NaN` as soon as one
entry is, because it is a sum of a NumPy array and not of a pandas column. Full statement: all statistics of a run on a
valid book are numbers. Missing: the market's profit if there are `NaN` entries (`C106_refuted`). -/
theorem C106_statistics_partial (solve : Solver) (bids : DF) (ht : IsTable bids) (l : List TransV) (hl : NumOrNan l)
    (hin : ∀ e ∈ l, e.bid < bids.length) (res : Option ResPrices) (fees : Option (List ℚ)) :
    percentageTradedV solve bids l = (percentageTraded solve bids (proper l)).map .fin ∧
    percentageWelfareV solve bids l = (percentageWelfare solve bids (proper l) res).map .fin ∧
    (calculateProfitsV bids l res fees).playerBid =
      (calculateProfits bids (proper l) res fees).1.playerBid.map .fin ∧
    (calculateProfitsV bids l res fees).playerReservation =
      (calculateProfits bids (proper l) res fees).1.playerReservation.map .fin ∧
    ((∃ e ∈ l, e.quantity = .nan) → (calculateProfitsV bids l res fees).market = .nan) ∧
    ((∀ e ∈ l, e.quantity ≠ .nan) → (calculateProfitsV bids l res fees).market =
      .fin (calculateProfits bids (proper l) res fees).1.market) := by
  have hsum : sumSkip (l.map (fun t => t.quantity)) = .fin (((proper l).map (fun t => t.quantity)).sum) := by
    clear hin
    induction l with
    | nil => rfl
    | cons e l ih =>
      have ih := ih (fun e he => hl e (List.mem_cons_of_mem _ he))
      rcases hl e List.mem_cons_self with he | ⟨q, he⟩
      · rw [proper_cons_nan he, List.map_cons, he, sumSkip_nan, ih]
      · rw [proper_cons_fin he, List.map_cons, he, sumSkip_fin, ih, List.map_cons, List.sum_cons]
        rfl
  have huser : ∀ (f : Row → ℚ) (u : ℤ), userProfitV (joinBidsV bids l) f u =
      .fin (userProfit (joinBids bids (proper l)) f u) := by
    intro f u
    have := sumSkip_join bids hl (fun r => decide (r.user = u))
      (fun p r => if !r.buying then -(f r - p) else f r - p)
    exact this
  refine ⟨?_, ?_, ?_, ?_, ?_, ?_⟩
  · unfold percentageTradedV percentageTraded
    simp only [hsum, times_fin]
    split_ifs
    · rw [Option.map_some]; congr 2; ring
    · rfl
  · unfold percentageWelfareV percentageWelfare
    have h1 := sumSkip_join bids hl (fun r => r.buying) (fun p r => r.price - p)
    have h2 := sumSkip_join bids hl (fun r => !r.buying) (fun p r => p - r.price)
    simp only [h1, h2, add_fin, times_fin]
    split_ifs
    · rw [Option.map_some]; congr 2; ring
    · rfl
  · unfold calculateProfitsV calculateProfits
    simp only [List.map_map]
    exact List.map_congr_left (fun u _ => huser _ u)
  · unfold calculateProfitsV calculateProfits
    simp only [List.map_map]
    exact List.map_congr_left (fun u _ => huser _ u)
  · rintro ⟨e, he, hn⟩
    obtain ⟨r, hr⟩ := mem_joinBidsV ht he (hin e he)
    unfold calculateProfitsV
    simp only
    cases hb : r.buying with
    | true =>
      have := (sumStrict_join bids hl (fun r => r.buying) (fun p _ => p)).2 ⟨(e, r), hr, hb, hn⟩
      rw [this]
      rfl
    | false =>
      have := (sumStrict_join bids hl (fun r => !r.buying) (fun p _ => p)).2
        ⟨(e, r), hr, by simp [hb], hn⟩
      rw [this]
      simp only [times_nan, add_nan]
      rfl
  · intro hn
    have hn' : ∀ p ∈ joinBidsV bids l, p.1.quantity ≠ .nan := by
      intro p hp
      unfold joinBidsV at hp
      obtain ⟨e, he, hs⟩ := List.mem_filterMap.mp hp
      cases hf : bids.find? (fun r => r.label == e.bid) with
      | none => rw [hf] at hs; cases hs
      | some r => rw [hf] at hs; cases hs; exact hn e he
    have h1 := (sumStrict_join bids hl (fun r => r.buying) (fun p _ => p)).1 (fun p hp _ => hn' p hp)
    have h2 := (sumStrict_join bids hl (fun r => !r.buying) (fun p _ => p)).1 (fun p hp _ => hn' p hp)
    unfold calculateProfitsV calculateProfits
    simp only [h1, h2, add_fin, times_fin]
    congr 1
    ring

/-! ### Examples -/

/-- A book with two empty price groups in front of the marginal bids: the buyers 0 and 1 (whose prices
round to the same) and the seller 5. -/
def emptyBook : DF := labelFrom 0
  [⟨0, 9, 0, true, 0, true⟩, ⟨0, 9000001 / 1000000, 1, true, 0, true⟩, ⟨2, 8, 2, true, 0, true⟩,
   ⟨1, 5, 3, true, 0, true⟩, ⟨1, 1, 4, false, 0, true⟩, ⟨0, 2, 5, false, 0, true⟩,
   ⟨2, 3, 6, false, 0, true⟩]

/-- The three bids have `NaN` entries in the log of Huang's auction; the others trade 1 unit at 3 and 5. -/
example : IsTable emptyBook ∧ NonNeg emptyBook ∧
    runAlgoV stableSorter headSampler .huang emptyBook = .ok
      ([⟨4, .fin 1, 3, -1, false⟩, ⟨5, .nan, 3, -1, false⟩, ⟨0, .nan, 5, -1, false⟩, ⟨1, .nan, 5, -1, false⟩,
        ⟨2, .fin 1, 5, -1, false⟩], .huang ((3 : ℚ) : Ext) ((5 : ℚ) : Ext) 1) ∧
    runAlgo stableSorter headSampler .huang emptyBook = .error .nanQuantity := by decide +kernel

/-- Its statistics: the market should earn 2, but its profit is `NaN`. -/
example : ((runAlgoV stableSorter headSampler .huang emptyBook).toOption.map
      (fun p => calculateProfitsV emptyBook p.1 none none)) = some
    ⟨[.fin 0, .fin 0, .fin 3, .fin 0, .fin 2, .fin 0, .fin 0],
     [.fin 0, .fin 0, .fin 3, .fin 0, .fin 2, .fin 0, .fin 0], .nan⟩ := by decide +kernel

/-- In P2P they meet others and get `NaN` entries, too. -/
example : ((runAlgoV stableSorter headSampler (.p2p true (1 / 2) (fun _ => 0)) emptyBook).toOption.map
      (fun p => p.1)) = some
    [⟨3, .fin 1, 3, 3, false⟩, ⟨4, .fin 1, 3, 0, false⟩, ⟨2, .fin 0, 5, 4, true⟩, ⟨5, .nan, 5, 1, false⟩,
     ⟨0, .nan, 6, 5, false⟩, ⟨1, .nan, 6, 5, false⟩, ⟨6, .fin 0, 6, 2, true⟩,
     ⟨2, .fin 2, 11 / 2, 5, false⟩, ⟨6, .fin 2, 11 / 2, 1, false⟩] := by decide +kernel

/-- And in MUDA, here with the merged bids 0, 2 and 3 in the left half. -/
example : ((runAlgoV stableSorter headSampler (.muda true (fun i => decide (i = 0 ∨ i = 2 ∨ i = 3)))
      emptyBook).toOption.map (fun p => p.1.map (fun e => (e.bid, e.quantity)))) = some
    [(5, .nan), (6, .fin 2), (2, .fin 2)] := by decide +kernel

/-- **C106**, refuted: on a book that the bundled generator produces, the market's profit is not a number. -/
theorem C106_refuted : ¬ ∀ (S : Sorter) (smp : Sampler) (df : DF), IsTable df → NonNeg df →
    ∀ l ex, runAlgoV S smp .huang df = .ok (l, ex) →
      ∃ q, (calculateProfitsV df l none none).market = .fin q := by
  intro h
  have hr : runAlgoV stableSorter headSampler .huang generatedBook = .ok
      ([⟨3, .nan, 1 / 2, -1, false⟩, ⟨4, .fin (1 / 4), 1 / 2, -1, false⟩,
        ⟨2, .fin (1 / 4), 5 / 4, -1, false⟩], .huang ((1 / 2 : ℚ) : Ext) ((5 / 4 : ℚ) : Ext) (1 / 4)) := by
    decide +kernel
  obtain ⟨q, hq⟩ := h stableSorter headSampler generatedBook (by decide +kernel) (by decide +kernel) _ _ hr
  have : (calculateProfitsV generatedBook [⟨3, .nan, 1 / 2, -1, false⟩, ⟨4, .fin (1 / 4), 1 / 2, -1, false⟩,
        ⟨2, .fin (1 / 4), 5 / 4, -1, false⟩] none none).market = .nan := by decide +kernel
  rw [this] at hq
  cases hq

end PyMarket
