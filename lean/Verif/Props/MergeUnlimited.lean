import Verif.Lemmas.MergeUnlimited
import Verif.Spec.MergeUnlimited
import Verif.Props.MergeMissingPrices

/-! # C129 with merging: unlimited bids in `Market.run(algo='huang')` -/

set_option autoImplicit false

namespace PyMarket

open Spec

variable {qty : ℕ → Ext} {df : DF}

theorem mapped_group {smp : Sampler} {nb : DF} {mp : List (List ℕ)} (h : mergeSamePrice smp df = .ok (nb, mp))
    {k : ℕ} {r : Row} (hr : r ∈ nb) (hk : r.label = k) :
    ∃ b key rows, mp[k]? = some rows ∧ rows ≠ [] ∧ r.price = key ∧
      (∀ i, i ∈ rows ↔ ∃ x ∈ df, x.label = i ∧ x.buying = b ∧ npRound 5 x.price = key) := by
  obtain ⟨gb, i₁, gs, i₂, s1, s2, e⟩ := mergeSamePrice_ok smp df 5
  rw [h] at e
  simp only [Except.ok.injEq, Prod.mk.injEq] at e
  obtain ⟨rfl, rfl⟩ := e
  obtain ⟨j, hj⟩ := List.getElem?_of_mem hr
  have hl := labelFrom_label hj
  rw [labelFrom_getElem?, List.getElem?_map] at hj
  have hjk : j = k := by omega
  subst hjk
  cases hg : (gb ++ gs)[j]? with
  | none => rw [hg] at hj; cases hj
  | some g =>
    rw [hg] at hj
    simp only [Option.map_some, Option.some.injEq] at hj
    have hp : r.price = g.1.price := by rw [← hj]
    rw [List.getElem?_map, hg]
    by_cases hlt : j < gb.length
    · rw [List.getElem?_append_left hlt] at hg
      obtain ⟨h1, h2, _, _⟩ := s1.get hg
      refine ⟨true, g.1.price, g.2, rfl, ?_, hp, ?_⟩
      · rw [h2]
        simpa using groupRows_ne_nil (List.mem_of_getElem? h1)
      · intro i
        rw [h2, List.mem_map]
        constructor
        · rintro ⟨x, hx, rfl⟩
          obtain ⟨hx1, hx2⟩ := mem_groupRows.mp hx
          obtain ⟨hx3, hx4⟩ := List.mem_filter.mp hx1
          exact ⟨x, hx3, rfl, by simpa using hx4, hx2⟩
        · rintro ⟨x, hx, rfl, hb, hq⟩
          exact ⟨x, mem_groupRows.mpr ⟨List.mem_filter.mpr ⟨hx, by simpa using hb⟩, hq⟩, rfl⟩
    · rw [List.getElem?_append_right (not_lt.mp hlt)] at hg
      obtain ⟨h1, h2, _, _⟩ := s2.get hg
      refine ⟨false, g.1.price, g.2, rfl, ?_, hp, ?_⟩
      · rw [h2]
        simpa using groupRows_ne_nil (List.mem_of_getElem? h1)
      · intro i
        rw [h2, List.mem_map]
        constructor
        · rintro ⟨x, hx, rfl⟩
          obtain ⟨hx1, hx2⟩ := mem_groupRows.mp hx
          obtain ⟨hx3, hx4⟩ := List.mem_filter.mp hx1
          exact ⟨x, hx3, rfl, by simpa using hx4, hx2⟩
        · rintro ⟨x, hx, rfl, hb, hq⟩
          exact ⟨x, mem_groupRows.mpr ⟨List.mem_filter.mpr ⟨hx, by simpa using hb⟩, hq⟩, rfl⟩

theorem splitAllU_ok {mp : List (List ℕ)} (ht : IsTable df) (hq : ∀ r ∈ df, 0 < qty r.label) (ts : List Transaction)
    (h : ∀ t ∈ ts, ∃ b key rows, mp[t.bid]? = some rows ∧ rows ≠ [] ∧ (rows.map qty).sum ≠ ⊤ ∧
      (∀ i, i ∈ rows ↔ ∃ x ∈ df, x.label = i ∧ x.buying = b ∧ npRound 5 x.price = key)) :
    ∃ out, splitAllU qty df mp ts = .ok out ∧ ∀ t ∈ out, LimitedTrade qty df t := by
  induction ts with
  | nil => exact ⟨[], rfl, by simp⟩
  | cons t ts ih =>
    obtain ⟨out, ho, hout⟩ := ih (fun s hs => h s (List.mem_cons_of_mem _ hs))
    obtain ⟨b, key, rows, hm, hne, hfin, hrows⟩ := h t List.mem_cons_self
    have hpos : ∀ e ∈ rows.map qty, 0 < e := by
      intro e he
      obtain ⟨i, hi, rfl⟩ := List.mem_map.mp he
      obtain ⟨x, hx, rfl, _⟩ := (hrows i).mp hi
      exact hq x hx
    have h1 : ¬ ∃ i ∈ rows, df.length ≤ i := by
      rintro ⟨i, hi, hle⟩
      obtain ⟨x, hx, rfl, _⟩ := (hrows i).mp hi
      have := ht.get_label hx
      rw [List.getElem?_eq_none hle] at this
      cases this
    have h2 : ¬ ((rows.map qty).sum = 0 ∧ rows ≠ []) := by
      rintro ⟨h0, _⟩
      exact (sum_ext_nonneg hpos).2 (by simpa using hne) h0
    refine ⟨rows.map (fun i =>
      ({ bid := i, quantity := shareU t.quantity (qty i) (rows.map qty).sum, price := t.price, source := t.source,
         active := t.active } : TransU)) ++ out, ?_, ?_⟩
    · simp only [splitAllU, splitOneU, hm, if_neg h1, if_neg h2, bind, Except.bind, ho]
    · intro u hu
      rcases List.mem_append.mp hu with hu | hu
      · obtain ⟨i, hi, rfl⟩ := List.mem_map.mp hu
        refine ⟨?_, ?_⟩
        · have hi' : qty i ≠ ⊤ := sum_ext_top hfin _ (List.mem_map_of_mem hi)
          obtain ⟨a, ha⟩ := WithTop.ne_top_iff_exists.mp hi'
          obtain ⟨c, hc⟩ := WithTop.ne_top_iff_exists.mp hfin
          refine ⟨t.quantity * (a / c), ?_⟩
          simp only
          rw [← ha, ← hc]
          rfl
        · obtain ⟨x, hx, hxl, hxb, hxp⟩ := (hrows i).mp hi
          refine ⟨x, hx, hxl, ?_⟩
          intro r' hr' hb' hp'
          exact sum_ext_top hfin _ (List.mem_map_of_mem
            ((hrows r'.label).mpr ⟨r', hr', rfl, hb'.trans hxb, by rw [hp']; exact hxp⟩))
      · exact hout u hu

theorem mergedQty_nonNeg {smp : Sampler} {nb : DF} {mp : List (List ℕ)} (hm : mergeSamePrice smp df = .ok (nb, mp))
    (h : ∀ r ∈ df, 0 < qty r.label ∧ 0 ≤ r.price) : NonNegU (mergedQty qty mp) nb := by
  intro r hr
  obtain ⟨b, key, rows, h1, h2, h3, h4⟩ := mapped_group hm hr rfl
  constructor
  · unfold mergedQty
    rw [List.getD_eq_getElem?_getD, h1, Option.getD_some]
    apply (sum_ext_nonneg ?_).1
    intro e he
    obtain ⟨i, hi, rfl⟩ := List.mem_map.mp he
    obtain ⟨x, hx, rfl, _⟩ := (h4 i).mp hi
    exact (h x hx).1
  · obtain ⟨i, hi⟩ := List.exists_mem_of_ne_nil _ h2
    obtain ⟨x, hx, _, _, hp⟩ := (h4 i).mp hi
    rw [h3, ← hp]
    exact npRound_nonneg 5 (h x hx).2

/-- **C129 with merging:** with positive quantities, some of them unlimited, `Market.run(algo='huang')` always ends with
finite transactions, and only bids trade that have a limit and share their price with no unlimited bid. -/
theorem C129_merged_huang (S : Sorter) (smp : Sampler) (ht : IsTable df)
    (h : ∀ r ∈ df, 0 < qty r.label ∧ 0 ≤ r.price) :
    ∃ ts e, mechanismHuangU S smp df qty = .ok (ts, e) ∧ ∀ t ∈ ts, LimitedTrade qty df t := by
  obtain ⟨_, _, _, _, _, _, hmerge⟩ := mergeSamePrice_ok smp df 5
  obtain ⟨nb, mp, hm⟩ : ∃ nb mp, mergeSamePrice smp df = .ok (nb, mp) := ⟨_, _, hmerge⟩
  have hq : ∀ r ∈ df, 0 < qty r.label := fun r hr => (h r hr).1
  have hnn := mergedQty_nonNeg hm h
  have hrun : ∃ tm e, mechRun (fun b => huangAuctionU S b (mergedQty qty mp)) nb = .ok (tm, e) ∧
      ∀ t ∈ tm.trans, mergedQty qty mp t.bid ≠ ⊤ ∧ ∃ r ∈ nb, r.label = t.bid := by
    unfold mechRun
    simp only
    split
    · obtain ⟨tm, e, he⟩ := C129_never_stuck S (mergedQty qty mp) nb hnn
      exact ⟨tm, e, he, huangAuctionU_finite he⟩
    · exact ⟨_, _, rfl, fun t ht => by cases ht⟩
  obtain ⟨tm, e, hr, hfin⟩ := hrun
  obtain ⟨out, ho, hl⟩ := splitAllU_ok (mp := mp) ht hq tm.getDf (by
    intro t htt
    obtain ⟨h1, r, hrn, hrl⟩ := hfin t htt
    obtain ⟨b, key, rows, g1, g2, _, g4⟩ := mapped_group hm hrn hrl
    refine ⟨b, key, rows, g1, g2, ?_, g4⟩
    unfold mergedQty at h1
    rw [List.getD_eq_getElem?_getD, g1, Option.getD_some] at h1
    exact h1)
  refine ⟨out, e, ?_, hl⟩
  unfold mechanismHuangU
  simp only [hm, hr, ho, bind, Except.bind]

/-- What changes hands at the price `p` in the auction. -/
def atPrice (p : ℚ) (ts : List Transaction) : ℚ :=
  ((ts.filter (fun t => decide (t.price = p))).map (fun t => t.quantity)).sum

theorem cutTrans_atPrice (rows : DF) (c p p' : ℚ) :
    atPrice p' (cutTrans rows c p) = if p = p' then (cut c (rows.map (fun r => r.quantity))).sum else 0 := by
  unfold atPrice cutTrans cut
  induction rows with
  | nil => simp
  | cons r rows ih =>
    by_cases h : p = p'
    · simp only [List.map_cons, List.filter_cons, h, decide_true, if_true, List.sum_cons] at ih ⊢
      rw [ih]
    · simp only [List.map_cons, List.filter_cons, h, decide_false, if_false] at ih ⊢
      simpa using ih

theorem atPrice_append (p : ℚ) (a b : List Transaction) : atPrice p (a ++ b) = atPrice p a + atPrice p b := by
  simp [atPrice]

theorem huangAuctionU_totals {S : Sorter} {nb : DF} {q : ℕ → Ext} (h : NonNegU q nb) {tm : TransactionManager}
    {e : Extra} (he : huangAuctionU S nb q = .ok (tm, e)) :
    tm.trans = [] ∨ ∃ ps pb v : ℚ, e = .huang (ps : Ext) (pb : Ext) v ∧ ps < pb ∧ atPrice ps tm.trans = v ∧
      atPrice pb tm.trans = v ∧ ∀ t ∈ tm.trans, t.price = ps ∨ t.price = pb := by
  by_cases hn : NoUnlimitedTrade q nb
  · obtain ⟨Q, hQ⟩ := exists_gt (limitedTotal q nb)
    rw [C129_huang_partial S q nb h hn Q hQ] at he
    rcases huang_cases S (withQty_nonNeg h (le_trans (limitedTotal_nonneg h) hQ.le)) with
      ⟨h1, _⟩ | ⟨x, ps, pb, _, _, _, hlt, ⟨_, _, cs, cb, _, _, _, hs, hb, h1⟩ | ⟨_, h1⟩⟩
    · rw [h1] at he
      cases he
      exact Or.inl rfl
    · rw [h1] at he
      simp only [Except.ok.injEq, Prod.mk.injEq] at he
      obtain ⟨rfl, rfl⟩ := he
      right
      refine ⟨ps, pb, _, rfl, hlt, ?_, ?_, ?_⟩
      · rw [TransactionManager.init_addAll_trans, atPrice_append, cutTrans_atPrice, cutTrans_atPrice, if_pos rfl,
          if_neg hlt.ne', add_zero, hs, hb]
      · rw [TransactionManager.init_addAll_trans, atPrice_append, cutTrans_atPrice, cutTrans_atPrice,
          if_neg hlt.ne, if_pos rfl, zero_add]
      · intro t ht
        rw [TransactionManager.init_addAll_trans] at ht
        rcases List.mem_append.mp ht with ht | ht
        · obtain ⟨r, _, rfl⟩ := List.mem_map.mp ht
          exact Or.inl rfl
        · obtain ⟨r, _, rfl⟩ := List.mem_map.mp ht
          exact Or.inr rfl
    · rw [h1] at he
      cases he
      exact Or.inl rfl
  · unfold NoUnlimitedTrade at hn
    push Not at hn
    obtain ⟨r, hr, r', hr', hb, hs, hq, hq', hp⟩ := hn
    rw [C129_huang_blocked S q nb h r r' hr hr' hb hs hq hq' hp.le] at he
    cases he
    exact Or.inl rfl

theorem shares_sum : ∀ {l : List Ext}, (∀ e ∈ l, e ≠ ⊤) → ∃ c : ℚ, l.sum = (c : Ext) ∧
    ∀ (v : ℚ) (d : ℚ), (l.map (fun e => (shareU v e (d : Ext)).toRat)).sum = v * (c / d)
  | [], _ => ⟨0, rfl, by simp⟩
  | e :: l, h => by
    obtain ⟨c, hc, hv⟩ := shares_sum (l := l) (fun x hx => h x (List.mem_cons_of_mem _ hx))
    obtain ⟨a, ha⟩ := WithTop.ne_top_iff_exists.mp (h e List.mem_cons_self)
    refine ⟨a + c, ?_, ?_⟩
    · rw [List.sum_cons, hc, ← ha]
      rfl
    · intro v d
      rw [List.map_cons, List.sum_cons, hv, ← ha]
      show v * (a / d) + v * (c / d) = v * ((a + c) / d)
      ring

theorem splitOneU_total {mp : List (List ℕ)} {t : Transaction} {rows : List ℕ} {out : List TransU}
    (hm : mp[t.bid]? = some rows) (hne : rows ≠ []) (hfin : (rows.map qty).sum ≠ ⊤)
    (h : splitOneU qty df mp t = .ok out) (p : ℚ) : tradedAt p out = atPrice p [t] := by
  unfold splitOneU at h
  simp only [hm] at h
  split at h
  · cases h
  · split at h
    · cases h
    · rename_i hz
      cases h
      obtain ⟨c, hc, hv⟩ := shares_sum (sum_ext_top hfin)
      have hc0 : c ≠ 0 := by
        rintro rfl
        exact hz ⟨hc, hne⟩
      have hsum := hv t.quantity c
      rw [div_self hc0, mul_one, List.map_map] at hsum
      unfold tradedAt atPrice
      rw [List.filter_map, List.map_map, hc]
      by_cases hp : t.price = p
      · simp only [Function.comp_def, hp, decide_true, List.filter_true, List.filter_cons, if_true, List.filter_nil,
          List.map_cons, List.map_nil, List.sum_cons, List.sum_nil, add_zero]
        exact hsum
      · simp [Function.comp_def, hp]

theorem splitAllU_total {mp : List (List ℕ)} (ts : List Transaction) {out : List TransU}
    (h : ∀ t ∈ ts, ∃ rows, mp[t.bid]? = some rows ∧ rows ≠ [] ∧ (rows.map qty).sum ≠ ⊤)
    (ho : splitAllU qty df mp ts = .ok out) (p : ℚ) : tradedAt p out = atPrice p ts := by
  induction ts generalizing out with
  | nil => cases ho; rfl
  | cons t ts ih =>
    simp only [splitAllU, bind, Except.bind] at ho
    cases h1 : splitOneU qty df mp t with
    | error e => rw [h1] at ho; cases ho
    | ok a =>
      rw [h1] at ho
      cases h2 : splitAllU qty df mp ts with
      | error e => rw [h2] at ho; cases ho
      | ok b =>
        rw [h2] at ho
        cases ho
        obtain ⟨rows, g1, g2, g3⟩ := h t List.mem_cons_self
        have e1 := splitOneU_total g1 g2 g3 h1 p
        have e2 := ih (fun s hs => h s (List.mem_cons_of_mem _ hs)) h2
        have e3 := atPrice_append p [t] ts
        rw [List.singleton_append] at e3
        rw [e3, ← e1, ← e2]
        simp [tradedAt]

/-- **C129 with merging:** if anybody trades, what is sold at the sellers' price and what is bought at the buyers' price
are both the reported quantity. -/
theorem C129_merged_totals (S : Sorter) (smp : Sampler) (h : ∀ r ∈ df, 0 < qty r.label ∧ 0 ≤ r.price)
    (ts : List TransU) (e : Extra) (ho : mechanismHuangU S smp df qty = .ok (ts, e)) (hne : ts ≠ []) :
    ∃ ps pb v : ℚ, e = .huang (ps : Ext) (pb : Ext) v ∧ ps < pb ∧ tradedAt ps ts = v ∧ tradedAt pb ts = v := by
  obtain ⟨_, _, _, _, _, _, hmerge⟩ := mergeSamePrice_ok smp df 5
  obtain ⟨nb, mp, hm⟩ : ∃ nb mp, mergeSamePrice smp df = .ok (nb, mp) := ⟨_, _, hmerge⟩
  have hnn := mergedQty_nonNeg hm h
  unfold mechanismHuangU at ho
  simp only [hm, bind, Except.bind] at ho
  cases hr : mechRun (fun b => huangAuctionU S b (mergedQty qty mp)) nb with
  | error e' => rw [hr] at ho; cases ho
  | ok o =>
    rw [hr] at ho
    simp only at ho
    cases hs : splitAllU qty df mp o.1.getDf with
    | error e' => rw [hs] at ho; cases ho
    | ok out =>
      rw [hs] at ho
      simp only [Except.ok.injEq, Prod.mk.injEq] at ho
      obtain ⟨rfl, rfl⟩ := ho
      have hnt : o.1.trans ≠ [] := by
        intro h0
        have h0' : o.1.getDf = [] := h0
        rw [h0'] at hs
        cases hs
        exact hne rfl
      have hau : huangAuctionU S nb (mergedQty qty mp) = .ok (o.1, o.2) := by
        unfold mechRun at hr
        simp only at hr
        split at hr
        · exact hr
        · cases hr
          exact absurd rfl hnt
      have hfin := huangAuctionU_finite hau
      rcases huangAuctionU_totals hnn hau with h0 | ⟨ps, pb, v, e1, e2, e3, e4, _⟩
      · exact absurd h0 hnt
      · have key := splitAllU_total (df := df) (qty := qty) (mp := mp) o.1.getDf (by
          intro t htt
          obtain ⟨h1, r, hrn, hrl⟩ := hfin t htt
          obtain ⟨b, key, rows, g1, g2, _, g4⟩ := mapped_group hm hrn hrl
          refine ⟨rows, g1, g2, ?_⟩
          unfold mergedQty at h1
          rw [List.getD_eq_getElem?_getD, g1, Option.getD_some] at h1
          exact h1) hs
        exact ⟨ps, pb, v, e1, e2, (key ps).trans e3, (key pb).trans e4⟩

theorem merged_row {smp : Sampler} {nb : DF} {mp : List (List ℕ)} (h : mergeSamePrice smp df = .ok (nb, mp)) {x : Row}
    (hx : x ∈ df) : ∃ r ∈ nb, r.buying = x.buying ∧ r.price = npRound 5 x.price ∧
      ∃ rows, mp[r.label]? = some rows ∧ x.label ∈ rows := by
  obtain ⟨gb, i₁, gs, i₂, s1, s2, e⟩ := mergeSamePrice_ok smp df 5
  rw [h] at e
  simp only [Except.ok.injEq, Prod.mk.injEq] at e
  obtain ⟨rfl, rfl⟩ := e
  have fin : ∀ (g : Bid × List ℕ) (j : ℕ), (gb ++ gs)[j]? = some g → g.1.buying = x.buying → g.1.price = npRound 5 x.price → x.label ∈ g.2 →
      ∃ r ∈ labelFrom 0 ((gb ++ gs).map (fun p => p.1)), r.buying = x.buying ∧ r.price = npRound 5 x.price ∧
        ∃ rows, ((gb ++ gs).map (fun p => p.2))[r.label]? = some rows ∧ x.label ∈ rows := by
    intro g j hg hb hp hl
    have hj : (labelFrom 0 ((gb ++ gs).map (fun p => p.1)))[j]? = some ⟨g.1, 0 + j⟩ := by
      rw [labelFrom_getElem?, List.getElem?_map, hg]
      rfl
    refine ⟨_, List.mem_of_getElem? hj, hb, hp, g.2, ?_, hl⟩
    simp only [zero_add, List.getElem?_map, hg, Option.map_some]
  cases hb : x.buying with
  | true =>
    have hxb : x ∈ buys df := mem_buys.mpr ⟨hx, hb⟩
    have hk : npRound 5 x.price ∈ gb.map (fun g => g.1.price) := by
      rw [s1.price]
      exact mem_groupKeys.mpr ⟨x, hxb, rfl⟩
    obtain ⟨g, hg, hgp⟩ := List.mem_map.mp hk
    obtain ⟨j, hj⟩ := List.getElem?_of_mem hg
    obtain ⟨_, h2, _, h4⟩ := s1.get hj
    rw [← hb]
    refine fin g j ?_ (h4.trans hb.symm) hgp ?_
    · rw [List.getElem?_append_left (List.getElem?_eq_some_iff.mp hj).1, hj]
    · rw [h2]
      exact List.mem_map_of_mem (mem_groupRows.mpr ⟨hxb, hgp.symm⟩)
  | false =>
    have hxb : x ∈ sells df := mem_sells.mpr ⟨hx, hb⟩
    have hk : npRound 5 x.price ∈ gs.map (fun g => g.1.price) := by
      rw [s2.price]
      exact mem_groupKeys.mpr ⟨x, hxb, rfl⟩
    obtain ⟨g, hg, hgp⟩ := List.mem_map.mp hk
    obtain ⟨j, hj⟩ := List.getElem?_of_mem hg
    obtain ⟨_, h2, _, h4⟩ := s2.get hj
    rw [← hb]
    refine fin g (gb.length + j) ?_ (h4.trans hb.symm) hgp ?_
    · rw [List.getElem?_append_right (Nat.le_add_right _ _), Nat.add_sub_cancel_left, hj]
    · rw [h2]
      exact List.mem_map_of_mem (mem_groupRows.mpr ⟨hxb, hgp.symm⟩)

theorem huangAuctionU_winners {S : Sorter} {nb : DF} {q : ℕ → Ext} (h : NonNegU q nb) {tm : TransactionManager}
    {ps pb v : ℚ} (he : huangAuctionU S nb q = .ok (tm, .huang (ps : Ext) (pb : Ext) v))
    (hb : ∃ r ∈ nb, r.buying = true ∧ pb < r.price) (hs : ∃ r ∈ nb, r.buying = false ∧ r.price < ps) :
    ∀ r ∈ nb, (if r.buying then pb < r.price else r.price < ps) →
      ∃ t ∈ tm.trans, t.bid = r.label ∧ t.price = if r.buying then pb else ps := by
  by_cases hn : NoUnlimitedTrade q nb
  · obtain ⟨Q, hQ⟩ := exists_gt (limitedTotal q nb)
    have hnn := withQty_nonNeg h (le_trans (limitedTotal_nonneg h) hQ.le)
    have hin : ∀ r ∈ nb, ({ r with quantity := (q r.label).untopD Q } : Row) ∈ withQty q Q nb :=
      fun r hr => List.mem_map_of_mem hr
    rw [C129_huang_partial S q nb h hn Q hQ] at he
    rcases huang_cases S hnn with
      ⟨h1, _⟩ | ⟨x, ps', pb', hc, e1, e2, _, ⟨_, _, cs, cb, _, _, _, _, _, h1⟩ | ⟨h0, h1⟩⟩
    · rw [h1] at he
      cases he
    · rw [h1] at he
      simp only [Except.ok.injEq, Prod.mk.injEq, Extra.huang.injEq, WithTop.coe_inj] at he
      obtain ⟨rfl, rfl, rfl, _⟩ := he
      intro r hr hcmp
      cases hrb : r.buying with
      | true =>
        rw [hrb] at hcmp
        refine ⟨⟨r.label, max ((q r.label).untopD Q - cb) 0, pb', -1, false⟩, ?_, rfl, by simp⟩
        · rw [TransactionManager.init_addAll_trans]
          exact List.mem_append_right _ (List.mem_map.mpr ⟨_,
            ((huangB_spec hnn hc e2).2 _ (hin r hr) hrb (by simpa using hcmp)), rfl⟩)
      | false =>
        rw [hrb] at hcmp
        refine ⟨⟨r.label, max ((q r.label).untopD Q - cs) 0, ps', -1, false⟩, ?_, rfl, by simp⟩
        · rw [TransactionManager.init_addAll_trans]
          exact List.mem_append_left _ (List.mem_map.mpr ⟨_,
            ((huangA_spec hc e1).2 _ (hin r hr) hrb (by simpa using hcmp)), rfl⟩)
    · rw [h1] at he
      simp only [Except.ok.injEq, Prod.mk.injEq, Extra.huang.injEq, WithTop.coe_inj] at he
      obtain ⟨_, rfl, rfl, _⟩ := he
      obtain ⟨r, hr, g1, g2⟩ := hb
      obtain ⟨r', hr', g3, g4⟩ := hs
      have m1 := (huangB_spec hnn hc e2).2 _ (hin r hr) g1 g2
      have m2 := (huangA_spec hc e1).2 _ (hin r' hr') g3 g4
      rcases h0 with h0 | h0
      · rw [h0] at m1; cases m1
      · rw [h0] at m2; cases m2
  · unfold NoUnlimitedTrade at hn
    push Not at hn
    obtain ⟨r, hr, r', hr', hb', hs', hq, hq', hp⟩ := hn
    rw [C129_huang_blocked S q nb h r r' hr hr' hb' hs' hq hq' hp.le] at he
    cases he

theorem splitAllU_mem {mp : List (List ℕ)} (ts : List Transaction) {out : List TransU}
    (ho : splitAllU qty df mp ts = .ok out) {t : Transaction} (htt : t ∈ ts) {rows : List ℕ}
    (hm : mp[t.bid]? = some rows) {i : ℕ} (hi : i ∈ rows) : ∃ u ∈ out, u.bid = i ∧ u.price = t.price := by
  induction ts generalizing out with
  | nil => cases htt
  | cons s ts ih =>
    simp only [splitAllU, bind, Except.bind] at ho
    cases h1 : splitOneU qty df mp s with
    | error e => rw [h1] at ho; cases ho
    | ok a =>
      rw [h1] at ho
      cases h2 : splitAllU qty df mp ts with
      | error e => rw [h2] at ho; cases ho
      | ok b =>
        rw [h2] at ho
        cases ho
        rcases List.mem_cons.mp htt with rfl | htt
        · unfold splitOneU at h1
          simp only [hm] at h1
          split at h1
          · cases h1
          · split at h1
            · cases h1
            · cases h1
              exact ⟨_, List.mem_append_left _ (List.mem_map_of_mem hi), rfl, rfl⟩
        · obtain ⟨u, hu, hu'⟩ := ih h2 htt
          exact ⟨u, List.mem_append_right _ hu, hu'⟩

/-- **C129 with merging:** with a buyer above the buyers' price and a seller below the sellers' price (after rounding),
all such buyers and sellers trade, at these prices. -/
theorem C129_merged_winners (S : Sorter) (smp : Sampler) (h : ∀ r ∈ df, 0 < qty r.label ∧ 0 ≤ r.price)
    (ts : List TransU) (ps pb v : ℚ) (ho : mechanismHuangU S smp df qty = .ok (ts, .huang (ps : Ext) (pb : Ext) v))
    (hb : ∃ r ∈ df, r.buying = true ∧ ∃ y, IsRounded 5 r.price y ∧ pb < y)
    (hs : ∃ r ∈ df, r.buying = false ∧ ∃ y, IsRounded 5 r.price y ∧ y < ps) (r : Row) (hr : r ∈ df)
    (hw : ∃ y, IsRounded 5 r.price y ∧ if r.buying then pb < y else y < ps) :
    ∃ t ∈ ts, t.bid = r.label ∧ t.price = if r.buying then pb else ps := by
  obtain ⟨_, _, _, _, _, _, hmerge⟩ := mergeSamePrice_ok smp df 5
  obtain ⟨nb, mp, hm⟩ : ∃ nb mp, mergeSamePrice smp df = .ok (nb, mp) := ⟨_, _, hmerge⟩
  have hnn := mergedQty_nonNeg hm h
  have hmb : ∃ r ∈ nb, r.buying = true ∧ pb < r.price := by
    obtain ⟨a, ha, hab, y, hy, hlt⟩ := hb
    obtain ⟨m, m1, m2, m3, _⟩ := merged_row hm ha
    exact ⟨m, m1, m2.trans hab, by rw [m3, isRounded_unique (npRound_isRounded 5 _) hy]; exact hlt⟩
  have hms : ∃ r ∈ nb, r.buying = false ∧ r.price < ps := by
    obtain ⟨a, ha, hab, y, hy, hlt⟩ := hs
    obtain ⟨m, m1, m2, m3, _⟩ := merged_row hm ha
    exact ⟨m, m1, m2.trans hab, by rw [m3, isRounded_unique (npRound_isRounded 5 _) hy]; exact hlt⟩
  unfold mechanismHuangU at ho
  simp only [hm, bind, Except.bind] at ho
  cases hr' : mechRun (fun b => huangAuctionU S b (mergedQty qty mp)) nb with
  | error e' => rw [hr'] at ho; cases ho
  | ok o =>
    rw [hr'] at ho
    simp only at ho
    cases hs' : splitAllU qty df mp o.1.getDf with
    | error e' => rw [hs'] at ho; cases ho
    | ok out =>
      rw [hs'] at ho
      simp only [Except.ok.injEq, Prod.mk.injEq] at ho
      obtain ⟨rfl, ho⟩ := ho
      have hau : huangAuctionU S nb (mergedQty qty mp) = .ok (o.1, .huang (ps : Ext) (pb : Ext) v) := by
        rw [← ho]
        unfold mechRun at hr'
        simp only at hr'
        split at hr'
        · exact hr'
        · cases hr'
          cases ho
      obtain ⟨m, m1, m2, m3, rows, m4, m5⟩ := merged_row hm hr
      obtain ⟨y, hy, hcmp⟩ := hw
      obtain ⟨t, ht1, ht2, ht3⟩ := huangAuctionU_winners hnn hau hmb hms m m1 (by
        rw [m2, m3, isRounded_unique (npRound_isRounded 5 _) hy]
        exact hcmp)
      rw [← ht2] at m4
      obtain ⟨u, hu, u1, u2⟩ := splitAllU_mem _ hs' ht1 m4 m5
      exact ⟨u, hu, u1, by rw [u2, ht3, m2]⟩

/-- Buyers @ 10 and @ 9, an unlimited buyer @ 8, a limited buyer @ 8, sellers @ 2 and @ 3. -/
def unlimitedMergeBook : DF := labelFrom 0 [⟨0, 10, 0, true, 0, true⟩, ⟨0, 9, 1, true, 0, true⟩,
  ⟨0, 8, 2, true, 0, true⟩, ⟨0, 8, 3, true, 0, true⟩, ⟨0, 2, 4, false, 0, true⟩, ⟨0, 3, 5, false, 0, true⟩]

/-- Its quantities. -/
def unlimitedMergeQty : ℕ → Ext := fun i =>
  [((1 : ℚ) : Ext), ((1 : ℚ) : Ext), ⊤, ((1 : ℚ) : Ext), ((3 : ℚ) : Ext), ((5 : ℚ) : Ext)].getD i 0

example : IsTable unlimitedMergeBook ∧ (∀ r ∈ unlimitedMergeBook, 0 < unlimitedMergeQty r.label ∧ 0 ≤ r.price) ∧
    (mechanismHuangU stableSorter firstOfGroup unlimitedMergeBook unlimitedMergeQty).toOption.map
      (fun o => o.1.map (fun t => (t.bid, t.quantity, t.price))) =
        some [(4, .fin 2, 3), (0, .fin 1, 8), (1, .fin 1, 8)] ∧
    (mechanismHuangU stableSorter firstOfGroup unlimitedMergeBook unlimitedMergeQty).toOption.map (fun o => o.2) =
        some (.huang ((3 : ℚ) : Ext) ((8 : ℚ) : Ext) 2) := by
  refine ⟨?_, ?_, ?_, ?_⟩ <;> decide +kernel

example : (∃ r ∈ unlimitedMergeBook, r.buying = true ∧ ∃ y, IsRounded 5 r.price y ∧ 8 < y) ∧
    (∃ r ∈ unlimitedMergeBook, r.buying = false ∧ ∃ y, IsRounded 5 r.price y ∧ y < 3) := by
  have h1 : ∃ r ∈ unlimitedMergeBook, r.buying = true ∧ 8 < npRound 5 r.price := by decide +kernel
  have h2 : ∃ r ∈ unlimitedMergeBook, r.buying = false ∧ npRound 5 r.price < 3 := by decide +kernel
  obtain ⟨r, a, b, c⟩ := h1
  obtain ⟨r', a', b', c'⟩ := h2
  exact ⟨⟨r, a, b, _, npRound_isRounded 5 _, c⟩, ⟨r', a', b', _, npRound_isRounded 5 _, c'⟩⟩

end PyMarket
