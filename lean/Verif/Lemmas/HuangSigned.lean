import Verif.Lemmas.HuangOutcome

/-! # Lemmas about Huang's auction on books whose prices may be negative -/

set_option autoImplicit false

namespace PyMarket

open Spec

/-- What `intersect_stepwise` returns on the curves of a book, whatever the signs of the prices. -/
theorem intersect_signed (S : Sorter) {df : DF} (h : ∀ r ∈ df, 0 ≤ r.quantity) (k : ℚ) :
    (∃ x : ℚ, supplyAt S df x < demandAt S df x ∧ ∃ v,
      intersectStepwise (demandCurve S df).1 (supplyCurve S df).1 k =
        .ok ⟨some (x : Ext), some (demandIdx S df x), some (supplyIdx S df x), v⟩) ∨
    ∃ v, intersectStepwise (demandCurve S df).1 (supplyCurve S df).1 k = .ok ⟨none, none, none, v⟩ := by
  have hmf : maxX (demandCurve S df).1 = .ok ⊤ := by rw [demandCurve_eq]; exact maxX_stepCurve _ _ _
  have hmg : maxX (supplyCurve S df).1 = .ok ⊤ := by rw [supplyCurve_eq]; exact maxX_stepCurve _ _ _
  have hloop := crossLoop_book S h
  rcases hc : crossPure (demandAt S df) (supplyAt S df)
      (gridXs (demandCurve S df).1 (supplyCurve S df).1 ⊤) none with _ | x
  · right
    rw [hc] at hloop
    unfold intersectStepwise
    simp only [hmf, hmg, bind, Except.bind, min_self, hloop, grid_last S df]
    have h1 := getValue_stepCurve (x := ⊤) le_top 0 (sortAsc S (sells df)) ⊤
    have h2 := getValue_stepCurve (x := ⊤) le_top 0 (sortDesc S (buys df)) ((0 : ℚ) : Ext)
    rw [← supplyCurve_eq, stepVal_top] at h1
    rw [← demandCurve_eq, stepVal_top] at h2
    rw [h1, h2]
    exact ⟨_, rfl⟩
  · left
    rcases crossPure_some _ _ _ hc with h' | ⟨pre, y, post, hsplit, hx1, hy1⟩
    · cases h'
    have hxtop : x ≠ ⊤ := by
      intro he
      rw [he, demandAt_top, supplyAt_top] at hx1
      exact absurd hx1 (not_lt.mpr le_top)
    obtain ⟨q, rfl⟩ := WithTop.ne_top_iff_exists.mp hxtop
    refine ⟨q, hx1, ?_⟩
    rw [hc] at hloop
    unfold intersectStepwise
    simp only [hmf, hmg, bind, Except.bind, min_self, hloop]
    obtain ⟨bg, _, hbg⟩ := stepCurve_get_idx (q : Ext) 0 (sortAsc S (sells df)) ⊤
    obtain ⟨bf, _, hbf⟩ := stepCurve_get_idx (q : Ext) 0 (sortDesc S (buys df)) ((0 : ℚ) : Ext)
    have e1 : argmaxTrue ((demandCurve S df).1.map (fun s => decide ((q : Ext) ≤ s.1))) =
        demandIdx S df q := by rw [demandCurve_eq]; exact argmax_stepCurve _ _ _ _
    have e2 : argmaxTrue ((supplyCurve S df).1.map (fun s => decide ((q : Ext) ≤ s.1))) =
        supplyIdx S df q := by rw [supplyCurve_eq]; exact argmax_stepCurve _ _ _ _
    rw [e1, e2]
    have g1 : (demandCurve S df).1[demandIdx S df q]? = some (bf, demandAt S df q) := by
      rw [demandCurve_eq]; exact hbf
    have g2 : (supplyCurve S df).1[supplyIdx S df q]? = some (bg, supplyAt S df q) := by
      rw [supplyCurve_eq]; exact hbg
    rw [g1, g2]
    exact ⟨_, rfl⟩

/-- The selling bids in front of the marginal one are at most at its price. -/
theorem huangA_signed {S : Sorter} {df : DF} {x ps : ℚ} (hps : supplyAt S df x = (ps : Ext)) :
    ∃ m ∈ df, m.buying = false ∧ m.price = ps ∧
    (∀ r ∈ huangA S df x, r ∈ df ∧ r.buying = false ∧ r.price ≤ ps) ∧
    (((sells df).map (fun r => r.price)).Nodup → ∀ r ∈ huangA S df x, r.price < ps) := by
  rcases stepIdx_row (x : Ext) 0 (sortAsc S (sells df)) ⊤ with ⟨_, h2⟩ | ⟨m, hm1, hm2⟩
  · unfold supplyAt at hps
    rw [h2] at hps
    exact absurd hps (by simp)
  have hmp : m.price = ps := by
    unfold supplyAt at hps; rw [hm2] at hps; exact WithTop.coe_injective hps
  obtain ⟨h1, _⟩ := take_sorted (sortAsc_sorted S (sells df)) hm1
  have hmm := mem_sells.mp (mem_sortAsc.mp (List.mem_of_getElem? hm1))
  have hle : ∀ r ∈ huangA S df x, r ∈ df ∧ r.buying = false ∧ r.price ≤ ps := by
    intro r hr
    have hmem := mem_sells.mp (mem_sortAsc.mp (List.mem_of_mem_take hr))
    exact ⟨hmem.1, hmem.2, by rw [← hmp]; exact h1 r hr⟩
  refine ⟨m, hmm.1, hmm.2, hmp, hle, fun hn r hr => lt_of_le_of_ne (hle r hr).2.2 ?_⟩
  have hn' : ((sortAsc S (sells df)).map (fun r => r.price)).Nodup :=
    ((sortAsc_perm S _).map _).nodup_iff.mpr hn
  obtain ⟨hl, he⟩ := List.getElem?_eq_some_iff.mp hm1
  rw [← List.take_append_drop (supplyIdx S df x) (sortAsc S (sells df)), List.map_append,
    List.nodup_append] at hn'
  rw [← hmp]
  refine (hn'.2.2 _ (List.mem_map_of_mem hr) _ (List.mem_map_of_mem ?_))
  show m ∈ List.drop (stepIdx (x : Ext) 0 (sortAsc S (sells df))) (sortAsc S (sells df))
  rw [List.drop_eq_getElem_cons hl, he]; exact List.mem_cons_self

/-- The buying bids in front of the marginal one are at least at its price, or there is no marginal
one and the price is the 0 at the end of the demand curve. -/
theorem huangB_signed {S : Sorter} {df : DF} {x pb : ℚ} (hpb : demandAt S df x = (pb : Ext)) :
    (∀ r ∈ huangB S df x, r ∈ df ∧ r.buying = true) ∧
    (pb = 0 ∨ ((∃ m ∈ df, m.buying = true ∧ m.price = pb) ∧ (∀ r ∈ huangB S df x, pb ≤ r.price) ∧
      (((buys df).map (fun r => r.price)).Nodup → ∀ r ∈ huangB S df x, pb < r.price))) := by
  refine ⟨fun r hr => mem_buys.mp (mem_sortDesc.mp (List.mem_of_mem_take hr)), ?_⟩
  rcases stepIdx_row (x : Ext) 0 (sortDesc S (buys df)) ((0 : ℚ) : Ext) with ⟨_, h2⟩ | ⟨m, hm1, hm2⟩
  · left
    unfold demandAt at hpb
    rw [h2] at hpb
    exact (WithTop.coe_injective hpb).symm
  right
  have hmp : m.price = pb := by
    unfold demandAt at hpb; rw [hm2] at hpb; exact WithTop.coe_injective hpb
  obtain ⟨h1, _⟩ := take_sorted (sortDesc_sorted S (buys df)) hm1
  have hmm := mem_buys.mp (mem_sortDesc.mp (List.mem_of_getElem? hm1))
  have hle : ∀ r ∈ huangB S df x, pb ≤ r.price := by
    intro r hr; rw [← hmp]; exact h1 r hr
  refine ⟨⟨m, hmm.1, hmm.2, hmp⟩, hle, fun hn r hr => lt_of_le_of_ne (hle r hr) ?_⟩
  have hn' : ((sortDesc S (buys df)).map (fun r => r.price)).Nodup :=
    ((sortDesc_perm S _).map _).nodup_iff.mpr hn
  obtain ⟨hl, he⟩ := List.getElem?_eq_some_iff.mp hm1
  rw [← List.take_append_drop (demandIdx S df x) (sortDesc S (buys df)), List.map_append,
    List.nodup_append] at hn'
  rw [← hmp]
  refine (hn'.2.2 _ (List.mem_map_of_mem hr) _ (List.mem_map_of_mem ?_)).symm
  show m ∈ List.drop (stepIdx (x : Ext) 0 (sortDesc S (buys df))) (sortDesc S (buys df))
  rw [List.drop_eq_getElem_cons hl, he]; exact List.mem_cons_self

/-- What Huang's auction returns, whatever the signs of the prices. -/
theorem huang_cases_signed (S : Sorter) {df : DF} (h : ∀ r ∈ df, 0 ≤ r.quantity) :
    huangAuction S df = .ok (TransactionManager.init, .empty) ∨
    ∃ x ps pb q : ℚ, supplyAt S df x = (ps : Ext) ∧ demandAt S df x = (pb : Ext) ∧ ps < pb ∧
      ((∃ cs cb : ℚ, 0 ≤ cs ∧ 0 ≤ cb ∧
        (cut cs ((huangA S df x).map (fun r => r.quantity))).sum =
          (cut cb ((huangB S df x).map (fun r => r.quantity))).sum ∧
        huangAuction S df = .ok (TransactionManager.init.addAll
          (cutTrans (huangA S df x) cs ps ++ cutTrans (huangB S df x) cb pb),
          .huang (ps : Ext) (pb : Ext) q)) ∨
       huangAuction S df = .ok (TransactionManager.init, .huang (ps : Ext) (pb : Ext) q)) := by
  rcases intersect_signed S h (1 / 2) with ⟨x, hlt, v, he⟩ | ⟨v, he⟩
  · right
    obtain ⟨ps, hps⟩ := WithTop.ne_top_iff_exists.mp (ne_top_of_lt hlt)
    obtain ⟨pb, hpb⟩ := demand_fin S df (x : Ext)
    rw [← hps, hpb] at hlt
    obtain ⟨bg, _, hbg⟩ := stepCurve_get_idx (x : Ext) 0 (sortAsc S (sells df)) ⊤
    obtain ⟨bf, _, hbf⟩ := stepCurve_get_idx (x : Ext) 0 (sortDesc S (buys df)) ((0 : ℚ) : Ext)
    have g1 : (demandCurve S df).1[demandIdx S df x]? = some (bf, ((pb : ℚ) : Ext)) := by
      rw [demandCurve_eq, ← hpb]; exact hbf
    have g2 : (supplyCurve S df).1[supplyIdx S df x]? = some (bg, ((ps : ℚ) : Ext)) := by
      rw [supplyCurve_eq, hps]; exact hbg
    have hqB : ∀ q ∈ (huangB S df x).map (fun r => r.quantity), 0 ≤ q := by
      intro q hq
      obtain ⟨r, hr, rfl⟩ := List.mem_map.mp hq
      exact h r ((huangB_signed hpb).1 r hr).1
    have hqA : ∀ q ∈ (huangA S df x).map (fun r => r.quantity), 0 ≤ q := by
      intro q hq
      obtain ⟨r, hr, rfl⟩ := List.mem_map.mp hq
      obtain ⟨_, _, _, _, hA, _⟩ := huangA_signed hps.symm
      exact h r (hA r hr).1
    have sB0 : 0 ≤ ((huangB S df x).map (fun r => r.quantity)).sum := List.sum_nonneg hqB
    have sA0 : 0 ≤ ((huangA S df x).map (fun r => r.quantity)).sum := List.sum_nonneg hqA
    by_cases hpos : 0 < demandIdx S df x ∧ 0 < supplyIdx S df x
    · have hlenB : demandIdx S df x ≤ (sortDesc S (buys df)).length := by
        rcases stepIdx_row (x : Ext) 0 (sortDesc S (buys df)) ((0 : ℚ) : Ext) with ⟨e, _⟩ | ⟨m, e, _⟩
        · exact e.le
        · exact (List.getElem?_eq_some_iff.mp e).1.le
      have hlenA : supplyIdx S df x ≤ (sortAsc S (sells df)).length := by
        rcases stepIdx_row (x : Ext) 0 (sortAsc S (sells df)) ⊤ with ⟨e, _⟩ | ⟨m, e, _⟩
        · exact e.le
        · exact (List.getElem?_eq_some_iff.mp e).1.le
      have hBne' : (huangB S df x).map (fun r => r.quantity) ≠ [] := by
        intro h'
        have := congrArg List.length h'
        simp only [huangB, List.length_map, List.length_take, List.length_nil] at this
        omega
      have hAne' : (huangA S df x).map (fun r => r.quantity) ≠ [] := by
        intro h'
        have := congrArg List.length h'
        simp only [huangA, List.length_map, List.length_take, List.length_nil] at this
        omega
      by_cases hgap : 0 < ((huangA S df x).map (fun r => r.quantity)).sum -
          ((huangB S df x).map (fun r => r.quantity)).sum
      · obtain ⟨c, hc0, hu, hs, _⟩ := C12_water_filling ((huangA S df x).map (fun r => r.quantity))
          _ hAne' hgap.le (by linarith)
        refine ⟨x, ps, pb, (cut 0 ((huangB S df x).map (fun r => r.quantity))).sum, hps.symm, hpb,
          WithTop.coe_lt_coe.mp hlt, Or.inl ⟨c, 0, hc0, le_refl _, ?_, ?_⟩⟩
        · rw [hs, cut_zero hqB]; ring
        · unfold huangAuction
          simp only [he, bind, Except.bind, g1, g2]
          rw [if_pos hpos]
          simp only [huangA, huangB] at hgap hu hqB ⊢
          rw [if_pos hgap, hu]
          simp only
          rw [huangSideTrans_cut]
          conv_lhs =>
            rw [← cut_zero hqB]
          rw [huangSideTrans_cut, cut_zero hqB]
          rfl
      · obtain ⟨c, hc0, hu, hs, _⟩ := C12_water_filling ((huangB S df x).map (fun r => r.quantity))
          (-(((huangA S df x).map (fun r => r.quantity)).sum -
          ((huangB S df x).map (fun r => r.quantity)).sum)) hBne' (by linarith) (by linarith)
        refine ⟨x, ps, pb, (cut c ((huangB S df x).map (fun r => r.quantity))).sum, hps.symm, hpb,
          WithTop.coe_lt_coe.mp hlt, Or.inl ⟨0, c, le_refl _, hc0, ?_, ?_⟩⟩
        · rw [hs, cut_zero hqA]; ring
        · unfold huangAuction
          simp only [he, bind, Except.bind, g1, g2]
          rw [if_pos hpos]
          simp only [huangA, huangB] at hgap hu hqA ⊢
          rw [if_neg hgap, hu]
          simp only
          rw [huangSideTrans_cut]
          conv_lhs =>
            rw [← cut_zero hqA]
          rw [huangSideTrans_cut]
          rfl
    · refine ⟨x, ps, pb, qsum (huangB S df x), hps.symm, hpb, WithTop.coe_lt_coe.mp hlt, Or.inr ?_⟩
      unfold huangAuction
      simp only [he, bind, Except.bind, g1, g2]
      rw [if_neg hpos]
      rfl
  · left
    unfold huangAuction
    simp only [he, bind, Except.bind]

/-- One transaction of an outcome when prices may be negative. -/
structure SignedTrade (df : DF) (ps pb : ℚ) (t : Transaction) : Prop where
  id_lt : t.bid < df.length
  nonneg : 0 ≤ t.quantity
  le : t.quantity ≤ qtyOf df t.bid
  buyer : isBuy df t.bid = true → t.price = pb ∧ pb ≤ max (priceOf df t.bid) 0
  seller : isSell df t.bid = true → t.price = ps ∧ priceOf df t.bid ≤ ps

/-- An outcome with prices `ps < pb` when prices may be negative. -/
structure SignedOut (df : DF) (ps pb : ℚ) (ts : List Transaction) : Prop where
  lt : ps < pb
  trade : ∀ t ∈ ts, SignedTrade df ps pb t
  nodup : (ts.map (fun t => t.bid)).Nodup
  balanced : boughtQty df ts = soldQty df ts

/-- The outcome of `huang_auction` itself, whatever the signs of the prices. -/
theorem huang_direct_signed (S : Sorter) {df : DF} (ht : IsTable df) (h : ∀ r ∈ df, 0 ≤ r.quantity) :
    huangAuction S df = .ok (TransactionManager.init, .empty) ∨
    ∃ tm, ∃ ps pb q : ℚ,
      huangAuction S df = .ok (tm, .huang (ps : Ext) (pb : Ext) q) ∧ SignedOut df ps pb tm.trans ∧
      (∃ m ∈ df, m.buying = false ∧ m.price = ps) ∧
      (pb = 0 ∨ ∃ m ∈ df, m.buying = true ∧ m.price = pb) ∧
      (((buys df).map (fun r => r.price)).Nodup → ((sells df).map (fun r => r.price)).Nodup →
        ∀ t ∈ tm.trans, (isBuy df t.bid = true → pb = 0 ∨ pb < priceOf df t.bid) ∧
          (isSell df t.bid = true → priceOf df t.bid < ps)) := by
  rcases huang_cases_signed S h with h1 | ⟨x, ps, pb, q, hps, hpb, hlt, hcase⟩
  · left; exact h1
  right
  obtain ⟨ms, hms1, hms2, hms3, sA, sAn⟩ := huangA_signed hps
  obtain ⟨sB, sBp⟩ := huangB_signed hpb
  have hmb : pb = 0 ∨ ∃ m ∈ df, m.buying = true ∧ m.price = pb :=
    sBp.imp id fun h => h.1
  rcases hcase with ⟨cs, cb, hcs, hcb, hsum, heq⟩ | heq
  · refine ⟨_, ps, pb, _, heq, ⟨hlt, ?_, ?_, ?_⟩, ⟨ms, hms1, hms2, hms3⟩, hmb, ?_⟩
    · intro t htr
      rw [TransactionManager.init_addAll_trans] at htr
      rcases List.mem_append.mp htr with h' | h'
      · obtain ⟨r, hr, rfl⟩ := List.mem_map.mp h'
        obtain ⟨g1, g2, g3⟩ := sA r hr
        refine ⟨ht.label_lt g1, le_max_right _ _, ?_, ?_, ?_⟩
        · show max (r.quantity - cs) 0 ≤ qtyOf df r.label
          rw [ht.qty_eq g1]
          exact max_le (by linarith) (h r g1)
        · intro hb; simp only [ht.isBuy_eq g1, g2] at hb; cases hb
        · intro _; exact ⟨rfl, by show priceOf df r.label ≤ ps; rw [ht.price_eq g1]; exact g3⟩
      · obtain ⟨r, hr, rfl⟩ := List.mem_map.mp h'
        obtain ⟨g1, g2⟩ := sB r hr
        refine ⟨ht.label_lt g1, le_max_right _ _, ?_, ?_, ?_⟩
        · show max (r.quantity - cb) 0 ≤ qtyOf df r.label
          rw [ht.qty_eq g1]
          exact max_le (by linarith) (h r g1)
        · intro _
          refine ⟨rfl, ?_⟩
          show pb ≤ max (priceOf df r.label) 0
          rw [ht.price_eq g1]
          rcases sBp with h0 | ⟨_, h0, _⟩
          · rw [h0]; exact le_max_right _ _
          · exact (h0 r hr).trans (le_max_left _ _)
        · intro hb; simp only [ht.isSell_eq g1, g2] at hb; cases hb
    · rw [TransactionManager.init_addAll_trans, List.map_append, List.nodup_append]
      have e : ∀ (rows : DF) (c p : ℚ), (cutTrans rows c p).map (fun t => t.bid) =
          rows.map (fun r => r.label) := by
        intro rows c p; unfold cutTrans; rw [List.map_map]; rfl
      rw [e, e]
      refine ⟨huangA_labels_nodup ht.nodup x, huangB_labels_nodup ht.nodup x, ?_⟩
      intro a ha b hb hab
      obtain ⟨r, hr, rfl⟩ := List.mem_map.mp ha
      obtain ⟨r', hr', rfl⟩ := List.mem_map.mp hb
      have : r = r' := ht.inj (sA r hr).1 (sB r' hr').1 hab
      have f1 := (sA r hr).2.1
      rw [this, (sB r' hr').2] at f1
      cases f1
    · have bB := cutTrans_buys ht sB cb pb
      have bA := cutTrans_sells ht (fun r hr => ⟨(sA r hr).1, (sA r hr).2.1⟩) cs ps
      rw [TransactionManager.init_addAll_trans, boughtQty_append, soldQty_append, bB.1, bB.2.1,
        bA.1, bA.2.1, hsum]
      ring
    · intro nB nA t htr
      rw [TransactionManager.init_addAll_trans] at htr
      rcases List.mem_append.mp htr with h' | h'
      · obtain ⟨r, hr, rfl⟩ := List.mem_map.mp h'
        obtain ⟨g1, g2, g3⟩ := sA r hr
        simp only [ht.isBuy_eq g1, ht.price_eq g1, g2]
        exact ⟨fun hf => (by cases hf), fun _ => sAn nA r hr⟩
      · obtain ⟨r, hr, rfl⟩ := List.mem_map.mp h'
        obtain ⟨g1, g2⟩ := sB r hr
        simp only [ht.isSell_eq g1, ht.price_eq g1, g2]
        exact ⟨fun _ => sBp.imp id (fun h0 => h0.2.2 nB r hr), fun hf => (by cases hf)⟩
  · refine ⟨_, ps, pb, _, heq, ⟨hlt, ?_, ?_, ?_⟩, ⟨ms, hms1, hms2, hms3⟩, hmb, ?_⟩
    · intro t htr; cases htr
    · exact List.nodup_nil
    · rfl
    · intro _ _ t htr; cases htr

/-- The outcome of `Market.run('huang')`, whatever the signs of the prices. -/
theorem huang_market_signed (S : Sorter) (smp : Sampler) {df : DF} (ht : IsTable df)
    (hp : GroupQty df) :
    (∃ tm, runAlgo S smp .huang df = .ok (tm, .empty) ∧ tm.trans = []) ∨
    ∃ tm, ∃ ps pb q : ℚ,
      runAlgo S smp .huang df = .ok (tm, .huang (ps : Ext) (pb : Ext) q) ∧
      SignedOut df ps pb tm.trans := by
  obtain ⟨nb, mp, hm, hM⟩ := merge_spec_qty smp ht hp
  by_cases hside : (buys nb).length ≠ 0 ∧ (buys nb).length ≠ nb.length
  · have hrun : ∀ algo : Algo, mechRun algo nb = algo nb := by
      intro algo; unfold mechRun; simp only; rw [if_pos hside]
    rcases huang_direct_signed S hM.table (fun r hr => (hM.qty r hr).le) with
      h1 | ⟨tm, ps, pb, q, h1, hO, hms, hmb, hstr⟩
    · left
      obtain ⟨tm', e1, e2⟩ := mechanism_merge smp (huangAuction S) hm hM ((hrun _).trans h1)
        (by intro t h; cases h)
      exact ⟨tm', e1, by rw [e2]; rfl⟩
    · right
      have hlt := fun t h => (hO.trade t h).id_lt
      obtain ⟨tm', e1, e2⟩ := mechanism_merge smp (huangAuction S) hm hM ((hrun _).trans h1) hlt
      have origin : ∀ row ∈ nb, ∃ m ∈ df, m.buying = row.buying ∧ npRound 5 m.price = row.price := by
        intro row hrow
        obtain ⟨row', ids, g1, g2, g3, _, _, g6⟩ := hM.get (hM.table.label_lt hrow)
        rw [hM.table.get_label hrow] at g1
        cases g1
        obtain ⟨i, hi⟩ := List.exists_mem_of_ne_nil _ g3
        obtain ⟨r, hr, hb, hround⟩ := g6 i hi
        exact ⟨r, List.mem_of_getElem? hr, hb, hround⟩
      have hstr' := hstr hM.buyPrices hM.sellPrices
      obtain ⟨ms, hms1, hms2, hms3⟩ := hms
      obtain ⟨ms', os1, os2, os3⟩ := origin ms hms1
      have key : ∀ t' ∈ tm'.trans, SignedTrade df ps pb t' := by
        intro t' ht'
        rw [e2] at ht'
        obtain ⟨t, htm, row, r, g1, g2, g3, g4, g5, g6, g7, g8, g9, _⟩ := hM.mem_lift hlt ht'
        have hT := hO.trade t htm
        have hS := hstr' t htm
        have hr0 := (hp.1 r (List.mem_of_getElem? g2))
        have hle := hT.le
        rw [qtyOf_some g1] at hle
        have hfrac : r.quantity / row.quantity ≥ 0 := div_nonneg hr0 g9.le
        have hbuy : isBuy df t'.bid = true → isBuy nb t.bid = true := by
          rw [isBuy_some g2, isBuy_some g1, g3]; exact id
        have hsell : isSell df t'.bid = true → isSell nb t.bid = true := by
          rw [isSell_some g2, isSell_some g1, g3]; exact id
        refine ⟨(List.getElem?_eq_some_iff.mp g2).1, ?_, ?_, ?_, ?_⟩
        · rw [g8]; exact mul_nonneg hT.nonneg hfrac
        · rw [g8, qtyOf_some g2]
          calc t.quantity * (r.quantity / row.quantity)
              ≤ row.quantity * (r.quantity / row.quantity) := mul_le_mul_of_nonneg_right hle hfrac
            _ = r.quantity := by field_simp
        · intro hb
          rw [priceOf_some g2, g5]
          refine ⟨(hT.buyer (hbuy hb)).1, ?_⟩
          rcases hS.1 (hbuy hb) with h0 | h0
          · rw [h0]; exact le_max_right _ _
          · rcases hmb with h0' | ⟨mb, hmb1, hmb2, hmb3⟩
            · rw [h0']; exact le_max_right _ _
            obtain ⟨mb', ob1, ob2, ob3⟩ := origin mb hmb1
            rw [priceOf_some g1, ← g4, ← hmb3, ← ob3] at h0
            rw [← hmb3, ← ob3]
            exact (lt_of_lt_npRound h0).le.trans (le_max_left _ _)
        · intro hb
          rw [priceOf_some g2, g5]
          refine ⟨(hT.seller (hsell hb)).1, ?_⟩
          have h0 := hS.2 (hsell hb)
          rw [priceOf_some g1, ← g4, ← hms3, ← os3] at h0
          rw [← hms3, ← os3]
          exact (npRound_lt_of_lt h0).le
      refine ⟨tm', ps, pb, q, e1, ⟨hO.lt, key, ?_, ?_⟩⟩
      · rw [e2]; exact hM.nodup_lift hlt hO.nodup
      · rw [e2, hM.boughtQty_lift hlt, hM.soldQty_lift hlt]; exact hO.balanced
  · left
    have hrun : mechRun (huangAuction S) nb = .ok (TransactionManager.init, .empty) := by
      unfold mechRun; simp only; rw [if_neg hside]
    obtain ⟨tm', e1, e2⟩ := mechanism_merge smp (huangAuction S) hm hM hrun (by intro t h; cases h)
    exact ⟨tm', e1, by rw [e2]; rfl⟩

theorem SignedOut.paid {df : DF} {ps pb : ℚ} {ts : List Transaction} (h : SignedOut df ps pb ts) :
    paid df ts = boughtQty df ts * pb ∧ received df ts = soldQty df ts * ps := by
  unfold Spec.paid Spec.received Spec.boughtQty Spec.soldQty
  constructor
  · rw [← List.sum_map_mul_right]
    congr 1
    apply List.map_congr_left
    intro t ht
    obtain ⟨h1, h2⟩ := List.mem_filter.mp ht
    rw [((h.trade t h1).buyer h2).1]
  · rw [← List.sum_map_mul_right]
    congr 1
    apply List.map_congr_left
    intro t ht
    obtain ⟨h1, h2⟩ := List.mem_filter.mp ht
    rw [((h.trade t h1).seller h2).1]

theorem SignedOut.budget {df : DF} {ps pb : ℚ} {ts : List Transaction} (h : SignedOut df ps pb ts) :
    received df ts ≤ Spec.paid df ts := by
  have h0 : 0 ≤ boughtQty df ts := by
    apply List.sum_nonneg
    intro y hy
    obtain ⟨t, ht, rfl⟩ := List.mem_map.mp hy
    exact (h.trade t (List.mem_filter.mp ht).1).nonneg
  rw [h.paid.1, h.paid.2, ← h.balanced]
  exact mul_le_mul_of_nonneg_left h.lt.le h0

end PyMarket
