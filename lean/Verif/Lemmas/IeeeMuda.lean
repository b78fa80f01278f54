import Verif.Lemmas.IeeeHuang

/-! # MUDA and the bounded exponent -/

set_option autoImplicit false

namespace PyMarket

open Spec

variable {A : Arith}

/-- The price of a half. -/
def PriceBd (v : Val) : Prop := ∀ p, v = .fin p → Bd 201 260 2 p

theorem PriceBd.toRat {v : Val} (h : PriceBd v) : Bd 201 260 2 v.toRat := by
  cases v with
  | fin p => exact h p rfl
  | inf => exact Bd.zero _ _ _
  | ninf => exact Bd.zero _ _ _
  | nan => exact Bd.zero _ _ _

theorem findCompetitivePriceF_bin (hA : IsIeee A) (S : Sorter) {df : DF} (hb : BookBd df) :
    findCompetitivePriceF A S df = findCompetitivePriceF float64 S df ∧
      ∀ v, findCompetitivePriceF float64 S df = .ok v → PriceBd v := by
  obtain ⟨h1, h2⟩ := intersectStepwiseF_bin hA (demandCurveF_bd S hb) (supplyCurveF_bd S hb)
  unfold findCompetitivePriceF
  rw [demandCurveF_bin hA S hb, supplyCurveF_bin hA S hb, h1]
  refine ⟨rfl, ?_⟩
  intro v hv
  cases h : intersectStepwiseF float64 (demandCurveF float64 S df) (supplyCurveF float64 S df) (1 / 2) with
  | error e => rw [h] at hv; cases hv
  | ok i => rw [h] at hv; cases hv; exact h2 i h

theorem lastIndexF_bin (hA : IsIeee A) (s : Summer A) {e m : ℕ} (he : e ≤ 1074) (hm : m ≤ 970) {l : List ℚ}
    (hl : ∀ x ∈ l, Bd e m 1 x) (hn : l.length ≤ 2 ^ 53) (Q : ℚ) :
    lastIndexF A s l Q = lastIndexF float64 s.toBin l Q := by
  unfold lastIndexF
  rw [s.toBin_sum hA he hm hl hn, cumsumF_bin hA he hm hl hn]

theorem qty_bd {l : DF} {e m : ℕ} (hl : ∀ r ∈ l, Bd e m 1 r.quantity) :
    ∀ x ∈ l.map (fun r => r.quantity), Bd e m 1 x := by
  intro x hx
  obtain ⟨r, hr, rfl⟩ := List.mem_map.mp hx
  exact hl r hr

theorem getTradingBidsF_bin (hA : IsIeee A) (s : Summer A) {rows : DF} {Q : ℚ} (hb : BookBd rows)
    (hQ : Bd 200 260 (2 ^ 50) Q) :
    getTradingBidsF A s rows Q = getTradingBidsF float64 s.toBin rows Q ∧
      ∀ rows' k, getTradingBidsF float64 s.toBin rows Q = .ok (rows', k) →
        rows'.length ≤ 2 ^ 51 ∧ (∀ r ∈ rows', Bd 200 313 1 r.quantity) ∧ ∀ r ∈ rows', Bd 200 260 1 r.price := by
  have hall := qty_bd hb.qty
  have hlen : (rows.map (fun r => r.quantity)).length ≤ 2 ^ 50 := by rw [List.length_map]; exact hb.len
  unfold getTradingBidsF
  by_cases h0 : rows = [] ∧ Q < 0
  · rw [if_pos h0, if_pos h0]
    exact ⟨rfl, fun _ _ h => by cases h⟩
  · rw [if_neg h0, if_neg h0]
    simp only
    rw [lastIndexF_bin hA s (by norm_num) (by norm_num) hall (hlen.trans (by norm_num))]
    generalize lastIndexF float64 s.toBin (rows.map (fun r => r.quantity)) Q = k
    cases hk : rows[k]? with
    | none => exact ⟨rfl, fun _ _ h => by cases h⟩
    | some row =>
      simp only
      have hmem := List.mem_of_getElem? hk
      have ht := qty_take_bd hb.qty k
      have htl : ((rows.take k).map (fun r => r.quantity)).length ≤ 2 ^ 50 := by
        rw [List.length_map]
        exact (List.length_take_le' _ _).trans hb.len
      rw [s.toBin_sum hA (by norm_num) (by norm_num) ht (htl.trans (by norm_num))]
      have hd : Bd 200 260 (2 ^ 51) (Q - s.toBin.sum ((rows.take k).map (fun r => r.quantity))) :=
        (hQ.sub ((s.toBin.isSum _).bd ht (htl.trans (by norm_num)))).mono le_rfl le_rfl (by omega)
      rw [hA.rnd (hd.safe (by norm_num) (by norm_num) (by norm_num))]
      have hd' := (hd.rnd (by norm_num)).lift 51 le_rfl
      generalize float64.rnd (Q - s.toBin.sum ((rows.take k).map (fun r => r.quantity))) = d at hd' ⊢
      have hr : Bd 200 311 2 (row.quantity - d) :=
        ((hb.qty row hmem).mono le_rfl (by norm_num) le_rfl).sub hd'
      rw [hA.rnd (hr.safe (by norm_num) (by norm_num) (by norm_num))]
      refine ⟨rfl, ?_⟩
      intro rows' k' h
      have hlen' := hb.len
      by_cases hlt : d < row.quantity
      · rw [if_pos hlt] at h
        cases h
        refine ⟨?_, ?_, ?_⟩
        · simp only [List.length_append, List.length_cons, List.length_take, List.length_drop]
          omega
        · intro r hr'
          simp only [List.mem_append, List.mem_cons] at hr'
          rcases hr' with h | rfl | rfl | h
          · exact (hb.qty r (List.mem_of_mem_take h)).mono le_rfl (by norm_num) le_rfl
          · exact hd'.mono le_rfl (by norm_num) le_rfl
          · exact ((hr.rnd (by norm_num)).lift 1 (by norm_num)).mono le_rfl (by norm_num) le_rfl
          · exact (hb.qty r (List.mem_of_mem_drop h)).mono le_rfl (by norm_num) le_rfl
        · intro r hr'
          simp only [List.mem_append, List.mem_cons] at hr'
          rcases hr' with h | rfl | rfl | h
          · exact hb.price r (List.mem_of_mem_take h)
          · exact hb.price row hmem
          · exact hb.price row hmem
          · exact hb.price r (List.mem_of_mem_drop h)
      · rw [if_neg hlt] at h
        cases h
        exact ⟨by omega, fun r h => (hb.qty r h).mono le_rfl (by norm_num) le_rfl, hb.price⟩

theorem capLast_bd {d : ℚ} {e m : ℕ} (hd : Bd e m 1 d) {l : List (Row × ℕ)}
    (hl : ∀ p ∈ l, Bd e m 1 p.1.quantity) :
    ∀ p ∈ capLast d l, Bd e m 1 p.1.quantity ∧ ∃ p' ∈ l, p.1.price = p'.1.price := by
  induction l with
  | nil => simp [capLast]
  | cons a l ih =>
    cases l with
    | nil =>
      intro p hp
      unfold capLast at hp
      split at hp
      · simp only [List.mem_singleton] at hp
        subst hp
        exact ⟨hd, a, by simp, rfl⟩
      · simp only [List.mem_singleton] at hp
        subst hp
        exact ⟨hl _ (by simp), _, by simp, rfl⟩
    | cons b l =>
      intro p hp
      unfold capLast at hp
      rcases List.mem_cons.mp hp with rfl | hp
      · exact ⟨hl _ (by simp), _, List.mem_cons_self, rfl⟩
      · obtain ⟨h1, p', h2, h3⟩ := ih (fun q hq => hl q (List.mem_cons_of_mem _ hq)) p hp
        exact ⟨h1, p', List.mem_cons_of_mem _ h2, h3⟩

theorem capLast_length_le (d : ℚ) (l : List (Row × ℕ)) : (capLast d l).length ≤ l.length := by
  induction l with
  | nil => simp [capLast]
  | cons a l ih =>
    cases l with
    | nil => unfold capLast; split <;> simp
    | cons b l =>
      unfold capLast
      simp only [List.length_cons] at ih ⊢
      omega

theorem computeFeeF_bin (hA : IsIeee A) (o : Summer A) {rows : DF} (hlen : rows.length ≤ 2 ^ 51)
    (hq : ∀ r ∈ rows, Bd 200 313 1 r.quantity) (hp : ∀ r ∈ rows, Bd 200 260 1 r.price) {Q p : ℚ}
    (hQ : Bd 200 260 (2 ^ 50) Q) (hprice : Bd 201 260 2 p) (k : ℕ) (u : ℤ) :
    computeFeeF A o rows k u Q p = computeFeeF float64 o.toBin rows k u Q p := by
  have hmem : ∀ x ∈ withoutUser rows u, x.1 ∈ rows := by
    intro x hx
    have := (List.mem_filter.mp hx).1
    exact List.fst_mem_of_mem_zipIdx this
  have hol : (withoutUser rows u).length ≤ 2 ^ 51 := by
    refine (List.length_filter_le _ _).trans ?_
    rw [List.length_zipIdx]; exact hlen
  have hoq : ∀ x ∈ (withoutUser rows u).map (fun p => p.1.quantity), Bd 200 313 1 x := by
    intro x hx
    obtain ⟨y, hy, rfl⟩ := List.mem_map.mp hx
    exact hq _ (hmem y hy)
  unfold computeFeeF
  by_cases h0 : withoutUser rows u = []
  · rw [if_pos h0, if_pos h0]
  · rw [if_neg h0, if_neg h0]
    simp only
    rw [lastIndexF_bin hA o (by norm_num) (by norm_num) hoq (by rw [List.length_map]; exact hol.trans (by norm_num))]
    generalize lastIndexF float64 o.toBin ((withoutUser rows u).map (fun p => p.1.quantity)) Q = j
    have hw : ∀ x ∈ (withoutUser rows u).take (j + 1), x.1 ∈ rows := fun x hx =>
      hmem x (List.mem_of_mem_take hx)
    have hwl : ((withoutUser rows u).take (j + 1)).length ≤ 2 ^ 51 := (List.length_take_le' _ _).trans hol
    generalize (withoutUser rows u).take (j + 1) = W at hw hwl
    have hs : ∀ x ∈ W.dropLast.map (fun p => p.1.quantity), Bd 200 313 1 x := by
      intro x hx
      obtain ⟨y, hy, rfl⟩ := List.mem_map.mp hx
      exact hq _ (hw y (List.mem_of_mem_dropLast hy))
    have hsl : (W.dropLast.map (fun p => p.1.quantity)).length ≤ 2 ^ 51 := by
      rw [List.length_map, List.length_dropLast]; omega
    rw [o.toBin_sum hA (by norm_num) (by norm_num) hs (hsl.trans (by norm_num))]
    have hd : Bd 200 313 (2 ^ 52) (Q - o.toBin.sum (W.dropLast.map (fun p => p.1.quantity))) :=
      ((hQ.mono le_rfl (by norm_num) le_rfl).sub ((o.toBin.isSum _).bd hs (hsl.trans (by norm_num)))).mono
        le_rfl le_rfl (by omega)
    rw [hA.rnd (hd.safe (by norm_num) (by norm_num) (by norm_num))]
    have hd' := (hd.rnd (by norm_num)).lift 52 le_rfl
    generalize float64.rnd (Q - o.toBin.sum (W.dropLast.map (fun p => p.1.quantity))) = d at hd' ⊢
    have hcap := capLast_bd hd' (l := W) (fun x hx => (hq _ (hw x hx)).mono le_rfl (by norm_num) le_rfl)
    have hcl := (capLast_length_le d W).trans hwl
    generalize capLast d W = C at hcap hcl
    have hgain : ∀ x ∈ C.filter (fun p => decide (k < p.2)), Bd 201 260 3 (x.1.price - p) ∧
        Bd 401 625 3 (float64.rnd (x.1.price - p) * x.1.quantity) := by
      intro x hx
      obtain ⟨h1, x', h2, h3⟩ := hcap x (List.mem_filter.mp hx).1
      have h4 : Bd 201 260 3 (x.1.price - p) := by
        rw [h3]
        exact ((hp _ (hw x' h2)).mono (by norm_num) le_rfl le_rfl).sub hprice
      exact ⟨h4, by simpa using (h4.rnd (by norm_num)).mul h1⟩
    have he : (C.filter (fun p => decide (k < p.2))).map (fun x => A.rnd (A.rnd (x.1.price - p) * x.1.quantity)) =
        (C.filter (fun p => decide (k < p.2))).map
          (fun x => float64.rnd (float64.rnd (x.1.price - p) * x.1.quantity)) := by
      apply List.map_congr_left
      intro x hx
      obtain ⟨h1, h2⟩ := hgain x hx
      rw [hA.rnd (h1.safe (by norm_num) (by norm_num) (by norm_num)),
        hA.rnd (h2.safe (by norm_num) (by norm_num) (by norm_num))]
    rw [he, o.toBin_sum hA (e := 401) (m := 627) (by norm_num) (by norm_num)]
    · intro x hx
      obtain ⟨y, hy, rfl⟩ := List.mem_map.mp hx
      exact ((hgain y hy).2.rnd (by norm_num)).lift 2 (by norm_num)
    · rw [List.length_map]
      exact (List.length_filter_le _ _).trans (hcl.trans (by norm_num))

theorem feeLoopF_bin (hA : IsIeee A) (o : Summer A) {rows : DF} (hlen : rows.length ≤ 2 ^ 51)
    (hq : ∀ r ∈ rows, Bd 200 313 1 r.quantity) (hp : ∀ r ∈ rows, Bd 200 260 1 r.price) {Q p : ℚ}
    (hQ : Bd 200 260 (2 ^ 50) Q) (hprice : Bd 201 260 2 p) (k : ℕ) (us : List ℤ) (fees : List ℚ) :
    feeLoopF A o rows k Q p us fees = feeLoopF float64 o.toBin rows k Q p us fees := by
  induction us generalizing fees with
  | nil => rfl
  | cons u us ih => simp only [feeLoopF, computeFeeF_bin hA o hlen hq hp hQ hprice, ih]

theorem mem_tradingTrans_qty {rows : DF} {k : ℕ} {p : ℚ} {t : Transaction} (h : t ∈ tradingTrans rows k p) :
    ∃ r ∈ rows, t.quantity = r.quantity := by
  obtain ⟨x, hx, rfl⟩ := List.mem_map.mp h
  exact ⟨x.1, List.fst_mem_of_mem_zipIdx (List.mem_filter.mp hx).1, rfl⟩

theorem BookBd.sub {df H : DF} (hb : BookBd df) (hmem : ∀ r ∈ H, r ∈ df) (hlen : H.length ≤ df.length) :
    BookBd H :=
  ⟨hlen.trans hb.len, fun r h => hb.price r (hmem r h), fun r h => hb.qty r (hmem r h)⟩

theorem solveSideF_bin (hA : IsIeee A) (s o : Summer A) (S : Sorter) {H : DF} (hb : BookBd H) {v : Val}
    (hv : PriceBd v) (fees : List ℚ) :
    solveSideF A s o S H v fees = solveSideF float64 s.toBin o.toBin S H v fees ∧
      ∀ tm fees', solveSideF float64 s.toBin o.toBin S H v fees = .ok (tm, fees') →
        ∀ t ∈ tm.trans, Bd 302 320 1 t.quantity := by
  have hD : BookBd (willingDemand S H v) := by
    refine hb.sub (fun r h => ?_) ?_
    · exact (mem_buys.mp (List.mem_filter.mp (mem_sortDesc.mp h)).1).1
    · unfold willingDemand
      rw [(sortDesc_perm S _).length_eq]
      exact (List.length_filter_le _ _).trans (List.length_filter_le _ _)
  have hS : BookBd (willingSupply S H v) := by
    refine hb.sub (fun r h => ?_) ?_
    · exact (mem_sells.mp (List.mem_filter.mp (mem_sortAsc.mp h)).1).1
    · unfold willingSupply
      rw [(sortAsc_perm S _).length_eq]
      exact (List.length_filter_le _ _).trans (List.length_filter_le _ _)
  have hlD : ((willingDemand S H v).map (fun r => r.quantity)).length ≤ 2 ^ 50 := by
    rw [List.length_map]; exact hD.len
  have hlS : ((willingSupply S H v).map (fun r => r.quantity)).length ≤ 2 ^ 50 := by
    rw [List.length_map]; exact hS.len
  have bD := ((s.toBin.isSum _).bd (qty_bd hD.qty) (hlD.trans (by norm_num))).mono le_rfl le_rfl hlD
  have bS := ((s.toBin.isSum _).bd (qty_bd hS.qty) (hlS.trans (by norm_num))).mono le_rfl le_rfl hlS
  unfold solveSideF
  by_cases h1 : (buys H).length = 0
  · rw [if_pos h1, if_pos h1]
    exact ⟨rfl, fun _ _ h => by cases h; simp [TransactionManager.init]⟩
  rw [if_neg h1, if_neg h1]
  by_cases h2 : (sells H).length = 0
  · rw [if_pos h2, if_pos h2]
    exact ⟨rfl, fun _ _ h => by cases h; simp [TransactionManager.init]⟩
  rw [if_neg h2, if_neg h2]
  simp only
  rw [s.toBin_sum hA (by norm_num) (by norm_num) (qty_bd hD.qty) (hlD.trans (by norm_num)),
    s.toBin_sum hA (by norm_num) (by norm_num) (qty_bd hS.qty) (hlS.trans (by norm_num))]
  generalize s.toBin.sum ((willingDemand S H v).map (fun r => r.quantity)) = QD at bD ⊢
  generalize s.toBin.sum ((willingSupply S H v).map (fun r => r.quantity)) = QS at bS ⊢
  have key : ∀ (L M : DF) (Q : ℚ), BookBd L → BookBd M → Bd 200 260 (2 ^ 50) Q →
      ((if 0 < Q then do
          let (longRows, lIndex) ← getTradingBidsF A s L Q
          let (shortRows, sIndex) ← getTradingBidsF A s M Q
          let trans := TransactionManager.init.addAll
            (tradingTrans shortRows sIndex v.toRat ++ tradingTrans longRows lIndex v.toRat)
          let fees' ← feeLoopF A o longRows lIndex Q v.toRat (tradingUsers longRows lIndex) fees
          .ok (trans, fees')
        else .ok (TransactionManager.init, fees) : Except PyErr (TransactionManager × List ℚ)) =
      (if 0 < Q then do
          let (longRows, lIndex) ← getTradingBidsF float64 s.toBin L Q
          let (shortRows, sIndex) ← getTradingBidsF float64 s.toBin M Q
          let trans := TransactionManager.init.addAll
            (tradingTrans shortRows sIndex v.toRat ++ tradingTrans longRows lIndex v.toRat)
          let fees' ← feeLoopF float64 o.toBin longRows lIndex Q v.toRat (tradingUsers longRows lIndex) fees
          .ok (trans, fees')
        else .ok (TransactionManager.init, fees))) ∧
      ∀ tm fees', (if 0 < Q then do
          let (longRows, lIndex) ← getTradingBidsF float64 s.toBin L Q
          let (shortRows, sIndex) ← getTradingBidsF float64 s.toBin M Q
          let trans := TransactionManager.init.addAll
            (tradingTrans shortRows sIndex v.toRat ++ tradingTrans longRows lIndex v.toRat)
          let fees' ← feeLoopF float64 o.toBin longRows lIndex Q v.toRat (tradingUsers longRows lIndex) fees
          .ok (trans, fees')
        else .ok (TransactionManager.init, fees) : Except PyErr (TransactionManager × List ℚ)) = .ok (tm, fees') →
        ∀ t ∈ tm.trans, Bd 302 320 1 t.quantity := by
    intro L M Q hL hM hQ
    by_cases hQ0 : 0 < Q
    · simp only [if_pos hQ0]
      obtain ⟨a1, a2⟩ := getTradingBidsF_bin hA s hL hQ
      obtain ⟨b1, b2⟩ := getTradingBidsF_bin hA s hM hQ
      rw [a1, b1]
      cases h3 : getTradingBidsF float64 s.toBin L Q with
      | error e => exact ⟨rfl, fun _ _ h => by cases h⟩
      | ok r1 =>
        obtain ⟨L', kl⟩ := r1
        obtain ⟨l1, l2, l3⟩ := a2 L' kl h3
        cases h4 : getTradingBidsF float64 s.toBin M Q with
        | error e => exact ⟨rfl, fun _ _ h => by cases h⟩
        | ok r2 =>
          obtain ⟨M', km⟩ := r2
          obtain ⟨m1, m2, m3⟩ := b2 M' km h4
          simp only [bind, Except.bind]
          rw [feeLoopF_bin hA o l1 l2 l3 hQ hv.toRat]
          refine ⟨rfl, ?_⟩
          intro tm fees' h t ht
          cases h5 : feeLoopF float64 o.toBin L' kl Q v.toRat (tradingUsers L' kl) fees with
          | error e => rw [h5] at h; cases h
          | ok f =>
            rw [h5] at h
            cases h
            rw [TransactionManager.init_addAll_trans, List.mem_append] at ht
            rcases ht with ht | ht
            · obtain ⟨r, hr, he⟩ := mem_tradingTrans_qty ht
              rw [he]; exact (m2 r hr).mono (by norm_num) (by norm_num) le_rfl
            · obtain ⟨r, hr, he⟩ := mem_tradingTrans_qty ht
              rw [he]; exact (l2 r hr).mono (by norm_num) (by norm_num) le_rfl
    · simp only [if_neg hQ0]
      exact ⟨trivial, fun _ _ h => by cases h; simp [TransactionManager.init]⟩
  by_cases hlong : QD < QS
  · simp only [hlong, decide_true, if_true]
    exact key _ _ _ hS hD bD
  · simp only [hlong, decide_false, Bool.false_eq_true, if_false]
    exact key _ _ _ hD hS bS

theorem locLabels_bd {df : DF} (hb : BookBd df) {labels : List ℕ} (hl : labels.length ≤ df.length) :
    BookBd (locLabels df labels) := by
  refine hb.sub (fun r h => ?_) ((List.length_filterMap_le _ _).trans hl)
  obtain ⟨i, _, h2⟩ := List.mem_filterMap.mp h
  exact List.mem_of_find?_eq_some h2

theorem mudaF_bin (hA : IsIeee A) (s o : Summer A) (S : Sorter) (coin : ℕ → Bool) {df : DF} (hb : BookBd df) :
    mudaF A s o S coin df = mudaF float64 s.toBin o.toBin S coin df ∧
      ∀ tm x, mudaF float64 s.toBin o.toBin S coin df = .ok (tm, x) → ∀ t ∈ tm.trans, Bd 302 320 1 t.quantity := by
  unfold mudaF
  by_cases h0 : checkEqualPriceRaises df = true
  · rw [if_pos h0, if_pos h0]
    exact ⟨rfl, fun _ _ h => by cases h⟩
  rw [if_neg h0, if_neg h0]
  unfold mudaBodyF
  simp only
  have hl1 : (coinLeft coin (df.map (fun r => r.label))).length ≤ df.length := by
    unfold coinLeft
    rw [List.length_map]
    refine (List.length_filter_le _ _).trans ?_
    rw [List.length_zipIdx, List.length_map]
  have hl2 : ((df.map (fun r => r.label)).filter (fun i => decide (i ∉ coinLeft coin (df.map (fun r => r.label))))).length
      ≤ df.length := by
    refine (List.length_filter_le _ _).trans ?_
    rw [List.length_map]
  have hL := locLabels_bd hb hl1
  have hR := locLabels_bd hb hl2
  generalize locLabels df (coinLeft coin (df.map (fun r => r.label))) = L at hL ⊢
  generalize locLabels df ((df.map (fun r => r.label)).filter
    (fun i => decide (i ∉ coinLeft coin (df.map (fun r => r.label))))) = R at hR ⊢
  obtain ⟨p1, p2⟩ := findCompetitivePriceF_bin hA S hL
  obtain ⟨q1, q2⟩ := findCompetitivePriceF_bin hA S hR
  rw [p1, q1]
  cases h1 : findCompetitivePriceF float64 S L with
  | error e => exact ⟨rfl, fun _ _ h => by cases h⟩
  | ok pl =>
    cases h2 : findCompetitivePriceF float64 S R with
    | error e => exact ⟨rfl, fun _ _ h => by cases h⟩
    | ok pr =>
      simp only [bind, Except.bind]
      generalize List.replicate ((df.map (fun r => r.user)).dedup.length) (0 : ℚ) = fees
      obtain ⟨a1, a2⟩ := solveSideF_bin hA s o S hL (q2 pr h2) fees
      rw [a1]
      cases h3 : solveSideF float64 s.toBin o.toBin S L pr fees with
      | error e => exact ⟨rfl, fun _ _ h => by cases h⟩
      | ok r1 =>
        obtain ⟨tl, f1⟩ := r1
        obtain ⟨b1, b2⟩ := solveSideF_bin hA s o S hR (p2 pl h1) f1
        simp only
        rw [b1]
        cases h4 : solveSideF float64 s.toBin o.toBin S R pl f1 with
        | error e => exact ⟨rfl, fun _ _ h => by cases h⟩
        | ok r2 =>
          obtain ⟨tr, f2⟩ := r2
          refine ⟨rfl, ?_⟩
          intro tm x h t ht
          cases h
          have : t ∈ tl.trans ++ tr.trans := by
            simpa [TransactionManager.merge, TransactionManager.addAll_trans, TransactionManager.init] using ht
          rcases List.mem_append.mp this with ht | ht
          · exact a2 tl f1 h3 t ht
          · exact b2 tr f2 h4 t ht

end PyMarket
