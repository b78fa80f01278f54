import Verif.Lemmas.Huang
import Verif.Lemmas.Lift
import Mathlib.Algebra.BigOperators.Ring.List

/-! # The outcome of Huang's auction, directly and through merging -/

set_option autoImplicit false

namespace PyMarket

open Spec

section cutTrans

variable {df rows : DF} (ht : IsTable df)

include ht

theorem cutTrans_buys (h : ∀ r ∈ rows, r ∈ df ∧ r.buying = true) (c p : ℚ) :
    boughtQty df (cutTrans rows c p) = (cut c (rows.map (fun r => r.quantity))).sum ∧
    soldQty df (cutTrans rows c p) = 0 ∧
    paid df (cutTrans rows c p) = (cut c (rows.map (fun r => r.quantity))).sum * p ∧
    received df (cutTrans rows c p) = 0 := by
  have e1 : (cutTrans rows c p).filter (fun t => isBuy df t.bid) = cutTrans rows c p := by
    rw [List.filter_eq_self]
    intro t htr
    obtain ⟨r, hr, rfl⟩ := List.mem_map.mp htr
    simp only [ht.isBuy_eq (h r hr).1, (h r hr).2]
  have e2 : (cutTrans rows c p).filter (fun t => isSell df t.bid) = [] := by
    rw [List.filter_eq_nil_iff]
    intro t htr
    obtain ⟨r, hr, rfl⟩ := List.mem_map.mp htr
    simp only [ht.isSell_eq (h r hr).1, (h r hr).2]; simp
  unfold boughtQty soldQty paid received
  rw [e1, e2]
  refine ⟨?_, rfl, ?_, rfl⟩
  · unfold cutTrans cut; rw [List.map_map, List.map_map]; rfl
  · unfold cutTrans cut
    rw [List.map_map, List.map_map, ← List.sum_map_mul_right]
    rfl

theorem cutTrans_sells (h : ∀ r ∈ rows, r ∈ df ∧ r.buying = false) (c p : ℚ) :
    soldQty df (cutTrans rows c p) = (cut c (rows.map (fun r => r.quantity))).sum ∧
    boughtQty df (cutTrans rows c p) = 0 ∧
    received df (cutTrans rows c p) = (cut c (rows.map (fun r => r.quantity))).sum * p ∧
    paid df (cutTrans rows c p) = 0 := by
  have e1 : (cutTrans rows c p).filter (fun t => isSell df t.bid) = cutTrans rows c p := by
    rw [List.filter_eq_self]
    intro t htr
    obtain ⟨r, hr, rfl⟩ := List.mem_map.mp htr
    simp only [ht.isSell_eq (h r hr).1, (h r hr).2]; rfl
  have e2 : (cutTrans rows c p).filter (fun t => isBuy df t.bid) = [] := by
    rw [List.filter_eq_nil_iff]
    intro t htr
    obtain ⟨r, hr, rfl⟩ := List.mem_map.mp htr
    simp only [ht.isBuy_eq (h r hr).1, (h r hr).2]; simp
  unfold boughtQty soldQty paid received
  rw [e1, e2]
  refine ⟨?_, rfl, ?_, rfl⟩
  · unfold cutTrans cut; rw [List.map_map, List.map_map]; rfl
  · unfold cutTrans cut
    rw [List.map_map, List.map_map, ← List.sum_map_mul_right]
    rfl

end cutTrans

/-- One transaction of an outcome with buyers' price `pb` and sellers' price `ps`. -/
structure HuangTrade (df : DF) (ps pb : ℚ) (t : Transaction) : Prop where
  id_lt : t.bid < df.length
  nonneg : 0 ≤ t.quantity
  le : t.quantity ≤ qtyOf df t.bid
  buyer : isBuy df t.bid = true → t.price = pb ∧ pb ≤ priceOf df t.bid
  seller : isSell df t.bid = true → t.price = ps ∧ priceOf df t.bid ≤ ps
  source : t.source = -1
  active : t.active = false

/-- An outcome with trade: prices `ps < pb`, reported volume `q`. -/
structure HuangOut (df : DF) (ps pb q : ℚ) (ts : List Transaction) : Prop where
  lt : ps < pb
  trade : ∀ t ∈ ts, HuangTrade df ps pb t
  nodup : (ts.map (fun t => t.bid)).Nodup
  balanced : boughtQty df ts = soldQty df ts
  volume : ts ≠ [] → q = boughtQty df ts

theorem take_labels_nodup {df : DF} (hn : (df.map (fun r => r.label)).Nodup) (n : ℕ) {l : DF}
    (hl : l.Perm df ∨ ∃ s : DF, s.Sublist df ∧ l.Perm s) :
    ((l.take n).map (fun r => r.label)).Nodup := by
  have h1 : (l.map (fun r => r.label)).Nodup := by
    rcases hl with h | ⟨s, hs, h⟩
    · exact (h.map _).nodup_iff.mpr hn
    · exact (h.map _).nodup_iff.mpr (hn.sublist (hs.map _))
  exact h1.sublist ((List.take_sublist _ _).map _)

theorem huangB_labels_nodup {S : Sorter} {df : DF} (hn : (df.map (fun r => r.label)).Nodup) (x : ℚ) :
    ((huangB S df x).map (fun r => r.label)).Nodup :=
  take_labels_nodup hn _ (Or.inr ⟨buys df, buys_sublist df, sortDesc_perm S _⟩)

theorem huangA_labels_nodup {S : Sorter} {df : DF} (hn : (df.map (fun r => r.label)).Nodup) (x : ℚ) :
    ((huangA S df x).map (fun r => r.label)).Nodup :=
  take_labels_nodup hn _ (Or.inr ⟨sells df, sells_sublist df, sortAsc_perm S _⟩)

/-- With different prices on a side the marginal price is not met by an intramarginal bid. -/
theorem huangB_strict {S : Sorter} {df : DF} (h : NonNeg df) {x pb : ℚ} (hc : Crossing S df x)
    (hpb : demandAt S df x = (pb : Ext)) (hn : ((buys df).map (fun r => r.price)).Nodup) :
    ∀ r ∈ huangB S df x, pb < r.price := by
  obtain ⟨m, hm1, hm2⟩ := hc.marginal_buy h
  have hmp : m.price = pb := by rw [hm2] at hpb; exact WithTop.coe_injective hpb
  intro r hr
  refine lt_of_le_of_ne ((huangB_spec h hc hpb).1 r hr).2.2 ?_
  have hn' : ((sortDesc S (buys df)).map (fun r => r.price)).Nodup :=
    ((sortDesc_perm S _).map _).nodup_iff.mpr hn
  obtain ⟨hl, he⟩ := List.getElem?_eq_some_iff.mp hm1
  rw [← List.take_append_drop (demandIdx S df x) (sortDesc S (buys df)), List.map_append,
    List.nodup_append] at hn'
  rw [← hmp]
  refine (hn'.2.2 _ (List.mem_map_of_mem hr) _ (List.mem_map_of_mem ?_)).symm
  rw [List.drop_eq_getElem_cons hl, he]; exact List.mem_cons_self

theorem huangA_strict {S : Sorter} {df : DF} {x ps : ℚ} (hc : Crossing S df x)
    (hps : supplyAt S df x = (ps : Ext)) (hn : ((sells df).map (fun r => r.price)).Nodup) :
    ∀ r ∈ huangA S df x, r.price < ps := by
  obtain ⟨m, hm1, hm2⟩ := hc.marginal_sell
  have hmp : m.price = ps := by rw [hm2] at hps; exact WithTop.coe_injective hps
  intro r hr
  refine lt_of_le_of_ne ((huangA_spec hc hps).1 r hr).2.2 ?_
  have hn' : ((sortAsc S (sells df)).map (fun r => r.price)).Nodup :=
    ((sortAsc_perm S _).map _).nodup_iff.mpr hn
  obtain ⟨hl, he⟩ := List.getElem?_eq_some_iff.mp hm1
  rw [← List.take_append_drop (supplyIdx S df x) (sortAsc S (sells df)), List.map_append,
    List.nodup_append] at hn'
  rw [← hmp]
  refine (hn'.2.2 _ (List.mem_map_of_mem hr) _ (List.mem_map_of_mem ?_))
  rw [List.drop_eq_getElem_cons hl, he]; exact List.mem_cons_self

/-- The outcome of `huang_auction` itself. -/
theorem huang_direct (S : Sorter) {df : DF} (ht : IsTable df) (h : NonNeg df) :
    huangAuction S df = .ok (TransactionManager.init, .empty) ∨
    ∃ tm, ∃ ps pb q : ℚ,
      huangAuction S df = .ok (tm, .huang (ps : Ext) (pb : Ext) q) ∧ HuangOut df ps pb q tm.trans ∧
      (∃ m ∈ df, m.buying = true ∧ m.price = pb) ∧ (∃ m ∈ df, m.buying = false ∧ m.price = ps) ∧
      (tm.trans ≠ [] → ∀ r ∈ df,
        (r.buying = true → pb < r.price → ∃ t ∈ tm.trans, t.bid = r.label) ∧
        (r.buying = false → r.price < ps → ∃ t ∈ tm.trans, t.bid = r.label)) ∧
      (((buys df).map (fun r => r.price)).Nodup → ((sells df).map (fun r => r.price)).Nodup →
        ∀ t ∈ tm.trans, (isBuy df t.bid = true → pb < priceOf df t.bid) ∧
          (isSell df t.bid = true → priceOf df t.bid < ps)) := by
  rcases huang_cases S h with ⟨h1, _⟩ | ⟨x, ps, pb, hc, hps, hpb, hlt, hcase⟩
  · left; exact h1
  right
  obtain ⟨mb, hmb1, hmb2⟩ := hc.marginal_buy h
  obtain ⟨ms, hms1, hms2⟩ := hc.marginal_sell
  have hmb : ∃ m ∈ df, m.buying = true ∧ m.price = pb := by
    have := mem_buys.mp (mem_sortDesc.mp (List.mem_of_getElem? hmb1))
    exact ⟨mb, this.1, this.2, by rw [hmb2] at hpb; exact WithTop.coe_injective hpb⟩
  have hms : ∃ m ∈ df, m.buying = false ∧ m.price = ps := by
    have := mem_sells.mp (mem_sortAsc.mp (List.mem_of_getElem? hms1))
    exact ⟨ms, this.1, this.2, by rw [hms2] at hps; exact WithTop.coe_injective hps⟩
  rcases hcase with ⟨hB, hA, cs, cb, hcs, hcb, hor, hsA, hsB, heq⟩ | ⟨hor, heq⟩
  · have sB := huangB_spec h hc hpb
    have sA := huangA_spec hc hps
    refine ⟨_, ps, pb, _, heq, ⟨hlt, ?_, ?_, ?_, ?_⟩, hmb, hms, ?_, ?_⟩
    · intro t htr
      rw [TransactionManager.init_addAll_trans] at htr
      rcases List.mem_append.mp htr with h' | h'
      · obtain ⟨r, hr, rfl⟩ := List.mem_map.mp h'
        obtain ⟨g1, g2, g3⟩ := sA.1 r hr
        refine ⟨ht.label_lt g1, le_max_right _ _, ?_, ?_, ?_, rfl, rfl⟩
        · show max (r.quantity - cs) 0 ≤ qtyOf df r.label
          rw [ht.qty_eq g1]
          exact max_le (by linarith) (h r g1).1
        · intro hb; simp only [ht.isBuy_eq g1, g2] at hb; cases hb
        · intro _; exact ⟨rfl, by show priceOf df r.label ≤ ps; rw [ht.price_eq g1]; exact g3⟩
      · obtain ⟨r, hr, rfl⟩ := List.mem_map.mp h'
        obtain ⟨g1, g2, g3⟩ := sB.1 r hr
        refine ⟨ht.label_lt g1, le_max_right _ _, ?_, ?_, ?_, rfl, rfl⟩
        · show max (r.quantity - cb) 0 ≤ qtyOf df r.label
          rw [ht.qty_eq g1]
          exact max_le (by linarith) (h r g1).1
        · intro _; exact ⟨rfl, by show pb ≤ priceOf df r.label; rw [ht.price_eq g1]; exact g3⟩
        · intro hb; simp only [ht.isSell_eq g1, g2] at hb; cases hb
    · rw [TransactionManager.init_addAll_trans, List.map_append, List.nodup_append]
      have e : ∀ (rows : DF) (c p : ℚ), (cutTrans rows c p).map (fun t => t.bid) =
          rows.map (fun r => r.label) := by
        intro rows c p; unfold cutTrans; rw [List.map_map]; rfl
      rw [e, e]
      refine ⟨huangA_labels_nodup ht.nodup x, huangB_labels_nodup ht.nodup x, ?_⟩
      intro a ha b hb hab
      obtain ⟨r, hr, rfl⟩ := List.mem_map.mp ha
      obtain ⟨r', hr', rfl⟩ := List.mem_map.mp hb
      have : r = r' := ht.inj (sA.1 r hr).1 (sB.1 r' hr').1 hab
      have f1 := (sA.1 r hr).2.1
      rw [this, (sB.1 r' hr').2.1] at f1
      cases f1
    · have bB := cutTrans_buys ht (fun r hr => ⟨(sB.1 r hr).1, (sB.1 r hr).2.1⟩) cb pb
      have bA := cutTrans_sells ht (fun r hr => ⟨(sA.1 r hr).1, (sA.1 r hr).2.1⟩) cs ps
      rw [TransactionManager.init_addAll_trans, boughtQty_append, soldQty_append, bB.1, bB.2.1,
        bA.1, bA.2.1, hsA, hsB]
      ring
    · intro _
      have bB := cutTrans_buys ht (fun r hr => ⟨(sB.1 r hr).1, (sB.1 r hr).2.1⟩) cb pb
      have bA := cutTrans_sells ht (fun r hr => ⟨(sA.1 r hr).1, (sA.1 r hr).2.1⟩) cs ps
      rw [TransactionManager.init_addAll_trans, boughtQty_append, bB.1, bA.2.1, zero_add]
    · intro _ r hr
      rw [TransactionManager.init_addAll_trans]
      refine ⟨fun hb hp => ?_, fun hb hp => ?_⟩
      · exact ⟨_, List.mem_append_right _ (List.mem_map_of_mem (sB.2 r hr hb hp)), rfl⟩
      · exact ⟨_, List.mem_append_left _ (List.mem_map_of_mem (sA.2 r hr hb hp)), rfl⟩
    · intro nB nA t htr
      rw [TransactionManager.init_addAll_trans] at htr
      rcases List.mem_append.mp htr with h' | h'
      · obtain ⟨r, hr, rfl⟩ := List.mem_map.mp h'
        obtain ⟨g1, g2, g3⟩ := sA.1 r hr
        simp only [ht.isBuy_eq g1, ht.price_eq g1, g2]
        exact ⟨fun hf => (by cases hf), fun _ => huangA_strict hc hps nA r hr⟩
      · obtain ⟨r, hr, rfl⟩ := List.mem_map.mp h'
        obtain ⟨g1, g2, g3⟩ := sB.1 r hr
        simp only [ht.isSell_eq g1, ht.price_eq g1, g2]
        exact ⟨fun _ => huangB_strict h hc hpb nB r hr, fun hf => (by cases hf)⟩
  · refine ⟨_, ps, pb, _, heq, ⟨hlt, ?_, ?_, ?_, ?_⟩, hmb, hms, ?_, ?_⟩
    · intro t htr; cases htr
    · exact List.nodup_nil
    · rfl
    · intro hne; exact absurd rfl hne
    · intro hne; exact absurd rfl hne
    · intro _ _ t htr; cases htr

/-- Rounding never hurts: a bid that rounds above (below) a rounded price is above (below) it. -/
theorem lt_of_lt_npRound {x y : ℚ} (h : npRound 5 x < npRound 5 y) : npRound 5 x < y := by
  have h1 := npRound_gap 5 h
  have h2 := abs_le.mp (npRound_near 5 y)
  norm_num at h1 h2
  linarith [h2.1, h2.2]

theorem npRound_lt_of_lt {x y : ℚ} (h : npRound 5 x < npRound 5 y) : x < npRound 5 y := by
  have h1 := npRound_gap 5 h
  have h2 := abs_le.mp (npRound_near 5 x)
  norm_num at h1 h2
  linarith [h2.1, h2.2]

theorem priceOf_some {df : DF} {i : ℕ} {r : Row} (h : df[i]? = some r) : priceOf df i = r.price := by
  simp [priceOf, h]

theorem qtyOf_some {df : DF} {i : ℕ} {r : Row} (h : df[i]? = some r) : qtyOf df i = r.quantity := by
  simp [qtyOf, h]

theorem isBuy_some {df : DF} {i : ℕ} {r : Row} (h : df[i]? = some r) : isBuy df i = r.buying := by
  simp [isBuy, h]

theorem isSell_some {df : DF} {i : ℕ} {r : Row} (h : df[i]? = some r) :
    isSell df i = !r.buying := by
  simp [isSell, h]

/-- A transaction of the market's outcome concerns an intramarginal bid. -/
structure HuangStrict (df : DF) (ps pb : ℚ) (t : Transaction) : Prop where
  buyer : isBuy df t.bid = true → pb < priceOf df t.bid ∧ pb < npRound 5 (priceOf df t.bid)
  seller : isSell df t.bid = true → priceOf df t.bid < ps ∧ npRound 5 (priceOf df t.bid) < ps

/-- The outcome of `Market.run('huang')`. -/
theorem huang_market (S : Sorter) (smp : Sampler) {df : DF} (ht : IsTable df)
    (hp : GroupPos df) :
    (∃ tm, runAlgo S smp .huang df = .ok (tm, .empty) ∧ tm.trans = []) ∨
    ∃ tm, ∃ ps pb q : ℚ,
      runAlgo S smp .huang df = .ok (tm, .huang (ps : Ext) (pb : Ext) q) ∧
      HuangOut df ps pb q tm.trans ∧
      (∃ m ∈ df, m.buying = true ∧ npRound 5 m.price = pb) ∧
      (∃ m ∈ df, m.buying = false ∧ npRound 5 m.price = ps) ∧
      (tm.trans ≠ [] → ∀ r ∈ df,
        (r.buying = true → pb < npRound 5 r.price → ∃ t ∈ tm.trans, t.bid = r.label) ∧
        (r.buying = false → npRound 5 r.price < ps → ∃ t ∈ tm.trans, t.bid = r.label)) ∧
      ∀ t ∈ tm.trans, HuangStrict df ps pb t := by
  obtain ⟨nb, mp, hm, hM⟩ := merge_spec smp ht hp
  by_cases hside : (buys nb).length ≠ 0 ∧ (buys nb).length ≠ nb.length
  · have hrun : ∀ algo : Algo, mechRun algo nb = algo nb := by
      intro algo; unfold mechRun; simp only; rw [if_pos hside]
    rcases huang_direct S hM.table (hM.pos hp.1).nonNeg with h1 | ⟨tm, ps, pb, q, h1, hO, hmb, hms, hcompl, hstr⟩
    · left
      obtain ⟨tm', e1, e2⟩ := mechanism_merge smp (huangAuction S) hm hM ((hrun _).trans h1)
        (by intro t h; cases h)
      exact ⟨tm', e1, by rw [e2]; rfl⟩
    · right
      have hlt := fun t h => (hO.trade t h).id_lt
      obtain ⟨tm', e1, e2⟩ := mechanism_merge smp (huangAuction S) hm hM ((hrun _).trans h1) hlt
      have origin : ∀ row ∈ nb, ∃ m ∈ df, m.buying = row.buying ∧ npRound 5 m.price = row.price := by
        intro row hrow
        obtain ⟨row', ids, g1, g2, g3, _, _, g6⟩ := hM.get (hM.table.label_lt hrow)
        rw [hM.table.get_label hrow] at g1
        cases g1
        obtain ⟨i, hi⟩ := List.exists_mem_of_ne_nil _ g3
        obtain ⟨r, hr, hb, hround⟩ := g6 i hi
        exact ⟨r, List.mem_of_getElem? hr, hb, hround⟩
      have hstr' := hstr hM.buyPrices hM.sellPrices
      obtain ⟨mb, hmb1, hmb2, hmb3⟩ := hmb
      obtain ⟨ms, hms1, hms2, hms3⟩ := hms
      obtain ⟨mb', ob1, ob2, ob3⟩ := origin mb hmb1
      obtain ⟨ms', os1, os2, os3⟩ := origin ms hms1
      have key : ∀ t' ∈ tm'.trans, HuangTrade df ps pb t' ∧ HuangStrict df ps pb t' := by
        intro t' ht'
        rw [e2] at ht'
        obtain ⟨t, htm, row, r, g1, g2, g3, g4, g5, g6, g7, g8, g9, _⟩ := hM.mem_lift hlt ht'
        have hT := hO.trade t htm
        have hS := hstr' t htm
        have hr0 := (hp.1 r (List.mem_of_getElem? g2))
        have hle := hT.le
        rw [qtyOf_some g1] at hle
        have hfrac : r.quantity / row.quantity ≥ 0 := div_nonneg hr0.1 g9.le
        have hbuy : isBuy df t'.bid = true → isBuy nb t.bid = true := by
          rw [isBuy_some g2, isBuy_some g1, g3]; exact id
        have hsell : isSell df t'.bid = true → isSell nb t.bid = true := by
          rw [isSell_some g2, isSell_some g1, g3]; exact id
        have sB : isBuy df t'.bid = true → pb < npRound 5 r.price := by
          intro hb
          have := (hS.1 (hbuy hb))
          rwa [priceOf_some g1, ← g4] at this
        have sS : isSell df t'.bid = true → npRound 5 r.price < ps := by
          intro hb
          have := (hS.2 (hsell hb))
          rwa [priceOf_some g1, ← g4] at this
        have tB : isBuy df t'.bid = true → pb < r.price := by
          intro hb
          have := sB hb
          rw [← hmb3, ← ob3] at this ⊢
          exact lt_of_lt_npRound this
        have tS : isSell df t'.bid = true → r.price < ps := by
          intro hb
          have := sS hb
          rw [← hms3, ← os3] at this ⊢
          exact npRound_lt_of_lt this
        refine ⟨⟨(List.getElem?_eq_some_iff.mp g2).1, ?_, ?_, ?_, ?_, by rw [g6]; exact hT.source,
          by rw [g7]; exact hT.active⟩, ⟨?_, ?_⟩⟩
        · rw [g8]; exact mul_nonneg hT.nonneg hfrac
        · rw [g8, qtyOf_some g2]
          calc t.quantity * (r.quantity / row.quantity)
              ≤ row.quantity * (r.quantity / row.quantity) := mul_le_mul_of_nonneg_right hle hfrac
            _ = r.quantity := by field_simp
        · intro hb
          rw [priceOf_some g2, g5]
          exact ⟨(hT.buyer (hbuy hb)).1, (tB hb).le⟩
        · intro hb
          rw [priceOf_some g2, g5]
          exact ⟨(hT.seller (hsell hb)).1, (tS hb).le⟩
        · intro hb; rw [priceOf_some g2]; exact ⟨tB hb, sB hb⟩
        · intro hb; rw [priceOf_some g2]; exact ⟨tS hb, sS hb⟩
      have hb' : boughtQty df tm'.trans = boughtQty nb tm.trans := by
        rw [e2]; exact hM.boughtQty_lift hlt
      have hs' : soldQty df tm'.trans = soldQty nb tm.trans := by
        rw [e2]; exact hM.soldQty_lift hlt
      have hne : tm'.trans ≠ [] → tm.trans ≠ [] := by
        intro hx hy; apply hx; rw [e2, hy]; rfl
      refine ⟨tm', ps, pb, q, e1, ⟨hO.lt, fun t h => (key t h).1, ?_, ?_, ?_⟩, ?_, ?_, ?_,
        fun t h => (key t h).2⟩
      · rw [e2]; exact hM.nodup_lift hlt hO.nodup
      · rw [hb', hs']; exact hO.balanced
      · intro hx; rw [hb']; exact hO.volume (hne hx)
      · exact ⟨mb', ob1, ob2.trans hmb2, ob3.trans hmb3⟩
      · exact ⟨ms', os1, os2.trans hms2, os3.trans hms3⟩
      · intro hx r hr
        obtain ⟨k, ids, hk, hids, hi⟩ := hM.exists_group (ht.label_lt hr)
        obtain ⟨row, ids', g1, g2, g3, g4, g5, g6⟩ := hM.get hk
        rw [hids] at g2
        cases g2
        obtain ⟨r', hr', hb, hround⟩ := g6 _ hi
        rw [ht.get_label hr] at hr'
        cases hr'
        have hrow := List.mem_of_getElem? g1
        have hlab : row.label = k := hM.table.label g1
        have fin : (∃ t ∈ tm.trans, t.bid = row.label) → ∃ t ∈ tm'.trans, t.bid = r.label := by
          rintro ⟨t, htm, hbid⟩
          rw [hlab] at hbid
          obtain ⟨t', h1', h2', _⟩ := hM.lift_mem htm (by rw [hbid]; exact hids) hi
          exact ⟨t', by rw [e2]; exact h1', h2'⟩
        refine ⟨fun hb' hp' => fin ((hcompl (hne hx) row hrow).1 (hb.symm.trans hb') ?_),
          fun hb' hp' => fin ((hcompl (hne hx) row hrow).2 (hb.symm.trans hb') ?_)⟩
        · rw [← hround]; exact hp'
        · rw [← hround]; exact hp'
  · left
    have hrun : mechRun (huangAuction S) nb = .ok (TransactionManager.init, .empty) := by
      unfold mechRun; simp only; rw [if_neg hside]
    obtain ⟨tm', e1, e2⟩ := mechanism_merge smp (huangAuction S) hm hM hrun (by intro t h; cases h)
    exact ⟨tm', e1, by rw [e2]; rfl⟩

end PyMarket
