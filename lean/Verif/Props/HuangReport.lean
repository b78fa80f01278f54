import Verif.Props.HuangTotal

/-! # C18: what `quantity_traded` is in every case -/

set_option autoImplicit false

namespace PyMarket

open Spec

theorem sum_filter_ite {α : Type*} (l : List α) (p : α → Bool) (f : α → ℚ) :
    ((l.filter p).map f).sum = (l.map (fun a => if p a then f a else 0)).sum := by
  induction l with
  | nil => rfl
  | cons a l ih =>
    rw [List.filter_cons, List.map_cons, List.sum_cons, ← ih]
    split <;> simp_all

/-- Sums over a table are sums over its ids. -/
theorem sum_ids (df : DF) (f : Row → ℚ) (g : ℕ → ℚ) (h : ∀ i r, df[i]? = some r → g i = f r) :
    (df.map f).sum = ((List.range df.length).map g).sum := by
  congr 1
  apply List.ext_getElem
  · simp
  · intro i h1 h2
    simp only [List.getElem_map, List.getElem_range]
    exact (h i _ (List.getElem?_eq_getElem (by simpa using h1))).symm

/-- Quantities selected by side and rounded price are the same before and after merging. -/
theorem MergeSpec.sum_lift {df nb : DF} {mp : List (List ℕ)} (h : MergeSpec df nb mp) (g : Bool → ℚ → Bool) :
    ((nb.filter (fun r => g r.buying r.price)).map (fun r => r.quantity)).sum =
      ((df.filter (fun r => g r.buying (npRound 5 r.price))).map (fun r => r.quantity)).sum := by
  rw [sum_filter_ite, sum_filter_ite]
  have e : ∀ i r, df[i]? = some r → (if g (isBuy df i) (npRound 5 (priceOf df i)) then qtyOf df i else 0) =
      (if g r.buying (npRound 5 r.price) then r.quantity else 0) := by
    intro i r hr
    rw [isBuy_some hr, priceOf_some hr, qtyOf_some hr]
  rw [sum_ids df _ _ e, ← (h.perm.map _).sum_eq, List.map_flatten, List.sum_flatten, List.map_map]
  congr 1
  apply List.ext_getElem
  · simp [h.length]
  · intro k h1 h2
    simp only [List.getElem_map, Function.comp_apply]
    have hk1 : k < nb.length := by simpa using h1
    have hk2 : k < mp.length := by simpa using h2
    obtain ⟨_, g2, g3⟩ := h.group k _ _ (List.getElem?_eq_getElem hk1) (List.getElem?_eq_getElem hk2)
    have e2 : ∀ i ∈ mp[k], (if g (isBuy df i) (npRound 5 (priceOf df i)) then qtyOf df i else 0) =
        (if g nb[k].buying nb[k].price then qtyOf df i else 0) := by
      intro i hi
      obtain ⟨r, hr, hb, hp⟩ := g3 i hi
      rw [isBuy_some hr, priceOf_some hr, hb, hp]
    rw [List.map_congr_left e2]
    split
    · rw [g2]
    · simp

/-- The quantity of the buyers above the price `pb`, with prices rounded by `rd`. -/
def Spec.insideBuy (rd : ℚ → ℚ) (df : DF) (pb : ℚ) : ℚ :=
  ((df.filter (fun r => r.buying && decide (pb < rd r.price))).map (fun r => r.quantity)).sum

/-- The quantity of the sellers below the price `ps`, with prices rounded by `rd`. -/
def Spec.insideSell (rd : ℚ → ℚ) (df : DF) (ps : ℚ) : ℚ :=
  ((df.filter (fun r => !r.buying && decide (rd r.price < ps))).map (fun r => r.quantity)).sum

theorem huangB_inside {S : Sorter} {df : DF} (ht : IsTable df) (h : NonNeg df)
    (hn : ((buys df).map (fun r => r.price)).Nodup) {x pb : ℚ} (hc : Crossing S df x)
    (hpb : demandAt S df x = (pb : Ext)) : qsum (huangB S df x) = insideBuy id df pb := by
  unfold qsum insideBuy
  refine List.Perm.sum_eq (List.Perm.map _ ((List.perm_ext_iff_of_nodup ?_ ?_).mpr ?_))
  · exact (((sortDesc_perm S _).nodup_iff.mpr
      ((List.Nodup.of_map _ ht.nodup).sublist (buys_sublist df)))).sublist (List.take_sublist _ _)
  · exact (List.Nodup.of_map _ ht.nodup).sublist List.filter_sublist
  · intro r
    simp only [List.mem_filter, Bool.and_eq_true, decide_eq_true_eq, id_eq]
    constructor
    · intro hr
      obtain ⟨h1, h2, _⟩ := (huangB_spec h hc hpb).1 r hr
      exact ⟨h1, h2, huangB_strict h hc hpb hn r hr⟩
    · rintro ⟨h1, h2, h3⟩
      exact (huangB_spec h hc hpb).2 r h1 h2 h3

theorem huangA_inside {S : Sorter} {df : DF} (ht : IsTable df)
    (hn : ((sells df).map (fun r => r.price)).Nodup) {x ps : ℚ} (hc : Crossing S df x)
    (hps : supplyAt S df x = (ps : Ext)) : qsum (huangA S df x) = insideSell id df ps := by
  unfold qsum insideSell
  refine List.Perm.sum_eq (List.Perm.map _ ((List.perm_ext_iff_of_nodup ?_ ?_).mpr ?_))
  · exact (((sortAsc_perm S _).nodup_iff.mpr
      ((List.Nodup.of_map _ ht.nodup).sublist (sells_sublist df)))).sublist (List.take_sublist _ _)
  · exact (List.Nodup.of_map _ ht.nodup).sublist List.filter_sublist
  · intro r
    simp only [List.mem_filter, Bool.and_eq_true, decide_eq_true_eq, id_eq, Bool.not_eq_true']
    constructor
    · intro hr
      obtain ⟨h1, h2, _⟩ := (huangA_spec hc hps).1 r hr
      exact ⟨h1, h2, huangA_strict hc hps hn r hr⟩
    · rintro ⟨h1, h2, h3⟩
      exact (huangA_spec hc hps).2 r h1 h2 h3

theorem qsum_eq_zero_iff {l : DF} (h : ∀ r ∈ l, 0 < r.quantity) : qsum l = 0 ↔ l = [] := by
  constructor
  · intro h0
    cases l with
    | nil => rfl
    | cons a l =>
      exfalso
      have h1 := h a List.mem_cons_self
      have h2 : 0 ≤ qsum l := List.sum_nonneg (by
        intro q hq
        obtain ⟨r, hr, rfl⟩ := List.mem_map.mp hq
        exact (h r (List.mem_cons_of_mem _ hr)).le)
      have : qsum (a :: l) = a.quantity + qsum l := rfl
      linarith
  · rintro rfl; rfl

/-- What `quantity_traded` should be and what it is. -/
structure Spec.Volume (A B b s q : ℚ) : Prop where
  /-- Bought and sold is the smaller of the two intramarginal quantities. -/
  bought : b = min A B
  sold : s = min A B
  /-- This is reported, except when there is no intramarginal seller: then all of `B` is reported. -/
  reported : q = if A = 0 then B else min A B
  /-- Hence the report is right exactly if there is an intramarginal seller or no intramarginal buyer. -/
  right : q = b ↔ A ≠ 0 ∨ B = 0

theorem Spec.Volume.mk' {A B b s q : ℚ} (hB : 0 ≤ B) (hb : b = min A B) (hs : s = min A B)
    (hq : q = if A = 0 then B else min A B) : Volume A B b s q := by
  refine ⟨hb, hs, hq, ?_⟩
  by_cases h0 : A = 0
  · rw [if_pos h0] at hq
    rw [hq, hb, h0, min_eq_left hB]
    simp
  · rw [if_neg h0] at hq
    rw [hq, hb]
    simp [h0]

theorem insideBuy_nonneg (rd : ℚ → ℚ) {df : DF} (h : NonNeg df) (pb : ℚ) : 0 ≤ insideBuy rd df pb := by
  apply List.sum_nonneg
  intro q hq
  obtain ⟨r, hr, rfl⟩ := List.mem_map.mp hq
  exact (h r (List.mem_filter.mp hr).1).1

theorem insideSell_nonneg (rd : ℚ → ℚ) {df : DF} (h : NonNeg df) (ps : ℚ) : 0 ≤ insideSell rd df ps := by
  apply List.sum_nonneg
  intro q hq
  obtain ⟨r, hr, rfl⟩ := List.mem_map.mp hq
  exact (h r (List.mem_filter.mp hr).1).1

/-- **C18, exact**, for `huang_auction` itself on books with distinct prices on each side. -/
theorem C18_exact_direct (S : Sorter) (df : DF) (ht : IsTable df) (h : Pos df)
    (hnb : ((df.filter (fun r => r.buying)).map (fun r => r.price)).Nodup)
    (hns : ((df.filter (fun r => !r.buying)).map (fun r => r.price)).Nodup) :
    ∃ tm ex, huangAuction S df = .ok (tm, ex) ∧ ∀ ps pb q, ex = .huang ps pb q →
      ∃ s b : ℚ, ps = (s : Ext) ∧ pb = (b : Ext) ∧
        Volume (insideSell id df s) (insideBuy id df b) (boughtQty df tm.trans) (soldQty df tm.trans) q := by
  have hN := h.nonNeg
  rcases huang_cases S hN with ⟨h1, _⟩ | ⟨x, ps, pb, hc, hps, hpb, hlt, hcase⟩
  · exact ⟨_, _, h1, by intro ps pb q he; cases he⟩
  have hB := huangB_inside ht hN hnb hc hpb
  have hA := huangA_inside ht hns hc hps
  have hposA : ∀ r ∈ huangA S df x, 0 < r.quantity := fun r hr => (h r ((huangA_spec hc hps).1 r hr).1).1
  have hposB : ∀ r ∈ huangB S df x, 0 < r.quantity := fun r hr => (h r ((huangB_spec hN hc hpb).1 r hr).1).1
  have hA0 := insideSell_nonneg id hN ps
  have hB0 := insideBuy_nonneg id hN pb
  rcases hcase with ⟨b1, b2, cs, cb, _, _, _, _, e2, e3⟩ | ⟨b1, e3⟩
  · refine ⟨_, _, e3, ?_⟩
    intro ps' pb' q' he
    cases he
    refine ⟨ps, pb, rfl, rfl, ?_⟩
    have hne : insideSell id df ps ≠ 0 := by
      rw [← hA]; exact fun h0 => b2 ((qsum_eq_zero_iff hposA).mp h0)
    have hvol := C18_volume_direct_partial S df ht hN
    obtain ⟨tm, ex, g1, g2⟩ := hvol
    rw [e3] at g1
    cases g1
    have g := g2 _ _ _ rfl (by
      intro hnil
      rw [TransactionManager.init_addAll_trans] at hnil
      cases hl : huangA S df x with
      | nil => exact b2 hl
      | cons a l =>
        rw [hl] at hnil
        simp [cutTrans] at hnil)
    rw [hA, hB] at e2
    exact Volume.mk' hB0 (g.1.symm.trans e2) (g.2.symm.trans e2) (by rw [if_neg hne, e2])
  · refine ⟨_, _, e3, ?_⟩
    intro ps' pb' q' he
    cases he
    refine ⟨ps, pb, rfl, rfl, ?_⟩
    rw [hB]
    have hmin : min (insideSell id df ps) (insideBuy id df pb) = 0 := by
      rw [← hA, ← hB]
      rcases b1 with b1 | b1
      · rw [b1]; exact min_eq_right (hA ▸ hA0)
      · rw [b1]; exact min_eq_left (hB ▸ hB0)
    refine Volume.mk' hB0 (by rw [hmin]; rfl) (by rw [hmin]; rfl) ?_
    by_cases h0 : insideSell id df ps = 0
    · rw [if_pos h0]
    · rw [if_neg h0, hmin]
      rcases b1 with b1 | b1
      · rw [← hB, b1]; rfl
      · exact absurd (by rw [← hA, b1]; rfl) h0

/-- **C18, exact**, for `Market.run('huang')`, with prices rounded to 5 decimals by any function `rd`
that does so. -/
theorem C18_exact (S : Sorter) (smp : Sampler) (df : DF) (ht : IsTable df) (h : GroupPos df)
    (rd : ℚ → ℚ) (hrd : ∀ p, IsRounded 5 p (rd p)) :
    ∃ tm ex, runAlgo S smp .huang df = .ok (tm, ex) ∧ ∀ ps pb q, ex = .huang ps pb q →
      ∃ s b : ℚ, ps = (s : Ext) ∧ pb = (b : Ext) ∧
        Volume (insideSell rd df s) (insideBuy rd df b) (boughtQty df tm.trans) (soldQty df tm.trans) q := by
  obtain rfl : rd = npRound 5 := funext (fun p => isRounded_unique (hrd p) (npRound_isRounded 5 p))
  obtain ⟨nb, mp, hm, hM⟩ := merge_spec smp ht h
  have liftB : ∀ b, insideBuy id nb b = insideBuy (npRound 5) df b := fun b =>
    hM.sum_lift (fun s p => s && decide (b < p))
  have liftA : ∀ b, insideSell id nb b = insideSell (npRound 5) df b := fun b =>
    hM.sum_lift (fun s p => !s && decide (p < b))
  by_cases hside : (buys nb).length ≠ 0 ∧ (buys nb).length ≠ nb.length
  · have hrun : ∀ algo : Algo, mechRun algo nb = algo nb := by
      intro algo; unfold mechRun; simp only; rw [if_pos hside]
    obtain ⟨tm, ex, h1, h2⟩ := C18_exact_direct S nb hM.table (hM.pos h.1) hM.buyPrices hM.sellPrices
    have hid : ∀ t ∈ tm.trans, t.bid < nb.length := by
      rcases huang_direct S hM.table (hM.pos h.1).nonNeg with h' | ⟨tm', ps, pb, q, h', hO, _⟩
      · rw [h1] at h'; cases h'; intro t ht; cases ht
      · rw [h1] at h'; cases h'; exact fun t ht => (hO.trade t ht).id_lt
    obtain ⟨tm', e1, e2⟩ := mechanism_merge smp (huangAuction S) hm hM ((hrun _).trans h1) hid
    refine ⟨tm', ex, e1, ?_⟩
    intro ps pb q he
    obtain ⟨s, b, g1, g2, g3⟩ := h2 ps pb q he
    refine ⟨s, b, g1, g2, ?_⟩
    rw [e2, hM.boughtQty_lift hid, hM.soldQty_lift hid, ← liftA, ← liftB]
    exact g3
  · have hrun : mechRun (huangAuction S) nb = .ok (TransactionManager.init, .empty) := by
      unfold mechRun; simp only; rw [if_neg hside]
    obtain ⟨tm', e1, e2⟩ := mechanism_merge smp (huangAuction S) hm hM hrun (by intro t h; cases h)
    exact ⟨tm', _, e1, by intro ps pb q he; cases he⟩

/-- Both cases occur: on `huangBook` the report is right, on `reportBook` it is not. -/
example : insideSell (npRound 5) huangBook 5 = 2 ∧ insideBuy (npRound 5) huangBook 6 = 5 ∧
    insideSell (npRound 5) reportBook 2 = 0 ∧ insideBuy (npRound 5) reportBook 3 = 2 := by decide +kernel

end PyMarket
