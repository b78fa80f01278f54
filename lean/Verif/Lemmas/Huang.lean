import Verif.Lemmas.Intersect
import Verif.Lemmas.Managers
import Verif.Props.WaterFill

/-! # Lemmas about Huang's auction -/

set_option autoImplicit false

namespace PyMarket

open Spec

theorem stepIdx_row (x : Ext) (a : ℚ) (rows : DF) (e : Ext) :
    (stepIdx x a rows = rows.length ∧ stepVal x a rows e = e) ∨
    ∃ r, rows[stepIdx x a rows]? = some r ∧ stepVal x a rows e = ((r.price : ℚ) : Ext) := by
  induction rows generalizing a with
  | nil => left; exact ⟨rfl, rfl⟩
  | cons r rows ih =>
    simp only [stepIdx, stepVal]
    by_cases h : x ≤ ((a + r.quantity : ℚ) : Ext)
    · simp only [h, if_true]
      right; exact ⟨r, rfl, rfl⟩
    · simp only [h, if_false]
      rcases ih (a + r.quantity) with ⟨h1, h2⟩ | ⟨r', h1, h2⟩
      · left; exact ⟨by simp [h1], h2⟩
      · right; exact ⟨r', by simpa using h1, h2⟩

theorem stepIdx_take_lt (x : ℚ) (a : ℚ) (rows : DF) (hq : ∀ r ∈ rows, 0 ≤ r.quantity)
    (h : 0 < stepIdx (x : Ext) a rows) : a + qsum (rows.take (stepIdx (x : Ext) a rows)) < x := by
  induction rows generalizing a with
  | nil => simp [stepIdx] at h
  | cons r rows ih =>
    simp only [stepIdx] at h ⊢
    by_cases hc : (x : Ext) ≤ ((a + r.quantity : ℚ) : Ext)
    · simp only [hc, if_true] at h
      exact absurd h (lt_irrefl _)
    · simp only [hc, if_false, List.take_succ_cons, qsum_cons]
      have hlt : a + r.quantity < x := by
        rw [WithTop.coe_le_coe] at hc; exact not_le.mp hc
      rcases Nat.eq_zero_or_pos (stepIdx (x : Ext) (a + r.quantity) rows) with h0 | h0
      · rw [h0]; simpa using hlt
      · have := ih (a + r.quantity) (fun r' hr' => hq r' (List.mem_cons_of_mem _ hr')) h0
        linarith

/-- The buying bids in front of the marginal one. -/
def huangB (S : Sorter) (df : DF) (x : ℚ) : DF := (sortDesc S (buys df)).take (demandIdx S df x)

/-- The selling bids in front of the marginal one. -/
def huangA (S : Sorter) (df : DF) (x : ℚ) : DF := (sortAsc S (sells df)).take (supplyIdx S df x)

theorem mem_take_or_drop {α : Type*} {l : List α} {n : ℕ} {a : α} (h : a ∈ l) :
    a ∈ l.take n ∨ a ∈ l.drop n := by
  rw [← List.take_append_drop n l] at h
  exact List.mem_append.mp h

/-- Position of the marginal bid of a sorted list. -/
theorem take_sorted {le : Row → Row → Prop} {l : DF} (hs : l.Pairwise le) {n : ℕ} {r : Row}
    (hr : l[n]? = some r) :
    (∀ r' ∈ l.take n, le r' r) ∧ (∀ r' ∈ l.drop n, r' = r ∨ le r r') := by
  obtain ⟨hn, hr⟩ := List.getElem?_eq_some_iff.mp hr
  have hd : l.drop n = r :: l.drop (n + 1) := by
    rw [← hr]; exact List.drop_eq_getElem_cons hn
  rw [← List.take_append_drop n l, List.pairwise_append] at hs
  refine ⟨fun r' hr' => hs.2.2 r' hr' r (by rw [hd]; exact List.mem_cons_self), ?_⟩
  intro r' hr'
  rw [hd] at hr' hs
  rcases List.mem_cons.mp hr' with h | h
  · left; exact h
  · right; exact List.rel_of_pairwise_cons hs.2.1 h

theorem Crossing.marginal_buy {S : Sorter} {df : DF} (h : NonNeg df) {x : ℚ}
    (hc : Crossing S df x) : ∃ r, (sortDesc S (buys df))[demandIdx S df x]? = some r ∧
      demandAt S df x = ((r.price : ℚ) : Ext) := by
  rcases stepIdx_row (x : Ext) 0 (sortDesc S (buys df)) ((0 : ℚ) : Ext) with ⟨_, h2⟩ | ⟨r, h1, h2⟩
  · exfalso
    have := hc.at_x
    unfold demandAt at this
    rw [h2] at this
    exact absurd this (not_lt.mpr (supplyAt_nonneg S (fun r hr => (h r hr).2) _))
  · exact ⟨r, h1, h2⟩

theorem Crossing.marginal_sell {S : Sorter} {df : DF} {x : ℚ}
    (hc : Crossing S df x) : ∃ r, (sortAsc S (sells df))[supplyIdx S df x]? = some r ∧
      supplyAt S df x = ((r.price : ℚ) : Ext) := by
  rcases stepIdx_row (x : Ext) 0 (sortAsc S (sells df)) ⊤ with ⟨_, h2⟩ | ⟨r, h1, h2⟩
  · exfalso
    have := hc.at_x
    unfold supplyAt at this
    rw [h2] at this
    exact absurd this (not_lt.mpr le_top)
  · exact ⟨r, h1, h2⟩

/-- The intramarginal buyers: all of them bid at least the marginal price, and everybody above the
marginal price is among them. -/
theorem huangB_spec {S : Sorter} {df : DF} (h : NonNeg df) {x pb : ℚ} (hc : Crossing S df x)
    (hpb : demandAt S df x = (pb : Ext)) :
    (∀ r ∈ huangB S df x, r ∈ df ∧ r.buying = true ∧ pb ≤ r.price) ∧
    (∀ r ∈ df, r.buying = true → pb < r.price → r ∈ huangB S df x) := by
  obtain ⟨m, hm1, hm2⟩ := hc.marginal_buy h
  have hmp : m.price = pb := by rw [hm2] at hpb; exact WithTop.coe_injective hpb
  obtain ⟨h1, h2⟩ := take_sorted (sortDesc_sorted S (buys df)) hm1
  constructor
  · intro r hr
    have hmem := mem_buys.mp (mem_sortDesc.mp (List.mem_of_mem_take hr))
    exact ⟨hmem.1, hmem.2, by rw [← hmp]; exact h1 r hr⟩
  · intro r hr hb hlt
    rcases mem_take_or_drop (n := demandIdx S df x)
      (mem_sortDesc (S := S).mpr (mem_buys.mpr ⟨hr, hb⟩)) with h' | h'
    · exact h'
    · exfalso
      rcases h2 r h' with rfl | h''
      · rw [hmp] at hlt; exact lt_irrefl _ hlt
      · rw [← hmp] at hlt; exact absurd h'' (not_le.mpr hlt)

theorem huangA_spec {S : Sorter} {df : DF} {x ps : ℚ} (hc : Crossing S df x)
    (hps : supplyAt S df x = (ps : Ext)) :
    (∀ r ∈ huangA S df x, r ∈ df ∧ r.buying = false ∧ r.price ≤ ps) ∧
    (∀ r ∈ df, r.buying = false → r.price < ps → r ∈ huangA S df x) := by
  obtain ⟨m, hm1, hm2⟩ := hc.marginal_sell
  have hmp : m.price = ps := by rw [hm2] at hps; exact WithTop.coe_injective hps
  obtain ⟨h1, h2⟩ := take_sorted (sortAsc_sorted S (sells df)) hm1
  constructor
  · intro r hr
    have hmem := mem_sells.mp (mem_sortAsc.mp (List.mem_of_mem_take hr))
    exact ⟨hmem.1, hmem.2, by rw [← hmp]; exact h1 r hr⟩
  · intro r hr hb hlt
    rcases mem_take_or_drop (n := supplyIdx S df x)
      (mem_sortAsc (S := S).mpr (mem_sells.mpr ⟨hr, hb⟩)) with h' | h'
    · exact h'
    · exfalso
      rcases h2 r h' with rfl | h''
      · rw [hmp] at hlt; exact lt_irrefl _ hlt
      · rw [← hmp] at hlt; exact absurd h'' (not_le.mpr hlt)

theorem take_eq_nil {α : Type*} {l : List α} {n : ℕ} (hn : n < l.length) :
    l.take n = [] ↔ n = 0 := by
  constructor
  · intro h
    have := congrArg List.length h
    simp at this
    rcases this with h | h
    · exact h
    · rw [h] at hn; simp at hn
  · rintro rfl; rfl

/-- Transactions of one side after the cut `c`. -/
def cutTrans (rows : DF) (c price : ℚ) : List Transaction :=
  rows.map (fun r => ⟨r.label, max (r.quantity - c) 0, price, -1, false⟩)

theorem huangSideTrans_cut (rows : DF) (c price : ℚ) :
    huangSideTrans rows (cut c (rows.map (fun r => r.quantity))) price = cutTrans rows c price := by
  unfold huangSideTrans cutTrans cut
  induction rows with
  | nil => rfl
  | cons r rows ih => simp only [List.map_cons, List.zip_cons_cons, ih]

theorem cut_zero {q : List ℚ} (hq : ∀ x ∈ q, 0 ≤ x) : cut 0 q = q := by
  unfold cut
  conv_rhs => rw [← List.map_id q]
  apply List.map_congr_left
  intro x hx
  rw [sub_zero, max_eq_left (hq x hx)]; rfl

/-- What Huang's auction returns. -/
theorem huang_cases (S : Sorter) {df : DF} (h : NonNeg df) :
    (huangAuction S df = .ok (TransactionManager.init, .empty) ∧
      ¬ ((∃ x : Ext, ((0 : ℚ) : Ext) ≤ x ∧ supplyAt S df x < demandAt S df x) ∧
        ∀ x : Ext, ((0 : ℚ) : Ext) ≤ x → demandAt S df x ≠ supplyAt S df x)) ∨
    ∃ x ps pb : ℚ, Crossing S df x ∧ supplyAt S df x = (ps : Ext) ∧
      demandAt S df x = (pb : Ext) ∧ ps < pb ∧
      ((huangB S df x ≠ [] ∧ huangA S df x ≠ [] ∧ ∃ cs cb : ℚ, 0 ≤ cs ∧ 0 ≤ cb ∧
        (cs = 0 ∨ cb = 0) ∧
        (cut cs ((huangA S df x).map (fun r => r.quantity))).sum =
          min (qsum (huangA S df x)) (qsum (huangB S df x)) ∧
        (cut cb ((huangB S df x).map (fun r => r.quantity))).sum =
          min (qsum (huangA S df x)) (qsum (huangB S df x)) ∧
        huangAuction S df = .ok (TransactionManager.init.addAll
          (cutTrans (huangA S df x) cs ps ++ cutTrans (huangB S df x) cb pb),
          .huang (ps : Ext) (pb : Ext)
            (cut cb ((huangB S df x).map (fun r => r.quantity))).sum)) ∨
       ((huangB S df x = [] ∨ huangA S df x = []) ∧
        huangAuction S df = .ok (TransactionManager.init,
          .huang (ps : Ext) (pb : Ext) (qsum (huangB S df x))))) := by
  rcases intersect_cases S h (1 / 2) with ⟨x, hc, he⟩ | ⟨he, hn⟩
  · right
    obtain ⟨rs, hrs1, hrs2⟩ := hc.marginal_sell
    obtain ⟨rb, hrb1, hrb2⟩ := hc.marginal_buy h
    have hlt := hc.at_x
    rw [hrs2, hrb2] at hlt
    refine ⟨x, rs.price, rb.price, hc, hrs2, hrb2, WithTop.coe_lt_coe.mp hlt, ?_⟩
    obtain ⟨bg, _, hbg⟩ := stepCurve_get_idx (x : Ext) 0 (sortAsc S (sells df)) ⊤
    obtain ⟨bf, _, hbf⟩ := stepCurve_get_idx (x : Ext) 0 (sortDesc S (buys df)) ((0 : ℚ) : Ext)
    have g1 : (demandCurve S df).1[demandIdx S df x]? = some (bf, ((rb.price : ℚ) : Ext)) := by
      rw [demandCurve_eq, ← hrb2]; exact hbf
    have g2 : (supplyCurve S df).1[supplyIdx S df x]? = some (bg, ((rs.price : ℚ) : Ext)) := by
      rw [supplyCurve_eq, ← hrs2]; exact hbg
    obtain ⟨hbl, _⟩ := List.getElem?_eq_some_iff.mp hrb1
    obtain ⟨hsl, _⟩ := List.getElem?_eq_some_iff.mp hrs1
    have hB : huangB S df x = [] ↔ demandIdx S df x = 0 := take_eq_nil hbl
    have hA : huangA S df x = [] ↔ supplyIdx S df x = 0 := take_eq_nil hsl
    have hqB : ∀ q ∈ (huangB S df x).map (fun r => r.quantity), 0 ≤ q := by
      intro q hq
      obtain ⟨r, hr, rfl⟩ := List.mem_map.mp hq
      exact (h r ((huangB_spec h hc hrb2).1 r hr).1).1
    have hqA : ∀ q ∈ (huangA S df x).map (fun r => r.quantity), 0 ≤ q := by
      intro q hq
      obtain ⟨r, hr, rfl⟩ := List.mem_map.mp hq
      exact (h r ((huangA_spec hc hrs2).1 r hr).1).1
    have sB0 : 0 ≤ ((huangB S df x).map (fun r => r.quantity)).sum := List.sum_nonneg hqB
    have sA0 : 0 ≤ ((huangA S df x).map (fun r => r.quantity)).sum := List.sum_nonneg hqA
    by_cases hpos : 0 < demandIdx S df x ∧ 0 < supplyIdx S df x
    · left
      have hBne : huangB S df x ≠ [] := fun h' => by rw [hB] at h'; omega
      have hAne : huangA S df x ≠ [] := fun h' => by rw [hA] at h'; omega
      refine ⟨hBne, hAne, ?_⟩
      have hBne' : (huangB S df x).map (fun r => r.quantity) ≠ [] := by simpa using hBne
      have hAne' : (huangA S df x).map (fun r => r.quantity) ≠ [] := by simpa using hAne
      by_cases hgap : 0 < ((huangA S df x).map (fun r => r.quantity)).sum -
          ((huangB S df x).map (fun r => r.quantity)).sum
      · obtain ⟨c, hc0, hu, hs, _⟩ := C12_water_filling ((huangA S df x).map (fun r => r.quantity))
          _ hAne' hgap.le (by linarith)
        have hmin : min (qsum (huangA S df x)) (qsum (huangB S df x)) = qsum (huangB S df x) :=
          min_eq_right (by unfold qsum; linarith)
        refine ⟨c, 0, hc0, le_refl _, Or.inr rfl, ?_, ?_, ?_⟩
        · rw [hs, hmin]; unfold qsum; ring
        · rw [cut_zero hqB, hmin]; rfl
        · unfold huangAuction
          simp only [he, bind, Except.bind, g1, g2]
          rw [if_pos hpos]
          simp only [huangA, huangB] at hgap hu hqB ⊢
          rw [if_pos hgap, hu]
          simp only
          rw [huangSideTrans_cut]
          conv_lhs =>
            rw [← cut_zero hqB]
          rw [huangSideTrans_cut, cut_zero hqB]
          rfl
      · obtain ⟨c, hc0, hu, hs, _⟩ := C12_water_filling ((huangB S df x).map (fun r => r.quantity))
          (-(((huangA S df x).map (fun r => r.quantity)).sum -
          ((huangB S df x).map (fun r => r.quantity)).sum)) hBne' (by linarith) (by linarith)
        have hmin : min (qsum (huangA S df x)) (qsum (huangB S df x)) = qsum (huangA S df x) :=
          min_eq_left (by unfold qsum; linarith)
        refine ⟨0, c, le_refl _, hc0, Or.inl rfl, ?_, ?_, ?_⟩
        · rw [cut_zero hqA, hmin]; rfl
        · rw [hs, hmin]; unfold qsum; ring
        · unfold huangAuction
          simp only [he, bind, Except.bind, g1, g2]
          rw [if_pos hpos]
          simp only [huangA, huangB] at hgap hu hqA ⊢
          rw [if_neg hgap, hu]
          simp only
          rw [huangSideTrans_cut]
          conv_lhs =>
            rw [← cut_zero hqA]
          rw [huangSideTrans_cut]
          rfl
    · right
      refine ⟨?_, ?_⟩
      · rw [hB, hA]; omega
      · unfold huangAuction
        simp only [he, bind, Except.bind, g1, g2]
        rw [if_neg hpos]
        rfl
  · left
    refine ⟨?_, hn⟩
    unfold huangAuction
    simp only [he, bind, Except.bind]

end PyMarket
