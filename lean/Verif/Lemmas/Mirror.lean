import Verif.Spec.Mirror
import Verif.Lemmas.Surcharge

/-! # The mechanisms commute with exchanging buyers and sellers -/

set_option autoImplicit false

namespace PyMarket

open Spec

/-- The mirror image of a value of a curve; the ends of the curves are exchanged. -/
def mirrorExt (M : ℚ) : Ext → Ext
  | none => some 0
  | some q => if q ≤ 0 then none else some (M - q)

/-- The values of the curves of a mirrorable book. -/
def InSpan (M : ℚ) (y : Ext) : Prop := y = ⊤ ∨ ∃ q : ℚ, y = (q : Ext) ∧ 0 ≤ q ∧ q < M

theorem mirrorExt_coe {M q : ℚ} (h : 0 < q) : mirrorExt M (q : Ext) = ((M - q : ℚ) : Ext) := if_neg (not_le.mpr h)

theorem mirrorExt_zero (M : ℚ) : mirrorExt M ((0 : ℚ) : Ext) = ⊤ := by
  show (if (0 : ℚ) ≤ 0 then none else some (M - 0) : Ext) = none
  exact if_pos (le_refl (0 : ℚ))

theorem mirrorExt_top (M : ℚ) : mirrorExt M ⊤ = ((0 : ℚ) : Ext) := rfl

theorem mirrorExt_lt {M : ℚ} {y z : Ext} (hy : InSpan M y) (hz : InSpan M z) :
    mirrorExt M y < mirrorExt M z ↔ z < y := by
  have key : ∀ a b : ℚ, (a : Ext) < (b : Ext) ↔ a < b := fun a b => WithTop.coe_lt_coe
  rcases hy with rfl | ⟨p, rfl, p0, pM⟩ <;> rcases hz with rfl | ⟨q, rfl, q0, qM⟩
  · exact iff_of_false (lt_irrefl _) (lt_irrefl _)
  · refine iff_of_true ?_ (WithTop.coe_lt_top q)
    rcases q0.eq_or_lt with rfl | q0
    · rw [mirrorExt_zero, mirrorExt_top]; exact WithTop.coe_lt_top 0
    · rw [mirrorExt_coe q0, mirrorExt_top, key]; linarith
  · refine iff_of_false ?_ (not_lt.mpr le_top)
    rcases p0.eq_or_lt with rfl | p0
    · rw [mirrorExt_zero]; exact not_lt.mpr le_top
    · rw [mirrorExt_coe p0, mirrorExt_top, key]; linarith
  · rw [key]
    rcases p0.eq_or_lt with rfl | p0 <;> rcases q0.eq_or_lt with rfl | q0
    · exact iff_of_false (lt_irrefl _) (lt_irrefl _)
    · rw [mirrorExt_zero]
      exact iff_of_false (not_lt.mpr le_top) (not_lt.mpr q0.le)
    · rw [mirrorExt_zero, mirrorExt_coe p0]
      exact iff_of_true (WithTop.coe_lt_top _) p0
    · rw [mirrorExt_coe p0, mirrorExt_coe q0, key, sub_lt_sub_iff_left]

/-! ## Frames -/

section

variable (M : ℚ) (df : DF)

theorem mirror_eq : mirror M df = df.map (mirrorRow M) := rfl

theorem buys_mirror : buys (mirror M df) = mirror M (sells df) := by
  unfold buys sells mirror
  rw [List.filter_map]
  rfl

theorem sells_mirror : sells (mirror M df) = mirror M (buys df) := by
  unfold buys sells mirror
  rw [List.filter_map]
  congr 1
  apply List.filter_congr
  intro r _
  exact Bool.not_not r.buying

theorem prices_mirror : (mirror M df).map (fun r => r.price) = (df.map (fun r => r.price)).map (fun p => M - p) := by
  unfold mirror
  rw [List.map_map, List.map_map]
  rfl

theorem quantities_mirror : (mirror M df).map (fun r => r.quantity) = df.map (fun r => r.quantity) := by
  unfold mirror
  rw [List.map_map]
  rfl

theorem labels_mirror : (mirror M df).map (fun r => r.label) = df.map (fun r => r.label) := by
  unfold mirror
  rw [List.map_map]
  rfl

theorem users_mirror : (mirror M df).map (fun r => r.user) = df.map (fun r => r.user) := by
  unfold mirror
  rw [List.map_map]
  rfl

theorem qsum_mirror : qsum (mirror M df) = qsum df := by
  unfold qsum
  rw [quantities_mirror]

theorem length_mirror : (mirror M df).length = df.length := List.length_map _

theorem take_mirror (n : ℕ) : (mirror M df).take n = mirror M (df.take n) := (List.map_take ..).symm

theorem drop_mirror (n : ℕ) : (mirror M df).drop n = mirror M (df.drop n) := (List.map_drop ..).symm

theorem locLabels_mirror (l : List ℕ) : locLabels (mirror M df) l = mirror M (locLabels df l) := by
  unfold locLabels mirror
  rw [List.map_filterMap]
  congr 1
  funext i
  rw [List.find?_map]
  rfl

end

theorem Spec.Mirrorable.nonNeg {M : ℚ} {df : DF} (h : Mirrorable M df) : NonNeg df :=
  fun r hr => ⟨(h r hr).1, (h r hr).2.1.le⟩

theorem Spec.Mirrorable.mirror {M : ℚ} {df : DF} (h : Mirrorable M df) : Mirrorable M (mirror M df) := by
  intro r hr
  obtain ⟨s, hs, rfl⟩ := List.mem_map.mp hr
  obtain ⟨h1, h2, h3⟩ := h s hs
  refine ⟨h1, ?_, ?_⟩
  · show 0 < M - s.price
    linarith
  · show M - s.price < M
    linarith

theorem Spec.Mirrorable.locLabels {M : ℚ} {df : DF} (h : Mirrorable M df) (l : List ℕ) :
    Mirrorable M (locLabels df l) := by
  intro r hr
  unfold PyMarket.locLabels at hr
  obtain ⟨i, _, hi⟩ := List.mem_filterMap.mp hr
  exact h r (List.mem_of_find?_eq_some hi)

section

variable {S T : Sorter} (hST : MirrorSorters S T) (M : ℚ)

include hST

theorem sortAsc_mirror (df : DF) : sortAsc T (mirror M df) = mirror M (sortDesc S df) := by
  unfold sortAsc sortDesc
  rw [prices_mirror, (hST M _).1]
  unfold mirror
  rw [takeIdx_map]

theorem sortDesc_mirror (df : DF) : sortDesc T (mirror M df) = mirror M (sortAsc S df) := by
  unfold sortAsc sortDesc
  rw [prices_mirror, (hST M _).2]
  unfold mirror
  rw [takeIdx_map]

end

theorem stepVal_mirror {M : ℚ} {rows : DF} (h : ∀ r ∈ rows, 0 < r.price) (x : Ext) (a : ℚ) (e : Ext) :
    stepVal x a (mirror M rows) (mirrorExt M e) = mirrorExt M (stepVal x a rows e) := by
  induction rows generalizing a with
  | nil => rfl
  | cons r rows ih =>
    have e1 : mirror M (r :: rows) = mirrorRow M r :: mirror M rows := rfl
    have hq : (mirrorRow M r).quantity = r.quantity := rfl
    have hp : (mirrorRow M r).price = M - r.price := rfl
    rw [e1]
    simp only [stepVal, hq, hp]
    split
    · rw [mirrorExt_coe (h r (List.mem_cons_self ..))]
    · exact ih (fun r hr => h r (List.mem_cons_of_mem _ hr)) _

theorem stepIdx_mirror {M : ℚ} {rows : DF} (x : Ext) (a : ℚ) : stepIdx x a (mirror M rows) = stepIdx x a rows := by
  induction rows generalizing a with
  | nil => rfl
  | cons r rows ih =>
    have e1 : mirror M (r :: rows) = mirrorRow M r :: mirror M rows := rfl
    have hq : (mirrorRow M r).quantity = r.quantity := rfl
    rw [e1]
    simp only [stepIdx, hq, ih]

theorem stepCurve_fst_mirror {M : ℚ} {rows : DF} (a : ℚ) (e e' : Ext) :
    (stepCurve a (mirror M rows) e).map Prod.fst = (stepCurve a rows e').map Prod.fst := by
  induction rows generalizing a with
  | nil => rfl
  | cons r rows ih =>
    have e1 : mirror M (r :: rows) = mirrorRow M r :: mirror M rows := rfl
    have hq : (mirrorRow M r).quantity = r.quantity := rfl
    rw [e1]
    simp only [stepCurve, hq, List.map_cons, ih]

section

variable {S T : Sorter} (hST : MirrorSorters S T) {M : ℚ} {df : DF} (h : Mirrorable M df)

theorem inSpan_demandAt (h : Mirrorable M df) (hM : 0 < M) (x : Ext) : InSpan M (demandAt S df x) := by
  rcases stepVal_mem x 0 (sortDesc S (buys df)) ((0 : ℚ) : Ext) with e | ⟨r, hr, e⟩
  · exact Or.inr ⟨0, e, le_refl _, hM⟩
  · have := h r (mem_buys.mp (mem_sortDesc.mp hr)).1
    exact Or.inr ⟨r.price, e, this.2.1.le, this.2.2⟩

theorem inSpan_supplyAt (h : Mirrorable M df) (x : Ext) : InSpan M (supplyAt S df x) := by
  rcases stepVal_mem x 0 (sortAsc S (sells df)) ⊤ with e | ⟨r, hr, e⟩
  · exact Or.inl e
  · have := h r (mem_sells.mp (mem_sortAsc.mp hr)).1
    exact Or.inr ⟨r.price, e, this.2.1.le, this.2.2⟩

include hST

theorem demandIdx_mirror (x : Ext) : demandIdx T (mirror M df) x = supplyIdx S df x := by
  unfold demandIdx supplyIdx
  rw [buys_mirror, sortDesc_mirror hST, stepIdx_mirror]

theorem supplyIdx_mirror (x : Ext) : supplyIdx T (mirror M df) x = demandIdx S df x := by
  unfold demandIdx supplyIdx
  rw [sells_mirror, sortAsc_mirror hST, stepIdx_mirror]

theorem demandFst_mirror : (demandCurve T (mirror M df)).1.map Prod.fst = (supplyCurve S df).1.map Prod.fst := by
  rw [demandCurve_eq, supplyCurve_eq, buys_mirror, sortDesc_mirror hST]
  exact stepCurve_fst_mirror _ _ _

theorem supplyFst_mirror : (supplyCurve T (mirror M df)).1.map Prod.fst = (demandCurve S df).1.map Prod.fst := by
  rw [demandCurve_eq, supplyCurve_eq, sells_mirror, sortAsc_mirror hST]
  exact stepCurve_fst_mirror _ _ _

include h

theorem demandAt_mirror (x : Ext) : demandAt T (mirror M df) x = mirrorExt M (supplyAt S df x) := by
  unfold demandAt supplyAt
  rw [buys_mirror, sortDesc_mirror hST]
  exact stepVal_mirror (fun r hr => (h r (mem_sells.mp (mem_sortAsc.mp hr)).1).2.1) x 0 ⊤

theorem supplyAt_mirror (x : Ext) : supplyAt T (mirror M df) x = mirrorExt M (demandAt S df x) := by
  unfold demandAt supplyAt
  rw [sells_mirror, sortAsc_mirror hST, ← mirrorExt_zero M]
  exact stepVal_mirror (fun r hr => (h r (mem_buys.mp (mem_sortDesc.mp hr)).1).2.1) x 0 ((0 : ℚ) : Ext)

theorem crossing_mirror (hM : 0 < M) (x : ℚ) : Crossing T (mirror M df) x ↔ Crossing S df x := by
  have hd := fun x => inSpan_demandAt (S := S) h hM x
  have hs := fun x => inSpan_supplyAt (S := S) h x
  constructor
  · rintro ⟨h1, h2, h3, h4⟩
    rw [demandAt_mirror hST h, supplyAt_mirror hST h, mirrorExt_lt (hd _) (hs _)] at h2
    refine ⟨h1, h2, ?_, ?_⟩
    · intro z hz
      have := h3 z hz
      rwa [demandAt_mirror hST h, supplyAt_mirror hST h, mirrorExt_lt (hs _) (hd _)] at this
    · rw [demandFst_mirror hST, supplyFst_mirror hST] at h4
      exact h4.symm
  · rintro ⟨h1, h2, h3, h4⟩
    refine ⟨h1, ?_, ?_, ?_⟩
    · rwa [demandAt_mirror hST h, supplyAt_mirror hST h, mirrorExt_lt (hd _) (hs _)]
    · intro z hz
      rw [demandAt_mirror hST h, supplyAt_mirror hST h, mirrorExt_lt (hs _) (hd _)]
      exact h3 z hz
    · rw [demandFst_mirror hST, supplyFst_mirror hST]
      exact h4.symm

/-- The intersection of the mirrored book: the same quantity, the positions exchanged, the price mirrored. -/
theorem intersect_mirror (hM : 0 < M) : (∃ (x : ℚ) (rb rs : Row) (xb xs : Ext), Crossing S df x ∧
      (sortDesc S (buys df))[demandIdx S df x]? = some rb ∧ (sortAsc S (sells df))[supplyIdx S df x]? = some rs ∧
      (demandCurve S df).1[demandIdx S df x]? = some (xb, (rb.price : Ext)) ∧
      (supplyCurve S df).1[supplyIdx S df x]? = some (xs, (rs.price : Ext)) ∧
      (demandCurve T (mirror M df)).1[supplyIdx S df x]? = some (xs, ((M - rs.price : ℚ) : Ext)) ∧
      (supplyCurve T (mirror M df)).1[demandIdx S df x]? = some (xb, ((M - rb.price : ℚ) : Ext)) ∧
      ∃ p : ℚ, intersectStepwise (demandCurve S df).1 (supplyCurve S df).1 =
          .ok ⟨some (x : Ext), some (demandIdx S df x), some (supplyIdx S df x), .fin p⟩ ∧
        intersectStepwise (demandCurve T (mirror M df)).1 (supplyCurve T (mirror M df)).1 =
          .ok ⟨some (x : Ext), some (supplyIdx S df x), some (demandIdx S df x), .fin (M - p)⟩) ∨
    (intersectStepwise (demandCurve S df).1 (supplyCurve S df).1 = .ok ⟨none, none, none, .inf⟩ ∧
      intersectStepwise (demandCurve T (mirror M df)).1 (supplyCurve T (mirror M df)).1 =
        .ok ⟨none, none, none, .inf⟩) := by
  have hinf : kMix (1 / 2) ⊤ ((0 : ℚ) : Ext) = .inf := by decide +kernel
  have hmix : ∀ s d : ℚ, kMix (1 / 2) (s : Ext) (d : Ext) = .fin (1 / 2 * s + (1 - 1 / 2) * d) := fun s d => rfl
  rcases intersect_cases S h.nonNeg (1 / 2) with ⟨x, hc, he⟩ | ⟨he, hn⟩
  · left
    have hc' := (crossing_mirror hST h hM x).mpr hc
    rcases intersect_cases T h.mirror.nonNeg (1 / 2) with ⟨x', hc'', he'⟩ | ⟨_, hn'⟩
    swap
    · exact absurd ⟨⟨x, WithTop.coe_le_coe.mpr hc'.nonneg, hc'.at_x⟩,
        fun z _ => hc'.no_tie h.mirror.nonNeg z⟩ hn'
    obtain rfl := hc''.unique hc'
    obtain ⟨rb, hrb1, hrb2⟩ := hc.marginal_buy h.nonNeg
    obtain ⟨rs, hrs1, hrs2⟩ := hc.marginal_sell
    have hrb := (mem_buys.mp (mem_sortDesc.mp (List.mem_of_getElem? hrb1))).1
    have hrs := (mem_sells.mp (mem_sortAsc.mp (List.mem_of_getElem? hrs1))).1
    have m1 : supplyAt T (mirror M df) x' = ((M - rb.price : ℚ) : Ext) := by
      rw [supplyAt_mirror hST h, hrb2, mirrorExt_coe (h rb hrb).2.1]
    have m2 : demandAt T (mirror M df) x' = ((M - rs.price : ℚ) : Ext) := by
      rw [demandAt_mirror hST h, hrs2, mirrorExt_coe (h rs hrs).2.1]
    obtain ⟨xs, a1, a2⟩ := stepCurve_get_idx (x' : Ext) 0 (sortAsc S (sells df)) ⊤
    obtain ⟨xb, b1, b2⟩ := stepCurve_get_idx (x' : Ext) 0 (sortDesc S (buys df)) ((0 : ℚ) : Ext)
    obtain ⟨xs', c1, c2⟩ := stepCurve_get_idx (x' : Ext) 0 (sortAsc T (sells (mirror M df))) ⊤
    obtain ⟨xb', d1, d2⟩ := stepCurve_get_idx (x' : Ext) 0 (sortDesc T (buys (mirror M df))) ((0 : ℚ) : Ext)
    have g1 : (demandCurve S df).1[demandIdx S df x']? = some (xb, (rb.price : Ext)) := by
      rw [demandCurve_eq, ← hrb2]; exact b2
    have g2 : (supplyCurve S df).1[supplyIdx S df x']? = some (xs, (rs.price : Ext)) := by
      rw [supplyCurve_eq, ← hrs2]; exact a2
    have g3 : (demandCurve T (mirror M df)).1[supplyIdx S df x']? = some (xb', ((M - rs.price : ℚ) : Ext)) := by
      rw [demandCurve_eq, ← m2, ← demandIdx_mirror hST (M := M)]; exact d2
    have g4 : (supplyCurve T (mirror M df)).1[demandIdx S df x']? = some (xs', ((M - rb.price : ℚ) : Ext)) := by
      rw [supplyCurve_eq, ← m1, ← supplyIdx_mirror hST (M := M)]; exact c2
    have e1 : xb' = xs := by
      have k1 := congrArg (fun l => l[supplyIdx S df x']?) (demandFst_mirror (M := M) (df := df) hST)
      simp only [List.getElem?_map, g3, g2, Option.map_some, Option.some.injEq] at k1
      exact k1
    have e2 : xs' = xb := by
      have k1 := congrArg (fun l => l[demandIdx S df x']?) (supplyFst_mirror (M := M) (df := df) hST)
      simp only [List.getElem?_map, g4, g1, Option.map_some, Option.some.injEq] at k1
      exact k1
    subst e1 e2
    refine ⟨x', rb, rs, xs', xb', hc, hrb1, hrs1, g1, g2, g3, g4, ?_⟩
    rw [he, he', demandIdx_mirror hST, supplyIdx_mirror hST]
    unfold crossPrice
    rw [demandFst_mirror hST, supplyFst_mirror hST, hrb2, hrs2, m1, m2, hmix, hmix]
    by_cases k1 : (x' : Ext) ∈ (demandCurve S df).1.map Prod.fst <;>
      by_cases k2 : (x' : Ext) ∈ (supplyCurve S df).1.map Prod.fst
    · refine ⟨_, by rw [if_pos ⟨k1, k2⟩], ?_⟩
      rw [if_pos ⟨k2, k1⟩]
      congr 3
      ring
    · refine ⟨rs.price, by rw [if_neg (fun k => k2 k.2), if_pos k1]; rfl, ?_⟩
      rw [if_neg (fun k => k2 k.1), if_neg k2]
      rfl
    · refine ⟨rb.price, by rw [if_neg (fun k => k1 k.1), if_neg k1]; rfl, ?_⟩
      rw [if_neg (fun k => k1 k.2), if_pos k2]
      rfl
    · exact absurd hc.mem (not_or.mpr ⟨k1, k2⟩)
  · right
    rcases intersect_cases T h.mirror.nonNeg (1 / 2) with ⟨x', hc'', _⟩ | ⟨he', _⟩
    · have hc := (crossing_mirror hST h hM x').mp hc''
      exact absurd ⟨⟨x', WithTop.coe_le_coe.mpr hc.nonneg, hc.at_x⟩, fun z _ => hc.no_tie h.nonNeg z⟩ hn
    · rw [he, he', hinf]
      exact ⟨rfl, rfl⟩

end

end PyMarket
