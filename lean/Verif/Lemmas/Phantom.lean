import Verif.Props.HuangTruthful

/-! # Books with additional bids of quantity 0 -/

set_option autoImplicit false

namespace PyMarket

open Spec

section Lists

variable {P : Row → Bool}

theorem stepVal_phantom {x : Ext} {rows : DF} (hz : ∀ r ∈ rows, P r = false → r.quantity = 0) (e : Ext) :
    ∀ a : ℚ, (a : Ext) < x → stepVal x a (rows.filter P) e = stepVal x a rows e := by
  induction rows with
  | nil => intro a _; rfl
  | cons r rows ih =>
    intro a hx
    have ih := ih (fun r hr => hz r (List.mem_cons_of_mem _ hr))
    cases hp : P r with
    | false =>
      have h0 := hz r List.mem_cons_self hp
      rw [List.filter_cons_of_neg (by simp [hp])]
      simp only [stepVal, h0, add_zero, if_neg (not_le.mpr hx)]
      exact ih a hx
    | true =>
      rw [List.filter_cons_of_pos hp]
      simp only [stepVal]
      split
      · rfl
      · rename_i hn
        exact ih _ (not_le.mp hn)

theorem stepTake_phantom {x : Ext} {rows : DF} (hz : ∀ r ∈ rows, P r = false → r.quantity = 0) :
    ∀ a : ℚ, (a : Ext) < x → (rows.take (stepIdx x a rows)).filter P =
      (rows.filter P).take (stepIdx x a (rows.filter P)) := by
  induction rows with
  | nil => intro a _; rfl
  | cons r rows ih =>
    intro a hx
    have ih := ih (fun r hr => hz r (List.mem_cons_of_mem _ hr))
    cases hp : P r with
    | false =>
      have h0 := hz r List.mem_cons_self hp
      rw [List.filter_cons_of_neg (by simp [hp])]
      simp only [stepIdx, h0, add_zero, if_neg (not_le.mpr hx), List.take_succ_cons]
      rw [List.filter_cons_of_neg (by simp [hp])]
      exact ih a hx
    | true =>
      rw [List.filter_cons_of_pos hp]
      simp only [stepIdx]
      split
      · rfl
      · rename_i hn
        rw [List.take_succ_cons, List.take_succ_cons, List.filter_cons_of_pos hp, ih _ (not_le.mp hn)]

theorem stepCurve_phantom {x : Ext} {rows : DF} (hz : ∀ r ∈ rows, P r = false → r.quantity = 0)
    (hq : ∀ r ∈ rows, 0 ≤ r.quantity) (e : Ext) :
    ∀ a : ℚ, (a : Ext) < x → (x ∈ (stepCurve a (rows.filter P) e).map Prod.fst ↔
      x ∈ (stepCurve a rows e).map Prod.fst) := by
  induction rows with
  | nil => intro a _; rfl
  | cons r rows ih =>
    intro a hx
    have ih := ih (fun r hr => hz r (List.mem_cons_of_mem _ hr))
      (fun r hr => hq r (List.mem_cons_of_mem _ hr))
    cases hp : P r with
    | false =>
      have h0 := hz r List.mem_cons_self hp
      rw [List.filter_cons_of_neg (by simp [hp])]
      simp only [stepCurve, h0, add_zero, List.map_cons, List.mem_cons, hx.ne', false_or]
      exact ih a hx
    | true =>
      rw [List.filter_cons_of_pos hp]
      simp only [stepCurve, List.map_cons, List.mem_cons]
      by_cases hxe : x = ((a + r.quantity : ℚ) : Ext)
      · simp [hxe]
      · simp only [hxe, false_or]
        rcases lt_or_ge ((a + r.quantity : ℚ) : Ext) x with hlt | hge
        · exact ih _ hlt
        · have key : ∀ rows : DF, (∀ r ∈ rows, 0 ≤ r.quantity) →
              x ∉ (stepCurve (a + r.quantity) rows e).map Prod.fst := by
            intro rows hq hm
            obtain ⟨s, hs, hs'⟩ := List.mem_map.mp hm
            have h1 := stepCurve_fst_ge hq hs
            rw [hs'] at h1
            exact hxe (le_antisymm hge h1)
          have hq' := fun r hr => hq r (List.mem_cons_of_mem _ hr)
          exact iff_of_false (key _ (fun r hr => hq' r (List.mem_filter.mp hr).1)) (key _ hq')

theorem qsum_phantom {rows : DF} (hz : ∀ r ∈ rows, P r = false → r.quantity = 0) (f : ℚ → ℚ)
    (hf : f 0 = 0) : ((rows.filter P).map (fun r => f r.quantity)).sum =
      (rows.map (fun r => f r.quantity)).sum := by
  induction rows with
  | nil => rfl
  | cons r rows ih =>
    have ih := ih (fun r hr => hz r (List.mem_cons_of_mem _ hr))
    cases hp : P r with
    | false =>
      rw [List.filter_cons_of_neg (by simp [hp]), ih, List.map_cons, List.sum_cons,
        hz r List.mem_cons_self hp, hf, zero_add]
    | true => rw [List.filter_cons_of_pos hp, List.map_cons, List.sum_cons, ih, List.map_cons,
        List.sum_cons]

end Lists

/-- The bids `zs` of quantity 0 are submitted after the bids `df` of positive quantity; the prices on each
side are pairwise different. -/
structure Spec.Phantoms (df zs : DF) : Prop where
  table : IsTable (df ++ zs)
  live : ∀ r ∈ df, 0 < r.quantity ∧ 0 ≤ r.price
  zero : ∀ z ∈ zs, z.quantity = 0 ∧ 0 ≤ z.price
  buys : (((df ++ zs).filter (fun r => r.buying)).map (fun r => r.price)).Nodup
  sells : (((df ++ zs).filter (fun r => !r.buying)).map (fun r => r.price)).Nodup

namespace Spec.Phantoms

variable {df zs : DF} (h : Phantoms df zs)

include h

theorem nonNeg : NonNeg df := fun r hr => ⟨(h.live r hr).1.le, (h.live r hr).2⟩

theorem nonNeg' : NonNeg (df ++ zs) := by
  intro r hr
  rcases List.mem_append.mp hr with hr | hr
  · exact h.nonNeg r hr
  · exact ⟨(h.zero r hr).1.ge, (h.zero r hr).2⟩

theorem table_df : IsTable df := by
  have h1 : (df ++ zs).map (fun r => r.label) = List.range (df ++ zs).length := h.table
  have h2 := congrArg (List.take df.length) h1
  rw [List.map_append, List.take_append_of_le_length (by simp), List.take_of_length_le (by simp),
    List.take_range, List.length_append, Nat.min_eq_left (Nat.le_add_right _ _)] at h2
  exact h2

theorem label_df {r : Row} (hr : r ∈ df) : r.label < df.length := by
  have h1 : df.map (fun r => r.label) = List.range df.length := h.table_df
  have := List.mem_map_of_mem (f := fun r : Row => r.label) hr
  rw [h1] at this
  exact List.mem_range.mp this

theorem label_zs {r : Row} (hr : r ∈ zs) : ¬ r.label < df.length := by
  intro hlt
  have h2 := h.table_df
  have hi : df[r.label]? = some df[r.label] := List.getElem?_eq_getElem hlt
  have hl := h2.label hi
  have hm : df[r.label] ∈ df ++ zs := List.mem_append_left _ (List.getElem_mem hlt)
  have he : df[r.label] = r := h.table.inj hm (List.mem_append_right _ hr) hl
  have h3 := (h.live _ (List.getElem_mem hlt)).1
  rw [he, (h.zero r hr).1] at h3
  exact lt_irrefl _ h3

theorem mem_live {r : Row} (hr : r ∈ df ++ zs) : decide (r.label < df.length) = true ↔ r ∈ df := by
  rw [decide_eq_true_iff]
  constructor
  · intro hl
    rcases List.mem_append.mp hr with h' | h'
    · exact h'
    · exact absurd hl (h.label_zs h')
  · exact h.label_df

theorem filter_eq {Q : Row → Bool} :
    ((df ++ zs).filter Q).filter (fun r => decide (r.label < df.length)) = df.filter Q := by
  have h1 : (df.filter Q).filter (fun r => decide (r.label < df.length)) = df.filter Q := by
    rw [List.filter_eq_self]
    intro r hr
    simpa using h.label_df (List.mem_filter.mp hr).1
  have h2 : (zs.filter Q).filter (fun r => decide (r.label < df.length)) = [] := by
    rw [List.filter_eq_nil_iff]
    intro r hr
    simpa using h.label_zs (List.mem_filter.mp hr).1
  rw [List.filter_append, List.filter_append, h1, h2, List.append_nil]

theorem sortDesc_eq (S : Sorter) : (sortDesc S (PyMarket.buys (df ++ zs))).filter
    (fun r => decide (r.label < df.length)) = sortDesc S (PyMarket.buys df) := by
  refine List.Perm.eq_of_pairwise ?_ ((sortDesc_sorted S _).filter _) (sortDesc_sorted S _) ?_
  · intro a b ha hb h1 h2
    have ha' := mem_sortDesc.mp (List.mem_filter.mp ha).1
    have hb' : b ∈ PyMarket.buys (df ++ zs) := by
      have := mem_buys.mp (mem_sortDesc.mp hb)
      exact mem_buys.mpr ⟨List.mem_append_left _ this.1, this.2⟩
    exact List.inj_on_of_nodup_map h.buys ha' hb' (le_antisymm h2 h1)
  · refine ((sortDesc_perm S _).filter _).trans ((List.Perm.of_eq ?_).trans (sortDesc_perm S _).symm)
    unfold PyMarket.buys
    exact h.filter_eq

theorem sortAsc_eq (S : Sorter) : (sortAsc S (PyMarket.sells (df ++ zs))).filter
    (fun r => decide (r.label < df.length)) = sortAsc S (PyMarket.sells df) := by
  refine List.Perm.eq_of_pairwise ?_ ((sortAsc_sorted S _).filter _) (sortAsc_sorted S _) ?_
  · intro a b ha hb h1 h2
    have ha' := mem_sortAsc.mp (List.mem_filter.mp ha).1
    have hb' : b ∈ PyMarket.sells (df ++ zs) := by
      have := mem_sells.mp (mem_sortAsc.mp hb)
      exact mem_sells.mpr ⟨List.mem_append_left _ this.1, this.2⟩
    exact List.inj_on_of_nodup_map h.sells ha' hb' (le_antisymm h1 h2)
  · refine ((sortAsc_perm S _).filter _).trans ((List.Perm.of_eq ?_).trans (sortAsc_perm S _).symm)
    unfold PyMarket.sells
    exact h.filter_eq

theorem zero_of {r : Row} (hr : r ∈ df ++ zs) (hl : decide (r.label < df.length) = false) :
    r.quantity = 0 := by
  rcases List.mem_append.mp hr with h' | h'
  · exact absurd (h.label_df h') (by simpa using hl)
  · exact (h.zero r h').1

theorem zero_desc (S : Sorter) : ∀ r ∈ sortDesc S (PyMarket.buys (df ++ zs)),
    decide (r.label < df.length) = false → r.quantity = 0 :=
  fun _ hr hl => h.zero_of (mem_buys.mp (mem_sortDesc.mp hr)).1 hl

theorem zero_asc (S : Sorter) : ∀ r ∈ sortAsc S (PyMarket.sells (df ++ zs)),
    decide (r.label < df.length) = false → r.quantity = 0 :=
  fun _ hr hl => h.zero_of (mem_sells.mp (mem_sortAsc.mp hr)).1 hl

theorem demandAt_eq (S : Sorter) {x : Ext} (hx : ((0 : ℚ) : Ext) < x) :
    demandAt S df x = demandAt S (df ++ zs) x := by
  unfold demandAt
  rw [← h.sortDesc_eq S]
  exact stepVal_phantom (h.zero_desc S) _ 0 hx

theorem supplyAt_eq (S : Sorter) {x : Ext} (hx : ((0 : ℚ) : Ext) < x) :
    supplyAt S df x = supplyAt S (df ++ zs) x := by
  unfold supplyAt
  rw [← h.sortAsc_eq S]
  exact stepVal_phantom (h.zero_asc S) _ 0 hx

theorem huangB_eq (S : Sorter) {x : ℚ} (hx : 0 < x) :
    (huangB S (df ++ zs) x).filter (fun r => decide (r.label < df.length)) = huangB S df x := by
  unfold huangB demandIdx
  rw [← h.sortDesc_eq S]
  exact stepTake_phantom (h.zero_desc S) 0 (WithTop.coe_lt_coe.mpr hx)

theorem huangA_eq (S : Sorter) {x : ℚ} (hx : 0 < x) :
    (huangA S (df ++ zs) x).filter (fun r => decide (r.label < df.length)) = huangA S df x := by
  unfold huangA supplyIdx
  rw [← h.sortAsc_eq S]
  exact stepTake_phantom (h.zero_asc S) 0 (WithTop.coe_lt_coe.mpr hx)

theorem grid_eq (S : Sorter) {x : Ext} (hx : ((0 : ℚ) : Ext) < x) :
    (x ∈ (demandCurve S df).1.map Prod.fst ↔ x ∈ (demandCurve S (df ++ zs)).1.map Prod.fst) ∧
    (x ∈ (supplyCurve S df).1.map Prod.fst ↔ x ∈ (supplyCurve S (df ++ zs)).1.map Prod.fst) := by
  rw [demandCurve_eq, demandCurve_eq, supplyCurve_eq, supplyCurve_eq, ← h.sortDesc_eq S, ← h.sortAsc_eq S]
  exact ⟨stepCurve_phantom (h.zero_desc S)
      (fun r hr => (h.nonNeg' r (mem_buys.mp (mem_sortDesc.mp hr)).1).1) _ 0 hx,
    stepCurve_phantom (h.zero_asc S)
      (fun r hr => (h.nonNeg' r (mem_sells.mp (mem_sortAsc.mp hr)).1).1) _ 0 hx⟩

theorem crossing_iff (S : Sorter) {x : ℚ} (hx : 0 < x) : Crossing S df x ↔ Crossing S (df ++ zs) x := by
  have hx' : ((0 : ℚ) : Ext) < (x : Ext) := WithTop.coe_lt_coe.mpr hx
  have g := h.grid_eq S hx'
  constructor
  · rintro ⟨h1, h2, h3, h4⟩
    refine ⟨h1, ?_, ?_, ?_⟩
    · rwa [← h.demandAt_eq S hx', ← h.supplyAt_eq S hx']
    · intro z hz
      rw [← h.demandAt_eq S (hx'.trans hz), ← h.supplyAt_eq S (hx'.trans hz)]
      exact h3 z hz
    · rwa [g.1, g.2] at h4
  · rintro ⟨h1, h2, h3, h4⟩
    refine ⟨h1, ?_, ?_, ?_⟩
    · rwa [h.demandAt_eq S hx', h.supplyAt_eq S hx']
    · intro z hz
      rw [h.demandAt_eq S (hx'.trans hz), h.supplyAt_eq S (hx'.trans hz)]
      exact h3 z hz
    · rwa [g.1, g.2]

end Spec.Phantoms

theorem stepCurve_fst_pos {rows : DF} (hq : ∀ r ∈ rows, 0 < r.quantity) (e : Ext) {x : Ext} {a : ℚ}
    (hm : x ∈ (stepCurve a rows e).map Prod.fst) : (a : Ext) < x := by
  cases rows with
  | nil =>
    simp only [stepCurve, List.map_cons, List.map_nil, List.mem_singleton] at hm
    rw [hm]; exact WithTop.coe_lt_top a
  | cons r rows =>
    obtain ⟨s, hs, hs'⟩ := List.mem_map.mp hm
    rw [stepCurve] at hs
    have hpos := hq r List.mem_cons_self
    have hlt : (a : Ext) < ((a + r.quantity : ℚ) : Ext) := WithTop.coe_lt_coe.mpr (by linarith)
    rcases List.mem_cons.mp hs with rfl | hs
    · rw [← hs']; exact hlt
    · rw [← hs']
      exact lt_of_lt_of_le hlt
        (stepCurve_fst_ge (fun r hr => (hq r (List.mem_cons_of_mem _ hr)).le) hs)

/-- With positive quantities every crossing is at a positive quantity. -/
theorem Spec.Phantoms.crossing_pos {S : Sorter} {df zs : DF} (h : Phantoms df zs) {x : ℚ}
    (hc : Crossing S df x) : 0 < x := by
  have hm := hc.mem
  rw [demandCurve_eq, supplyCurve_eq] at hm
  rcases hm with hm | hm
  · exact WithTop.coe_lt_coe.mp
      (stepCurve_fst_pos (fun r hr => (h.live r (mem_buys.mp (mem_sortDesc.mp hr)).1).1) _ hm)
  · exact WithTop.coe_lt_coe.mp
      (stepCurve_fst_pos (fun r hr => (h.live r (mem_sells.mp (mem_sortAsc.mp hr)).1).1) _ hm)

theorem stepIdx_zero {rows : DF} (hq : ∀ r ∈ rows, 0 ≤ r.quantity) :
    stepIdx ((0 : ℚ) : Ext) 0 rows = 0 := by
  cases rows with
  | nil => rfl
  | cons r rows =>
    rw [stepIdx, if_pos]
    rw [zero_add]
    exact WithTop.coe_le_coe.mpr (hq r List.mem_cons_self)

end PyMarket
