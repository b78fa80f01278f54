import Mathlib.Algebra.Module.LinearMap.Basic
import Mathlib.Algebra.Module.Prod
import Mathlib.Algebra.Module.Pi
import Mathlib.Algebra.Order.Field.Rat
import Mathlib.Algebra.Order.Field.Basic
import Mathlib.Order.Bounds.Basic
import Mathlib.Data.List.MinMax
import Mathlib.Tactic.Linarith
import Mathlib.Tactic.FieldSimp
import Mathlib.Tactic.Ring

/-! # Finite systems of linear inequalities over the rationals

Eliminating a direction from a finite system gives a finite system (Fourier–Motzkin), so a linear
objective that is bounded on a non-empty solution set attains its maximum. -/

set_option autoImplicit false

namespace PyMarket

variable {E : Type*} [AddCommGroup E] [Module ℚ E]

/-- Solution sets of finite systems of linear inequalities. -/
def IsPoly (P : E → Prop) : Prop :=
  ∃ L : List ((E →ₗ[ℚ] ℚ) × ℚ), ∀ x, P x ↔ ∀ c ∈ L, c.1 x ≤ c.2

theorem list_upper (l : List ℚ) : ∃ t, ∀ x ∈ l, x ≤ t := by
  induction l with
  | nil => exact ⟨0, by simp⟩
  | cons a l ih =>
    obtain ⟨t, ht⟩ := ih
    refine ⟨max a t, fun x hx => ?_⟩
    rcases List.mem_cons.mp hx with rfl | h
    · exact le_max_left _ _
    · exact (ht x h).trans (le_max_right _ _)

theorem list_max (l : List ℚ) (hne : l ≠ []) : ∃ t ∈ l, ∀ x ∈ l, x ≤ t := by
  induction l with
  | nil => exact absurd rfl hne
  | cons a l ih =>
    by_cases hl : l = []
    · subst hl
      exact ⟨a, by simp, by simp⟩
    · obtain ⟨t, ht1, ht2⟩ := ih hl
      rcases le_total a t with h | h
      · refine ⟨t, List.mem_cons_of_mem _ ht1, fun x hx => ?_⟩
        rcases List.mem_cons.mp hx with rfl | hx
        · exact h
        · exact ht2 x hx
      · refine ⟨a, List.mem_cons_self, fun x hx => ?_⟩
        rcases List.mem_cons.mp hx with rfl | hx
        · exact le_refl _
        · exact (ht2 x hx).trans h

theorem list_min (l : List ℚ) (hne : l ≠ []) : ∃ t ∈ l, ∀ x ∈ l, t ≤ x := by
  obtain ⟨t, ht1, ht2⟩ := list_max (l.map (fun x => -x)) (by simpa using hne)
  obtain ⟨a, ha, rfl⟩ := List.mem_map.mp ht1
  refine ⟨a, ha, fun x hx => ?_⟩
  have := ht2 (-x) (List.mem_map.mpr ⟨x, hx, rfl⟩)
  linarith

theorem exists_between_lists (lo up : List ℚ) (h : ∀ l ∈ lo, ∀ u ∈ up, l ≤ u) :
    ∃ t, (∀ l ∈ lo, l ≤ t) ∧ ∀ u ∈ up, t ≤ u := by
  by_cases hl : lo = []
  · subst hl
    by_cases hu : up = []
    · subst hu; exact ⟨0, by simp, by simp⟩
    · obtain ⟨t, _, ht⟩ := list_min up hu
      exact ⟨t, by simp, ht⟩
  · obtain ⟨t, ht1, ht⟩ := list_max lo hl
    exact ⟨t, ht, fun u hu => h t ht1 u hu⟩

/-- Fourier–Motzkin elimination of a direction. -/
theorem IsPoly.elim {P : E → Prop} (h : IsPoly P) (e : E) :
    IsPoly (fun x => ∃ t : ℚ, P (x + t • e)) := by
  obtain ⟨L, hL⟩ := h
  let neg := L.filter (fun c => decide (c.1 e < 0))
  let pos := L.filter (fun c => decide (0 < c.1 e))
  refine ⟨L.filter (fun c => decide (c.1 e = 0)) ++
    neg.flatMap (fun c => pos.map (fun d => ((d.1 e)⁻¹ • d.1 - (c.1 e)⁻¹ • c.1,
      (d.1 e)⁻¹ * d.2 - (c.1 e)⁻¹ * c.2))), fun x => ?_⟩
  have hP : ∀ t, P (x + t • e) ↔ ∀ c ∈ L, c.1 x + t * c.1 e ≤ c.2 := by
    intro t
    rw [hL]
    simp only [map_add, map_smul, smul_eq_mul]
  have hkey : ∀ c ∈ L, ∀ t, (c.1 x + t * c.1 e ≤ c.2 ↔
      (c.1 e = 0 ∧ c.1 x ≤ c.2) ∨ (c.1 e < 0 ∧ (c.1 e)⁻¹ * (c.2 - c.1 x) ≤ t) ∨
      (0 < c.1 e ∧ t ≤ (c.1 e)⁻¹ * (c.2 - c.1 x))) := by
    intro c _ t
    rcases lt_trichotomy (c.1 e) 0 with h | h | h
    · have hne := ne_of_lt h
      have : (c.1 e)⁻¹ * (c.2 - c.1 x) ≤ t ↔ c.1 x + t * c.1 e ≤ c.2 := by
        rw [inv_mul_eq_div, div_le_iff_of_neg h]
        constructor <;> intro h' <;> linarith
      simp [h, hne, not_lt.mpr h.le, this]
    · simp [h]
    · have : t ≤ (c.1 e)⁻¹ * (c.2 - c.1 x) ↔ c.1 x + t * c.1 e ≤ c.2 := by
        rw [inv_mul_eq_div, le_div_iff₀ h]
        constructor <;> intro h' <;> linarith
      simp [h, ne_of_gt h, not_lt.mpr h.le, this]
  constructor
  · rintro ⟨t, ht⟩ c hc
    rw [hP] at ht
    rcases List.mem_append.mp hc with hc | hc
    · obtain ⟨h1, h2⟩ := List.mem_filter.mp hc
      have := ht c h1
      rw [of_decide_eq_true h2] at this
      linarith
    · obtain ⟨c', hc', hd⟩ := List.mem_flatMap.mp hc
      obtain ⟨d, hdp, rfl⟩ := List.mem_map.mp hd
      obtain ⟨c1, c2⟩ := List.mem_filter.mp hc'
      obtain ⟨d1, d2⟩ := List.mem_filter.mp hdp
      have c2 := of_decide_eq_true c2
      have d2 := of_decide_eq_true d2
      have hc := (hkey c' c1 t).mp (ht c' c1)
      have hd := (hkey d d1 t).mp (ht d d1)
      have hc' : (c'.1 e)⁻¹ * (c'.2 - c'.1 x) ≤ t := by
        rcases hc with h | h | h
        · exact absurd h.1 (ne_of_lt c2)
        · exact h.2
        · exact absurd h.1 (not_lt.mpr c2.le)
      have hd' : t ≤ (d.1 e)⁻¹ * (d.2 - d.1 x) := by
        rcases hd with h | h | h
        · exact absurd h.1 (ne_of_gt d2)
        · exact absurd h.1 (not_lt.mpr d2.le)
        · exact h.2
      simp only [LinearMap.sub_apply, LinearMap.smul_apply, smul_eq_mul]
      rw [mul_sub] at hc' hd'
      linarith
  · intro hall
    obtain ⟨t, h1, h2⟩ := exists_between_lists (neg.map (fun c => (c.1 e)⁻¹ * (c.2 - c.1 x)))
      (pos.map (fun c => (c.1 e)⁻¹ * (c.2 - c.1 x))) (by
        intro l hl u hu
        obtain ⟨c, hc, rfl⟩ := List.mem_map.mp hl
        obtain ⟨d, hd, rfl⟩ := List.mem_map.mp hu
        have := hall _ (List.mem_append_right _ (List.mem_flatMap.mpr
          ⟨c, hc, List.mem_map.mpr ⟨d, hd, rfl⟩⟩))
        simp only [LinearMap.sub_apply, LinearMap.smul_apply, smul_eq_mul] at this
        rw [mul_sub, mul_sub]
        linarith)
    refine ⟨t, (hP t).mpr fun c hc => (hkey c hc t).mpr ?_⟩
    rcases lt_trichotomy (c.1 e) 0 with h | h | h
    · exact Or.inr (Or.inl ⟨h, h1 _ (List.mem_map.mpr
        ⟨c, List.mem_filter.mpr ⟨hc, decide_eq_true h⟩, rfl⟩)⟩)
    · exact Or.inl ⟨h, hall c (List.mem_append_left _
        (List.mem_filter.mpr ⟨hc, decide_eq_true h⟩))⟩
    · exact Or.inr (Or.inr ⟨h, h2 _ (List.mem_map.mpr
        ⟨c, List.mem_filter.mpr ⟨hc, decide_eq_true h⟩, rfl⟩)⟩)

/-- Eliminate several directions. -/
def ElimList (P : E → Prop) : List E → E → Prop
  | [], x => P x
  | e :: es, x => ∃ t : ℚ, ElimList P es (x + t • e)

theorem IsPoly.elimList {P : E → Prop} (h : IsPoly P) (es : List E) : IsPoly (ElimList P es) := by
  induction es with
  | nil => exact h
  | cons e es ih => exact ih.elim e

/-- A non-empty bounded one-dimensional section of a polyhedron has a largest point. -/
theorem IsPoly.exists_max {P : E → Prop} (h : IsPoly P) (u : E) (hne : ∃ y : ℚ, P (y • u))
    (hb : ∃ M : ℚ, ∀ y : ℚ, P (y • u) → y ≤ M) : ∃ m, IsGreatest {y : ℚ | P (y • u)} m := by
  obtain ⟨L, hL⟩ := h
  obtain ⟨y, hy⟩ := hne
  obtain ⟨M, hM⟩ := hb
  have hP : ∀ t : ℚ, P (t • u) ↔ ∀ c ∈ L, t * c.1 u ≤ c.2 := by
    intro t
    rw [hL]
    simp only [map_smul, smul_eq_mul]
  have hstep : ∀ t, y ≤ t → (∀ c ∈ L, 0 < c.1 u → t ≤ c.2 / c.1 u) → P (t • u) := by
    intro t hyt ht
    rw [hP]
    intro c hc
    have hc' := (hP y).mp hy c hc
    rcases lt_or_ge 0 (c.1 u) with h | h
    · exact (le_div_iff₀ h).mp (ht c hc h)
    · exact (mul_le_mul_of_nonpos_right hyt h).trans hc'
  let up := (L.filter (fun c => decide (0 < c.1 u))).map (fun c => c.2 / c.1 u)
  have hup : ∀ c ∈ L, 0 < c.1 u → c.2 / c.1 u ∈ up := fun c hc h =>
    List.mem_map.mpr ⟨c, List.mem_filter.mpr ⟨hc, decide_eq_true h⟩, rfl⟩
  by_cases hu : up = []
  · exfalso
    have := hM (max y (M + 1)) (hstep _ (le_max_left _ _) (fun c hc h => by
      have := hup c hc h; rw [hu] at this; cases this))
    have h2 := le_max_right y (M + 1)
    linarith
  · obtain ⟨m, hm1, hm2⟩ := list_min up hu
    have hbound : ∀ t, P (t • u) → t ≤ m := by
      intro t ht
      obtain ⟨c, hc, rfl⟩ := List.mem_map.mp hm1
      obtain ⟨h1, h2⟩ := List.mem_filter.mp hc
      exact (le_div_iff₀ (of_decide_eq_true h2)).mpr ((hP t).mp ht c h1)
    exact ⟨m, hstep m (hbound y hy) (fun c hc h => hm2 _ (hup c hc h)), hbound⟩

end PyMarket
