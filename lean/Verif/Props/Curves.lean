import Verif.Lemmas.Intersect

/-! # C05, C06, C07: demand and supply curves, step-function lookup -/

set_option autoImplicit false

namespace PyMarket

open Spec

/-- The rows of a curve built from bids in the order `rows`: breakpoint `j` is the total quantity of
the first `j + 1` bids, ordinate `j` the price of bid `j`; the last row is `(inf, last)`. -/
structure Spec.IsCurveOf (rows : DF) (last : Ext) (curve : Curve) : Prop where
  length : curve.length = rows.length + 1
  row : ∀ j r, rows[j]? = some r → curve[j]? =
    some (((((rows.take (j + 1)).map (fun r => r.quantity)).sum : ℚ) : Ext), ((r.price : ℚ) : Ext))
  last : curve[rows.length]? = some (⊤, last)

theorem stepCurve_get (a : ℚ) (rows : DF) (e : Ext) (j : ℕ) (r : Row) (h : rows[j]? = some r) :
    (stepCurve a rows e)[j]? = some (((a + ((rows.take (j + 1)).map (fun r => r.quantity)).sum : ℚ)
      : Ext), ((r.price : ℚ) : Ext)) := by
  induction rows generalizing a j with
  | nil => simp at h
  | cons r' rows ih =>
    cases j with
    | zero =>
      simp only [List.getElem?_cons_zero, Option.some.injEq] at h
      subst h
      simp [stepCurve]
    | succ j =>
      simp only [List.getElem?_cons_succ] at h
      simp only [stepCurve, List.getElem?_cons_succ]
      rw [ih _ _ h]
      simp only [List.take_succ_cons, List.map_cons, List.sum_cons]
      rw [add_assoc]

theorem stepCurve_get_last (a : ℚ) (rows : DF) (e : Ext) :
    (stepCurve a rows e)[rows.length]? = some (⊤, e) := by
  induction rows generalizing a with
  | nil => rfl
  | cons r rows ih => simp only [stepCurve, List.length_cons, List.getElem?_cons_succ, ih]

theorem stepCurve_isCurveOf (rows : DF) (e : Ext) : IsCurveOf rows e (stepCurve 0 rows e) := by
  refine ⟨stepCurve_length _ _ _, ?_, stepCurve_get_last _ _ _⟩
  intro j r h
  have := stepCurve_get 0 rows e j r h
  rwa [zero_add] at this

theorem stepCurve_snd (a : ℚ) (rows : DF) (e : Ext) :
    (stepCurve a rows e).map Prod.snd = rows.map (fun r => ((r.price : ℚ) : Ext)) ++ [e] := by
  induction rows generalizing a with
  | nil => rfl
  | cons r rows ih => simp [stepCurve, ih]

theorem demandAt_eq_some {S : Sorter} {df : DF} {x : Ext} (hx : ((0 : ℚ) : Ext) ≤ x) :
    getValueStepwise x (demandCurve S df).1 = some (demandAt S df x) := by
  rw [demandCurve_eq]; exact getValue_stepCurve hx _ _ _

theorem supplyAt_eq_some {S : Sorter} {df : DF} {x : Ext} (hx : ((0 : ℚ) : Ext) ≤ x) :
    getValueStepwise x (supplyCurve S df).1 = some (supplyAt S df x) := by
  rw [supplyCurve_eq]; exact getValue_stepCurve hx _ _ _

/-! ## C05 -/

/-- C05, lookup: the demand price at `x` is at least `p` exactly when at least `x` units are demanded
at price `p` or more. -/
theorem C05_demand_curve (S : Sorter) (df : DF) (hq : ∀ r ∈ df, 0 ≤ r.quantity) (x p : ℚ)
    (hx : 0 < x) (hp : 0 < p) :
    ∃ v, getValueStepwise (x : Ext) (demandCurve S df).1 = some v ∧
      ((p : Ext) ≤ v ↔ x ≤ demandQty df p) :=
  ⟨_, demandAt_eq_some (WithTop.coe_le_coe.mpr hx.le), demandAt_galois S hq hx hp⟩

/-- C05, shape: the curve lists every buying bid exactly once, in an order of non-increasing price,
with running totals as breakpoints; the returned index is the list of their ids. -/
theorem C05_demand_rows (S : Sorter) (df : DF) :
    ∃ rows : DF, rows.Perm (df.filter (fun r => r.buying)) ∧
      rows.Pairwise (fun r r' => r'.price ≤ r.price) ∧
      (demandCurve S df).2 = rows.map (fun r => r.label) ∧
      IsCurveOf rows ((0 : ℚ) : Ext) (demandCurve S df).1 := by
  refine ⟨sortDesc S (buys df), sortDesc_perm S _, sortDesc_sorted S _, rfl, ?_⟩
  rw [demandCurve_eq]; exact stepCurve_isCurveOf _ _

/-- C05, ties: neither the tie-breaking of the sort nor the order of the book matters. -/
theorem C05_tie_independent (S S' : Sorter) (df df' : DF) (h : NonNeg df) (hp : SameBids df df')
    (x : Ext) :
    getValueStepwise x (demandCurve S df).1 = getValueStepwise x (demandCurve S' df').1 := by
  by_cases hx : x < ((0 : ℚ) : Ext)
  · simp only [getValueStepwise, if_pos hx]
  · rw [demandAt_eq_some (not_lt.mp hx), demandAt_eq_some (not_lt.mp hx),
      demandAt_perm S S' h hp (not_lt.mp hx)]

/-- C05, monotonicity of the ordinates including the final `(inf, 0)` row. -/
theorem C05_demand_nonincreasing (S : Sorter) (df : DF) (h : ∀ r ∈ df, 0 ≤ r.price) :
    ((demandCurve S df).1.map Prod.snd).Pairwise (fun a b => b ≤ a) := by
  rw [demandCurve_eq, stepCurve_snd, List.pairwise_append]
  refine ⟨?_, by simp, ?_⟩
  · rw [List.pairwise_map]
    exact (sortDesc_sorted S _).imp (fun h => WithTop.coe_le_coe.mpr h)
  · intro a ha b hb
    simp only [List.mem_singleton] at hb
    obtain ⟨r, hr, rfl⟩ := List.mem_map.mp ha
    rw [hb]
    exact WithTop.coe_le_coe.mpr (h r (mem_buys.mp (mem_sortDesc.mp hr)).1)

/-- A book used in the examples of this file: three buyers (two at the same price), two sellers. -/
def curveBook : DF :=
  [⟨⟨1, 3, 0, true, 0, true⟩, 0⟩, ⟨⟨2, 5, 1, true, 0, true⟩, 1⟩, ⟨⟨4, 3, 2, true, 0, true⟩, 2⟩,
   ⟨⟨2, 1, 3, false, 0, true⟩, 3⟩, ⟨⟨3, 4, 4, false, 0, true⟩, 4⟩]

example : NonNeg curveBook ∧ demandQty curveBook 3 = 7 ∧
    getValueStepwise ((7 : ℚ) : Ext) (demandCurve stableSorter curveBook).1 = some ((3 : ℚ) : Ext) ∧
    getValueStepwise ((8 : ℚ) : Ext) (demandCurve stableSorter curveBook).1 = some ((0 : ℚ) : Ext) ∧
    (demandCurve stableSorter curveBook).2 = [1, 0, 2] := by
  decide +kernel

/-! ## C06 -/

/-- C06, lookup: the supply price at `x` is at most `p` exactly when at least `x` units are offered at
price `p` or less. -/
theorem C06_supply_curve (S : Sorter) (df : DF) (hq : ∀ r ∈ df, 0 ≤ r.quantity) (x p : ℚ)
    (hx : 0 < x) :
    ∃ v, getValueStepwise (x : Ext) (supplyCurve S df).1 = some v ∧
      (v ≤ (p : Ext) ↔ x ≤ supplyQty df p) :=
  ⟨_, supplyAt_eq_some (WithTop.coe_le_coe.mpr hx.le), supplyAt_galois S hq hx⟩

/-- C06, shape. -/
theorem C06_supply_rows (S : Sorter) (df : DF) :
    ∃ rows : DF, rows.Perm (df.filter (fun r => !r.buying)) ∧
      rows.Pairwise (fun r r' => r.price ≤ r'.price) ∧
      (supplyCurve S df).2 = rows.map (fun r => r.label) ∧
      IsCurveOf rows ⊤ (supplyCurve S df).1 := by
  refine ⟨sortAsc S (sells df), sortAsc_perm S _, sortAsc_sorted S _, rfl, ?_⟩
  rw [supplyCurve_eq]; exact stepCurve_isCurveOf _ _

/-- C06, ties. -/
theorem C06_tie_independent (S S' : Sorter) (df df' : DF) (h : NonNeg df) (hp : SameBids df df')
    (x : Ext) :
    getValueStepwise x (supplyCurve S df).1 = getValueStepwise x (supplyCurve S' df').1 := by
  by_cases hx : x < ((0 : ℚ) : Ext)
  · simp only [getValueStepwise, if_pos hx]
  · rw [supplyAt_eq_some (not_lt.mp hx), supplyAt_eq_some (not_lt.mp hx),
      supplyAt_perm S S' h hp (not_lt.mp hx)]

/-- C06, monotonicity of the ordinates including the final `(inf, inf)` row. -/
theorem C06_supply_nondecreasing (S : Sorter) (df : DF) :
    ((supplyCurve S df).1.map Prod.snd).Pairwise (fun a b => a ≤ b) := by
  rw [supplyCurve_eq, stepCurve_snd, List.pairwise_append]
  refine ⟨?_, by simp, ?_⟩
  · rw [List.pairwise_map]
    exact (sortAsc_sorted S _).imp (fun h => WithTop.coe_le_coe.mpr h)
  · intro a _ b hb
    simp only [List.mem_singleton] at hb
    rw [hb]; exact le_top

example : supplyQty curveBook 1 = 2 ∧
    getValueStepwise ((2 : ℚ) : Ext) (supplyCurve stableSorter curveBook).1 = some ((1 : ℚ) : Ext) ∧
    getValueStepwise ((5 : ℚ) : Ext) (supplyCurve stableSorter curveBook).1 = some ((4 : ℚ) : Ext) ∧
    getValueStepwise ((6 : ℚ) : Ext) (supplyCurve stableSorter curveBook).1 = some ⊤ := by
  decide +kernel

/-! ## C07 -/

theorem stepLookup_none (x : Ext) (f : Curve) :
    stepLookup x f = none ↔ ∀ s ∈ f, s.1 < x := by
  induction f with
  | nil => simp [stepLookup]
  | cons s f ih =>
    simp only [stepLookup]
    by_cases h : x ≤ s.1
    · simp only [h, if_true, List.mem_cons, forall_eq_or_imp]
      constructor
      · intro h'; cases h'
      · intro h'; exact absurd h'.1 (not_lt.mpr h)
    · simp only [h, if_false, List.mem_cons, forall_eq_or_imp, ih]
      exact ⟨fun h' => ⟨not_le.mp h, h'⟩, fun h' => h'.2⟩

theorem stepLookup_some (x v : Ext) (f : Curve) :
    stepLookup x f = some v ↔ ∃ (j : ℕ) (b : Ext), f[j]? = some (b, v) ∧ x ≤ b ∧
      ∀ (i : ℕ) (s : Ext × Ext), i < j → f[i]? = some s → s.1 < x := by
  induction f with
  | nil => simp [stepLookup]
  | cons s f ih =>
    simp only [stepLookup]
    by_cases h : x ≤ s.1
    · simp only [h, if_true, Option.some.injEq]
      constructor
      · rintro rfl
        exact ⟨0, s.1, rfl, h, fun i _ hi => absurd hi (Nat.not_lt_zero i)⟩
      · rintro ⟨j, b, h1, _, h3⟩
        cases j with
        | zero => simp only [List.getElem?_cons_zero, Option.some.injEq] at h1; rw [h1]
        | succ j => exact absurd (h3 0 s (Nat.succ_pos j) rfl) (not_lt.mpr h)
    · simp only [h, if_false, ih]
      constructor
      · rintro ⟨j, b, h1, h2, h3⟩
        refine ⟨j + 1, b, by simpa using h1, h2, ?_⟩
        intro i s' hi hs'
        cases i with
        | zero =>
          simp only [List.getElem?_cons_zero, Option.some.injEq] at hs'
          subst hs'; exact not_le.mp h
        | succ i => exact h3 i s' (Nat.lt_of_succ_lt_succ hi) (by simpa using hs')
      · rintro ⟨j, b, h1, h2, h3⟩
        cases j with
        | zero =>
          simp only [List.getElem?_cons_zero, Option.some.injEq] at h1
          rw [h1] at h; exact absurd h2 h
        | succ j =>
          refine ⟨j, b, by simpa using h1, h2, ?_⟩
          intro i s' hi hs'
          exact h3 (i + 1) s' (Nat.succ_lt_succ hi) (by simpa using hs')

/-- C07: the lookup is `None` exactly outside the domain. -/
theorem C07_none_iff (x : Ext) (f : Curve) :
    getValueStepwise x f = none ↔ x < ((0 : ℚ) : Ext) ∨ ∀ s ∈ f, s.1 < x := by
  unfold getValueStepwise
  by_cases h : x < ((0 : ℚ) : Ext)
  · simp only [if_pos h, true_iff]; exact Or.inl h
  · simp only [h, if_false, false_or]; exact stepLookup_none x f

/-- C07: otherwise it is the ordinate of the first row whose breakpoint reaches `x`. -/
theorem C07_value_iff (x v : Ext) (f : Curve) :
    getValueStepwise x f = some v ↔ ((0 : ℚ) : Ext) ≤ x ∧ ∃ (j : ℕ) (b : Ext), f[j]? = some (b, v) ∧ x ≤ b ∧
      ∀ (i : ℕ) (s : Ext × Ext), i < j → f[i]? = some s → s.1 < x := by
  unfold getValueStepwise
  by_cases h : x < ((0 : ℚ) : Ext)
  · simp only [h, if_true]
    exact ⟨fun h' => (by cases h'), fun h' => absurd h (not_lt.mpr h'.1)⟩
  · simp only [h, if_false]
    rw [stepLookup_some]
    exact ⟨fun h' => ⟨not_lt.mp h, h'⟩, fun h' => h'.2⟩

theorem lookup_index_mono {x y v w : Ext} {f : Curve} (hxy : x ≤ y)
    (hv : getValueStepwise x f = some v) (hw : getValueStepwise y f = some w) :
    ∃ (i j : ℕ) (b c : Ext), i ≤ j ∧ f[i]? = some (b, v) ∧ f[j]? = some (c, w) := by
  obtain ⟨_, i, b, h1, h2, h3⟩ := (C07_value_iff x v f).mp hv
  obtain ⟨_, j, c, h4, h5, h6⟩ := (C07_value_iff y w f).mp hw
  refine ⟨i, j, b, c, ?_, h1, h4⟩
  by_contra hlt
  exact absurd (h3 j _ (not_le.mp hlt) h4) (not_lt.mpr (le_trans hxy h5))

/-- C07: non-increasing ordinates give a non-increasing function. -/
theorem C07_antitone (f : Curve) (hf : (f.map Prod.snd).Pairwise (fun a b => b ≤ a))
    (x y v w : Ext) (hxy : x ≤ y) (hv : getValueStepwise x f = some v)
    (hw : getValueStepwise y f = some w) : w ≤ v := by
  obtain ⟨i, j, b, c, hij, hi, hj⟩ := lookup_index_mono hxy hv hw
  rcases eq_or_lt_of_le hij with rfl | hlt
  · rw [hi] at hj; cases hj; exact le_refl _
  · rw [List.pairwise_map, List.pairwise_iff_getElem] at hf
    obtain ⟨hi', hi⟩ := List.getElem?_eq_some_iff.mp hi
    obtain ⟨hj', hj⟩ := List.getElem?_eq_some_iff.mp hj
    have := hf i j hi' hj' hlt
    rwa [hi, hj] at this

/-- C07: non-decreasing ordinates give a non-decreasing function. -/
theorem C07_monotone (f : Curve) (hf : (f.map Prod.snd).Pairwise (fun a b => a ≤ b))
    (x y v w : Ext) (hxy : x ≤ y) (hv : getValueStepwise x f = some v)
    (hw : getValueStepwise y f = some w) : v ≤ w := by
  obtain ⟨i, j, b, c, hij, hi, hj⟩ := lookup_index_mono hxy hv hw
  rcases eq_or_lt_of_le hij with rfl | hlt
  · rw [hi] at hj; cases hj; exact le_refl _
  · rw [List.pairwise_map, List.pairwise_iff_getElem] at hf
    obtain ⟨hi', hi⟩ := List.getElem?_eq_some_iff.mp hi
    obtain ⟨hj', hj⟩ := List.getElem?_eq_some_iff.mp hj
    have := hf i j hi' hj' hlt
    rwa [hi, hj] at this

/-- The docstring's example (`pymarket/bids/demand_curves.py:181-187`) and the two `None` cases. -/
example :
    let f : Curve := [(((1 : ℚ) : Ext), ((1 : ℚ) : Ext)), (((3 : ℚ) : Ext), ((4 : ℚ) : Ext))]
    getValueStepwise ((-1 : ℚ) : Ext) f = none ∧
    getValueStepwise ((0 : ℚ) : Ext) f = some ((1 : ℚ) : Ext) ∧
    getValueStepwise ((1 / 2 : ℚ) : Ext) f = some ((1 : ℚ) : Ext) ∧
    getValueStepwise ((1 : ℚ) : Ext) f = some ((1 : ℚ) : Ext) ∧
    getValueStepwise ((2 : ℚ) : Ext) f = some ((4 : ℚ) : Ext) ∧
    getValueStepwise ((3 : ℚ) : Ext) f = some ((4 : ℚ) : Ext) ∧
    getValueStepwise ((4 : ℚ) : Ext) f = none ∧
    (f.map Prod.snd).Pairwise (fun a b => a ≤ b) := by
  decide +kernel

end PyMarket
