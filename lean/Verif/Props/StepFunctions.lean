import Verif.Props.Equilibrium

/-! # C74: `intersect_stepwise` on arbitrary step functions

The other properties of the intersection (C08–C11) are about the curves of a book, which always end
at infinity. Here the function is taken as it is documented: two step functions with any, possibly
different and finite, domains. -/

set_option autoImplicit false

namespace PyMarket

open Spec

/-- The rows describe a step function: there is a row, the right ends are increasing and not
negative (precondition of `pymarket/bids/demand_curves.py:213-227`). -/
structure Spec.IsStep (f : Curve) : Prop where
  ne : f ≠ []
  sorted : f.Pairwise (fun s t => s.1 ≤ t.1)
  nonneg : ∀ s ∈ f, ((0 : ℚ) : Ext) ≤ s.1

/-- `b` is the right end of one of the intervals of `f`. -/
def Spec.IsEnd (f : Curve) (b : Ext) : Prop := ∃ s ∈ f, s.1 = b

/-- Row `j` is the first one that reaches `x`. -/
def Spec.FirstReaching (f : Curve) (x : Ext) (j : ℕ) : Prop :=
  (∃ s, f[j]? = some s ∧ x ≤ s.1) ∧ ∀ (i : ℕ) (s : Ext × Ext), i < j → f[i]? = some s → s.1 < x

/-- `f(x) = v`: `v` is the ordinate of the first row that reaches `x`. -/
def Spec.ValueAt (f : Curve) (x v : Ext) : Prop :=
  ((0 : ℚ) : Ext) ≤ x ∧ ∃ (j : ℕ) (b : Ext), FirstReaching f x j ∧ f[j]? = some (b, v)

/-- `m` is the last point where both functions are defined. -/
def Spec.DomainEnd (f g : Curve) (m : Ext) : Prop :=
  ∃ a b, IsGreatest { x | IsEnd f x } a ∧ IsGreatest { x | IsEnd g x } b ∧ m = min a b

/-- `f` is above `g` at `x` and below `g` from there to the end of the common domain. -/
def Spec.CrossesAt (f g : Curve) (m x : Ext) : Prop :=
  x < m ∧ (∃ a b, ValueAt f x a ∧ ValueAt g x b ∧ b < a) ∧
    ∀ z, x < z → z ≤ m → ∃ a b, ValueAt f z a ∧ ValueAt g z b ∧ a < b

/-- The increasing enumeration of the ends of both functions up to `m`. -/
def Spec.IsGrid (f g : Curve) (m : Ext) (xs : List Ext) : Prop :=
  xs.Pairwise (· < ·) ∧ ∀ x, x ∈ xs ↔ (IsEnd f x ∨ IsEnd g x) ∧ x ≤ m

/-- From position `j` of the grid to the next one, `f - g` changes from positive to negative. -/
def Spec.DropsAt (f g : Curve) (xs : List Ext) (j : ℕ) (x : Ext) : Prop :=
  ∃ y, xs[j]? = some x ∧ xs[j + 1]? = some y ∧
    (∃ a b, ValueAt f x a ∧ ValueAt g x b ∧ b < a) ∧ ∃ a b, ValueAt f y a ∧ ValueAt g y b ∧ a < b

/-! ## Values -/

/-- The value of `f` at `x` (0 outside the domain). -/
def stepFun (f : Curve) (x : Ext) : Ext := (stepLookup x f).getD ((0 : ℚ) : Ext)

theorem valueAt_iff {f : Curve} {x v : Ext} : ValueAt f x v ↔ getValueStepwise x f = some v := by
  rw [C07_value_iff]
  unfold ValueAt FirstReaching
  constructor
  · rintro ⟨h0, j, b, ⟨⟨s, h1, h2⟩, h3⟩, h4⟩
    rw [h4] at h1; cases h1
    exact ⟨h0, j, b, h4, h2, h3⟩
  · rintro ⟨h0, j, b, h1, h2, h3⟩
    exact ⟨h0, j, b, ⟨⟨_, h1, h2⟩, h3⟩, h1⟩

theorem Spec.ValueAt.unique {f : Curve} {x v w : Ext} (h : ValueAt f x v) (h' : ValueAt f x w) : v = w := by
  rw [valueAt_iff] at h h'
  rw [h] at h'
  exact Option.some.inj h'

theorem getValue_stepFun {f : Curve} {x : Ext} (h0 : ((0 : ℚ) : Ext) ≤ x)
    (h1 : ∃ s ∈ f, x ≤ s.1) : getValueStepwise x f = some (stepFun f x) := by
  unfold getValueStepwise stepFun
  rw [if_neg (not_lt.mpr h0)]
  cases h : stepLookup x f with
  | none =>
    rw [stepLookup_none] at h
    obtain ⟨s, hs, hx⟩ := h1
    exact absurd (h s hs) (not_lt.mpr hx)
  | some v => rfl

theorem stepFun_mem {f : Curve} {x : Ext} (h1 : ∃ s ∈ f, x ≤ s.1) : ∃ s ∈ f, s.2 = stepFun f x := by
  unfold stepFun
  cases h : stepLookup x f with
  | none =>
    rw [stepLookup_none] at h
    obtain ⟨s, hs, hx⟩ := h1
    exact absurd (h s hs) (not_lt.mpr hx)
  | some v =>
    obtain ⟨j, b, h2, _⟩ := (stepLookup_some x v f).mp h
    exact ⟨_, List.mem_of_getElem? h2, rfl⟩

theorem stepFun_cons (s : Ext × Ext) (f : Curve) (x : Ext) :
    stepFun (s :: f) x = if x ≤ s.1 then s.2 else stepFun f x := by
  unfold stepFun
  simp only [stepLookup]
  split <;> rfl

theorem stepFun_rel {R : Ext → Ext → Prop} (hR : ∀ a, R a a) {f : Curve}
    (hf : f.Pairwise (fun s t => R s.2 t.2)) {x y : Ext} (hxy : x ≤ y) (hy : ∃ s ∈ f, y ≤ s.1) :
    R (stepFun f x) (stepFun f y) := by
  induction f with
  | nil => obtain ⟨s, hs, _⟩ := hy; cases hs
  | cons s f ih =>
    rw [List.pairwise_cons] at hf
    rw [stepFun_cons, stepFun_cons]
    by_cases h1 : y ≤ s.1
    · rw [if_pos h1, if_pos (hxy.trans h1)]; exact hR _
    · have hy' : ∃ t ∈ f, y ≤ t.1 := by
        obtain ⟨t, ht, hyt⟩ := hy
        rcases List.mem_cons.mp ht with rfl | ht
        · exact absurd hyt h1
        · exact ⟨t, ht, hyt⟩
      rw [if_neg h1]
      by_cases h2 : x ≤ s.1
      · rw [if_pos h2]
        obtain ⟨t, ht, he⟩ := stepFun_mem hy'
        rw [← he]
        exact hf.1 t ht
      · rw [if_neg h2]; exact ih hf.2 hy'

/-- No end in `[x, y)`: the same value at `x` and `y`. -/
theorem stepFun_const {f : Curve} {x y : Ext} (hxy : x ≤ y) (h : ∀ s ∈ f, x ≤ s.1 → y ≤ s.1) :
    stepFun f x = stepFun f y := by
  induction f with
  | nil => rfl
  | cons s f ih =>
    rw [stepFun_cons, stepFun_cons, ih (fun t ht => h t (List.mem_cons_of_mem _ ht))]
    by_cases h1 : x ≤ s.1
    · rw [if_pos h1, if_pos (h s List.mem_cons_self h1)]
    · rw [if_neg h1, if_neg (fun hc => h1 (hxy.trans hc))]

/-! ## The domain -/

theorem foldl_max_isGreatest (l : Curve) (m : Ext) :
    (m ≤ l.foldl (fun m r => max m r.1) m ∧ ∀ s ∈ l, s.1 ≤ l.foldl (fun m r => max m r.1) m) ∧
    (l.foldl (fun m r => max m r.1) m = m ∨ ∃ s ∈ l, s.1 = l.foldl (fun m r => max m r.1) m) := by
  induction l generalizing m with
  | nil => exact ⟨⟨le_refl _, fun s hs => by cases hs⟩, Or.inl rfl⟩
  | cons t l ih =>
    simp only [List.foldl_cons]
    obtain ⟨⟨h1, h2⟩, h3⟩ := ih (max m t.1)
    refine ⟨⟨(le_max_left _ _).trans h1, ?_⟩, ?_⟩
    · intro s hs
      rcases List.mem_cons.mp hs with rfl | hs
      · exact (le_max_right _ _).trans h1
      · exact h2 s hs
    · rcases h3 with h3 | ⟨s, hs, h3⟩
      · rw [h3]
        rcases max_choice m t.1 with h | h
        · exact Or.inl h
        · exact Or.inr ⟨t, List.mem_cons_self, h.symm⟩
      · exact Or.inr ⟨s, List.mem_cons_of_mem _ hs, h3⟩

theorem maxX_spec {f : Curve} (hf : f ≠ []) :
    ∃ a, maxX f = .ok a ∧ IsGreatest { x | IsEnd f x } a := by
  cases f with
  | nil => exact absurd rfl hf
  | cons s f =>
    obtain ⟨⟨h1, h2⟩, h3⟩ := foldl_max_isGreatest f s.1
    refine ⟨_, rfl, ?_, ?_⟩
    · rcases h3 with h3 | ⟨t, ht, h3⟩
      · exact ⟨s, List.mem_cons_self, h3.symm⟩
      · exact ⟨t, List.mem_cons_of_mem _ ht, h3⟩
    · rintro x ⟨t, ht, rfl⟩
      rcases List.mem_cons.mp ht with rfl | ht
      · exact h1
      · exact h2 t ht

theorem gridXs_isGrid (f g : Curve) (m : Ext) : IsGrid f g m (gridXs f g m) :=
  ⟨gridXs_sorted f g m, fun _ => mem_gridXs⟩

theorem sorted_ext {xs ys : List Ext} (h1 : xs.Pairwise (· < ·)) (h2 : ys.Pairwise (· < ·))
    (h : ∀ x, x ∈ xs ↔ x ∈ ys) : xs = ys := by
  have hp : xs.Perm ys := by
    rw [List.perm_ext_iff_of_nodup (h1.imp ne_of_lt) (h2.imp ne_of_lt)]
    exact h
  exact hp.eq_of_pairwise (le := (· < ·)) (fun a b _ _ hab hba => absurd hab (not_lt.mpr hba.le)) h1 h2

theorem Spec.IsGrid.eq {f g : Curve} {m : Ext} {xs : List Ext} (h : IsGrid f g m xs) :
    gridXs f g m = xs :=
  sorted_ext (gridXs_sorted f g m) h.1 (fun x => by rw [h.2, mem_gridXs]; rfl)

/-- The smallest element of an increasing list that is not below `z`. -/
theorem sorted_next {xs : List Ext} (hs : xs.Pairwise (· < ·)) {z : Ext} (hex : ∃ y ∈ xs, z ≤ y) :
    ∃ y ∈ xs, z ≤ y ∧ ∀ y' ∈ xs, z ≤ y' → y ≤ y' := by
  induction xs with
  | nil => obtain ⟨y, hy, _⟩ := hex; cases hy
  | cons w ws ih =>
    rw [List.pairwise_cons] at hs
    by_cases hw : z ≤ w
    · refine ⟨w, List.mem_cons_self, hw, ?_⟩
      intro y' hy' _
      rcases List.mem_cons.mp hy' with rfl | hy'
      · exact le_refl _
      · exact (hs.1 y' hy').le
    · obtain ⟨y, hy, hzy⟩ := hex
      have hy' : y ∈ ws := by
        rcases List.mem_cons.mp hy with rfl | hy
        · exact absurd hzy hw
        · exact hy
      obtain ⟨y, hy, h1, h2⟩ := ih hs.2 ⟨y, hy', hzy⟩
      refine ⟨y, List.mem_cons_of_mem _ hy, h1, ?_⟩
      intro y' hy' hzy'
      rcases List.mem_cons.mp hy' with rfl | hy'
      · exact absurd hzy' hw
      · exact h2 y' hy' hzy'

theorem argmaxTrue_first {f : Curve} {x : Ext} (h : ∃ s ∈ f, x ≤ s.1) :
    FirstReaching f x (argmaxTrue (f.map (fun s => decide (x ≤ s.1)))) := by
  have key : ∃ j, (f.map (fun s => decide (x ≤ s.1))).findIdx? id = some j ∧
      FirstReaching f x j := by
    induction f with
    | nil => obtain ⟨s, hs, _⟩ := h; cases hs
    | cons s f ih =>
      by_cases hs : x ≤ s.1
      · refine ⟨0, by simp [List.findIdx?_cons, hs], ⟨s, rfl, hs⟩, fun i _ hi => absurd hi (Nat.not_lt_zero i)⟩
      · obtain ⟨t, ht, hxt⟩ := h
        have ht' : t ∈ f := by
          rcases List.mem_cons.mp ht with rfl | ht
          · exact absurd hxt hs
          · exact ht
        obtain ⟨j, h1, ⟨t', h2, h3⟩, h4⟩ := ih ⟨t, ht', hxt⟩
        refine ⟨j + 1, by simp [List.findIdx?_cons, hs, h1], ⟨t', by simpa using h2, h3⟩, ?_⟩
        intro i s' hi hs'
        cases i with
        | zero =>
          simp only [List.getElem?_cons_zero, Option.some.injEq] at hs'
          subst hs'; exact not_le.mp hs
        | succ i => exact h4 i s' (Nat.lt_of_succ_lt_succ hi) (by simpa using hs')
  obtain ⟨j, h1, h2⟩ := key
  unfold argmaxTrue
  rw [h1]
  exact h2

theorem Spec.FirstReaching.unique {f : Curve} {x : Ext} {i j : ℕ} (hi : FirstReaching f x i)
    (hj : FirstReaching f x j) : i = j := by
  obtain ⟨⟨s, h1, h2⟩, h3⟩ := hi
  obtain ⟨⟨t, h4, h5⟩, h6⟩ := hj
  rcases lt_trichotomy i j with h | h | h
  · exact absurd (h6 i s h h1) (not_lt.mpr h2)
  · exact h
  · exact absurd (h3 j t h h4) (not_lt.mpr h5)

theorem Spec.FirstReaching.value {f : Curve} {x v : Ext} {j : ℕ} (hj : FirstReaching f x j)
    (hv : ValueAt f x v) : ∃ b, f[j]? = some (b, v) := by
  obtain ⟨_, i, b, h1, h2⟩ := hv
  rw [hj.unique h1]
  exact ⟨b, h2⟩

/-! ## The loop -/

/-- The loop returns the last drop. -/
theorem crossPure_last {F G : Ext → Ext} (xs : List Ext) (ast : Option Ext) (x : Ext) :
    crossPure F G xs ast = some x ↔
      (∃ j, (∃ y, xs[j]? = some x ∧ xs[j + 1]? = some y ∧ G x < F x ∧ F y < G y) ∧
        ∀ j' u y, j < j' → xs[j']? = some u → xs[j' + 1]? = some y → ¬ (G u < F u ∧ F y < G y)) ∨
      (ast = some x ∧ ∀ j' u y, xs[j']? = some u → xs[j' + 1]? = some y →
        ¬ (G u < F u ∧ F y < G y)) := by
  induction xs generalizing ast with
  | nil => simp [crossPure]
  | cons z xs ih =>
    cases xs with
    | nil => simp [crossPure]
    | cons w rest =>
      unfold crossPure
      rw [ih]
      constructor
      · rintro (⟨j, ⟨y, h1, h2, h3⟩, h4⟩ | ⟨h1, h2⟩)
        · left
          refine ⟨j + 1, ⟨y, by simpa using h1, by simpa using h2, h3⟩, ?_⟩
          intro j' u y' hj hu hy
          cases j' with
          | zero => exact absurd hj (Nat.not_lt_zero _)
          | succ j' => exact h4 j' u y' (Nat.lt_of_succ_lt_succ hj) (by simpa using hu) (by simpa using hy)
        · by_cases hc : G z < F z ∧ F w < G w
          · rw [if_pos hc] at h1
            cases h1
            left
            refine ⟨0, ⟨w, rfl, rfl, hc⟩, ?_⟩
            intro j' u y' hj hu hy
            cases j' with
            | zero => exact absurd hj (Nat.lt_irrefl _)
            | succ j' => exact h2 j' u y' (by simpa using hu) (by simpa using hy)
          · rw [if_neg hc] at h1
            right
            refine ⟨h1, ?_⟩
            intro j' u y' hu hy
            cases j' with
            | zero =>
              simp only [List.getElem?_cons_zero, Option.some.injEq, zero_add, List.getElem?_cons_succ] at hu hy
              subst hu hy
              exact hc
            | succ j' => exact h2 j' u y' (by simpa using hu) (by simpa using hy)
      · rintro (⟨j, ⟨y, h1, h2, h3⟩, h4⟩ | ⟨h1, h2⟩)
        · cases j with
          | zero =>
            simp only [List.getElem?_cons_zero, Option.some.injEq, zero_add, List.getElem?_cons_succ] at h1 h2
            subst h1 h2
            right
            rw [if_pos h3]
            refine ⟨rfl, ?_⟩
            intro j' u y' hu hy
            exact h4 (j' + 1) u y' (Nat.succ_pos _) (by simpa using hu) (by simpa using hy)
          | succ j =>
            left
            refine ⟨j, ⟨y, by simpa using h1, by simpa using h2, h3⟩, ?_⟩
            intro j' u y' hj hu hy
            exact h4 (j' + 1) u y' (Nat.succ_lt_succ hj) (by simpa using hu) (by simpa using hy)
        · right
          rw [if_neg (h2 0 z w rfl rfl)]
          refine ⟨h1, ?_⟩
          intro j' u y' hu hy
          exact h2 (j' + 1) u y' (by simpa using hu) (by simpa using hy)

/-- Everything the function computes, on total functions. -/
theorem intersect_general {f g : Curve} (hf : IsStep f) (hg : IsStep g) (k : ℚ) :
    ∃ m, DomainEnd f g m ∧ m ∈ gridXs f g m ∧
      (∀ x, ((0 : ℚ) : Ext) ≤ x → x ≤ m → ValueAt f x (stepFun f x) ∧ ValueAt g x (stepFun g x)) ∧
      (∀ x ∈ gridXs f g m, ((0 : ℚ) : Ext) ≤ x ∧ x ≤ m) ∧
      ∃ i, intersectStepwise f g k = .ok i ∧
      i.x = crossPure (stepFun f) (stepFun g) (gridXs f g m) none ∧
      (∀ x, i.x = some x → ∃ jf jg, i.f = some jf ∧ i.g = some jg ∧ FirstReaching f x jf ∧
        FirstReaching g x jg ∧
        (IsEnd f x → ¬ IsEnd g x → i.v = Val.ofExt (stepFun g x)) ∧
        (¬ IsEnd f x → i.v = Val.ofExt (stepFun f x)) ∧
        (IsEnd f x → IsEnd g x → i.v = kMix k (stepFun g x) (stepFun f x))) ∧
      (i.x = none → i.f = none ∧ i.g = none ∧ i.v = kMix k (stepFun g m) (stepFun f m)) := by
  obtain ⟨a, ha, ga⟩ := maxX_spec hf.ne
  obtain ⟨b, hb, gb⟩ := maxX_spec hg.ne
  have hda : ∀ x, x ≤ min a b → ∃ s ∈ f, x ≤ s.1 := fun x hx => by
    obtain ⟨s, hs, he⟩ := ga.1
    exact ⟨s, hs, by rw [he]; exact hx.trans (min_le_left _ _)⟩
  have hdb : ∀ x, x ≤ min a b → ∃ s ∈ g, x ≤ s.1 := fun x hx => by
    obtain ⟨s, hs, he⟩ := gb.1
    exact ⟨s, hs, by rw [he]; exact hx.trans (min_le_right _ _)⟩
  have hval : ∀ x, ((0 : ℚ) : Ext) ≤ x → x ≤ min a b →
      getValueStepwise x f = some (stepFun f x) ∧ getValueStepwise x g = some (stepFun g x) :=
    fun x h0 hx => ⟨getValue_stepFun h0 (hda x hx), getValue_stepFun h0 (hdb x hx)⟩
  have hgrid : ∀ x ∈ gridXs f g (min a b), ((0 : ℚ) : Ext) ≤ x ∧ x ≤ min a b := by
    intro x hx
    rw [mem_gridXs] at hx
    refine ⟨?_, hx.2⟩
    rcases hx.1 with ⟨s, hs, rfl⟩ | ⟨s, hs, rfl⟩
    · exact hf.nonneg s hs
    · exact hg.nonneg s hs
  have hm : min a b ∈ gridXs f g (min a b) := by
    rw [mem_gridXs]
    refine ⟨?_, le_refl _⟩
    rcases min_choice a b with h | h <;> rw [h]
    · exact Or.inl ga.1
    · exact Or.inr gb.1
  have hloop := crossLoop_eq (f := f) (g := g) (F := stepFun f) (G := stepFun g)
    (gridXs f g (min a b)) none (fun x hx => hval x (hgrid x hx).1 (hgrid x hx).2)
  have hlast : (gridXs f g (min a b)).getLast? = some (min a b) := by
    have hne : gridXs f g (min a b) ≠ [] := List.ne_nil_of_mem hm
    rw [List.getLast?_eq_getLast_of_ne_nil hne]
    congr 1
    refine le_antisymm (hgrid _ (List.getLast_mem hne)).2 ?_
    have hs := gridXs_sorted f g (min a b)
    have happ := List.dropLast_append_getLast hne
    rw [← happ] at hs hm
    rcases List.mem_append.mp hm with h | h
    · exact ((List.pairwise_append.mp hs).2.2 _ h _ (by simp)).le
    · rw [List.mem_singleton] at h; exact h.le
  refine ⟨min a b, ⟨a, b, ga, gb, rfl⟩, hm, ?_, hgrid, ?_⟩
  · intro x h0 hx
    rw [valueAt_iff, valueAt_iff]
    exact hval x h0 hx
  · unfold intersectStepwise
    simp only [ha, hb, bind, Except.bind, hloop, hlast]
    cases hc : crossPure (stepFun f) (stepFun g) (gridXs f g (min a b)) none with
    | none =>
      have h0 := hval _ (hgrid _ hm).1 (le_refl _)
      simp only [h0.1, h0.2]
      exact ⟨_, rfl, rfl, fun x h => (by cases h), fun _ => ⟨rfl, rfl, rfl⟩⟩
    | some x =>
      have hx : x ∈ gridXs f g (min a b) := by
        rcases crossPure_some _ _ _ hc with h | ⟨pre, y, post, h, _⟩
        · cases h
        · rw [h]; simp
      have hxm := (hgrid x hx)
      have f1 := argmaxTrue_first (hda x hxm.2)
      have f2 := argmaxTrue_first (hdb x hxm.2)
      obtain ⟨bf, e1⟩ := f1.value (valueAt_iff.mpr (hval x hxm.1 hxm.2).1)
      obtain ⟨bg, e2⟩ := f2.value (valueAt_iff.mpr (hval x hxm.1 hxm.2).2)
      simp only [e1, e2]
      have m1 : x ∈ f.map Prod.fst ↔ IsEnd f x := by simp [IsEnd]
      have m2 : x ∈ g.map Prod.fst ↔ IsEnd g x := by simp [IsEnd]
      refine ⟨_, rfl, rfl, ?_, fun h => by cases h⟩
      intro x' hx'
      cases hx'
      refine ⟨_, _, rfl, rfl, f1, f2, ?_, ?_, ?_⟩
      · intro h1 h2
        have h1' := m1.mpr h1
        have h2' : x ∉ g.map Prod.fst := fun h => h2 (m2.mp h)
        simp only [h1', h2', decide_true, decide_false, Bool.and_false, Bool.not_false, if_true]
      · intro h1
        have h1' : x ∉ f.map Prod.fst := fun h => h1 (m1.mp h)
        simp only [h1', decide_false, Bool.false_and, Bool.not_false, if_true, if_false]
      · intro h1 h2
        have h1' := m1.mpr h1
        have h2' := m2.mpr h2
        simp only [h1', h2', decide_true, Bool.and_true, Bool.not_true, Bool.false_eq_true, if_false]

/-- **C74, the abscissa in general.** For any two step functions, whatever their domains and
monotonicity, `intersect_stepwise` returns; the abscissa is the last grid point from which `f - g`
changes from positive to negative up to the next one, and `None` if there is none. -/
theorem C74_last_drop (f g : Curve) (hf : IsStep f) (hg : IsStep g) (k : ℚ) (m : Ext)
    (hm : DomainEnd f g m) (xs : List Ext) (hx : IsGrid f g m xs) :
    ∃ i, intersectStepwise f g k = .ok i ∧
      (∀ x, i.x = some x ↔ ∃ j, DropsAt f g xs j x ∧ ∀ j' x', j < j' → ¬ DropsAt f g xs j' x') ∧
      (i.x = none ↔ ∀ j x, ¬ DropsAt f g xs j x) := by
  obtain ⟨m', hm', hmm, hval, hgr, i, hi, hx', _, _⟩ := intersect_general hf hg k
  have hmeq : m' = m := by
    obtain ⟨a, b, h1, h2, rfl⟩ := hm
    obtain ⟨a', b', h1', h2', rfl⟩ := hm'
    rw [h1.unique h1', h2.unique h2']
  subst hmeq
  rw [hx.eq] at hgr hx'
  have hd : ∀ j x y, xs[j]? = some x → xs[j + 1]? = some y →
      (DropsAt f g xs j x ↔ (stepFun g x < stepFun f x ∧ stepFun f y < stepFun g y)) := by
    intro j x y h1 h2
    have v1 := hval x (hgr x (List.mem_of_getElem? h1)).1 (hgr x (List.mem_of_getElem? h1)).2
    have v2 := hval y (hgr y (List.mem_of_getElem? h2)).1 (hgr y (List.mem_of_getElem? h2)).2
    constructor
    · rintro ⟨y', _, h4, ⟨a, b, ha, hb, hab⟩, ⟨c, d, hc, hd, hcd⟩⟩
      rw [h2] at h4; cases h4
      rw [v1.1.unique ha, v1.2.unique hb, v2.1.unique hc, v2.2.unique hd]
      exact ⟨hab, hcd⟩
    · rintro ⟨h3, h4⟩
      exact ⟨y, h1, h2, ⟨_, _, v1.1, v1.2, h3⟩, ⟨_, _, v2.1, v2.2, h4⟩⟩
  have key : ∀ x, i.x = some x ↔
      ∃ j, DropsAt f g xs j x ∧ ∀ j' x', j < j' → ¬ DropsAt f g xs j' x' := by
    intro x
    rw [hx', crossPure_last]
    simp only [reduceCtorEq, false_and, or_false]
    constructor
    · rintro ⟨j, ⟨y, h1, h2, h3⟩, h4⟩
      refine ⟨j, (hd j x y h1 h2).mpr h3, ?_⟩
      intro j' x' hj hdr
      obtain ⟨y', e1, e2, _⟩ := id hdr
      exact h4 j' x' y' hj e1 e2 ((hd j' x' y' e1 e2).mp hdr)
    · rintro ⟨j, hdr, h4⟩
      obtain ⟨y, e1, e2, _⟩ := id hdr
      refine ⟨j, ⟨y, e1, e2, (hd j x y e1 e2).mp hdr⟩, ?_⟩
      intro j' u y' hj h1 h2 h3
      exact h4 j' u hj ((hd j' u y' h1 h2).mpr h3)
  refine ⟨i, hi, key, ?_⟩
  constructor
  · intro hn
    -- among finitely many drops there is a last one
    by_contra hc
    push Not at hc
    obtain ⟨j, x, hdr⟩ := hc
    have hbound : ∀ j x, DropsAt f g xs j x → j < xs.length := by
      rintro j x ⟨y, h1, _⟩
      exact (List.getElem?_eq_some_iff.mp h1).1
    have hex : ∃ n, ∃ x, DropsAt f g xs (xs.length - n) x := by
      refine ⟨xs.length - j, x, ?_⟩
      have := hbound j x hdr
      rw [Nat.sub_sub_self this.le]
      exact hdr
    classical
    obtain ⟨x', hx''⟩ := Nat.find_spec hex
    have := (key x').mpr ⟨_, hx'', ?_⟩
    · rw [hn] at this; cases this
    · intro j' u hj hd'
      have hb := hbound j' u hd'
      have hlt : xs.length - j' < Nat.find hex := by omega
      refine Nat.find_min hex hlt ⟨u, ?_⟩
      rw [Nat.sub_sub_self hb.le]
      exact hd'
  · intro hno
    cases hix : i.x with
    | none => rfl
    | some x =>
      obtain ⟨j, hdr, _⟩ := (key x).mp hix
      exact absurd hdr (hno j x)

/-- **C74.** The documented contract: `f` non-increasing, `g` non-decreasing, any domains. If there
is a point where `f` passes from above `g` to below `g`, it is returned together with the indices of
the two intervals, and the ordinate is the value of the function that does not step there (the
`k`-combination if both do). Otherwise the first three results are `None` and the ordinate is the
`k`-combination at the last point where both functions are defined. -/
theorem C74_contract (f g : Curve) (hf : IsStep f) (hg : IsStep g)
    (hdec : f.Pairwise (fun s t => t.2 ≤ s.2)) (hinc : g.Pairwise (fun s t => s.2 ≤ t.2)) (k : ℚ)
    (m : Ext) (hm : DomainEnd f g m) :
    ∃ i, intersectStepwise f g k = .ok i ∧
      (∀ x, i.x = some x ↔ CrossesAt f g m x) ∧
      (∀ x a b, i.x = some x → ValueAt f x a → ValueAt g x b →
        (∃ jf jg, i.f = some jf ∧ i.g = some jg ∧ FirstReaching f x jf ∧ FirstReaching g x jg) ∧
        ((IsEnd f x ∧ ¬ IsEnd g x ∧ i.v = Val.ofExt b) ∨
          (¬ IsEnd f x ∧ IsEnd g x ∧ i.v = Val.ofExt a) ∨
          (IsEnd f x ∧ IsEnd g x ∧ ∀ p q : ℚ, a = (p : Ext) → b = (q : Ext) →
            i.v = .fin (k * q + (1 - k) * p)))) ∧
      (i.x = none → i.f = none ∧ i.g = none ∧ ∀ p q : ℚ, ValueAt f m (p : Ext) →
        ValueAt g m (q : Ext) → i.v = .fin (k * q + (1 - k) * p)) := by
  obtain ⟨m', hm', hmm, hval, hgr, i, hi, hx', hsome, hnone⟩ := intersect_general hf hg k
  have hmeq : m' = m := by
    obtain ⟨a, b, h1, h2, rfl⟩ := hm
    obtain ⟨a', b', h1', h2', rfl⟩ := hm'
    rw [h1.unique h1', h2.unique h2']
  subst hmeq
  have hF : ∀ {x y : Ext}, x ≤ y → y ≤ m' → stepFun f y ≤ stepFun f x := fun {x y} hxy hy =>
    stepFun_rel (R := fun a b => b ≤ a) (fun a => le_refl a) hdec hxy (by
      obtain ⟨a, b, h1, _, rfl⟩ := hm
      obtain ⟨s, hs, he⟩ := h1.1
      exact ⟨s, hs, by rw [he]; exact hy.trans (min_le_left _ _)⟩)
  have hG : ∀ {x y : Ext}, x ≤ y → y ≤ m' → stepFun g x ≤ stepFun g y := fun {x y} hxy hy =>
    stepFun_rel (R := fun a b => a ≤ b) (fun a => le_refl a) hinc hxy (by
      obtain ⟨a, b, _, h1, rfl⟩ := hm
      obtain ⟨s, hs, he⟩ := h1.1
      exact ⟨s, hs, by rw [he]; exact hy.trans (min_le_right _ _)⟩)
  have hsorted := gridXs_sorted f g m'
  have hcr : ∀ x, CrossesAt f g m' x ↔ ((0 : ℚ) : Ext) ≤ x ∧ x < m' ∧ stepFun g x < stepFun f x ∧
      ∀ z, x < z → z ≤ m' → stepFun f z < stepFun g z := by
    intro x
    constructor
    · rintro ⟨h1, ⟨a, b, ha, hb, hab⟩, h3⟩
      have v := hval x ha.1 h1.le
      refine ⟨ha.1, h1, by rw [v.1.unique ha, v.2.unique hb]; exact hab, ?_⟩
      intro z hz hzm
      obtain ⟨c, d, hc, hd, hcd⟩ := h3 z hz hzm
      have v := hval z hc.1 hzm
      rw [v.1.unique hc, v.2.unique hd]
      exact hcd
    · rintro ⟨h0, h1, h2, h3⟩
      have v := hval x h0 h1.le
      refine ⟨h1, ⟨_, _, v.1, v.2, h2⟩, ?_⟩
      intro z hz hzm
      have v := hval z (h0.trans hz.le) hzm
      exact ⟨_, _, v.1, v.2, h3 z hz hzm⟩
  have hend : ∀ x, i.x = some x → x ∈ gridXs f g m' := by
    intro x hx
    rw [hx'] at hx
    rcases crossPure_some _ _ _ hx with h | ⟨pre, y, post, h, _⟩
    · cases h
    · rw [h]; simp
  have hfw : ∀ x, i.x = some x → CrossesAt f g m' x := by
    intro x hx
    have hxg := hend x hx
    rw [hx'] at hx
    rcases crossPure_some _ _ _ hx with h | ⟨pre, y, post, hsplit, hx1, hy1⟩
    · cases h
    rw [hcr]
    have hym : y ≤ m' := (hgr y (by rw [hsplit]; simp)).2
    have hsp := hsorted
    rw [hsplit, List.pairwise_append] at hsp
    have hxy : x < y := (List.pairwise_cons.mp hsp.2.1).1 y (by simp)
    refine ⟨(hgr x hxg).1, lt_of_lt_of_le hxy hym, hx1, ?_⟩
    intro z hz hzm
    obtain ⟨w, hw, hzw, hmin⟩ := sorted_next hsorted ⟨m', hmm, hzm⟩
    have hyw : y ≤ w := by
      have hxw : x < w := lt_of_lt_of_le hz hzw
      rw [hsplit] at hw
      rcases List.mem_append.mp hw with hw | hw
      · exact absurd hxw (not_lt.mpr (hsp.2.2 w hw x (by simp)).le)
      · rcases List.mem_cons.mp hw with rfl | hw
        · exact absurd hxw (lt_irrefl _)
        · rcases List.mem_cons.mp hw with rfl | hw
          · exact le_refl _
          · exact (List.rel_of_pairwise_cons (List.pairwise_cons.mp hsp.2.1).2 hw).le
    have hwm := (hgr w hw).2
    have e1 : stepFun f z = stepFun f w := stepFun_const hzw (fun s hs hzs => by
      by_cases hsm : s.1 ≤ m'
      · exact hmin s.1 (mem_gridXs.mpr ⟨Or.inl ⟨s, hs, rfl⟩, hsm⟩) hzs
      · exact hwm.trans (not_le.mp hsm).le)
    have e2 : stepFun g z = stepFun g w := stepFun_const hzw (fun s hs hzs => by
      by_cases hsm : s.1 ≤ m'
      · exact hmin s.1 (mem_gridXs.mpr ⟨Or.inr ⟨s, hs, rfl⟩, hsm⟩) hzs
      · exact hwm.trans (not_le.mp hsm).le)
    rw [e1, e2]
    exact lt_of_le_of_lt (hF hyw hwm) (lt_of_lt_of_le hy1 (hG hyw hwm))
  have huniq : ∀ x y, CrossesAt f g m' x → CrossesAt f g m' y → x = y := by
    intro x y h1 h2
    rw [hcr] at h1 h2
    rcases lt_trichotomy x y with h | h | h
    · exact absurd (h1.2.2.2 y h h2.2.1.le) (not_lt.mpr h2.2.2.1.le)
    · exact h
    · exact absurd (h2.2.2.2 x h h1.2.1.le) (not_lt.mpr h1.2.2.1.le)
  have hbw : ∀ x, CrossesAt f g m' x → i.x = some x := by
    intro x hcx
    have hc := (hcr x).mp hcx
    obtain ⟨h0, hxm, hx1, hz⟩ := hc
    obtain ⟨w, hw, hxw, hmin⟩ := sorted_next hsorted ⟨m', hmm, hxm.le⟩
    have hwm := (hgr w hw).2
    have e1 : stepFun f x = stepFun f w := stepFun_const hxw (fun s hs hzs => by
      by_cases hsm : s.1 ≤ m'
      · exact hmin s.1 (mem_gridXs.mpr ⟨Or.inl ⟨s, hs, rfl⟩, hsm⟩) hzs
      · exact hwm.trans (not_le.mp hsm).le)
    have e2 : stepFun g x = stepFun g w := stepFun_const hxw (fun s hs hzs => by
      by_cases hsm : s.1 ≤ m'
      · exact hmin s.1 (mem_gridXs.mpr ⟨Or.inr ⟨s, hs, rfl⟩, hsm⟩) hzs
      · exact hwm.trans (not_le.mp hsm).le)
    have hxeq : w = x := by
      rcases hxw.lt_or_eq with h | h
      · have := hz w h hwm
        rw [← e1, ← e2] at this
        exact absurd this (not_lt.mpr hx1.le)
      · exact h.symm
    subst hxeq
    have hne : ∀ z ∈ gridXs f g m', stepFun f z ≠ stepFun g z := by
      intro z hzg he
      rcases le_or_gt z w with h | h
      · have h1 := hF h hwm
        have h2 := hG h hwm
        rw [he] at h1
        exact absurd (lt_of_lt_of_le hx1 (h1.trans h2)) (lt_irrefl _)
      · exact absurd (hz z h (hgr z hzg).2) (by rw [he]; exact lt_irrefl _)
    have hlast : (gridXs f g m').getLast? = some m' := by
      have hnn : gridXs f g m' ≠ [] := List.ne_nil_of_mem hmm
      rw [List.getLast?_eq_getLast_of_ne_nil hnn]
      congr 1
      refine le_antisymm (hgr _ (List.getLast_mem hnn)).2 ?_
      have happ := List.dropLast_append_getLast hnn
      have hs := hsorted
      rw [← happ] at hs
      have hm2 := hmm
      rw [← happ] at hm2
      rcases List.mem_append.mp hm2 with h | h
      · exact ((List.pairwise_append.mp hs).2.2 _ h _ (by simp)).le
      · rw [List.mem_singleton] at h; exact h.le
    obtain ⟨y, hy⟩ := crossPure_found (gridXs f g m') none w m' hw hx1 hlast
      (hz m' hxm (le_refl _)) hne
    rw [← hx'] at hy
    rw [hy, huniq y w (hfw y hy) hcx]
  refine ⟨i, hi, fun x => ⟨hfw x, hbw x⟩, ?_, ?_⟩
  · intro x a b hx ha hb
    obtain ⟨jf, jg, h1, h2, h3, h4, h5, h6, h7⟩ := hsome x hx
    have hxg := hend x hx
    have v := hval x (hgr x hxg).1 (hgr x hxg).2
    rw [v.1.unique ha] at h6 h7
    rw [v.2.unique hb] at h5 h7
    refine ⟨⟨jf, jg, h1, h2, h3, h4⟩, ?_⟩
    by_cases e1 : IsEnd f x
    · by_cases e2 : IsEnd g x
      · right; right
        refine ⟨e1, e2, ?_⟩
        rintro p q rfl rfl
        rw [h7 e1 e2, kMix_fin]
      · exact Or.inl ⟨e1, e2, h5 e1 e2⟩
    · have e2 : IsEnd g x := by
        rcases (mem_gridXs.mp hxg).1 with h | h
        · exact absurd h e1
        · exact h
      exact Or.inr (Or.inl ⟨e1, e2, h6 e1⟩)
  · intro hn
    obtain ⟨h1, h2, h3⟩ := hnone hn
    refine ⟨h1, h2, ?_⟩
    intro p q hp hq
    have v := hval m' hp.1 (le_refl _)
    rw [h3, v.1.unique hp, v.2.unique hq, kMix_fin]

/-! ## Examples: those of the documentation, and two crossings -/

/-- `pymarket/bids/demand_curves.py:261-264`. -/
def docF : Curve := [(((1 : ℚ) : Ext), ((3 : ℚ) : Ext)), (((3 : ℚ) : Ext), ((1 : ℚ) : Ext))]

@[inherit_doc docF]
def docG : Curve := [(((2 : ℚ) : Ext), ((2 : ℚ) : Ext))]

/-- `pymarket/bids/demand_curves.py:268-271`. -/
def docF' : Curve := [(((1 : ℚ) : Ext), ((3 : ℚ) : Ext)), (((2 : ℚ) : Ext), ((5 / 2 : ℚ) : Ext))]

@[inherit_doc docF']
def docG' : Curve := [(((1 : ℚ) : Ext), ((1 : ℚ) : Ext)), (((2 : ℚ) : Ext), ((2 : ℚ) : Ext))]

theorem docF_isStep : IsStep docF := ⟨by decide, by decide +kernel, by decide +kernel⟩
theorem docG_isStep : IsStep docG := ⟨by decide, by decide +kernel, by decide +kernel⟩

theorem doc_domain : DomainEnd docF docG ((2 : ℚ) : Ext) := by
  refine ⟨((3 : ℚ) : Ext), ((2 : ℚ) : Ext),
    ⟨⟨(((3 : ℚ) : Ext), ((1 : ℚ) : Ext)), by decide +kernel, rfl⟩, ?_⟩,
    ⟨⟨(((2 : ℚ) : Ext), ((2 : ℚ) : Ext)), by decide +kernel, rfl⟩, ?_⟩, by decide +kernel⟩
  · rintro x ⟨s, hs, rfl⟩
    revert s; decide +kernel
  · rintro x ⟨s, hs, rfl⟩
    revert s; decide +kernel

example : docF.Pairwise (fun s t => t.2 ≤ s.2) ∧ docG.Pairwise (fun s t => s.2 ≤ t.2) ∧
    intersectStepwise docF docG (1 / 2) = .ok ⟨some ((1 : ℚ) : Ext), some 0, some 0, .fin 2⟩ ∧
    intersectStepwise docF' docG' (1 / 2) = .ok ⟨none, none, none, .fin (9 / 4)⟩ := by
  decide +kernel

/-- The point found in the first example is a crossing, by the theorem. -/
example : CrossesAt docF docG ((2 : ℚ) : Ext) ((1 : ℚ) : Ext) := by
  obtain ⟨i, h1, h2, _⟩ := C74_contract docF docG docF_isStep docG_isStep (by decide +kernel)
    (by decide +kernel) (1 / 2) _ doc_domain
  refine (h2 _).mp ?_
  have : intersectStepwise docF docG (1 / 2) = .ok ⟨some ((1 : ℚ) : Ext), some 0, some 0, .fin 2⟩ := by
    decide +kernel
  rw [this] at h1
  cases h1
  rfl

/-- A function that is not monotone and passes below the other one twice: the second drop counts. -/
def waveF : Curve := [(((1 : ℚ) : Ext), ((3 : ℚ) : Ext)), (((2 : ℚ) : Ext), ((1 : ℚ) : Ext)),
  (((3 : ℚ) : Ext), ((3 : ℚ) : Ext)), (((4 : ℚ) : Ext), ((1 : ℚ) : Ext))]

/-- A constant. -/
def flatG : Curve := [(((4 : ℚ) : Ext), ((2 : ℚ) : Ext))]

example : IsStep waveF ∧ IsStep flatG ∧ intersectStepwise waveF flatG (1 / 2) =
    .ok ⟨some ((3 : ℚ) : Ext), some 2, some 0, .fin 2⟩ :=
  ⟨⟨by decide, by decide +kernel, by decide +kernel⟩, ⟨by decide, by decide +kernel, by decide +kernel⟩,
    by decide +kernel⟩

end PyMarket
