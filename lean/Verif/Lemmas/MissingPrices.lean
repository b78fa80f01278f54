import Verif.Model.MissingPrices
import Verif.Lemmas.UnlimitedBook

/-! # Lemmas about missing prices -/

set_option autoImplicit false

namespace PyMarket

open Spec

/-- The rows of a curve without NaN. -/
def liftP (f : Curve) : CurveP := f.map (fun s => (s.1, some s.2))

section

variable {F : Curve} {N : CurveP} {y0 : Ext}

/-- A value that is a number is the value without the rows that are NaN. -/
theorem lookupP_number (hN : ∀ s ∈ N, s.2 = none) {x v : Ext}
    (h : stepLookupP x (liftP F ++ N ++ [((⊤ : Ext), some y0)]) = some (some v)) :
    stepLookup x (F ++ [((⊤ : Ext), y0)]) = some v := by
  induction F with
  | nil =>
    have e : ∀ N : CurveP, (∀ s ∈ N, s.2 = none) → stepLookupP x (N ++ [((⊤ : Ext), some y0)]) = some (some v) →
        v = y0 := by
      intro N
      induction N with
      | nil =>
        intro _ h
        simpa [stepLookupP, eq_comm] using h
      | cons s N ih =>
        intro hN h
        rw [List.cons_append, stepLookupP] at h
        split_ifs at h
        · rw [hN s (List.mem_cons_self ..)] at h
          simp at h
        · exact ih (fun t ht => hN t (List.mem_cons_of_mem _ ht)) h
    have := e N hN (by simpa [liftP] using h)
    simp [stepLookup, this]
  | cons s F ih =>
    simp only [liftP, List.map_cons, List.cons_append, stepLookupP] at h
    rw [List.cons_append, stepLookup]
    split_ifs at h ⊢ with hx
    · simpa using h
    · exact ih h

theorem getValueP_number (hN : ∀ s ∈ N, s.2 = none) {x v : Ext}
    (h : getValueStepwiseP x (liftP F ++ N ++ [((⊤ : Ext), some y0)]) = some (some v)) :
    ((0 : ℚ) : Ext) ≤ x ∧ getValueStepwise x (F ++ [((⊤ : Ext), y0)]) = some v := by
  unfold getValueStepwiseP at h
  unfold getValueStepwise
  split_ifs at h ⊢ with hx
  exact ⟨not_lt.mp hx, lookupP_number hN h⟩

/-- Values exist from zero on. -/
theorem getValueP_some {f : CurveP} (ht : ∃ s ∈ f, s.1 = (⊤ : Ext)) {x : Ext} (hx : ((0 : ℚ) : Ext) ≤ x) :
    ∃ v, getValueStepwiseP x f = some v := by
  unfold getValueStepwiseP
  rw [if_neg (not_lt.mpr hx)]
  obtain ⟨s, hs, h⟩ := ht
  induction f with
  | nil => cases hs
  | cons t f ih =>
    unfold stepLookupP
    split_ifs with hxt
    · exact ⟨_, rfl⟩
    · rcases List.mem_cons.mp hs with rfl | hs
      · rw [h] at hxt
        exact absurd le_top hxt
      · exact ih hs

/-- Beyond the rows with numbers the value of the curve without NaN is its last one. -/
theorem lookup_beyond {x : Ext} (h : ∀ s ∈ F, ¬ x ≤ s.1) : stepLookup x (F ++ [((⊤ : Ext), y0)]) = some y0 := by
  induction F with
  | nil => simp [stepLookup]
  | cons s F ih =>
    rw [List.cons_append, stepLookup, if_neg (h s (List.mem_cons_self ..))]
    exact ih (fun t ht => h t (List.mem_cons_of_mem _ ht))

/-- The position of the first row that reaches `x`. -/
theorem argmax_prefix {α : Type*} {A B C : List α} (p : α → Bool) (h : ∃ a ∈ A, p a = true) :
    argmaxTrue ((A ++ B).map p) = argmaxTrue ((A ++ C).map p) ∧ argmaxTrue ((A ++ B).map p) < A.length := by
  have e : ∀ B : List α, ∃ j, j < A.length ∧ (A.map p).findIdx? id = some j ∧ argmaxTrue ((A ++ B).map p) = j := by
    intro B
    obtain ⟨a, ha, hp⟩ := h
    cases hj : (A.map p).findIdx? id with
    | none =>
      have := List.findIdx?_eq_none_iff.mp hj (p a) (List.mem_map_of_mem ha)
      rw [hp] at this
      simp at this
    | some j =>
      refine ⟨j, ?_, rfl, ?_⟩
      · have := (List.findIdx?_eq_some_iff_findIdx_eq.mp hj).1
        simpa using this
      · unfold argmaxTrue
        rw [List.map_append, List.findIdx?_append, hj]
        rfl
  obtain ⟨j, h1, h2, h3⟩ := e B
  obtain ⟨j', _, h2', h3'⟩ := e C
  rw [h2] at h2'
  rw [h3, h3', Option.some.inj h2']
  exact ⟨rfl, by rw [← Option.some.inj h2']; exact h1⟩

end

/-- What the crossing loop has found. -/
theorem crossLoopP_found {f g : CurveP} : ∀ {xs : List Ext} {ast : Option Ext} {x : Ext},
    crossLoopP f g xs ast = .ok (some x) → ast = some x ∨ ∃ pre y rest a b a' b', xs = pre ++ x :: y :: rest ∧
      getValueStepwiseP x f = some (some a) ∧ getValueStepwiseP x g = some (some b) ∧ b < a ∧
      getValueStepwiseP y f = some (some a') ∧ getValueStepwiseP y g = some (some b') ∧ a' < b'
  | [], ast, x, h => by
    left
    simpa [crossLoopP] using h
  | [_], ast, x, h => by
    left
    simpa [crossLoopP] using h
  | z :: y :: rest, ast, x, h => by
    have gt : ∀ {u v : Option (Option Ext)}, pyGtP u v = .ok true →
        ∃ a b, u = some (some a) ∧ v = some (some b) ∧ b < a := by
      intro u v h
      unfold pyGtP at h
      split at h
      · rename_i a b
        exact ⟨a, b, rfl, rfl, by simpa using h⟩
      · cases h
      · cases h
    have step : ∀ {ast' : Option Ext}, crossLoopP f g (y :: rest) ast' = .ok (some x) → ast' = some x ∨
        ∃ pre y' rest' a b a' b', z :: y :: rest = pre ++ x :: y' :: rest' ∧
        getValueStepwiseP x f = some (some a) ∧ getValueStepwiseP x g = some (some b) ∧ b < a ∧
        getValueStepwiseP y' f = some (some a') ∧ getValueStepwiseP y' g = some (some b') ∧ a' < b' := by
      intro ast' h'
      rcases crossLoopP_found h' with h1 | ⟨pre, y', rest', a, b, a', b', e, h2⟩
      · exact Or.inl h1
      · exact Or.inr ⟨z :: pre, y', rest', a, b, a', b', by rw [e]; rfl, h2⟩
    rw [crossLoopP] at h
    simp only [bind, Except.bind] at h
    cases h1 : pyGtP (getValueStepwiseP z f) (getValueStepwiseP z g) with
    | error e => rw [h1] at h; cases h
    | ok t =>
      rw [h1] at h
      simp only at h
      cases t with
      | false => exact step (by simpa using h)
      | true =>
        simp only [if_true] at h
        cases h2 : pyGtP (getValueStepwiseP y g) (getValueStepwiseP y f) with
        | error e => rw [h2] at h; cases h
        | ok t' =>
          rw [h2] at h
          simp only at h
          rcases step h with h3 | h3
          · cases t' with
            | false => exact Or.inl (by simpa using h3)
            | true =>
              right
              have e : z = x := by simpa using h3
              subst e
              obtain ⟨a, b, e1, e2, e3⟩ := gt h1
              obtain ⟨b', a', e1', e2', e3'⟩ := gt h2
              exact ⟨[], y, rest, a, b, a', b', rfl, e1, e2, e3, e2', e1', e3'⟩
          · exact Or.inr h3

/-- The loop does not raise from zero on. -/
theorem crossLoopP_ok {f g : CurveP} (tf : ∃ s ∈ f, s.1 = (⊤ : Ext)) (tg : ∃ s ∈ g, s.1 = (⊤ : Ext)) :
    ∀ {xs : List Ext} {ast : Option Ext}, (∀ x ∈ xs, ((0 : ℚ) : Ext) ≤ x) → ∃ o, crossLoopP f g xs ast = .ok o
  | [], ast, _ => ⟨ast, by simp [crossLoopP]⟩
  | [_], ast, _ => ⟨ast, by simp [crossLoopP]⟩
  | x :: y :: rest, ast, h => by
    have gt : ∀ u v : Option Ext, ∃ t, pyGtP (some u) (some v) = .ok t := by
      intro u v
      cases u <;> cases v <;> exact ⟨_, rfl⟩
    obtain ⟨a, ha⟩ := getValueP_some tf (h x (by simp))
    obtain ⟨b, hb⟩ := getValueP_some tg (h x (by simp))
    obtain ⟨a', ha'⟩ := getValueP_some tf (h y (by simp))
    obtain ⟨b', hb'⟩ := getValueP_some tg (h y (by simp))
    obtain ⟨t, ht⟩ := gt a b
    obtain ⟨t', ht'⟩ := gt b' a'
    rw [crossLoopP, ha, hb, ha', hb']
    simp only [bind, Except.bind, ht, ht']
    have again := fun ast' => crossLoopP_ok tf tg (xs := y :: rest) (ast := ast') (fun z hz => h z (List.mem_cons_of_mem _ hz))
    cases t with
    | false => exact again _
    | true => exact again _

section

variable {F G : Curve} {NF NG : CurveP}

/-- A crossing that is found with NaN prices is one without them. -/
theorem crossesAt_of_P (hNF : ∀ s ∈ NF, s.2 = none) (hNG : ∀ s ∈ NG, s.2 = none)
    (hdec : (F ++ [((⊤ : Ext), ((0 : ℚ) : Ext))]).Pairwise (fun s t => t.2 ≤ s.2))
    (hinc : (G ++ [((⊤ : Ext), (⊤ : Ext))]).Pairwise (fun s t => s.2 ≤ t.2)) (hG : ∀ s ∈ G, ((0 : ℚ) : Ext) ≤ s.2)
    {x : Ext}
    (h : crossLoopP (liftP F ++ NF ++ [((⊤ : Ext), some ((0 : ℚ) : Ext))]) (liftP G ++ NG ++ [((⊤ : Ext), some ⊤)])
      (gridXs ((liftP F ++ NF ++ [((⊤ : Ext), some ((0 : ℚ) : Ext))]).map (fun s : Ext × Option Ext => (s.1, s.1)))
        ((liftP G ++ NG ++ [((⊤ : Ext), some ⊤)]).map (fun s : Ext × Option Ext => (s.1, s.1))) ⊤) none = .ok (some x)) :
    CrossesAt (F ++ [((⊤ : Ext), ((0 : ℚ) : Ext))]) (G ++ [((⊤ : Ext), (⊤ : Ext))]) ⊤ x ∧
      (∃ s ∈ F, x ≤ Prod.fst s) ∧ (∃ s ∈ G, x ≤ Prod.fst s) := by
  rcases crossLoopP_found h with h | ⟨pre, y, rest, a, b, a', b', e, h1, h2, hlt, h3, h4, hlt'⟩
  · cases h
  · obtain ⟨hx, k1⟩ := getValueP_number hNF h1
    obtain ⟨_, k2⟩ := getValueP_number hNG h2
    obtain ⟨hy, k3⟩ := getValueP_number hNF h3
    obtain ⟨_, k4⟩ := getValueP_number hNG h4
    have tf : ∃ s ∈ F ++ [((⊤ : Ext), ((0 : ℚ) : Ext))], s.1 = ⊤ := ⟨_, List.mem_append_right _ (List.mem_singleton.mpr rfl), rfl⟩
    have tg : ∃ s ∈ G ++ [((⊤ : Ext), (⊤ : Ext))], s.1 = ⊤ := ⟨_, List.mem_append_right _ (List.mem_singleton.mpr rfl), rfl⟩
    have vf : ∀ {z v : Ext}, getValueStepwise z (F ++ [((⊤ : Ext), ((0 : ℚ) : Ext))]) = some v →
        v = stepFun (F ++ [((⊤ : Ext), ((0 : ℚ) : Ext))]) z := fun hv => ((valueAt_stepFun tf).mp (valueAt_iff.mpr hv)).2
    have vg : ∀ {z v : Ext}, getValueStepwise z (G ++ [((⊤ : Ext), (⊤ : Ext))]) = some v →
        v = stepFun (G ++ [((⊤ : Ext), (⊤ : Ext))]) z := fun hv => ((valueAt_stepFun tg).mp (valueAt_iff.mpr hv)).2
    have hsort := gridXs_sorted ((liftP F ++ NF ++ [((⊤ : Ext), some ((0 : ℚ) : Ext))]).map (fun s : Ext × Option Ext => (s.1, s.1)))
        ((liftP G ++ NG ++ [((⊤ : Ext), some ⊤)]).map (fun s : Ext × Option Ext => (s.1, s.1))) ⊤
    have hmem : ∀ s : Ext × Ext, s ∈ F ++ [((⊤ : Ext), ((0 : ℚ) : Ext))] ∨ s ∈ G ++ [((⊤ : Ext), (⊤ : Ext))] →
        s.1 ∈ pre ++ x :: y :: rest := by
      intro s hs
      rw [← e, mem_gridXs]
      refine ⟨?_, le_top⟩
      rcases hs with hs | hs
      · left
        rcases List.mem_append.mp hs with hs | hs
        · exact ⟨(s.1, s.1), List.mem_map.mpr ⟨(s.1, some s.2), by
            apply List.mem_append_left
            apply List.mem_append_left
            exact List.mem_map.mpr ⟨s, hs, rfl⟩, rfl⟩, rfl⟩
        · rw [List.mem_singleton.mp hs]
          exact ⟨((⊤ : Ext), (⊤ : Ext)), List.mem_map.mpr ⟨((⊤ : Ext), some ((0 : ℚ) : Ext)), by simp, rfl⟩, rfl⟩
      · right
        rcases List.mem_append.mp hs with hs | hs
        · exact ⟨(s.1, s.1), List.mem_map.mpr ⟨(s.1, some s.2), by
            apply List.mem_append_left
            apply List.mem_append_left
            exact List.mem_map.mpr ⟨s, hs, rfl⟩, rfl⟩, rfl⟩
        · rw [List.mem_singleton.mp hs]
          exact ⟨((⊤ : Ext), (⊤ : Ext)), List.mem_map.mpr ⟨((⊤ : Ext), some (⊤ : Ext)), by simp, rfl⟩, rfl⟩
    rw [e] at hsort
    have hxy : x < y := by
      have := (List.pairwise_append.mp hsort).2.1
      exact (List.pairwise_cons.mp this).1 y (List.mem_cons_self ..)
    have hgap : ∀ w ∈ pre ++ x :: y :: rest, ¬ (x < w ∧ w < y) := by
      rintro w hw ⟨w1, w2⟩
      obtain ⟨_, p2, p3⟩ := List.pairwise_append.mp hsort
      rcases List.mem_append.mp hw with hw | hw
      · exact absurd (p3 w hw x (List.mem_cons_self ..)) (not_lt.mpr w1.le)
      · rcases List.mem_cons.mp hw with rfl | hw
        · exact absurd w1 (lt_irrefl _)
        · rcases List.mem_cons.mp hw with rfl | hw
          · exact absurd w2 (lt_irrefl _)
          · have := (List.pairwise_cons.mp (List.pairwise_cons.mp p2).2).1 w hw
            exact absurd this (not_lt.mpr w2.le)
    have near : ∀ {f : Curve}, (∀ s ∈ f, s.1 ∈ pre ++ x :: y :: rest) → ∀ z, x < z → z ≤ y → stepFun f z = stepFun f y := by
      intro f hf z hz hzy
      apply stepFun_const hzy
      intro s hs hzs
      by_contra hc
      exact hgap _ (hf s hs) ⟨lt_of_lt_of_le hz hzs, not_le.mp hc⟩
    have hb : ((0 : ℚ) : Ext) ≤ b := by
      rw [vg k2]
      obtain ⟨s, hs, e⟩ := stepFun_mem (f := G ++ [((⊤ : Ext), (⊤ : Ext))]) (x := x) (by
        obtain ⟨s, hs, e⟩ := tg
        exact ⟨s, hs, by rw [e]; exact le_top⟩)
      rw [← e]
      rcases List.mem_append.mp hs with hs | hs
      · exact hG s hs
      · rw [List.mem_singleton.mp hs]
        exact le_top
    refine ⟨(crossesAt_top tf tg).mpr ⟨lt_of_lt_of_le hxy le_top, hx, ?_, ?_⟩, ?_, ?_⟩
    · rw [← vf k1, ← vg k2]
      exact hlt
    · intro z hz
      rcases le_total z y with hzy | hyz
      · rw [near (fun s hs => hmem s (Or.inl hs)) z hz hzy, near (fun s hs => hmem s (Or.inr hs)) z hz hzy,
          ← vf k3, ← vg k4]
        exact hlt'
      · have m1 : stepFun (F ++ [((⊤ : Ext), ((0 : ℚ) : Ext))]) z ≤ stepFun (F ++ [((⊤ : Ext), ((0 : ℚ) : Ext))]) y := by
          exact stepFun_rel (R := fun a b => b ≤ a) (fun a => le_refl a) hdec hyz ⟨_, List.mem_append_right _ (List.mem_singleton.mpr rfl), le_top⟩
        have m2 : stepFun (G ++ [((⊤ : Ext), (⊤ : Ext))]) y ≤ stepFun (G ++ [((⊤ : Ext), (⊤ : Ext))]) z := by
          exact stepFun_rel (R := fun a b => a ≤ b) (fun a => le_refl a) hinc hyz ⟨_, List.mem_append_right _ (List.mem_singleton.mpr rfl), le_top⟩
        rw [← vf k3] at m1
        rw [← vg k4] at m2
        exact lt_of_le_of_lt m1 (lt_of_lt_of_le hlt' m2)
    · by_contra hc
      push Not at hc
      have := lookup_beyond (y0 := ((0 : ℚ) : Ext)) (F := F) (x := x) (fun s hs => not_le.mpr (hc s hs))
      have e1 := vf k1
      unfold stepFun at e1
      rw [this] at e1
      rw [e1] at hlt
      exact absurd hlt (not_lt.mpr hb)
    · by_contra hc
      push Not at hc
      have := lookup_beyond (y0 := (⊤ : Ext)) (F := G) (x := x) (fun s hs => not_le.mpr (hc s hs))
      have e1 := vg k2
      unfold stepFun at e1
      rw [this] at e1
      rw [e1] at hlt
      exact absurd hlt (not_lt.mpr le_top)

end

end PyMarket
