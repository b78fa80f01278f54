import Verif.Spec.MarketOrders
import Verif.Lemmas.UnlimitedBook
import Verif.Lemmas.Huang

/-! # Curves with infinite prices -/

set_option autoImplicit false

namespace PyMarket

open Spec

/-- A curve with other values. -/
def liftY (h : Ext → Ext) (f : Curve) : Curve := f.map (fun s => (s.1, h s.2))

section

variable {h : Ext → Ext} {f g : Curve}

theorem liftY_fst (f : Curve) : (liftY h f).map Prod.fst = f.map Prod.fst := by
  unfold liftY
  rw [List.map_map]
  rfl

theorem stepLookup_lift (x : Ext) (f : Curve) : stepLookup x (liftY h f) = (stepLookup x f).map h := by
  induction f with
  | nil => rfl
  | cons s f ih =>
    show (if x ≤ s.1 then some (h s.2) else stepLookup x (liftY h f)) = _
    rw [ih]
    show _ = Option.map h (if x ≤ s.1 then some s.2 else stepLookup x f)
    split <;> rfl

theorem stepFun_lift (h0 : h ((0 : ℚ) : Ext) = ((0 : ℚ) : Ext)) (x : Ext) (f : Curve) :
    stepFun (liftY h f) x = h (stepFun f x) := by
  unfold stepFun
  rw [stepLookup_lift]
  cases stepLookup x f with
  | none => exact h0.symm
  | some v => rfl

theorem liftY_isStep (hf : IsStep f) : IsStep (liftY h f) where
  ne := by
    intro he
    exact hf.ne (List.map_eq_nil_iff.mp he)
  sorted := by
    unfold liftY
    rw [List.pairwise_map]
    exact hf.sorted
  nonneg := by
    intro s hs
    obtain ⟨t, ht, rfl⟩ := List.mem_map.mp hs
    exact hf.nonneg t ht

theorem liftY_top (hf : ∃ s ∈ f, s.1 = ⊤) : ∃ s ∈ liftY h f, s.1 = ⊤ := by
  obtain ⟨s, hs, he⟩ := hf
  exact ⟨_, List.mem_map_of_mem hs, he⟩

theorem liftY_isEnd (x : Ext) : IsEnd (liftY h f) x ↔ IsEnd f x := by
  unfold IsEnd
  constructor
  · rintro ⟨s, hs, he⟩
    obtain ⟨t, ht, rfl⟩ := List.mem_map.mp hs
    exact ⟨t, ht, he⟩
  · rintro ⟨s, hs, he⟩
    exact ⟨_, List.mem_map_of_mem hs, he⟩

theorem liftY_first (x : Ext) (j : ℕ) : FirstReaching (liftY h f) x j ↔ FirstReaching f x j := by
  unfold FirstReaching liftY
  simp only [List.getElem?_map]
  constructor
  · rintro ⟨⟨s, hs, hx⟩, hlt⟩
    obtain ⟨t, ht, rfl⟩ := Option.map_eq_some_iff.mp hs
    exact ⟨⟨t, ht, hx⟩, fun i s' hi hs' => hlt i (s'.1, h s'.2) hi (by rw [hs']; rfl)⟩
  · rintro ⟨⟨s, hs, hx⟩, hlt⟩
    refine ⟨⟨(s.1, h s.2), by rw [hs]; rfl, hx⟩, fun i s' hi hs' => ?_⟩
    obtain ⟨t, ht, rfl⟩ := Option.map_eq_some_iff.mp hs'
    exact hlt i t hi ht

theorem first_unique {f : Curve} {x : Ext} {j j' : ℕ} (h : FirstReaching f x j) (h' : FirstReaching f x j') :
    j = j' := by
  obtain ⟨⟨s, hs, hx⟩, hlt⟩ := h
  obtain ⟨⟨s', hs', hx'⟩, hlt'⟩ := h'
  rcases lt_trichotomy j j' with hj | hj | hj
  · exact absurd hx (not_le.mpr (hlt' j s hj hs))
  · exact hj
  · exact absurd hx' (not_le.mpr (hlt j' s' hj hs'))

/-- The row found is the one that gives the value. -/
theorem first_value {f : Curve} {x : Ext} {j : ℕ} (h : FirstReaching f x j) :
    ∃ s, f[j]? = some s ∧ s.2 = stepFun f x := by
  induction f generalizing j with
  | nil => obtain ⟨⟨s, hs, _⟩, _⟩ := h; simp at hs
  | cons t f ih =>
    obtain ⟨⟨s, hs, hx⟩, hlt⟩ := h
    rw [stepFun_cons]
    cases j with
    | zero =>
      obtain rfl : t = s := by simpa using hs
      exact ⟨t, rfl, by rw [if_pos hx]⟩
    | succ j =>
      have hn : ¬ x ≤ t.1 := not_le.mpr (hlt 0 t (Nat.succ_pos j) rfl)
      rw [if_neg hn]
      simpa using ih (j := j) ⟨⟨s, by simpa using hs, hx⟩, fun i s' hi hs' => hlt (i + 1) s' (by omega) (by simpa using hs')⟩

end

section

variable {P : ℚ}

theorem infFor_zero (hP : 0 < P) : infFor P ((0 : ℚ) : Ext) = ((0 : ℚ) : Ext) := by
  unfold infFor
  rw [if_neg]
  intro h
  exact absurd (WithTop.coe_injective h) hP.ne

theorem infFor_self : infFor P (P : Ext) = ⊤ := if_pos rfl

theorem infFor_ne {e : Ext} (h : e ≠ (P : Ext)) : infFor P e = e := if_neg h

theorem infFor_top : infFor P ⊤ = ⊤ := infFor_ne (WithTop.coe_ne_top).symm

theorem infFor_le {a b : Ext} (hab : a ≤ b) (hb : b ≤ (P : Ext) ∨ b = ⊤) : infFor P a ≤ infFor P b := by
  by_cases h : b = (P : Ext)
  · rw [h, infFor_self]; exact le_top
  · rcases hb with hb | rfl
    · have : a ≠ (P : Ext) := fun he => h (le_antisymm hb (he ▸ hab))
      rw [infFor_ne h, infFor_ne this]
      exact hab
    · rw [infFor_top]; exact le_top

/-- `b < a` for a value `a` of the demand curve. -/
theorem infFor_lt {a b : Ext} (ha : a ≤ (P : Ext)) (hb : b ≤ (P : Ext) ∨ b = ⊤) :
    infFor P b < infFor P a ↔ b < a := by
  by_cases h1 : a = (P : Ext)
  · rw [h1, infFor_self]
    rcases hb with hb | rfl
    · by_cases h2 : b = (P : Ext)
      · rw [h2, infFor_self]
        exact ⟨fun h => absurd h (lt_irrefl _), fun h => absurd h (lt_irrefl _)⟩
      · rw [infFor_ne h2]
        exact ⟨fun _ => lt_of_le_of_ne hb h2, fun h => lt_of_lt_of_le h le_top⟩
    · rw [infFor_top]
      exact ⟨fun h => absurd h (lt_irrefl _), fun h => absurd h (not_lt.mpr le_top)⟩
  · rw [infFor_ne h1]
    by_cases h2 : b = (P : Ext)
    · rw [h2, infFor_self]
      exact ⟨fun h => absurd h (not_lt.mpr le_top), fun h => absurd h (not_lt.mpr ha)⟩
    · rw [infFor_ne h2]

/-- `a < b` for a value `a` of the demand curve, unless `a` is an infinite price and `b` the end of the supply. -/
theorem infFor_gt {a b : Ext} (ha : a ≤ (P : Ext)) (hn : ¬ (a = (P : Ext) ∧ b = ⊤)) (hb : b ≤ (P : Ext) ∨ b = ⊤) :
    infFor P a < infFor P b ↔ a < b := by
  by_cases h1 : a = (P : Ext)
  · rw [h1, infFor_self]
    rcases hb with hb | rfl
    · exact ⟨fun h => absurd h (not_lt.mpr le_top), fun h => absurd h (not_lt.mpr hb)⟩
    · exact absurd ⟨h1, rfl⟩ hn
  · rw [infFor_ne h1]
    by_cases h2 : b = (P : Ext)
    · rw [h2, infFor_self]
      exact ⟨fun _ => lt_of_le_of_ne ha h1, fun h => lt_of_lt_of_le h le_top⟩
    · rw [infFor_ne h2]

/-- What is needed of the two curves of a book in which `P` stands for infinity. -/
structure CurvePair (P : ℚ) (f g : Curve) : Prop where
  pos : 0 < P
  stepF : IsStep f
  stepG : IsStep g
  topF : ∃ s ∈ f, s.1 = ⊤
  topG : ∃ s ∈ g, s.1 = ⊤
  leF : ∀ s ∈ f, s.2 ≤ (P : Ext)
  leG : ∀ s ∈ g, s.2 ≤ (P : Ext) ∨ s.2 = ⊤
  dec : f.Pairwise (fun s t => t.2 ≤ s.2)
  inc : g.Pairwise (fun s t => s.2 ≤ t.2)

variable {f g : Curve} (c : CurvePair P f g)

include c

theorem CurvePair.funF (x : Ext) : stepFun f x ≤ (P : Ext) := by
  obtain ⟨s, hs, ht⟩ := c.topF
  obtain ⟨t, h1, h2⟩ := stepFun_mem (f := f) (x := x) ⟨s, hs, by rw [ht]; exact le_top⟩
  rw [← h2]
  exact c.leF t h1

theorem CurvePair.funG (x : Ext) : stepFun g x ≤ (P : Ext) ∨ stepFun g x = ⊤ := by
  obtain ⟨s, hs, ht⟩ := c.topG
  obtain ⟨t, h1, h2⟩ := stepFun_mem (f := g) (x := x) ⟨s, hs, by rw [ht]; exact le_top⟩
  rw [← h2]
  exact c.leG t h1

theorem CurvePair.decLift : (liftY (infFor P) f).Pairwise (fun s t => t.2 ≤ s.2) := by
  unfold liftY
  rw [List.pairwise_map]
  exact c.dec.imp_of_mem (fun hs _ h => infFor_le h (Or.inl (c.leF _ hs)))

theorem CurvePair.incLift : (liftY (infFor P) g).Pairwise (fun s t => s.2 ≤ t.2) := by
  unfold liftY
  rw [List.pairwise_map]
  exact c.inc.imp_of_mem (fun _ ht h => infFor_le h (c.leG _ ht))

omit c in
theorem domainEnd_top {f g : Curve} (hf : ∃ s ∈ f, s.1 = ⊤) (hg : ∃ s ∈ g, s.1 = ⊤) : DomainEnd f g ⊤ := by
  obtain ⟨s, hs, h1⟩ := hf
  obtain ⟨t, ht, h2⟩ := hg
  exact ⟨⊤, ⊤, ⟨⟨s, hs, h1⟩, fun _ _ => le_top⟩, ⟨⟨t, ht, h2⟩, fun _ _ => le_top⟩, (min_self _).symm⟩

omit c in
/-- The result of `intersect_stepwise` for two curves that reach infinity. -/
theorem intersect_top {f g : Curve} (hf : IsStep f) (hg : IsStep g) (tf : ∃ s ∈ f, s.1 = ⊤) (tg : ∃ s ∈ g, s.1 = ⊤)
    (hdec : f.Pairwise (fun s t => t.2 ≤ s.2)) (hinc : g.Pairwise (fun s t => s.2 ≤ t.2)) (k : ℚ) :
    ∃ i, intersectStepwise f g k = .ok i ∧ (∀ x, i.x = some x ↔ CrossesAt f g ⊤ x) ∧
      (∀ x, i.x = some x → ∃ jf jg, i.f = some jf ∧ i.g = some jg ∧ FirstReaching f x jf ∧
        FirstReaching g x jg ∧
        (IsEnd f x → ¬ IsEnd g x → i.v = Val.ofExt (stepFun g x)) ∧
        (¬ IsEnd f x → i.v = Val.ofExt (stepFun f x)) ∧
        (IsEnd f x → IsEnd g x → i.v = kMix k (stepFun g x) (stepFun f x))) ∧
      (i.x = none → i.f = none ∧ i.g = none ∧ i.v = kMix k (stepFun g ⊤) (stepFun f ⊤)) := by
  obtain ⟨i, hi, h1, _⟩ := C74_contract f g hf hg hdec hinc k ⊤ (domainEnd_top tf tg)
  obtain ⟨m, hm, _, _, _, i', hi', _, h2, h3⟩ := intersect_general hf hg k
  obtain rfl : i = i' := by rw [hi] at hi'; cases hi'; rfl
  obtain rfl : m = ⊤ := by
    obtain ⟨a, b, g1, g2, rfl⟩ := hm
    obtain ⟨s, hs, e1⟩ := tf
    obtain ⟨t, ht, e2⟩ := tg
    have ha : a = ⊤ := top_le_iff.mp (g1.2 ⟨s, hs, e1⟩)
    have hb : b = ⊤ := top_le_iff.mp (g2.2 ⟨t, ht, e2⟩)
    rw [ha, hb, min_self]
  exact ⟨i, hi, h1, h2, h3⟩

theorem CurvePair.crosses (hn : ∀ z : Ext, ((0 : ℚ) : Ext) < z → ¬ (stepFun f z = (P : Ext) ∧ stepFun g z = ⊤))
    (x : Ext) : CrossesAt (liftY (infFor P) f) (liftY (infFor P) g) ⊤ x ↔ CrossesAt f g ⊤ x := by
  rw [crossesAt_top (liftY_top c.topF) (liftY_top c.topG), crossesAt_top c.topF c.topG]
  simp only [stepFun_lift (infFor_zero c.pos)]
  constructor
  · rintro ⟨h1, h2, h3, h4⟩
    exact ⟨h1, h2, (infFor_lt (c.funF x) (c.funG x)).mp h3, fun z hz =>
      (infFor_gt (c.funF z) (hn z (lt_of_le_of_lt h2 hz)) (c.funG z)).mp (h4 z hz)⟩
  · rintro ⟨h1, h2, h3, h4⟩
    exact ⟨h1, h2, (infFor_lt (c.funF x) (c.funG x)).mpr h3, fun z hz =>
      (infFor_gt (c.funF z) (hn z (lt_of_le_of_lt h2 hz)) (c.funG z)).mpr (h4 z hz)⟩

/-- The curves with infinite prices cross where the filled ones do. -/
theorem CurvePair.intersect
    (hn : ∀ z : Ext, ((0 : ℚ) : Ext) < z → ¬ (stepFun f z = (P : Ext) ∧ stepFun g z = ⊤)) (k : ℚ) :
    ∃ i iM, intersectStepwise f g k = .ok i ∧ intersectStepwise (liftY (infFor P) f) (liftY (infFor P) g) k = .ok iM ∧
      iM.x = i.x ∧ iM.f = i.f ∧ iM.g = i.g ∧
      ((∃ x jf jg, i.x = some x ∧ i.f = some jf ∧ i.g = some jg ∧ FirstReaching f x jf ∧ FirstReaching g x jg ∧
        stepFun g x < stepFun f x ∧
        ((i.v = Val.ofExt (stepFun g x) ∧ iM.v = Val.ofExt (infFor P (stepFun g x))) ∨
          (i.v = Val.ofExt (stepFun f x) ∧ iM.v = Val.ofExt (infFor P (stepFun f x))) ∨
          (i.v = kMix k (stepFun g x) (stepFun f x) ∧
            iM.v = kMix k (infFor P (stepFun g x)) (infFor P (stepFun f x))))) ∨
      (i.x = none ∧ i.f = none ∧ i.g = none ∧ i.v = kMix k (stepFun g ⊤) (stepFun f ⊤) ∧
        iM.v = kMix k (infFor P (stepFun g ⊤)) (infFor P (stepFun f ⊤)))) := by
  have h0 := infFor_zero c.pos
  obtain ⟨i, hi, h1, h2, h3⟩ := intersect_top c.stepF c.stepG c.topF c.topG c.dec c.inc k
  obtain ⟨iM, hiM, m1, m2, m3⟩ := intersect_top (liftY_isStep (h := infFor P) c.stepF)
    (liftY_isStep (h := infFor P) c.stepG) (liftY_top c.topF) (liftY_top c.topG) c.decLift c.incLift k
  have hx : ∀ x, iM.x = some x ↔ i.x = some x := fun x => by rw [m1, h1]; exact c.crosses hn x
  refine ⟨i, iM, hi, hiM, ?_⟩
  cases hc : i.x with
  | none =>
    have hM : iM.x = none := by
      cases hM : iM.x with
      | none => rfl
      | some x => rw [(hx x).mp hM] at hc; cases hc
    obtain ⟨a1, a2, a3⟩ := h3 hc
    obtain ⟨b1, b2, b3⟩ := m3 hM
    rw [stepFun_lift h0, stepFun_lift h0] at b3
    exact ⟨hM, by rw [a1, b1], by rw [a2, b2], Or.inr ⟨rfl, a1, a2, a3, b3⟩⟩
  | some x =>
    have hM := (hx x).mpr hc
    obtain ⟨jf, jg, e1, e2, e3, e4, e5, e6, e7⟩ := h2 x hc
    obtain ⟨jf', jg', d1, d2, d3, d4, d5, d6, d7⟩ := m2 x hM
    rw [liftY_first] at d3 d4
    obtain rfl := first_unique e3 d3
    obtain rfl := first_unique e4 d4
    simp only [liftY_isEnd, stepFun_lift h0] at d5 d6 d7
    have hcr := (crossesAt_top c.topF c.topG).mp ((h1 x).mp hc)
    refine ⟨hM, by rw [e1, d1], by rw [e2, d2], Or.inl ⟨x, jf, jg, rfl, e1, e2, e3, e4, hcr.2.2.1, ?_⟩⟩
    by_cases hf : IsEnd f x
    · by_cases hg : IsEnd g x
      · exact Or.inr (Or.inr ⟨e7 hf hg, d7 hf hg⟩)
      · exact Or.inl ⟨e5 hf hg, d5 hf hg⟩
    · exact Or.inr (Or.inl ⟨e6 hf, d6 hf⟩)

/-- The curves with infinite prices do not cross when the infinite part of the demand reaches beyond the finite part of
the supply. -/
theorem CurvePair.blocked {z : Ext} (hf : stepFun f z = (P : Ext))
    (hg : ¬ stepFun g z < (P : Ext)) (k : ℚ) :
    ∃ iM, intersectStepwise (liftY (infFor P) f) (liftY (infFor P) g) k = .ok iM ∧ iM.x = none ∧ iM.f = none ∧
      iM.g = none ∧ iM.v = kMix k (infFor P (stepFun g ⊤)) (infFor P (stepFun f ⊤)) := by
  have h0 := infFor_zero c.pos
  obtain ⟨iM, hiM, m1, m2, m3⟩ := intersect_top (liftY_isStep (h := infFor P) c.stepF)
    (liftY_isStep (h := infFor P) c.stepG) (liftY_top c.topF) (liftY_top c.topG) c.decLift c.incLift k
  have hgz : infFor P (stepFun g z) = ⊤ := by
    rcases c.funG z with h | h
    · rw [le_antisymm h (not_lt.mp hg), infFor_self]
    · rw [h, infFor_top]
  have hM : iM.x = none := by
    cases hM : iM.x with
    | none => rfl
    | some x =>
      exfalso
      obtain ⟨_, _, h3, h4⟩ := (crossesAt_top (liftY_top c.topF) (liftY_top c.topG)).mp ((m1 x).mp hM)
      rw [stepFun_lift h0, stepFun_lift h0] at h3
      by_cases hxz : x < z
      · have := h4 z hxz
        rw [stepFun_lift h0, stepFun_lift h0, hf, infFor_self] at this
        exact absurd this (not_lt.mpr le_top)
      · have hle := not_lt.mp hxz
        obtain ⟨s, hs, ht⟩ := liftY_top (h := infFor P) c.topG
        have := stepFun_rel (R := fun a b => a ≤ b) (fun a => le_refl a) c.incLift hle ⟨s, hs, by rw [ht]; exact le_top⟩
        rw [stepFun_lift h0, stepFun_lift h0, hgz] at this
        rw [top_le_iff.mp this] at h3
        exact absurd h3 (not_lt.mpr le_top)
  obtain ⟨b1, b2, b3⟩ := m3 hM
  rw [stepFun_lift h0, stepFun_lift h0] at b3
  exact ⟨iM, hiM, hM, b1, b2, b3⟩

end

end PyMarket
