import Verif.Spec.Unlimited
import Verif.Props.StepFunctions

/-! # Curves with unlimited bids -/

set_option autoImplicit false

namespace PyMarket

open Spec

/-! ## Running totals -/

/-- A running total with unlimited bids and the same with `Q` instead: equal and at most `B`, or unlimited and at
least `Q`. -/
def SameUpTo (B Q : ℚ) (e c : Ext) : Prop := (e = c ∧ e ≤ (B : Ext)) ∨ (e = ⊤ ∧ (Q : Ext) ≤ c)

theorem cumsum_top {Q : ℚ} : ∀ {l : List Ext} {c : ℚ}, (∀ e ∈ l, ((0 : ℚ) : Ext) ≤ e) → 0 ≤ Q → Q ≤ c →
    List.Forall₂ (fun e (c : ℚ) => e = (⊤ : Ext) ∧ Q ≤ c) (extCumsumFrom ⊤ l)
      (cumsumFrom c (l.map (fun e => e.untopD Q)))
  | [], _, _, _, _ => List.Forall₂.nil
  | e :: l, c, h, h0, hc => by
    have he : 0 ≤ e.untopD Q := by
      have := h e List.mem_cons_self
      induction e using WithTop.recTopCoe with
      | top => exact h0
      | coe q => exact WithTop.coe_le_coe.mp this
    show List.Forall₂ _ ((⊤ + e) :: extCumsumFrom (⊤ + e) l) _
    rw [top_add]
    exact List.Forall₂.cons ⟨rfl, by linarith⟩ (cumsum_top (fun e' h' => h e' (List.mem_cons_of_mem _ h')) h0
      (by linarith))

theorem cumsum_sameUpTo {B Q : ℚ} (hQ : 0 ≤ Q) : ∀ {l : List Ext} {a : ℚ}, (∀ e ∈ l, ((0 : ℚ) : Ext) ≤ e) →
    0 ≤ a → a + (l.map (fun e => e.untopD 0)).sum ≤ B →
    List.Forall₂ (fun e (c : ℚ) => SameUpTo B Q e (c : Ext)) (extCumsumFrom (a : Ext) l)
      (cumsumFrom a (l.map (fun e => e.untopD Q)))
  | [], _, _, _, _ => List.Forall₂.nil
  | e :: l, a, h, h0, hB => by
    have hl : ∀ e' ∈ l, ((0 : ℚ) : Ext) ≤ e' := fun e' h' => h e' (List.mem_cons_of_mem _ h')
    have hs : 0 ≤ (l.map (fun e => e.untopD 0)).sum := by
      apply List.sum_nonneg
      intro x hx
      obtain ⟨e', he', rfl⟩ := List.mem_map.mp hx
      have := hl e' he'
      induction e' using WithTop.recTopCoe with
      | top => exact le_refl _
      | coe q => exact WithTop.coe_le_coe.mp this
    induction e using WithTop.recTopCoe with
    | top =>
      show List.Forall₂ _ (((a : Ext) + ⊤) :: extCumsumFrom ((a : Ext) + ⊤) l) _
      rw [add_top]
      refine List.Forall₂.cons (Or.inr ⟨rfl, ?_⟩) ((cumsum_top hl hQ ?_).imp ?_)
      · show (Q : Ext) ≤ ((a + Q : ℚ) : Ext)
        exact WithTop.coe_le_coe.mpr (by linarith)
      · show Q ≤ a + Q
        linarith
      · exact fun e' c' hh => Or.inr ⟨hh.1, WithTop.coe_le_coe.mpr hh.2⟩
    | coe q =>
      have hq : 0 ≤ q := WithTop.coe_le_coe.mp (h _ List.mem_cons_self)
      have hB' : a + q + (l.map (fun e => e.untopD 0)).sum ≤ B := by
        have : (List.map (fun e : Ext => e.untopD 0) ((q : Ext) :: l)).sum =
          q + (l.map (fun e => e.untopD 0)).sum := rfl
        rw [this] at hB
        linarith
      refine List.Forall₂.cons (Or.inl ⟨rfl, ?_⟩) (cumsum_sameUpTo hQ hl (by linarith) hB')
      show ((a + q : ℚ) : Ext) ≤ (B : Ext)
      exact WithTop.coe_le_coe.mpr (by linarith)

/-! ## Curves -/

/-- Two curves with the same prices whose ends agree up to `B`. -/
def SameCurve (B Q : ℚ) (f g : Curve) : Prop := List.Forall₂ (fun s t => SameUpTo B Q s.1 t.1 ∧ s.2 = t.2) f g

theorem sameCurve_zip {B Q : ℚ} : ∀ {es : List Ext} {cs : List ℚ} (ps : List ℚ),
    List.Forall₂ (fun e (c : ℚ) => SameUpTo B Q e (c : Ext)) es cs →
    SameCurve B Q (List.zip es (ps.map (fun (p : ℚ) => (p : Ext))))
      ((List.zip cs ps).map (fun p => ((p.1 : Ext), (p.2 : Ext))))
  | _, _, _, .nil => List.Forall₂.nil
  | _, _, [], .cons _ _ => List.Forall₂.nil
  | _, _, _ :: ps, .cons h hs => List.Forall₂.cons ⟨h, rfl⟩ (sameCurve_zip ps hs)

theorem sameCurve_append {B Q : ℚ} {f g : Curve} (h : SameCurve B Q f g) (y : Ext) :
    SameCurve B Q (f ++ [(⊤, y)]) (g ++ [(⊤, y)]) :=
  List.rel_append h (List.Forall₂.cons ⟨Or.inr ⟨rfl, le_top⟩, rfl⟩ List.Forall₂.nil)

section

variable {B Q : ℚ} {f g : Curve}

theorem SameUpTo.le_iff {e c x : Ext} (hBQ : B < Q) (h : SameUpTo B Q e c) (hx : x ≤ (B : Ext)) : x ≤ e ↔ x ≤ c := by
  rcases h with ⟨rfl, _⟩ | ⟨rfl, h2⟩
  · exact Iff.rfl
  · exact ⟨fun _ => hx.trans ((WithTop.coe_le_coe.mpr hBQ.le).trans h2), fun _ => le_top⟩

theorem SameUpTo.eq_iff {e c x : Ext} (hBQ : B < Q) (h : SameUpTo B Q e c) (hx : x ≤ (B : Ext)) : e = x ↔ c = x := by
  rcases h with ⟨rfl, _⟩ | ⟨rfl, h2⟩
  · exact Iff.rfl
  · constructor
    · rintro rfl
      exact absurd hx (by simp)
    · rintro rfl
      exact absurd (WithTop.coe_le_coe.mp (h2.trans hx)) (not_le.mpr hBQ)

theorem SameCurve.lookup_small (hBQ : B < Q) (h : SameCurve B Q f g) {x : Ext} (hx : x ≤ (B : Ext)) :
    stepLookup x f = stepLookup x g := by
  unfold SameCurve at h
  induction h with
  | nil => rfl
  | @cons s t _ _ hst _ ih =>
    unfold stepLookup
    rw [ih]
    by_cases hs : x ≤ s.1
    · rw [if_pos hs, if_pos ((hst.1.le_iff hBQ hx).mp hs), hst.2]
    · rw [if_neg hs, if_neg (fun h' => hs ((hst.1.le_iff hBQ hx).mpr h'))]

/-- Beyond `B` the curve with unlimited bids is constant. -/
theorem SameCurve.lookup_big (h : SameCurve B Q f g) {z : Ext} (hz : (B : Ext) < z) :
    stepLookup z f = stepLookup ⊤ f := by
  unfold SameCurve at h
  induction h with
  | nil => rfl
  | cons hst _ ih =>
    unfold stepLookup
    rw [ih]
    rcases hst.1 with ⟨_, h2⟩ | ⟨h1, _⟩
    · rw [if_neg (not_le.mpr (lt_of_le_of_lt h2 hz)),
        if_neg (not_le.mpr (lt_of_le_of_lt h2 (WithTop.coe_lt_top B)))]
    · rw [h1, if_pos le_top, if_pos le_top]

/-- Between `B` and `Q` the other one has the same value. -/
theorem SameCurve.lookup_mid (h : SameCurve B Q f g) {z : Ext} (hz : (B : Ext) < z) (hzQ : z ≤ (Q : Ext)) :
    stepLookup z g = stepLookup ⊤ f := by
  unfold SameCurve at h
  induction h with
  | nil => rfl
  | cons hst _ ih =>
    unfold stepLookup
    rw [ih]
    rcases hst.1 with ⟨h1, h2⟩ | ⟨h1, h2⟩
    · rw [← h1, if_neg (not_le.mpr (lt_of_le_of_lt h2 hz)),
        if_neg (not_le.mpr (lt_of_le_of_lt h2 (WithTop.coe_lt_top B)))]
    · rw [h1, if_pos (hzQ.trans h2), if_pos le_top, hst.2]

theorem SameCurve.snd (h : SameCurve B Q f g) : f.map Prod.snd = g.map Prod.snd := by
  unfold SameCurve at h
  induction h with
  | nil => rfl
  | cons hst _ ih => rw [List.map_cons, List.map_cons, hst.2, ih]

theorem SameCurve.masks (hBQ : B < Q) (h : SameCurve B Q f g) {x : Ext} (hx : x ≤ (B : Ext)) :
    f.map (fun s => decide (x ≤ s.1)) = g.map (fun s => decide (x ≤ s.1)) := by
  unfold SameCurve at h
  induction h with
  | nil => rfl
  | cons hst _ ih => rw [List.map_cons, List.map_cons, ih, decide_eq_decide.mpr (hst.1.le_iff hBQ hx)]

theorem SameCurve.ends (hBQ : B < Q) (h : SameCurve B Q f g) {x : Ext} (hx : x ≤ (B : Ext)) :
    x ∈ f.map Prod.fst ↔ x ∈ g.map Prod.fst := by
  unfold SameCurve at h
  induction h with
  | nil => exact Iff.rfl
  | cons hst _ ih =>
    rw [List.map_cons, List.map_cons, List.mem_cons, List.mem_cons, ih, eq_comm, hst.1.eq_iff hBQ hx, eq_comm]

theorem forall₂_mem {α β : Type*} {R : α → β → Prop} {l : List α} {m : List β} (h : List.Forall₂ R l m) {a : α}
    (ha : a ∈ l) : ∃ b ∈ m, R a b := by
  induction h with
  | nil => cases ha
  | cons hab _ ih =>
    rcases List.mem_cons.mp ha with rfl | ha
    · exact ⟨_, List.mem_cons_self, hab⟩
    · obtain ⟨b, hb, hR⟩ := ih ha
      exact ⟨b, List.mem_cons_of_mem _ hb, hR⟩

theorem forall₂_pairwise {α β : Type*} {R : α → β → Prop} {P : α → α → Prop} {P' : β → β → Prop} {l : List α}
    {m : List β} (h : List.Forall₂ R l m) (hP : ∀ a b a' b', R a b → R a' b' → P' b b' → P a a')
    (hm : m.Pairwise P') : l.Pairwise P := by
  induction h with
  | nil => exact List.Pairwise.nil
  | cons hab hrest ih =>
    rw [List.pairwise_cons] at hm ⊢
    refine ⟨fun a' ha' => ?_, ih hm.2⟩
    obtain ⟨b', hb', hR⟩ := forall₂_mem hrest ha'
    exact hP _ _ _ _ hab hR (hm.1 b' hb')

theorem SameUpTo.mono {e c e' c' : Ext} (hBQ : B < Q) (h : SameUpTo B Q e c) (h' : SameUpTo B Q e' c') (hc : c ≤ c') :
    e ≤ e' := by
  rcases h' with ⟨rfl, h2'⟩ | ⟨rfl, _⟩
  · rcases h with ⟨rfl, _⟩ | ⟨rfl, h2⟩
    · exact hc
    · exact absurd (WithTop.coe_le_coe.mp ((h2.trans hc).trans h2')) (not_le.mpr hBQ)
  · exact le_top

theorem SameUpTo.nonneg {e c : Ext} (h : SameUpTo B Q e c) (hc : ((0 : ℚ) : Ext) ≤ c) : ((0 : ℚ) : Ext) ≤ e := by
  rcases h with ⟨rfl, _⟩ | ⟨rfl, _⟩
  · exact hc
  · exact le_top

theorem SameCurve.isStep (hBQ : B < Q) (h : SameCurve B Q f g) (hg : IsStep g) : IsStep f where
  ne := by
    rintro rfl
    cases h
    exact hg.ne rfl
  sorted := forall₂_pairwise h (fun a b a' b' h1 h2 h3 => h1.1.mono hBQ h2.1 h3) hg.sorted
  nonneg := fun s hs => by
    obtain ⟨t, ht, hst⟩ := forall₂_mem h hs
    exact hst.1.nonneg (hg.nonneg t ht)

theorem SameCurve.snd_pairwise {R : Ext → Ext → Prop} (h : SameCurve B Q f g) (hg : g.Pairwise (fun s t => R s.2 t.2)) :
    f.Pairwise (fun s t => R s.2 t.2) :=
  forall₂_pairwise h (fun a b a' b' h1 h2 h3 => by rw [h1.2, h2.2]; exact h3) hg

/-- The value of a curve that reaches infinity. -/
theorem valueAt_stepFun {f : Curve} (ht : ∃ s ∈ f, s.1 = ⊤) {x v : Ext} :
    ValueAt f x v ↔ ((0 : ℚ) : Ext) ≤ x ∧ v = stepFun f x := by
  obtain ⟨s, hs, hst⟩ := ht
  constructor
  · intro h
    refine ⟨h.1, ?_⟩
    have h1 := valueAt_iff.mp h
    rw [getValue_stepFun h.1 ⟨s, hs, by rw [hst]; exact le_top⟩] at h1
    exact (Option.some.inj h1).symm
  · rintro ⟨h0, rfl⟩
    exact valueAt_iff.mpr (getValue_stepFun h0 ⟨s, hs, by rw [hst]; exact le_top⟩)

/-- Crossings of curves that reach infinity. -/
theorem crossesAt_top {f g : Curve} (hf : ∃ s ∈ f, s.1 = ⊤) (hg : ∃ s ∈ g, s.1 = ⊤) {x : Ext} :
    CrossesAt f g ⊤ x ↔ x < ⊤ ∧ ((0 : ℚ) : Ext) ≤ x ∧ stepFun g x < stepFun f x ∧
      ∀ z, x < z → stepFun f z < stepFun g z := by
  unfold CrossesAt
  simp only [valueAt_stepFun hf, valueAt_stepFun hg]
  constructor
  · rintro ⟨h1, ⟨a, b, ⟨h0, rfl⟩, ⟨_, rfl⟩, h2⟩, h3⟩
    refine ⟨h1, h0, h2, fun z hz => ?_⟩
    obtain ⟨a, b, ⟨_, rfl⟩, ⟨_, rfl⟩, h4⟩ := h3 z hz le_top
    exact h4
  · rintro ⟨h1, h0, h2, h3⟩
    exact ⟨h1, ⟨_, _, ⟨h0, rfl⟩, ⟨h0, rfl⟩, h2⟩, fun z hz _ =>
      ⟨_, _, ⟨h0.trans hz.le, rfl⟩, ⟨h0.trans hz.le, rfl⟩, h3 z hz⟩⟩

end

section

variable {B Q : ℚ} {fU fQ gU gQ : Curve}

/-- Curves with unlimited bids cross where those with `Q` cross, unless unlimited bids would trade with each
other. -/
theorem crosses_same (hBQ : B < Q) (hf : SameCurve B Q fU fQ) (hg : SameCurve B Q gU gQ)
    (tfU : ∃ s ∈ fU, s.1 = ⊤) (tfQ : ∃ s ∈ fQ, s.1 = ⊤) (tgU : ∃ s ∈ gU, s.1 = ⊤) (tgQ : ∃ s ∈ gQ, s.1 = ⊤)
    (hdec : fQ.Pairwise (fun s t => t.2 ≤ s.2)) (hinc : gQ.Pairwise (fun s t => s.2 ≤ t.2))
    (hL : stepFun fU ⊤ ≤ stepFun gU ⊤) (x : Ext) :
    (CrossesAt fU gU ⊤ x ↔ CrossesAt fQ gQ ⊤ x) ∧ (CrossesAt fU gU ⊤ x → x ≤ (B : Ext)) := by
  have sm : ∀ y, y ≤ (B : Ext) → stepFun fU y = stepFun fQ y ∧ stepFun gU y = stepFun gQ y := by
    intro y hy
    unfold stepFun
    rw [hf.lookup_small hBQ hy, hg.lookup_small hBQ hy]
    exact ⟨rfl, rfl⟩
  have big : ∀ z, (B : Ext) < z → stepFun fU z = stepFun fU ⊤ ∧ stepFun gU z = stepFun gU ⊤ := by
    intro z hz
    unfold stepFun
    rw [hf.lookup_big hz, hg.lookup_big hz]
    exact ⟨rfl, rfl⟩
  have mid : ∀ z, (B : Ext) < z → z ≤ (Q : Ext) → stepFun fQ z = stepFun fU ⊤ ∧ stepFun gQ z = stepFun gU ⊤ := by
    intro z hz hzQ
    unfold stepFun
    rw [hf.lookup_mid hz hzQ, hg.lookup_mid hz hzQ]
    exact ⟨rfl, rfl⟩
  have hBQ' : (B : Ext) < (Q : Ext) := WithTop.coe_lt_coe.mpr hBQ
  have far : ∀ z, (B : Ext) < z → stepFun fQ z ≤ stepFun fU ⊤ ∧ stepFun gU ⊤ ≤ stepFun gQ z := by
    intro z hz
    rcases le_total z (Q : Ext) with h | h
    · exact ⟨(mid z hz h).1.le, (mid z hz h).2.ge⟩
    · rw [← (mid _ hBQ' le_rfl).1, ← (mid _ hBQ' le_rfl).2]
      obtain ⟨s, hs, hst⟩ := tfQ
      obtain ⟨s', hs', hst'⟩ := tgQ
      exact ⟨stepFun_rel (R := fun a b => b ≤ a) (fun a => le_refl a) hdec h ⟨s, hs, by rw [hst]; exact le_top⟩,
        stepFun_rel (R := fun a b => a ≤ b) (fun a => le_refl a) hinc h ⟨s', hs', by rw [hst']; exact le_top⟩⟩
  rw [crossesAt_top tfU tgU, crossesAt_top tfQ tgQ]
  have hle : stepFun gU x < stepFun fU x → x ≤ (B : Ext) := by
    intro h
    by_contra hx
    have := big x (not_le.mp hx)
    rw [this.1, this.2] at h
    exact absurd h (not_lt.mpr hL)
  refine ⟨⟨?_, ?_⟩, fun h => hle h.2.2.1⟩
  · rintro ⟨h1, h0, h2, h3⟩
    have hx := hle h2
    rw [(sm x hx).1, (sm x hx).2] at h2
    refine ⟨h1, h0, h2, fun z hz => ?_⟩
    rcases le_or_gt z (B : Ext) with h | h
    · have := h3 z hz
      rwa [(sm z h).1, (sm z h).2] at this
    · exact lt_of_le_of_lt (far z h).1 (lt_of_lt_of_le (h3 ⊤ h1) (far z h).2)
  · rintro ⟨h1, h0, h2, h3⟩
    have hx : x ≤ (B : Ext) := by
      by_contra hx
      have := far x (not_le.mp hx)
      exact absurd h2 (not_lt.mpr (this.1.trans (hL.trans this.2)))
    have h2' := h2
    rw [← (sm x hx).1, ← (sm x hx).2] at h2'
    refine ⟨h1, h0, h2', fun z hz => ?_⟩
    rcases le_or_gt z (B : Ext) with h | h
    · have := h3 z hz
      rwa [← (sm z h).1, ← (sm z h).2] at this
    · rw [(big z h).1, (big z h).2, ← (mid _ hBQ' le_rfl).1, ← (mid _ hBQ' le_rfl).2]
      exact h3 _ (lt_of_le_of_lt hx hBQ')

/-- What `intersect_stepwise` returns when there is a crossing. -/
theorem intersect_shape {f g : Curve} {k : ℚ} {i : Intersection} (h : intersectStepwise f g k = .ok i) {x : Ext}
    (hx : i.x = some x) :
    ∃ gRow fRow, g[argmaxTrue (g.map (fun s => decide (x ≤ s.1)))]? = some gRow ∧
      f[argmaxTrue (f.map (fun s => decide (x ≤ s.1)))]? = some fRow ∧
      i = ⟨some x, some (argmaxTrue (f.map (fun s => decide (x ≤ s.1)))),
        some (argmaxTrue (g.map (fun s => decide (x ≤ s.1)))),
        if !(decide (x ∈ f.map Prod.fst) && decide (x ∈ g.map Prod.fst)) then
          (if x ∈ f.map Prod.fst then Val.ofExt gRow.2 else Val.ofExt fRow.2) else kMix k gRow.2 fRow.2⟩ := by
  unfold intersectStepwise at h
  cases h1 : maxX f with
  | error e => rw [h1] at h; cases h
  | ok mf =>
  cases h2 : maxX g with
  | error e => rw [h1, h2] at h; cases h
  | ok mg =>
  cases h3 : crossLoop f g (gridXs f g (min mf mg)) none with
  | error e => rw [h1, h2] at h; simp only [bind, Except.bind, h3] at h; cases h
  | ok xa =>
  rw [h1, h2] at h
  simp only [bind, Except.bind, h3] at h
  cases xa with
  | none =>
    exfalso
    simp only at h
    split at h
    · cases h
    · split at h
      · cases h
        cases hx
      · cases h
  | some y =>
    simp only at h
    split at h
    · rename_i gRow fRow hg hf
      cases h
      obtain rfl := Option.some.inj hx
      exact ⟨gRow, fRow, hg, hf, rfl⟩
    · cases h

/-- The two intersections agree. -/
theorem intersect_same (hBQ : B < Q) (hf : SameCurve B Q fU fQ) (hg : SameCurve B Q gU gQ)
    (tfU : ∃ s ∈ fU, s.1 = ⊤) (tfQ : ∃ s ∈ fQ, s.1 = ⊤) (tgU : ∃ s ∈ gU, s.1 = ⊤) (tgQ : ∃ s ∈ gQ, s.1 = ⊤)
    (sf : IsStep fQ) (sg : IsStep gQ)
    (hdec : fQ.Pairwise (fun s t => t.2 ≤ s.2)) (hinc : gQ.Pairwise (fun s t => s.2 ≤ t.2))
    (hL : stepFun fU ⊤ ≤ stepFun gU ⊤) (k : ℚ) :
    (∃ x iU, intersectStepwise fU gU k = .ok iU ∧ intersectStepwise fQ gQ k = .ok iU ∧ iU.x = some x ∧
      x ≤ (B : Ext) ∧ iU.f = some (argmaxTrue (fU.map (fun s => decide (x ≤ s.1)))) ∧
      iU.g = some (argmaxTrue (gU.map (fun s => decide (x ≤ s.1)))) ∧ CrossesAt fU gU ⊤ x) ∨
    (∃ iU iQ, intersectStepwise fU gU k = .ok iU ∧ intersectStepwise fQ gQ k = .ok iQ ∧
      iU.x = none ∧ iQ.x = none ∧ iU.f = none ∧ iU.g = none ∧ iQ.f = none ∧ iQ.g = none) := by
  have hend : ∀ {f g : Curve}, (∃ s ∈ f, s.1 = ⊤) → (∃ s ∈ g, s.1 = ⊤) → DomainEnd f g ⊤ := by
    rintro f g ⟨s, hs, h1⟩ ⟨t, ht, h2⟩
    exact ⟨⊤, ⊤, ⟨⟨s, hs, h1⟩, fun _ _ => le_top⟩, ⟨⟨t, ht, h2⟩, fun _ _ => le_top⟩, (min_self _).symm⟩
  have hc := crosses_same hBQ hf hg tfU tfQ tgU tgQ hdec hinc hL
  obtain ⟨iU, eU, xU, _, nU⟩ := C74_contract fU gU (hf.isStep hBQ sf) (hg.isStep hBQ sg)
    (hf.snd_pairwise (R := fun a b => b ≤ a) hdec) (hg.snd_pairwise (R := fun a b => a ≤ b) hinc) k ⊤ (hend tfU tgU)
  obtain ⟨iQ, eQ, xQ, _, nQ⟩ := C74_contract fQ gQ sf sg hdec hinc k ⊤ (hend tfQ tgQ)
  cases hx : iU.x with
  | none =>
    right
    have hxQ : iQ.x = none := by
      cases hq : iQ.x with
      | none => rfl
      | some x =>
        have := (xU x).mpr ((hc x).1.mpr ((xQ x).mp hq))
        rw [hx] at this
        cases this
    exact ⟨iU, iQ, eU, eQ, hx, hxQ, (nU hx).1, (nU hx).2.1, (nQ hxQ).1, (nQ hxQ).2.1⟩
  | some x =>
    left
    have hcU := (xU x).mp hx
    have hxB := (hc x).2 hcU
    have hxQ := (xQ x).mpr ((hc x).1.mp hcU)
    obtain ⟨gr, fr, g1, g2, g3⟩ := intersect_shape eU hx
    obtain ⟨gr', fr', g1', g2', g3'⟩ := intersect_shape eQ hxQ
    have m1 := hf.masks hBQ hxB
    have m2 := hg.masks hBQ hxB
    have row : ∀ {f g : Curve} {j : ℕ} {r r' : Ext × Ext}, SameCurve B Q f g → f[j]? = some r → g[j]? = some r' →
        r.2 = r'.2 := by
      intro f g j r r' h h1 h2
      have := congrArg (fun l => l[j]?) h.snd
      simp only [List.getElem?_map, h1, h2, Option.map_some] at this
      exact Option.some.inj this
    rw [← m1] at g2' g3'
    rw [← m2] at g1' g3'
    have e1 := row hg g1 g1'
    have e2 := row hf g2 g2'
    have he : iU = iQ := by
      rw [g3, g3', ← e1, ← e2]
      simp only [hf.ends hBQ hxB, hg.ends hBQ hxB]
    refine ⟨x, iU, eU, by rw [eQ, he], hx, hxB, by rw [g3], by rw [g3], hcU⟩

end

end PyMarket
