import Verif.Lemmas.Unlimited
import Verif.Lemmas.Erase
import Verif.Props.Curves

/-! # Books with unlimited bids -/

set_option autoImplicit false

namespace PyMarket

open Spec

/-- The row with the quantity of the column. -/
def fillRow (qty : ℕ → Ext) (Q : ℚ) (r : Row) : Row := { r with quantity := (qty r.label).untopD Q }

section

variable (S : Sorter) (qty : ℕ → Ext) (Q : ℚ)

theorem withQty_eq (df : DF) : withQty qty Q df = df.map (fillRow qty Q) := rfl

theorem buys_fill (df : DF) : buys (withQty qty Q df) = (buys df).map (fillRow qty Q) := by
  unfold buys
  rw [withQty_eq, List.filter_map]
  rfl

theorem sells_fill (df : DF) : sells (withQty qty Q df) = (sells df).map (fillRow qty Q) := by
  unfold sells
  rw [withQty_eq, List.filter_map]
  rfl

theorem prices_fill (df : DF) : (df.map (fillRow qty Q)).map (fun r => r.price) = df.map (fun r => r.price) := by
  rw [List.map_map]
  rfl

theorem sortDesc_fill (df : DF) : sortDesc S (df.map (fillRow qty Q)) = (sortDesc S df).map (fillRow qty Q) := by
  unfold sortDesc
  rw [takeIdx_map, prices_fill]

theorem sortAsc_fill (df : DF) : sortAsc S (df.map (fillRow qty Q)) = (sortAsc S df).map (fillRow qty Q) := by
  unfold sortAsc
  rw [takeIdx_map, prices_fill]

theorem qtys_fill (df : DF) : (df.map (fillRow qty Q)).map (fun r => r.quantity) =
    (df.map (fun r => qty r.label)).map (fun e => e.untopD Q) := by
  rw [List.map_map, List.map_map]
  rfl

end

section

variable {S : Sorter} {qty : ℕ → Ext} {Q : ℚ} {df : DF}

/-- The rows of one side. -/
theorem side_nonneg {rows : DF} (h : NonNegU qty df) (hs : ∀ r ∈ rows, r ∈ df) :
    ∀ e ∈ rows.map (fun r => qty r.label), ((0 : ℚ) : Ext) ≤ e := by
  intro e he
  obtain ⟨r, hr, rfl⟩ := List.mem_map.mp he
  exact (h r (hs r hr)).1

theorem untop_nonneg {e : Ext} (h : ((0 : ℚ) : Ext) ≤ e) : 0 ≤ e.untopD 0 := by
  induction e using WithTop.recTopCoe with
  | top => exact le_refl _
  | coe q => exact WithTop.coe_le_coe.mp h

theorem side_total {rows : DF} (h : NonNegU qty df) (p : Row → Bool) (hs : rows.Perm (df.filter p)) :
    ((rows.map (fun r => qty r.label)).map (fun e => e.untopD 0)).sum ≤ limitedTotal qty df := by
  rw [List.map_map, ((hs.map _).sum_eq)]
  unfold limitedTotal
  clear hs
  induction df with
  | nil => exact le_refl _
  | cons r df ih =>
    have h0 := untop_nonneg (h r List.mem_cons_self).1
    have := ih (fun r' h' => h r' (List.mem_cons_of_mem _ h'))
    rw [List.filter_cons]
    split
    · rw [List.map_cons, List.sum_cons, List.map_cons, List.sum_cons]
      simp only [Function.comp] at this ⊢
      linarith
    · rw [List.map_cons, List.sum_cons]
      linarith

theorem limitedTotal_nonneg (h : NonNegU qty df) : 0 ≤ limitedTotal qty df := by
  apply List.sum_nonneg
  intro x hx
  obtain ⟨r, hr, rfl⟩ := List.mem_map.mp hx
  exact untop_nonneg (h r hr).1

theorem withQty_nonNeg (h : NonNegU qty df) (hQ : 0 ≤ Q) : NonNeg (withQty qty Q df) := by
  intro r hr
  obtain ⟨r', hr', rfl⟩ := List.mem_map.mp hr
  refine ⟨?_, (h r' hr').2⟩
  show 0 ≤ (qty r'.label).untopD Q
  have := (h r' hr').1
  generalize qty r'.label = e at this
  induction e using WithTop.recTopCoe with
  | top => exact hQ
  | coe q => exact WithTop.coe_le_coe.mp this

theorem buyRows_mem {r : Row} (h : r ∈ sortDesc S (buys df)) : r ∈ df ∧ r.buying = true :=
  mem_buys.mp (mem_sortDesc.mp h)

theorem sellRows_mem {r : Row} (h : r ∈ sortAsc S (sells df)) : r ∈ df ∧ r.buying = false :=
  mem_sells.mp (mem_sortAsc.mp h)

theorem demandCurve_same (h : NonNegU qty df) (hQ : limitedTotal qty df < Q) :
    SameCurve (limitedTotal qty df) Q (demandCurveU S df qty) (demandCurve S (withQty qty Q df)).1 := by
  have hQ0 : 0 ≤ Q := le_trans (limitedTotal_nonneg h) hQ.le
  unfold demandCurveU demandCurve
  simp only
  rw [buys_fill, sortDesc_fill, qtys_fill, prices_fill]
  have e : (sortDesc S (buys df)).map (fun r => (r.price : Ext)) =
      ((sortDesc S (buys df)).map (fun r => r.price)).map (fun (p : ℚ) => (p : Ext)) := by rw [List.map_map]; rfl
  rw [e]
  refine sameCurve_append (sameCurve_zip _ (cumsum_sameUpTo hQ0
    (side_nonneg h (fun r hr => (buyRows_mem hr).1)) (le_refl 0) ?_)) _
  rw [zero_add]
  exact side_total h (fun r => r.buying) (sortDesc_perm S _)

theorem supplyCurve_same (h : NonNegU qty df) (hQ : limitedTotal qty df < Q) :
    SameCurve (limitedTotal qty df) Q (supplyCurveU S df qty) (supplyCurve S (withQty qty Q df)).1 := by
  have hQ0 : 0 ≤ Q := le_trans (limitedTotal_nonneg h) hQ.le
  unfold supplyCurveU supplyCurve
  simp only
  rw [sells_fill, sortAsc_fill, qtys_fill, prices_fill]
  have e : (sortAsc S (sells df)).map (fun r => (r.price : Ext)) =
      ((sortAsc S (sells df)).map (fun r => r.price)).map (fun (p : ℚ) => (p : Ext)) := by rw [List.map_map]; rfl
  rw [e]
  refine sameCurve_append (sameCurve_zip _ (cumsum_sameUpTo hQ0
    (side_nonneg h (fun r hr => (sellRows_mem hr).1)) (le_refl 0) ?_)) _
  rw [zero_add]
  exact side_total h (fun r => !r.buying) (sortAsc_perm S _)

theorem cumsumFrom_sorted : ∀ {l : List ℚ} {a : ℚ}, (∀ x ∈ l, 0 ≤ x) →
    (cumsumFrom a l).Pairwise (fun x y => x ≤ y) ∧ ∀ c ∈ cumsumFrom a l, a ≤ c
  | [], a, _ => ⟨List.Pairwise.nil, fun c h => by cases h⟩
  | x :: l, a, h => by
    have hx := h x List.mem_cons_self
    obtain ⟨h1, h2⟩ := cumsumFrom_sorted (l := l) (a := a + x) (fun y hy => h y (List.mem_cons_of_mem _ hy))
    refine ⟨List.pairwise_cons.mpr ⟨h2, h1⟩, ?_⟩
    intro c hc
    rcases List.mem_cons.mp hc with rfl | hc
    · linarith
    · exact le_trans (by linarith) (h2 c hc)

theorem zip_pairwise {α β : Type*} {P : α → α → Prop} : ∀ {l : List α} (m : List β), l.Pairwise P →
    (List.zip l m).Pairwise (fun s t => P s.1 t.1)
  | [], _, _ => by simp
  | _ :: _, [], _ => by simp
  | a :: l, b :: m, h => by
    rw [List.pairwise_cons] at h
    rw [List.zip_cons_cons, List.pairwise_cons]
    exact ⟨fun s hs => h.1 s.1 (List.of_mem_zip (a := s.1) (b := s.2) hs).1, zip_pairwise m h.2⟩

/-- Every curve of a book is a step function. -/
theorem curve_isStep {l ps : List ℚ} (h : ∀ x ∈ l, 0 ≤ x) (y : Ext) :
    IsStep ((List.zip (cumsumFrom 0 l) ps).map (fun p => ((p.1 : Ext), (p.2 : Ext))) ++ [((⊤ : Ext), y)]) where
  ne := by simp
  sorted := by
    rw [List.pairwise_append]
    refine ⟨?_, by simp, ?_⟩
    · rw [List.pairwise_map]
      exact (zip_pairwise _ (cumsumFrom_sorted h).1).imp (fun h => WithTop.coe_le_coe.mpr h)
    · intro a _ b hb
      rw [List.mem_singleton.mp hb]
      exact le_top
  nonneg := by
    intro s hs
    rcases List.mem_append.mp hs with hs | hs
    · obtain ⟨p, hp, rfl⟩ := List.mem_map.mp hs
      exact WithTop.coe_le_coe.mpr ((cumsumFrom_sorted h).2 _ (List.of_mem_zip (a := p.1) (b := p.2) hp).1)
    · rw [List.mem_singleton.mp hs]
      exact le_top

/-- The value beyond all limited quantities: the price of an unlimited bid, or the end of the curve. -/
theorem lookup_top (y : Ext) : ∀ {rows : DF} {a : ℚ} {v : Ext},
    stepLookup ⊤ (List.zip (extCumsumFrom (a : Ext) (rows.map (fun r => qty r.label)))
      (rows.map (fun r => (r.price : Ext))) ++ [((⊤ : Ext), y)]) = some v →
    v = y ∨ ∃ r ∈ rows, qty r.label = ⊤ ∧ v = (r.price : Ext)
  | [], a, v, h => by
    simp [stepLookup] at h
    exact Or.inl h.symm
  | r :: rows, a, v, h => by
    rw [List.map_cons, List.map_cons] at h
    unfold extCumsumFrom at h
    rw [List.zip_cons_cons, List.cons_append] at h
    unfold stepLookup at h
    cases hq : qty r.label using WithTop.recTopCoe with
    | top =>
      rw [hq, add_top, if_pos le_top] at h
      exact Or.inr ⟨r, List.mem_cons_self, hq, (Option.some.inj h).symm⟩
    | coe q =>
      rw [hq] at h
      have e : (a : Ext) + (q : Ext) = ((a + q : ℚ) : Ext) := rfl
      rw [e, if_neg (not_le.mpr (WithTop.coe_lt_top _))] at h
      rcases lookup_top y h with h1 | ⟨r', h1, h2⟩
      · exact Or.inl h1
      · exact Or.inr ⟨r', List.mem_cons_of_mem _ h1, h2⟩

theorem limits_le (h : NonNegU qty df) (hn : NoUnlimitedTrade qty df) :
    stepFun (demandCurveU S df qty) ⊤ ≤ stepFun (supplyCurveU S df qty) ⊤ := by
  have tl : ∀ {f : Curve} {y : Ext}, ∃ v, stepLookup ⊤ (f ++ [((⊤ : Ext), y)]) = some v := by
    intro f y
    cases hv : stepLookup ⊤ (f ++ [((⊤ : Ext), y)]) with
    | none =>
      rw [stepLookup_none] at hv
      exact absurd (hv _ (List.mem_append_right _ (List.mem_singleton.mpr rfl))) (lt_irrefl _)
    | some v => exact ⟨v, rfl⟩
  obtain ⟨v, hv⟩ : ∃ v, stepLookup ⊤ (demandCurveU S df qty) = some v := tl
  obtain ⟨w, hw⟩ : ∃ v, stepLookup ⊤ (supplyCurveU S df qty) = some v := tl
  unfold stepFun
  rw [hv, hw]
  show v ≤ w
  have p0 : ∀ r ∈ df, ((0 : ℚ) : Ext) ≤ (r.price : Ext) := fun r hr => WithTop.coe_le_coe.mpr (h r hr).2
  rcases lookup_top _ hw with rfl | ⟨r', h1', h2', rfl⟩
  · exact le_top
  · obtain ⟨m', b'⟩ := sellRows_mem h1'
    rcases lookup_top _ hv with rfl | ⟨r, h1, h2, rfl⟩
    · exact p0 r' m'
    · obtain ⟨m, b⟩ := buyRows_mem h1
      exact WithTop.coe_le_coe.mpr (hn r m r' m' b b' h2 h2')

theorem argmaxTrue_before {l : List Bool} {j : ℕ} (h : j < argmaxTrue l) : l[j]? ≠ some true := by
  unfold argmaxTrue at h
  intro hj
  cases hf : l.findIdx? id with
  | none =>
    rw [List.findIdx?_eq_none_iff] at hf
    exact absurd (hf true (List.mem_of_getElem? hj)) (by decide)
  | some k =>
    rw [hf] at h
    rw [List.findIdx?_eq_some_iff_getElem] at hf
    obtain ⟨hk, _, h3⟩ := hf
    have h4 := h3 j h
    obtain ⟨hjl, hje⟩ := List.getElem?_eq_some_iff.mp hj
    rw [hje] at h4
    exact h4 rfl

theorem extCumsum_top : ∀ {l : List Ext} {a : Ext} {j : ℕ}, l[j]? = some ⊤ → (extCumsumFrom a l)[j]? = some ⊤
  | [], _, _, h => by simp at h
  | e :: l, a, 0, h => by
    obtain rfl : e = ⊤ := by simpa using h
    show some (a + ⊤) = some ⊤
    rw [add_top]
  | e :: l, a, j + 1, h => by
    show (extCumsumFrom (a + e) l)[j]? = some ⊤
    exact extCumsum_top (by simpa using h)

theorem extCumsum_length : ∀ {l : List Ext} {a : Ext}, (extCumsumFrom a l).length = l.length
  | [], _ => rfl
  | e :: l, a => by
    show (extCumsumFrom (a + e) l).length + 1 = l.length + 1
    rw [extCumsum_length]

/-- The bids in front of the crossing are limited. -/
theorem front_limited {rows : DF} {y x : Ext} :
    ∀ e ∈ (rows.take (argmaxTrue ((List.zip (extCumsumFrom ((0 : ℚ) : Ext) (rows.map (fun r => qty r.label)))
      (rows.map (fun r => (r.price : Ext))) ++ [((⊤ : Ext), y)]).map (fun s => decide (x ≤ s.1))))).map
        (fun r => qty r.label), e ≠ ⊤ := by
  intro e he htop
  subst htop
  obtain ⟨r, hr, hq⟩ := List.mem_map.mp he
  obtain ⟨j, hj, hjr⟩ := List.getElem_of_mem hr
  rw [List.length_take] at hj
  rw [List.getElem_take] at hjr
  have hjl : j < rows.length := lt_of_lt_of_le hj (min_le_right _ _)
  refine argmaxTrue_before (lt_of_lt_of_le hj (min_le_left _ _)) ?_
  have h1 : (rows.map (fun r => qty r.label))[j]? = some ⊤ := by
    rw [List.getElem?_map, List.getElem?_eq_getElem hjl, hjr, Option.map_some, hq]
  have h2 := extCumsum_top (a := ((0 : ℚ) : Ext)) h1
  rw [List.getElem?_map, List.getElem?_append_left (by
    rw [List.length_zip, extCumsum_length, List.length_map, List.length_map, min_self]; exact hjl),
    (List.getElem?_zip_eq_some (z := (⊤, (r.price : Ext)))).mpr ⟨h2, by
      rw [List.getElem?_map, List.getElem?_eq_getElem hjl, hjr]; rfl⟩]
  simp

theorem finiteColumn_ok (Q : ℚ) : ∀ {l : List Ext}, (∀ e ∈ l, e ≠ ⊤) →
    finiteColumn l = .ok (l.map (fun e => e.untopD Q))
  | [], _ => rfl
  | e :: l, h => by
    induction e using WithTop.recTopCoe with
    | top => exact absurd rfl (h ⊤ List.mem_cons_self)
    | coe q =>
      show (finiteColumn l).map _ = _
      rw [finiteColumn_ok Q (fun e' h' => h e' (List.mem_cons_of_mem _ h'))]
      rfl

/-- `intersect_same` for the curves of a book. -/
theorem book_intersect (h : NonNegU qty df) (hn : NoUnlimitedTrade qty df) (hQ : limitedTotal qty df < Q) :
    (∃ x iU, intersectStepwise (demandCurveU S df qty) (supplyCurveU S df qty) = .ok iU ∧
      intersectStepwise (demandCurve S (withQty qty Q df)).1 (supplyCurve S (withQty qty Q df)).1 = .ok iU ∧
      iU.x = some x ∧ x ≤ (limitedTotal qty df : Ext) ∧
      iU.f = some (argmaxTrue ((demandCurveU S df qty).map (fun s => decide (x ≤ s.1)))) ∧
      iU.g = some (argmaxTrue ((supplyCurveU S df qty).map (fun s => decide (x ≤ s.1)))) ∧
      CrossesAt (demandCurveU S df qty) (supplyCurveU S df qty) ⊤ x) ∨
    (∃ iU iQ, intersectStepwise (demandCurveU S df qty) (supplyCurveU S df qty) = .ok iU ∧
      intersectStepwise (demandCurve S (withQty qty Q df)).1 (supplyCurve S (withQty qty Q df)).1 = .ok iQ ∧
      iU.x = none ∧ iQ.x = none ∧ iU.f = none ∧ iU.g = none ∧ iQ.f = none ∧ iQ.g = none) := by
  have hq := withQty_nonNeg h (le_trans (limitedTotal_nonneg h) hQ.le)
  have tl : ∀ {f : Curve} {y : Ext}, ∃ s ∈ f ++ [((⊤ : Ext), y)], s.1 = ⊤ := fun {f y} =>
    ⟨_, List.mem_append_right _ (List.mem_singleton.mpr rfl), rfl⟩
  refine intersect_same hQ (demandCurve_same h hQ) (supplyCurve_same h hQ) tl tl tl tl ?_ ?_ ?_ ?_ (limits_le h hn) _
  · exact curve_isStep (by
      intro x hx
      obtain ⟨r, hr, rfl⟩ := List.mem_map.mp hx
      exact (hq r (buyRows_mem hr).1).1) _
  · exact curve_isStep (by
      intro x hx
      obtain ⟨r, hr, rfl⟩ := List.mem_map.mp hx
      exact (hq r (sellRows_mem hr).1).1) _
  · have := C05_demand_nonincreasing S (withQty qty Q df) (fun r hr => (hq r hr).2)
    rwa [List.pairwise_map] at this
  · have := C06_supply_nondecreasing S (withQty qty Q df)
    rwa [List.pairwise_map] at this

/-- The value beyond all limited quantities, on the other side. -/
theorem lookup_top_rel {R : ℚ → ℚ → Prop} (hR : ∀ a, R a a) (y : Ext) : ∀ {rows : DF} {a : ℚ} {r : Row},
    rows.Pairwise (fun s t => R s.price t.price) → r ∈ rows → qty r.label = ⊤ →
    ∃ p : ℚ, stepLookup ⊤ (List.zip (extCumsumFrom (a : Ext) (rows.map (fun r => qty r.label)))
      (rows.map (fun r => (r.price : Ext))) ++ [((⊤ : Ext), y)]) = some (p : Ext) ∧ R p r.price
  | [], a, r, _, h, _ => by cases h
  | r0 :: rows, a, r, hp, h, ht => by
    rw [List.pairwise_cons] at hp
    rw [List.map_cons, List.map_cons]
    unfold extCumsumFrom
    rw [List.zip_cons_cons, List.cons_append]
    unfold stepLookup
    cases hq : qty r0.label using WithTop.recTopCoe with
    | top =>
      rw [add_top, if_pos le_top]
      refine ⟨r0.price, rfl, ?_⟩
      rcases List.mem_cons.mp h with rfl | h
      · exact hR _
      · exact hp.1 r h
    | coe q =>
      have e : (a : Ext) + (q : Ext) = ((a + q : ℚ) : Ext) := rfl
      rw [e, if_neg (not_le.mpr (WithTop.coe_lt_top _))]
      rcases List.mem_cons.mp h with rfl | h
      · rw [hq] at ht
        cases ht
      · exact lookup_top_rel hR y hp.2 h ht

/-- The lookups of a curve whose first step reaching `x` is unlimited. -/
theorem stepFun_top_of_first {f : Curve} {x : Ext}
    (h : ∀ s, f[argmaxTrue (f.map (fun s => decide (x ≤ s.1)))]? = some s → s.1 = ⊤) (ht : ∃ s ∈ f, s.1 = ⊤) :
    stepFun f ⊤ = stepFun f x := by
  induction f with
  | nil => rfl
  | cons s f ih =>
    unfold stepFun
    unfold stepLookup
    by_cases hx : x ≤ s.1
    · have : s.1 = ⊤ := by
        apply h s
        have : argmaxTrue ((s :: f).map (fun s => decide (x ≤ s.1))) = 0 := by
          unfold argmaxTrue
          rw [List.map_cons, List.findIdx?_cons]
          simp [hx]
        rw [this]
        rfl
      rw [if_pos hx, if_pos (le_of_eq this.symm)]
    · have hst : ¬ (⊤ : Ext) ≤ s.1 := fun h' => hx (le_trans le_top h')
      rw [if_neg hx, if_neg hst]
      have ht' : ∃ s ∈ f, s.1 = ⊤ := by
        obtain ⟨t, ht, h1⟩ := ht
        rcases List.mem_cons.mp ht with rfl | ht
        · exact absurd (le_of_eq h1.symm) hst
        · exact ⟨t, ht, h1⟩
      refine ih (fun t htt => h t ?_) ht'
      have : argmaxTrue ((s :: f).map (fun s => decide (x ≤ s.1))) =
          argmaxTrue (f.map (fun s => decide (x ≤ s.1))) + 1 := by
        unfold argmaxTrue
        rw [List.map_cons, List.findIdx?_cons]
        simp only [id, decide_eq_false hx, Bool.false_eq_true, if_false]
        cases hf : (f.map (fun s => decide (x ≤ s.1))).findIdx? id with
        | some k => rfl
        | none =>
          rw [List.findIdx?_eq_none_iff] at hf
          obtain ⟨t, ht, h1⟩ := ht'
          have := hf _ (List.mem_map.mpr ⟨t, ht, rfl⟩)
          rw [h1] at this
          simp at this
      rw [this]
      exact htt

/-- Rows before the crossing and the marginal one: only the last may be unlimited. -/
theorem marginal_limited {rows : DF} {y x : Ext} :
    (rows.take (argmaxTrue ((List.zip (extCumsumFrom ((0 : ℚ) : Ext) (rows.map (fun r => qty r.label)))
      (rows.map (fun r => (r.price : Ext))) ++ [((⊤ : Ext), y)]).map (fun s => decide (x ≤ s.1))) + 1)).Pairwise
        (fun r _ => qty r.label ≠ ⊤) := by
  rw [List.pairwise_iff_getElem]
  intro i j hi hj hij
  refine front_limited (rows := rows) (y := y) (x := x) _ (List.mem_map.mpr ⟨_, ?_, rfl⟩)
  rw [List.getElem_take]
  rw [List.length_take] at hj
  refine List.mem_iff_getElem.mpr ⟨i, ?_, ?_⟩
  · rw [List.length_take]
    omega
  · rw [List.getElem_take]

theorem sum_sameUpTo {B Q : ℚ} (hQ : 0 ≤ Q) : ∀ {l : List Ext}, (∀ e ∈ l, ((0 : ℚ) : Ext) ≤ e) →
    (l.map (fun e => e.untopD 0)).sum ≤ B → SameUpTo B Q l.sum ((l.map (fun e => e.untopD Q)).sum : ℚ)
  | [], _, hB => Or.inl ⟨rfl, WithTop.coe_le_coe.mpr hB⟩
  | e :: l, h, hB => by
    have hl : ∀ e' ∈ l, ((0 : ℚ) : Ext) ≤ e' := fun e' h' => h e' (List.mem_cons_of_mem _ h')
    have he := h e List.mem_cons_self
    have h0 := untop_nonneg he
    have hlB : (l.map (fun e => e.untopD 0)).sum ≤ B := by
      rw [List.map_cons, List.sum_cons] at hB
      linarith
    have hsQ : 0 ≤ (l.map (fun e => e.untopD Q)).sum := by
      apply List.sum_nonneg
      intro x hx
      obtain ⟨e', he', rfl⟩ := List.mem_map.mp hx
      have := hl e' he'
      induction e' using WithTop.recTopCoe with
      | top => exact hQ
      | coe q => exact WithTop.coe_le_coe.mp this
    rw [List.sum_cons, List.map_cons, List.sum_cons]
    induction e using WithTop.recTopCoe with
    | top =>
      rw [top_add]
      refine Or.inr ⟨rfl, WithTop.coe_le_coe.mpr ?_⟩
      show Q ≤ Q + _
      linarith
    | coe q =>
      have hq : 0 ≤ q := WithTop.coe_le_coe.mp he
      have hqq : ((q : Ext)).untopD Q = q := rfl
      rw [hqq]
      rcases sum_sameUpTo hQ hl hlB with ⟨h1, h2⟩ | ⟨h1, h2⟩
      · rw [h1]
        left
        refine ⟨rfl, ?_⟩
        have e3 : (l.map (fun e => e.untopD 0)).sum = (l.map (fun e => e.untopD Q)).sum := by
          have hfin : ∀ e ∈ l, e ≠ ⊤ := by
            intro e he ht
            subst ht
            obtain ⟨s, t, rfl⟩ := List.append_of_mem he
            rw [List.sum_append, List.sum_cons, top_add, add_top] at h1
            cases h1
          congr 1
          apply List.map_congr_left
          intro e he
          have := hfin e he
          induction e using WithTop.recTopCoe with
          | top => exact absurd rfl this
          | coe q => rfl
        rw [List.map_cons, List.sum_cons, e3] at hB
        exact WithTop.coe_le_coe.mpr hB
      · rw [h1, add_top]
        refine Or.inr ⟨rfl, ?_⟩
        have := WithTop.coe_le_coe.mp h2
        exact WithTop.coe_le_coe.mpr (by linarith)

theorem sum_top {l : List Ext} (h : l.sum = ⊤) : ∃ e ∈ l, e = ⊤ := by
  induction l with
  | nil => cases h
  | cons e l ih =>
    rw [List.sum_cons] at h
    rcases WithTop.add_eq_top.mp h with h | h
    · exact ⟨e, List.mem_cons_self, h⟩
    · obtain ⟨e', h1, h2⟩ := ih h
      exact ⟨e', List.mem_cons_of_mem _ h1, h2⟩

theorem sum_limited {l : List Ext} (h : l.sum ≠ ⊤) : ∀ e ∈ l, e ≠ ⊤ := by
  intro e he ht
  subst ht
  obtain ⟨s, t, rfl⟩ := List.append_of_mem he
  rw [List.sum_append, List.sum_cons, top_add, add_top] at h
  exact h rfl

/-- When the bids up to the marginal one have an unlimited total, the curve is flat beyond the crossing. -/
theorem flat_of_top {rows : DF} {y x : Ext}
    (h : ((rows.take (argmaxTrue ((List.zip (extCumsumFrom ((0 : ℚ) : Ext) (rows.map (fun r => qty r.label)))
      (rows.map (fun r => (r.price : Ext))) ++ [((⊤ : Ext), y)]).map (fun s => decide (x ≤ s.1))) + 1)).map
        (fun r => qty r.label)).sum = ⊤) :
    stepFun (List.zip (extCumsumFrom ((0 : ℚ) : Ext) (rows.map (fun r => qty r.label)))
      (rows.map (fun r => (r.price : Ext))) ++ [((⊤ : Ext), y)]) ⊤ =
    stepFun (List.zip (extCumsumFrom ((0 : ℚ) : Ext) (rows.map (fun r => qty r.label)))
      (rows.map (fun r => (r.price : Ext))) ++ [((⊤ : Ext), y)]) x := by
  apply stepFun_top_of_first
  · intro s hs
    obtain ⟨e, he, rfl⟩ := sum_top h
    obtain ⟨r, hr, hq⟩ := List.mem_map.mp he
    obtain ⟨j, hj, hjr⟩ := List.getElem_of_mem hr
    rw [List.length_take] at hj
    rw [List.getElem_take] at hjr
    have hjl : j < rows.length := lt_of_lt_of_le hj (min_le_right _ _)
    have hjb : j = argmaxTrue ((List.zip (extCumsumFrom ((0 : ℚ) : Ext) (rows.map (fun r => qty r.label)))
        (rows.map (fun r => (r.price : Ext))) ++ [((⊤ : Ext), y)]).map (fun s => decide (x ≤ s.1))) := by
      by_contra hne
      refine front_limited (qty := qty) (rows := rows) (y := y) (x := x) ⊤ (List.mem_map.mpr ⟨r, ?_, hq⟩) rfl
      rw [← hjr]
      refine List.mem_iff_getElem.mpr ⟨j, ?_, ?_⟩
      · rw [List.length_take]
        omega
      · rw [List.getElem_take]
    rw [← hjb] at hs
    have h1 : (rows.map (fun r => qty r.label))[j]? = some ⊤ := by
      rw [List.getElem?_map, List.getElem?_eq_getElem hjl, hjr, Option.map_some, hq]
    have h2 := extCumsum_top (a := ((0 : ℚ) : Ext)) h1
    rw [List.getElem?_append_left (by
      rw [List.length_zip, extCumsum_length, List.length_map, List.length_map, min_self]; exact hjl),
      (List.getElem?_zip_eq_some (z := (⊤, (r.price : Ext)))).mpr ⟨h2, by
        rw [List.getElem?_map, List.getElem?_eq_getElem hjl, hjr]; rfl⟩] at hs
    rw [← Option.some.inj hs]
  · exact ⟨_, List.mem_append_right _ (List.mem_singleton.mpr rfl), rfl⟩

theorem huangSideTrans_fill (rows : DF) (qs : List ℚ) (p : ℚ) :
    huangSideTrans (rows.map (fillRow qty Q)) qs p = huangSideTrans rows qs p := by
  unfold huangSideTrans
  rw [List.zip_map_left, List.map_map]
  rfl

theorem uniformShortU_eq {rows : DF} (price : ℚ) (h : ∀ e ∈ rows.map (fun r => qty r.label), e ≠ ⊤) :
    uniformShortU price qty rows = (uniformShort price (rows.map (fillRow qty Q))).map ofTransaction := by
  unfold uniformShortU uniformShort
  rw [List.map_map, List.map_map]
  apply List.map_congr_left
  intro r hr
  have := h _ (List.mem_map.mpr ⟨r, hr, rfl⟩)
  show _ = ofTransaction ⟨r.label, (qty r.label).untopD Q, price, -1, false⟩
  unfold ofTransaction
  generalize qty r.label = e at this
  induction e using WithTop.recTopCoe with
  | top => exact absurd rfl this
  | coe q => rfl

theorem uniformLongU_eq (price : ℚ) {t : ℚ} (hQ : t < Q) : ∀ {rows : DF} {a : ℚ}, 0 ≤ a →
    (∀ e ∈ rows.map (fun r => qty r.label), ((0 : ℚ) : Ext) ≤ e) →
    rows.Pairwise (fun r _ => qty r.label ≠ ⊤) →
    uniformLongU price qty (t : Ext) (a : Ext) rows =
      (uniformLong price t a (rows.map (fillRow qty Q))).map ofTransaction
  | [], a, _, _, _ => rfl
  | r :: rows, a, ha, h, hp => by
    rw [List.pairwise_cons] at hp
    unfold uniformLongU
    rw [List.map_cons]
    unfold uniformLong
    rw [List.map_cons]
    have hr := h _ (List.mem_map.mpr ⟨r, List.mem_cons_self, rfl⟩)
    cases hq : qty r.label using WithTop.recTopCoe with
    | top =>
      have : rows = [] := by
        cases rows with
        | nil => rfl
        | cons r' rows => exact absurd hq (hp.1 r' List.mem_cons_self)
      subst this
      have e1 : (fillRow qty Q r).quantity = Q := by
        show (qty r.label).untopD Q = Q
        rw [hq]
        rfl
      rw [e1, top_add, if_neg (not_le.mpr (WithTop.coe_lt_top _)), if_neg (by linarith)]
      show [_] = [_]
      unfold ofTransaction
      rw [sub_eq_add_neg]
      rfl
    | coe q =>
      have e1 : (fillRow qty Q r).quantity = q := by
        show (qty r.label).untopD Q = q
        rw [hq]
        rfl
      rw [hq] at hr
      have hq0 : 0 ≤ q := WithTop.coe_le_coe.mp hr
      have ih := uniformLongU_eq price hQ (rows := rows) (a := a + q) (by linarith)
        (fun e he => h e (by rw [List.map_cons]; exact List.mem_cons_of_mem _ he)) hp.2
      have e2 : (a : Ext) + (q : Ext) = ((a + q : ℚ) : Ext) := rfl
      rw [e2, ih, e1]
      congr 1
      unfold ofTransaction
      have e3 : (q : Ext) + (a : Ext) = ((q + a : ℚ) : Ext) := rfl
      rw [e3]
      simp only [WithTop.coe_le_coe]
      split
      · rfl
      · rw [sub_eq_add_neg]
        rfl

end

end PyMarket
