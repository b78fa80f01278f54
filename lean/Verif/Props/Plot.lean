import Verif.Model.Plot
import Verif.Lemmas.Curves
import Verif.Lemmas.Sort
import Verif.Spec.Basic

/-! # C50: the drawn curves are the market's curves -/

set_option autoImplicit false

namespace PyMarket

/-- A line through the points `(xs[i], ys[i])` drawn with `where='post'` shows `y` strictly inside a
step around `z`: the step from `xs[i]` to `xs[i+1]` has the height `ys[i]`. -/
def Spec.OnStep (xs ys : List Ext) (z y : Ext) : Prop :=
  ∃ (i : ℕ) (a b : Ext), xs[i]? = some a ∧ xs[i + 1]? = some b ∧ ys[i]? = some y ∧ a < z ∧ z < b

/-- The total quantity of one side of the book. -/
def Spec.sideQty (df : DF) (side : Bool) : ℚ :=
  ((df.filter (fun r => r.buying == side)).map (fun r => r.quantity)).sum

/-- `p` is the largest price of the buying bids (`0` if there is none). -/
def Spec.TopPrice (df : DF) (p : ℚ) : Prop :=
  (∀ r ∈ df, r.buying = true → r.price ≤ p) ∧ 0 ≤ p ∧
    (p = 0 ∨ ∃ r ∈ df, r.buying = true ∧ r.price = p)

open Spec

/-- The points of a polyline. -/
def poly (a : ℚ) (rows : DF) (e X : Ext) : List Ext :=
  setLast ((a : Ext) :: (stepCurve a rows e).map Prod.fst) X

theorem poly_nil (a : ℚ) (e X : Ext) : poly a [] e X = [(a : Ext), X] := rfl

theorem stepCurve_ne_nil (a : ℚ) (rows : DF) (e : Ext) : stepCurve a rows e ≠ [] := by
  cases rows <;> simp [stepCurve]

theorem poly_cons (a : ℚ) (r : Row) (rows : DF) (e X : Ext) :
    poly a (r :: rows) e X = (a : Ext) :: poly (a + r.quantity) rows e X := by
  unfold poly setLast
  simp only [stepCurve, List.map_cons]
  rw [List.dropLast_cons_of_ne_nil (by simp), List.cons_append]

theorem poly_length (a : ℚ) (rows : DF) (e X : Ext) : (poly a rows e X).length = rows.length + 2 := by
  induction rows generalizing a with
  | nil => rfl
  | cons r rows ih => rw [poly_cons, List.length_cons, ih]; rfl

theorem onStep_poly {a : ℚ} {rows : DF} {e X : Ext} {tl : List Ext} {z y : Ext}
    (hq : ∀ r ∈ rows, 0 ≤ r.quantity)
    (h : OnStep (poly a rows e X) ((stepCurve a rows e).map Prod.snd ++ tl) z y) :
    (a : Ext) < z ∧ y = stepVal z a rows e := by
  induction rows generalizing a with
  | nil =>
    obtain ⟨i, u, v, h1, h2, h3, h4, h5⟩ := h
    rw [poly_nil] at h1 h2
    cases i with
    | zero =>
      simp only [List.getElem?_cons_zero, Option.some.injEq] at h1
      simp only [stepCurve, List.map_cons, List.map_nil, List.cons_append,
        List.getElem?_cons_zero, Option.some.injEq] at h3
      exact ⟨by rw [h1]; exact h4, h3.symm⟩
    | succ i => simp at h2
  | cons r rows ih =>
    have hr := hq r List.mem_cons_self
    obtain ⟨i, u, v, h1, h2, h3, h4, h5⟩ := h
    rw [poly_cons] at h1 h2
    simp only [stepCurve, List.map_cons, List.cons_append] at h3
    cases i with
    | zero =>
      simp only [List.getElem?_cons_zero, Option.some.injEq] at h1 h3
      simp only [Nat.zero_add, List.getElem?_cons_succ] at h2
      have hv : v = ((a + r.quantity : ℚ) : Ext) := by
        cases rows with
        | nil => rw [poly_nil] at h2; simpa using h2.symm
        | cons r' rows => rw [poly_cons] at h2; simpa using h2.symm
      refine ⟨by rw [h1]; exact h4, ?_⟩
      simp only [stepVal]
      rw [if_pos (by rw [← hv]; exact h5.le), h3]
    | succ i =>
      simp only [List.getElem?_cons_succ] at h1 h2 h3
      obtain ⟨g1, g2⟩ := ih (fun r' hr' => hq r' (List.mem_cons_of_mem _ hr'))
        ⟨i, u, v, h1, h2, h3, h4, h5⟩
      refine ⟨lt_of_le_of_lt (WithTop.coe_le_coe.mpr (by linarith)) g1, ?_⟩
      simp only [stepVal]
      rw [if_neg (not_le.mpr g1)]
      exact g2

theorem poly_cover {a : ℚ} {rows : DF} {e X : Ext} {tl : List Ext} {z : Ext}
    (ha : (a : Ext) < z) (hz : z < X) (hn : z ∉ poly a rows e X) :
    ∃ y, OnStep (poly a rows e X) ((stepCurve a rows e).map Prod.snd ++ tl) z y := by
  induction rows generalizing a with
  | nil => exact ⟨e, 0, a, X, rfl, rfl, rfl, ha, hz⟩
  | cons r rows ih =>
    rw [poly_cons] at hn
    have hn' : z ∉ poly (a + r.quantity) rows e X := fun h => hn (List.mem_cons_of_mem _ h)
    have h0 : (poly (a + r.quantity) rows e X)[0]? = some ((a + r.quantity : ℚ) : Ext) := by
      cases rows with
      | nil => rfl
      | cons r' rows => rw [poly_cons]; rfl
    rcases lt_trichotomy z ((a + r.quantity : ℚ) : Ext) with h | h | h
    · refine ⟨r.price, 0, a, ((a + r.quantity : ℚ) : Ext), ?_, ?_, rfl, ha, h⟩
      · rw [poly_cons]; rfl
      · rw [poly_cons, Nat.zero_add, List.getElem?_cons_succ]; exact h0
    · exact absurd (List.mem_of_getElem? h0) (h ▸ hn')
    · obtain ⟨y, i, u, v, h1, h2, h3, h4, h5⟩ := ih h hn'
      refine ⟨y, i + 1, u, v, ?_, ?_, ?_, h4, h5⟩
      · rw [poly_cons, List.getElem?_cons_succ]; exact h1
      · rw [poly_cons, List.getElem?_cons_succ]; exact h2
      · simp only [stepCurve, List.map_cons, List.cons_append, List.getElem?_cons_succ]; exact h3

theorem stepCurve_setLast (a : ℚ) (rows : DF) (e m : Ext) :
    setLast ((stepCurve a rows e).map Prod.snd) m = (stepCurve a rows m).map Prod.snd := by
  induction rows generalizing a with
  | nil => rfl
  | cons r rows ih =>
    unfold setLast at ih ⊢
    simp only [stepCurve, List.map_cons]
    rw [List.dropLast_cons_of_ne_nil (by simp [stepCurve_ne_nil]), List.cons_append, ih]

theorem stepCurve_fst_congr (a : ℚ) (rows : DF) (e e' : Ext) :
    (stepCurve a rows e).map Prod.fst = (stepCurve a rows e').map Prod.fst := by
  induction rows generalizing a with
  | nil => rfl
  | cons r rows ih => simp only [stepCurve, List.map_cons, ih]

theorem stepVal_within {z : Ext} {a : ℚ} {rows : DF} (e e' : Ext)
    (h : z ≤ ((a + qsum rows : ℚ) : Ext)) (hne : (a : Ext) < z) :
    stepVal z a rows e = stepVal z a rows e' := by
  induction rows generalizing a with
  | nil =>
    rw [show a + qsum ([] : DF) = a by simp [qsum]] at h
    exact absurd hne (not_lt.mpr h)
  | cons r rows ih =>
    simp only [stepVal]
    split_ifs with hz
    · rfl
    · apply ih _ (not_le.mp hz)
      rwa [show a + r.quantity + qsum rows = a + qsum (r :: rows) by simp [qsum]; ring]

theorem stepVal_beyond {z : Ext} {a : ℚ} {rows : DF} (e : Ext) (hq : ∀ r ∈ rows, 0 ≤ r.quantity)
    (h : ((a + qsum rows : ℚ) : Ext) < z) : stepVal z a rows e = e := by
  induction rows generalizing a with
  | nil => rfl
  | cons r rows ih =>
    have hq' := fun r' hr' => hq r' (List.mem_cons_of_mem _ hr')
    have hs : 0 ≤ qsum rows := List.sum_nonneg (by
      intro q hq0
      obtain ⟨r', hr', rfl⟩ := List.mem_map.mp hq0
      exact hq' r' hr')
    have e1 : a + qsum (r :: rows) = a + r.quantity + qsum rows := by simp [qsum]; ring
    rw [e1] at h
    simp only [stepVal]
    rw [if_neg (not_le.mpr (lt_of_le_of_lt (WithTop.coe_le_coe.mpr (by linarith)) h))]
    exact ih hq' h

theorem secondLast_curve (a : ℚ) (rows : DF) (e : Ext) :
    secondLast ((a : Ext) :: (stepCurve a rows e).map Prod.fst) = ((a + qsum rows : ℚ) : Ext) := by
  induction rows generalizing a with
  | nil => simp [secondLast, stepCurve, qsum]
  | cons r rows ih =>
    have e1 : a + qsum (r :: rows) = a + r.quantity + qsum rows := by simp [qsum]; ring
    rw [e1, ← ih]
    unfold secondLast
    simp only [stepCurve, List.map_cons]
    rw [List.dropLast_cons_of_ne_nil (by simp)]
    have : ((((a + r.quantity : ℚ) : Ext)) :: (stepCurve (a + r.quantity) rows e).map Prod.fst).dropLast
        ≠ [] := by
      rw [List.dropLast_cons_of_ne_nil (by simp [stepCurve_ne_nil])]
      simp
    rw [List.getLast?_cons]
    cases hl : ((((a + r.quantity : ℚ) : Ext)) ::
        (stepCurve (a + r.quantity) rows e).map Prod.fst).dropLast.getLast? with
    | none => exact absurd (List.getLast?_eq_none_iff.mp hl) this
    | some v => rfl

theorem stepCurve_heights (a : ℚ) (rows : DF) (e : Ext) :
    (stepCurve a rows e).map Prod.snd = rows.map (fun r => (r.price : Ext)) ++ [e] := by
  induction rows generalizing a with
  | nil => rfl
  | cons r rows ih => simp only [stepCurve, List.map_cons, ih, List.cons_append]

theorem foldl_max_coe (l : List ℚ) (a : ℚ) :
    (l.map (fun x : ℚ => (x : Ext))).foldl max (a : Ext) = ((l.foldl max a : ℚ) : Ext) := by
  induction l generalizing a with
  | nil => rfl
  | cons x l ih =>
    simp only [List.map_cons, List.foldl_cons]
    rw [← ih, WithTop.coe_max]

theorem foldl_max_spec (l : List ℚ) (a : ℚ) :
    a ≤ l.foldl max a ∧ (∀ x ∈ l, x ≤ l.foldl max a) ∧ (l.foldl max a = a ∨ l.foldl max a ∈ l) := by
  induction l generalizing a with
  | nil => simp
  | cons x l ih =>
    obtain ⟨h1, h2, h3⟩ := ih (max a x)
    simp only [List.foldl_cons]
    refine ⟨le_trans (le_max_left _ _) h1, ?_, ?_⟩
    · intro y hy
      rcases List.mem_cons.mp hy with rfl | hy
      · exact le_trans (le_max_right _ _) h1
      · exact h2 y hy
    · rcases h3 with h | h
      · rcases max_choice a x with hm | hm
        · left; rw [h, hm]
        · right; rw [h, hm]; exact List.mem_cons_self
      · right; exact List.mem_cons_of_mem _ h

theorem qsum_sortDesc (S : Sorter) (df : DF) : qsum (sortDesc S (buys df)) = sideQty df true := by
  unfold qsum sideQty
  rw [((sortDesc_perm S (buys df)).map (fun r => r.quantity)).sum_eq]
  unfold buys
  congr 3
  funext r
  simp

theorem qsum_sortAsc (S : Sorter) (df : DF) : qsum (sortAsc S (sells df)) = sideQty df false := by
  unfold qsum sideQty
  rw [((sortAsc_perm S (sells df)).map (fun r => r.quantity)).sum_eq]
  unfold sells
  congr 3
  funext r
  simp

/-- The polylines in closed form. -/
theorem plotData_eq (S : Sorter) (df : DF) (marginX marginY : ℚ) :
    ∃ top : ℚ, TopPrice df top ∧
      plotData S df marginX marginY =
        ((poly 0 (sortDesc S (buys df)) ((0 : ℚ) : Ext)
            ((max (sideQty df true) (sideQty df false) * marginX : ℚ) : Ext),
          (stepCurve 0 (sortDesc S (buys df)) ((0 : ℚ) : Ext)).map Prod.snd ++ [((0 : ℚ) : Ext)]),
         (poly 0 (sortAsc S (sells df)) ((top * marginY : ℚ) : Ext)
            ((max (sideQty df true) (sideQty df false) * marginX : ℚ) : Ext),
          (stepCurve 0 (sortAsc S (sells df)) ((top * marginY : ℚ) : Ext)).map Prod.snd ++
            [((top * marginY : ℚ) : Ext)])) := by
  set prices := (sortDesc S (buys df)).map (fun r => r.price) ++ [(0 : ℚ), 0] with hprices
  obtain ⟨t1, t2, t3⟩ := foldl_max_spec prices 0
  have hmem : ∀ r, r ∈ sortDesc S (buys df) ↔ r ∈ df ∧ r.buying = true := by
    intro r
    rw [(sortDesc_perm S (buys df)).mem_iff]
    exact mem_buys
  have hy : ((stepCurve 0 (sortDesc S (buys df)) ((0 : ℚ) : Ext)).map Prod.snd ++
      [((0 : ℚ) : Ext)]) = prices.map (fun x : ℚ => (x : Ext)) := by
    rw [stepCurve_heights, hprices, List.map_append, List.map_map, List.append_assoc]
    rfl
  refine ⟨prices.foldl max 0, ⟨?_, t1, ?_⟩, ?_⟩
  · intro r hr hb
    apply t2
    rw [hprices]
    exact List.mem_append_left _ (List.mem_map.mpr ⟨r, (hmem r).mpr ⟨hr, hb⟩, rfl⟩)
  · rcases t3 with h | h
    · exact Or.inl h
    · rw [hprices] at h
      rcases List.mem_append.mp h with h | h
      · obtain ⟨r, hr, he⟩ := List.mem_map.mp h
        exact Or.inr ⟨r, ((hmem r).mp hr).1, ((hmem r).mp hr).2, he⟩
      · left
        rcases List.mem_cons.mp h with h | h
        · exact h
        · exact List.mem_singleton.mp h
  · have hmax : (max (secondLast (((0 : ℚ) : Ext) :: (demandCurve S df).1.map Prod.fst))
        (secondLast (((0 : ℚ) : Ext) :: (supplyCurve S df).1.map Prod.fst))) =
        ((max (sideQty df true) (sideQty df false) : ℚ) : Ext) := by
      rw [demandCurve_eq, supplyCurve_eq, secondLast_curve, secondLast_curve, zero_add, zero_add,
        qsum_sortDesc, qsum_sortAsc, WithTop.coe_max]
    unfold plotData
    simp only [hmax]
    rw [demandCurve_eq, supplyCurve_eq, hy, foldl_max_coe, stepCurve_setLast,
      stepCurve_fst_congr 0 _ ⊤ ((prices.foldl max 0 * marginY : ℚ) : Ext)]
    rfl

/-- **C50.** The points handed to the step plot by `plot_demand_curves`, read with `where='post'`.
Every quantity between 0 and `margin_X` times the larger of the two totals that is not a breakpoint
is inside a step of the demand line and inside one of the supply line. The demand line shows
`get_value_stepwise` of the demand curve there. So does the supply line up to the total supply, from
where on the supply curve is infinite and the line is drawn at `margin_Y` times the highest buying
price. -/
theorem C50_drawn (S : Sorter) (df : DF) (h : NonNeg df) (marginX marginY : ℚ) :
    ∃ (xd yd xs ys : List Ext) (top : ℚ),
      plotData S df marginX marginY = ((xd, yd), (xs, ys)) ∧
      xd.length = yd.length ∧ xs.length = ys.length ∧ TopPrice df top ∧
      (∀ z y, OnStep xd yd z y → getValueStepwise z (demandCurve S df).1 = some y) ∧
      (∀ z y, OnStep xs ys z y →
        (z ≤ (sideQty df false : Ext) → getValueStepwise z (supplyCurve S df).1 = some y) ∧
        ((sideQty df false : Ext) < z → getValueStepwise z (supplyCurve S df).1 = some ⊤ ∧
          y = ((top * marginY : ℚ) : Ext))) ∧
      ∀ z : Ext, ((0 : ℚ) : Ext) < z →
        z < ((max (sideQty df true) (sideQty df false) * marginX : ℚ) : Ext) →
        (z ∉ xd → ∃ y, OnStep xd yd z y) ∧ (z ∉ xs → ∃ y, OnStep xs ys z y) := by
  obtain ⟨top, htop, he⟩ := plotData_eq S df marginX marginY
  have hqb : ∀ r ∈ sortDesc S (buys df), 0 ≤ r.quantity := by
    intro r hr
    exact (h r (mem_buys.mp ((sortDesc_perm S (buys df)).mem_iff.mp hr)).1).1
  have hqs : ∀ r ∈ sortAsc S (sells df), 0 ≤ r.quantity := by
    intro r hr
    exact (h r (mem_sells.mp ((sortAsc_perm S (sells df)).mem_iff.mp hr)).1).1
  refine ⟨_, _, _, _, top, he, ?_, ?_, htop, ?_, ?_, ?_⟩
  · rw [poly_length, List.length_append, List.length_map, stepCurve_length]; rfl
  · rw [poly_length, List.length_append, List.length_map, stepCurve_length]; rfl
  · intro z y hs
    obtain ⟨h1, h2⟩ := onStep_poly hqb hs
    rw [demandCurve_eq, getValue_stepCurve h1.le, h2]
  · intro z y hs
    obtain ⟨h1, h2⟩ := onStep_poly hqs hs
    rw [supplyCurve_eq, getValue_stepCurve h1.le]
    have hz : ((0 + qsum (sortAsc S (sells df)) : ℚ) : Ext) = (sideQty df false : Ext) := by
      rw [zero_add, qsum_sortAsc]
    constructor
    · intro hle
      rw [h2, stepVal_within ⊤ ((top * marginY : ℚ) : Ext) (by rw [hz]; exact hle) h1]
    · intro hlt
      rw [h2, stepVal_beyond ⊤ hqs (by rw [hz]; exact hlt),
        stepVal_beyond ((top * marginY : ℚ) : Ext) hqs (by rw [hz]; exact hlt)]
      exact ⟨rfl, rfl⟩
  · intro z h0 hX
    exact ⟨fun hn => poly_cover h0 hX hn, fun hn => poly_cover h0 hX hn⟩

/-- Two buyers and two sellers. -/
def plotBook : DF := labelFrom 0
  [⟨1, 3, 0, true, 0, true⟩, ⟨2, 5, 1, true, 0, true⟩, ⟨4, 1, 2, false, 0, true⟩,
   ⟨1, 2, 3, false, 0, true⟩]

example : NonNeg plotBook ∧ plotData stableSorter plotBook (6/5) (6/5) =
    (([((0 : ℚ) : Ext), ((2 : ℚ) : Ext), ((3 : ℚ) : Ext), ((6 : ℚ) : Ext)],
      [((5 : ℚ) : Ext), ((3 : ℚ) : Ext), ((0 : ℚ) : Ext), ((0 : ℚ) : Ext)]),
     ([((0 : ℚ) : Ext), ((4 : ℚ) : Ext), ((5 : ℚ) : Ext), ((6 : ℚ) : Ext)],
      [((1 : ℚ) : Ext), ((2 : ℚ) : Ext), ((6 : ℚ) : Ext), ((6 : ℚ) : Ext)])) := by
  decide +kernel

end PyMarket
