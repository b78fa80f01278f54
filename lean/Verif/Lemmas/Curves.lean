import Verif.Model.Curves
import Verif.Lemmas.Sort
import Verif.Lemmas.Table
import Verif.Spec.Basic
import Mathlib.Data.List.Dedup
import Mathlib.Tactic.Linarith
import Mathlib.Algebra.Order.Monoid.Unbundled.WithTop
import Mathlib.Algebra.BigOperators.Group.List.Basic
import Mathlib.Algebra.Order.BigOperators.Group.List

/-! # Lemmas about demand/supply curves and their intersection -/

set_option autoImplicit false

namespace PyMarket

open Spec

/-! ## Step curves built from sorted rows -/

/-- The curve of rows in the given order, starting at abscissa `a`, with last ordinate `e`. -/
def stepCurve (a : ℚ) : DF → Ext → Curve
  | [], e => [((⊤ : Ext), e)]
  | r :: rows, e => (((a + r.quantity : ℚ) : Ext), ((r.price : ℚ) : Ext)) ::
      stepCurve (a + r.quantity) rows e

/-- The value of that curve as a function. -/
def stepVal (x : Ext) (a : ℚ) : DF → Ext → Ext
  | [], e => e
  | r :: rows, e => if x ≤ ((a + r.quantity : ℚ) : Ext) then ((r.price : ℚ) : Ext)
      else stepVal x (a + r.quantity) rows e

/-- Index of the first row whose breakpoint reaches `x`. -/
def stepIdx (x : Ext) (a : ℚ) : DF → ℕ
  | [] => 0
  | r :: rows => if x ≤ ((a + r.quantity : ℚ) : Ext) then 0
      else stepIdx x (a + r.quantity) rows + 1

theorem zip_cumsum_eq (a : ℚ) (rows : DF) (e : Ext) :
    (List.zip (cumsumFrom a (rows.map (fun r => r.quantity))) (rows.map (fun r => r.price))).map
      (fun p => ((p.1 : Ext), (p.2 : Ext))) ++ [((⊤ : Ext), e)] = stepCurve a rows e := by
  induction rows generalizing a with
  | nil => rfl
  | cons r rows ih =>
    simp only [List.map_cons, cumsumFrom, List.zip_cons_cons, List.cons_append, stepCurve]
    rw [ih]

theorem demandCurve_eq (S : Sorter) (df : DF) :
    (demandCurve S df).1 = stepCurve 0 (sortDesc S (buys df)) ((0 : ℚ) : Ext) :=
  zip_cumsum_eq 0 _ _

theorem supplyCurve_eq (S : Sorter) (df : DF) :
    (supplyCurve S df).1 = stepCurve 0 (sortAsc S (sells df)) ⊤ :=
  zip_cumsum_eq 0 _ _

theorem stepLookup_stepCurve (x : Ext) (a : ℚ) (rows : DF) (e : Ext) :
    stepLookup x (stepCurve a rows e) = some (stepVal x a rows e) := by
  induction rows generalizing a with
  | nil => simp [stepCurve, stepLookup, stepVal]
  | cons r rows ih =>
    simp only [stepCurve, stepLookup, stepVal]
    split_ifs
    · rfl
    · exact ih _

theorem getValue_stepCurve {x : Ext} (hx : ((0 : ℚ) : Ext) ≤ x) (a : ℚ) (rows : DF) (e : Ext) :
    getValueStepwise x (stepCurve a rows e) = some (stepVal x a rows e) := by
  unfold getValueStepwise
  rw [if_neg (not_lt.mpr hx)]
  exact stepLookup_stepCurve x a rows e

theorem stepCurve_length (a : ℚ) (rows : DF) (e : Ext) :
    (stepCurve a rows e).length = rows.length + 1 := by
  induction rows generalizing a with
  | nil => rfl
  | cons r rows ih => simp [stepCurve, ih]

theorem stepIdx_le (x : Ext) (a : ℚ) (rows : DF) : stepIdx x a rows ≤ rows.length := by
  induction rows generalizing a with
  | nil => simp [stepIdx]
  | cons r rows ih =>
    simp only [stepIdx]
    split_ifs
    · simp
    · have := ih (a + r.quantity); simp; omega

theorem findIdx?_stepCurve (x : Ext) (a : ℚ) (rows : DF) (e : Ext) :
    ((stepCurve a rows e).map (fun s => decide (x ≤ s.1))).findIdx? id =
      some (stepIdx x a rows) := by
  induction rows generalizing a with
  | nil => simp [stepCurve, stepIdx]
  | cons r rows ih =>
    simp only [stepCurve, stepIdx, List.map_cons, List.findIdx?_cons]
    by_cases h : x ≤ ((a + r.quantity : ℚ) : Ext)
    · simp [h, -WithTop.coe_add]
    · rw [ih]; simp [h, -WithTop.coe_add]

theorem argmax_stepCurve (x : Ext) (a : ℚ) (rows : DF) (e : Ext) :
    argmaxTrue ((stepCurve a rows e).map (fun s => decide (x ≤ s.1))) = stepIdx x a rows := by
  unfold argmaxTrue
  rw [findIdx?_stepCurve]; rfl

theorem stepCurve_get_idx (x : Ext) (a : ℚ) (rows : DF) (e : Ext) :
    ∃ bp, x ≤ bp ∧ (stepCurve a rows e)[stepIdx x a rows]? = some (bp, stepVal x a rows e) := by
  induction rows generalizing a with
  | nil => exact ⟨⊤, le_top, rfl⟩
  | cons r rows ih =>
    simp only [stepCurve, stepIdx, stepVal]
    by_cases h : x ≤ ((a + r.quantity : ℚ) : Ext)
    · simp only [h, if_true, List.getElem?_cons_zero]
      exact ⟨_, h, rfl⟩
    · simp only [h, if_false, List.getElem?_cons_succ]
      exact ih _

theorem stepVal_mem (x : Ext) (a : ℚ) (rows : DF) (e : Ext) :
    stepVal x a rows e = e ∨ ∃ r ∈ rows, stepVal x a rows e = ((r.price : ℚ) : Ext) := by
  induction rows generalizing a with
  | nil => left; rfl
  | cons r rows ih =>
    simp only [stepVal]
    split_ifs
    · right; exact ⟨r, List.mem_cons_self, rfl⟩
    · rcases ih (a + r.quantity) with h | ⟨r', hr', h⟩
      · left; exact h
      · right; exact ⟨r', List.mem_cons_of_mem _ hr', h⟩

theorem stepVal_antitone {rows : DF} {e : Ext}
    (hs : rows.Pairwise (fun a b => b.price ≤ a.price)) (he : ∀ r ∈ rows, e ≤ ((r.price : ℚ) : Ext))
    (a : ℚ) {x y : Ext} (hxy : x ≤ y) : stepVal y a rows e ≤ stepVal x a rows e := by
  induction rows generalizing a with
  | nil => simp [stepVal]
  | cons r rows ih =>
    rw [List.pairwise_cons] at hs
    simp only [stepVal]
    by_cases hy : y ≤ ((a + r.quantity : ℚ) : Ext)
    · simp [hy, le_trans hxy hy, -WithTop.coe_add]
    · by_cases hx : x ≤ ((a + r.quantity : ℚ) : Ext)
      · simp only [hy, hx, if_true, if_false]
        rcases stepVal_mem y (a + r.quantity) rows e with h | ⟨r', hr', h⟩
        · rw [h]; exact he r List.mem_cons_self
        · rw [h]; exact WithTop.coe_le_coe.mpr (hs.1 r' hr')
      · simp only [hy, hx, if_false]
        exact ih hs.2 (fun r' hr' => he r' (List.mem_cons_of_mem _ hr')) _

theorem stepVal_monotone {rows : DF} {e : Ext}
    (hs : rows.Pairwise (fun a b => a.price ≤ b.price)) (he : ∀ r ∈ rows, ((r.price : ℚ) : Ext) ≤ e)
    (a : ℚ) {x y : Ext} (hxy : x ≤ y) : stepVal x a rows e ≤ stepVal y a rows e := by
  induction rows generalizing a with
  | nil => simp [stepVal]
  | cons r rows ih =>
    rw [List.pairwise_cons] at hs
    simp only [stepVal]
    by_cases hy : y ≤ ((a + r.quantity : ℚ) : Ext)
    · simp [hy, le_trans hxy hy, -WithTop.coe_add]
    · by_cases hx : x ≤ ((a + r.quantity : ℚ) : Ext)
      · simp only [hy, hx, if_true, if_false]
        rcases stepVal_mem y (a + r.quantity) rows e with h | ⟨r', hr', h⟩
        · rw [h]; exact he r List.mem_cons_self
        · rw [h]; exact WithTop.coe_le_coe.mpr (hs.1 r' hr')
      · simp only [hy, hx, if_false]
        exact ih hs.2 (fun r' hr' => he r' (List.mem_cons_of_mem _ hr')) _

/-- The curve is constant on an interval without breakpoints. -/
theorem stepVal_const (a : ℚ) (rows : DF) (e : Ext) {x y : Ext} (hxy : x ≤ y)
    (h : ∀ s ∈ stepCurve a rows e, x ≤ s.1 → y ≤ s.1) :
    stepVal x a rows e = stepVal y a rows e := by
  induction rows generalizing a with
  | nil => rfl
  | cons r rows ih =>
    simp only [stepVal]
    have h0 := h _ (List.mem_cons_self)
    simp only at h0
    by_cases hx : x ≤ ((a + r.quantity : ℚ) : Ext)
    · simp [hx, h0 hx, -WithTop.coe_add]
    · have hy : ¬ y ≤ ((a + r.quantity : ℚ) : Ext) := fun hy => hx (le_trans hxy hy)
      simp only [hx, hy, if_false]
      exact ih _ (fun s hs => h s (List.mem_cons_of_mem _ hs))

theorem qsum_nonneg {rows : DF} (h : ∀ r ∈ rows, 0 ≤ r.quantity) : 0 ≤ qsum rows := by
  unfold qsum
  apply List.sum_nonneg
  intro q hq
  rw [List.mem_map] at hq
  obtain ⟨r, hr, rfl⟩ := hq
  exact h r hr

@[simp] theorem qsum_nil : qsum [] = 0 := rfl

@[simp] theorem qsum_cons (r : Row) (rows : DF) : qsum (r :: rows) = r.quantity + qsum rows := by
  simp [qsum]

@[simp] theorem qsum_append (l l' : DF) : qsum (l ++ l') = qsum l + qsum l' := by
  simp [qsum]

theorem qsum_perm {l l' : DF} (h : l.Perm l') : qsum l = qsum l' := (h.map _).sum_eq

/-- Galois connection: if `P` holds on an initial segment of the rows and not at `e`, the value at
`x` satisfies `P` exactly when the quantity of the rows satisfying `P` reaches `x`. -/
theorem stepVal_galois {P : Ext → Prop} [DecidablePred P] {rows : DF} {e : Ext} {a x : ℚ}
    (hs : rows.Pairwise (fun r r' => P (r'.price : Ext) → P (r.price : Ext)))
    (hq : ∀ r ∈ rows, 0 ≤ r.quantity) (he : ¬ P e) (hx : a < x) :
    P (stepVal (x : Ext) a rows e) ↔
      x ≤ a + qsum (rows.filter (fun r => decide (P (r.price : Ext)))) := by
  induction rows generalizing a with
  | nil =>
    simp only [stepVal, List.filter_nil, qsum_nil, add_zero]
    exact ⟨fun h => absurd h he, fun h => absurd h (not_le.mpr hx)⟩
  | cons r rows ih =>
    rw [List.pairwise_cons] at hs
    have hq' : ∀ r ∈ rows, 0 ≤ r.quantity := fun r' hr' => hq r' (List.mem_cons_of_mem _ hr')
    have hnn : 0 ≤ qsum (rows.filter (fun r => decide (P (r.price : Ext)))) :=
      qsum_nonneg (fun r' hr' => hq' r' (List.mem_filter.mp hr').1)
    have hempty : ¬ P (r.price : Ext) →
        rows.filter (fun r => decide (P (r.price : Ext))) = [] := by
      intro hp
      rw [List.filter_eq_nil_iff]
      intro r' hr'
      simp only [decide_eq_true_eq]
      exact fun h => hp (hs.1 r' hr' h)
    simp only [stepVal, WithTop.coe_le_coe]
    by_cases hc : x ≤ a + r.quantity
    · simp only [hc, if_true]
      by_cases hp : P (r.price : Ext)
      · rw [List.filter_cons, if_pos (by simpa using hp), qsum_cons]
        simp only [hp, true_iff]
        linarith
      · rw [List.filter_cons, if_neg (by simpa using hp), hempty hp]
        simp only [hp, qsum_nil, add_zero, false_iff, not_le]
        exact hx
    · simp only [hc, if_false]
      rw [ih hs.2 hq' (not_le.mp hc)]
      by_cases hp : P (r.price : Ext)
      · rw [List.filter_cons, if_pos (by simpa using hp), qsum_cons, add_assoc]
      · rw [List.filter_cons, if_neg (by simpa using hp), hempty hp]
        simp only [qsum_nil, add_zero]
        exact ⟨fun h => absurd h hc, fun h => absurd h (not_le.mpr hx)⟩

/-- At abscissa `a` the value is that of the first row. -/
theorem stepVal_zero {P : Ext → Prop} {rows : DF} {e : Ext} {a : ℚ}
    (hs : rows.Pairwise (fun r r' => P (r'.price : Ext) → P (r.price : Ext)))
    (hq : ∀ r ∈ rows, 0 ≤ r.quantity) (he : ¬ P e) :
    P (stepVal (a : Ext) a rows e) ↔ ∃ r ∈ rows, P (r.price : Ext) := by
  cases rows with
  | nil => simp [stepVal, he]
  | cons r rows =>
    rw [List.pairwise_cons] at hs
    have h0 := hq r List.mem_cons_self
    have hc : ((a : ℚ) : Ext) ≤ ((a + r.quantity : ℚ) : Ext) :=
      WithTop.coe_le_coe.mpr (by linarith)
    simp only [stepVal]
    rw [if_pos hc]
    constructor
    · intro h; exact ⟨r, List.mem_cons_self, h⟩
    · rintro ⟨r', hr', h⟩
      rcases List.mem_cons.mp hr' with rfl | hr'
      · exact h
      · exact hs.1 r' hr' h

/-! ## The two curves of a book -/

/-- Demand price at quantity `x`. -/
def demandAt (S : Sorter) (df : DF) (x : Ext) : Ext :=
  stepVal x 0 (sortDesc S (buys df)) ((0 : ℚ) : Ext)

/-- Supply price at quantity `x`. -/
def supplyAt (S : Sorter) (df : DF) (x : Ext) : Ext :=
  stepVal x 0 (sortAsc S (sells df)) ⊤

theorem mem_sortDesc {S : Sorter} {df : DF} {r : Row} : r ∈ sortDesc S df ↔ r ∈ df :=
  (sortDesc_perm S df).mem_iff

theorem mem_sortAsc {S : Sorter} {df : DF} {r : Row} : r ∈ sortAsc S df ↔ r ∈ df :=
  (sortAsc_perm S df).mem_iff

theorem demandAt_antitone (S : Sorter) {df : DF} (h : ∀ r ∈ df, 0 ≤ r.price) {x y : Ext}
    (hxy : x ≤ y) : demandAt S df y ≤ demandAt S df x :=
  stepVal_antitone (sortDesc_sorted S _)
    (fun r hr => WithTop.coe_le_coe.mpr (h r (mem_buys.mp (mem_sortDesc.mp hr)).1)) 0 hxy

theorem supplyAt_monotone (S : Sorter) (df : DF) {x y : Ext}
    (hxy : x ≤ y) : supplyAt S df x ≤ supplyAt S df y :=
  stepVal_monotone (sortAsc_sorted S _) (fun _ _ => le_top) 0 hxy

theorem qsum_buys_filter (S : Sorter) (df : DF) (P : Row → Bool) :
    qsum ((sortDesc S (buys df)).filter P) =
      ((df.filter (fun r => r.buying && P r)).map (fun r => r.quantity)).sum := by
  rw [qsum_perm ((sortDesc_perm S (buys df)).filter _)]
  unfold buys qsum
  rw [List.filter_filter]
  congr 2
  apply List.filter_congr
  intro r _
  exact Bool.and_comm _ _

theorem qsum_sells_filter (S : Sorter) (df : DF) (P : Row → Bool) :
    qsum ((sortAsc S (sells df)).filter P) =
      ((df.filter (fun r => !r.buying && P r)).map (fun r => r.quantity)).sum := by
  rw [qsum_perm ((sortAsc_perm S (sells df)).filter _)]
  unfold sells qsum
  rw [List.filter_filter]
  congr 2
  apply List.filter_congr
  intro r _
  exact Bool.and_comm _ _

theorem demandAt_galois (S : Sorter) {df : DF} (hq : ∀ r ∈ df, 0 ≤ r.quantity) {x p : ℚ}
    (hx : 0 < x) (hp : 0 < p) : (p : Ext) ≤ demandAt S df x ↔ x ≤ demandQty df p := by
  unfold demandAt demandQty
  rw [stepVal_galois (P := fun v => (p : Ext) ≤ v)
    ((sortDesc_sorted S _).imp (fun h h' => le_trans h' (WithTop.coe_le_coe.mpr h)))
    (fun r hr => hq r (mem_buys.mp (mem_sortDesc.mp hr)).1)
    (not_le.mpr (WithTop.coe_lt_coe.mpr hp)) hx,
    qsum_buys_filter, zero_add]
  simp only [WithTop.coe_le_coe]

theorem demandAt_galois_lt (S : Sorter) {df : DF} (hq : ∀ r ∈ df, 0 ≤ r.quantity) {x p : ℚ}
    (hx : 0 < x) (hp : 0 ≤ p) : (p : Ext) < demandAt S df x ↔ x ≤ demandQtyAbove df p := by
  unfold demandAt demandQtyAbove
  rw [stepVal_galois (P := fun v => (p : Ext) < v)
    ((sortDesc_sorted S _).imp (fun h h' => lt_of_lt_of_le h' (WithTop.coe_le_coe.mpr h)))
    (fun r hr => hq r (mem_buys.mp (mem_sortDesc.mp hr)).1)
    (not_lt.mpr (WithTop.coe_le_coe.mpr hp)) hx,
    qsum_buys_filter, zero_add]
  simp only [WithTop.coe_lt_coe]

theorem supplyAt_galois (S : Sorter) {df : DF} (hq : ∀ r ∈ df, 0 ≤ r.quantity) {x p : ℚ}
    (hx : 0 < x) : supplyAt S df x ≤ (p : Ext) ↔ x ≤ supplyQty df p := by
  unfold supplyAt supplyQty
  rw [stepVal_galois (P := fun v => v ≤ (p : Ext))
    ((sortAsc_sorted S _).imp (fun h h' => le_trans (WithTop.coe_le_coe.mpr h) h'))
    (fun r hr => hq r (mem_sells.mp (mem_sortAsc.mp hr)).1)
    (not_le.mpr (WithTop.coe_lt_top p)) hx,
    qsum_sells_filter, zero_add]
  simp only [WithTop.coe_le_coe]

theorem supplyAt_galois_lt (S : Sorter) {df : DF} (hq : ∀ r ∈ df, 0 ≤ r.quantity) {x p : ℚ}
    (hx : 0 < x) : supplyAt S df x < (p : Ext) ↔ x ≤ supplyQtyBelow df p := by
  unfold supplyAt supplyQtyBelow
  rw [stepVal_galois (P := fun v => v < (p : Ext))
    ((sortAsc_sorted S _).imp (fun h h' => lt_of_le_of_lt (WithTop.coe_le_coe.mpr h) h'))
    (fun r hr => hq r (mem_sells.mp (mem_sortAsc.mp hr)).1)
    (not_lt.mpr le_top) hx,
    qsum_sells_filter, zero_add]
  simp only [WithTop.coe_lt_coe]

theorem demandAt_nonneg (S : Sorter) {df : DF} (h : ∀ r ∈ df, 0 ≤ r.price) (x : Ext) :
    ((0 : ℚ) : Ext) ≤ demandAt S df x := by
  unfold demandAt
  rcases stepVal_mem x 0 (sortDesc S (buys df)) ((0 : ℚ) : Ext) with h' | ⟨r, hr, h'⟩ <;> rw [h']
  exact WithTop.coe_le_coe.mpr (h r (mem_buys.mp (mem_sortDesc.mp hr)).1)

theorem demandAt_ne_top (S : Sorter) (df : DF) (x : Ext) : demandAt S df x ≠ ⊤ := by
  unfold demandAt
  rcases stepVal_mem x 0 (sortDesc S (buys df)) ((0 : ℚ) : Ext) with h | ⟨r, _, h⟩ <;> rw [h] <;>
    exact WithTop.coe_ne_top

/-! ## The grid and the crossing loop -/

theorem mem_gridXs {f g : Curve} {xMax x : Ext} :
    x ∈ gridXs f g xMax ↔ ((∃ s ∈ f, s.1 = x) ∨ (∃ s ∈ g, s.1 = x)) ∧ x ≤ xMax := by
  unfold gridXs
  rw [List.mem_insertionSort, List.mem_filter, List.mem_dedup, List.mem_append, List.mem_map,
    List.mem_map]
  simp only [decide_eq_true_eq]
  constructor <;> rintro ⟨h1 | h1, h2⟩ <;> [exact ⟨Or.inr h1, h2⟩; exact ⟨Or.inl h1, h2⟩;
    exact ⟨Or.inr h1, h2⟩; exact ⟨Or.inl h1, h2⟩]

theorem gridXs_sorted (f g : Curve) (xMax : Ext) : (gridXs f g xMax).Pairwise (· < ·) := by
  have h1 : (gridXs f g xMax).Pairwise (· ≤ ·) := List.pairwise_insertionSort _ _
  have h2 : (gridXs f g xMax).Nodup :=
    (List.perm_insertionSort _ _).nodup_iff.mpr ((List.nodup_dedup _).filter _)
  exact (h1.and h2).imp (fun h => lt_of_le_of_ne h.1 h.2)

/-- The loop on total functions. -/
def crossPure (F G : Ext → Ext) : List Ext → Option Ext → Option Ext
  | x :: y :: rest, ast =>
      crossPure F G (y :: rest) (if G x < F x ∧ F y < G y then some x else ast)
  | _, ast => ast

theorem crossLoop_eq {f g : Curve} {F G : Ext → Ext} :
    ∀ (xs : List Ext) (ast : Option Ext),
    (∀ x ∈ xs, getValueStepwise x f = some (F x) ∧ getValueStepwise x g = some (G x)) →
    crossLoop f g xs ast = .ok (crossPure F G xs ast)
  | [], ast, _ => by unfold crossLoop crossPure; rfl
  | [x], ast, _ => by unfold crossLoop crossPure; rfl
  | x :: y :: rest, ast, h => by
      have hx := h x (by simp)
      have hy := h y (by simp)
      have ih := fun ast' => crossLoop_eq (F := F) (G := G) (y :: rest) ast'
        (fun z hz => h z (List.mem_cons_of_mem _ hz))
      unfold crossLoop crossPure
      rw [hx.1, hx.2, hy.1, hy.2]
      simp only [pyGt, bind, Except.bind]
      by_cases h1 : G x < F x
      · by_cases h2 : F y < G y
        · simp [h1, h2, ih]
        · simp [h1, h2, ih]
      · simp [h1, ih]

theorem crossPure_some {F G : Ext → Ext} :
    ∀ (xs : List Ext) (ast : Option Ext) (x : Ext), crossPure F G xs ast = some x →
    ast = some x ∨ ∃ pre y post, xs = pre ++ x :: y :: post ∧ G x < F x ∧ F y < G y
  | [], ast, x, h => by left; simpa [crossPure] using h
  | [z], ast, x, h => by left; simpa [crossPure] using h
  | z :: y :: rest, ast, x, h => by
      unfold crossPure at h
      rcases crossPure_some (y :: rest) _ x h with h1 | ⟨pre, y', post, h1, h2⟩
      · by_cases hc : G z < F z ∧ F y < G y
        · rw [if_pos hc] at h1
          right
          cases h1
          exact ⟨[], y, rest, rfl, hc⟩
        · rw [if_neg hc] at h1
          left; exact h1
      · right
        exact ⟨z :: pre, y', post, by rw [h1]; rfl, h2⟩

theorem crossPure_keeps {F G : Ext → Ext} :
    ∀ (xs : List Ext) (x : Ext), ∃ y, crossPure F G xs (some x) = some y
  | [], x => ⟨x, by simp [crossPure]⟩
  | [z], x => ⟨x, by simp [crossPure]⟩
  | z :: y :: rest, x => by
      unfold crossPure
      split_ifs
      · exact crossPure_keeps _ _
      · exact crossPure_keeps _ _

/-- If no grid point has equal values, `F > G` somewhere and `F < G` at the last point, the loop
finds a crossing. -/
theorem crossPure_found {F G : Ext → Ext} :
    ∀ (xs : List Ext) (ast : Option Ext) (x l : Ext), x ∈ xs → G x < F x → xs.getLast? = some l →
    F l < G l → (∀ z ∈ xs, F z ≠ G z) → ∃ y, crossPure F G xs ast = some y
  | [], ast, x, l, hx, _, _, _, _ => by simp at hx
  | [z], ast, x, l, hx, h1, hl, h2, _ => by
      simp only [List.mem_singleton] at hx
      simp only [List.getLast?_singleton, Option.some.injEq] at hl
      subst hl; subst hx
      exact absurd h1 (not_lt.mpr h2.le)
  | z :: y :: rest, ast, x, l, hx, h1, hl, h2, hne => by
      unfold crossPure
      by_cases hc : G z < F z ∧ F y < G y
      · rw [if_pos hc]; exact crossPure_keeps _ _
      · rw [if_neg hc]
        have hl' : (y :: rest).getLast? = some l := by rw [← hl]; simp
        have hne' : ∀ z ∈ y :: rest, F z ≠ G z := fun w hw => hne w (List.mem_cons_of_mem _ hw)
        rcases List.mem_cons.mp hx with rfl | hx'
        · have hy : G y < F y := by
            rcases lt_trichotomy (F y) (G y) with h | h | h
            · exact absurd ⟨h1, h⟩ hc
            · exact absurd h (hne y (by simp))
            · exact h
          exact crossPure_found (y :: rest) ast y l (by simp) hy hl' h2 hne'
        · exact crossPure_found (y :: rest) ast x l hx' h1 hl' h2 hne'

/-! ## Breakpoints -/

theorem stepCurve_top_mem (a : ℚ) (rows : DF) (e : Ext) : ((⊤ : Ext), e) ∈ stepCurve a rows e := by
  induction rows generalizing a with
  | nil => simp [stepCurve]
  | cons r rows ih => exact List.mem_cons_of_mem _ (ih _)

theorem stepCurve_fst_ge {a : ℚ} {rows : DF} {e : Ext} (hq : ∀ r ∈ rows, 0 ≤ r.quantity)
    {s : Ext × Ext} (hs : s ∈ stepCurve a rows e) : (a : Ext) ≤ s.1 := by
  induction rows generalizing a with
  | nil =>
    simp only [stepCurve, List.mem_singleton] at hs
    rw [hs]; exact le_top
  | cons r rows ih =>
    have h0 := hq r List.mem_cons_self
    rcases List.mem_cons.mp hs with h | h
    · rw [h]; exact WithTop.coe_le_coe.mpr (by linarith)
    · have := ih (fun r' hr' => hq r' (List.mem_cons_of_mem _ hr')) h
      exact le_trans (WithTop.coe_le_coe.mpr (by linarith)) this

theorem foldl_max_top (l : Curve) (m : Ext) (h : m = ⊤ ∨ ∃ s ∈ l, s.1 = ⊤) :
    l.foldl (fun m r => max m r.1) m = ⊤ := by
  induction l generalizing m with
  | nil =>
    rcases h with h | ⟨s, hs, _⟩
    · exact h
    · simp at hs
  | cons s l ih =>
    simp only [List.foldl_cons]
    apply ih
    rcases h with h | ⟨s', hs', h⟩
    · left; rw [h]; exact max_eq_left le_top
    · rcases List.mem_cons.mp hs' with rfl | hs'
      · left; rw [h]; exact max_eq_right le_top
      · right; exact ⟨s', hs', h⟩

theorem maxX_stepCurve (a : ℚ) (rows : DF) (e : Ext) : maxX (stepCurve a rows e) = .ok ⊤ := by
  cases rows with
  | nil => rfl
  | cons r rows =>
    simp only [stepCurve, maxX]
    rw [foldl_max_top]
    right
    exact ⟨_, stepCurve_top_mem _ _ _, rfl⟩

theorem stepVal_top (a : ℚ) (rows : DF) (e : Ext) : stepVal ⊤ a rows e = e := by
  induction rows generalizing a with
  | nil => rfl
  | cons r rows ih =>
    simp only [stepVal]
    rw [if_neg (by simp)]
    exact ih _

end PyMarket
