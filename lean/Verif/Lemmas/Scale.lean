import Verif.Spec.Scale
import Verif.Lemmas.Sort
import Verif.Lemmas.Managers
import Mathlib.Algebra.BigOperators.Ring.List
import Mathlib.Data.List.Dedup
import Mathlib.Tactic.Ring
import Mathlib.Tactic.Linarith

/-! # The mechanisms commute with a change of units -/

set_option autoImplicit false

namespace PyMarket

open Spec

/-! ## Curves -/

section

variable {a : ℚ} (ha : 0 < a)

include ha

theorem scaleExt_le (x y : Ext) : scaleExt a x ≤ scaleExt a y ↔ x ≤ y := by
  cases x with
  | none =>
    cases y with
    | none => exact Iff.rfl
    | some y => exact ⟨fun h => absurd h (not_le.mpr (WithTop.coe_lt_top (a * y))),
        fun h => absurd h (not_le.mpr (WithTop.coe_lt_top y))⟩
  | some x =>
    cases y with
    | none => exact ⟨fun _ => le_top, fun _ => (le_top : ((a * x : ℚ) : Ext) ≤ ⊤)⟩
    | some y =>
      show ((a * x : ℚ) : Ext) ≤ ((a * y : ℚ) : Ext) ↔ (x : Ext) ≤ (y : Ext)
      rw [WithTop.coe_le_coe, WithTop.coe_le_coe]
      exact mul_le_mul_iff_of_pos_left ha

theorem scaleExt_lt (x y : Ext) : scaleExt a x < scaleExt a y ↔ x < y := by
  rw [← not_le, ← not_le, scaleExt_le ha]

theorem scaleExt_inj : Function.Injective (scaleExt a) := by
  intro x y h
  exact le_antisymm ((scaleExt_le ha x y).mp h.le) ((scaleExt_le ha y x).mp h.ge)

theorem scaleExt_max (x y : Ext) : scaleExt a (max x y) = max (scaleExt a x) (scaleExt a y) := by
  rcases le_total x y with h | h
  · rw [max_eq_right h, max_eq_right ((scaleExt_le ha x y).mpr h)]
  · rw [max_eq_left h, max_eq_left ((scaleExt_le ha y x).mpr h)]

theorem scaleExt_min (x y : Ext) : scaleExt a (min x y) = min (scaleExt a x) (scaleExt a y) := by
  rcases le_total x y with h | h
  · rw [min_eq_left h, min_eq_left ((scaleExt_le ha x y).mpr h)]
  · rw [min_eq_right h, min_eq_right ((scaleExt_le ha y x).mpr h)]

end

theorem scaleExt_coe (a x : ℚ) : scaleExt a (x : Ext) = ((a * x : ℚ) : Ext) := rfl

theorem scaleExt_top (a : ℚ) : scaleExt a ⊤ = ⊤ := rfl

theorem scaleExt_zero (a : ℚ) : scaleExt a ((0 : ℚ) : Ext) = ((0 : ℚ) : Ext) := by
  rw [scaleExt_coe, mul_zero]

theorem scaleExt_untopD (a : ℚ) (x : Ext) : (scaleExt a x).untopD 0 = a * x.untopD 0 := by
  cases x with
  | none => show (0 : ℚ) = a * 0; rw [mul_zero]
  | some x => rfl

/-- A curve in the new units. -/
def scaleCurve (a c : ℚ) (f : Curve) : Curve := f.map (Prod.map (scaleExt a) (scaleExt c))

section

variable {a c : ℚ} (ha : 0 < a) (hc : 0 < c)

include ha

theorem stepLookup_scale (x : Ext) (f : Curve) :
    stepLookup (scaleExt a x) (scaleCurve a c f) = (stepLookup x f).map (scaleExt c) := by
  induction f with
  | nil => rfl
  | cons s f ih =>
    show (if scaleExt a x ≤ scaleExt a s.1 then some (scaleExt c s.2)
      else stepLookup (scaleExt a x) (scaleCurve a c f)) = _
    rw [ih]
    conv_rhs => unfold stepLookup
    simp only [scaleExt_le ha]
    split <;> rfl

theorem getValueStepwise_scale (x : Ext) (f : Curve) :
    getValueStepwise (scaleExt a x) (scaleCurve a c f) =
      (getValueStepwise x f).map (scaleExt c) := by
  unfold getValueStepwise
  have h := scaleExt_lt ha x ((0 : ℚ) : Ext)
  rw [scaleExt_zero] at h
  rw [stepLookup_scale ha]
  simp only [h]
  split <;> rfl

theorem maxX_scale (f : Curve) : maxX (scaleCurve a c f) = (maxX f).map (scaleExt a) := by
  cases f with
  | nil => rfl
  | cons s f =>
    show Except.ok ((scaleCurve a c f).foldl (fun m r => max m r.1) (scaleExt a s.1)) =
      Except.ok (scaleExt a (f.foldl (fun m r => max m r.1) s.1))
    congr 1
    generalize s.1 = m
    induction f generalizing m with
    | nil => rfl
    | cons t f ih =>
      show (scaleCurve a c f).foldl _ (max (scaleExt a m) (scaleExt a t.1)) = _
      rw [← scaleExt_max ha, ih]
      rfl

omit ha in
theorem scaleCurve_fst (f : Curve) :
    (scaleCurve a c f).map Prod.fst = (f.map Prod.fst).map (scaleExt a) := by
  unfold scaleCurve
  rw [List.map_map, List.map_map]
  rfl

theorem gridXs_scale (f g : Curve) (m : Ext) :
    gridXs (scaleCurve a c f) (scaleCurve a c g) (scaleExt a m) = (gridXs f g m).map (scaleExt a) := by
  unfold gridXs
  rw [scaleCurve_fst, scaleCurve_fst, ← List.map_append,
    List.dedup_map_of_injective (scaleExt_inj ha), List.filter_map,
    List.map_insertionSort _ (fun a b => a ≤ b) (scaleExt a) _
      (fun x _ y _ => (scaleExt_le ha x y).symm)]
  congr 2
  apply List.filter_congr
  intro x _
  simp only [Function.comp_apply, scaleExt_le ha]

theorem argmaxTrue_scale (x : Ext) (f : Curve) :
    argmaxTrue ((scaleCurve a c f).map (fun s => decide (scaleExt a x ≤ s.1))) =
      argmaxTrue (f.map (fun s => decide (x ≤ s.1))) := by
  congr 1
  unfold scaleCurve
  rw [List.map_map]
  apply List.map_congr_left
  intro s _
  simp only [Function.comp_apply, Prod.map_fst, scaleExt_le ha]

theorem mem_fst_scale (x : Ext) (f : Curve) :
    scaleExt a x ∈ (scaleCurve a c f).map Prod.fst ↔ x ∈ f.map Prod.fst := by
  rw [scaleCurve_fst, List.mem_map_of_injective (scaleExt_inj ha)]

omit ha

include hc

theorem pyGt_scale (x y : Option Ext) :
    pyGt (x.map (scaleExt c)) (y.map (scaleExt c)) = pyGt x y := by
  cases x with
  | none => rfl
  | some x =>
    cases y with
    | none => rfl
    | some y => simp only [Option.map_some, pyGt, scaleExt_lt hc]

omit hc in
theorem kMix_scale (k : ℚ) (x y : Ext) :
    kMix k (scaleExt c x) (scaleExt c y) = scaleVal c (kMix k x y) := by
  have h1 : ∀ (k : ℚ) (x : Ext), Val.scale k (scaleExt c x) = scaleVal c (Val.scale k x) := by
    intro k x
    cases x with
    | none =>
      show Val.scale k ⊤ = scaleVal c (Val.scale k ⊤)
      show (if 0 < k then Val.inf else if k < 0 then Val.ninf else Val.nan) =
        scaleVal c (if 0 < k then Val.inf else if k < 0 then Val.ninf else Val.nan)
      split
      · rfl
      · split <;> rfl
    | some x =>
      show Val.fin (k * (c * x)) = Val.fin (c * (k * x))
      rw [mul_left_comm]
  have h2 : ∀ v w : Val, (scaleVal c v).add (scaleVal c w) = scaleVal c (v.add w) := by
    intro v w
    cases v <;> cases w <;> simp [scaleVal, Val.add, mul_add]
  unfold kMix
  rw [h1, h1, h2]

omit hc

theorem ofExt_scale (c : ℚ) (x : Ext) : Val.ofExt (scaleExt c x) = scaleVal c (Val.ofExt x) := by
  cases x <;> rfl

include ha hc

theorem crossLoop_scale (f g : Curve) (xs : List Ext) (o : Option Ext) :
    crossLoop (scaleCurve a c f) (scaleCurve a c g) (xs.map (scaleExt a)) (o.map (scaleExt a)) =
      (crossLoop f g xs o).map (Option.map (scaleExt a)) := by
  induction xs generalizing o with
  | nil => rfl
  | cons x xs ih =>
    cases xs with
    | nil => rfl
    | cons y xs =>
      simp only [List.map_cons, crossLoop, getValueStepwise_scale ha, pyGt_scale hc]
      simp only [List.map_cons] at ih
      cases pyGt (getValueStepwise x f) (getValueStepwise x g) with
      | error e => rfl
      | ok b =>
        simp only [bind, Except.bind]
        cases b with
        | false => simp only [Bool.false_eq_true, if_false]; exact ih o
        | true =>
          simp only [if_true]
          cases pyGt (getValueStepwise y g) (getValueStepwise y f) with
          | error e => rfl
          | ok b =>
            simp only
            cases b with
            | false => simp only [Bool.false_eq_true, if_false]; exact ih o
            | true => simp only [if_true]; exact ih (some x)

/-- An intersection in the new units. -/
def scaleInter (a c : ℚ) (i : Intersection) : Intersection :=
  { x := i.x.map (scaleExt a), f := i.f, g := i.g, v := scaleVal c i.v }

theorem intersectStepwise_scale (f g : Curve) (k : ℚ) :
    intersectStepwise (scaleCurve a c f) (scaleCurve a c g) k =
      (intersectStepwise f g k).map (scaleInter a c) := by
  unfold intersectStepwise
  rw [maxX_scale ha, maxX_scale ha]
  cases maxX f with
  | error e => rfl
  | ok mf =>
    cases maxX g with
    | error e => rfl
    | ok mg =>
      simp only [Except.map, bind, Except.bind, ← scaleExt_min ha, gridXs_scale ha]
      have h := crossLoop_scale ha hc f g (gridXs f g (min mf mg)) none
      rw [Option.map_none] at h
      rw [h]
      cases crossLoop f g (gridXs f g (min mf mg)) none with
      | error e => rfl
      | ok o =>
        cases o with
        | some x =>
          simp only [Except.map, Option.map_some, argmaxTrue_scale ha]
          have hr : ∀ (f : Curve) (i : ℕ), (scaleCurve a c f)[i]? =
              (f[i]?).map (Prod.map (scaleExt a) (scaleExt c)) := by
            intro f i
            unfold scaleCurve
            rw [List.getElem?_map]
          rw [hr, hr]
          cases g[argmaxTrue (g.map (fun s => decide (x ≤ s.1)))]? with
          | none => rfl
          | some gr =>
            cases f[argmaxTrue (f.map (fun s => decide (x ≤ s.1)))]? with
            | none => rfl
            | some fr =>
              simp only [Option.map_some, mem_fst_scale ha, Prod.map_snd, ofExt_scale,
                kMix_scale, scaleInter]
              congr 2
              split
              · split <;> rfl
              · rfl
        | none =>
          simp only [Except.map, Option.map_none, List.getLast?_map]
          cases (gridXs f g (min mf mg)).getLast? with
          | none => rfl
          | some xl =>
            simp only [Option.map_some, getValueStepwise_scale ha]
            cases getValueStepwise xl g with
            | none => rfl
            | some gv =>
              cases getValueStepwise xl f with
              | none => rfl
              | some fv => simp only [Option.map_some, kMix_scale]; rfl

end

/-! ## Frames -/

/-- The sorter does not notice the change of the price unit. -/
structure Unaffected (S : Sorter) (c : ℚ) : Prop where
  asc : ∀ l : List ℚ, S.asc (l.map (fun x => c * x)) = S.asc l
  desc : ∀ l : List ℚ, S.desc (l.map (fun x => c * x)) = S.desc l

theorem unaffected_one (S : Sorter) : Unaffected S 1 := by
  constructor <;> intro l <;> simp

theorem Spec.ComparisonSort.unaffected {S : Sorter} (h : ComparisonSort S) {c : ℚ} (hc : 0 < c) :
    Unaffected S c := by
  have key : ∀ l : List ℚ, S.asc (l.map (fun x => c * x)) = S.asc l ∧
      S.desc (l.map (fun x => c * x)) = S.desc l := by
    intro l
    apply h _ _ (List.length_map _)
    intro i j x y x' y' h1 h2 h3 h4
    rw [List.getElem?_map, h3, Option.map_some, Option.some.injEq] at h1
    rw [List.getElem?_map, h4, Option.map_some, Option.some.injEq] at h2
    subst h1 h2
    exact mul_le_mul_iff_of_pos_left hc
  exact ⟨fun l => (key l).1, fun l => (key l).2⟩

theorem prices_scale (a c : ℚ) (df : DF) :
    (df.map (scaleRow a c)).map (fun r => r.price) =
      (df.map (fun r => r.price)).map (fun x => c * x) := by
  rw [List.map_map, List.map_map]; rfl

theorem quantities_scale (a c : ℚ) (df : DF) :
    (df.map (scaleRow a c)).map (fun r => r.quantity) =
      (df.map (fun r => r.quantity)).map (fun x => a * x) := by
  rw [List.map_map, List.map_map]; rfl

theorem labels_scale (a c : ℚ) (df : DF) :
    (df.map (scaleRow a c)).map (fun r => r.label) = df.map (fun r => r.label) := by
  rw [List.map_map]; rfl

theorem users_scale (a c : ℚ) (df : DF) :
    (df.map (scaleRow a c)).map (fun r => r.user) = df.map (fun r => r.user) := by
  rw [List.map_map]; rfl

theorem buys_scale (a c : ℚ) (df : DF) :
    buys (df.map (scaleRow a c)) = (buys df).map (scaleRow a c) := by
  unfold buys; rw [List.filter_map]; rfl

theorem sells_scale (a c : ℚ) (df : DF) :
    sells (df.map (scaleRow a c)) = (sells df).map (scaleRow a c) := by
  unfold sells; rw [List.filter_map]; rfl

theorem sum_scale (a : ℚ) (l : List ℚ) : (l.map (fun x => a * x)).sum = a * l.sum := by
  rw [List.sum_map_mul_left, List.map_id']

theorem qsum_scale (a c : ℚ) (df : DF) : qsum (df.map (scaleRow a c)) = a * qsum df := by
  unfold qsum
  rw [quantities_scale, sum_scale]

theorem cumsumFrom_scale (a acc : ℚ) (l : List ℚ) :
    cumsumFrom (a * acc) (l.map (fun x => a * x)) = (cumsumFrom acc l).map (fun x => a * x) := by
  induction l generalizing acc with
  | nil => rfl
  | cons x l ih => simp only [List.map_cons, cumsumFrom, ← mul_add, ih]

theorem cumsum_scale (a : ℚ) (l : List ℚ) :
    cumsum (l.map (fun x => a * x)) = (cumsum l).map (fun x => a * x) := by
  unfold cumsum
  rw [← cumsumFrom_scale, mul_zero]

theorem curve_scale (a c : ℚ) (u v : List ℚ) (e : Ext) :
    (List.zip (u.map (fun x => a * x)) (v.map (fun x => c * x))).map
        (fun p => ((p.1 : Ext), (p.2 : Ext))) ++ [((⊤ : Ext), scaleExt c e)] =
      scaleCurve a c ((List.zip u v).map (fun p => ((p.1 : Ext), (p.2 : Ext))) ++
        [((⊤ : Ext), e)]) := by
  unfold scaleCurve
  rw [List.map_append, List.map_map, List.zip_map, List.map_map]
  rfl

section

variable {S : Sorter} {a c : ℚ} (hS : Unaffected S c)

include hS

theorem sortAsc_scale (df : DF) :
    sortAsc S (df.map (scaleRow a c)) = (sortAsc S df).map (scaleRow a c) := by
  unfold sortAsc
  rw [takeIdx_map, prices_scale, hS.asc]

theorem sortDesc_scale (df : DF) :
    sortDesc S (df.map (scaleRow a c)) = (sortDesc S df).map (scaleRow a c) := by
  unfold sortDesc
  rw [takeIdx_map, prices_scale, hS.desc]

theorem demandCurve_scale (df : DF) :
    (demandCurve S (df.map (scaleRow a c))).1 = scaleCurve a c (demandCurve S df).1 := by
  unfold demandCurve
  simp only
  rw [buys_scale, sortDesc_scale hS, prices_scale, quantities_scale, cumsum_scale, ← curve_scale,
    scaleExt_zero]

theorem supplyCurve_scale (df : DF) :
    (supplyCurve S (df.map (scaleRow a c))).1 = scaleCurve a c (supplyCurve S df).1 := by
  unfold supplyCurve
  simp only
  rw [sells_scale, sortAsc_scale hS, prices_scale, quantities_scale, cumsum_scale, ← curve_scale,
    scaleExt_top]

end

/-! ## Curtailment -/

section

variable {a : ℚ} (ha : 0 < a)

include ha

theorem nanArgMin_scale (q : List (Option ℚ)) :
    nanArgMin (q.map (Option.map (fun x => a * x))) =
      (nanArgMin q).map (fun p => (p.1, a * p.2)) := by
  induction q with
  | nil => rfl
  | cons x q ih =>
    cases x with
    | none =>
      simp only [List.map_cons, Option.map_none, nanArgMin, ih, Option.map_map]
      rfl
    | some x =>
      simp only [List.map_cons, Option.map_some, nanArgMin, ih]
      cases nanArgMin q with
      | none => rfl
      | some p =>
        simp only [Option.map_some, mul_le_mul_iff_of_pos_left ha]
        split <;> rfl

theorem uqLoop_scale (q : List (Option ℚ)) (N : ℕ) (gap : ℚ) :
    uqLoop (q.map (Option.map (fun x => a * x))) N (a * gap) =
      (uqLoop q N gap).map (fun r => (r.1.map (Option.map (fun x => a * x)), r.2.1, a * r.2.2)) := by
  fun_induction uqLoop q N gap with
  | case1 q N gap h =>
    rw [uqLoop]
    split
    · rfl
    · rename_i h'
      rw [nanArgMin_scale ha, h] at h'
      cases h'
  | case2 q N gap i v h hlt ih =>
    rw [uqLoop]
    split
    · rename_i h'
      rw [nanArgMin_scale ha, h] at h'
      cases h'
    · rename_i h'
      rw [nanArgMin_scale ha, h, Option.map_some, Option.some.injEq, Prod.mk.injEq] at h'
      obtain ⟨rfl, rfl⟩ := h'
      rw [if_pos (by rw [mul_div_assoc]; exact mul_lt_mul_of_pos_left hlt ha), ← mul_sub, ← ih,
        List.map_set, Option.map_none]
  | case3 q N gap i v h hlt =>
    rw [uqLoop]
    split
    · rename_i h'
      rw [nanArgMin_scale ha, h] at h'
      cases h'
    · rename_i h'
      rw [nanArgMin_scale ha, h, Option.map_some, Option.some.injEq, Prod.mk.injEq] at h'
      obtain ⟨rfl, rfl⟩ := h'
      rw [if_neg (by rw [mul_div_assoc, mul_lt_mul_iff_of_pos_left ha]; exact hlt)]
      rfl

theorem mul_max' (x y : ℚ) : a * max x y = max (a * x) (a * y) := mul_max_of_nonneg x y ha.le

theorem mul_min' (x y : ℚ) : a * min x y = min (a * x) (a * y) := mul_min_of_nonneg x y ha.le

theorem maxList_scale (l : List ℚ) : maxList (l.map (fun x => a * x)) = a * maxList l := by
  cases l with
  | nil => show (0 : ℚ) = a * 0; rw [mul_zero]
  | cons x l =>
    show (l.map (fun x => a * x)).foldl max (a * x) = a * l.foldl max x
    induction l generalizing x with
    | nil => rfl
    | cons y l ih =>
      simp only [List.map_cons, List.foldl_cons]
      rw [← mul_max' ha, ih]

theorem clip0_scale (hi x : ℚ) : clip0 (a * hi) (a * x) = a * clip0 hi x := by
  unfold clip0
  rw [mul_min' ha, mul_max' ha, mul_zero]

theorem updateQuantity_scale (l : List ℚ) (gap : ℚ) :
    updateQuantity (l.map (fun x => a * x)) (a * gap) =
      (updateQuantity l gap).map (List.map (fun x => a * x)) := by
  unfold updateQuantity
  have h := uqLoop_scale ha (l.map some) l.length gap
  rw [List.map_map] at h
  rw [List.map_map, List.length_map]
  have e : (some ∘ fun x => a * x) = (Option.map (fun x => a * x) ∘ some) := rfl
  rw [e, h]
  cases uqLoop (l.map some) l.length gap with
  | error e => rfl
  | ok r =>
    obtain ⟨q, N, g⟩ := r
    simp only [Except.map, bind, Except.bind, List.map_map]
    have e1 : q.map ((fun x => x - a * g / ↑N) ∘ (fun o => o.getD 0) ∘
        Option.map (fun x => a * x)) =
        (q.map ((fun x => x - g / ↑N) ∘ fun o => o.getD 0)).map (fun x => a * x) := by
      rw [List.map_map]
      apply List.map_congr_left
      intro o _
      cases o with
      | none => simp only [Function.comp_apply, Option.map_none, Option.getD_none]; ring
      | some x => simp only [Function.comp_apply, Option.map_some, Option.getD_some]; ring
    congr 1
    have e2 : ∀ o : Option ℚ, (Option.map (fun x => a * x) o).getD 0 - a * g / ↑N =
        a * (o.getD 0 - g / ↑N) := by
      intro o
      cases o with
      | none => simp only [Option.map_none, Option.getD_none]; ring
      | some x => simp only [Option.map_some, Option.getD_some]; ring
    rw [e1, maxList_scale ha]
    apply List.map_congr_left
    intro o _
    simp only [Function.comp_apply, e2, clip0_scale ha]

end

/-! ## Huang -/

theorem init_addAll_scale (a c : ℚ) (ts : List Transaction) :
    TransactionManager.init.addAll (ts.map (scaleTrans a c)) =
      scaleLog a c (TransactionManager.init.addAll ts) := by
  have : ∀ tm : TransactionManager, (scaleLog a c tm).addAll (ts.map (scaleTrans a c)) =
      scaleLog a c (tm.addAll ts) := by
    induction ts with
    | nil => intro tm; rfl
    | cons t ts ih =>
      intro tm
      simp only [List.map_cons, TransactionManager.addAll]
      rw [← ih]
      congr 1
      simp [TransactionManager.addTransaction, scaleLog]
  exact this TransactionManager.init

theorem huangSideTrans_scale (a c : ℚ) (rows : DF) (qs : List ℚ) (p : ℚ) :
    huangSideTrans (rows.map (scaleRow a c)) (qs.map (fun x => a * x)) (c * p) =
      (huangSideTrans rows qs p).map (scaleTrans a c) := by
  unfold huangSideTrans
  rw [List.zip_map, List.map_map, List.map_map]
  rfl

theorem huangAuction_scale {S : Sorter} {a c : ℚ} (ha : 0 < a) (hc : 0 < c) (hS : Unaffected S c)
    (df : DF) : huangAuction S (df.map (scaleRow a c)) = scaleResult a c (huangAuction S df) := by
  unfold huangAuction
  simp only
  rw [demandCurve_scale hS, supplyCurve_scale hS, intersectStepwise_scale ha hc]
  cases intersectStepwise (demandCurve S df).1 (supplyCurve S df).1 with
  | error e => rfl
  | ok i =>
    simp only [Except.map, bind, Except.bind, scaleInter]
    cases i.f with
    | none => rfl
    | some b =>
      cases i.g with
      | none => rfl
      | some s =>
        simp only
        have hr : ∀ (f : Curve) (i : ℕ), (scaleCurve a c f)[i]? =
            (f[i]?).map (Prod.map (scaleExt a) (scaleExt c)) := by
          intro f i
          unfold scaleCurve
          rw [List.getElem?_map]
        rw [hr, hr]
        cases (supplyCurve S df).1[s]? with
        | none => rfl
        | some sr =>
          cases (demandCurve S df).1[b]? with
          | none => rfl
          | some br =>
            simp only [Option.map_some, Prod.map_snd, buys_scale, sells_scale, sortDesc_scale hS,
              sortAsc_scale hS, ← List.map_take, quantities_scale, sum_scale, ← mul_sub]
            split
            · rw [← mul_neg]
              have hpos : ∀ x : ℚ, 0 < a * x ↔ 0 < x := fun x => mul_pos_iff_of_pos_left ha
              simp only [hpos]
              split
              · rw [updateQuantity_scale ha]
                cases updateQuantity ((sortAsc S (sells df)).take s |>.map (fun r => r.quantity))
                  (((sortAsc S (sells df)).take s |>.map (fun r => r.quantity)).sum -
                    ((sortDesc S (buys df)).take b |>.map (fun r => r.quantity)).sum) with
                | error e => rfl
                | ok qs =>
                  simp only [Except.map, scaleExt_untopD, huangSideTrans_scale, ← List.map_append,
                    init_addAll_scale]
                  rfl
              · rw [updateQuantity_scale ha]
                cases updateQuantity ((sortDesc S (buys df)).take b |>.map (fun r => r.quantity))
                  (-(((sortAsc S (sells df)).take s |>.map (fun r => r.quantity)).sum -
                    ((sortDesc S (buys df)).take b |>.map (fun r => r.quantity)).sum)) with
                | error e => rfl
                | ok qs =>
                  simp only [Except.map, scaleExt_untopD, huangSideTrans_scale, ← List.map_append,
                    init_addAll_scale, sum_scale]
                  rfl
            · rfl

end PyMarket
