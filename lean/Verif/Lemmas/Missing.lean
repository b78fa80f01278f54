import Verif.Model.Missing
import Verif.Lemmas.UnlimitedP2P

/-! # Lemmas about missing numbers -/

set_option autoImplicit false

namespace PyMarket

/-- A curve without NaN. -/
def liftN (f : Curve) : CurveN := f.map (fun p => (some p.1, p.2))

theorem breaksN_lift (f : Curve) : breaksN (liftN f) = f.map Prod.fst := by
  unfold breaksN liftN
  rw [List.filterMap_map]
  induction f with
  | nil => rfl
  | cons s f ih => simp

theorem maxXN_lift (f : Curve) : maxXN (liftN f) = (maxX f).map some := by
  cases f with
  | nil => rfl
  | cons s f =>
    simp only [liftN, List.map_cons, maxXN, maxX, Except.map]
    congr 1
    generalize s.1 = m
    induction f generalizing m with
    | nil => rfl
    | cons t f ih =>
      simp only [List.map_cons, List.foldl_cons, maxN]
      exact ih _

theorem stepLookupN_lift (x : Ext) (f : Curve) : stepLookupN x (liftN f) = stepLookup x f := by
  induction f with
  | nil => rfl
  | cons s f ih =>
    have ih' : stepLookupN x (f.map (fun p => (some p.1, p.2))) = stepLookup x f := ih
    simp only [liftN, List.map_cons, stepLookupN, stepLookup, leN, ih', decide_eq_true_eq]

theorem getValueStepwiseN_lift (x : Ext) (f : Curve) : getValueStepwiseN x (liftN f) = getValueStepwise x f := by
  unfold getValueStepwiseN getValueStepwise
  rw [stepLookupN_lift]

theorem crossLoopN_lift (f g : Curve) : ∀ (xs : List Ext) (ast : Option Ext),
    crossLoopN (liftN f) (liftN g) xs ast = crossLoop f g xs ast
  | [], _ => by simp [crossLoopN, crossLoop]
  | [_], _ => by simp [crossLoopN, crossLoop]
  | x :: y :: rest, ast => by
    unfold crossLoopN crossLoop
    simp only [getValueStepwiseN_lift, crossLoopN_lift f g (y :: rest)]

theorem leN_lift (x : Ext) (f : Curve) : (liftN f).map (fun s => leN x s.1) = f.map (fun s => decide (x ≤ s.1)) := by
  unfold liftN
  rw [List.map_map]
  rfl

theorem liftN_getElem (f : Curve) (i : ℕ) : (liftN f)[i]? = (f[i]?).map (fun p => (some p.1, p.2)) := by
  unfold liftN
  rw [List.getElem?_map]

theorem gridXsN_lift (f g : Curve) (m : Ext) : gridXsN (liftN f) (liftN g) (some m) = gridXs f g m := by
  unfold gridXsN gridXs
  rw [breaksN_lift, breaksN_lift]
  rfl

/-- Without NaN the intersection is the one of `Model/Curves`. -/
theorem intersectN_lift (f g : Curve) (k : ℚ) : intersectN (liftN f) (liftN g) k = intersectStepwise f g k := by
  unfold intersectN intersectStepwise
  rw [maxXN_lift, maxXN_lift]
  cases maxX f with
  | error e => rfl
  | ok mf =>
    cases maxX g with
    | error e => rfl
    | ok mg =>
      simp only [Except.map, bind, Except.bind, minN, gridXsN_lift, crossLoopN_lift, leN_lift, liftN_getElem,
        breaksN_lift, getValueStepwiseN_lift]
      cases crossLoop f g (gridXs f g (min mf mg)) none with
      | error e => rfl
      | ok o =>
        cases o with
        | none => rfl
        | some x =>
          simp only
          cases g[argmaxTrue (g.map (fun s => decide (x ≤ s.1)))]? with
          | none => rfl
          | some gr =>
            cases f[argmaxTrue (f.map (fun s => decide (x ≤ s.1)))]? with
            | none => rfl
            | some fr => rfl

theorem cumsumN_known (l : List Ext) (a : Ext) : cumsumN a (l.map some) = (extCumsumFrom a l).map some := by
  induction l generalizing a with
  | nil => rfl
  | cons x l ih => simp [cumsumN, extCumsumFrom, ih]

theorem zip_known (l ps : List Ext) : List.zip (l.map some) ps = liftN (List.zip l ps) := by
  unfold liftN
  rw [List.zip_map_left]
  rfl

theorem demandCurveN_known (S : Sorter) {df : DF} {qty : ℕ → Option Ext} (h : ∀ r ∈ df, qty r.label ≠ none) :
    demandCurveN S df qty = liftN (demandCurveU S df (knownQty qty)) := by
  unfold demandCurveN demandCurveU
  have e : (sortDesc S (buys df)).map (fun r => qty r.label) =
      ((sortDesc S (buys df)).map (fun r => knownQty qty r.label)).map some := by
    rw [List.map_map]
    apply List.map_congr_left
    intro r hr
    have := h r (buyRows_mem hr).1
    obtain ⟨q, hq⟩ := Option.ne_none_iff_exists'.mp this
    simp [knownQty, hq]
  simp only [e, cumsumN_known, zip_known]
  simp [liftN]

theorem supplyCurveN_known (S : Sorter) {df : DF} {qty : ℕ → Option Ext} (h : ∀ r ∈ df, qty r.label ≠ none) :
    supplyCurveN S df qty = liftN (supplyCurveU S df (knownQty qty)) := by
  unfold supplyCurveN supplyCurveU
  have e : (sortAsc S (sells df)).map (fun r => qty r.label) =
      ((sortAsc S (sells df)).map (fun r => knownQty qty r.label)).map some := by
    rw [List.map_map]
    apply List.map_congr_left
    intro r hr
    have := h r (sellRows_mem hr).1
    obtain ⟨q, hq⟩ := Option.ne_none_iff_exists'.mp this
    simp [knownQty, hq]
  simp only [e, cumsumN_known, zip_known]
  simp [liftN]

/-! ## With NaN -/

theorem maxN_none_left (a : Option Ext) : maxN none a = none := by cases a <;> rfl

theorem maxN_none_right (a : Option Ext) : maxN a none = none := by cases a <;> rfl

theorem minN_none_left (a : Option Ext) : minN none a = none := by cases a <;> rfl

theorem minN_none_right (a : Option Ext) : minN a none = none := by cases a <;> rfl

theorem foldl_maxN_none (l : CurveN) : l.foldl (fun m r => maxN m r.1) none = none := by
  induction l with
  | nil => rfl
  | cons s l ih => rw [List.foldl_cons, maxN_none_left, ih]

theorem foldl_maxN_mem {l : CurveN} (h : ∃ s ∈ l, s.1 = none) (m : Option Ext) :
    l.foldl (fun m r => maxN m r.1) m = none := by
  induction l generalizing m with
  | nil => simp at h
  | cons s l ih =>
    rw [List.foldl_cons]
    by_cases hs : s.1 = none
    · rw [hs, maxN_none_right, foldl_maxN_none]
    · apply ih
      obtain ⟨t, ht, hn⟩ := h
      rcases List.mem_cons.mp ht with rfl | ht
      · exact absurd hn hs
      · exact ⟨t, ht, hn⟩

theorem maxXN_none {f : CurveN} (h : ∃ s ∈ f, s.1 = none) : maxXN f = .ok none := by
  cases f with
  | nil => simp at h
  | cons s l =>
    obtain ⟨t, ht, hn⟩ := h
    show Except.ok (l.foldl (fun m r => maxN m r.1) s.1) = .ok none
    rcases List.mem_cons.mp ht with rfl | ht
    · rw [hn, foldl_maxN_none]
    · rw [foldl_maxN_mem ⟨t, ht, hn⟩]

theorem maxXN_ok {f : CurveN} (h : f ≠ []) : ∃ m, maxXN f = .ok m := by
  cases f with
  | nil => simp at h
  | cons s l => exact ⟨_, rfl⟩

/-- A single NaN among the breakpoints empties the grid. -/
theorem intersectN_none {f g : CurveN} (hf : f ≠ []) (hg : g ≠ []) (h : ∃ s ∈ f ++ g, s.1 = none) (k : ℚ) :
    intersectN f g k = .error .indexError := by
  have e : ∃ mf mg, maxXN f = .ok mf ∧ maxXN g = .ok mg ∧ minN mf mg = none := by
    obtain ⟨s, hs, hn⟩ := h
    rcases List.mem_append.mp hs with hs | hs
    · obtain ⟨mg, hmg⟩ := maxXN_ok hg
      exact ⟨none, mg, maxXN_none ⟨s, hs, hn⟩, hmg, minN_none_left _⟩
    · obtain ⟨mf, hmf⟩ := maxXN_ok hf
      exact ⟨mf, none, hmf, maxXN_none ⟨s, hs, hn⟩, minN_none_right _⟩
  obtain ⟨mf, mg, h1, h2, h3⟩ := e
  have e : gridXsN f g none = [] := by
    unfold gridXsN
    simp [leN]
  unfold intersectN
  rw [h1, h2]
  simp only [bind, Except.bind, h3, e]
  rfl

theorem cumsumN_none {l : List (Option Ext)} (h : none ∈ l) (a : Ext) (ps : List Ext) (hl : l.length = ps.length) :
    ∃ s ∈ List.zip (cumsumN a l) ps, s.1 = none := by
  induction l generalizing a ps with
  | nil => simp at h
  | cons x l ih =>
    cases ps with
    | nil => simp at hl
    | cons p ps =>
      have hl' : l.length = ps.length := by simpa using hl
      cases x with
      | none => exact ⟨(none, p), by simp [cumsumN], rfl⟩
      | some x =>
        have hm : none ∈ l := by simpa using h
        obtain ⟨s, hs, hn⟩ := ih hm (a + x) ps hl'
        exact ⟨s, by simp only [cumsumN, List.zip_cons_cons]; exact List.mem_cons_of_mem _ hs, hn⟩

/-- A bid without a quantity leaves NaN in its curve. -/
theorem curvesN_none (S : Sorter) {df : DF} {qty : ℕ → Option Ext} {r : Row} (hr : r ∈ df) (hq : qty r.label = none) :
    ∃ s ∈ demandCurveN S df qty ++ supplyCurveN S df qty, s.1 = none := by
  by_cases hb : r.buying = true
  · have hm : r ∈ sortDesc S (buys df) := (sortDesc_perm S (buys df)).mem_iff.mpr (List.mem_filter.mpr ⟨hr, hb⟩)
    obtain ⟨s, hs, hn⟩ := cumsumN_none (l := (sortDesc S (buys df)).map (fun r => qty r.label))
      (List.mem_map.mpr ⟨r, hm, hq⟩) ((0 : ℚ) : Ext) ((sortDesc S (buys df)).map (fun r => (r.price : Ext))) (by simp)
    exact ⟨s, List.mem_append_left _ (List.mem_append_left _ hs), hn⟩
  · have hm : r ∈ sortAsc S (sells df) := (sortAsc_perm S (sells df)).mem_iff.mpr
      (List.mem_filter.mpr ⟨hr, by simpa using hb⟩)
    obtain ⟨s, hs, hn⟩ := cumsumN_none (l := (sortAsc S (sells df)).map (fun r => qty r.label))
      (List.mem_map.mpr ⟨r, hm, hq⟩) ((0 : ℚ) : Ext) ((sortAsc S (sells df)).map (fun r => (r.price : Ext))) (by simp)
    exact ⟨s, List.mem_append_right _ (List.mem_append_left _ hs), hn⟩

/-! ## Peer to peer trading -/

theorem add_nan_left (a : Val) : Val.add .nan a = .nan := by cases a <;> rfl

theorem add_nan_right (a : Val) : Val.add a .nan = .nan := by cases a <;> rfl

theorem sumU_nan {l : List Val} (h : Val.nan ∈ l) : sumU l = .nan := by
  unfold sumU
  induction l with
  | nil => simp at h
  | cons a l ih =>
    rw [List.foldr_cons]
    rcases List.mem_cons.mp h with rfl | h
    · exact add_nan_left _
    · rw [ih h, add_nan_right]

theorem tradeOneN_known (prices : ℕ → ℚ) (c : ℚ) (q : ℕ → Val) (p : ℕ × ℕ) :
    tradeOneN (fun i => some (prices i)) c q p = tradeOneU prices c q p := by
  unfold tradeOneN tradeOneU
  have e : (if p.2 = p.1 then prices p.1 else prices p.2) = prices p.2 := by
    split_ifs with h
    · rw [h]
    · rfl
  simp only [e, if_true]

theorem tradeRoundN_known (prices : ℕ → ℚ) (c : ℚ) (q : ℕ → Val) (ps : List (ℕ × ℕ)) :
    tradeRoundN (fun i => some (prices i)) c q ps = tradeRoundU prices c q ps := by
  induction ps generalizing q with
  | nil => rfl
  | cons p ps ih => simp only [tradeRoundN, tradeRoundU, tradeOneN_known, ih]

end PyMarket
