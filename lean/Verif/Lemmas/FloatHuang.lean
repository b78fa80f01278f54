import Verif.Model.FloatHuang
import Verif.Lemmas.Float
import Verif.Lemmas.HuangClear

/-! # Lemmas about the curves and Huang's auction in floating point arithmetic -/

set_option autoImplicit false

namespace PyMarket

open Spec

/-! ## Exact arithmetic is a special case -/

theorem demandCurveF_exact (S : Sorter) (df : DF) :
    demandCurveF exactFmt S df = (demandCurve S df).1 := by
  unfold demandCurveF demandCurve
  simp only [cumsumF_exact]

theorem supplyCurveF_exact (S : Sorter) (df : DF) :
    supplyCurveF exactFmt S df = (supplyCurve S df).1 := by
  unfold supplyCurveF supplyCurve
  simp only [cumsumF_exact]

theorem Val.round_exact (v : Val) : v.round exactFmt = v := by
  cases v <;> rfl

theorem kMixF_exact (k : ℚ) (g f : Ext) : kMixF exactFmt k g f = kMix k g f := by
  unfold kMixF kMix
  simp only [Val.round_exact, exactFmt_rnd]

theorem intersectStepwiseF_exact (f g : Curve) (k : ℚ) :
    intersectStepwiseF exactFmt f g k = intersectStepwise f g k := by
  unfold intersectStepwiseF intersectStepwise
  simp only [kMixF_exact]
  rfl

theorem uqLoopF_none (F : Fmt) {q : List (Option ℚ)} (N : ℕ) (gap : ℚ) (h : nanArgMin q = none) :
    uqLoopF F q N gap = .error .valueError := by
  rw [uqLoopF]
  split
  · rfl
  · rename_i h'; rw [h] at h'; cases h'

theorem uqLoopF_some (F : Fmt) {q : List (Option ℚ)} (N : ℕ) (gap : ℚ) {i : ℕ} {v : ℚ}
    (h : nanArgMin q = some (i, v)) :
    uqLoopF F q N gap = if v < F.rnd (gap / N) then uqLoopF F (q.set i none) (N - 1) (F.rnd (gap - v))
      else .ok (q, N, gap) := by
  conv_lhs => rw [uqLoopF]
  split
  · rename_i h'; rw [h] at h'; cases h'
  · rename_i h'; rw [h] at h'; cases h'; rfl

theorem uqLoop_none {q : List (Option ℚ)} (N : ℕ) (gap : ℚ) (h : nanArgMin q = none) :
    uqLoop q N gap = .error .valueError := by
  rw [uqLoop]
  split
  · rfl
  · rename_i h'; rw [h] at h'; cases h'

theorem uqLoop_some {q : List (Option ℚ)} (N : ℕ) (gap : ℚ) {i : ℕ} {v : ℚ}
    (h : nanArgMin q = some (i, v)) :
    uqLoop q N gap = if v < gap / N then uqLoop (q.set i none) (N - 1) (gap - v)
      else .ok (q, N, gap) := by
  conv_lhs => rw [uqLoop]
  split
  · rename_i h'; rw [h] at h'; cases h'
  · rename_i h'; rw [h] at h'; cases h'; rfl

theorem uqLoopF_exact (q : List (Option ℚ)) (N : ℕ) (gap : ℚ) :
    uqLoopF exactFmt q N gap = uqLoop q N gap := by
  induction q, N, gap using uqLoop.induct with
  | case1 q N gap hn => rw [uqLoopF_none _ _ _ hn, uqLoop_none _ _ hn]
  | case2 q N gap i v hv hlt ih =>
    rw [uqLoopF_some _ _ _ hv, uqLoop_some _ _ hv, exactFmt_rnd, exactFmt_rnd, ih]
  | case3 q N gap i v hv hlt =>
    rw [uqLoopF_some _ _ _ hv, uqLoop_some _ _ hv, exactFmt_rnd, if_neg hlt, if_neg hlt]

theorem updateQuantityF_exact (q : List ℚ) (gap : ℚ) :
    updateQuantityF exactFmt q gap = updateQuantity q gap := by
  unfold updateQuantityF updateQuantity
  simp only [uqLoopF_exact, exactFmt_rnd]

/-- With exact numbers the rounded model is the model of `Verif/Model/Huang.lean`. -/
theorem huangAuctionF_exact (s : Summer exactFmt) (S : Sorter) (df : DF) :
    huangAuctionF exactFmt s S df = huangAuction S df := by
  unfold huangAuctionF huangAuction
  simp only [demandCurveF_exact, supplyCurveF_exact, intersectStepwiseF_exact, updateQuantityF_exact,
    exactFmt_rnd, Summer.exact]
  rfl

/-! ## Rounded curves are exact curves of a nearby book -/

/-- The table with the quantities replaced. -/
def requant (w : ℕ → ℚ) (df : DF) : DF := df.map (fun r => { r with quantity := w r.label })

theorem requant_length (w : ℕ → ℚ) (df : DF) : (requant w df).length = df.length := by
  simp [requant]

theorem requant_prices (w : ℕ → ℚ) (df : DF) :
    (requant w df).map (fun r => r.price) = df.map (fun r => r.price) := by
  simp [requant]

theorem sortDesc_requant (S : Sorter) (w : ℕ → ℚ) (df : DF) :
    sortDesc S (requant w df) = requant w (sortDesc S df) := by
  unfold sortDesc
  rw [requant_prices]
  unfold requant
  rw [takeIdx_map]

theorem sortAsc_requant (S : Sorter) (w : ℕ → ℚ) (df : DF) :
    sortAsc S (requant w df) = requant w (sortAsc S df) := by
  unfold sortAsc
  rw [requant_prices]
  unfold requant
  rw [takeIdx_map]

theorem buys_requant (w : ℕ → ℚ) (df : DF) : buys (requant w df) = requant w (buys df) := by
  unfold buys requant
  rw [List.filter_map]
  rfl

theorem sells_requant (w : ℕ → ℚ) (df : DF) : sells (requant w df) = requant w (sells df) := by
  unfold sells requant
  rw [List.filter_map]
  rfl

theorem requant_isTable {w : ℕ → ℚ} {df : DF} (h : IsTable df) : IsTable (requant w df) := by
  unfold IsTable at *
  rw [requant_length, ← h]
  simp [requant]

/-- Differences of the consecutive rounded running totals. -/
def stepsF (F : Fmt) (acc : ℚ) : List ℚ → List ℚ
  | [] => []
  | x :: xs => (F.rnd (acc + x) - acc) :: stepsF F (F.rnd (acc + x)) xs

theorem stepsF_length (F : Fmt) (acc : ℚ) (l : List ℚ) : (stepsF F acc l).length = l.length := by
  induction l generalizing acc with
  | nil => rfl
  | cons x l ih => simp [stepsF, ih]

theorem cumsumFrom_stepsF (F : Fmt) (acc : ℚ) (l : List ℚ) :
    cumsumFrom acc (stepsF F acc l) = cumsumFromF F acc l := by
  induction l generalizing acc with
  | nil => rfl
  | cons x l ih =>
    simp only [stepsF, cumsumFrom, cumsumFromF, add_sub_cancel]
    rw [ih]

theorem stepsF_nonneg (F : Fmt) {acc : ℚ} (ha : F.Rep acc) {l : List ℚ} (hl : ∀ x ∈ l, 0 ≤ x) :
    ∀ y ∈ stepsF F acc l, 0 ≤ y := by
  induction l generalizing acc with
  | nil => intro y hy; cases hy
  | cons x l ih =>
    intro y hy
    rcases List.mem_cons.mp hy with rfl | hy
    · have := F.le_rnd ha (y := acc + x) (by linarith [hl x List.mem_cons_self])
      linarith
    · exact ih (F.rep_rnd _) (fun z hz => hl z (List.mem_cons_of_mem _ hz)) y hy

/-- Each difference is off by at most the rounding of the running total. -/
theorem stepsF_err (F : Fmt) {acc : ℚ} (ha : 0 ≤ acc) {l : List ℚ} (hl : ∀ x ∈ l, 0 ≤ x) :
    List.Forall₂ (fun x y => |y - x| ≤ F.eps * ((1 + F.eps) ^ l.length * (acc + l.sum))) l
      (stepsF F acc l) := by
  have e0 := F.eps_nonneg
  induction l generalizing acc with
  | nil => exact List.Forall₂.nil
  | cons x l ih =>
    have hx := hl x List.mem_cons_self
    have hl' : ∀ z ∈ l, 0 ≤ z := fun z hz => hl z (List.mem_cons_of_mem _ hz)
    have hs : 0 ≤ l.sum := List.sum_nonneg hl'
    have hr := F.err (acc + x)
    rw [abs_of_nonneg (by linarith : 0 ≤ acc + x)] at hr
    have hr' := abs_le.mp hr
    have p1 : 1 ≤ (1 + F.eps) ^ (x :: l).length := one_le_pow₀ (by linarith)
    simp only [stepsF]
    refine List.Forall₂.cons ?_ ?_
    · rw [sub_sub]
      refine hr.trans (mul_le_mul_of_nonneg_left ?_ e0)
      rw [List.sum_cons]
      nlinarith
    · refine (ih (F.rnd_nonneg (by linarith)) hl').imp ?_
      intro a b hab
      refine hab.trans (mul_le_mul_of_nonneg_left ?_ e0)
      rw [List.sum_cons, List.length_cons, pow_succ, mul_assoc]
      apply mul_le_mul_of_nonneg_left _ (by positivity)
      nlinarith [hr'.2]

/-- Any quantities can be assigned to rows with distinct labels. -/
theorem exists_weight (l : DF) (hn : (l.map (fun r => r.label)).Nodup) (d : List ℚ)
    (hl : d.length = l.length) : ∃ w : ℕ → ℚ, l.map (fun r => w r.label) = d := by
  induction l generalizing d with
  | nil =>
    refine ⟨fun _ => 0, ?_⟩
    cases d with
    | nil => rfl
    | cons _ _ => cases hl
  | cons r l ih =>
    cases d with
    | nil => cases hl
    | cons x d =>
      rw [List.map_cons, List.nodup_cons] at hn
      obtain ⟨w, hw⟩ := ih hn.2 d (by simpa using hl)
      refine ⟨fun i => if i = r.label then x else w i, ?_⟩
      rw [List.map_cons, ← hw]
      simp only [if_true]
      congr 1
      apply List.map_congr_left
      intro r' hr'
      have : r'.label ≠ r.label := fun h => hn.1 (by rw [← h]; exact List.mem_map_of_mem hr')
      exact if_neg this

theorem sides_perm (S : Sorter) (df : DF) :
    (sortDesc S (buys df) ++ sortAsc S (sells df)).Perm df :=
  ((sortDesc_perm S _).append (sortAsc_perm S _)).trans (by
    unfold buys sells
    have := List.filter_append_perm (fun r : Row => r.buying) df
    exact this)

theorem requant_nonNeg {w : ℕ → ℚ} {df : DF} (hq : NonNeg df) (h : ∀ r ∈ requant w df, 0 ≤ r.quantity) :
    NonNeg (requant w df) := by
  intro r' hr'
  refine ⟨h r' hr', ?_⟩
  obtain ⟨r, hr, rfl⟩ := List.mem_map.mp hr'
  exact (hq r hr).2

/-- The exact curves of the reweighted book. -/
theorem exists_backward (F : Fmt) (S : Sorter) {df : DF}
    (hnd : (df.map (fun r => r.label)).Nodup) (hq : ∀ r ∈ df, 0 ≤ r.quantity) :
    ∃ w : ℕ → ℚ,
      (sortDesc S (buys df)).map (fun r => w r.label) =
        stepsF F 0 ((sortDesc S (buys df)).map (fun r => r.quantity)) ∧
      (sortAsc S (sells df)).map (fun r => w r.label) =
        stepsF F 0 ((sortAsc S (sells df)).map (fun r => r.quantity)) ∧
      (∀ r ∈ requant w df, 0 ≤ r.quantity) ∧
      demandCurveF F S df = (demandCurve S (requant w df)).1 ∧
      supplyCurveF F S df = (supplyCurve S (requant w df)).1 := by
  have hp := sides_perm S df
  have hn : ((sortDesc S (buys df) ++ sortAsc S (sells df)).map (fun r => r.label)).Nodup :=
    (hp.map _).nodup_iff.mpr hnd
  obtain ⟨w, hw⟩ := exists_weight _ hn
    (stepsF F 0 ((sortDesc S (buys df)).map (fun r => r.quantity)) ++
      stepsF F 0 ((sortAsc S (sells df)).map (fun r => r.quantity))) (by simp [stepsF_length])
  rw [List.map_append] at hw
  obtain ⟨h1, h2⟩ := List.append_inj hw (by simp [stepsF_length])
  have q1 : ∀ x ∈ (sortDesc S (buys df)).map (fun r => r.quantity), 0 ≤ x := by
    intro x hx
    obtain ⟨r, hr, rfl⟩ := List.mem_map.mp hx
    exact hq r (mem_buys.mp (mem_sortDesc.mp hr)).1
  have q2 : ∀ x ∈ (sortAsc S (sells df)).map (fun r => r.quantity), 0 ≤ x := by
    intro x hx
    obtain ⟨r, hr, rfl⟩ := List.mem_map.mp hx
    exact hq r (mem_sells.mp (mem_sortAsc.mp hr)).1
  refine ⟨w, h1, h2, ?_, ?_, ?_⟩
  · intro r' hr'
    obtain ⟨r, hr, rfl⟩ := List.mem_map.mp hr'
    have hr2 := hp.mem_iff.mpr hr
    rcases List.mem_append.mp hr2 with h | h
    · exact stepsF_nonneg F F.rep_zero q1 _ (by rw [← h1]; exact List.mem_map_of_mem h)
    · exact stepsF_nonneg F F.rep_zero q2 _ (by rw [← h2]; exact List.mem_map_of_mem h)
  · unfold demandCurveF demandCurve
    simp only [buys_requant, sortDesc_requant, requant_prices]
    have : (requant w (sortDesc S (buys df))).map (fun r => r.quantity) =
        stepsF F 0 ((sortDesc S (buys df)).map (fun r => r.quantity)) := by
      rw [← h1]; simp [requant]
    rw [this]
    unfold cumsum cumsumF
    rw [cumsumFrom_stepsF]
  · unfold supplyCurveF supplyCurve
    simp only [sells_requant, sortAsc_requant, requant_prices]
    have : (requant w (sortAsc S (sells df))).map (fun r => r.quantity) =
        stepsF F 0 ((sortAsc S (sells df)).map (fun r => r.quantity)) := by
      rw [← h2]; simp [requant]
    rw [this]
    unfold cumsum cumsumF
    rw [cumsumFrom_stepsF]

/-- Rounding in `intersect_stepwise` only touches the price. -/
theorem intersectStepwiseF_eq (F : Fmt) (f g : Curve) (k : ℚ) {x : Option Ext} {a b : Option ℕ} {v : Val}
    (h : intersectStepwise f g k = .ok ⟨x, a, b, v⟩) :
    ∃ v', intersectStepwiseF F f g k = .ok ⟨x, a, b, v'⟩ := by
  unfold intersectStepwise at h
  unfold intersectStepwiseF
  cases h1 : maxX f with
  | error e => rw [h1] at h; cases h
  | ok mf =>
    cases h2 : maxX g with
    | error e => rw [h1, h2] at h; cases h
    | ok mg =>
      rw [h1, h2] at h
      simp only [bind, Except.bind] at h ⊢
      cases h3 : crossLoop f g (gridXs f g (min mf mg)) none with
      | error e => rw [h3] at h; cases h
      | ok o =>
        rw [h3] at h
        simp only at h ⊢
        cases o with
        | some y =>
          simp only at h ⊢
          generalize g[argmaxTrue (g.map (fun s => decide (y ≤ s.1)))]? = o1 at h ⊢
          generalize f[argmaxTrue (f.map (fun s => decide (y ≤ s.1)))]? = o2 at h ⊢
          cases o1 with
          | none => cases h
          | some r1 =>
            cases o2 with
            | none => cases h
            | some r2 =>
              simp only [Except.ok.injEq, Intersection.mk.injEq] at h ⊢
              exact ⟨_, h.1, h.2.1, h.2.2.1, rfl⟩
        | none =>
          simp only at h ⊢
          generalize (gridXs f g (min mf mg)).getLast? = o1 at h ⊢
          cases o1 with
          | none => cases h
          | some xl =>
            simp only at h ⊢
            generalize getValueStepwise xl g = o2 at h ⊢
            generalize getValueStepwise xl f = o3 at h ⊢
            cases o2 with
            | none => cases h
            | some r1 =>
              cases o3 with
              | none => cases h
              | some r2 =>
                simp only [Except.ok.injEq, Intersection.mk.injEq] at h ⊢
                exact ⟨_, h.1, h.2.1, h.2.2.1, rfl⟩

/-! ## `update_quantity` -/

/-- Some entries may have become NaN. -/
def Erased (q q' : List (Option ℚ)) : Prop := List.Forall₂ (fun o o' => o' = o ∨ o' = none) q q'

theorem erased_refl (q : List (Option ℚ)) : Erased q q := by
  induction q with
  | nil => exact List.Forall₂.nil
  | cons o q ih => exact List.Forall₂.cons (Or.inl rfl) ih

theorem erased_set (q : List (Option ℚ)) (i : ℕ) : Erased q (q.set i none) := by
  induction q generalizing i with
  | nil => exact List.Forall₂.nil
  | cons o q ih =>
    cases i with
    | zero => exact List.Forall₂.cons (Or.inr rfl) (erased_refl q)
    | succ i => exact List.Forall₂.cons (Or.inl rfl) (ih i)

theorem Erased.trans {a b c : List (Option ℚ)} (h1 : Erased a b) (h2 : Erased b c) : Erased a c := by
  induction h1 generalizing c with
  | nil => exact h2
  | cons h _ ih =>
    cases h2 with
    | cons h' h2 =>
      refine List.Forall₂.cons ?_ (ih h2)
      rcases h' with rfl | rfl
      · exact h
      · exact Or.inr rfl

theorem mem_set_none {q : List (Option ℚ)} {i : ℕ} {v : ℚ} (h : some v ∈ q.set i none) : some v ∈ q := by
  induction q generalizing i with
  | nil => exact h
  | cons o q ih =>
    cases i with
    | zero =>
      rcases List.mem_cons.mp h with h | h
      · cases h
      · exact List.mem_cons_of_mem _ h
    | succ i =>
      rcases List.mem_cons.mp h with h | h
      · rw [h]; exact List.mem_cons_self
      · exact List.mem_cons_of_mem _ (ih h)

/-- The state of the loop when it ends. -/
theorem uqLoopF_ok (F : Fmt) (q : List (Option ℚ)) (N : ℕ) (gap : ℚ) (hN : N = q.countP Option.isSome)
    (hq : ∀ v, some v ∈ q → 0 ≤ v) (h0 : 0 ≤ gap) (hg : F.Rep gap) {q' : List (Option ℚ)} {N' : ℕ}
    {gap' : ℚ} (h : uqLoopF F q N gap = .ok (q', N', gap')) :
    Erased q q' ∧ N' = q'.countP Option.isSome ∧ 1 ≤ N' ∧ N' ≤ N ∧ 0 ≤ gap' ∧ gap' ≤ gap ∧
    (∀ v, some v ∈ q' → F.rnd (gap' / N') ≤ v) ∧
    |(sumSome q' - gap') - (sumSome q - gap)| ≤ ((N : ℚ) - N') * (F.eps * gap) := by
  have e0 := F.eps_nonneg
  induction hn : q.countP Option.isSome generalizing q N gap with
  | zero =>
    rw [uqLoopF_none F N gap ((nanArgMin_none q).mpr hn)] at h
    cases h
  | succ n ih =>
    cases hv : nanArgMin q with
    | none => rw [uqLoopF_none F N gap hv] at h; cases h
    | some iv =>
      obtain ⟨i, v⟩ := iv
      rw [uqLoopF_some F N gap hv] at h
      have hget := nanArgMin_getElem? q i v hv
      have hc := countP_set_none_eq q i v hget
      have hv0 : 0 ≤ v := hq v (List.mem_of_getElem? hget)
      have hN1 : (1 : ℚ) ≤ N := by exact_mod_cast (by omega : 1 ≤ N)
      split_ifs at h with hlt
      · have hgN : F.rnd (gap / N) ≤ gap := F.rnd_le hg (div_le_self h0 hN1)
        have hvg : v ≤ gap := (hlt.trans_le hgN).le
        have hr := F.err (gap - v)
        rw [abs_of_nonneg (by linarith : 0 ≤ gap - v)] at hr
        have hg1 : F.rnd (gap - v) ≤ gap := F.rnd_le hg (by linarith)
        have hg0 : 0 ≤ F.rnd (gap - v) := F.rnd_nonneg (by linarith)
        obtain ⟨a1, a2, a3, a4, a5, a6, a7, a8⟩ := ih (q.set i none) (N - 1) (F.rnd (gap - v)) (by omega)
          (fun w hw => hq w (mem_set_none hw)) hg0 (F.rep_rnd _) h (by omega)
        refine ⟨(erased_set q i).trans a1, a2, a3, by omega, a5, a6.trans hg1, a7, ?_⟩
        rw [sumSome_set_none q i v hget] at a8
        have hcast : ((N - 1 : ℕ) : ℚ) = N - 1 := by
          rw [Nat.cast_sub (by omega)]; simp
        have hN' : ((N' : ℚ)) ≤ N - 1 := by
          rw [← hcast]; exact_mod_cast a4
        rw [hcast] at a8
        rw [abs_le] at a8 hr ⊢
        have b1 : F.eps * (gap - v) ≤ F.eps * gap := mul_le_mul_of_nonneg_left (by linarith) e0
        have b2 : ((N : ℚ) - 1 - N') * (F.eps * F.rnd (gap - v)) ≤ ((N : ℚ) - 1 - N') * (F.eps * gap) :=
          mul_le_mul_of_nonneg_left (mul_le_mul_of_nonneg_left hg1 e0) (by linarith)
        constructor
        · nlinarith [a8.1, hr.1, hr.2]
        · nlinarith [a8.2, hr.1, hr.2]
      · cases h
        refine ⟨erased_refl _, hN, by omega, le_refl _, h0, le_refl _, ?_, by simp⟩
        intro w hw
        exact (not_lt.mp hlt).trans (nanArgMin_le _ i v hv w hw)

/-- The loop ends normally if the gap stays below the total by the rounding errors of the loop. -/
theorem uqLoopF_total (F : Fmt) (q : List (Option ℚ)) (N : ℕ) (gap G : ℚ)
    (hN : N = q.countP Option.isSome) (hN1 : 1 ≤ N)
    (hq : ∀ v, some v ∈ q → 0 ≤ v) (h0 : 0 ≤ gap) (hg : F.Rep gap) (hG : gap ≤ G)
    (hs : gap + ((N : ℚ) - 1) * (F.eps * G) ≤ sumSome q) : ∃ r, uqLoopF F q N gap = .ok r := by
  have e0 := F.eps_nonneg
  induction hn : q.countP Option.isSome generalizing q N gap with
  | zero => omega
  | succ n ih =>
    cases hv : nanArgMin q with
    | none => rw [nanArgMin_none] at hv; omega
    | some iv =>
      obtain ⟨i, v⟩ := iv
      rw [uqLoopF_some F N gap hv]
      have hget := nanArgMin_getElem? q i v hv
      have hc := countP_set_none_eq q i v hget
      have hss := sumSome_set_none q i v hget
      have hv0 : 0 ≤ v := hq v (List.mem_of_getElem? hget)
      have hNq : (1 : ℚ) ≤ N := by exact_mod_cast hN1
      split_ifs with hlt
      · have hgN : F.rnd (gap / N) ≤ gap := F.rnd_le hg (div_le_self h0 hNq)
        have hvg : v ≤ gap := (hlt.trans_le hgN).le
        have hr := F.err (gap - v)
        rw [abs_of_nonneg (by linarith : 0 ≤ gap - v), abs_le] at hr
        have hg1 : F.rnd (gap - v) ≤ gap := F.rnd_le hg (by linarith)
        have hg0 : 0 ≤ F.rnd (gap - v) := F.rnd_nonneg (by linarith)
        by_cases hN2 : 2 ≤ N
        · have hcast : ((N - 1 : ℕ) : ℚ) = N - 1 := by
            rw [Nat.cast_sub (by omega)]; simp
          apply ih (q.set i none) (N - 1) (F.rnd (gap - v)) (by omega) (by omega)
            (fun w hw => hq w (mem_set_none hw)) hg0 (F.rep_rnd _) (hg1.trans hG) _ (by omega)
          rw [hss, hcast]
          have b1 : F.eps * (gap - v) ≤ F.eps * G := mul_le_mul_of_nonneg_left (by linarith) e0
          nlinarith [hr.2]
        · exfalso
          have hN' : N = 1 := by omega
          subst hN'
          have hz : (q.set i none).countP Option.isSome = 0 := by omega
          have : sumSome (q.set i none) = 0 := by
            rw [List.countP_eq_zero] at hz
            unfold sumSome
            apply List.sum_eq_zero
            intro x hx
            obtain ⟨o, ho, rfl⟩ := List.mem_map.mp hx
            cases o with
            | none => rfl
            | some w => exact absurd rfl (hz _ ho)
          rw [this] at hss
          simp only [Nat.cast_one, div_one, sub_self, zero_mul, add_zero] at hlt hs
          rw [hg] at hlt
          linarith
      · exact ⟨_, rfl⟩

/-- `update_quantity` on rounded numbers. -/
theorem updateQuantityF_ok (F : Fmt) {q : List ℚ} {gap : ℚ} (hq : ∀ x ∈ q, 0 ≤ x ∧ F.Rep x)
    (h0 : 0 ≤ gap) (hg : F.Rep gap) {r : List ℚ} (h : updateQuantityF F q gap = .ok r) :
    List.Forall₂ (fun x y => 0 ≤ y ∧ y ≤ x ∧ F.Rep y) q r ∧
    |r.sum - (q.sum - gap)| ≤ F.eps * (q.sum + q.length * gap) := by
  have e0 := F.eps_nonneg
  unfold updateQuantityF at h
  simp only [bind, Except.bind] at h
  cases hl : uqLoopF F (q.map some) q.length gap with
  | error e => rw [hl] at h; cases h
  | ok res =>
    obtain ⟨q', N', g'⟩ := res
    rw [hl] at h
    simp only [Except.ok.injEq] at h
    obtain ⟨a1, a2, a3, a4, a5, a6, a7, a8⟩ := uqLoopF_ok F (q.map some) q.length gap
      (countP_map_some q).symm (by
        intro v hv
        obtain ⟨x, hx, he⟩ := List.mem_map.mp hv
        cases he
        exact (hq v hx).1) h0 hg hl
    have hN1 : (1 : ℚ) ≤ N' := by exact_mod_cast a3
    set d := F.rnd (g' / N') with hd
    have hd0 : 0 ≤ d := F.rnd_nonneg (div_nonneg a5 (by linarith))
    set q1 := (q'.map (fun o => o.getD 0)).map (fun x => F.rnd (x - d)) with hq1
    have hmax : 0 ≤ maxList q1 := by
      obtain ⟨o, ho, hs⟩ : ∃ o ∈ q', o.isSome = true := by
        have : 0 < q'.countP Option.isSome := by omega
        exact List.countP_pos_iff.mp this
      obtain ⟨v, rfl⟩ := Option.isSome_iff_exists.mp hs
      have h1 : F.rnd (v - d) ∈ q1 :=
        List.mem_map.mpr ⟨v, List.mem_map.mpr ⟨_, ho, rfl⟩, rfl⟩
      exact (F.rnd_nonneg (by linarith [a7 v ho])).trans (le_maxList h1)
    have hr : r = q'.map (fun o => max (F.rnd (o.getD 0 - d)) 0) := by
      rw [← h]
      have : q1.map (clip0 (maxList q1)) = q1.map (fun x => max x 0) := by
        apply List.map_congr_left
        intro x hx
        unfold clip0
        exact min_eq_left (max_le (le_maxList hx) hmax)
      rw [this, hq1, List.map_map, List.map_map]
      rfl
    have hkey : ∀ (l : List ℚ) (m : List (Option ℚ)), (∀ x ∈ l, 0 ≤ x ∧ F.Rep x) →
        (∀ v, some v ∈ m → d ≤ v) → Erased (l.map some) m →
        List.Forall₂ (fun x y => 0 ≤ y ∧ y ≤ x ∧ F.Rep y) l
          (m.map (fun o => max (F.rnd (o.getD 0 - d)) 0)) ∧
        |(m.map (fun o => max (F.rnd (o.getD 0 - d)) 0)).sum -
          (sumSome m - (m.countP Option.isSome : ℕ) * d)| ≤ F.eps * l.sum := by
      intro l
      induction l with
      | nil =>
        intro m _ _ he
        cases he
        exact ⟨List.Forall₂.nil, by simp⟩
      | cons x l ih =>
        intro m hx hm he
        cases he with
        | @cons _ o _ m ho he =>
          obtain ⟨b1, b2⟩ := ih m (fun y hy => hx y (List.mem_cons_of_mem _ hy))
            (fun v hv => hm v (List.mem_cons_of_mem _ hv)) he
          obtain ⟨x0, xr⟩ := hx x List.mem_cons_self
          rw [abs_le] at b2
          rcases ho with rfl | rfl
          · have hdx := hm x List.mem_cons_self
            have hp : 0 ≤ F.rnd (x - d) := F.rnd_nonneg (by linarith)
            have hle : F.rnd (x - d) ≤ x := F.rnd_le xr (by linarith)
            have herr := F.err (x - d)
            rw [abs_of_nonneg (by linarith : 0 ≤ x - d), abs_le] at herr
            refine ⟨List.Forall₂.cons ?_ b1, ?_⟩
            · simp only [Option.getD_some]
              rw [max_eq_left hp]
              exact ⟨hp, hle, F.rep_rnd _⟩
            · simp only [List.map_cons, List.sum_cons, Option.getD_some, sumSome_cons, List.countP_cons,
                Option.isSome_some, if_true]
              rw [max_eq_left hp]
              push_cast
              rw [abs_le]
              have : F.eps * (x - d) ≤ F.eps * x := mul_le_mul_of_nonneg_left (by linarith) e0
              constructor
              · linarith [herr.1, b2.1]
              · linarith [herr.2, b2.2]
          · have hn : F.rnd (0 - d) ≤ 0 := F.rnd_nonpos (by linarith)
            refine ⟨List.Forall₂.cons ?_ b1, ?_⟩
            · simp only [Option.getD_none]
              rw [max_eq_right hn]
              exact ⟨le_refl _, x0, F.rep_zero⟩
            · simp only [List.map_cons, List.sum_cons, Option.getD_none, sumSome_cons, List.countP_cons,
                Option.isSome_none]
              rw [max_eq_right hn]
              have : 0 ≤ F.eps * x := mul_nonneg e0 x0
              simp only [Bool.false_eq_true, if_false, add_zero, zero_add]
              rw [abs_le]
              constructor
              · linarith [b2.1]
              · linarith [b2.2]
    obtain ⟨k1, k2⟩ := hkey q q' hq (fun v hv => a7 v hv) a1
    refine ⟨by rw [hr]; exact k1, ?_⟩
    rw [hr]
    rw [← a2] at k2
    rw [sumSome_map_some] at a8
    have hde := F.err (g' / N')
    rw [← hd, abs_of_nonneg (div_nonneg a5 (by linarith)), abs_le] at hde
    have hmul : ((N' : ℚ)) * (g' / N') = g' := by field_simp
    have c1 : (N' : ℚ) * d - g' ≤ F.eps * g' := by
      have := mul_le_mul_of_nonneg_left hde.2 (by linarith : (0 : ℚ) ≤ N')
      nlinarith
    have c2 : -(F.eps * g') ≤ (N' : ℚ) * d - g' := by
      have := mul_le_mul_of_nonneg_left hde.1 (by linarith : (0 : ℚ) ≤ N')
      nlinarith
    have c3 : F.eps * g' ≤ F.eps * gap := mul_le_mul_of_nonneg_left a6 e0
    have hN : (N' : ℚ) ≤ q.length := by exact_mod_cast a4
    have hge : 0 ≤ F.eps * gap := mul_nonneg e0 h0
    rw [abs_le] at k2 a8 ⊢
    constructor
    · nlinarith [k2.1, a8.1]
    · nlinarith [k2.2, a8.2]

/-- `update_quantity` returns if the gap stays below the total by the rounding errors. -/
theorem updateQuantityF_total (F : Fmt) {q : List ℚ} {gap : ℚ} (hne : q ≠ []) (hq : ∀ x ∈ q, 0 ≤ x)
    (h0 : 0 ≤ gap) (hg : F.Rep gap) (hs : gap + ((q.length : ℚ) - 1) * (F.eps * gap) ≤ q.sum) :
    ∃ r, updateQuantityF F q gap = .ok r := by
  obtain ⟨⟨a, b, c⟩, h⟩ := uqLoopF_total F (q.map some) q.length gap gap (countP_map_some q).symm
    (List.length_pos_of_ne_nil hne) (by
      intro v hv
      obtain ⟨x, hx, he⟩ := List.mem_map.mp hv
      cases he
      exact hq v hx) h0 hg (le_refl _) (by rw [sumSome_map_some]; exact hs)
  unfold updateQuantityF
  simp only [bind, Except.bind, h]
  exact ⟨_, rfl⟩

theorem uqLoopF_valueError (F : Fmt) (q : List (Option ℚ)) (N : ℕ) (gap : ℚ) (e : PyErr)
    (h : uqLoopF F q N gap = .error e) : e = .valueError := by
  induction hn : q.countP Option.isSome generalizing q N gap with
  | zero => rw [uqLoopF_none F N gap ((nanArgMin_none q).mpr hn)] at h; cases h; rfl
  | succ n ih =>
    cases hv : nanArgMin q with
    | none => rw [uqLoopF_none F N gap hv] at h; cases h; rfl
    | some iv =>
      obtain ⟨i, v⟩ := iv
      rw [uqLoopF_some F N gap hv] at h
      have hc := countP_set_none_eq q i v (nanArgMin_getElem? q i v hv)
      split_ifs at h
      exact ih _ _ _ h (by omega)

/-- The only exception of `update_quantity` is the one of `nanargmin`. -/
theorem updateQuantityF_valueError (F : Fmt) (q : List ℚ) (gap : ℚ) (e : PyErr)
    (h : updateQuantityF F q gap = .error e) : e = .valueError := by
  unfold updateQuantityF at h
  simp only [bind, Except.bind] at h
  cases hl : uqLoopF F (q.map some) q.length gap with
  | error e' => rw [hl] at h; cases h; exact uqLoopF_valueError F _ _ _ _ hl
  | ok res => rw [hl] at h; cases h

/-! ## The auction -/

/-- What the auction does with the bids in front of the marginal ones
(`pymarket/mechanisms/huang_auction.py:140-205`). -/
def huangClearF (F : Fmt) (s : Summer F) (A B : DF) (ps pb : ℚ) :
    Except PyErr (TransactionManager × Extra) :=
  if B ≠ [] ∧ A ≠ [] then do
    let quantityBuy := B.map (fun r => r.quantity)
    let quantitySell := A.map (fun r => r.quantity)
    let gap := F.rnd (s.sum quantitySell - s.sum quantityBuy)
    let (qs, qb) ←
      if 0 < gap then do
        let qs ← updateQuantityF F quantitySell gap
        Except.ok (qs, quantityBuy)
      else do
        let qb ← updateQuantityF F quantityBuy (-gap)
        Except.ok (quantitySell, qb)
    let ts := huangSideTrans A qs ps ++ huangSideTrans B qb pb
    .ok (TransactionManager.init.addAll ts, .huang (ps : Ext) (pb : Ext) (s.sum qb))
  else
    .ok (TransactionManager.init, .huang (ps : Ext) (pb : Ext)
      (s.sum (B.map (fun r => r.quantity))))

/-- Either there is no crossing, or the auction clears the bids in front of two marginal bids. -/
theorem huangF_cases (F : Fmt) (s : Summer F) (S : Sorter) {df : DF} (ht : IsTable df) (hq : NonNeg df) :
    huangAuctionF F s S df = .ok (TransactionManager.init, .empty) ∨
    ∃ (b g : ℕ) (mb ms : Row), (sortDesc S (buys df))[b]? = some mb ∧
      (sortAsc S (sells df))[g]? = some ms ∧ ms.price < mb.price ∧
      huangAuctionF F s S df = huangClearF F s ((sortAsc S (sells df)).take g)
        ((sortDesc S (buys df)).take b) ms.price mb.price := by
  obtain ⟨w, _, _, hw, hd, hs⟩ := exists_backward F S ht.nodup (fun r h => (hq r h).1)
  replace hw := requant_nonNeg hq hw
  rcases intersect_cases S hw (1 / 2) with ⟨x, hc, he⟩ | ⟨he, _⟩
  · right
    obtain ⟨v', hv'⟩ := intersectStepwiseF_eq F _ _ _ he
    obtain ⟨rs, hrs1, hrs2⟩ := hc.marginal_sell
    obtain ⟨rb, hrb1, hrb2⟩ := hc.marginal_buy hw
    have hlt := hc.at_x
    rw [hrs2, hrb2] at hlt
    obtain ⟨bg, _, hbg⟩ := stepCurve_get_idx (x : Ext) 0 (sortAsc S (sells (requant w df))) ⊤
    obtain ⟨bf, _, hbf⟩ := stepCurve_get_idx (x : Ext) 0 (sortDesc S (buys (requant w df)))
      ((0 : ℚ) : Ext)
    have g1 : (demandCurve S (requant w df)).1[demandIdx S (requant w df) x]? =
        some (bf, ((rb.price : ℚ) : Ext)) := by
      rw [demandCurve_eq, ← hrb2]; exact hbf
    have g2 : (supplyCurve S (requant w df)).1[supplyIdx S (requant w df) x]? =
        some (bg, ((rs.price : ℚ) : Ext)) := by
      rw [supplyCurve_eq, ← hrs2]; exact hbg
    rw [buys_requant, sortDesc_requant] at hrb1
    rw [sells_requant, sortAsc_requant] at hrs1
    unfold requant at hrb1 hrs1
    rw [List.getElem?_map, Option.map_eq_some_iff] at hrb1 hrs1
    obtain ⟨mb, hmb, rfl⟩ := hrb1
    obtain ⟨ms, hms, rfl⟩ := hrs1
    refine ⟨_, _, mb, ms, hmb, hms, WithTop.coe_lt_coe.mp hlt, ?_⟩
    obtain ⟨hbl, _⟩ := List.getElem?_eq_some_iff.mp hmb
    obtain ⟨hsl, _⟩ := List.getElem?_eq_some_iff.mp hms
    have hB := take_eq_nil hbl
    have hA := take_eq_nil hsl
    unfold huangAuctionF
    simp only [hd, hs, hv', bind, Except.bind, g1, g2]
    unfold huangClearF
    simp only [bind, Except.bind]
    unfold requant at hA hB ⊢
    have hcond : (0 < demandIdx S (List.map (fun r => { r with quantity := w r.label }) df) x ∧
        0 < supplyIdx S (List.map (fun r => { r with quantity := w r.label }) df) x) ↔
        ((sortDesc S (buys df)).take
          (demandIdx S (List.map (fun r => { r with quantity := w r.label }) df) x) ≠ [] ∧
        (sortAsc S (sells df)).take
          (supplyIdx S (List.map (fun r => { r with quantity := w r.label }) df) x) ≠ []) := by
      rw [Ne, Ne, hB, hA]; omega
    split_ifs <;> first | rfl | (exfalso; tauto)
  · left
    obtain ⟨v', hv'⟩ := intersectStepwiseF_eq F _ _ _ he
    unfold huangAuctionF
    simp only [hd, hs, hv', bind, Except.bind]

end PyMarket
