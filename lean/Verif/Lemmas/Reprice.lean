import Verif.Spec.Reprice
import Verif.Lemmas.ScaleMuda

/-! # Huang's auction and peer to peer trading under new prices in the same order -/

set_option autoImplicit false

namespace PyMarket

open Spec

/-! ## Strictly increasing interpolation -/

/-- Continues the line through the points of the list, which are to the right of `(a, b)`. -/
def interp (a b : ℚ) : List (ℚ × ℚ) → ℚ → ℚ
  | [], x => b + (x - a)
  | p :: ps, x => if x ≤ p.1 then b + (x - a) * ((p.2 - b) / (p.1 - a)) else interp p.1 p.2 ps x

theorem interp_spec (ps : List (ℚ × ℚ)) : ∀ (a b : ℚ),
    ((a, b) :: ps).Pairwise (fun p q => p.1 < q.1 ∧ p.2 < q.2) →
    interp a b ps a = b ∧ (∀ p ∈ ps, interp a b ps p.1 = p.2) ∧
      ∀ x y, a ≤ x → x < y → interp a b ps x < interp a b ps y := by
  induction ps with
  | nil =>
    intro a b _
    refine ⟨by simp [interp], (fun p hp => nomatch hp), ?_⟩
    intro x y _ h
    simp only [interp]
    linarith
  | cons p ps ih =>
    intro a b h
    rw [List.pairwise_cons] at h
    obtain ⟨h1, h2⟩ := h
    obtain ⟨i1, i2, i3⟩ := ih p.1 p.2 h2
    have hp := h1 p (List.mem_cons_self ..)
    simp only at hp
    have hs : 0 < (p.2 - b) / (p.1 - a) := div_pos (by linarith [hp.2]) (by linarith [hp.1])
    have hend : b + (p.1 - a) * ((p.2 - b) / (p.1 - a)) = p.2 := by
      rw [mul_div_cancel₀ _ (by linarith [hp.1] : p.1 - a ≠ 0)]
      ring
    refine ⟨?_, ?_, ?_⟩
    · simp only [interp, if_pos hp.1.le, sub_self, zero_mul, add_zero]
    · intro q hq
      rcases List.mem_cons.mp hq with rfl | hq
      · simp only [interp, le_refl, if_true, hend]
      · have := (List.pairwise_cons.mp h2).1 q hq
        simp only [interp]
        rw [if_neg (not_le.mpr this.1), i2 q hq]
    · intro x y hax hxy
      simp only [interp]
      by_cases hy : y ≤ p.1
      · rw [if_pos (hxy.le.trans hy), if_pos hy]
        have := mul_lt_mul_of_pos_right (show x - a < y - a by linarith) hs
        linarith
      · rw [if_neg hy]
        by_cases hx : x ≤ p.1
        · rw [if_pos hx]
          have := mul_le_mul_of_nonneg_right (show x - a ≤ p.1 - a by linarith) hs.le
          have h3 := i3 p.1 y le_rfl (not_le.mp hy)
          rw [i1] at h3
          linarith
        · rw [if_neg hx]
          exact i3 x y (not_le.mp hx).le hxy

/-- Finitely many values in the same order are those of a strictly increasing function. -/
theorem exists_strictMono (l : List (ℚ × ℚ)) (h : ∀ p ∈ l, ∀ q ∈ l, (p.1 ≤ q.1 ↔ p.2 ≤ q.2)) :
    ∃ f : ℚ → ℚ, StrictMono f ∧ ∀ p ∈ l, f p.1 = p.2 := by
  let l' := (l.dedup).insertionSort (fun p q => p.1 ≤ q.1)
  have hmem : ∀ p, p ∈ l' ↔ p ∈ l := by
    intro p
    rw [(List.perm_insertionSort _ _).mem_iff, List.mem_dedup]
  have hnd : l'.Nodup := (List.perm_insertionSort _ _).nodup_iff.mpr (List.nodup_dedup _)
  have hpw : l'.Pairwise (fun p q => p.1 < q.1 ∧ p.2 < q.2) := by
    have hs : l'.Pairwise (fun p q => p.1 ≤ q.1) := List.pairwise_insertionSort _ _
    have := hs.and hnd
    refine this.imp_of_mem ?_
    intro p q hp hq ⟨h1, h2⟩
    have hpl := (hmem p).mp hp
    have hql := (hmem q).mp hq
    have h3 := (h p hpl q hql).mp h1
    have h4 : ¬ q.1 ≤ p.1 := by
      intro h4
      have h5 := (h q hql p hpl).mp h4
      exact h2 (Prod.ext (le_antisymm h1 h4) (le_antisymm h3 h5))
    refine ⟨not_le.mp h4, not_le.mp (fun h5 => h4 ((h q hql p hpl).mpr h5))⟩
  cases hl : l' with
  | nil =>
    refine ⟨id, strictMono_id, fun p hp => ?_⟩
    have := (hmem p).mpr hp
    rw [hl] at this
    cases this
  | cons c cs =>
    rw [hl] at hpw
    obtain ⟨i1, i2, i3⟩ := interp_spec cs c.1 c.2 hpw
    refine ⟨fun x => if x ≤ c.1 then c.2 + (x - c.1) else interp c.1 c.2 cs x, ?_, ?_⟩
    · intro x y hxy
      simp only
      by_cases hy : y ≤ c.1
      · rw [if_pos (hxy.le.trans hy), if_pos hy]
        linarith
      · rw [if_neg hy]
        by_cases hx : x ≤ c.1
        · rw [if_pos hx]
          have h3 := i3 c.1 y le_rfl (not_le.mp hy)
          rw [i1] at h3
          linarith
        · rw [if_neg hx]
          exact i3 x y (not_le.mp hx).le hxy
    · intro p hp
      have hp' := (hmem p).mpr hp
      rw [hl] at hp'
      rcases List.mem_cons.mp hp' with rfl | hp'
      · simp
      · have := (List.pairwise_cons.mp hpw).1 p hp'
        simp only
        rw [if_neg (not_le.mpr this.1), i2 p hp']

/-- A bid with the new price. -/
def reRow (f : ℚ → ℚ) (r : Row) : Row := { r with price := f r.price }

theorem sameOrder_exists {g : Row → ℚ} {df : DF} (h : SameOrder g df) :
    ∃ f : ℚ → ℚ, StrictMono f ∧ f 0 = 0 ∧ (∀ r ∈ df, g r = f r.price) ∧
      withPrices g df = df.map (reRow f) := by
  obtain ⟨h1, h2⟩ := h
  obtain ⟨f, hf, hv⟩ := exists_strictMono ((0, 0) :: df.map (fun r => (r.price, g r))) (by
    intro p hp q hq
    rcases List.mem_cons.mp hp with rfl | hp <;> rcases List.mem_cons.mp hq with rfl | hq
    · simp
    · obtain ⟨r, hr, rfl⟩ := List.mem_map.mp hq
      exact (h2 r hr).1
    · obtain ⟨r, hr, rfl⟩ := List.mem_map.mp hp
      exact (h2 r hr).2
    · obtain ⟨r, hr, rfl⟩ := List.mem_map.mp hp
      obtain ⟨r', hr', rfl⟩ := List.mem_map.mp hq
      exact h1 r hr r' hr')
  have hg : ∀ r ∈ df, g r = f r.price := fun r hr =>
    (hv _ (List.mem_cons_of_mem _ (List.mem_map_of_mem hr))).symm
  refine ⟨f, hf, hv _ (List.mem_cons_self ..), hg, ?_⟩
  apply List.map_congr_left
  intro r hr
  simp only [reRow, hg r hr]

/-! ## Curves -/

section

variable {f : ℚ → ℚ} (hf : StrictMono f)

include hf

theorem reExt_le (x y : Ext) : repriceExt f x ≤ repriceExt f y ↔ x ≤ y := by
  cases x with
  | none =>
    cases y with
    | none => exact Iff.rfl
    | some y => exact ⟨fun h => absurd h (not_le.mpr (WithTop.coe_lt_top (f y))),
        fun h => absurd h (not_le.mpr (WithTop.coe_lt_top y))⟩
  | some x =>
    cases y with
    | none => exact ⟨fun _ => le_top, fun _ => (le_top : ((f x : ℚ) : Ext) ≤ ⊤)⟩
    | some y =>
      show ((f x : ℚ) : Ext) ≤ ((f y : ℚ) : Ext) ↔ (x : Ext) ≤ (y : Ext)
      rw [WithTop.coe_le_coe, WithTop.coe_le_coe]
      exact hf.le_iff_le

theorem reExt_lt (x y : Ext) : repriceExt f x < repriceExt f y ↔ x < y := by
  rw [← not_le, ← not_le, reExt_le hf]

theorem pyGt_re (x y : Option Ext) :
    pyGt (x.map (repriceExt f)) (y.map (repriceExt f)) = pyGt x y := by
  cases x with
  | none => rfl
  | some x =>
    cases y with
    | none => rfl
    | some y => simp only [Option.map_some, pyGt, reExt_lt hf]

end

theorem reExt_untopD {f : ℚ → ℚ} (h0 : f 0 = 0) (x : Ext) : (repriceExt f x).untopD 0 = f (x.untopD 0) := by
  cases x with
  | none => exact h0.symm
  | some x => rfl

/-- A curve at the new prices. -/
def reCurve (f : ℚ → ℚ) (c : Curve) : Curve := c.map (Prod.map id (repriceExt f))

theorem stepLookup_re (f : ℚ → ℚ) (x : Ext) (c : Curve) :
    stepLookup x (reCurve f c) = (stepLookup x c).map (repriceExt f) := by
  induction c with
  | nil => rfl
  | cons s c ih =>
    show (if x ≤ s.1 then some (repriceExt f s.2) else stepLookup x (reCurve f c)) = _
    rw [ih]
    conv_rhs => unfold stepLookup
    split <;> rfl

theorem getValueStepwise_re (f : ℚ → ℚ) (x : Ext) (c : Curve) :
    getValueStepwise x (reCurve f c) = (getValueStepwise x c).map (repriceExt f) := by
  unfold getValueStepwise
  rw [stepLookup_re]
  split <;> rfl

theorem reCurve_fst (f : ℚ → ℚ) (c : Curve) : (reCurve f c).map Prod.fst = c.map Prod.fst := by
  unfold reCurve
  rw [List.map_map]
  rfl

theorem maxX_re (f : ℚ → ℚ) (c : Curve) : maxX (reCurve f c) = maxX c := by
  cases c with
  | nil => rfl
  | cons s c =>
    show Except.ok ((reCurve f c).foldl (fun m r => max m r.1) s.1) = _
    unfold reCurve
    rw [List.foldl_map]
    rfl

theorem gridXs_re (f : ℚ → ℚ) (c d : Curve) (m : Ext) : gridXs (reCurve f c) (reCurve f d) m = gridXs c d m := by
  unfold gridXs
  rw [reCurve_fst, reCurve_fst]

theorem argmaxTrue_re (f : ℚ → ℚ) (x : Ext) (c : Curve) :
    argmaxTrue ((reCurve f c).map (fun s => decide (x ≤ s.1))) = argmaxTrue (c.map (fun s => decide (x ≤ s.1))) := by
  unfold reCurve
  rw [List.map_map]
  rfl

theorem crossLoop_re {f : ℚ → ℚ} (hf : StrictMono f) (c d : Curve) (xs : List Ext) (o : Option Ext) :
    crossLoop (reCurve f c) (reCurve f d) xs o = crossLoop c d xs o := by
  induction xs generalizing o with
  | nil => rfl
  | cons x xs ih =>
    cases xs with
    | nil => rfl
    | cons y xs => simp only [crossLoop, getValueStepwise_re, pyGt_re hf, ih]

/-- Quantity and positions of an intersection. -/
def places (i : Intersection) : Option Ext × Option ℕ × Option ℕ := (i.x, i.f, i.g)

/-- The intersection is at the same place; when it is between the steps of one curve, the value moves along. -/
theorem intersectStepwise_re {f : ℚ → ℚ} (hf : StrictMono f) (c d : Curve) (k : ℚ) :
    (intersectStepwise (reCurve f c) (reCurve f d) k).map places = (intersectStepwise c d k).map places := by
  unfold intersectStepwise
  rw [maxX_re, maxX_re]
  cases maxX c with
  | error e => rfl
  | ok mf =>
    cases maxX d with
    | error e => rfl
    | ok mg =>
      simp only [bind, Except.bind, gridXs_re, crossLoop_re hf]
      cases crossLoop c d (gridXs c d (min mf mg)) none with
      | error e => rfl
      | ok o =>
        cases o with
        | some x =>
          simp only [argmaxTrue_re]
          have hr : ∀ (c : Curve) (i : ℕ), (reCurve f c)[i]? = (c[i]?).map (Prod.map id (repriceExt f)) := by
            intro c i
            unfold reCurve
            rw [List.getElem?_map]
          rw [hr, hr]
          cases d[argmaxTrue (d.map (fun s => decide (x ≤ s.1)))]? with
          | none => rfl
          | some gr =>
            cases c[argmaxTrue (c.map (fun s => decide (x ≤ s.1)))]? with
            | none => rfl
            | some fr => rfl
        | none =>
          simp only
          cases (gridXs c d (min mf mg)).getLast? with
          | none => rfl
          | some xl =>
            simp only [getValueStepwise_re]
            cases getValueStepwise xl d with
            | none => rfl
            | some gv =>
              cases getValueStepwise xl c with
              | none => rfl
              | some fv => rfl

/-! ## Frames -/

theorem Spec.ComparisonSort.mono {S : Sorter} (h : ComparisonSort S) {f : ℚ → ℚ} (hf : StrictMono f) (l : List ℚ) :
    S.asc (l.map f) = S.asc l ∧ S.desc (l.map f) = S.desc l := by
  apply h _ _ (List.length_map _)
  intro i j x y x' y' h1 h2 h3 h4
  rw [List.getElem?_map, h3, Option.map_some, Option.some.injEq] at h1
  rw [List.getElem?_map, h4, Option.map_some, Option.some.injEq] at h2
  subst h1 h2
  exact hf.le_iff_le

section

variable (f : ℚ → ℚ) (df : DF)

theorem prices_re : (df.map (reRow f)).map (fun r => r.price) = (df.map (fun r => r.price)).map f := by
  rw [List.map_map, List.map_map]; rfl

theorem quantities_re : (df.map (reRow f)).map (fun r => r.quantity) = df.map (fun r => r.quantity) := by
  rw [List.map_map]; rfl

theorem labels_re : (df.map (reRow f)).map (fun r => r.label) = df.map (fun r => r.label) := by
  rw [List.map_map]; rfl

theorem users_re : (df.map (reRow f)).map (fun r => r.user) = df.map (fun r => r.user) := by
  rw [List.map_map]; rfl

theorem buys_re : buys (df.map (reRow f)) = (buys df).map (reRow f) := by
  unfold buys; rw [List.filter_map]; rfl

theorem sells_re : sells (df.map (reRow f)) = (sells df).map (reRow f) := by
  unfold sells; rw [List.filter_map]; rfl

theorem qsum_re : qsum (df.map (reRow f)) = qsum df := by
  unfold qsum; rw [quantities_re]

end

theorem curve_re (f : ℚ → ℚ) (u v : List ℚ) (e : Ext) :
    (List.zip u (v.map f)).map (fun p => ((p.1 : Ext), (p.2 : Ext))) ++ [((⊤ : Ext), repriceExt f e)] =
      reCurve f ((List.zip u v).map (fun p => ((p.1 : Ext), (p.2 : Ext))) ++ [((⊤ : Ext), e)]) := by
  unfold reCurve
  rw [List.map_append, List.map_map, List.zip_map_right, List.map_map]
  rfl

section

variable {S : Sorter} (hS : ComparisonSort S) {f : ℚ → ℚ} (hf : StrictMono f)

include hS hf

theorem sortAsc_re (df : DF) : sortAsc S (df.map (reRow f)) = (sortAsc S df).map (reRow f) := by
  unfold sortAsc
  rw [takeIdx_map, prices_re, (hS.mono hf _).1]

theorem sortDesc_re (df : DF) : sortDesc S (df.map (reRow f)) = (sortDesc S df).map (reRow f) := by
  unfold sortDesc
  rw [takeIdx_map, prices_re, (hS.mono hf _).2]

theorem demandCurve_re (h0 : f 0 = 0) (df : DF) :
    (demandCurve S (df.map (reRow f))).1 = reCurve f (demandCurve S df).1 := by
  unfold demandCurve
  simp only
  rw [buys_re, sortDesc_re hS hf, prices_re, quantities_re, ← curve_re]
  show _ = _ ++ [((⊤ : Ext), ((f 0 : ℚ) : Ext))]
  rw [h0]

theorem supplyCurve_re (df : DF) :
    (supplyCurve S (df.map (reRow f))).1 = reCurve f (supplyCurve S df).1 := by
  unfold supplyCurve
  simp only
  rw [sells_re, sortAsc_re hS hf, prices_re, quantities_re, ← curve_re]
  rfl

end

/-! ## Huang's auction -/

theorem init_addAll_re (f : ℚ → ℚ) (ts : List Transaction) :
    TransactionManager.init.addAll (ts.map (repriceTrans f)) = repriceLog f (TransactionManager.init.addAll ts) := by
  have : ∀ tm : TransactionManager, (repriceLog f tm).addAll (ts.map (repriceTrans f)) =
      repriceLog f (tm.addAll ts) := by
    induction ts with
    | nil => intro tm; rfl
    | cons t ts ih =>
      intro tm
      simp only [List.map_cons, TransactionManager.addAll]
      rw [← ih]
      congr 1
      simp [TransactionManager.addTransaction, repriceLog]
  exact this TransactionManager.init

theorem huangSideTrans_re (f : ℚ → ℚ) (rows : DF) (qs : List ℚ) (p : ℚ) :
    huangSideTrans (rows.map (reRow f)) qs (f p) = (huangSideTrans rows qs p).map (repriceTrans f) := by
  unfold huangSideTrans
  rw [List.zip_map_left, List.map_map, List.map_map]
  rfl

theorem huangAuction_re {S : Sorter} (hS : ComparisonSort S) {f : ℚ → ℚ} (hf : StrictMono f) (h0 : f 0 = 0)
    (df : DF) : huangAuction S (df.map (reRow f)) = repriceHuang f (huangAuction S df) := by
  unfold huangAuction
  simp only
  rw [demandCurve_re hS hf h0, supplyCurve_re hS hf]
  have hi := intersectStepwise_re hf (demandCurve S df).1 (supplyCurve S df).1 (1 / 2)
  cases e1 : intersectStepwise (demandCurve S df).1 (supplyCurve S df).1 with
  | error e =>
    rw [e1] at hi
    cases e2 : intersectStepwise (reCurve f (demandCurve S df).1) (reCurve f (supplyCurve S df).1) with
    | error e' => rw [e2] at hi; cases hi; rfl
    | ok j => rw [e2] at hi; cases hi
  | ok i =>
    rw [e1] at hi
    cases e2 : intersectStepwise (reCurve f (demandCurve S df).1) (reCurve f (supplyCurve S df).1) with
    | error e' => rw [e2] at hi; cases hi
    | ok j =>
      rw [e2] at hi
      simp only [Except.map, Except.ok.injEq, places, Prod.mk.injEq] at hi
      simp only [bind, Except.bind, hi.2.1, hi.2.2]
      cases i.f with
      | none => rfl
      | some b =>
        cases i.g with
        | none => rfl
        | some s =>
          simp only
          have hr : ∀ (c : Curve) (i : ℕ), (reCurve f c)[i]? = (c[i]?).map (Prod.map id (repriceExt f)) := by
            intro c i
            unfold reCurve
            rw [List.getElem?_map]
          rw [hr, hr]
          cases (supplyCurve S df).1[s]? with
          | none => rfl
          | some sr =>
            cases (demandCurve S df).1[b]? with
            | none => rfl
            | some br =>
              simp only [Option.map_some, Prod.map_snd, buys_re, sells_re, sortDesc_re hS hf,
                sortAsc_re hS hf, ← List.map_take, quantities_re]
              split
              · split
                · cases updateQuantity ((sortAsc S (sells df)).take s |>.map (fun r => r.quantity))
                    (((sortAsc S (sells df)).take s |>.map (fun r => r.quantity)).sum -
                      ((sortDesc S (buys df)).take b |>.map (fun r => r.quantity)).sum) with
                  | error e => rfl
                  | ok qs =>
                    simp only [reExt_untopD h0, huangSideTrans_re, ← List.map_append, init_addAll_re]
                    rfl
                · cases updateQuantity ((sortDesc S (buys df)).take b |>.map (fun r => r.quantity))
                    (-(((sortAsc S (sells df)).take s |>.map (fun r => r.quantity)).sum -
                      ((sortDesc S (buys df)).take b |>.map (fun r => r.quantity)).sum)) with
                  | error e => rfl
                  | ok qs =>
                    simp only [reExt_untopD h0, huangSideTrans_re, ← List.map_append, init_addAll_re]
                    rfl
              · rfl

/-! ## Merging, when rounding commutes with the change of the prices -/

theorem groupRows_re {f : ℚ → ℚ} (hf : StrictMono f) {prec : ℕ} {df : DF}
    (h : ∀ r ∈ df, npRound prec (f r.price) = f (npRound prec r.price)) (k : ℚ) :
    groupRows prec (df.map (reRow f)) (f k) = (groupRows prec df k).map (reRow f) := by
  unfold groupRows
  rw [List.filter_map]
  congr 1
  apply List.filter_congr
  intro r hr
  have e : npRound prec (reRow f r).price = f (npRound prec r.price) := h r hr
  simp only [Function.comp_apply, e]
  rw [Bool.eq_iff_iff, beq_iff_eq, beq_iff_eq]
  exact hf.injective.eq_iff

theorem groupKeys_re {f : ℚ → ℚ} (hf : StrictMono f) {prec : ℕ} {df : DF}
    (h : ∀ r ∈ df, npRound prec (f r.price) = f (npRound prec r.price)) :
    groupKeys prec (df.map (reRow f)) = (groupKeys prec df).map f := by
  unfold groupKeys
  have e : (df.map (reRow f)).map (fun r => npRound prec r.price) =
      (df.map (fun r => npRound prec r.price)).map f := by
    rw [List.map_map, List.map_map]
    apply List.map_congr_left
    intro r hr
    exact h r hr
  rw [e, List.dedup_map_of_injective hf.injective,
    List.map_insertionSort _ (fun a b => a ≤ b) f _ (fun x _ y _ => hf.le_iff_le.symm)]

/-- A bid with the new price. -/
def reBid (f : ℚ → ℚ) (b : Bid) : Bid := { b with price := f b.price }

theorem aggGroup_re (smp : Sampler) (side : Bool) (f : ℚ → ℚ) (k : ℚ) (rows : DF) (i : ℤ) :
    aggGroup smp side (f k) (rows.map (reRow f)) i =
      (aggGroup smp side k rows i).map (fun x => ((reBid f x.1.1, x.1.2), x.2)) := by
  have ht : (rows.map (reRow f)).map (fun r => r.time) = rows.map (fun r => r.time) := by
    rw [List.map_map]; rfl
  have hd : (rows.map (reRow f)).map (fun r => r.divisible) = rows.map (fun r => r.divisible) := by
    rw [List.map_map]; rfl
  unfold aggGroup
  rw [users_re, qsum_re, labels_re, ht, hd]
  cases newId i (rows.map (fun r => r.user)) with
  | error e => rfl
  | ok x => rfl

theorem aggSide_re (smp : Sampler) {prec : ℕ} (side : Bool) {f : ℚ → ℚ} (hf : StrictMono f) {df : DF}
    (h : ∀ r ∈ df, npRound prec (f r.price) = f (npRound prec r.price)) (ks : List ℚ) (i : ℤ) :
    aggSide smp prec side (df.map (reRow f)) (ks.map f) i =
      (aggSide smp prec side df ks i).map (fun x => (x.1.map (fun g => (reBid f g.1, g.2)), x.2)) := by
  induction ks generalizing i with
  | nil => rfl
  | cons k ks ih =>
    rw [List.map_cons]
    unfold aggSide
    rw [groupRows_re hf h, aggGroup_re]
    cases aggGroup smp side k (groupRows prec df k) i with
    | error e => rfl
    | ok x =>
      simp only [Except.map, bind, Except.bind, ih]
      cases aggSide smp prec side df ks x.2 with
      | error e => rfl
      | ok y => rfl

theorem labelFrom_re (f : ℚ → ℚ) (n : ℕ) (bs : List Bid) :
    labelFrom n (bs.map (reBid f)) = (labelFrom n bs).map (reRow f) := by
  induction bs generalizing n with
  | nil => rfl
  | cons b bs ih =>
    simp only [labelFrom, List.map_cons, ih]
    rfl

theorem mergeSamePrice_re (smp : Sampler) {f : ℚ → ℚ} (hf : StrictMono f) {df : DF} {prec : ℕ}
    (h : ∀ r ∈ df, npRound prec (f r.price) = f (npRound prec r.price)) :
    mergeSamePrice smp (df.map (reRow f)) prec =
      (mergeSamePrice smp df prec).map (fun x => (x.1.map (reRow f), x.2)) := by
  have hmax : maxUserSucc (df.map (reRow f)) = maxUserSucc df := by
    unfold maxUserSucc
    rw [users_re]
  have hb : ∀ r ∈ buys df, npRound prec (f r.price) = f (npRound prec r.price) :=
    fun r hr => h r (List.mem_filter.mp hr).1
  have hs : ∀ r ∈ sells df, npRound prec (f r.price) = f (npRound prec r.price) :=
    fun r hr => h r (List.mem_filter.mp hr).1
  unfold mergeSamePrice
  simp only [buys_re, sells_re, groupKeys_re hf hb, groupKeys_re hf hs, hmax,
    aggSide_re smp _ hf hb, aggSide_re smp _ hf hs]
  cases aggSide smp prec true (buys df) (groupKeys prec (buys df)) (maxUserSucc df) with
  | error e => rfl
  | ok x =>
    simp only [Except.map, bind, Except.bind]
    cases aggSide smp prec false (sells df) (groupKeys prec (sells df)) x.2 with
    | error e => rfl
    | ok y =>
      simp only [← List.map_append]
      rw [← labelFrom_re, List.map_map, List.map_map, List.map_map]
      rfl

theorem splitOne_re (f : ℚ → ℚ) (df : DF) (mp : List (List ℕ)) (t : Transaction) :
    splitOne (df.map (reRow f)) mp (repriceTrans f t) = (splitOne df mp t).map (List.map (repriceTrans f)) := by
  unfold splitOne
  have hb : (repriceTrans f t).bid = t.bid := rfl
  rw [hb]
  split
  · rfl
  · rename_i rows _
    have hm : rows.filterMap (fun i => (df.map (reRow f))[i]?) =
        (rows.filterMap (fun i => df[i]?)).map (reRow f) := by
      rw [List.map_filterMap]
      simp only [List.getElem?_map]
    simp only [hm, List.length_map, qsum_re, List.zip_map_right, List.map_map]
    split
    · rfl
    · split
      · rfl
      · simp only [Except.map, List.map_map]
        rfl

theorem splitTransactions_re (f : ℚ → ℚ) (tm : TransactionManager) (df : DF) (mp : List (List ℕ)) :
    splitTransactions (repriceLog f tm) (df.map (reRow f)) mp = (splitTransactions tm df mp).map (repriceLog f) := by
  have h : ∀ ts : List Transaction, splitAll (df.map (reRow f)) mp (ts.map (repriceTrans f)) =
      (splitAll df mp ts).map (List.map (repriceTrans f)) := by
    intro ts
    induction ts with
    | nil => rfl
    | cons t ts ih =>
      simp only [List.map_cons, splitAll, splitOne_re, ih]
      cases splitOne df mp t with
      | error e => rfl
      | ok x =>
        cases splitAll df mp ts with
        | error e => rfl
        | ok y => simp only [Except.map, bind, Except.bind, List.map_append]
  unfold splitTransactions TransactionManager.getDf
  show (do
    let ts ← splitAll (df.map (reRow f)) mp (tm.trans.map (repriceTrans f))
    Except.ok (TransactionManager.init.addAll ts)) = _
  rw [h]
  cases splitAll df mp tm.trans with
  | error e => rfl
  | ok ts => simp only [Except.map, bind, Except.bind, init_addAll_re]

theorem mechRun_re {f : ℚ → ℚ} {algo : Algo}
    (h : ∀ df, algo (df.map (reRow f)) = repriceHuang f (algo df)) (df : DF) :
    mechRun algo (df.map (reRow f)) = repriceHuang f (mechRun algo df) := by
  unfold mechRun
  simp only
  rw [buys_re, List.length_map, List.length_map, h]
  split <;> rfl

theorem mechanism_re (smp : Sampler) {f : ℚ → ℚ} (hf : StrictMono f) {algo : Algo}
    (h : ∀ df, algo (df.map (reRow f)) = repriceHuang f (algo df)) (df : DF)
    (hm : ∀ r ∈ df, npRound 5 (f r.price) = f (npRound 5 r.price)) :
    mechanism smp true algo (df.map (reRow f)) = repriceHuang f (mechanism smp true algo df) := by
  unfold mechanism
  simp only [if_true, mergeSamePrice_re smp hf hm]
  cases mergeSamePrice smp df with
  | error e => rfl
  | ok x =>
    simp only [Except.map, bind, Except.bind, mechRun_re h]
    cases mechRun algo x.1 with
    | error e => rfl
    | ok y =>
      obtain ⟨tm, ex⟩ := y
      cases ex <;> simp only [repriceHuang, splitTransactions_re] <;>
        cases splitTransactions tm df x.2 <;> rfl

/-! ## Peer to peer trading -/

section

variable {pr pr' : ℕ → ℚ} {k k' : ℚ}

theorem tradeRound_re {ps : List (ℕ × ℕ)} (h : ∀ p ∈ ps, (pr p.2 ≤ pr p.1 ↔ pr' p.2 ≤ pr' p.1)) (q : ℕ → ℚ) :
    (tradeRound pr' k' q ps).1 = (tradeRound pr k q ps).1 ∧
      (tradeRound pr' k' q ps).2.map withoutPrice = (tradeRound pr k q ps).2.map withoutPrice := by
  induction ps generalizing q with
  | nil => exact ⟨rfl, rfl⟩
  | cons p ps ih =>
    have h1 : (tradeOne pr' k' q p).1 = (tradeOne pr k q p).1 ∧
        (tradeOne pr' k' q p).2.map withoutPrice = (tradeOne pr k q p).2.map withoutPrice := by
      unfold tradeOne
      by_cases hc : pr p.2 ≤ pr p.1
      · simp only [if_pos hc, if_pos ((h p (List.mem_cons_self ..)).mp hc)]
        exact ⟨trivial, rfl⟩
      · simp only [if_neg hc, if_neg (fun hc' => hc ((h p (List.mem_cons_self ..)).mpr hc'))]
        exact ⟨trivial, trivial⟩
    have h2 := ih (fun p hp => h p (List.mem_cons_of_mem _ hp)) (tradeOne pr k q p).1
    unfold tradeRound
    simp only [List.map_append]
    rw [h1.1, h1.2, h2.1, h2.2]
    exact ⟨rfl, rfl⟩

theorem meetLoop_mem (choice : ℕ → ℕ) (n : ℕ) (active tmp : List (ℕ × ℕ)) :
    ((meetLoop choice n active tmp).2.1 ⊆ active) ∧ ((meetLoop choice n active tmp).2.2 ⊆ tmp) := by
  fun_induction meetLoop choice n active tmp with
  | case1 => exact ⟨List.Subset.refl _, List.nil_subset _⟩
  | case2 n active tmp trade h r ih =>
    refine ⟨fun x hx => List.mem_of_mem_erase (ih.1 hx), ?_⟩
    intro x hx
    rcases List.mem_cons.mp hx with rfl | hx
    · exact List.mem_of_getElem? h
    · exact (List.mem_filter.mp (List.mem_filter.mp (ih.2 hx)).1).1

theorem p2pLoop_re {df : DF} (choice : ℕ → ℕ) (n : ℕ) (q : ℕ → ℚ) (active : List (ℕ × ℕ)) (inactive : List ℕ)
    (h : ∀ p ∈ active, (pr p.2 ≤ pr p.1 ↔ pr' p.2 ≤ pr' p.1)) :
    (p2pLoop df pr' k' choice n q active inactive).1 = (p2pLoop df pr k choice n q active inactive).1 ∧
      (p2pLoop df pr' k' choice n q active inactive).2.map withoutPrice =
        (p2pLoop df pr k choice n q active inactive).2.map withoutPrice := by
  fun_induction p2pLoop df pr k choice n q active inactive with
  | case1 n q active inactive tmp hc m t rest ih =>
    obtain ⟨m1, m2⟩ := meetLoop_mem choice n active tmp
    obtain ⟨t1, t2⟩ := tradeRound_re (k := k) (k' := k') (pr := pr) (pr' := pr') (ps := m.2.2)
      (fun p hp => h p ((maskOut_sublist active inactive).subset (m2 hp))) q
    obtain ⟨i1, i2⟩ := ih (fun p hp => h p (m1 hp))
    rw [p2pLoop, dif_pos hc]
    simp only [List.map_append]
    refine ⟨?_, ?_⟩
    · show m.2.2 :: _ = _
      rw [← i1]
      congr 3
      rw [t1]
    · show (tradeRound pr' k' q m.2.2).2.map withoutPrice ++ _ = _
      rw [t2, ← i2]
      congr 4
      rw [t1]
  | case2 n q active inactive tmp hc =>
    rw [p2pLoop, dif_neg hc]
    exact ⟨rfl, rfl⟩

end

end PyMarket
