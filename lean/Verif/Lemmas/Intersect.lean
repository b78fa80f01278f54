import Verif.Lemmas.Curves

/-! # Lemmas about the intersection of the two curves of a book -/

set_option autoImplicit false

namespace PyMarket

open Spec

/-- The curves of `df` cross at `x`. -/
structure Crossing (S : Sorter) (df : DF) (x : ℚ) : Prop where
  nonneg : 0 ≤ x
  at_x : supplyAt S df x < demandAt S df x
  above : ∀ z : Ext, (x : Ext) < z → demandAt S df z < supplyAt S df z
  mem : (x : Ext) ∈ (demandCurve S df).1.map Prod.fst ∨
    (x : Ext) ∈ (supplyCurve S df).1.map Prod.fst

/-- Price of a crossing. -/
def crossPrice (S : Sorter) (df : DF) (k : ℚ) (x : ℚ) : Val :=
  if (x : Ext) ∈ (demandCurve S df).1.map Prod.fst ∧ (x : Ext) ∈ (supplyCurve S df).1.map Prod.fst
  then kMix k (supplyAt S df x) (demandAt S df x)
  else if (x : Ext) ∈ (demandCurve S df).1.map Prod.fst then Val.ofExt (supplyAt S df x)
  else Val.ofExt (demandAt S df x)

/-- Row of the demand (supply) curve reached at `x`. -/
def demandIdx (S : Sorter) (df : DF) (x : Ext) : ℕ := stepIdx x 0 (sortDesc S (buys df))

@[inherit_doc demandIdx]
def supplyIdx (S : Sorter) (df : DF) (x : Ext) : ℕ := stepIdx x 0 (sortAsc S (sells df))

theorem demandAt_top (S : Sorter) (df : DF) : demandAt S df ⊤ = ((0 : ℚ) : Ext) :=
  stepVal_top 0 _ _

theorem supplyAt_top (S : Sorter) (df : DF) : supplyAt S df ⊤ = ⊤ := stepVal_top 0 _ _

theorem grid_nonneg {S : Sorter} {df : DF} (h : ∀ r ∈ df, 0 ≤ r.quantity) {x : Ext}
    (hx : x ∈ gridXs (demandCurve S df).1 (supplyCurve S df).1 ⊤) : ((0 : ℚ) : Ext) ≤ x := by
  rw [mem_gridXs, demandCurve_eq, supplyCurve_eq] at hx
  rcases hx.1 with ⟨s, hs, rfl⟩ | ⟨s, hs, rfl⟩
  · exact stepCurve_fst_ge (fun r hr => h r (mem_buys.mp (mem_sortDesc.mp hr)).1) hs
  · exact stepCurve_fst_ge (fun r hr => h r (mem_sells.mp (mem_sortAsc.mp hr)).1) hs

theorem grid_last (S : Sorter) (df : DF) :
    (gridXs (demandCurve S df).1 (supplyCurve S df).1 ⊤).getLast? = some ⊤ := by
  have hmem : (⊤ : Ext) ∈ gridXs (demandCurve S df).1 (supplyCurve S df).1 ⊤ := by
    rw [mem_gridXs]
    refine ⟨Or.inl ⟨(⊤, ((0 : ℚ) : Ext)), ?_, rfl⟩, le_top⟩
    rw [demandCurve_eq]; exact stepCurve_top_mem _ _ _
  have hs := gridXs_sorted (demandCurve S df).1 (supplyCurve S df).1 ⊤
  obtain ⟨pre, post, h⟩ := List.append_of_mem hmem
  rw [h] at hs ⊢
  have : post = [] := by
    cases post with
    | nil => rfl
    | cons y ys =>
      rw [List.pairwise_append] at hs
      have := List.rel_of_pairwise_cons hs.2.1 (List.mem_cons_self (a := y) (l := ys))
      exact absurd this (not_lt.mpr le_top)
  rw [this]; simp

/-- Both curves are constant from any point up to the next grid point. -/
theorem exists_grid_point (S : Sorter) (df : DF) (z : Ext) :
    ∃ y ∈ gridXs (demandCurve S df).1 (supplyCurve S df).1 ⊤, z ≤ y ∧
      demandAt S df z = demandAt S df y ∧ supplyAt S df z = supplyAt S df y ∧
      ∀ y' ∈ gridXs (demandCurve S df).1 (supplyCurve S df).1 ⊤, z ≤ y' → y ≤ y' := by
  generalize hxs : gridXs (demandCurve S df).1 (supplyCurve S df).1 ⊤ = xs
  have hs : xs.Pairwise (· < ·) := hxs ▸ gridXs_sorted _ _ _
  have htop : ⊤ ∈ xs := by
    have := grid_last S df
    rw [hxs] at this
    exact List.mem_of_getLast? this
  -- smallest element of xs that is ≥ z
  have key : ∃ y ∈ xs, z ≤ y ∧ ∀ y' ∈ xs, z ≤ y' → y ≤ y' := by
    clear hxs
    have hex : ∃ y ∈ xs, z ≤ y := ⟨⊤, htop, le_top⟩
    clear htop
    induction xs with
    | nil => obtain ⟨y, hy, _⟩ := hex; simp at hy
    | cons w ws ih =>
      rw [List.pairwise_cons] at hs
      by_cases hw : z ≤ w
      · refine ⟨w, List.mem_cons_self, hw, ?_⟩
        intro y' hy' _
        rcases List.mem_cons.mp hy' with rfl | hy'
        · exact le_refl _
        · exact (hs.1 y' hy').le
      · obtain ⟨y, hy, hzy⟩ := hex
        have hy' : y ∈ ws := by
          rcases List.mem_cons.mp hy with rfl | hy
          · exact absurd hzy hw
          · exact hy
        obtain ⟨y, hy, h1, h2⟩ := ih hs.2 ⟨y, hy', hzy⟩
        refine ⟨y, List.mem_cons_of_mem _ hy, h1, ?_⟩
        intro y' hy' hzy'
        rcases List.mem_cons.mp hy' with rfl | hy'
        · exact absurd hzy' hw
        · exact h2 y' hy' hzy'
  obtain ⟨y, hy, hzy, hmin⟩ := key
  refine ⟨y, hy, hzy, ?_, ?_, hmin⟩
  · apply stepVal_const _ _ _ hzy
    intro s hs' hzs
    refine hmin _ ?_ hzs
    rw [← hxs, mem_gridXs, demandCurve_eq]
    exact ⟨Or.inl ⟨s, hs', rfl⟩, le_top⟩
  · apply stepVal_const _ _ _ hzy
    intro s hs' hzs
    refine hmin _ ?_ hzs
    rw [← hxs, mem_gridXs, supplyCurve_eq]
    exact ⟨Or.inr ⟨s, hs', rfl⟩, le_top⟩

theorem crossLoop_book (S : Sorter) {df : DF} (h : ∀ r ∈ df, 0 ≤ r.quantity) :
    crossLoop (demandCurve S df).1 (supplyCurve S df).1
      (gridXs (demandCurve S df).1 (supplyCurve S df).1 ⊤) none =
    .ok (crossPure (demandAt S df) (supplyAt S df)
      (gridXs (demandCurve S df).1 (supplyCurve S df).1 ⊤) none) := by
  apply crossLoop_eq
  intro x hx
  have h0 := grid_nonneg h hx
  rw [demandCurve_eq, supplyCurve_eq]
  exact ⟨getValue_stepCurve h0 _ _ _, getValue_stepCurve h0 _ _ _⟩

/-- `intersect_stepwise` returns on the curves of every book with non-negative quantities, whatever
the prices. -/
theorem intersect_total (S : Sorter) {df : DF} (h : ∀ r ∈ df, 0 ≤ r.quantity) (k : ℚ) :
    ∃ i, intersectStepwise (demandCurve S df).1 (supplyCurve S df).1 k = .ok i := by
  have hmf : maxX (demandCurve S df).1 = .ok ⊤ := by rw [demandCurve_eq]; exact maxX_stepCurve _ _ _
  have hmg : maxX (supplyCurve S df).1 = .ok ⊤ := by rw [supplyCurve_eq]; exact maxX_stepCurve _ _ _
  unfold intersectStepwise
  simp only [hmf, hmg, bind, Except.bind, min_self, crossLoop_book S h, grid_last S df]
  have h1 := getValue_stepCurve (x := ⊤) le_top 0 (sortAsc S (sells df)) ⊤
  have h2 := getValue_stepCurve (x := ⊤) le_top 0 (sortDesc S (buys df)) ((0 : ℚ) : Ext)
  rw [← supplyCurve_eq, stepVal_top] at h1
  rw [← demandCurve_eq, stepVal_top] at h2
  rcases crossPure (demandAt S df) (supplyAt S df)
      (gridXs (demandCurve S df).1 (supplyCurve S df).1 ⊤) none with _ | x
  · dsimp only
    rw [h1, h2]
    exact ⟨_, rfl⟩
  · dsimp only
    obtain ⟨bg, _, hbg⟩ := stepCurve_get_idx x 0 (sortAsc S (sells df)) ⊤
    obtain ⟨bf, _, hbf⟩ := stepCurve_get_idx x 0 (sortDesc S (buys df)) ((0 : ℚ) : Ext)
    have e1 : argmaxTrue ((demandCurve S df).1.map (fun s => decide (x ≤ s.1))) =
        demandIdx S df x := by rw [demandCurve_eq]; exact argmax_stepCurve _ _ _ _
    have e2 : argmaxTrue ((supplyCurve S df).1.map (fun s => decide (x ≤ s.1))) =
        supplyIdx S df x := by rw [supplyCurve_eq]; exact argmax_stepCurve _ _ _ _
    have g1 : (demandCurve S df).1[demandIdx S df x]? = some (bf, demandAt S df x) := by
      rw [demandCurve_eq]; exact hbf
    have g2 : (supplyCurve S df).1[supplyIdx S df x]? = some (bg, supplyAt S df x) := by
      rw [supplyCurve_eq]; exact hbg
    rw [e1, e2, g1, g2]
    exact ⟨_, rfl⟩

/-- What `intersect_stepwise` returns on the curves of a book. -/
theorem intersect_cases (S : Sorter) {df : DF} (h : NonNeg df) (k : ℚ) :
    (∃ x : ℚ, Crossing S df x ∧
      intersectStepwise (demandCurve S df).1 (supplyCurve S df).1 k =
        .ok ⟨some (x : Ext), some (demandIdx S df x), some (supplyIdx S df x),
          crossPrice S df k x⟩) ∨
    (intersectStepwise (demandCurve S df).1 (supplyCurve S df).1 k =
        .ok ⟨none, none, none, kMix k ⊤ ((0 : ℚ) : Ext)⟩ ∧
      ¬ ((∃ x : Ext, ((0 : ℚ) : Ext) ≤ x ∧ supplyAt S df x < demandAt S df x) ∧
        ∀ x : Ext, ((0 : ℚ) : Ext) ≤ x → demandAt S df x ≠ supplyAt S df x)) := by
  have hmf : maxX (demandCurve S df).1 = .ok ⊤ := by rw [demandCurve_eq]; exact maxX_stepCurve _ _ _
  have hmg : maxX (supplyCurve S df).1 = .ok ⊤ := by rw [supplyCurve_eq]; exact maxX_stepCurve _ _ _
  have hloop := crossLoop_book S (fun r hr => (h r hr).1)
  have hD : ∀ {x y : Ext}, x ≤ y → demandAt S df y ≤ demandAt S df x :=
    fun hxy => demandAt_antitone S (fun r hr => (h r hr).2) hxy
  have hS : ∀ {x y : Ext}, x ≤ y → supplyAt S df x ≤ supplyAt S df y :=
    fun hxy => supplyAt_monotone S df hxy
  rcases hc : crossPure (demandAt S df) (supplyAt S df)
      (gridXs (demandCurve S df).1 (supplyCurve S df).1 ⊤) none with _ | x
  · right
    constructor
    · rw [hc] at hloop
      unfold intersectStepwise
      simp only [hmf, hmg, bind, Except.bind, min_self, hloop, grid_last S df]
      have h1 := getValue_stepCurve (x := ⊤) le_top 0 (sortAsc S (sells df)) ⊤
      have h2 := getValue_stepCurve (x := ⊤) le_top 0 (sortDesc S (buys df)) ((0 : ℚ) : Ext)
      rw [← supplyCurve_eq, stepVal_top] at h1
      rw [← demandCurve_eq, stepVal_top] at h2
      rw [h1, h2]
    · rintro ⟨⟨x, hx0, hx⟩, hne⟩
      obtain ⟨y, hy, _, h1, h2, _⟩ := exists_grid_point S df x
      rw [h1, h2] at hx
      obtain ⟨z, hz⟩ := crossPure_found _ none y ⊤ hy hx (grid_last S df)
        (by rw [demandAt_top, supplyAt_top]; exact WithTop.coe_lt_top _)
        (fun z hz => hne z (grid_nonneg (fun r hr => (h r hr).1) hz))
      rw [hc] at hz
      cases hz
  · left
    rcases crossPure_some _ _ _ hc with h' | ⟨pre, y, post, hsplit, hx1, hy1⟩
    · cases h'
    have hxtop : x ≠ ⊤ := by
      intro he
      rw [he, demandAt_top, supplyAt_top] at hx1
      exact absurd hx1 (not_lt.mpr le_top)
    have hxm : x ∈ gridXs (demandCurve S df).1 (supplyCurve S df).1 ⊤ := by rw [hsplit]; simp
    have hx0 := grid_nonneg (fun r hr => (h r hr).1) hxm
    obtain ⟨q, rfl⟩ := WithTop.ne_top_iff_exists.mp hxtop
    have hsorted := gridXs_sorted (demandCurve S df).1 (supplyCurve S df).1 ⊤
    rw [hsplit, List.pairwise_append] at hsorted
    refine ⟨q, ⟨WithTop.coe_le_coe.mp hx0, hx1, ?_, ?_⟩, ?_⟩
    · intro z hz
      obtain ⟨w, hw, hzw, h1, h2, _⟩ := exists_grid_point S df z
      rw [h1, h2]
      have hyw : y ≤ w := by
        rw [hsplit] at hw
        have hqw : (q : Ext) < w := lt_of_lt_of_le hz hzw
        rcases List.mem_append.mp hw with hw | hw
        · have := hsorted.2.2 w hw q (by simp)
          exact absurd hqw (not_lt.mpr this.le)
        · rcases List.mem_cons.mp hw with rfl | hw
          · exact absurd hqw (lt_irrefl _)
          · rcases List.mem_cons.mp hw with rfl | hw
            · exact le_refl _
            · have := List.rel_of_pairwise_cons (List.pairwise_cons.mp hsorted.2.1).2 hw
              exact this.le
      exact lt_of_le_of_lt (hD hyw) (lt_of_lt_of_le hy1 (hS hyw))
    · rw [mem_gridXs] at hxm
      rcases hxm.1 with ⟨s, hs, h'⟩ | ⟨s, hs, h'⟩
      · left; exact List.mem_map.mpr ⟨s, hs, h'⟩
      · right; exact List.mem_map.mpr ⟨s, hs, h'⟩
    · rw [hc] at hloop
      unfold intersectStepwise
      simp only [hmf, hmg, bind, Except.bind, min_self, hloop]
      obtain ⟨bg, _, hbg⟩ := stepCurve_get_idx (q : Ext) 0 (sortAsc S (sells df)) ⊤
      obtain ⟨bf, _, hbf⟩ := stepCurve_get_idx (q : Ext) 0 (sortDesc S (buys df)) ((0 : ℚ) : Ext)
      have e1 : argmaxTrue ((demandCurve S df).1.map (fun s => decide ((q : Ext) ≤ s.1))) =
          demandIdx S df q := by rw [demandCurve_eq]; exact argmax_stepCurve _ _ _ _
      have e2 : argmaxTrue ((supplyCurve S df).1.map (fun s => decide ((q : Ext) ≤ s.1))) =
          supplyIdx S df q := by rw [supplyCurve_eq]; exact argmax_stepCurve _ _ _ _
      rw [e1, e2]
      have g1 : (demandCurve S df).1[demandIdx S df q]? = some (bf, demandAt S df q) := by
        rw [demandCurve_eq]; exact hbf
      have g2 : (supplyCurve S df).1[supplyIdx S df q]? = some (bg, supplyAt S df q) := by
        rw [supplyCurve_eq]; exact hbg
      rw [g1, g2]
      simp only [crossPrice]
      by_cases m1 : (q : Ext) ∈ (demandCurve S df).1.map Prod.fst <;>
        by_cases m2 : (q : Ext) ∈ (supplyCurve S df).1.map Prod.fst <;>
        simp only [m1, m2, decide_true, decide_false, Bool.and_true, Bool.and_false, Bool.not_true,
          Bool.not_false, if_true, if_false, and_self, and_true, and_false, Bool.false_eq_true]

theorem Crossing.unique {S : Sorter} {df : DF} {x y : ℚ} (hx : Crossing S df x)
    (hy : Crossing S df y) : x = y := by
  rcases lt_trichotomy x y with h | h | h
  · have := hx.above y (WithTop.coe_lt_coe.mpr h)
    exact absurd hy.at_x (not_lt.mpr this.le)
  · exact h
  · have := hy.above x (WithTop.coe_lt_coe.mpr h)
    exact absurd hx.at_x (not_lt.mpr this.le)

theorem Crossing.supply_fin {S : Sorter} {df : DF} {x : ℚ} (hx : Crossing S df x) :
    ∃ s : ℚ, supplyAt S df x = (s : Ext) := by
  obtain ⟨s, hs⟩ := WithTop.ne_top_iff_exists.mp (ne_top_of_lt hx.at_x)
  exact ⟨s, hs.symm⟩

theorem demand_fin (S : Sorter) (df : DF) (x : Ext) : ∃ d : ℚ, demandAt S df x = (d : Ext) := by
  obtain ⟨s, hs⟩ := WithTop.ne_top_iff_exists.mp (demandAt_ne_top S df x)
  exact ⟨s, hs.symm⟩

theorem supplyAt_nonneg (S : Sorter) {df : DF} (h : ∀ r ∈ df, 0 ≤ r.price) (x : Ext) :
    ((0 : ℚ) : Ext) ≤ supplyAt S df x := by
  unfold supplyAt
  rcases stepVal_mem x 0 (sortAsc S (sells df)) ⊤ with h' | ⟨r, hr, h'⟩ <;> rw [h']
  · exact le_top
  · exact WithTop.coe_le_coe.mpr (h r (mem_sells.mp (mem_sortAsc.mp hr)).1)

/-- No crossing: the iff with the failure condition. -/
theorem Crossing.no_tie {S : Sorter} {df : DF} (h : NonNeg df) {x : ℚ} (hx : Crossing S df x)
    (z : Ext) : demandAt S df z ≠ supplyAt S df z := by
  rcases lt_or_ge (x : Ext) z with hz | hz
  · exact (hx.above z hz).ne
  · have h1 := demandAt_antitone S (fun r hr => (h r hr).2) hz
    have h2 := supplyAt_monotone S df hz
    exact (lt_of_le_of_lt h2 (lt_of_lt_of_le hx.at_x h1)).ne'

/-! ## Independence of the order of the book -/

theorem Spec.SameBids.symm {df df' : DF} (h : SameBids df df') : SameBids df' df := List.Perm.symm h

theorem Spec.SameBids.mem {df df' : DF} (h : SameBids df df') {r : Row} (hr : r ∈ df) :
    ∃ r' ∈ df', r'.toBid = r.toBid := by
  have := (List.Perm.mem_iff h).mp (List.mem_map.mpr ⟨r, hr, rfl⟩)
  obtain ⟨r', hr', he⟩ := List.mem_map.mp this
  exact ⟨r', hr', he⟩

theorem Spec.SameBids.nonNeg {df df' : DF} (h : SameBids df df') (hn : NonNeg df) : NonNeg df' := by
  intro r hr
  obtain ⟨r', hr', he⟩ := h.symm.mem hr
  rw [← he]
  exact hn r' hr'

theorem Spec.SameBids.sum {df df' : DF} (h : SameBids df df') (P : Bid → Bool) :
    ((df.filter (fun r => P r.toBid)).map (fun r => r.quantity)).sum =
      ((df'.filter (fun r => P r.toBid)).map (fun r => r.quantity)).sum := by
  have key : ∀ l : DF, ((l.filter (fun r => P r.toBid)).map (fun r => r.quantity)).sum =
      (((l.map (fun r => r.toBid)).filter P).map (fun b => b.quantity)).sum := by
    intro l
    rw [List.filter_map, List.map_map]
    rfl
  rw [key, key]
  exact ((List.Perm.filter P h).map _).sum_eq

theorem Spec.SameBids.of_perm {df df' : DF} (h : df.Perm df') : SameBids df df' := h.map _

theorem demandAt_perm (S S' : Sorter) {df df' : DF} (h : NonNeg df) (hp : SameBids df df') {x : Ext}
    (hx : ((0 : ℚ) : Ext) ≤ x) : demandAt S df x = demandAt S' df' x := by
  have h' : NonNeg df' := hp.nonNeg h
  have half : ∀ (S S' : Sorter) (df df' : DF), NonNeg df → NonNeg df' → SameBids df df' →
      demandAt S df x ≤ demandAt S' df' x := by
    intro S S' df df' h h' hp
    obtain ⟨d, hd⟩ := demand_fin S df x
    rcases eq_or_ne x ⊤ with rfl | hne
    · rw [demandAt_top, demandAt_top]
    obtain ⟨q, rfl⟩ := WithTop.ne_top_iff_exists.mp hne
    have hq := WithTop.coe_le_coe.mp hx
    have hd0 := demandAt_nonneg S (fun r hr => (h r hr).2) (q : Ext)
    rw [hd] at hd0 ⊢
    rcases eq_or_lt_of_le (WithTop.coe_le_coe.mp hd0) with rfl | hd0
    · exact demandAt_nonneg S' (fun r hr => (h' r hr).2) _
    rcases eq_or_lt_of_le hq with rfl | hq
    · have := (stepVal_zero (P := fun v => (d : Ext) ≤ v) (a := 0) (e := ((0 : ℚ) : Ext))
        ((sortDesc_sorted S (buys df)).imp (fun h h' => le_trans h' (WithTop.coe_le_coe.mpr h)))
        (fun r hr => (h r (mem_buys.mp (mem_sortDesc.mp hr)).1).1)
        (not_le.mpr (WithTop.coe_lt_coe.mpr hd0))).mp hd.ge
      obtain ⟨r, hr, hdr⟩ := this
      refine (stepVal_zero (P := fun v => (d : Ext) ≤ v) (a := 0) (e := ((0 : ℚ) : Ext))
        ((sortDesc_sorted S' (buys df')).imp (fun h h' => le_trans h' (WithTop.coe_le_coe.mpr h)))
        (fun r hr => (h' r (mem_buys.mp (mem_sortDesc.mp hr)).1).1)
        (not_le.mpr (WithTop.coe_lt_coe.mpr hd0))).mpr ?_
      rw [mem_sortDesc, mem_buys] at hr
      obtain ⟨r', hr', he⟩ := hp.mem hr.1
      exact ⟨r', mem_sortDesc.mpr (mem_buys.mpr ⟨hr', by rw [he]; exact hr.2⟩),
        by rw [he]; exact hdr⟩
    · rw [demandAt_galois S' (fun r hr => (h' r hr).1) hq hd0]
      have := (demandAt_galois S (fun r hr => (h r hr).1) hq hd0).mp hd.ge
      have e : demandQty df d = demandQty df' d :=
        hp.sum (fun b => b.buying && decide (d ≤ b.price))
      rw [← e]; exact this
  exact le_antisymm (half S S' df df' h h' hp) (half S' S df' df h' h hp.symm)

theorem supplyAt_perm (S S' : Sorter) {df df' : DF} (h : NonNeg df) (hp : SameBids df df') {x : Ext}
    (hx : ((0 : ℚ) : Ext) ≤ x) : supplyAt S df x = supplyAt S' df' x := by
  have h' : NonNeg df' := hp.nonNeg h
  have half : ∀ (S S' : Sorter) (df df' : DF), NonNeg df → NonNeg df' → SameBids df df' →
      supplyAt S' df' x ≤ supplyAt S df x := by
    intro S S' df df' h h' hp
    rcases eq_or_ne (supplyAt S df x) ⊤ with ht | hne'
    · rw [ht]; exact le_top
    obtain ⟨d, hd⟩ := WithTop.ne_top_iff_exists.mp hne'
    rcases eq_or_ne x ⊤ with rfl | hne
    · rw [supplyAt_top, supplyAt_top]
    obtain ⟨q, rfl⟩ := WithTop.ne_top_iff_exists.mp hne
    have hq := WithTop.coe_le_coe.mp hx
    rw [← hd]
    rcases eq_or_lt_of_le hq with rfl | hq
    · have := (stepVal_zero (P := fun v => v ≤ (d : Ext)) (a := 0) (e := ⊤)
        ((sortAsc_sorted S (sells df)).imp (fun h h' => le_trans (WithTop.coe_le_coe.mpr h) h'))
        (fun r hr => (h r (mem_sells.mp (mem_sortAsc.mp hr)).1).1)
        (not_le.mpr (WithTop.coe_lt_top d))).mp hd.ge
      obtain ⟨r, hr, hdr⟩ := this
      refine (stepVal_zero (P := fun v => v ≤ (d : Ext)) (a := 0) (e := ⊤)
        ((sortAsc_sorted S' (sells df')).imp (fun h h' => le_trans (WithTop.coe_le_coe.mpr h) h'))
        (fun r hr => (h' r (mem_sells.mp (mem_sortAsc.mp hr)).1).1)
        (not_le.mpr (WithTop.coe_lt_top d))).mpr ?_
      rw [mem_sortAsc, mem_sells] at hr
      obtain ⟨r', hr', he⟩ := hp.mem hr.1
      exact ⟨r', mem_sortAsc.mpr (mem_sells.mpr ⟨hr', by rw [he]; exact hr.2⟩),
        by rw [he]; exact hdr⟩
    · rw [supplyAt_galois S' (fun r hr => (h' r hr).1) hq]
      have := (supplyAt_galois S (fun r hr => (h r hr).1) hq).mp hd.ge
      have e : supplyQty df d = supplyQty df' d :=
        hp.sum (fun b => !b.buying && decide (b.price ≤ d))
      rw [← e]; exact this
  exact le_antisymm (half S' S df' df h' h hp.symm) (half S S' df df' h h' hp)

end PyMarket
