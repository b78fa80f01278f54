import Verif.Lemmas.IeeeP2P
import Verif.Lemmas.FloatMuda

/-! # Huang's auction and the bounded exponent -/

set_option autoImplicit false

namespace PyMarket

open Spec

variable {A : Arith}

/-! ## Curves and their crossing -/

theorem demandCurveF_bin (hA : IsIeee A) (S : Sorter) {df : DF} (hb : BookBd df) :
    demandCurveF A S df = demandCurveF float64 S df := by
  have : cumsumF A ((sortDesc S (buys df)).map (fun r => r.quantity)) =
      cumsumF float64 ((sortDesc S (buys df)).map (fun r => r.quantity)) := by
    refine cumsumF_bin hA (e := 200) (m := 260) (by norm_num) (by norm_num) ?_ ?_
    · intro x hx
      obtain ⟨r, hr, rfl⟩ := List.mem_map.mp hx
      exact hb.qty r (mem_buys.mp (mem_sortDesc.mp hr)).1
    · rw [List.length_map, (sortDesc_perm S _).length_eq]
      exact (List.length_filter_le _ _).trans (hb.len.trans (by norm_num))
  unfold demandCurveF
  simp only [this]

theorem supplyCurveF_bin (hA : IsIeee A) (S : Sorter) {df : DF} (hb : BookBd df) :
    supplyCurveF A S df = supplyCurveF float64 S df := by
  have : cumsumF A ((sortAsc S (sells df)).map (fun r => r.quantity)) =
      cumsumF float64 ((sortAsc S (sells df)).map (fun r => r.quantity)) := by
    refine cumsumF_bin hA (e := 200) (m := 260) (by norm_num) (by norm_num) ?_ ?_
    · intro x hx
      obtain ⟨r, hr, rfl⟩ := List.mem_map.mp hx
      exact hb.qty r (mem_sells.mp (mem_sortAsc.mp hr)).1
    · rw [List.length_map, (sortAsc_perm S _).length_eq]
      exact (List.length_filter_le _ _).trans (hb.len.trans (by norm_num))
  unfold supplyCurveF
  simp only [this]

/-- The finite values of a curve are on a grid and bounded. -/
def CurveBd (f : Curve) : Prop := ∀ s ∈ f, ∀ q : ℚ, s.2 = (q : Ext) → Bd 200 260 1 q

theorem demandCurveF_bd (S : Sorter) {df : DF} (hb : BookBd df) : CurveBd (demandCurveF float64 S df) := by
  intro s hs q hq
  unfold demandCurveF at hs
  rcases List.mem_append.mp hs with h1 | h1
  · obtain ⟨p, hp, rfl⟩ := List.mem_map.mp h1
    obtain ⟨r, hr, he⟩ := List.mem_map.mp (List.of_mem_zip hp).2
    have : p.2 = q := by simpa using hq
    rw [← this, ← he]
    exact hb.price r (mem_buys.mp (mem_sortDesc.mp hr)).1
  · simp only [List.mem_singleton] at h1
    subst h1
    have : q = 0 := by simpa using hq
    rw [this]; exact Bd.zero _ _ _

theorem supplyCurveF_bd (S : Sorter) {df : DF} (hb : BookBd df) : CurveBd (supplyCurveF float64 S df) := by
  intro s hs q hq
  unfold supplyCurveF at hs
  rcases List.mem_append.mp hs with h1 | h1
  · obtain ⟨p, hp, rfl⟩ := List.mem_map.mp h1
    obtain ⟨r, hr, he⟩ := List.mem_map.mp (List.of_mem_zip hp).2
    have : p.2 = q := by simpa using hq
    rw [← this, ← he]
    exact hb.price r (mem_sells.mp (mem_sortAsc.mp hr)).1
  · simp only [List.mem_singleton] at h1
    subst h1
    cases hq

theorem float64_half : float64.rnd (1 - 1 / 2) = 1 / 2 := by
  have := float64.rep_half float64.rep_one
  unfold Fmt.Rep at this
  rw [show (1 : ℚ) - 1 / 2 = 1 / 2 by norm_num, this]

theorem ieee_half (hA : IsIeee A) : A.rnd (1 - 1 / 2) = 1 / 2 := by
  have h : Bd 1 0 1 (1 - 1 / 2 : ℚ) := ⟨⟨1, by norm_num⟩, by norm_num [abs_of_pos]⟩
  rw [hA.rnd (h.safe (by norm_num) (by norm_num) (by norm_num)), float64_half]

theorem scale_half_bin (hA : IsIeee A) {e : Ext} (he : ∀ q : ℚ, e = (q : Ext) → Bd 200 260 1 q) :
    (Val.scale (1 / 2) e).round A = (Val.scale (1 / 2) e).round float64 ∧
      ((Val.scale (1 / 2) e).round float64 = .inf ∨
        ∃ p, (Val.scale (1 / 2) e).round float64 = .fin p ∧ Bd 201 260 1 p) := by
  cases e with
  | none =>
    have : Val.scale (1 / 2) none = .inf := if_pos (by norm_num)
    rw [this]
    exact ⟨rfl, Or.inl rfl⟩
  | some q =>
    have h := (he q rfl).half
    refine ⟨?_, Or.inr ⟨float64.rnd (1 / 2 * q), rfl, h.rnd (by norm_num)⟩⟩
    show Val.fin (A.rnd (1 / 2 * q)) = Val.fin (float64.rnd (1 / 2 * q))
    rw [hA.rnd (h.safe (by norm_num) (by norm_num) (by norm_num))]

theorem kMixF_bin (hA : IsIeee A) {g f : Ext} (hg : ∀ q : ℚ, g = (q : Ext) → Bd 200 260 1 q)
    (hf : ∀ q : ℚ, f = (q : Ext) → Bd 200 260 1 q) :
    kMixF A (1 / 2) g f = kMixF float64 (1 / 2) g f ∧
      ∀ p, kMixF float64 (1 / 2) g f = .fin p → Bd 201 260 2 p := by
  obtain ⟨a1, a2⟩ := scale_half_bin hA hg
  obtain ⟨b1, b2⟩ := scale_half_bin hA hf
  unfold kMixF
  rw [ieee_half hA, float64_half, a1, b1]
  rcases a2 with a2 | ⟨p, a2, hp⟩ <;> rcases b2 with b2 | ⟨p', b2, hp'⟩ <;> rw [a2, b2]
  · exact ⟨rfl, fun p h => by cases h⟩
  · exact ⟨rfl, fun p h => by cases h⟩
  · exact ⟨rfl, fun p h => by cases h⟩
  · have h := hp.add hp'
    refine ⟨?_, ?_⟩
    · show Val.fin (A.rnd (p + p')) = Val.fin (float64.rnd (p + p'))
      rw [hA.rnd (h.safe (by norm_num) (by norm_num) (by norm_num))]
    · intro v hv
      have : float64.rnd (p + p') = v := by injection hv
      rw [← this]
      exact h.rnd (by norm_num)

theorem intersectStepwiseF_bin (hA : IsIeee A) {f g : Curve} (hf : CurveBd f) (hg : CurveBd g) :
    intersectStepwiseF A f g (1 / 2) = intersectStepwiseF float64 f g (1 / 2) ∧
      ∀ i, intersectStepwiseF float64 f g (1 / 2) = .ok i → ∀ p, i.v = .fin p → Bd 201 260 2 p := by
  unfold intersectStepwiseF
  cases h1 : maxX f with
  | error e => exact ⟨rfl, fun i h => by cases h⟩
  | ok mf =>
    cases h2 : maxX g with
    | error e => exact ⟨rfl, fun i h => by cases h⟩
    | ok mg =>
      simp only [bind, Except.bind]
      cases h3 : crossLoop f g (gridXs f g (min mf mg)) none with
      | error e => exact ⟨rfl, fun i h => by cases h⟩
      | ok o =>
        simp only
        cases o with
        | some y =>
          simp only
          cases h4 : g[argmaxTrue (g.map (fun s => decide (y ≤ s.1)))]? with
          | none => exact ⟨rfl, fun i h => by cases h⟩
          | some r1 =>
            cases h5 : f[argmaxTrue (f.map (fun s => decide (y ≤ s.1)))]? with
            | none => exact ⟨rfl, fun i h => by cases h⟩
            | some r2 =>
              simp only
              have e1 := hg r1 (List.mem_of_getElem? h4)
              have e2 := hf r2 (List.mem_of_getElem? h5)
              obtain ⟨k1, k2⟩ := kMixF_bin hA e1 e2
              rw [k1]
              refine ⟨rfl, ?_⟩
              intro i hi p hp
              cases hi
              simp only at hp
              have ofE : ∀ e : Ext, (∀ q : ℚ, e = (q : Ext) → Bd 200 260 1 q) → Val.ofExt e = .fin p →
                  Bd 201 260 2 p := by
                intro e he h
                cases e with
                | none => cases h
                | some q => cases h; exact (he p rfl).mono (by norm_num) le_rfl (by norm_num)
              split at hp
              · split at hp
                · exact ofE _ e1 hp
                · exact ofE _ e2 hp
              · exact k2 p hp
        | none =>
          simp only
          generalize (gridXs f g (min mf mg)).getLast? = o1
          cases o1 with
          | none => exact ⟨rfl, fun i h => by cases h⟩
          | some xl =>
            simp only
            cases h4 : getValueStepwise xl g with
            | none => exact ⟨rfl, fun i h => by cases h⟩
            | some r1 =>
              cases h5 : getValueStepwise xl f with
              | none => exact ⟨rfl, fun i h => by cases h⟩
              | some r2 =>
                simp only
                have m1 : ∃ s ∈ g, s.2 = r1 := by
                  unfold getValueStepwise at h4
                  split at h4
                  · cases h4
                  · exact stepLookup_mem h4
                have m2 : ∃ s ∈ f, s.2 = r2 := by
                  unfold getValueStepwise at h5
                  split at h5
                  · cases h5
                  · exact stepLookup_mem h5
                obtain ⟨s1, hs1, rfl⟩ := m1
                obtain ⟨s2, hs2, rfl⟩ := m2
                obtain ⟨k1, k2⟩ := kMixF_bin hA (hg s1 hs1) (hf s2 hs2)
                rw [k1]
                exact ⟨rfl, fun i hi p hp => by cases hi; exact k2 p hp⟩

/-! ## Rationing -/

theorem Bd.nat (n : ℕ) : Bd 0 0 n (n : ℚ) := ⟨by simpa using Grid.int 0 n, by simp⟩

theorem gap_div_bin (hA : IsIeee A) {c N : ℕ} {gap : ℚ} (hg : Bd 200 260 c gap) (hc : c ≤ 2 ^ 53)
    (hN : N ≤ 2 ^ 50) :
    A.rnd (gap / N) = float64.rnd (gap / N) ∧ Bd 302 313 1 (float64.rnd (gap / N)) := by
  obtain ⟨h1, h2⟩ := hg.div_rnd (Bd.nat N) 53 50 hc hN (by norm_num) (by norm_num)
  exact ⟨hA.rnd h1, h2.mono (by norm_num) (by norm_num) le_rfl⟩

theorem uqLoopF_bin (hA : IsIeee A) (q : List (Option ℚ)) (N : ℕ) (gap : ℚ) (c : ℕ)
    (hq : ∀ v, some v ∈ q → Bd 200 260 1 v) (hg : Bd 200 260 c gap) (hN : N ≤ 2 ^ 50)
    (hc : c + q.countP Option.isSome ≤ 2 ^ 53) :
    uqLoopF A q N gap = uqLoopF float64 q N gap ∧
      ∀ q' N' gap', uqLoopF float64 q N gap = .ok (q', N', gap') →
        q'.length = q.length ∧ (∀ v, some v ∈ q' → Bd 200 260 1 v) ∧ N' ≤ 2 ^ 50 ∧
          ∃ c' ≤ 2 ^ 53, Bd 200 260 c' gap' := by
  induction q, N, gap using uqLoopF.induct (F := float64) generalizing c with
  | case1 q N gap hn =>
    have h1 : uqLoopF A q N gap = .error .valueError := by
      rw [uqLoopF]
      split
      · rfl
      · rename_i h'; rw [hn] at h'; cases h'
    rw [h1, uqLoopF_none _ _ _ hn]
    exact ⟨rfl, fun _ _ _ h => by cases h⟩
  | case2 q N gap i v hv hlt ih =>
    have hmem : some v ∈ q := List.mem_of_getElem? (nanArgMin_getElem? q i v hv)
    have hs : Bd 200 260 (c + 1) (gap - v) := hg.sub (hq v hmem)
    have hcount := countP_set_none q i v (nanArgMin_getElem? q i v hv)
    obtain ⟨a1, a2⟩ := ih (c + 1) (fun w hw => hq w (mem_set_none hw)) (hs.rnd (by omega)) (by omega) (by omega)
    have h1 : uqLoopF A q N gap = if v < A.rnd (gap / N) then
        uqLoopF A (q.set i none) (N - 1) (A.rnd (gap - v)) else .ok (q, N, gap) := by
      conv_lhs => rw [uqLoopF]
      split
      · rename_i h'; rw [hv] at h'; cases h'
      · rename_i h'; rw [hv] at h'; cases h'; rfl
    rw [h1, uqLoopF_some _ _ _ hv, (gap_div_bin hA hg (by omega) hN).1, if_pos hlt, if_pos hlt,
      hA.rnd (hs.safe (by norm_num) (by norm_num) (by omega))]
    rw [List.length_set] at a2
    exact ⟨a1, a2⟩
  | case3 q N gap i v hv hlt =>
    have h1 : uqLoopF A q N gap = if v < A.rnd (gap / N) then
        uqLoopF A (q.set i none) (N - 1) (A.rnd (gap - v)) else .ok (q, N, gap) := by
      conv_lhs => rw [uqLoopF]
      split
      · rename_i h'; rw [hv] at h'; cases h'
      · rename_i h'; rw [hv] at h'; cases h'; rfl
    rw [h1, uqLoopF_some _ _ _ hv, (gap_div_bin hA hg (by omega) hN).1, if_neg hlt, if_neg hlt]
    exact ⟨rfl, fun q' N' gap' h => by cases h; exact ⟨rfl, hq, hN, c, by omega, hg⟩⟩

theorem foldl_max_mem (x : ℚ) (l : List ℚ) : l.foldl max x ∈ x :: l := by
  induction l generalizing x with
  | nil => simp
  | cons y l ih =>
    rw [List.foldl_cons]
    rcases max_choice x y with hc | hc <;> rw [hc]
    · rcases List.mem_cons.mp (ih x) with h | h
      · rw [h]; simp
      · simp [h]
    · exact List.mem_cons_of_mem _ (ih y)

theorem maxList_mem {l : List ℚ} (h : l ≠ []) : maxList l ∈ l := by
  cases l with
  | nil => exact absurd rfl h
  | cons x l => exact foldl_max_mem x l

theorem updateQuantityF_bin (hA : IsIeee A) {q : List ℚ} {gap : ℚ} {c : ℕ} (hq : ∀ v ∈ q, Bd 200 260 1 v)
    (hlen : q.length ≤ 2 ^ 50) (hg : Bd 200 260 c gap) (hc : c ≤ 2 ^ 52) :
    updateQuantityF A q gap = updateQuantityF float64 q gap ∧
      ∀ q', updateQuantityF float64 q gap = .ok q' → q'.length = q.length ∧ ∀ v ∈ q', Bd 302 314 1 v := by
  have hcnt : (q.map some).countP Option.isSome = q.length := by
    rw [List.countP_map, List.countP_eq_length.mpr (by simp)]
  obtain ⟨a1, a2⟩ := uqLoopF_bin hA (q.map some) q.length gap c
    (by intro v hv; obtain ⟨w, hw, he⟩ := List.mem_map.mp hv; cases he; exact hq _ hw) hg hlen
    (by rw [hcnt]; omega)
  unfold updateQuantityF
  rw [a1]
  cases h : uqLoopF float64 (q.map some) q.length gap with
  | error e => exact ⟨rfl, fun _ h => by cases h⟩
  | ok r =>
    obtain ⟨q', N', gap'⟩ := r
    obtain ⟨b0, b1, b2, c', b3, b4⟩ := a2 q' N' gap' h
    obtain ⟨d1, d2⟩ := gap_div_bin hA b4 b3 b2
    have hsub : ∀ x ∈ q'.map (fun o => o.getD 0), Bd 302 313 2 (x - float64.rnd (gap' / N')) := by
      intro x hx
      obtain ⟨o, ho, rfl⟩ := List.mem_map.mp hx
      have hx' : Bd 302 313 1 (o.getD 0) := by
        cases o with
        | none => exact Bd.zero _ _ _
        | some v => exact (b1 v ho).mono (by norm_num) (by norm_num) le_rfl
      exact hx'.sub d2
    have e : (q'.map (fun o => o.getD 0)).map (fun x => A.rnd (x - A.rnd (gap' / N'))) =
        (q'.map (fun o => o.getD 0)).map (fun x => float64.rnd (x - float64.rnd (gap' / N'))) := by
      apply List.map_congr_left
      intro x hx
      rw [d1, hA.rnd ((hsub x hx).safe (by norm_num) (by norm_num) (by norm_num))]
    simp only [bind, Except.bind]
    rw [e]
    refine ⟨rfl, ?_⟩
    intro q'' hq''
    cases hq''
    refine ⟨by simpa using b0, fun v hv => ?_⟩
    have hall : ∀ x ∈ (q'.map (fun o => o.getD 0)).map (fun x => float64.rnd (x - float64.rnd (gap' / N'))),
        Bd 302 314 1 x := by
      intro x hx
      obtain ⟨y, hy, rfl⟩ := List.mem_map.mp hx
      exact ((hsub y hy).rnd (by norm_num)).lift 1 (by norm_num)
    obtain ⟨x, hx, rfl⟩ := List.mem_map.mp hv
    unfold clip0
    exact ((hall x hx).max (Bd.zero _ _ _)).min (hall _ (maxList_mem (List.ne_nil_of_mem hx)))

/-! ## The auction -/

theorem qty_take_bd {l : DF} (hl : ∀ r ∈ l, Bd 200 260 1 r.quantity) (k : ℕ) :
    ∀ x ∈ (l.take k).map (fun r => r.quantity), Bd 200 260 1 x := by
  intro x hx
  obtain ⟨r, hr, rfl⟩ := List.mem_map.mp hx
  exact hl r (List.mem_of_mem_take hr)

theorem mem_huangSideTrans_qty {rows : DF} {qs : List ℚ} {p : ℚ} {t : Transaction}
    (h : t ∈ huangSideTrans rows qs p) : t.quantity ∈ qs := by
  obtain ⟨x, hx, rfl⟩ := List.mem_map.mp h
  exact (List.of_mem_zip hx).2

theorem huangAuctionF_bin (hA : IsIeee A) (s : Summer A) (S : Sorter) {df : DF} (hb : BookBd df) :
    huangAuctionF A s S df = huangAuctionF float64 s.toBin S df ∧
      ∀ tm x, huangAuctionF float64 s.toBin S df = .ok (tm, x) → ∀ t ∈ tm.trans, Bd 302 320 1 t.quantity := by
  have hB : ∀ r ∈ sortDesc S (buys df), Bd 200 260 1 r.quantity := fun r h =>
    hb.qty r (mem_buys.mp (mem_sortDesc.mp h)).1
  have hS : ∀ r ∈ sortAsc S (sells df), Bd 200 260 1 r.quantity := fun r h =>
    hb.qty r (mem_sells.mp (mem_sortAsc.mp h)).1
  have lB : ∀ k, (((sortDesc S (buys df)).take k).map (fun r => r.quantity)).length ≤ 2 ^ 50 := by
    intro k
    rw [List.length_map]
    refine (List.length_take_le' _ _).trans ?_
    rw [(sortDesc_perm S _).length_eq]
    exact (List.length_filter_le _ _).trans hb.len
  have lS : ∀ k, (((sortAsc S (sells df)).take k).map (fun r => r.quantity)).length ≤ 2 ^ 50 := by
    intro k
    rw [List.length_map]
    refine (List.length_take_le' _ _).trans ?_
    rw [(sortAsc_perm S _).length_eq]
    exact (List.length_filter_le _ _).trans hb.len
  have hsum : ∀ l : List ℚ, (∀ x ∈ l, Bd 200 260 1 x) → l.length ≤ 2 ^ 50 → s.sum l = s.toBin.sum l :=
    fun l h1 h2 => s.toBin_sum hA (by norm_num) (by norm_num) h1 (h2.trans (by norm_num))
  have hsum' : ∀ l : List ℚ, (∀ x ∈ l, Bd 302 314 1 x) → l.length ≤ 2 ^ 50 → s.sum l = s.toBin.sum l :=
    fun l h1 h2 => s.toBin_sum hA (by norm_num) (by norm_num) h1 (h2.trans (by norm_num))
  unfold huangAuctionF
  simp only
  rw [demandCurveF_bin hA S hb, supplyCurveF_bin hA S hb,
    (intersectStepwiseF_bin hA (demandCurveF_bd S hb) (supplyCurveF_bd S hb)).1]
  cases h1 : intersectStepwiseF float64 (demandCurveF float64 S df) (supplyCurveF float64 S df) with
  | error e => exact ⟨rfl, fun _ _ h => by cases h⟩
  | ok i =>
    obtain ⟨x, f, g, v⟩ := i
    simp only [bind, Except.bind]
    cases f with
    | none => exact ⟨rfl, fun _ _ h => by cases h; simp [TransactionManager.init]⟩
    | some b =>
      cases g with
      | none => exact ⟨rfl, fun _ _ h => by cases h; simp [TransactionManager.init]⟩
      | some g =>
        simp only
        cases h2 : (supplyCurveF float64 S df)[g]? with
        | none => exact ⟨rfl, fun _ _ h => by cases h⟩
        | some sRow =>
          cases h3 : (demandCurveF float64 S df)[b]? with
          | none => exact ⟨rfl, fun _ _ h => by cases h⟩
          | some bRow =>
            simp only
            have qB := qty_take_bd hB b
            have qS := qty_take_bd hS g
            have lb := lB b
            have ls := lS g
            generalize (((sortDesc S (buys df)).take b).map (fun r => r.quantity)) = B at qB lb ⊢
            generalize (((sortAsc S (sells df)).take g).map (fun r => r.quantity)) = C at qS ls ⊢
            rw [hsum B qB lb, hsum C qS ls]
            have hgap : Bd 200 260 (C.length + B.length) (s.toBin.sum C - s.toBin.sum B) :=
              ((s.toBin.isSum C).bd qS (by omega)).sub ((s.toBin.isSum B).bd qB (by omega))
            rw [hA.rnd (hgap.safe (by norm_num) (by norm_num) (by omega))]
            have hgap' := hgap.rnd (by omega)
            generalize float64.rnd (s.toBin.sum C - s.toBin.sum B) = gap at hgap' ⊢
            obtain ⟨u1, u2⟩ := updateQuantityF_bin hA qS ls hgap' (by omega)
            obtain ⟨w1, w2⟩ := updateQuantityF_bin hA qB lb hgap'.neg (by omega)
            rw [u1, w1]
            by_cases hpos : 0 < b ∧ 0 < g
            · rw [if_pos hpos, if_pos hpos]
              have qB' : ∀ x ∈ B, Bd 302 314 1 x := fun x h => (qB x h).mono (by norm_num) (by norm_num) le_rfl
              have qS' : ∀ x ∈ C, Bd 302 314 1 x := fun x h => (qS x h).mono (by norm_num) (by norm_num) le_rfl
              by_cases hg0 : 0 < gap
              · rw [if_pos hg0, if_pos hg0]
                cases h4 : updateQuantityF float64 C gap with
                | error e => exact ⟨rfl, fun _ _ h => by cases h⟩
                | ok qs =>
                  obtain ⟨k1, k2⟩ := u2 qs h4
                  simp only
                  refine ⟨trivial, ?_⟩
                  intro tm x h t ht
                  cases h
                  rw [TransactionManager.init_addAll_trans, List.mem_append] at ht
                  rcases ht with ht | ht
                  · exact (k2 _ (mem_huangSideTrans_qty ht)).mono le_rfl (by norm_num) le_rfl
                  · exact (qB' _ (mem_huangSideTrans_qty ht)).mono le_rfl (by norm_num) le_rfl
              · rw [if_neg hg0, if_neg hg0]
                cases h4 : updateQuantityF float64 B (-gap) with
                | error e => exact ⟨rfl, fun _ _ h => by cases h⟩
                | ok qb =>
                  obtain ⟨k1, k2⟩ := w2 qb h4
                  simp only
                  rw [hsum' qb k2 (by omega)]
                  refine ⟨rfl, ?_⟩
                  intro tm x h t ht
                  cases h
                  rw [TransactionManager.init_addAll_trans, List.mem_append] at ht
                  rcases ht with ht | ht
                  · exact (qS' _ (mem_huangSideTrans_qty ht)).mono le_rfl (by norm_num) le_rfl
                  · exact (k2 _ (mem_huangSideTrans_qty ht)).mono le_rfl (by norm_num) le_rfl
            · rw [if_neg hpos, if_neg hpos]
              exact ⟨rfl, fun _ _ h => by cases h; simp [TransactionManager.init]⟩

end PyMarket
