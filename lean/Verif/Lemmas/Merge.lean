import Verif.Model.Processing
import Verif.Lemmas.Managers
import Mathlib.Data.List.Dedup
import Mathlib.Tactic.Linarith
import Mathlib.Tactic.FieldSimp
import Mathlib.Tactic.Ring

/-! # Lemmas about `merge_same_price` -/

set_option autoImplicit false

namespace PyMarket

/-! ## Rounding -/

theorem rint_near (x : ℚ) : |(rint x : ℚ) - x| ≤ 1 / 2 := by
  have h1 := Int.floor_le x
  have h2 := Int.lt_floor_add_one x
  unfold rint
  rw [abs_le]
  simp only
  split_ifs <;> push_cast <;> constructor <;> linarith

theorem npRound_near (prec : ℕ) (x : ℚ) : |npRound prec x - x| ≤ 1 / (2 * 10 ^ prec) := by
  have hp : (0 : ℚ) < 10 ^ prec := by positivity
  have h := rint_near (x * 10 ^ prec)
  have : npRound prec x - x = ((rint (x * 10 ^ prec) : ℚ) - x * 10 ^ prec) / 10 ^ prec := by
    unfold npRound; field_simp
  rw [this, abs_div, abs_of_pos hp, div_le_div_iff₀ hp (by positivity)]
  nlinarith

theorem rint_mono {x y : ℚ} (h : x ≤ y) : rint x ≤ rint y := by
  have hf : ⌊x⌋ ≤ ⌊y⌋ := Int.floor_mono h
  have hx1 := Int.floor_le x
  have hx2 := Int.lt_floor_add_one x
  have hy1 := Int.floor_le y
  rcases eq_or_lt_of_le hf with he | hl
  · unfold rint
    simp only [← he]
    have : ((⌊x⌋ : ℤ) : ℚ) = (⌊y⌋ : ℤ) := by rw [he]
    split_ifs <;> first | omega | (exfalso; linarith)
  · have hx : rint x ≤ ⌊x⌋ + 1 := by unfold rint; simp only; split_ifs <;> omega
    have hy : ⌊y⌋ ≤ rint y := by unfold rint; simp only; split_ifs <;> omega
    omega

theorem npRound_mono (prec : ℕ) {x y : ℚ} (h : x ≤ y) : npRound prec x ≤ npRound prec y := by
  have hp : (0 : ℚ) < 10 ^ prec := by positivity
  unfold npRound
  apply div_le_div_of_nonneg_right _ hp.le
  exact_mod_cast rint_mono (mul_le_mul_of_nonneg_right h hp.le)

theorem npRound_nonneg (prec : ℕ) {x : ℚ} (h : 0 ≤ x) : 0 ≤ npRound prec x := by
  have := npRound_mono prec h
  have h0 : npRound prec 0 = 0 := by simp [npRound, rint]
  rwa [h0] at this

/-- Two different values on the rounding grid differ by at least one unit in the last place. -/
theorem npRound_gap (prec : ℕ) {x y : ℚ} (h : npRound prec x < npRound prec y) :
    npRound prec x + 1 / 10 ^ prec ≤ npRound prec y := by
  have hp : (0 : ℚ) < 10 ^ prec := by positivity
  unfold npRound at *
  rw [div_lt_div_iff_of_pos_right hp] at h
  have h' : rint (x * 10 ^ prec) + 1 ≤ rint (y * 10 ^ prec) := by exact_mod_cast h
  rw [← add_div, div_le_div_iff_of_pos_right hp]
  exact_mod_cast h'

/-- If the rounded values are strictly ordered then so are the original ones. -/
theorem lt_of_npRound_lt (prec : ℕ) {x y : ℚ} (h : npRound prec x < npRound prec y) : x < y := by
  by_contra hc
  exact absurd (npRound_mono prec (not_lt.mp hc)) (not_le.mpr h)

/-! ## Groups -/

theorem mem_groupKeys {prec : ℕ} {df : DF} {k : ℚ} :
    k ∈ groupKeys prec df ↔ ∃ r ∈ df, npRound prec r.price = k := by
  simp [groupKeys]

theorem groupKeys_sorted (prec : ℕ) (df : DF) : (groupKeys prec df).Pairwise (· < ·) := by
  have h1 : (groupKeys prec df).Pairwise (· ≤ ·) := List.pairwise_insertionSort _ _
  have h2 : (groupKeys prec df).Nodup :=
    (List.perm_insertionSort _ _).nodup_iff.mpr (List.nodup_dedup _)
  exact (h1.and h2).imp (fun h => lt_of_le_of_ne h.1 h.2)

theorem mem_groupRows {prec : ℕ} {df : DF} {k : ℚ} {r : Row} :
    r ∈ groupRows prec df k ↔ r ∈ df ∧ npRound prec r.price = k := by
  simp [groupRows]

theorem groupRows_ne_nil {prec : ℕ} {df : DF} {k : ℚ} (h : k ∈ groupKeys prec df) :
    groupRows prec df k ≠ [] := by
  obtain ⟨r, hr, hk⟩ := mem_groupKeys.mp h
  exact List.ne_nil_of_mem (mem_groupRows.mpr ⟨hr, hk⟩)

/-- Splitting a list by the value of a function over a duplicate-free list of possible values. -/
theorem flatMap_filter_perm {α β : Type*} [DecidableEq β] (f : α → β) (l : List α)
    (ks : List β) (hnd : ks.Nodup) (hall : ∀ a ∈ l, f a ∈ ks) :
    (ks.flatMap (fun k => l.filter (fun a => f a == k))).Perm l := by
  induction l with
  | nil => simp
  | cons a l ih =>
    have ih' := ih (fun b hb => hall b (List.mem_cons_of_mem _ hb))
    have ha : f a ∈ ks := hall a List.mem_cons_self
    obtain ⟨k1, k2, hk⟩ := List.append_of_mem ha
    have hn1 : f a ∉ k1 := by
      rw [hk] at hnd
      intro h
      exact (List.nodup_append.mp hnd).2.2 _ h _ List.mem_cons_self rfl
    have hn2 : f a ∉ k2 := by
      rw [hk] at hnd
      exact (List.nodup_cons.mp (List.nodup_append.mp hnd).2.1).1
    have key : ∀ ks' : List β, f a ∉ ks' →
        ks'.flatMap (fun k => (a :: l).filter (fun b => f b == k)) =
        ks'.flatMap (fun k => l.filter (fun b => f b == k)) := by
      intro ks' hks'
      apply List.flatMap_congr
      intro k hkm
      have : ¬ (f a = k) := fun h => hks' (h ▸ hkm)
      simp [this]
    rw [hk] at ih' ⊢
    rw [List.flatMap_append, List.flatMap_cons] at ih' ⊢
    rw [key k1 hn1, key k2 hn2]
    simp only [List.filter_cons, beq_self_eq_true, if_true, List.cons_append]
    exact List.perm_middle.trans (ih'.cons a)

theorem groups_perm (prec : ℕ) (df : DF) :
    ((groupKeys prec df).flatMap (fun k => groupRows prec df k)).Perm df := by
  apply flatMap_filter_perm
  · exact (groupKeys_sorted prec df).imp (fun h => ne_of_lt h)
  · intro r hr
    exact mem_groupKeys.mpr ⟨r, hr, rfl⟩

/-! ## Aggregation -/

/-- What `aggSide` returns, group by group. -/
structure AggSpec (smp : Sampler) (prec : ℕ) (side : Bool) (df : DF) (keys : List ℚ) (index : ℤ)
    (gs : List (Bid × List ℕ)) (index' : ℤ) : Prop where
  labels : gs.map (fun g => g.2) =
    keys.map (fun k => (groupRows prec df k).map (fun r => r.label))
  quantity : gs.map (fun g => g.1.quantity) = keys.map (fun k => qsum (groupRows prec df k))
  price : gs.map (fun g => g.1.price) = keys
  side_eq : ∀ g ∈ gs, g.1.buying = side
  attrs : gs.map (fun g => (g.1.time, g.1.divisible)) =
    keys.map (fun k => (smp.time ((groupRows prec df k).map (fun r => r.time)),
      smp.divisible ((groupRows prec df k).map (fun r => r.divisible))))
  index_le : index ≤ index'
  single : ∀ (i : ℕ) (g : Bid × List ℕ) (k : ℚ), gs[i]? = some g → keys[i]? = some k →
    ∀ r, groupRows prec df k = [r] → g.1.user = r.user
  big : ∀ g ∈ gs, 1 < g.2.length → index ≤ g.1.user ∧ g.1.user < index'
  distinct : gs.Pairwise (fun (g g' : Bid × List ℕ) => 1 < g.2.length → 1 < g'.2.length → g.1.user < g'.1.user)
  count : index' = index + ((gs.filter (fun g => decide (1 < g.2.length))).length : ℤ)

theorem aggSide_ok (smp : Sampler) (prec : ℕ) (side : Bool) (df : DF) (keys : List ℚ) (index : ℤ)
    (hne : ∀ k ∈ keys, groupRows prec df k ≠ []) :
    ∃ gs index', aggSide smp prec side df keys index = .ok (gs, index') ∧
      AggSpec smp prec side df keys index gs index' := by
  induction keys generalizing index with
  | nil =>
    exact ⟨[], index, rfl, ⟨rfl, rfl, rfl, by simp, rfl, le_refl _, by simp, by simp, by simp, by simp⟩⟩
  | cons key keys ih =>
    have hk := hne key List.mem_cons_self
    have hrest : ∀ k ∈ keys, groupRows prec df k ≠ [] :=
      fun k h => hne k (List.mem_cons_of_mem _ h)
    -- the id of the first group
    obtain ⟨u, index₁, hnew, hle, hbig, hsingle, hcount⟩ : ∃ u index₁,
        newId index ((groupRows prec df key).map (fun r => r.user)) = .ok (u, index₁) ∧
        index ≤ index₁ ∧ (1 < (groupRows prec df key).length → index ≤ u ∧ u < index₁) ∧
        (∀ r, groupRows prec df key = [r] → u = r.user) ∧
        index₁ = index + if 1 < (groupRows prec df key).length then 1 else 0 := by
      unfold newId
      by_cases h : 1 < ((groupRows prec df key).map (fun r => r.user)).length
      · refine ⟨index, index + 1, by rw [if_pos h], by omega, fun _ => ⟨le_refl _, by omega⟩, ?_, ?_⟩
        · intro r hr
          rw [hr] at h
          simp at h
        · rw [List.length_map] at h
          rw [if_pos h]
      · rw [if_neg h]
        cases hg : groupRows prec df key with
        | nil => exact absurd hg hk
        | cons r rs =>
          refine ⟨r.user, index, rfl, le_refl _, ?_, ?_, ?_⟩
          · intro h'
            rw [hg, List.length_map] at h
            exact absurd h' h
          · intro r' hr'
            cases hr'
            rfl
          · rw [hg, List.length_map] at h
            rw [if_neg h, add_zero]
    obtain ⟨gs, index', hgs, spec⟩ := ih index₁ hrest
    refine ⟨(⟨qsum (groupRows prec df key), key, u, side,
        smp.time ((groupRows prec df key).map (fun r => r.time)),
        smp.divisible ((groupRows prec df key).map (fun r => r.divisible))⟩,
      (groupRows prec df key).map (fun r => r.label)) :: gs, index', ?_, ?_⟩
    · unfold aggSide aggGroup
      rw [hnew]
      simp only [Except.bind, bind, hgs]
    · refine ⟨?_, ?_, ?_, ?_, ?_, le_trans hle spec.index_le, ?_, ?_, ?_, ?_⟩
      · simp [spec.labels]
      · simp [spec.quantity]
      · simp [spec.price]
      · intro g hg
        rcases List.mem_cons.mp hg with h | h
        · rw [h]
        · exact spec.side_eq g h
      · simp [spec.attrs]
      · intro i g k hg hk' r hr
        cases i with
        | zero =>
          simp only [List.getElem?_cons_zero, Option.some.injEq] at hg hk'
          subst hg; subst hk'
          exact hsingle r hr
        | succ i =>
          simp only [List.getElem?_cons_succ] at hg hk'
          exact spec.single i g k hg hk' r hr
      · intro g hg h
        rcases List.mem_cons.mp hg with he | he
        · subst he
          simp only [List.length_map] at h
          have := hbig h
          exact ⟨this.1, lt_of_lt_of_le this.2 spec.index_le⟩
        · have := spec.big g he h
          exact ⟨le_trans hle this.1, this.2⟩
      · rw [List.pairwise_cons]
        refine ⟨?_, spec.distinct⟩
        intro g' hg' h1 h2
        simp only [List.length_map] at h1
        have a := hbig h1
        have b := spec.big g' hg' h2
        exact lt_of_lt_of_le a.2 b.1
      · rw [spec.count, hcount, List.filter_cons]
        by_cases h : 1 < (groupRows prec df key).length
        · rw [if_pos h, if_pos (by simpa using h), List.length_cons]
          push_cast
          ring
        · rw [if_neg h, if_neg (by simpa using h), add_zero]

theorem AggSpec.get {smp : Sampler} {prec : ℕ} {side : Bool} {df : DF} {keys : List ℚ}
    {index index' : ℤ} {gs : List (Bid × List ℕ)}
    (h : AggSpec smp prec side df keys index gs index') {i : ℕ} {g : Bid × List ℕ}
    (hg : gs[i]? = some g) :
    keys[i]? = some g.1.price ∧
    g.2 = (groupRows prec df g.1.price).map (fun r => r.label) ∧
    g.1.quantity = qsum (groupRows prec df g.1.price) ∧ g.1.buying = side := by
  have hp : keys[i]? = some g.1.price := by
    have := congrArg (fun l => l[i]?) h.price
    simp only [List.getElem?_map, hg, Option.map_some] at this
    exact this.symm
  refine ⟨hp, ?_, ?_, h.side_eq g (List.mem_of_getElem? hg)⟩
  · have := congrArg (fun l => l[i]?) h.labels
    simpa [List.getElem?_map, hg, hp] using this
  · have := congrArg (fun l => l[i]?) h.quantity
    simpa [List.getElem?_map, hg, hp] using this

/-- `merge_same_price` always succeeds; its result is the concatenation of the aggregated sides. -/
theorem mergeSamePrice_ok (smp : Sampler) (df : DF) (prec : ℕ) :
    ∃ gb i₁ gs i₂,
      AggSpec smp prec true (buys df) (groupKeys prec (buys df)) (maxUserSucc df) gb i₁ ∧
      AggSpec smp prec false (sells df) (groupKeys prec (sells df)) i₁ gs i₂ ∧
      mergeSamePrice smp df prec =
        .ok (labelFrom 0 ((gb ++ gs).map (fun p => p.1)), (gb ++ gs).map (fun p => p.2)) := by
  obtain ⟨gb, i₁, h1, s1⟩ := aggSide_ok smp prec true (buys df) (groupKeys prec (buys df))
    (maxUserSucc df) (fun k hk => groupRows_ne_nil hk)
  obtain ⟨gs, i₂, h2, s2⟩ := aggSide_ok smp prec false (sells df) (groupKeys prec (sells df))
    i₁ (fun k hk => groupRows_ne_nil hk)
  refine ⟨gb, i₁, gs, i₂, s1, s2, ?_⟩
  unfold mergeSamePrice
  simp only [h1, h2, bind, Except.bind]

end PyMarket
