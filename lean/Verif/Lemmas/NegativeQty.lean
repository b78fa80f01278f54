import Verif.Lemmas.Intersect
import Verif.Lemmas.P2P
import Verif.Model.Huang
import Verif.Model.Muda

/-! # Lemmas for quantities of either sign -/

set_option autoImplicit false

namespace PyMarket

open Spec

/-! ## Partial sums below 0 -/

/-- In the order of the curve, the quantities of some first bids of a side sum to less than 0. -/
def Spec.Dips (S : Sorter) (df : DF) : Prop :=
  ∃ k, (((sortDesc S (buys df)).take k).map (fun r => r.quantity)).sum < 0 ∨
    (((sortAsc S (sells df)).take k).map (fun r => r.quantity)).sum < 0

theorem stepCurve_neg {a : ℚ} (ha : 0 ≤ a) (rows : DF) (e : Ext) :
    (∃ s ∈ stepCurve a rows e, s.1 < ((0 : ℚ) : Ext)) ↔
      ∃ k, a + ((rows.take k).map (fun r => r.quantity)).sum < 0 := by
  induction rows generalizing a with
  | nil =>
    constructor
    · rintro ⟨s, hs, h⟩
      simp only [stepCurve, List.mem_singleton] at hs
      rw [hs] at h
      exact absurd h not_top_lt
    · rintro ⟨k, h⟩
      simp only [List.take_nil, List.map_nil, List.sum_nil, add_zero] at h
      exact absurd h (not_lt.mpr ha)
  | cons r rows ih =>
    rcases lt_or_ge (a + r.quantity) 0 with hneg | hpos
    · constructor
      · intro _
        exact ⟨1, by simpa using hneg⟩
      · intro _
        exact ⟨_, List.mem_cons_self, WithTop.coe_lt_coe.mpr hneg⟩
    · constructor
      · rintro ⟨s, hs, h⟩
        rcases List.mem_cons.mp hs with rfl | hs
        · exact absurd (WithTop.coe_lt_coe.mp h) (not_lt.mpr hpos)
        · obtain ⟨k, hk⟩ := (ih hpos).mp ⟨s, hs, h⟩
          refine ⟨k + 1, ?_⟩
          rw [List.take_succ_cons, List.map_cons, List.sum_cons, ← add_assoc]
          exact hk
      · rintro ⟨k, hk⟩
        cases k with
        | zero =>
          simp only [List.take_zero, List.map_nil, List.sum_nil, add_zero] at hk
          exact absurd hk (not_lt.mpr ha)
        | succ k =>
          rw [List.take_succ_cons, List.map_cons, List.sum_cons, ← add_assoc] at hk
          obtain ⟨s, hs, h⟩ := (ih hpos).mpr ⟨k, hk⟩
          exact ⟨s, List.mem_cons_of_mem _ hs, h⟩

theorem grid_neg (S : Sorter) (df : DF) :
    (∃ x ∈ gridXs (demandCurve S df).1 (supplyCurve S df).1 ⊤, x < ((0 : ℚ) : Ext)) ↔
      Dips S df := by
  have h1 := stepCurve_neg le_rfl (sortDesc S (buys df)) ((0 : ℚ) : Ext)
  have h2 := stepCurve_neg le_rfl (sortAsc S (sells df)) (⊤ : Ext)
  simp only [zero_add] at h1 h2
  constructor
  · rintro ⟨x, hx, h0⟩
    rw [mem_gridXs, demandCurve_eq, supplyCurve_eq] at hx
    rcases hx.1 with ⟨s, hs, rfl⟩ | ⟨s, hs, rfl⟩
    · obtain ⟨k, hk⟩ := h1.mp ⟨s, hs, h0⟩
      exact ⟨k, .inl hk⟩
    · obtain ⟨k, hk⟩ := h2.mp ⟨s, hs, h0⟩
      exact ⟨k, .inr hk⟩
  · rintro ⟨k, hk | hk⟩
    · obtain ⟨s, hs, h0⟩ := h1.mpr ⟨k, hk⟩
      refine ⟨s.1, ?_, h0⟩
      rw [mem_gridXs, demandCurve_eq]
      exact ⟨.inl ⟨s, hs, rfl⟩, le_top⟩
    · obtain ⟨s, hs, h0⟩ := h2.mpr ⟨k, hk⟩
      refine ⟨s.1, ?_, h0⟩
      rw [mem_gridXs, supplyCurve_eq]
      exact ⟨.inr ⟨s, hs, rfl⟩, le_top⟩

/-- With a breakpoint below 0 the first comparison already fails. -/
theorem intersect_dips (S : Sorter) {df : DF} (h : Dips S df) (k : ℚ) :
    intersectStepwise (demandCurve S df).1 (supplyCurve S df).1 k = .error .typeError := by
  have hmf : maxX (demandCurve S df).1 = .ok ⊤ := by rw [demandCurve_eq]; exact maxX_stepCurve _ _ _
  have hmg : maxX (supplyCurve S df).1 = .ok ⊤ := by rw [supplyCurve_eq]; exact maxX_stepCurve _ _ _
  have hl : crossLoop (demandCurve S df).1 (supplyCurve S df).1
      (gridXs (demandCurve S df).1 (supplyCurve S df).1 ⊤) none = .error .typeError := by
    obtain ⟨x, hx, h0⟩ := (grid_neg S df).mpr h
    have hlast := grid_last S df
    have hs := gridXs_sorted (demandCurve S df).1 (supplyCurve S df).1 ⊤
    generalize gridXs (demandCurve S df).1 (supplyCurve S df).1 ⊤ = xs at *
    match xs, hx, hlast, hs with
    | [y], hx, hlast, _ =>
      rw [List.mem_singleton] at hx
      simp only [List.getLast?_singleton, Option.some.injEq] at hlast
      rw [hx, hlast] at h0
      exact absurd h0 not_top_lt
    | y :: z :: rest, hx, _, hs =>
      have hy : y < ((0 : ℚ) : Ext) := by
        rw [List.pairwise_cons] at hs
        rcases List.mem_cons.mp hx with rfl | hx
        · exact h0
        · exact (hs.1 x hx).trans h0
      unfold crossLoop
      have hv : ∀ f : Curve, getValueStepwise y f = none := by
        intro f
        unfold getValueStepwise
        rw [if_pos hy]
      rw [hv, hv]
      rfl
  unfold intersectStepwise
  simp only [hmf, hmg, bind, Except.bind, min_self, hl]

/-- Without one, `intersect_stepwise` returns, whatever the signs of the quantities, and the rows it
names exist. -/
theorem intersect_no_dips (S : Sorter) {df : DF} (h : ¬ Dips S df) (k : ℚ) :
    ∃ i, intersectStepwise (demandCurve S df).1 (supplyCurve S df).1 k = .ok i ∧
      ∀ b s, i.f = some b → i.g = some s →
        (∃ r, (demandCurve S df).1[b]? = some r) ∧ ∃ r, (supplyCurve S df).1[s]? = some r := by
  have hmf : maxX (demandCurve S df).1 = .ok ⊤ := by rw [demandCurve_eq]; exact maxX_stepCurve _ _ _
  have hmg : maxX (supplyCurve S df).1 = .ok ⊤ := by rw [supplyCurve_eq]; exact maxX_stepCurve _ _ _
  have hl : crossLoop (demandCurve S df).1 (supplyCurve S df).1
      (gridXs (demandCurve S df).1 (supplyCurve S df).1 ⊤) none =
    .ok (crossPure (demandAt S df) (supplyAt S df)
      (gridXs (demandCurve S df).1 (supplyCurve S df).1 ⊤) none) := by
    apply crossLoop_eq
    intro x hx
    have h0 : ((0 : ℚ) : Ext) ≤ x := by
      by_contra hlt
      exact h ((grid_neg S df).mp ⟨x, hx, not_le.mp hlt⟩)
    rw [demandCurve_eq, supplyCurve_eq]
    exact ⟨getValue_stepCurve h0 _ _ _, getValue_stepCurve h0 _ _ _⟩
  unfold intersectStepwise
  simp only [hmf, hmg, bind, Except.bind, min_self, hl, grid_last S df]
  have h1 := getValue_stepCurve (x := ⊤) le_top 0 (sortAsc S (sells df)) ⊤
  have h2 := getValue_stepCurve (x := ⊤) le_top 0 (sortDesc S (buys df)) ((0 : ℚ) : Ext)
  rw [← supplyCurve_eq, stepVal_top] at h1
  rw [← demandCurve_eq, stepVal_top] at h2
  rcases crossPure (demandAt S df) (supplyAt S df)
      (gridXs (demandCurve S df).1 (supplyCurve S df).1 ⊤) none with _ | x
  · dsimp only
    rw [h1, h2]
    exact ⟨_, rfl, fun b s hb => by cases hb⟩
  · dsimp only
    obtain ⟨bg, _, hbg⟩ := stepCurve_get_idx x 0 (sortAsc S (sells df)) ⊤
    obtain ⟨bf, _, hbf⟩ := stepCurve_get_idx x 0 (sortDesc S (buys df)) ((0 : ℚ) : Ext)
    have e1 : argmaxTrue ((demandCurve S df).1.map (fun s => decide (x ≤ s.1))) =
        demandIdx S df x := by rw [demandCurve_eq]; exact argmax_stepCurve _ _ _ _
    have e2 : argmaxTrue ((supplyCurve S df).1.map (fun s => decide (x ≤ s.1))) =
        supplyIdx S df x := by rw [supplyCurve_eq]; exact argmax_stepCurve _ _ _ _
    have g1 : (demandCurve S df).1[demandIdx S df x]? = some (bf, demandAt S df x) := by
      rw [demandCurve_eq]; exact hbf
    have g2 : (supplyCurve S df).1[supplyIdx S df x]? = some (bg, supplyAt S df x) := by
      rw [supplyCurve_eq]; exact hbg
    rw [e1, e2, g1, g2]
    refine ⟨_, rfl, ?_⟩
    rintro b s hb hs
    cases hb
    cases hs
    exact ⟨⟨_, g1⟩, ⟨_, g2⟩⟩

/-- Reading the order off the prices: the first bids of a sorted side up to a price. -/
theorem exists_take_filter {α : Type*} {R : α → α → Prop} {P : α → Bool} {l : List α}
    (hs : l.Pairwise R) (hP : ∀ a b, R a b → P b = true → P a = true) :
    ∃ k, l.filter P = l.take k := by
  induction l with
  | nil => exact ⟨0, rfl⟩
  | cons a l ih =>
    rw [List.pairwise_cons] at hs
    by_cases ha : P a = true
    · obtain ⟨k, hk⟩ := ih hs.2
      exact ⟨k + 1, by rw [List.filter_cons_of_pos ha, hk, List.take_succ_cons]⟩
    · refine ⟨0, ?_⟩
      rw [List.take_zero, List.filter_eq_nil_iff]
      intro b hb hPb
      rcases List.mem_cons.mp hb with rfl | hb
      · exact ha hPb
      · exact ha (hP a b (hs.1 b hb) hPb)

/-- When the order is strict, every first segment is one up to a price. -/
theorem take_eq_filter {f : Row → ℚ} : ∀ {l : DF} (k : ℕ),
    l.Pairwise (fun a b => f a < f b) → 0 < (l.take k).length →
    ∃ p, l.take k = l.filter (fun r => decide (f r ≤ p)) ∧ ∃ r ∈ l, f r = p
  | [], k, _, h => by simp at h
  | r :: l, 0, _, h => by simp at h
  | r :: l, k + 1, hs, _ => by
      rw [List.pairwise_cons] at hs
      rcases Nat.eq_zero_or_pos (l.take k).length with h0 | hpos
      · refine ⟨f r, ?_, r, List.mem_cons_self, rfl⟩
        rw [List.take_succ_cons, List.length_eq_zero_iff.mp h0,
          List.filter_cons_of_pos (by simp)]
        congr 1
        symm
        rw [List.filter_eq_nil_iff]
        intro b hb
        simpa using hs.1 b hb
      · obtain ⟨p, hp, r', hr', hp'⟩ := take_eq_filter k hs.2 hpos
        refine ⟨p, ?_, r', List.mem_cons_of_mem _ hr', hp'⟩
        rw [List.take_succ_cons, List.filter_cons_of_pos
          (by rw [decide_eq_true_eq, ← hp']; exact (hs.1 r' hr').le), hp]

/-! ## Errors of MUDA other than `TypeError` -/

/-- The computation does not raise `TypeError`. -/
def NoTypeError {α : Type} (x : Except PyErr α) : Prop := x ≠ .error .typeError

theorem NoTypeError.bind {α β : Type} {x : Except PyErr α} {f : α → Except PyErr β}
    (hx : NoTypeError x) (hf : ∀ a, NoTypeError (f a)) : NoTypeError (x >>= f) := by
  cases x with
  | error e => exact fun h => hx (by cases h; rfl)
  | ok a => exact hf a

theorem NoTypeError.ok {α : Type} (a : α) : NoTypeError (Except.ok a : Except PyErr α) := by
  intro h; cases h

theorem getTradingBids_noType (rows : DF) (q : ℚ) : NoTypeError (getTradingBids rows q) := by
  unfold getTradingBids NoTypeError
  split_ifs
  · intro h; cases h
  · dsimp only
    split
    · intro h; cases h
    · split_ifs
      · intro h; cases h
      · intro h; cases h

theorem npSet_noType (fees : List ℚ) (u : ℤ) (v : ℚ) : NoTypeError (npSet fees u v) := by
  unfold npSet NoTypeError
  split_ifs <;> (intro h; cases h)

theorem feeLoop_noType (rows : DF) (k : ℕ) (t p : ℚ) : ∀ (us : List ℤ) (fees : List ℚ),
    NoTypeError (feeLoop rows k t p us fees)
  | [], _ => NoTypeError.ok _
  | _ :: us, _ => NoTypeError.bind (npSet_noType _ _ _) (fun _ => feeLoop_noType rows k t p us _)

theorem solveSide_noType (S : Sorter) (H : DF) (v : Val) (fees : List ℚ) :
    NoTypeError (solveSide S H v fees) := by
  unfold solveSide
  split_ifs
  · exact NoTypeError.ok _
  · exact NoTypeError.ok _
  · dsimp only
    split_ifs
    all_goals first
      | exact NoTypeError.ok _
      | exact NoTypeError.bind (getTradingBids_noType _ _) (fun _ =>
          NoTypeError.bind (getTradingBids_noType _ _) (fun _ =>
            NoTypeError.bind (feeLoop_noType _ _ _ _ _ _) (fun _ => NoTypeError.ok _)))

/-! ## Errors of Huang's auction other than `TypeError` -/

theorem uqLoop_noType (q : List (Option ℚ)) (N : ℕ) (gap : ℚ) : NoTypeError (uqLoop q N gap) := by
  fun_induction uqLoop q N gap with
  | case1 => intro h; cases h
  | case2 _ _ _ _ _ _ _ ih => exact ih
  | case3 => intro h; cases h

theorem updateQuantity_noType (q : List ℚ) (gap : ℚ) : NoTypeError (updateQuantity q gap) :=
  NoTypeError.bind (uqLoop_noType _ _ _) (fun _ => NoTypeError.ok _)

/-! ## Peer to peer -/

/-- What is left of a bid never falls below 0 or its own quantity, and after a meeting with a
compatible price nothing is below 0. -/
theorem tradeOne_floor (prices : ℕ → ℚ) (c : ℚ) (q : ℕ → ℚ) (p : ℕ × ℕ) (hp : p.1 ≠ p.2) (i : ℕ) :
    min (q i) 0 ≤ (tradeOne prices c q p).1 i ∧
    (prices p.2 ≤ prices p.1 → p.1 = i ∨ p.2 = i → 0 ≤ (tradeOne prices c q p).1 i) := by
  unfold tradeOne
  simp only
  split_ifs with h
  · simp only [setQ]
    by_cases h2 : i = p.2
    · subst h2
      simp only [if_true, hp.symm, if_false]
      have := sub_nonneg.mpr (min_le_right (q p.1) (q p.2))
      exact ⟨(min_le_right _ _).trans this, fun _ _ => this⟩
    · by_cases h1 : i = p.1
      · subst h1
        simp only [if_true, hp, if_false]
        have := sub_nonneg.mpr (min_le_left (q p.1) (q p.2))
        exact ⟨(min_le_right _ _).trans this, fun _ _ => this⟩
      · simp only [h1, h2, if_false]
        exact ⟨min_le_left _ _, fun _ h => by
          rcases h with h | h
          · exact absurd h.symm h1
          · exact absurd h.symm h2⟩
  · exact ⟨min_le_left _ _, fun h' => absurd h' h⟩

theorem tradeRound_floor (prices : ℕ → ℚ) (c : ℚ) (q : ℕ → ℚ) (M : List (ℕ × ℕ))
    (hM : ∀ p ∈ M, p.1 ≠ p.2) (i : ℕ) :
    min (q i) 0 ≤ (tradeRound prices c q M).1 i ∧
    ((∃ p ∈ M, prices p.2 ≤ prices p.1 ∧ (p.1 = i ∨ p.2 = i)) →
      0 ≤ (tradeRound prices c q M).1 i) := by
  induction M generalizing q with
  | nil => exact ⟨min_le_left _ _, fun ⟨p, hp, _⟩ => by cases hp⟩
  | cons p M ih =>
    simp only [tradeRound]
    have h1 := tradeOne_floor prices c q p (hM p List.mem_cons_self) i
    have h2 := ih (tradeOne prices c q p).1 (fun p' hp' => hM p' (List.mem_cons_of_mem _ hp'))
    refine ⟨le_trans (le_min h1.1 (min_le_right _ _)) h2.1, ?_⟩
    rintro ⟨p', hp', hc, hi⟩
    rcases List.mem_cons.mp hp' with rfl | hp'
    · have := h1.2 hc hi
      exact le_trans (le_min this le_rfl) h2.1
    · exact h2.2 ⟨p', hp', hc, hi⟩

end PyMarket
