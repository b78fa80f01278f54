import Verif.Spec.Groups
import Verif.Lemmas.Welfare
import Mathlib.Algebra.BigOperators.Group.Finset.Piecewise

/-! # What a group can gain among its members -/

set_option autoImplicit false

namespace PyMarket

open Spec

/-- The book in which only the members of the group have something to trade. -/
def groupBook (C : Finset ℕ) (df : DF) : DF :=
  df.map (fun r => if r.label ∈ C then r else { r with quantity := 0 })

section

variable {C : Finset ℕ} {df : DF}

theorem groupBook_get (i : ℕ) : (groupBook C df)[i]? =
    (df[i]?).map (fun r => if r.label ∈ C then r else { r with quantity := 0 }) := List.getElem?_map ..

theorem groupBook_length : (groupBook C df).length = df.length := List.length_map _

theorem groupBook_table (ht : IsTable df) : IsTable (groupBook C df) := by
  unfold IsTable at *
  rw [groupBook_length, ← ht]
  unfold groupBook
  rw [List.map_map]
  apply List.map_congr_left
  intro r _
  simp only [Function.comp]
  split <;> rfl

theorem groupBook_fields (i : ℕ) : isBuy (groupBook C df) i = isBuy df i ∧ isSell (groupBook C df) i = isSell df i ∧
    priceOf (groupBook C df) i = priceOf df i := by
  unfold isBuy isSell priceOf
  rw [groupBook_get]
  cases df[i]? with
  | none => exact ⟨rfl, rfl, rfl⟩
  | some r =>
    simp only [Option.map_some, Option.getD_some]
    split <;> exact ⟨rfl, rfl, rfl⟩

theorem groupBook_qty (ht : IsTable df) (i : ℕ) (hi : i ∈ C) : qtyOf (groupBook C df) i = qtyOf df i := by
  unfold qtyOf
  rw [groupBook_get]
  cases h : df[i]? with
  | none => rfl
  | some r =>
    have := ht.label h
    simp only [Option.map_some, Option.getD_some]
    rw [if_pos (this ▸ hi)]

theorem groupBook_qty_out (ht : IsTable df) (i : ℕ) (hi : i ∉ C) : qtyOf (groupBook C df) i = 0 := by
  unfold qtyOf
  rw [groupBook_get]
  cases h : df[i]? with
  | none => rfl
  | some r =>
    have := ht.label h
    simp only [Option.map_some, Option.getD_some]
    rw [if_neg (this ▸ hi)]

theorem groupBook_plan (ht : IsTable df) {q : ℕ → ℕ → ℚ} (h : TradePlan df q) (hw : Within C q) :
    TradePlan (groupBook C df) q := by
  refine ⟨h.nonneg, ?_, ?_, ?_⟩
  · intro i j hij
    rw [(groupBook_fields i).1, (groupBook_fields j).2.1]
    exact h.pair i j hij
  · intro i
    rw [groupBook_length]
    by_cases hi : i ∈ C
    · rw [groupBook_qty ht i hi]
      exact h.buyer i
    · rw [groupBook_qty_out ht i hi]
      apply le_of_eq
      apply List.sum_eq_zero
      intro x hx
      obtain ⟨j, _, rfl⟩ := List.mem_map.mp hx
      by_contra hne
      exact hi (hw i j hne).1
  · intro j
    rw [groupBook_length]
    by_cases hj : j ∈ C
    · rw [groupBook_qty ht j hj]
      exact h.seller j
    · rw [groupBook_qty_out ht j hj]
      apply le_of_eq
      apply List.sum_eq_zero
      intro x hx
      obtain ⟨i, _, rfl⟩ := List.mem_map.mp hx
      by_contra hne
      exact hj (hw i j hne).2

/-- A plan among the members of a group is worth at most what they could gain at any common price. -/
theorem groupPlan_le (ht : IsTable df) {q : ℕ → ℕ → ℚ} (h : TradePlan df q) (hw : Within C q) (p : ℚ) :
    planWelfare df (priceOf df) q ≤ (df.map (fun r => if r.label ∈ C then claim p r.toBid else 0)).sum := by
  have h1 := planWelfare_le (groupBook_table (C := C) ht) (groupBook_plan ht h hw) p
  have e1 : planWelfare (groupBook C df) (priceOf (groupBook C df)) q = planWelfare df (priceOf df) q := by
    have : priceOf (groupBook C df) = priceOf df := funext fun i => (groupBook_fields i).2.2
    unfold planWelfare
    rw [this, groupBook_length]
  have e2 : ((groupBook C df).map (fun r => claim p r.toBid)).sum =
      (df.map (fun r => if r.label ∈ C then claim p r.toBid else 0)).sum := by
    unfold groupBook
    rw [List.map_map]
    congr 1
    apply List.map_congr_left
    intro r _
    simp only [Function.comp]
    split
    · rfl
    · unfold claim
      simp
  rw [e1, e2] at h1
  exact h1

/-- Sums over the members of a group inside the book. -/
theorem group_sum (ht : IsTable df) (f : ℕ → ℚ) (hf : ∀ i, df.length ≤ i → f i = 0) :
    ∑ i ∈ C, f i = (df.map (fun r => if r.label ∈ C then f r.label else 0)).sum := by
  have h1 : (df.map (fun r => if r.label ∈ C then f r.label else 0)) =
      (df.map (fun r => r.label)).map (fun i => if i ∈ C then f i else 0) := by
    rw [List.map_map]
    rfl
  unfold IsTable at ht
  rw [h1, ht]
  have hs : ∀ (n : ℕ) (g : ℕ → ℚ), ((List.range n).map g).sum = ∑ i ∈ Finset.range n, g i := by
    intro n g
    induction n with
    | zero => rfl
    | succ n ih => rw [List.range_succ, List.map_append, List.sum_append, ih, Finset.sum_range_succ]; simp
  rw [hs, Finset.sum_ite_mem, Finset.inter_comm]
  symm
  apply Finset.sum_subset Finset.inter_subset_left
  intro i hi hni
  apply hf
  by_contra hlt
  exact hni (Finset.mem_inter.mpr ⟨hi, Finset.mem_range.mpr (not_le.mp hlt)⟩)

end

end PyMarket
