import Verif.Model.Processing

/-! # Lemmas about sorting, positional selection and a concrete `Sorter` -/

set_option autoImplicit false

namespace PyMarket

theorem takeIdx_range {α : Type*} (l : List α) : takeIdx l (List.range l.length) = l := by
  unfold takeIdx
  induction l with
  | nil => simp
  | cons x xs ih =>
    rw [List.length_cons, List.range_succ_eq_map, List.filterMap_cons]
    simp only [List.getElem?_cons_zero, List.filterMap_map]
    congr 1

theorem takeIdx_perm {α : Type*} (l : List α) (is : List ℕ)
    (h : is.Perm (List.range l.length)) : (takeIdx l is).Perm l := by
  have h1 : (takeIdx l is).Perm (takeIdx l (List.range l.length)) := h.filterMap _
  rwa [takeIdx_range] at h1

theorem takeIdx_map {α β : Type*} (f : α → β) (l : List α) (is : List ℕ) :
    (takeIdx l is).map f = takeIdx (l.map f) is := by
  unfold takeIdx
  rw [List.map_filterMap]
  simp

theorem sortAsc_perm (S : Sorter) (df : DF) : (sortAsc S df).Perm df := by
  apply takeIdx_perm
  have := S.asc_perm (df.map (fun r => r.price))
  rwa [List.length_map] at this

theorem sortDesc_perm (S : Sorter) (df : DF) : (sortDesc S df).Perm df := by
  apply takeIdx_perm
  have := S.desc_perm (df.map (fun r => r.price))
  rwa [List.length_map] at this

theorem sortAsc_sorted (S : Sorter) (df : DF) :
    (sortAsc S df).Pairwise (fun a b => a.price ≤ b.price) := by
  have := S.asc_sorted (df.map (fun r => r.price))
  rw [← takeIdx_map, List.pairwise_map] at this
  exact this

theorem sortDesc_sorted (S : Sorter) (df : DF) :
    (sortDesc S df).Pairwise (fun a b => b.price ≤ a.price) := by
  have := S.desc_sorted (df.map (fun r => r.price))
  rw [← takeIdx_map, List.pairwise_map] at this
  exact this

/-! ## A concrete sorter and sampler (used in the examples) -/

private theorem takeIdx_sorted_of (l : List ℚ) (r : ℚ → ℚ → Prop) (is : List ℕ)
    (h : is.Pairwise (fun i j => r (l.getD i 0) (l.getD j 0))) :
    (takeIdx l is).Pairwise r := by
  unfold takeIdx
  induction is with
  | nil => simp
  | cons i is ih =>
    rw [List.pairwise_cons] at h
    rw [List.filterMap_cons]
    cases hi : l[i]? with
    | none => exact ih h.2
    | some v =>
      simp only [List.pairwise_cons]
      refine ⟨?_, ih h.2⟩
      intro w hw
      rw [List.mem_filterMap] at hw
      obtain ⟨j, hj, hjw⟩ := hw
      have := h.1 j hj
      simpa [List.getD_eq_getElem?_getD, hi, hjw] using this

/-- Stable insertion sort as a `Sorter`. -/
def stableSorter : Sorter where
  asc l := (List.range l.length).insertionSort (fun i j => l.getD i 0 ≤ l.getD j 0)
  desc l := (List.range l.length).insertionSort (fun i j => l.getD j 0 ≤ l.getD i 0)
  asc_perm _ := List.perm_insertionSort _ _
  desc_perm _ := List.perm_insertionSort _ _
  asc_sorted l := by
    apply takeIdx_sorted_of
    have : Std.Total (fun i j : ℕ => l.getD i 0 ≤ l.getD j 0) := ⟨fun i j => le_total _ _⟩
    have : IsTrans ℕ (fun i j : ℕ => l.getD i 0 ≤ l.getD j 0) := ⟨fun i j k => le_trans⟩
    exact List.pairwise_insertionSort _ _
  desc_sorted l := by
    apply takeIdx_sorted_of l (fun a b => b ≤ a)
    have : Std.Total (fun i j : ℕ => l.getD j 0 ≤ l.getD i 0) := ⟨fun i j => le_total _ _⟩
    have : IsTrans ℕ (fun i j : ℕ => l.getD j 0 ≤ l.getD i 0) :=
      ⟨fun i j k h1 h2 => le_trans h2 h1⟩
    exact List.pairwise_insertionSort _ _

/-- Always sample the first member. -/
def headSampler : Sampler where
  time l := l.headD 0
  divisible l := l.headD true
  time_mem l h := by cases l with
    | nil => exact absurd rfl h
    | cons x xs => simp
  divisible_mem l h := by cases l with
    | nil => exact absurd rfl h
    | cons x xs => simp

end PyMarket
