import Verif.Lemmas.LP
import Verif.Lemmas.MudaRun

/-! # Outcomes that settle in groups are trade plans -/

set_option autoImplicit false

namespace PyMarket

open Spec

theorem sum_range_label {df : DF} (ht : IsTable df) (f : ℕ → ℚ) :
    ((List.range df.length).map f).sum = (df.map (fun r => f r.label)).sum := by
  have h : List.range df.length = df.map (fun r => r.label) := ht.symm
  rw [h, List.map_map]
  rfl

/-- Weighted sums over bids and over transactions. -/
theorem sum_weighted {df : DF} (ht : IsTable df) {ts : List Transaction}
    (hk : ∀ t ∈ ts, t.bid < df.length) (G : ℕ → ℚ) :
    ((List.range df.length).map (fun i => G i * tradedBy ts i)).sum =
      (ts.map (fun t => G t.bid * t.quantity)).sum := by
  rw [sum_range_label ht, sum_tradedBy ht.nodup G ts]
  congr 1
  apply List.map_congr_left
  intro t h
  have : t.bid ∈ df.map (fun r => r.label) := by
    have e : df.map (fun r => r.label) = List.range df.length := ht
    rw [e]; exact List.mem_range.mpr (hk t h)
  rw [if_pos this]

theorem sum_buyers {df : DF} (ht : IsTable df) {ts : List Transaction}
    (hk : ∀ t ∈ ts, t.bid < df.length) (G : ℕ → ℚ) :
    ((List.range df.length).map (fun i => if isBuy df i = true then G i * tradedBy ts i else 0)).sum =
      ((ts.filter (fun t => isBuy df t.bid)).map (fun t => G t.bid * t.quantity)).sum := by
  have h := sum_weighted ht hk (fun i => if isBuy df i = true then G i else 0)
  simp only [ite_mul, zero_mul] at h
  rw [h, sum_filter_map]

theorem sum_sellers {df : DF} (ht : IsTable df) {ts : List Transaction}
    (hk : ∀ t ∈ ts, t.bid < df.length) (G : ℕ → ℚ) :
    ((List.range df.length).map (fun i => if isSell df i = true then G i * tradedBy ts i else 0)).sum =
      ((ts.filter (fun t => isSell df t.bid)).map (fun t => G t.bid * t.quantity)).sum := by
  have h := sum_weighted ht hk (fun i => if isSell df i = true then G i else 0)
  simp only [ite_mul, zero_mul] at h
  rw [h, sum_filter_map]

theorem tradedBy_nonneg {ts : List Transaction} (h : ∀ t ∈ ts, 0 ≤ t.quantity) (i : ℕ) :
    0 ≤ tradedBy ts i := by
  apply List.sum_nonneg
  intro x hx
  obtain ⟨t, ht, rfl⟩ := List.mem_map.mp hx
  exact h t (List.mem_filter.mp ht).1

theorem tradedBy_ne_zero {ts : List Transaction} {i : ℕ} (h : tradedBy ts i ≠ 0) :
    ∃ t ∈ ts, t.bid = i ∧ t.quantity ≠ 0 := by
  by_contra hc
  push Not at hc
  apply h
  apply List.sum_eq_zero
  intro x hx
  obtain ⟨t, ht, rfl⟩ := List.mem_map.mp hx
  obtain ⟨h1, h2⟩ := List.mem_filter.mp ht
  exact hc t h1 (beq_iff_eq.mp h2)

theorem bought_eq {df : DF} (ht : IsTable df) {ts : List Transaction}
    (hk : ∀ t ∈ ts, t.bid < df.length) :
    ((List.range df.length).map (fun i => if isBuy df i = true then tradedBy ts i else 0)).sum =
      boughtQty df ts := by
  have := sum_buyers ht hk (fun _ => 1)
  simp only [one_mul] at this
  exact this

theorem sold_eq {df : DF} (ht : IsTable df) {ts : List Transaction}
    (hk : ∀ t ∈ ts, t.bid < df.length) :
    ((List.range df.length).map (fun i => if isSell df i = true then tradedBy ts i else 0)).sum =
      soldQty df ts := by
  have := sum_sellers ht hk (fun _ => 1)
  simp only [one_mul] at this
  exact this

/-- Buyers and sellers of a group trade in proportion. -/
def poolPlan (df : DF) (ts : List Transaction) (i j : ℕ) : ℚ :=
  if isBuy df i = true ∧ isSell df j = true then tradedBy ts i * tradedBy ts j / boughtQty df ts
  else 0

section Pool

variable {df : DF} {ts : List Transaction}

theorem boughtQty_nonneg (h : ∀ t ∈ ts, 0 ≤ t.quantity) : 0 ≤ boughtQty df ts := by
  apply List.sum_nonneg
  intro x hx
  obtain ⟨t, ht, rfl⟩ := List.mem_map.mp hx
  exact h t (List.mem_filter.mp ht).1

theorem tradedBy_le_bought (ht : IsTable df) (hp : Pool df ts) {i : ℕ} (hi : isBuy df i = true) :
    tradedBy ts i ≤ boughtQty df ts := by
  rw [← bought_eq ht hp.known]
  refine le_trans (b := if isBuy df i = true then tradedBy ts i else 0) (by rw [if_pos hi]) ?_
  apply List.single_le_sum
  · intro x hx
    obtain ⟨j, _, rfl⟩ := List.mem_map.mp hx
    split
    · exact tradedBy_nonneg hp.nonneg j
    · exact le_refl _
  · exact List.mem_map.mpr ⟨i, List.mem_range.mpr (isBuy_lt hi), rfl⟩

theorem tradedBy_le_sold (ht : IsTable df) (hp : Pool df ts) {i : ℕ} (hi : isSell df i = true) :
    tradedBy ts i ≤ soldQty df ts := by
  rw [← sold_eq ht hp.known]
  refine le_trans (b := if isSell df i = true then tradedBy ts i else 0) (by rw [if_pos hi]) ?_
  apply List.single_le_sum
  · intro x hx
    obtain ⟨j, _, rfl⟩ := List.mem_map.mp hx
    split
    · exact tradedBy_nonneg hp.nonneg j
    · exact le_refl _
  · exact List.mem_map.mpr ⟨i, List.mem_range.mpr (isSell_lt hi), rfl⟩

theorem poolPlan_row (ht : IsTable df) (hp : Pool df ts) {i : ℕ} (hi : isBuy df i = true) :
    ((List.range df.length).map (fun j => poolPlan df ts i j)).sum = tradedBy ts i := by
  have e : (fun j => poolPlan df ts i j) = (fun j => tradedBy ts i / boughtQty df ts *
      (if isSell df j = true then tradedBy ts j else 0)) := by
    funext j
    unfold poolPlan
    cases isSell df j <;> simp [hi]
    ring
  rw [e, List.sum_map_mul_left, sold_eq ht hp.known, ← hp.balanced]
  by_cases hT : boughtQty df ts = 0
  · have h1 := tradedBy_le_bought ht hp hi
    have h2 := tradedBy_nonneg hp.nonneg i
    rw [hT] at h1 ⊢
    simp [le_antisymm h1 h2]
  · field_simp

theorem poolPlan_col (ht : IsTable df) (hp : Pool df ts) {j : ℕ} (hj : isSell df j = true) :
    ((List.range df.length).map (fun i => poolPlan df ts i j)).sum = tradedBy ts j := by
  have e : (fun i => poolPlan df ts i j) = (fun i => tradedBy ts j / boughtQty df ts *
      (if isBuy df i = true then tradedBy ts i else 0)) := by
    funext i
    unfold poolPlan
    cases isBuy df i <;> simp [hj]
    ring
  rw [e, List.sum_map_mul_left, bought_eq ht hp.known]
  by_cases hT : boughtQty df ts = 0
  · have h1 := tradedBy_le_sold ht hp hj
    have h2 := tradedBy_nonneg hp.nonneg j
    rw [← hp.balanced, hT] at h1
    rw [hT]
    simp [le_antisymm h1 h2]
  · field_simp

theorem poolPlan_nonneg (hp : Pool df ts) (i j : ℕ) : 0 ≤ poolPlan df ts i j := by
  unfold poolPlan
  split
  · exact div_nonneg (mul_nonneg (tradedBy_nonneg hp.nonneg i) (tradedBy_nonneg hp.nonneg j))
      (boughtQty_nonneg hp.nonneg)
  · exact le_refl _

theorem poolPlan_compatible (hp : Pool df ts) (i j : ℕ) (h : poolPlan df ts i j ≠ 0) :
    isBuy df i = true ∧ isSell df j = true ∧ priceOf df j ≤ priceOf df i := by
  unfold poolPlan at h
  split at h
  · rename_i hij
    refine ⟨hij.1, hij.2, ?_⟩
    have h1 : tradedBy ts i ≠ 0 := fun h0 => h (by rw [h0]; simp)
    have h2 : tradedBy ts j ≠ 0 := fun h0 => h (by rw [h0]; simp)
    obtain ⟨t, t1, t2, t3⟩ := tradedBy_ne_zero h1
    obtain ⟨s, s1, s2, s3⟩ := tradedBy_ne_zero h2
    obtain ⟨p, hpp⟩ := hp.price
    have a := (hpp t t1 t3).1 (by rw [t2]; exact hij.1)
    have b := (hpp s s1 s3).2 (by rw [s2]; exact hij.2)
    rw [t2] at a
    rw [s2] at b
    exact b.trans a
  · exact absurd rfl h

end Pool

theorem sum_add_map {l : List ℕ} {f g : ℕ → ℚ} :
    (l.map (fun x => f x + g x)).sum = (l.map f).sum + (l.map g).sum := by
  induction l with
  | nil => simp
  | cons a l ih => simp only [List.map_cons, List.sum_cons, ih]; ring

/-- The plan behind several groups. -/
theorem pools_plan {df : DF} (ht : IsTable df) (ps : List (List Transaction))
    (hp : ∀ p ∈ ps, Pool df p) : ∃ q : ℕ → ℕ → ℚ, (∀ i j, 0 ≤ q i j) ∧
      (∀ i j, q i j ≠ 0 → isBuy df i = true ∧ isSell df j = true ∧ priceOf df j ≤ priceOf df i) ∧
      (∀ i, isBuy df i = true →
        ((List.range df.length).map (fun j => q i j)).sum = tradedBy ps.flatten i) ∧
      (∀ j, isSell df j = true →
        ((List.range df.length).map (fun i => q i j)).sum = tradedBy ps.flatten j) := by
  induction ps with
  | nil =>
    refine ⟨fun _ _ => 0, fun _ _ => le_refl _, fun i j h => absurd rfl h, ?_, ?_⟩ <;>
    · intro i _; simp [tradedBy]
  | cons ts ps ih =>
    obtain ⟨q, h1, h2, h3, h4⟩ := ih (fun p h => hp p (List.mem_cons_of_mem _ h))
    have hpt := hp ts List.mem_cons_self
    refine ⟨fun i j => poolPlan df ts i j + q i j, fun i j => add_nonneg (poolPlan_nonneg hpt i j)
      (h1 i j), ?_, ?_, ?_⟩
    · intro i j h
      by_cases hz : poolPlan df ts i j = 0
      · beta_reduce at h
        rw [hz, zero_add] at h
        exact h2 i j h
      · exact poolPlan_compatible hpt i j hz
    · intro i hi
      rw [sum_add_map, poolPlan_row ht hpt hi, h3 i hi, List.flatten_cons, tradedBy_append]
    · intro j hj
      rw [sum_add_map, poolPlan_col ht hpt hj, h4 j hj, List.flatten_cons, tradedBy_append]

theorem sum2_swap (n : ℕ) (f : ℕ → ℕ → ℚ) : sum2 n f = sum2 n (fun i j => f j i) := by
  have : ∀ l l' : List ℕ, (l.map (fun i => (l'.map (fun j => f i j)).sum)).sum =
      (l'.map (fun j => (l.map (fun i => f i j)).sum)).sum := by
    intro l l'
    induction l with
    | nil => simp
    | cons a l ih =>
      simp only [List.map_cons, List.sum_cons, ih]
      rw [← sum_add_map]
  exact this _ _

theorem row_zero {df : DF} {q : ℕ → ℕ → ℚ} {i : ℕ}
    (h : ∀ i j, q i j ≠ 0 → isBuy df i = true ∧ isSell df j = true ∧ priceOf df j ≤ priceOf df i)
    (hi : ¬ isBuy df i = true) : ∀ j, q i j = 0 := by
  intro j
  by_contra hc
  exact hi (h i j hc).1

theorem col_zero {df : DF} {q : ℕ → ℕ → ℚ} {j : ℕ}
    (h : ∀ i j, q i j ≠ 0 → isBuy df i = true ∧ isSell df j = true ∧ priceOf df j ≤ priceOf df i)
    (hj : ¬ isSell df j = true) : ∀ i, q i j = 0 := by
  intro i
  by_contra hc
  exact hj (h i j hc).2.1

/-- A settled outcome is a compatible trade plan with the same volume and the same gains. -/
theorem Spec.Settled.plan {df : DF} (ht : IsTable df) (hq : ∀ r ∈ df, 0 ≤ r.quantity)
    {ts : List Transaction} (hs : Settled df ts) : ∃ q, TradePlan df q ∧ Compatible df q ∧
      planVolume df q = boughtQty df ts ∧
      ∀ v, planWelfare df v q = boughtValue df v ts - soldValue df v ts := by
  obtain ⟨ps, rfl, hp⟩ := hs.pools
  obtain ⟨q, h1, h2, h3, h4⟩ := pools_plan ht ps hp
  have hk : ∀ t ∈ ps.flatten, t.bid < df.length := by
    intro t h
    obtain ⟨p, hp1, hp2⟩ := List.mem_flatten.mp h
    exact (hp p hp1).known t hp2
  have hrow : ∀ i, ((List.range df.length).map (fun j => q i j)).sum =
      if isBuy df i = true then tradedBy ps.flatten i else 0 := by
    intro i
    split
    · rename_i hi; exact h3 i hi
    · rename_i hi
      exact sum_zero_of fun j _ => row_zero h2 hi j
  have hcol : ∀ j, ((List.range df.length).map (fun i => q i j)).sum =
      if isSell df j = true then tradedBy ps.flatten j else 0 := by
    intro j
    split
    · rename_i hj; exact h4 j hj
    · rename_i hj
      exact sum_zero_of fun i _ => col_zero h2 hj i
  refine ⟨q, ⟨h1, fun i j h => ⟨(h2 i j h).1, (h2 i j h).2.1⟩, ?_, ?_⟩, fun i j h => (h2 i j h).2.2,
    ?_, ?_⟩
  · intro i
    rw [hrow]
    split
    · exact hs.capacity i
    · exact qtyOf_nonneg' hq i
  · intro j
    rw [hcol]
    split
    · exact hs.capacity j
    · exact qtyOf_nonneg' hq j
  · unfold planVolume
    simp only [hrow]
    exact bought_eq ht hk
  · intro v
    have e1 : planWelfare df v q = sum2 df.length (fun i j => v i * q i j) -
        sum2 df.length (fun i j => v j * q i j) := by
      unfold planWelfare sum2
      have hsub : ∀ (l : List ℕ) (f g : ℕ → ℚ), (l.map (fun x => f x - g x)).sum =
          (l.map f).sum - (l.map g).sum := by
        intro l f g
        induction l with
        | nil => simp
        | cons a l ih => simp only [List.map_cons, List.sum_cons, ih]; ring
      simp only [sub_mul, hsub]
    rw [e1, sum2_swap _ (fun i j => v j * q i j)]
    unfold sum2
    simp only [List.sum_map_mul_left, hrow, hcol]
    have c1 := sum_buyers ht hk v
    have c2 := sum_sellers ht hk v
    simp only [mul_ite, mul_zero]
    rw [c1, c2]
    unfold boughtValue soldValue
    simp only [mul_comm]

end PyMarket
