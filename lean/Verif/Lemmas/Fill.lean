import Verif.Model.Muda
import Verif.Lemmas.Curves
import Mathlib.Algebra.BigOperators.Ring.List
import Mathlib.Tactic.Ring

/-! # Greedy filling of a quantity by a list of offers, best first -/

set_option autoImplicit false

namespace PyMarket

section greedy

variable {α : Type*} (q : α → ℚ) (g : α → ℚ)

/-- Value `Σ g·(amount taken)` when filling `Q` greedily from the list. -/
def greedy : ℚ → List α → ℚ
  | _, [] => 0
  | Q, x :: xs => g x * min (q x) Q + greedy (Q - min (q x) Q) xs

/-- Total amount of the list. -/
def total (l : List α) : ℚ := (l.map q).sum

/-- `Σ g·q` over the list. -/
def value (l : List α) : ℚ := (l.map (fun x => g x * q x)).sum

@[simp] theorem total_nil : total q [] = 0 := rfl
@[simp] theorem total_cons (x : α) (l : List α) : total q (x :: l) = q x + total q l := by
  simp [total]
@[simp] theorem value_nil : value q g [] = 0 := rfl
@[simp] theorem value_cons (x : α) (l : List α) :
    value q g (x :: l) = g x * q x + value q g l := by
  simp [value]
theorem total_append (l l' : List α) : total q (l ++ l') = total q l + total q l' := by simp [total]
theorem value_append (l l' : List α) : value q g (l ++ l') = value q g l + value q g l' := by
  simp [value]

variable {q g}

theorem total_nonneg {l : List α} (h : ∀ x ∈ l, 0 ≤ q x) : 0 ≤ total q l := by
  apply List.sum_nonneg
  intro y hy
  obtain ⟨x, hx, rfl⟩ := List.mem_map.mp hy
  exact h x hx

theorem total_perm {l l' : List α} (h : l.Perm l') : total q l = total q l' := (h.map q).sum_eq
theorem value_perm {l l' : List α} (h : l.Perm l') : value q g l = value q g l' := (h.map _).sum_eq

theorem greedy_all {Q : ℚ} {l : List α} (hq : ∀ x ∈ l, 0 ≤ q x) (h : total q l ≤ Q) :
    greedy q g Q l = value q g l := by
  induction l generalizing Q with
  | nil => rfl
  | cons x l ih =>
    rw [total_cons] at h
    have h0 := total_nonneg (fun y hy => hq y (List.mem_cons_of_mem _ hy))
    have hm : min (q x) Q = q x := min_eq_left (by linarith)
    rw [greedy, hm, ih (fun y hy => hq y (List.mem_cons_of_mem _ hy)) (by linarith), value_cons]

theorem greedy_zero {l : List α} (hq : ∀ x ∈ l, 0 ≤ q x) : greedy q g 0 l = 0 := by
  induction l with
  | nil => rfl
  | cons x l ih =>
    have hm : min (q x) 0 = 0 := min_eq_right (hq x List.mem_cons_self)
    rw [greedy, hm, sub_zero, ih (fun y hy => hq y (List.mem_cons_of_mem _ hy))]
    ring

theorem greedy_append {Q : ℚ} {l l' : List α} (hq : ∀ x ∈ l, 0 ≤ q x) (h : total q l ≤ Q) :
    greedy q g Q (l ++ l') = value q g l + greedy q g (Q - total q l) l' := by
  induction l generalizing Q with
  | nil => simp
  | cons x l ih =>
    rw [total_cons] at h
    have h0 := total_nonneg (fun y hy => hq y (List.mem_cons_of_mem _ hy))
    have hm : min (q x) Q = q x := min_eq_left (by linarith)
    rw [List.cons_append, greedy, hm, ih (fun y hy => hq y (List.mem_cons_of_mem _ hy))
      (by linarith), value_cons, total_cons]
    have : Q - q x - total q l = Q - (q x + total q l) := by ring
    rw [this]; ring

/-- Once `Q` is used up the rest contributes nothing. -/
theorem greedy_append_ge {Q : ℚ} {l l' : List α} (hQ : 0 ≤ Q) (hq : ∀ x ∈ l, 0 ≤ q x)
    (hq' : ∀ x ∈ l', 0 ≤ q x) (h : Q ≤ total q l) :
    greedy q g Q (l ++ l') = greedy q g Q l := by
  induction l generalizing Q with
  | nil =>
    simp only [total_nil] at h
    have : Q = 0 := le_antisymm h hQ
    subst this
    rw [List.nil_append, greedy_zero hq']; rfl
  | cons x l ih =>
    rw [total_cons] at h
    rw [List.cons_append, greedy, greedy]
    congr 1
    have hx := hq x List.mem_cons_self
    apply ih
    · linarith [min_le_right (q x) Q]
    · exact fun y hy => hq y (List.mem_cons_of_mem _ hy)
    · have h0 := total_nonneg (fun y hy => hq y (List.mem_cons_of_mem _ hy))
      rcases le_total (q x) Q with hle | hle
      · rw [min_eq_left hle]; linarith
      · rw [min_eq_right hle]; linarith

theorem greedy_congr {Q : ℚ} {β : Type*} {q' : β → ℚ} {g' : β → ℚ} {l : List α} {l' : List β}
    (h : l.map (fun x => (q x, g x)) = l'.map (fun x => (q' x, g' x))) :
    greedy q g Q l = greedy q' g' Q l' := by
  induction l generalizing Q l' with
  | nil => cases l' with
    | nil => rfl
    | cons y l' => simp at h
  | cons x l ih => cases l' with
    | nil => simp at h
    | cons y l' =>
      simp only [List.map_cons, List.cons.injEq, Prod.mk.injEq] at h
      rw [greedy, greedy, h.1.1, h.1.2, ih h.2]

/-- Splitting an offer in two consecutive parts does not matter. -/
theorem greedy_split {Q : ℚ} (hQ : 0 ≤ Q) {A B : List α} {x y z : α} (hA : ∀ x ∈ A, 0 ≤ q x)
    (hz : 0 ≤ q z) (hx : q x = q y + q z) (gy : g y = g x) (gz : g z = g x) :
    greedy q g Q (A ++ y :: z :: B) = greedy q g Q (A ++ x :: B) := by
  induction A generalizing Q with
  | nil =>
    simp only [List.nil_append, greedy, gy, gz, hx]
    rcases le_total (q y) Q with h1 | h1
    · rw [min_eq_left h1]
      rcases le_total (q z) (Q - q y) with h2 | h2
      · rw [min_eq_left h2, min_eq_left (by linarith : q y + q z ≤ Q)]
        have : Q - q y - q z = Q - (q y + q z) := by ring
        rw [this]; ring
      · rw [min_eq_right h2, min_eq_right (by linarith : Q ≤ q y + q z)]
        have : Q - q y - (Q - q y) = Q - Q := by ring
        rw [this]; ring
    · rw [min_eq_right h1, min_eq_right (by linarith : Q ≤ q y + q z), sub_self,
        min_eq_right hz, sub_zero]
      ring
  | cons a A ih =>
    simp only [List.cons_append, greedy]
    rw [ih (by linarith [min_le_right (q a) Q]) (fun x hx => hA x (List.mem_cons_of_mem _ hx))]

/-- Optimality certificate of the greedy filling: a marginal value `lam`. -/
theorem greedy_dual {Q : ℚ} (hQ : 0 ≤ Q) {l : List α} (hq : ∀ x ∈ l, 0 ≤ q x)
    (hg : ∀ x ∈ l, 0 ≤ g x) (hs : l.Pairwise (fun a b => g b ≤ g a)) :
    ∃ lam : ℚ, 0 ≤ lam ∧ (lam = 0 ∨ ∃ x ∈ l, lam = g x) ∧
      greedy q g Q l = lam * Q + (l.map (fun x => max (g x - lam) 0 * q x)).sum := by
  induction l generalizing Q with
  | nil => exact ⟨0, le_refl _, Or.inl rfl, by simp [greedy]⟩
  | cons x l ih =>
    rw [List.pairwise_cons] at hs
    have hq' := fun y hy => hq y (List.mem_cons_of_mem _ hy)
    have hg' := fun y hy => hg y (List.mem_cons_of_mem _ hy)
    rcases le_total Q (q x) with hle | hle
    · refine ⟨g x, hg x List.mem_cons_self, Or.inr ⟨x, List.mem_cons_self, rfl⟩, ?_⟩
      rw [greedy, min_eq_right hle, sub_self, greedy_zero hq', List.map_cons, List.sum_cons]
      have hz : (l.map (fun y => max (g y - g x) 0 * q y)).sum = 0 := by
        apply List.sum_eq_zero
        intro v hv
        obtain ⟨y, hy, rfl⟩ := List.mem_map.mp hv
        rw [max_eq_right (by linarith [hs.1 y hy]), zero_mul]
      rw [hz]; simp
    · obtain ⟨lam, h0, hor, he⟩ := ih (Q := Q - q x) (by linarith) hq' hg' hs.2
      have hlx : lam ≤ g x := by
        rcases hor with rfl | ⟨y, hy, rfl⟩
        · exact hg x List.mem_cons_self
        · exact hs.1 y hy
      refine ⟨lam, h0, ?_, ?_⟩
      · rcases hor with h | ⟨y, hy, h⟩
        · exact Or.inl h
        · exact Or.inr ⟨y, List.mem_cons_of_mem _ hy, h⟩
      · rw [greedy, min_eq_left hle, he, List.map_cons, List.sum_cons,
          max_eq_left (by linarith : 0 ≤ g x - lam)]
        ring

/-- Greedy filling is optimal among all ways of taking at most `Q` in total. -/
theorem greedy_optimal {Q : ℚ} (hQ : 0 ≤ Q) {l : List α} (hq : ∀ x ∈ l, 0 ≤ q x)
    (hg : ∀ x ∈ l, 0 ≤ g x) (hs : l.Pairwise (fun a b => g b ≤ g a)) (a : α → ℚ)
    (ha : ∀ x ∈ l, 0 ≤ a x ∧ a x ≤ q x) (hsum : total a l ≤ Q) :
    value a g l ≤ greedy q g Q l := by
  obtain ⟨lam, h0, _, he⟩ := greedy_dual hQ hq hg hs
  rw [he]
  have h1 : value a g l ≤ (l.map (fun x => lam * a x + max (g x - lam) 0 * q x)).sum := by
    apply List.sum_le_sum
    intro x hx
    have ⟨hax, hax'⟩ := ha x hx
    have hm1 := le_max_left (g x - lam) 0
    have hm2 := le_max_right (g x - lam) 0
    nlinarith
  have h2 : (l.map (fun x => lam * a x + max (g x - lam) 0 * q x)).sum =
      lam * total a l + (l.map (fun x => max (g x - lam) 0 * q x)).sum := by
    rw [List.sum_map_add, List.sum_map_mul_left]; rfl
  rw [h2] at h1
  have := mul_le_mul_of_nonneg_left hsum h0
  linarith

/-- More offers never give less: dropping elements. -/
theorem greedy_sublist {Q : ℚ} (hQ : 0 ≤ Q) {l l' : List α} (hl : l'.Sublist l)
    (hq : ∀ x ∈ l, 0 ≤ q x) (hg : ∀ x ∈ l, 0 ≤ g x) (hs : l.Pairwise (fun a b => g b ≤ g a)) :
    greedy q g Q l' ≤ greedy q g Q l := by
  obtain ⟨lam, h0, _, he⟩ := greedy_dual hQ hq hg hs
  rw [he]
  clear he
  have key : ∀ (lam : ℚ), 0 ≤ lam → ∀ (m : List α) (Q : ℚ), 0 ≤ Q → (∀ x ∈ m, 0 ≤ q x) →
      greedy q g Q m ≤ lam * Q + (m.map (fun x => max (g x - lam) 0 * q x)).sum := by
    intro lam h0 m
    induction m with
    | nil => intro Q hQ _; simp only [greedy, List.map_nil, List.sum_nil, add_zero]; positivity
    | cons x m ih =>
      intro Q hQ hm
      rw [greedy, List.map_cons, List.sum_cons]
      have hx := hm x List.mem_cons_self
      have := ih (Q - min (q x) Q) (by linarith [min_le_right (q x) Q])
        (fun y hy => hm y (List.mem_cons_of_mem _ hy))
      have hm1 := le_max_left (g x - lam) 0
      have hm2 := le_max_right (g x - lam) 0
      have hm3 := min_le_left (q x) Q
      have hm4 : 0 ≤ min (q x) Q := le_min hx hQ
      nlinarith
  refine (key lam h0 l' Q hQ (fun x hx => hq x (hl.subset hx))).trans ?_
  have : (l'.map (fun x => max (g x - lam) 0 * q x)).sum ≤
      (l.map (fun x => max (g x - lam) 0 * q x)).sum := by
    apply List.Sublist.sum_le_sum (hl.map _)
    intro v hv
    obtain ⟨x, hx, rfl⟩ := List.mem_map.mp hv
    exact mul_nonneg (le_max_right _ _) (hq x hx)
  linarith

/-- Different sorted orders of the same offers give the same value. -/
theorem greedy_perm {Q : ℚ} (hQ : 0 ≤ Q) {l l' : List α} (hl : l.Perm l')
    (hq : ∀ x ∈ l, 0 ≤ q x) (hg : ∀ x ∈ l, 0 ≤ g x) (hs : l.Pairwise (fun a b => g b ≤ g a))
    (hs' : l'.Pairwise (fun a b => g b ≤ g a)) :
    greedy q g Q l = greedy q g Q l' := by
  have key : ∀ (lam : ℚ), 0 ≤ lam → ∀ (m : List α) (Q : ℚ), 0 ≤ Q → (∀ x ∈ m, 0 ≤ q x) →
      greedy q g Q m ≤ lam * Q + (m.map (fun x => max (g x - lam) 0 * q x)).sum := by
    intro lam h0 m
    induction m with
    | nil => intro Q hQ _; simp only [greedy, List.map_nil, List.sum_nil, add_zero]; positivity
    | cons x m ih =>
      intro Q hQ hm
      rw [greedy, List.map_cons, List.sum_cons]
      have hx := hm x List.mem_cons_self
      have := ih (Q - min (q x) Q) (by linarith [min_le_right (q x) Q])
        (fun y hy => hm y (List.mem_cons_of_mem _ hy))
      have hm1 := le_max_left (g x - lam) 0
      have hm2 := le_max_right (g x - lam) 0
      have hm3 := min_le_left (q x) Q
      have hm4 : 0 ≤ min (q x) Q := le_min hx hQ
      nlinarith
  have hq' : ∀ x ∈ l', 0 ≤ q x := fun x hx => hq x (hl.mem_iff.mpr hx)
  have hg' : ∀ x ∈ l', 0 ≤ g x := fun x hx => hg x (hl.mem_iff.mpr hx)
  obtain ⟨lam, h0, _, he⟩ := greedy_dual hQ hq hg hs
  obtain ⟨lam', h0', _, he'⟩ := greedy_dual hQ hq' hg' hs'
  apply le_antisymm
  · rw [he']
    refine (key lam' h0' l Q hQ hq).trans (le_of_eq ?_)
    rw [(hl.map (fun x => max (g x - lam') 0 * q x)).sum_eq]
  · rw [he]
    refine (key lam h0 l' Q hQ hq').trans (le_of_eq ?_)
    rw [(hl.map (fun x => max (g x - lam) 0 * q x)).sum_eq]

end greedy

/-- The rows with their quantities cut to the greedy filling of `Q`. -/
def fillRows : ℚ → DF → DF
  | _, [] => []
  | Q, r :: rs => { r with quantity := min r.quantity Q } :: fillRows (Q - min r.quantity Q) rs

theorem fillRows_length (Q : ℚ) (rows : DF) : (fillRows Q rows).length = rows.length := by
  induction rows generalizing Q with
  | nil => rfl
  | cons r rs ih => simp [fillRows, ih]

theorem fillRows_getElem? (Q : ℚ) (rows : DF) (k : ℕ) : (fillRows Q rows)[k]? =
    (rows[k]?).map (fun r =>
      { r with quantity := min r.quantity (max (Q - qsum (rows.take k)) 0) }) ∨ Q < 0 ∨ ∃ r ∈ rows, r.quantity < 0 := by
  by_cases hQ : Q < 0
  · exact Or.inr (Or.inl hQ)
  by_cases hr : ∃ r ∈ rows, r.quantity < 0
  · exact Or.inr (Or.inr hr)
  left
  push Not at hQ hr
  induction rows generalizing Q k with
  | nil => rfl
  | cons r rs ih =>
    have h0 := hr r List.mem_cons_self
    cases k with
    | zero => simp [fillRows, qsum, hQ]
    | succ k =>
      rw [fillRows, List.getElem?_cons_succ, List.getElem?_cons_succ, ih _ k
        (by linarith [min_le_right r.quantity Q]) (fun r' hr' => hr r' (List.mem_cons_of_mem _ hr')),
        List.take_succ_cons, qsum_cons]
      have hs := qsum_nonneg (rows := rs.take k)
        (fun r' hr' => hr r' (List.mem_cons_of_mem _ (List.mem_of_mem_take hr')))
      congr 1
      funext r'
      congr 3
      rcases le_total r.quantity Q with hle | hle
      · rw [min_eq_left hle]; congr 1; ring
      · rw [min_eq_right hle, max_eq_right (by linarith), max_eq_right (by linarith)]

theorem fillRows_all {Q : ℚ} {rows : DF} (hq : ∀ r ∈ rows, 0 ≤ r.quantity) (h : qsum rows ≤ Q) :
    fillRows Q rows = rows := by
  induction rows generalizing Q with
  | nil => rfl
  | cons r rs ih =>
    rw [qsum_cons] at h
    have h0 := qsum_nonneg (rows := rs) (fun r' hr' => hq r' (List.mem_cons_of_mem _ hr'))
    rw [fillRows, min_eq_left (by linarith), ih (fun r' hr' => hq r' (List.mem_cons_of_mem _ hr'))
      (by linarith)]

theorem fillRows_zero {rows : DF} (hq : ∀ r ∈ rows, 0 ≤ r.quantity) :
    ∀ r ∈ fillRows 0 rows, r.quantity = 0 := by
  induction rows with
  | nil => simp [fillRows]
  | cons r rs ih =>
    intro r' hr'
    rw [fillRows, min_eq_right (hq r List.mem_cons_self), sub_zero] at hr'
    rcases List.mem_cons.mp hr' with rfl | h
    · rfl
    · exact ih (fun r' hr' => hq r' (List.mem_cons_of_mem _ hr')) r' h

theorem fillRows_mem {Q : ℚ} (hQ : 0 ≤ Q) {rows : DF} (hq : ∀ r ∈ rows, 0 ≤ r.quantity) :
    ∀ r' ∈ fillRows Q rows, ∃ r ∈ rows, r'.label = r.label ∧ r'.price = r.price ∧
      r'.user = r.user ∧ r'.buying = r.buying ∧ 0 ≤ r'.quantity ∧ r'.quantity ≤ r.quantity := by
  induction rows generalizing Q with
  | nil => intro r' hr'; cases hr'
  | cons r rs ih =>
    intro r' hr'
    rw [fillRows] at hr'
    rcases List.mem_cons.mp hr' with rfl | h
    · exact ⟨r, List.mem_cons_self, rfl, rfl, rfl, rfl, le_min (hq r List.mem_cons_self) hQ,
        min_le_left _ _⟩
    · obtain ⟨r₀, h0, h'⟩ := ih (by linarith [min_le_right r.quantity Q])
        (fun r' hr' => hq r' (List.mem_cons_of_mem _ hr')) r' h
      exact ⟨r₀, List.mem_cons_of_mem _ h0, h'⟩

theorem fillRows_map {β : Type*} (f : Row → β) (hf : ∀ (r : Row) (x : ℚ),
    f { r with quantity := x } = f r) (Q : ℚ) (rows : DF) :
    (fillRows Q rows).map f = rows.map f := by
  induction rows generalizing Q with
  | nil => rfl
  | cons r rs ih => rw [fillRows, List.map_cons, List.map_cons, ih, hf]

theorem fillRows_value {g : Row → ℚ} (hg : ∀ (r : Row) (x : ℚ), g { r with quantity := x } = g r)
    (Q : ℚ) (rows : DF) :
    value (fun r => r.quantity) g (fillRows Q rows) = greedy (fun r => r.quantity) g Q rows := by
  induction rows generalizing Q with
  | nil => rfl
  | cons r rs ih => rw [fillRows, value_cons, ih, greedy, hg]

theorem fillRows_qsum {Q : ℚ} (hQ : 0 ≤ Q) {rows : DF} (hq : ∀ r ∈ rows, 0 ≤ r.quantity) :
    qsum (fillRows Q rows) = min Q (qsum rows) := by
  induction rows generalizing Q with
  | nil => simp [fillRows, qsum, hQ]
  | cons r rs ih =>
    have h0 := qsum_nonneg (rows := rs) (fun r' hr' => hq r' (List.mem_cons_of_mem _ hr'))
    rw [fillRows, qsum_cons, ih (by linarith [min_le_right r.quantity Q])
      (fun r' hr' => hq r' (List.mem_cons_of_mem _ hr')), qsum_cons]
    simp only
    rcases le_total r.quantity Q with hle | hle
    · rw [min_eq_left hle, ← min_add_add_left]; congr 1; ring
    · rw [min_eq_right hle, sub_self, min_eq_left h0, min_eq_left (by linarith)]; ring

end PyMarket
