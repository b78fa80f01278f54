import Verif.Lemmas.WaterFill

/-! # C12: `update_quantity` -/

set_option autoImplicit false

namespace PyMarket

/-- What remains of the quantities `q` after cutting `c` from each player, as far as possible. -/
def Spec.cut (c : ℚ) (q : List ℚ) : List ℚ := q.map (fun x => max (x - c) 0)

open Spec

theorem cut_sum_antitone (q : List ℚ) {c c' : ℚ} (h : c ≤ c') : (cut c' q).sum ≤ (cut c q).sum := by
  apply List.sum_le_sum
  intro x _
  exact max_le_max (by linarith) (le_refl _)

theorem cut_sum_strict (q : List ℚ) {c c' : ℚ} (h : c < c') (hpos : 0 < (cut c q).sum) :
    (cut c' q).sum < (cut c q).sum := by
  induction q with
  | nil => simp [cut] at hpos
  | cons a q ih =>
    have hle := cut_sum_antitone q h.le
    simp only [cut, List.map_cons, List.sum_cons] at hpos hle ih ⊢
    by_cases ha : c < a
    · have : max (a - c') 0 < max (a - c) 0 := by
        rw [max_eq_left (by linarith : 0 ≤ a - c)]
        exact max_lt (by linarith) (by linarith)
      linarith
    · rw [max_eq_right (by linarith : a - c ≤ 0)] at hpos ⊢
      rw [max_eq_right (by linarith : a - c' ≤ 0)]
      have := ih (by linarith)
      linarith

/-- C12: `update_quantity` removes exactly `gap` by cutting the same amount from every player, as far
as possible; the cut is unique when something remains. The quantities may have any sign. -/
theorem C12_water_filling (q : List ℚ) (gap : ℚ) (hne : q ≠ [])
    (h0 : 0 ≤ gap) (h1 : gap ≤ q.sum) :
    ∃ c, 0 ≤ c ∧ updateQuantity q gap = .ok (cut c q) ∧ (cut c q).sum = q.sum - gap ∧
      (gap < q.sum → ∀ c', (cut c' q).sum = q.sum - gap → c' = c) := by
  have hlen : 1 ≤ q.length := by
    cases q with
    | nil => exact absurd rfl hne
    | cons a q => simp
  obtain ⟨⟨q', N', gap'⟩, hl⟩ := uqLoop_total (q.map some) q.length gap (countP_map_some q).symm
    hlen (by rw [sumSome_map_some]; exact h1)
  have hok : ∃ r, updateQuantity q gap = .ok r := by
    unfold updateQuantity
    rw [hl]
    exact ⟨_, rfl⟩
  obtain ⟨r, hr⟩ := hok
  obtain ⟨c, hc, rfl, hs⟩ := updateQuantity_shape q gap (.inl h0) r hr
  refine ⟨c, le_trans (by positivity) hc, hr, hs, ?_⟩
  intro hlt c' hc'
  change (cut c q).sum = _ at hs
  rcases lt_trichotomy c c' with h | h | h
  · have := cut_sum_strict q h (by rw [hs]; linarith)
    linarith
  · exact h.symm
  · have := cut_sum_strict q h (by rw [hc']; linarith)
    linarith

/-- C12: consequences for the single players: results stay between 0 and the original quantity (0 when
that is negative) and keep the order of the players (larger quantities stay larger). -/
theorem C12_bounds (q : List ℚ) (gap : ℚ) (h0 : 0 ≤ gap) (r : List ℚ)
    (h : updateQuantity q gap = .ok r) :
    r.length = q.length ∧
    (∀ (i : ℕ) (x y : ℚ), q[i]? = some x → r[i]? = some y → 0 ≤ y ∧ y ≤ max x 0) ∧
    (∀ (i j : ℕ) (x x' y y' : ℚ), q[i]? = some x → q[j]? = some x' → r[i]? = some y →
      r[j]? = some y' → x ≤ x' → y ≤ y' ∧ y' - y ≤ x' - x) := by
  obtain ⟨c, hc, rfl, _⟩ := updateQuantity_shape q gap (.inl h0) r h
  have hc0 : 0 ≤ c := le_trans (by positivity) hc
  refine ⟨by simp, ?_, ?_⟩
  · intro i x y hx hy
    rw [List.getElem?_map, hx] at hy
    simp only [Option.map_some, Option.some.injEq] at hy
    subst hy
    exact ⟨le_max_right _ _, max_le_max (by linarith) (le_refl _)⟩
  · intro i j x x' y y' hx hx' hy hy' hle
    rw [List.getElem?_map, hx] at hy
    rw [List.getElem?_map, hx'] at hy'
    simp only [Option.map_some, Option.some.injEq] at hy hy'
    subst hy; subst hy'
    refine ⟨max_le_max (by linarith) (le_refl _), ?_⟩
    rcases le_total (x - c) 0 with h1 | h1 <;> rcases le_total (x' - c) 0 with h2 | h2 <;>
      simp only [max_eq_left, max_eq_right, h1, h2] <;> linarith

/-- C12: whatever is returned sums to `total - gap`, for every non-negative `gap`, and for every `gap`
when no quantity is negative. -/
theorem C12_sum (q : List ℚ) (gap : ℚ) (hq : 0 ≤ gap ∨ ∀ x ∈ q, 0 ≤ x) (r : List ℚ)
    (h : updateQuantity q gap = .ok r) : r.sum = q.sum - gap := by
  obtain ⟨c, _, rfl, hs⟩ := updateQuantity_shape q gap hq r h
  exact hs

/-- C12: a gap that exceeds the total (or an empty list) is an error. -/
theorem C12_excess (q : List ℚ) (gap : ℚ) (h : q = [] ∨ q.sum < gap) :
    updateQuantity q gap = .error .valueError := by
  have : uqLoop (q.map some) q.length gap = .error .valueError := by
    rcases h with rfl | h
    · rw [uqLoop]; rfl
    · exact uqLoop_error _ _ _ (countP_map_some q).symm (by rw [sumSome_map_some]; exact h)
  unfold updateQuantity
  rw [this]
  rfl

/-- Three players, gap 4: the smallest one drops out, the others lose 3/2 each. -/
example : updateQuantity [1, 3, 5] 4 = .ok [0, 3 / 2, 7 / 2] ∧
    cut (3 / 2) [1, 3, 5] = [0, 3 / 2, 7 / 2] ∧
    updateQuantity [1, 3, 5] 9 = .ok [0, 0, 0] ∧
    updateQuantity [1, 3, 5] 10 = .error .valueError ∧
    updateQuantity [3, -2, 5] 2 = .ok [1, 0, 3] := by
  decide +kernel

end PyMarket
