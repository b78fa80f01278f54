import Verif.Lemmas.Merge
import Verif.Spec.Rounding
import Mathlib.Algebra.BigOperators.Group.List.Basic
import Mathlib.Algebra.BigOperators.GroupWithZero.Finset
import Mathlib.Algebra.Order.BigOperators.Group.List

/-! # Lemmas about rounding specification and `split_transactions_merged_players` -/

set_option autoImplicit false

namespace PyMarket

theorem npRound_isRounded (prec : ℕ) (x : ℚ) : Spec.IsRounded prec x (npRound prec x) := by
  refine ⟨rint (x * 10 ^ prec), rfl, npRound_near prec x, ?_⟩
  intro h
  have hp : (0 : ℚ) < 10 ^ prec := by positivity
  have e : npRound prec x - x = ((rint (x * 10 ^ prec) : ℚ) - x * 10 ^ prec) / 10 ^ prec := by
    unfold npRound; field_simp
  rw [e, abs_div, abs_of_pos hp] at h
  have h2 : |(rint (x * 10 ^ prec) : ℚ) - x * 10 ^ prec| = 1 / 2 := by
    field_simp at h ⊢
    linarith
  generalize x * 10 ^ prec = w at h2
  have h1 := Int.floor_le w
  have h3 := Int.lt_floor_add_one w
  revert h2
  unfold rint
  simp only
  split_ifs with c1 c2 c3
  · intro h2
    rcases abs_eq (by norm_num : (0 : ℚ) ≤ 1 / 2) |>.mp h2 with h | h <;> linarith
  · intro h2
    push_cast at h2
    rcases abs_eq (by norm_num : (0 : ℚ) ≤ 1 / 2) |>.mp h2 with h | h <;> linarith
  · intro _
    exact Int.even_iff.mpr c3
  · intro _
    rw [Int.even_iff]
    omega

theorem isRounded_unique {prec : ℕ} {x y y' : ℚ} (h : Spec.IsRounded prec x y)
    (h' : Spec.IsRounded prec x y') : y = y' := by
  obtain ⟨z, rfl, hn, he⟩ := h
  obtain ⟨z', rfl, hn', he'⟩ := h'
  have hp : (0 : ℚ) < 10 ^ prec := by positivity
  have key : ∀ w : ℤ, (w : ℚ) / 10 ^ prec - x = ((w : ℚ) - x * 10 ^ prec) / 10 ^ prec := by
    intro w; field_simp
  have key2 : ∀ w : ℤ, |(w : ℚ) / 10 ^ prec - x| = |(w : ℚ) - x * 10 ^ prec| / 10 ^ prec := by
    intro w; rw [key, abs_div, abs_of_pos hp]
  have hhalf : (1 : ℚ) / (2 * 10 ^ prec) = (1 / 2) / 10 ^ prec := by field_simp
  rw [key2, hhalf] at hn hn' he he'
  rw [div_le_div_iff_of_pos_right hp] at hn hn'
  rw [div_left_inj' hp.ne'] at he he'
  generalize x * 10 ^ prec = w at hn hn' he he'
  have hz : z = z' := by
    rw [abs_le] at hn hn'
    by_contra hne
    rcases lt_or_gt_of_ne hne with hlt | hlt
    · have h1 : (z : ℚ) + 1 ≤ z' := by exact_mod_cast hlt
      have e1 : (z : ℚ) - w = -(1 / 2) := by linarith
      have e2 : (z' : ℚ) - w = 1 / 2 := by linarith
      have ev := he (by rw [e1]; norm_num [abs_of_pos])
      have ev' := he' (by rw [e2]; norm_num [abs_of_pos])
      have : z' = z + 1 := by
        have : (z' : ℚ) = z + 1 := by linarith
        exact_mod_cast this
      rw [Int.even_iff] at ev ev'
      omega
    · have h1 : (z' : ℚ) + 1 ≤ z := by exact_mod_cast hlt
      have e1 : (z' : ℚ) - w = -(1 / 2) := by linarith
      have e2 : (z : ℚ) - w = 1 / 2 := by linarith
      have ev := he' (by rw [e1]; norm_num [abs_of_pos])
      have ev' := he (by rw [e2]; norm_num [abs_of_pos])
      have : z = z' + 1 := by
        have : (z : ℚ) = z' + 1 := by linarith
        exact_mod_cast this
      rw [Int.even_iff] at ev ev'
      omega
  rw [hz]

/-! ## Splitting -/

/-- The part of a transaction that goes to member `i` of a group with members `ids`. -/
def sharePart (bids : DF) (ids : List ℕ) (t : Transaction) (i : ℕ) : Transaction :=
  { t with
    bid := i
    quantity := t.quantity *
      (Spec.qtyOf bids i /
        (ids.map (fun j => Spec.qtyOf bids j)).sum) }

theorem qsum_members (bids : DF) (ids : List ℕ) (h : ∀ i ∈ ids, i < bids.length) :
    qsum (ids.filterMap (fun i => bids[i]?)) =
      (ids.map (fun j => Spec.qtyOf bids j)).sum := by
  induction ids with
  | nil => rfl
  | cons i ids ih =>
    have hi := h i List.mem_cons_self
    have := ih (fun j hj => h j (List.mem_cons_of_mem _ hj))
    simp only [qsum] at this ⊢
    simp [Spec.qtyOf, List.getElem?_eq_getElem hi, this]

theorem members_length (bids : DF) (ids : List ℕ) (h : ∀ i ∈ ids, i < bids.length) :
    (ids.filterMap (fun i => bids[i]?)).length = ids.length := by
  induction ids with
  | nil => rfl
  | cons i ids ih =>
    have hi := h i List.mem_cons_self
    simp [List.getElem?_eq_getElem hi,
      ih (fun j hj => h j (List.mem_cons_of_mem _ hj))]

theorem zip_members (bids : DF) (ids : List ℕ) (h : ∀ i ∈ ids, i < bids.length)
    {β : Type*} (f : ℕ → ℚ → β) :
    (List.zip ids (ids.filterMap (fun i => bids[i]?))).map (fun p => f p.1 p.2.quantity) =
      ids.map (fun i => f i (Spec.qtyOf bids i)) := by
  induction ids with
  | nil => rfl
  | cons i ids ih =>
    have hi := h i List.mem_cons_self
    simp [Spec.qtyOf, List.getElem?_eq_getElem hi,
      ih (fun j hj => h j (List.mem_cons_of_mem _ hj))]

theorem splitOne_ok (bids : DF) (maping : List (List ℕ)) (t : Transaction) (ids : List ℕ)
    (hm : maping[t.bid]? = some ids) (hin : ∀ i ∈ ids, i < bids.length)
    (hpos : ids ≠ [] → (ids.map (fun j => Spec.qtyOf bids j)).sum ≠ 0) :
    splitOne bids maping t = .ok (ids.map (sharePart bids ids t)) := by
  unfold splitOne
  rw [hm]
  simp only [members_length bids ids hin, qsum_members bids ids hin, ne_eq, not_true_eq_false,
    if_false]
  rw [if_neg]
  · congr 1
    exact zip_members bids ids hin (fun i q => ({ t with
      bid := i
      quantity := t.quantity *
        (q / (ids.map (fun j => Spec.qtyOf bids j)).sum) } : Transaction))
  · rintro ⟨h0, hne⟩
    exact hpos hne h0

theorem splitAll_ok (bids : DF) (maping : List (List ℕ)) (ts : List Transaction)
    (h : ∀ t ∈ ts, ∃ ids, maping[t.bid]? = some ids ∧ (∀ i ∈ ids, i < bids.length) ∧
      (ids ≠ [] →
        (ids.map (fun j => Spec.qtyOf bids j)).sum ≠ 0)) :
    splitAll bids maping ts = .ok (ts.flatMap (fun t =>
      ((maping[t.bid]?).getD []).map (sharePart bids ((maping[t.bid]?).getD []) t))) := by
  induction ts with
  | nil => rfl
  | cons t ts ih =>
    obtain ⟨ids, hm, hin, hpos⟩ := h t List.mem_cons_self
    unfold splitAll
    rw [splitOne_ok bids maping t ids hm hin hpos,
      ih (fun t' ht' => h t' (List.mem_cons_of_mem _ ht'))]
    simp [bind, Except.bind, hm]

theorem sum_sharePart (bids : DF) (ids : List ℕ) (t : Transaction)
    (h : (ids.map (fun j => Spec.qtyOf bids j)).sum ≠ 0) :
    ((ids.map (sharePart bids ids t)).map (fun t => t.quantity)).sum = t.quantity := by
  rw [List.map_map]
  set T := (ids.map (fun j => Spec.qtyOf bids j)).sum with hT
  have : ∀ l : List ℕ, (l.map ((fun t => t.quantity) ∘ sharePart bids ids t)).sum =
      t.quantity / T * (l.map (fun j => Spec.qtyOf bids j)).sum := by
    intro l
    induction l with
    | nil => simp
    | cons i l ih =>
      simp only [List.map_cons, List.sum_cons, ih, Function.comp]
      simp only [sharePart, ← hT]
      ring
  rw [this, ← hT]
  field_simp

end PyMarket
