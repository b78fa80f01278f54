import Verif.Model.Huang
import Mathlib.Tactic.Linarith
import Mathlib.Tactic.FieldSimp
import Mathlib.Tactic.Ring
import Mathlib.Algebra.BigOperators.Group.List.Basic
import Mathlib.Algebra.Order.BigOperators.Group.List

/-! # Lemmas about `update_quantity` -/

set_option autoImplicit false

namespace PyMarket

/-- Sum of the entries that are not `NaN`. -/
def sumSome (q : List (Option ℚ)) : ℚ := (q.map (fun o => o.getD 0)).sum

@[simp] theorem sumSome_nil : sumSome [] = 0 := rfl

@[simp] theorem sumSome_cons (o : Option ℚ) (q : List (Option ℚ)) :
    sumSome (o :: q) = o.getD 0 + sumSome q := by simp [sumSome]

theorem nanArgMin_none (q : List (Option ℚ)) :
    nanArgMin q = none ↔ q.countP Option.isSome = 0 := by
  induction q with
  | nil => simp [nanArgMin]
  | cons o q ih =>
    cases o with
    | none => simp [nanArgMin, ih]
    | some a =>
      simp only [nanArgMin]
      constructor
      · intro h
        split at h
        · cases h
        · split at h <;> cases h
      · intro h; simp at h

theorem nanArgMin_le (q : List (Option ℚ)) (i : ℕ) (v : ℚ) (h : nanArgMin q = some (i, v)) :
    ∀ w, some w ∈ q → v ≤ w := by
  induction q generalizing i v with
  | nil => intro w hw; simp at hw
  | cons o q ih =>
    cases o with
    | none =>
      simp only [nanArgMin, Option.map_eq_some_iff] at h
      obtain ⟨⟨j, u⟩, hj, hp⟩ := h
      cases hp
      intro w hw
      rcases List.mem_cons.mp hw with hw | hw
      · cases hw
      · exact ih j _ hj w hw
    | some a =>
      simp only [nanArgMin] at h
      intro w hw
      split at h
      · rename_i hn
        cases h
        rcases List.mem_cons.mp hw with hw | hw
        · cases hw; exact le_refl _
        · rw [nanArgMin_none, List.countP_eq_zero] at hn
          exact absurd rfl (hn _ hw)
      · rename_i j u hj
        split at h
        · rename_i hau
          cases h
          rcases List.mem_cons.mp hw with hw | hw
          · cases hw; exact le_refl _
          · exact le_trans hau (ih j u hj w hw)
        · rename_i hau
          cases h
          rcases List.mem_cons.mp hw with hw | hw
          · cases hw; exact (not_le.mp hau).le
          · exact ih j _ hj w hw

theorem countP_set_none_eq (q : List (Option ℚ)) (i : ℕ) (v : ℚ) (h : q[i]? = some (some v)) :
    (q.set i none).countP Option.isSome + 1 = q.countP Option.isSome := by
  induction q generalizing i with
  | nil => simp at h
  | cons x xs ih =>
    cases i with
    | zero =>
      simp only [List.getElem?_cons_zero, Option.some.injEq] at h
      subst h
      simp
    | succ i =>
      simp only [List.getElem?_cons_succ] at h
      have := ih i h
      simp only [List.set_cons_succ, List.countP_cons]
      omega

theorem sumSome_set_none (q : List (Option ℚ)) (i : ℕ) (v : ℚ) (h : q[i]? = some (some v)) :
    sumSome (q.set i none) = sumSome q - v := by
  induction q generalizing i with
  | nil => simp at h
  | cons x xs ih =>
    cases i with
    | zero =>
      simp only [List.getElem?_cons_zero, Option.some.injEq] at h
      subst h
      simp
    | succ i =>
      simp only [List.getElem?_cons_succ] at h
      have := ih i h
      simp only [List.set_cons_succ, sumSome_cons, this]
      ring

theorem map_filter_set_none (q : List (Option ℚ)) (i : ℕ) (v c : ℚ) (h : q[i]? = some (some v))
    (hv : v < c) : (q.set i none).map (Option.filter (fun x => decide (c ≤ x))) =
      q.map (Option.filter (fun x => decide (c ≤ x))) := by
  induction q generalizing i with
  | nil => simp at h
  | cons x xs ih =>
    cases i with
    | zero =>
      simp only [List.getElem?_cons_zero, Option.some.injEq] at h
      subst h
      simp [Option.filter, hv]
    | succ i =>
      simp only [List.getElem?_cons_succ] at h
      simp only [List.set_cons_succ, List.map_cons, ih i h]

theorem mul_count_le_sumSome (q : List (Option ℚ)) (v : ℚ) (h : ∀ w, some w ∈ q → v ≤ w) :
    v * (q.countP Option.isSome : ℕ) ≤ sumSome q := by
  induction q with
  | nil => simp
  | cons o q ih =>
    have ih' := ih (fun w hw => h w (List.mem_cons_of_mem _ hw))
    cases o with
    | none => simpa using ih'
    | some a =>
      have ha := h a List.mem_cons_self
      simp only [List.countP_cons, Option.isSome_some, if_true, sumSome_cons, Option.getD_some]
      push_cast
      linarith

/-- Result of the loop. -/
theorem uqLoop_ok (q : List (Option ℚ)) (N : ℕ) (gap : ℚ) (hN : N = q.countP Option.isSome)
    (q' : List (Option ℚ)) (N' : ℕ) (gap' : ℚ) (h : uqLoop q N gap = .ok (q', N', gap')) :
    q' = q.map (Option.filter (fun x => decide (gap' / N' ≤ x))) ∧
    N' = q'.countP Option.isSome ∧ 1 ≤ N' ∧ gap / N ≤ gap' / N' ∧
    sumSome q' - gap' = sumSome q - gap := by
  induction q, N, gap using uqLoop.induct with
  | case1 q N gap hn =>
    rw [uqLoop] at h
    split at h
    · cases h
    · rename_i i v hv; rw [hn] at hv; cases hv
  | case2 q N gap i v hv hlt ih =>
    rw [uqLoop] at h
    split at h
    · cases h
    · rename_i i' v' hv'
      rw [hv] at hv'
      cases hv'
      rw [if_pos hlt] at h
      have hget := nanArgMin_getElem? q i v hv
      have hc := countP_set_none_eq q i v hget
      obtain ⟨h1, h2, h3, h4, h5⟩ := ih (by omega) h
      -- the next iteration finds an entry, so at least two remain
      have hN2 : 2 ≤ N := by
        by_contra hlt2
        have h0 : (q.set i none).countP Option.isSome = 0 := by omega
        rw [uqLoop] at h
        split at h
        · cases h
        · rename_i i'' v'' hv''
          rw [(nanArgMin_none _).mpr h0] at hv''
          cases hv''
      have hNq : (2 : ℚ) ≤ N := by exact_mod_cast hN2
      have hcast : ((N - 1 : ℕ) : ℚ) = N - 1 := by
        rw [Nat.cast_sub (by omega)]; simp
      have hstep : gap / N ≤ (gap - v) / ((N - 1 : ℕ) : ℚ) := by
        rw [hcast, div_le_div_iff₀ (by linarith) (by linarith)]
        have : v * N < gap := by
          rwa [lt_div_iff₀ (by linarith)] at hlt
        nlinarith
      have hvc : v < gap' / N' := lt_of_lt_of_le hlt (le_trans hstep h4)
      refine ⟨?_, h2, h3, le_trans hstep h4, ?_⟩
      · rw [h1]; exact map_filter_set_none q i v _ hget hvc
      · rw [h5, sumSome_set_none q i v hget]; ring
  | case3 q N gap i v hv hlt =>
    rw [uqLoop] at h
    split at h
    · cases h
    · rename_i i' v' hv'
      rw [hv] at hv'
      cases hv'
      rw [if_neg hlt] at h
      cases h
      refine ⟨?_, hN, ?_, le_refl _, rfl⟩
      · symm
        conv_rhs => rw [← List.map_id q']
        apply List.map_congr_left
        intro o ho
        cases o with
        | none => rfl
        | some w =>
          have := nanArgMin_le _ i v hv w ho
          simp only [Option.filter, id]
          rw [if_pos (by simpa using le_trans (not_lt.mp hlt) this)]
      · rw [hN]
        rw [Nat.one_le_iff_ne_zero]
        intro h0
        rw [(nanArgMin_none _).mpr h0] at hv
        cases hv

/-- The loop ends normally if the gap does not exceed the total. -/
theorem uqLoop_total (q : List (Option ℚ)) (N : ℕ) (gap : ℚ) (hN : N = q.countP Option.isSome)
    (hN1 : 1 ≤ N) (hgap : gap ≤ sumSome q) : ∃ r, uqLoop q N gap = .ok r := by
  induction q, N, gap using uqLoop.induct with
  | case1 q N gap hn =>
    rw [nanArgMin_none] at hn
    omega
  | case2 q N gap i v hv hlt ih =>
    rw [uqLoop]
    have hget := nanArgMin_getElem? q i v hv
    have hc := countP_set_none_eq q i v hget
    have hs := sumSome_set_none q i v hget
    split
    · rename_i hn; rw [hv] at hn; cases hn
    · rename_i i' v' hv'
      rw [hv] at hv'
      cases hv'
      rw [if_pos hlt]
      have hNq : (1 : ℚ) ≤ N := by exact_mod_cast hN1
      apply ih (by omega) _ (by rw [hs]; linarith)
      by_contra hlt2
      have hN' : N = 1 := by omega
      subst hN'
      -- a single entry remains and it is below the gap
      have h0 : (q.set i none).countP Option.isSome = 0 := by omega
      have : sumSome (q.set i none) = 0 := by
        rw [List.countP_eq_zero] at h0
        unfold sumSome
        apply List.sum_eq_zero
        intro x hx
        obtain ⟨o, ho, rfl⟩ := List.mem_map.mp hx
        cases o with
        | none => rfl
        | some w => exact absurd rfl (h0 _ ho)
      rw [this] at hs
      simp only [Nat.cast_one, div_one] at hlt
      linarith
  | case3 q N gap i v hv hlt =>
    rw [uqLoop]
    split
    · rename_i hn; rw [hv] at hn; cases hn
    · rename_i i' v' hv'
      rw [hv] at hv'
      cases hv'
      rw [if_neg hlt]
      exact ⟨_, rfl⟩

/-- The loop runs out of players if the gap exceeds the total. -/
theorem uqLoop_error (q : List (Option ℚ)) (N : ℕ) (gap : ℚ) (hN : N = q.countP Option.isSome)
    (hgap : sumSome q < gap) : uqLoop q N gap = .error .valueError := by
  induction q, N, gap using uqLoop.induct with
  | case1 q N gap hn =>
    rw [uqLoop]
    split
    · rfl
    · rename_i i v hv; rw [hn] at hv; cases hv
  | case2 q N gap i v hv hlt ih =>
    rw [uqLoop]
    have hget := nanArgMin_getElem? q i v hv
    have hc := countP_set_none_eq q i v hget
    have hs := sumSome_set_none q i v hget
    split
    · rfl
    · rename_i i' v' hv'
      rw [hv] at hv'
      cases hv'
      rw [if_pos hlt]
      exact ih (by omega) (by rw [hs]; linarith)
  | case3 q N gap i v hv hlt =>
    exfalso
    apply hlt
    have hN1 : 1 ≤ N := by
      rw [hN, Nat.one_le_iff_ne_zero]
      intro h0
      rw [(nanArgMin_none _).mpr h0] at hv
      cases hv
    have hNq : (1 : ℚ) ≤ N := by exact_mod_cast hN1
    rw [lt_div_iff₀ (by linarith)]
    have := mul_count_le_sumSome q v (nanArgMin_le q i v hv)
    rw [← hN] at this
    linarith

theorem le_foldl_max (l : List ℚ) (a : ℚ) : a ≤ l.foldl max a ∧ ∀ x ∈ l, x ≤ l.foldl max a := by
  induction l generalizing a with
  | nil => simp
  | cons b l ih =>
    obtain ⟨h1, h2⟩ := ih (max a b)
    simp only [List.foldl_cons]
    refine ⟨le_trans (le_max_left _ _) h1, ?_⟩
    intro x hx
    rcases List.mem_cons.mp hx with rfl | hx
    · exact le_trans (le_max_right _ _) h1
    · exact h2 x hx

theorem le_maxList {l : List ℚ} {x : ℚ} (hx : x ∈ l) : x ≤ maxList l := by
  cases l with
  | nil => simp at hx
  | cons a l =>
    obtain ⟨h1, h2⟩ := le_foldl_max l a
    rcases List.mem_cons.mp hx with rfl | hx
    · exact h1
    · exact h2 x hx

theorem countP_map_some (l : List ℚ) : (l.map some).countP Option.isSome = l.length := by
  induction l with
  | nil => rfl
  | cons a l ih => simp [ih]

theorem sumSome_map_some (l : List ℚ) : sumSome (l.map some) = l.sum := by
  induction l with
  | nil => rfl
  | cons a l ih => simp [ih]

theorem sum_cut (q : List ℚ) (c : ℚ) :
    (q.map (fun x => max (x - c) 0)).sum =
      sumSome ((q.map some).map (Option.filter (fun x => decide (c ≤ x)))) -
      c * (((q.map some).map (Option.filter (fun x => decide (c ≤ x)))).countP Option.isSome : ℕ) := by
  induction q with
  | nil => simp
  | cons a q ih =>
    simp only [List.map_cons, List.sum_cons, ih, sumSome_cons, List.countP_cons, Option.filter]
    by_cases h : c ≤ a
    · simp only [h, decide_true, if_true, Option.getD_some, Option.isSome_some]
      rw [max_eq_left (by linarith)]
      push_cast
      ring
    · simp only [h, decide_false, Bool.false_eq_true, if_false, Option.getD_none,
        Option.isSome_none, add_zero]
      rw [max_eq_right (by linarith [not_le.mp h])]
      ring

/-- Shape of every normal result. -/
theorem updateQuantity_shape (q : List ℚ) (gap : ℚ) (hq : 0 ≤ gap ∨ ∀ x ∈ q, 0 ≤ x) (r : List ℚ)
    (h : updateQuantity q gap = .ok r) :
    ∃ c : ℚ, gap / q.length ≤ c ∧ r = q.map (fun x => max (x - c) 0) ∧ r.sum = q.sum - gap := by
  unfold updateQuantity at h
  cases hl : uqLoop (q.map some) q.length gap with
  | error e => rw [hl] at h; cases h
  | ok p =>
    obtain ⟨q', N', gap'⟩ := p
    rw [hl] at h
    simp only [bind, Except.bind, Except.ok.injEq] at h
    obtain ⟨h1, h2, h3, h4, h5⟩ := uqLoop_ok _ _ _ (countP_map_some q).symm _ _ _ hl
    rw [sumSome_map_some] at h5
    generalize hc : gap' / (N' : ℚ) = c at *
    have hN0 : (0 : ℚ) < N' := by exact_mod_cast h3
    have hgap' : gap' = c * N' := by rw [← hc]; field_simp
    -- pointwise value
    have hq1 : (q'.map (fun o => o.getD 0)).map (fun x => x - c) =
        q.map (fun x => if c ≤ x then x - c else -c) := by
      rw [h1, List.map_map, List.map_map, List.map_map]
      apply List.map_congr_left
      intro x _
      simp only [Function.comp, Option.filter]
      by_cases hx : c ≤ x <;> simp [hx]
    have hmax : 0 ≤ maxList ((q'.map (fun o => o.getD 0)).map (fun x => x - c)) := by
      have : ∃ x ∈ q, c ≤ x := by
        have hpos : 0 < q'.countP Option.isSome := by omega
        rw [List.countP_pos_iff] at hpos
        obtain ⟨o, ho, hs⟩ := hpos
        rw [h1, List.map_map] at ho
        obtain ⟨x, hx, rfl⟩ := List.mem_map.mp ho
        refine ⟨x, hx, ?_⟩
        simp only [Function.comp, Option.filter] at hs
        by_contra hcx
        simp [hcx] at hs
      obtain ⟨x, hx, hcx⟩ := this
      have hm : x - c ∈ (q'.map (fun o => o.getD 0)).map (fun x => x - c) := by
        rw [hq1]
        exact List.mem_map.mpr ⟨x, hx, by rw [if_pos hcx]⟩
      have := le_maxList hm
      linarith
    have hr : r = q.map (fun x => max (x - c) 0) := by
      rw [← h]
      rw [hq1] at hmax ⊢
      rw [List.map_map]
      apply List.map_congr_left
      intro x hx
      have hle := le_maxList (List.mem_map.mpr ⟨x, hx, rfl⟩ :
        (if c ≤ x then x - c else -c) ∈ q.map (fun x => if c ≤ x then x - c else -c))
      simp only [Function.comp, clip0]
      by_cases hcx : c ≤ x
      · rw [if_pos hcx] at hle ⊢
        exact min_eq_left (max_le hle hmax)
      · rw [if_neg hcx]
        have := not_le.mp hcx
        have hc0 : 0 ≤ c := by
          rcases hq with hq | hq
          · exact le_trans (by positivity) h4
          · exact (hq x hx).trans this.le
        rw [max_eq_right (by linarith), max_eq_right (by linarith)]
        exact min_eq_left hmax
    refine ⟨c, h4, hr, ?_⟩
    rw [hr, sum_cut, ← h1, ← h2]
    linarith

end PyMarket
