import Verif.Model.FloatP2P
import Verif.Lemmas.Float
import Verif.Lemmas.P2P

/-! # Lemmas about `p2p_random` in floating point arithmetic -/

set_option autoImplicit false

namespace PyMarket

open Spec

/-! ## Exact arithmetic is a special case -/

theorem tradeOneF_exact : tradeOneF exactFmt = tradeOne := by
  funext prices c q p
  rfl

theorem tradeRoundF_exact (prices : ℕ → ℚ) (c : ℚ) (q : ℕ → ℚ) (M : List (ℕ × ℕ)) :
    tradeRoundF exactFmt prices c q M = tradeRound prices c q M := by
  induction M generalizing q with
  | nil => rfl
  | cons p M ih => simp only [tradeRoundF, tradeRound, tradeOneF_exact, ih]

theorem p2pLoopF_exact (s : Summer exactFmt) (bids : DF) (prices : ℕ → ℚ) (c : ℚ) (choice : ℕ → ℕ)
    (n : ℕ) (q : ℕ → ℚ) (active : List (ℕ × ℕ)) (inactive : List ℕ) :
    p2pLoopF exactFmt s bids prices c choice n q active inactive =
      p2pLoop bids prices c choice n q active inactive := by
  fun_induction p2pLoop bids prices c choice n q active inactive with
  | case1 n q active inactive tmp hcond m t rest ih =>
    unfold p2pLoopF
    simp only [s.exact, tradeRoundF_exact]
    rw [dif_pos hcond]
    exact congrArg₂ Prod.mk (congrArg₂ List.cons rfl (congrArg Prod.fst ih))
      (congrArg₂ List.append rfl (congrArg Prod.snd ih))
  | case2 n q active inactive tmp hcond =>
    unfold p2pLoopF
    simp only [s.exact]
    rw [dif_neg hcond]

theorem p2pRandomF_exact (s : Summer exactFmt) (c : ℚ) (choice : ℕ → ℕ) (df : DF) :
    p2pRandomF exactFmt s c choice df = p2pRandom c choice df := by
  unfold p2pRandomF p2pRandom
  rw [p2pLoopF_exact]

/-! ## The loop -/

theorem tradeRoundF_append (F : Fmt) (prices : ℕ → ℚ) (c : ℚ) (q : ℕ → ℚ) (A B : List (ℕ × ℕ)) :
    tradeRoundF F prices c q (A ++ B) =
      ((tradeRoundF F prices c (tradeRoundF F prices c q A).1 B).1,
        (tradeRoundF F prices c q A).2 ++ (tradeRoundF F prices c (tradeRoundF F prices c q A).1 B).2) := by
  induction A generalizing q with
  | nil => simp [tradeRoundF]
  | cons p A ih => simp only [List.cons_append, tradeRoundF, ih, List.append_assoc]

theorem tradeOneF_length (F : Fmt) (prices : ℕ → ℚ) (c : ℚ) (q : ℕ → ℚ) (p : ℕ × ℕ) :
    (tradeOneF F prices c q p).2.length = 2 := by
  unfold tradeOneF
  simp only
  split_ifs <;> rfl

theorem tradeRoundF_length (F : Fmt) (prices : ℕ → ℚ) (c : ℚ) (q : ℕ → ℚ) (M : List (ℕ × ℕ)) :
    (tradeRoundF F prices c q M).2.length = 2 * M.length := by
  induction M generalizing q with
  | nil => rfl
  | cons p M ih =>
    simp only [tradeRoundF, List.length_append, tradeOneF_length, ih, List.length_cons]
    ring

/-- The trading history produced by the outer loop. `mask pre` are the bids masked out before the
round following the rounds `pre`. -/
structure LoopSpecF (F : Fmt) (s : Summer F) (bids : DF) (prices : ℕ → ℚ) (c : ℚ) (q : ℕ → ℚ) (active : List (ℕ × ℕ))
    (inactive : List ℕ) (R : List (List (ℕ × ℕ))) (T : List Transaction) : Prop where
  trans : T = (tradeRoundF F prices c q R.flatten).2
  nodup : R.flatten.Nodup
  subset : ∀ p ∈ R.flatten, p ∈ active
  round : ∀ pre rd post, R = pre ++ rd :: post →
    rd ≠ [] ∧ rd.Pairwise (fun p p' => ¬ Touch p' p) ∧
    (∀ p ∈ rd, ∀ i ∈ (if pre = [] then inactive
        else exhausted bids (tradeRoundF F prices c q pre.flatten).1), p.1 ≠ i ∧ p.2 ≠ i) ∧
    (∀ p ∈ active, p ∉ pre.flatten → (∀ i ∈ (if pre = [] then inactive
        else exhausted bids (tradeRoundF F prices c q pre.flatten).1), p.1 ≠ i ∧ p.2 ≠ i) →
      ∃ p' ∈ rd, Touch p p')
  final : s.sum (bids.map (fun r => (tradeRoundF F prices c q R.flatten).1 r.label)) ≤ 0 ∨
    ∀ p ∈ active, p ∉ R.flatten → ∃ i ∈ (if R = [] then inactive
        else exhausted bids (tradeRoundF F prices c q R.flatten).1), p.1 = i ∨ p.2 = i

theorem p2pLoopF_spec (F : Fmt) (s : Summer F) (bids : DF) (prices : ℕ → ℚ) (c : ℚ) (choice : ℕ → ℕ) (n : ℕ)
    (q : ℕ → ℚ) (active : List (ℕ × ℕ)) (inactive : List ℕ) (hn : active.Nodup) :
    LoopSpecF F s bids prices c q active inactive
      (p2pLoopF F s bids prices c choice n q active inactive).1
      (p2pLoopF F s bids prices c choice n q active inactive).2 := by
  fun_induction p2pLoopF F s bids prices c choice n q active inactive with
  | case1 n q active inactive tmp hcond m t rest ih =>
    have hs := meetLoop_spec choice n active tmp hn
    have hr := ih hs.nodup
    have hmne : m.2.2 ≠ [] := by
      intro h0
      obtain ⟨p, hp⟩ := List.exists_mem_of_ne_nil _ hcond.2
      obtain ⟨p', hp', _⟩ := hs.maximal p hp
      change p' ∈ m.2.2 at hp'
      rw [h0] at hp'; cases hp'
    have hdisj : ∀ p ∈ rest.1.flatten, p ∉ m.2.2 := by
      intro p hp
      exact ((hs.mem p).mp (hr.subset p hp)).2
    have hact : ∀ p ∈ m.2.2, p ∈ active := by
      intro p hp
      exact (mem_maskOut.mp (hs.subset p hp)).1
    refine ⟨?_, ?_, ?_, ?_, ?_⟩
    · simp only [List.flatten_cons, tradeRoundF_append]
      rw [← hr.trans]
    · rw [List.flatten_cons, List.nodup_append]
      refine ⟨?_, hr.nodup, ?_⟩
      · refine hs.disjoint.imp ?_
        intro a b hab hEq
        subst hEq
        exact hab (touch_refl _)
      · intro a ha b hb hab
        subst hab
        exact hdisj _ hb ha
    · intro p hp
      rw [List.flatten_cons, List.mem_append] at hp
      rcases hp with hp | hp
      · exact hact p hp
      · exact ((hs.mem p).mp (hr.subset p hp)).1
    · intro pre rd post heq
      cases pre with
      | nil =>
        simp only [List.nil_append, List.cons.injEq] at heq
        obtain ⟨rfl, rfl⟩ := heq
        refine ⟨hmne, hs.disjoint, ?_, ?_⟩
        · intro p hp
          rw [if_pos rfl]
          exact (mem_maskOut.mp (hs.subset p hp)).2
        · intro p hp _ hmask
          rw [if_pos rfl] at hmask
          exact hs.maximal p (mem_maskOut.mpr ⟨hp, hmask⟩)
      | cons r0 pre =>
        simp only [List.cons_append, List.cons.injEq] at heq
        obtain ⟨rfl, heq⟩ := heq
        obtain ⟨g0, g1, g2, g3⟩ := hr.round pre rd post heq
        have hmask : (if (m.2.2 :: pre) = [] then inactive else exhausted bids
            (tradeRoundF F prices c q (m.2.2 :: pre).flatten).1) =
            (if pre = [] then exhausted bids t.1 else exhausted bids
            (tradeRoundF F prices c t.1 pre.flatten).1) := by
          rw [if_neg (List.cons_ne_nil _ _), List.flatten_cons, tradeRoundF_append]
          split_ifs with h0
          · subst h0; rfl
          · rfl
        rw [hmask]
        refine ⟨g0, g1, g2, ?_⟩
        intro p hp hnp hmk
        rw [List.flatten_cons, List.mem_append, not_or] at hnp
        exact g3 p ((hs.mem p).mpr ⟨hp, hnp.1⟩) hnp.2 hmk
    · have hq : (tradeRoundF F prices c q (m.2.2 :: rest.1).flatten).1 =
          (tradeRoundF F prices c t.1 rest.1.flatten).1 := by
        rw [List.flatten_cons, tradeRoundF_append]
      simp only [hq, if_neg (List.cons_ne_nil _ _)]
      rcases hr.final with h | h
      · left; exact h
      · right
        intro p hp hnp
        rw [List.flatten_cons, List.mem_append, not_or] at hnp
        obtain ⟨i, hi, hpi⟩ := h p ((hs.mem p).mpr ⟨hp, hnp.1⟩) hnp.2
        refine ⟨i, ?_, hpi⟩
        split_ifs at hi with h0
        · rw [h0]; exact hi
        · exact hi
  | case2 n q active inactive tmp hcond =>
    refine ⟨rfl, List.nodup_nil, by simp, ?_, ?_⟩
    · intro pre rd post h
      cases pre <;> cases h
    · simp only [List.flatten_nil, tradeRoundF, if_true]
      by_cases hs : 0 < s.sum (bids.map (fun r => q r.label))
      · right
        have h0 : tmp = [] := by
          by_contra hne; exact hcond ⟨hs, hne⟩
        intro p hp _
        have : p ∉ maskOut active inactive := by
          change p ∉ tmp
          rw [h0]; simp
        rw [mem_maskOut] at this
        push Not at this
        obtain ⟨i, hi, hpi⟩ := this hp
        refine ⟨i, hi, ?_⟩
        by_cases h1 : p.1 = i
        · exact Or.inl h1
        · exact Or.inr (hpi h1)
      · left; exact not_lt.mp hs

/-! ## Quantities -/

/-- The number of entries of bid `i` in the log. -/
def entriesOf (ts : List Transaction) (i : ℕ) : ℕ := (ts.filter (fun t => t.bid == i)).length

theorem entriesOf_append (a b : List Transaction) (i : ℕ) :
    entriesOf (a ++ b) i = entriesOf a i + entriesOf b i := by
  unfold entriesOf
  rw [List.filter_append, List.length_append]

/-- The two entries of one meeting. -/
theorem tradeOneF_entries (F : Fmt) (prices : ℕ → ℚ) (c : ℚ) (q : ℕ → ℚ) (p : ℕ × ℕ) :
    (tradeOneF F prices c q p).2 =
      if prices p.2 ≤ prices p.1 then
        [⟨p.1, min (q p.1) (q p.2), F.rnd (F.rnd (prices p.1 * c) + F.rnd (F.rnd (1 - c) * prices p.2)),
            (p.2 : ℤ), decide (0 < F.rnd (q p.1 - min (q p.1) (q p.2)))⟩,
         ⟨p.2, min (q p.1) (q p.2), F.rnd (F.rnd (prices p.1 * c) + F.rnd (F.rnd (1 - c) * prices p.2)),
            (p.1 : ℤ), decide (0 < F.rnd (q p.2 - min (q p.1) (q p.2)))⟩]
      else [⟨p.1, 0, 0, (p.2 : ℤ), true⟩, ⟨p.2, 0, 0, (p.1 : ℤ), true⟩] := by
  unfold tradeOneF
  simp only
  split_ifs <;> rfl

/-- What one meeting does to the remaining quantity of bid `i`. -/
theorem tradeOneF_step (F : Fmt) (prices : ℕ → ℚ) (c : ℚ) (q : ℕ → ℚ) (p : ℕ × ℕ) (hp : p.1 ≠ p.2)
    (hq : ∀ i, 0 ≤ q i) (i : ℕ) :
    0 ≤ tradedBy (tradeOneF F prices c q p).2 i ∧ tradedBy (tradeOneF F prices c q p).2 i ≤ q i ∧
    (((tradeOneF F prices c q p).1 i = q i ∧ tradedBy (tradeOneF F prices c q p).2 i = 0) ∨
      ((tradeOneF F prices c q p).1 i = F.rnd (q i - tradedBy (tradeOneF F prices c q p).2 i) ∧
        entriesOf (tradeOneF F prices c q p).2 i = 1)) := by
  have hm := le_min (hq p.1) (hq p.2)
  have hm1 := min_le_left (q p.1) (q p.2)
  have hm2 := min_le_right (q p.1) (q p.2)
  unfold tradeOneF tradedBy entriesOf
  simp only
  split_ifs with h
  · simp only [setQ]
    by_cases h1 : i = p.1
    · subst h1
      have h2 : p.2 ≠ p.1 := hp.symm
      simp [hp, h2, hq]
    · by_cases h2 : i = p.2
      · subst h2
        simp [hp, h1, hq]
      · simp [h1, h2, Ne.symm h1, Ne.symm h2, hq]
  · by_cases h1 : p.1 = i <;> by_cases h2 : p.2 = i <;> simp [h1, h2, hq]

theorem tradeOneF_bounds (F : Fmt) (prices : ℕ → ℚ) (c : ℚ) (q : ℕ → ℚ) (p : ℕ × ℕ) (hp : p.1 ≠ p.2)
    (hq : ∀ i, 0 ≤ q i) (hr : ∀ i, F.Rep (q i)) (i : ℕ) :
    0 ≤ (tradeOneF F prices c q p).1 i ∧ (tradeOneF F prices c q p).1 i ≤ q i ∧
    F.Rep ((tradeOneF F prices c q p).1 i) ∧
    |q i - tradedBy (tradeOneF F prices c q p).2 i - (tradeOneF F prices c q p).1 i| ≤
      F.eps * q i * entriesOf (tradeOneF F prices c q p).2 i := by
  obtain ⟨h1, h2, h3⟩ := tradeOneF_step F prices c q p hp hq i
  have e0 := F.eps_nonneg
  rcases h3 with ⟨ha, hb⟩ | ⟨ha, hb⟩
  · rw [ha, hb]
    refine ⟨hq i, le_refl _, hr i, ?_⟩
    rw [sub_zero, sub_self, abs_zero]
    exact mul_nonneg (mul_nonneg e0 (hq i)) (Nat.cast_nonneg _)
  · rw [ha, hb]
    refine ⟨F.rnd_nonneg (by linarith), F.rnd_le (hr i) (by linarith), F.rep_rnd _, ?_⟩
    have he := F.err (q i - tradedBy (tradeOneF F prices c q p).2 i)
    rw [abs_sub_comm, abs_of_nonneg (a := q i - _) (by linarith)] at he
    refine he.trans ?_
    rw [Nat.cast_one, mul_one]
    exact mul_le_mul_of_nonneg_left (by linarith) e0

theorem tradeRoundF_bounds (F : Fmt) (prices : ℕ → ℚ) (c : ℚ) (q : ℕ → ℚ) (M : List (ℕ × ℕ))
    (hM : ∀ p ∈ M, p.1 ≠ p.2) (hq : ∀ i, 0 ≤ q i) (hr : ∀ i, F.Rep (q i)) (i : ℕ) :
    0 ≤ (tradeRoundF F prices c q M).1 i ∧ (tradeRoundF F prices c q M).1 i ≤ q i ∧
    F.Rep ((tradeRoundF F prices c q M).1 i) ∧
    |q i - tradedBy (tradeRoundF F prices c q M).2 i - (tradeRoundF F prices c q M).1 i| ≤
      F.eps * q i * entriesOf (tradeRoundF F prices c q M).2 i := by
  induction M generalizing q with
  | nil =>
    refine ⟨hq i, le_refl _, hr i, ?_⟩
    simp [tradeRoundF, tradedBy, entriesOf]
  | cons p M ih =>
    have h1 := fun j => tradeOneF_bounds F prices c q p (hM p List.mem_cons_self) hq hr j
    have h2 := ih (tradeOneF F prices c q p).1 (fun p' hp' => hM p' (List.mem_cons_of_mem _ hp'))
      (fun j => (h1 j).1) (fun j => (h1 j).2.2.1)
    simp only [tradeRoundF]
    obtain ⟨a1, a2, a3, a4⟩ := h1 i
    obtain ⟨b1, b2, b3, b4⟩ := h2
    refine ⟨b1, b2.trans a2, b3, ?_⟩
    rw [tradedBy_append, entriesOf_append, Nat.cast_add, mul_add]
    have hb : F.eps * (tradeOneF F prices c q p).1 i *
        entriesOf (tradeRoundF F prices c (tradeOneF F prices c q p).1 M).2 i ≤
        F.eps * q i * entriesOf (tradeRoundF F prices c (tradeOneF F prices c q p).1 M).2 i :=
      mul_le_mul_of_nonneg_right (mul_le_mul_of_nonneg_left a2 F.eps_nonneg) (Nat.cast_nonneg _)
    rw [abs_le] at *
    constructor <;> linarith [a4.1, a4.2, b4.1, b4.2]

/-- After a compatible meeting one of the two is exhausted. -/
theorem tradeOneF_exhausts (F : Fmt) (prices : ℕ → ℚ) (c : ℚ) (q : ℕ → ℚ) (p : ℕ × ℕ) (hp : p.1 ≠ p.2)
    (h : prices p.2 ≤ prices p.1) :
    (tradeOneF F prices c q p).1 p.1 = 0 ∨ (tradeOneF F prices c q p).1 p.2 = 0 := by
  unfold tradeOneF
  simp only [h, if_true, setQ, hp, hp.symm, if_false]
  rcases le_total (q p.1) (q p.2) with hle | hle
  · left; rw [min_eq_left hle, sub_self, F.rnd_zero]
  · right; rw [min_eq_right hle, sub_self, F.rnd_zero]

/-- What `p2p_random` returns. -/
theorem p2pF_spec (F : Fmt) (s : Summer F) (c : ℚ) (choice : ℕ → ℕ) (df : DF) (ht : IsTable df) :
    ∃ tm R, p2pRandomF F s c choice df = .ok (tm, .p2p R) ∧
      LoopSpecF F s df (priceOf df) c (qtyOf df) (allPairs df) [] R tm.trans := by
  refine ⟨_, _, rfl, ?_⟩
  rw [TransactionManager.init_addAll_trans, valueAt_qty, valueAt_price]
  exact p2pLoopF_spec F s df (priceOf df) c choice 0 (qtyOf df) (allPairs df) [] (allPairs_nodup ht)

end PyMarket
