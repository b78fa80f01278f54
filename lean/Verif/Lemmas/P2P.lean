import Verif.Lemmas.Lift
import Mathlib.Tactic.Ring

/-! # Lemmas about `p2p_random` -/

set_option autoImplicit false

namespace PyMarket

open Spec

/-- The pairs share a bid. -/
def Touch (p p' : ℕ × ℕ) : Prop := p.1 = p'.1 ∨ p.1 = p'.2 ∨ p.2 = p'.1 ∨ p.2 = p'.2

theorem pairFree_iff {i : ℕ} {p : ℕ × ℕ} : pairFree i p = true ↔ p.1 ≠ i ∧ p.2 ≠ i := by
  simp [pairFree]

theorem mem_maskTrade {trade p : ℕ × ℕ} {tmp : List (ℕ × ℕ)} :
    p ∈ maskTrade trade tmp ↔ p ∈ tmp ∧ ¬ Touch p trade := by
  unfold maskTrade Touch
  rw [List.mem_filter, List.mem_filter, pairFree_iff, pairFree_iff]
  tauto

theorem mem_maskOut {active : List (ℕ × ℕ)} {inactive : List ℕ} {p : ℕ × ℕ} :
    p ∈ maskOut active inactive ↔ p ∈ active ∧ ∀ i ∈ inactive, p.1 ≠ i ∧ p.2 ≠ i := by
  unfold maskOut
  induction inactive generalizing active with
  | nil => simp
  | cons i is ih =>
    rw [List.foldl_cons, ih, List.mem_filter, pairFree_iff]
    simp only [List.mem_cons, forall_eq_or_imp]
    tauto

/-- The round drawn by the inner loop. -/
structure RoundSpec (active tmp active' round : List (ℕ × ℕ)) : Prop where
  subset : ∀ p ∈ round, p ∈ tmp
  disjoint : round.Pairwise (fun p p' => ¬ Touch p' p)
  maximal : ∀ p ∈ tmp, ∃ p' ∈ round, Touch p p'
  nodup : active'.Nodup
  mem : ∀ p, p ∈ active' ↔ p ∈ active ∧ p ∉ round

theorem touch_refl (p : ℕ × ℕ) : Touch p p := Or.inl rfl

theorem meetLoop_spec (choice : ℕ → ℕ) (n : ℕ) (active tmp : List (ℕ × ℕ)) (hn : active.Nodup) :
    RoundSpec active tmp (meetLoop choice n active tmp).2.1 (meetLoop choice n active tmp).2.2 := by
  fun_induction meetLoop choice n active tmp with
  | case1 n active tmp h =>
    have : tmp = [] := by
      by_contra hne
      rw [List.getElem?_eq_none_iff] at h
      have : 0 < tmp.length := List.length_pos_of_ne_nil hne
      exact absurd (Nat.mod_lt (choice n) this) (by omega)
    subst this
    exact ⟨by simp, by simp, by simp, hn, by simp⟩
  | case2 n active tmp trade h r ih =>
    have hmem : trade ∈ tmp := List.mem_of_getElem? h
    have hs := ih (hn.erase trade)
    refine ⟨?_, ?_, ?_, hs.nodup, ?_⟩
    · intro p hp
      rcases List.mem_cons.mp hp with rfl | hp
      · exact hmem
      · exact (mem_maskTrade.mp (hs.subset p hp)).1
    · rw [List.pairwise_cons]
      exact ⟨fun p hp => (mem_maskTrade.mp (hs.subset p hp)).2, hs.disjoint⟩
    · intro p hp
      by_cases ht : Touch p trade
      · exact ⟨trade, List.mem_cons_self, ht⟩
      · obtain ⟨p', hp', hpt⟩ := hs.maximal p (mem_maskTrade.mpr ⟨hp, ht⟩)
        exact ⟨p', List.mem_cons_of_mem _ hp', hpt⟩
    · intro p
      rw [hs.mem, hn.mem_erase_iff, List.mem_cons]
      tauto

theorem tradeRound_append (prices : ℕ → ℚ) (c : ℚ) (q : ℕ → ℚ) (A B : List (ℕ × ℕ)) :
    tradeRound prices c q (A ++ B) =
      ((tradeRound prices c (tradeRound prices c q A).1 B).1,
        (tradeRound prices c q A).2 ++ (tradeRound prices c (tradeRound prices c q A).1 B).2) := by
  induction A generalizing q with
  | nil => simp [tradeRound]
  | cons p A ih => simp only [List.cons_append, tradeRound, ih, List.append_assoc]

theorem tradeOne_length (prices : ℕ → ℚ) (c : ℚ) (q : ℕ → ℚ) (p : ℕ × ℕ) :
    (tradeOne prices c q p).2.length = 2 := by
  unfold tradeOne
  simp only
  split_ifs <;> rfl

theorem tradeRound_length (prices : ℕ → ℚ) (c : ℚ) (q : ℕ → ℚ) (M : List (ℕ × ℕ)) :
    (tradeRound prices c q M).2.length = 2 * M.length := by
  induction M generalizing q with
  | nil => rfl
  | cons p M ih =>
    simp only [tradeRound, List.length_append, tradeOne_length, ih, List.length_cons]
    ring

theorem tradedBy_nil (i : ℕ) : tradedBy [] i = 0 := rfl

/-- One meeting subtracts what is logged. -/
theorem tradeOne_qty (prices : ℕ → ℚ) (c : ℚ) (q : ℕ → ℚ) (p : ℕ × ℕ) (hp : p.1 ≠ p.2) (i : ℕ) :
    (tradeOne prices c q p).1 i = q i - tradedBy (tradeOne prices c q p).2 i := by
  unfold tradeOne tradedBy
  simp only
  split_ifs with h
  · simp only [setQ]
    by_cases h1 : i = p.1
    · subst h1
      have h2 : p.2 ≠ p.1 := hp.symm
      simp [hp, h2]
    · by_cases h2 : i = p.2
      · subst h2
        simp [hp, h1]
      · simp [h1, h2, Ne.symm h1, Ne.symm h2]
  · by_cases h1 : p.1 = i <;> by_cases h2 : p.2 = i <;> simp [h1, h2]

theorem tradeRound_qty (prices : ℕ → ℚ) (c : ℚ) (q : ℕ → ℚ) (M : List (ℕ × ℕ))
    (hM : ∀ p ∈ M, p.1 ≠ p.2) (i : ℕ) :
    (tradeRound prices c q M).1 i = q i - tradedBy (tradeRound prices c q M).2 i := by
  induction M generalizing q with
  | nil => simp [tradeRound, tradedBy]
  | cons p M ih =>
    simp only [tradeRound]
    rw [ih _ (fun p' hp' => hM p' (List.mem_cons_of_mem _ hp')), tradedBy_append,
      tradeOne_qty _ _ _ _ (hM p List.mem_cons_self)]
    ring

/-- One meeting keeps quantities non-negative and never increases them. -/
theorem tradeOne_bounds (prices : ℕ → ℚ) (c : ℚ) (q : ℕ → ℚ) (p : ℕ × ℕ) (hp : p.1 ≠ p.2)
    (hq : ∀ i, 0 ≤ q i) (i : ℕ) :
    0 ≤ (tradeOne prices c q p).1 i ∧ (tradeOne prices c q p).1 i ≤ q i := by
  unfold tradeOne
  simp only
  have hm := le_min (hq p.1) (hq p.2)
  split_ifs with h
  · simp only [setQ]
    by_cases h2 : i = p.2
    · subst h2
      simp only [if_true, hp.symm, if_false]
      exact ⟨sub_nonneg.mpr (min_le_right _ _), sub_le_self _ hm⟩
    · by_cases h1 : i = p.1
      · subst h1
        simp only [if_true, hp, if_false]
        exact ⟨sub_nonneg.mpr (min_le_left _ _), sub_le_self _ hm⟩
      · simp only [h1, h2, if_false]
        exact ⟨hq i, le_refl _⟩
  · exact ⟨hq i, le_refl _⟩

theorem tradeRound_bounds (prices : ℕ → ℚ) (c : ℚ) (q : ℕ → ℚ) (M : List (ℕ × ℕ))
    (hM : ∀ p ∈ M, p.1 ≠ p.2) (hq : ∀ i, 0 ≤ q i) (i : ℕ) :
    0 ≤ (tradeRound prices c q M).1 i ∧ (tradeRound prices c q M).1 i ≤ q i := by
  induction M generalizing q with
  | nil => exact ⟨hq i, le_refl _⟩
  | cons p M ih =>
    simp only [tradeRound]
    have h1 := tradeOne_bounds prices c q p (hM p List.mem_cons_self) hq
    have h2 := ih _ (fun p' hp' => hM p' (List.mem_cons_of_mem _ hp')) (fun j => (h1 j).1)
    exact ⟨h2.1, h2.2.trans (h1 i).2⟩

/-- The two entries of one meeting. -/
theorem tradeOne_entries (prices : ℕ → ℚ) (c : ℚ) (q : ℕ → ℚ) (p : ℕ × ℕ) :
    (tradeOne prices c q p).2 =
      if prices p.2 ≤ prices p.1 then
        [⟨p.1, min (q p.1) (q p.2), prices p.1 * c + (1 - c) * prices p.2, (p.2 : ℤ),
            decide (0 < q p.1 - min (q p.1) (q p.2))⟩,
         ⟨p.2, min (q p.1) (q p.2), prices p.1 * c + (1 - c) * prices p.2, (p.1 : ℤ),
            decide (0 < q p.2 - min (q p.1) (q p.2))⟩]
      else [⟨p.1, 0, 0, (p.2 : ℤ), true⟩, ⟨p.2, 0, 0, (p.1 : ℤ), true⟩] := by
  unfold tradeOne
  simp only
  split_ifs <;> rfl

/-- After a compatible meeting one of the two is exhausted. -/
theorem tradeOne_exhausts (prices : ℕ → ℚ) (c : ℚ) (q : ℕ → ℚ) (p : ℕ × ℕ) (hp : p.1 ≠ p.2)
    (h : prices p.2 ≤ prices p.1) :
    (tradeOne prices c q p).1 p.1 = 0 ∨ (tradeOne prices c q p).1 p.2 = 0 := by
  unfold tradeOne
  simp only [h, if_true, setQ, hp, hp.symm, if_false]
  rcases le_total (q p.1) (q p.2) with hle | hle
  · left; rw [min_eq_left hle, sub_self]
  · right; rw [min_eq_right hle, sub_self]

/-- The trading history produced by the outer loop. `mask pre` are the bids masked out before the
round following the rounds `pre`. -/
structure LoopSpec (bids : DF) (prices : ℕ → ℚ) (c : ℚ) (q : ℕ → ℚ) (active : List (ℕ × ℕ))
    (inactive : List ℕ) (R : List (List (ℕ × ℕ))) (T : List Transaction) : Prop where
  trans : T = (tradeRound prices c q R.flatten).2
  nodup : R.flatten.Nodup
  subset : ∀ p ∈ R.flatten, p ∈ active
  round : ∀ pre rd post, R = pre ++ rd :: post →
    rd ≠ [] ∧ rd.Pairwise (fun p p' => ¬ Touch p' p) ∧
    (∀ p ∈ rd, ∀ i ∈ (if pre = [] then inactive
        else exhausted bids (tradeRound prices c q pre.flatten).1), p.1 ≠ i ∧ p.2 ≠ i) ∧
    (∀ p ∈ active, p ∉ pre.flatten → (∀ i ∈ (if pre = [] then inactive
        else exhausted bids (tradeRound prices c q pre.flatten).1), p.1 ≠ i ∧ p.2 ≠ i) →
      ∃ p' ∈ rd, Touch p p')
  final : (bids.map (fun r => (tradeRound prices c q R.flatten).1 r.label)).sum ≤ 0 ∨
    ∀ p ∈ active, p ∉ R.flatten → ∃ i ∈ (if R = [] then inactive
        else exhausted bids (tradeRound prices c q R.flatten).1), p.1 = i ∨ p.2 = i

theorem p2pLoop_spec (bids : DF) (prices : ℕ → ℚ) (c : ℚ) (choice : ℕ → ℕ) (n : ℕ)
    (q : ℕ → ℚ) (active : List (ℕ × ℕ)) (inactive : List ℕ) (hn : active.Nodup) :
    LoopSpec bids prices c q active inactive
      (p2pLoop bids prices c choice n q active inactive).1
      (p2pLoop bids prices c choice n q active inactive).2 := by
  fun_induction p2pLoop bids prices c choice n q active inactive with
  | case1 n q active inactive tmp hcond m t rest ih =>
    have hs := meetLoop_spec choice n active tmp hn
    have hr := ih hs.nodup
    have hmne : m.2.2 ≠ [] := by
      intro h0
      obtain ⟨p, hp⟩ := List.exists_mem_of_ne_nil _ hcond.2
      obtain ⟨p', hp', _⟩ := hs.maximal p hp
      change p' ∈ m.2.2 at hp'
      rw [h0] at hp'; cases hp'
    have hdisj : ∀ p ∈ rest.1.flatten, p ∉ m.2.2 := by
      intro p hp
      exact ((hs.mem p).mp (hr.subset p hp)).2
    have hact : ∀ p ∈ m.2.2, p ∈ active := by
      intro p hp
      exact (mem_maskOut.mp (hs.subset p hp)).1
    refine ⟨?_, ?_, ?_, ?_, ?_⟩
    · simp only [List.flatten_cons, tradeRound_append]
      rw [← hr.trans]
    · rw [List.flatten_cons, List.nodup_append]
      refine ⟨?_, hr.nodup, ?_⟩
      · refine hs.disjoint.imp ?_
        intro a b hab hEq
        subst hEq
        exact hab (touch_refl _)
      · intro a ha b hb hab
        subst hab
        exact hdisj _ hb ha
    · intro p hp
      rw [List.flatten_cons, List.mem_append] at hp
      rcases hp with hp | hp
      · exact hact p hp
      · exact ((hs.mem p).mp (hr.subset p hp)).1
    · intro pre rd post heq
      cases pre with
      | nil =>
        simp only [List.nil_append, List.cons.injEq] at heq
        obtain ⟨rfl, rfl⟩ := heq
        refine ⟨hmne, hs.disjoint, ?_, ?_⟩
        · intro p hp
          rw [if_pos rfl]
          exact (mem_maskOut.mp (hs.subset p hp)).2
        · intro p hp _ hmask
          rw [if_pos rfl] at hmask
          exact hs.maximal p (mem_maskOut.mpr ⟨hp, hmask⟩)
      | cons r0 pre =>
        simp only [List.cons_append, List.cons.injEq] at heq
        obtain ⟨rfl, heq⟩ := heq
        obtain ⟨g0, g1, g2, g3⟩ := hr.round pre rd post heq
        have hmask : (if (m.2.2 :: pre) = [] then inactive else exhausted bids
            (tradeRound prices c q (m.2.2 :: pre).flatten).1) =
            (if pre = [] then exhausted bids t.1 else exhausted bids
            (tradeRound prices c t.1 pre.flatten).1) := by
          rw [if_neg (List.cons_ne_nil _ _), List.flatten_cons, tradeRound_append]
          split_ifs with h0
          · subst h0; rfl
          · rfl
        rw [hmask]
        refine ⟨g0, g1, g2, ?_⟩
        intro p hp hnp hmk
        rw [List.flatten_cons, List.mem_append, not_or] at hnp
        exact g3 p ((hs.mem p).mpr ⟨hp, hnp.1⟩) hnp.2 hmk
    · have hq : (tradeRound prices c q (m.2.2 :: rest.1).flatten).1 =
          (tradeRound prices c t.1 rest.1.flatten).1 := by
        rw [List.flatten_cons, tradeRound_append]
      simp only [hq, if_neg (List.cons_ne_nil _ _)]
      rcases hr.final with h | h
      · left; exact h
      · right
        intro p hp hnp
        rw [List.flatten_cons, List.mem_append, not_or] at hnp
        obtain ⟨i, hi, hpi⟩ := h p ((hs.mem p).mpr ⟨hp, hnp.1⟩) hnp.2
        refine ⟨i, ?_, hpi⟩
        split_ifs at hi with h0
        · rw [h0]; exact hi
        · exact hi
  | case2 n q active inactive tmp hcond =>
    refine ⟨rfl, List.nodup_nil, by simp, ?_, ?_⟩
    · intro pre rd post h
      cases pre <;> cases h
    · simp only [List.flatten_nil, tradeRound, if_true]
      by_cases hs : 0 < (bids.map (fun r => q r.label)).sum
      · right
        have h0 : tmp = [] := by
          by_contra hne; exact hcond ⟨hs, hne⟩
        intro p hp _
        have : p ∉ maskOut active inactive := by
          change p ∉ tmp
          rw [h0]; simp
        rw [mem_maskOut] at this
        push Not at this
        obtain ⟨i, hi, hpi⟩ := this hp
        refine ⟨i, hi, ?_⟩
        by_cases h1 : p.1 = i
        · exact Or.inl h1
        · exact Or.inr (hpi h1)
      · left; exact not_lt.mp hs

theorem mem_allPairs {df : DF} {p : ℕ × ℕ} : p ∈ allPairs df ↔
    ∃ b ∈ df, ∃ s ∈ df, b.buying = true ∧ s.buying = false ∧ p = (b.label, s.label) := by
  unfold allPairs
  rw [List.mem_flatMap]
  constructor
  · rintro ⟨b, hb, h⟩
    obtain ⟨s, hs, rfl⟩ := List.mem_map.mp h
    exact ⟨b, (mem_buys.mp hb).1, s, (mem_sells.mp hs).1, (mem_buys.mp hb).2, (mem_sells.mp hs).2,
      rfl⟩
  · rintro ⟨b, hb, s, hs, h1, h2, rfl⟩
    exact ⟨b, mem_buys.mpr ⟨hb, h1⟩, List.mem_map.mpr ⟨s, mem_sells.mpr ⟨hs, h2⟩, rfl⟩⟩

theorem allPairs_ne {df : DF} (ht : IsTable df) {p : ℕ × ℕ} (h : p ∈ allPairs df) : p.1 ≠ p.2 := by
  obtain ⟨b, hb, s, hs, h1, h2, rfl⟩ := mem_allPairs.mp h
  intro he
  have := ht.inj hb hs he
  rw [this, h2] at h1
  cases h1

theorem allPairs_length (df : DF) : (allPairs df).length = (buys df).length * (sells df).length := by
  unfold allPairs
  rw [List.length_flatMap]
  simp

theorem allPairs_nodup {df : DF} (ht : IsTable df) : (allPairs df).Nodup := by
  unfold allPairs
  have hb : ((buys df).map (fun r => r.label)).Nodup := ht.nodup.sublist ((buys_sublist df).map _)
  have hs : ((sells df).map (fun r => r.label)).Nodup := ht.nodup.sublist ((sells_sublist df).map _)
  rw [List.nodup_flatMap]
  constructor
  · intro b _
    have : ((sells df).map (fun s => (b.label, s.label))) =
        ((sells df).map (fun r => r.label)).map (fun j => (b.label, j)) := by
      rw [List.map_map]; rfl
    rw [this]
    exact hs.map (fun a b h => (Prod.mk.inj h).2)
  · have hb' : (buys df).Pairwise (fun a b => a.label ≠ b.label) := List.pairwise_map.mp hb
    refine hb'.imp ?_
    intro a b hab p hp hp'
    obtain ⟨s, _, rfl⟩ := List.mem_map.mp hp
    obtain ⟨s', _, h⟩ := List.mem_map.mp hp'
    exact hab (Prod.mk.inj h).1.symm

theorem valueAt_qty (df : DF) : valueAt df (fun r => r.quantity) = qtyOf df := rfl
theorem valueAt_price (df : DF) : valueAt df (fun r => r.price) = priceOf df := rfl

theorem qtyOf_nonneg {df : DF} (h : ∀ r ∈ df, 0 ≤ r.quantity) (i : ℕ) : 0 ≤ qtyOf df i := by
  unfold qtyOf
  cases hi : df[i]? with
  | none => exact le_refl _
  | some r => exact h r (List.mem_of_getElem? hi)

/-- What `p2p_random` returns. -/
theorem p2p_spec (c : ℚ) (choice : ℕ → ℕ) (df : DF) (ht : IsTable df) :
    ∃ tm R, p2pRandom c choice df = .ok (tm, .p2p R) ∧
      LoopSpec df (priceOf df) c (qtyOf df) (allPairs df) [] R tm.trans := by
  refine ⟨_, _, rfl, ?_⟩
  rw [TransactionManager.init_addAll_trans, valueAt_qty, valueAt_price]
  exact p2pLoop_spec df (priceOf df) c choice 0 (qtyOf df) (allPairs df) [] (allPairs_nodup ht)

theorem mem_exhausted {df : DF} {q : ℕ → ℚ} {i : ℕ} :
    i ∈ exhausted df q ↔ (∃ r ∈ df, r.label = i) ∧ q i = 0 := by
  unfold exhausted
  rw [List.mem_append, List.mem_filter, List.mem_filter, List.mem_map, List.mem_map]
  simp only [decide_eq_true_eq]
  constructor
  · rintro (⟨⟨r, hr, rfl⟩, h⟩ | ⟨⟨r, hr, rfl⟩, h⟩)
    · exact ⟨⟨r, (mem_buys.mp hr).1, rfl⟩, h⟩
    · exact ⟨⟨r, (mem_sells.mp hr).1, rfl⟩, h⟩
  · rintro ⟨⟨r, hr, rfl⟩, h⟩
    cases hb : r.buying with
    | true => exact Or.inl ⟨⟨r, mem_buys.mpr ⟨hr, hb⟩, rfl⟩, h⟩
    | false => exact Or.inr ⟨⟨r, mem_sells.mpr ⟨hr, hb⟩, rfl⟩, h⟩

end PyMarket
