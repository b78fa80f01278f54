import Verif.Props.P2P
import Mathlib.Data.Finset.Card

/-! # C109: how long peer to peer trading takes -/

set_option autoImplicit false

namespace PyMarket

open Spec

/-- The meetings in which something is traded: the buyer's entry and the seller's have a positive quantity. -/
def Spec.dealEntries (ts : List Transaction) : List Transaction := ts.filter (fun t => decide (0 < t.quantity))

theorem tradedBy_take_le {ts : List Transaction} (h : ∀ t ∈ ts, 0 ≤ t.quantity) {m n : ℕ} (hmn : m ≤ n) (i : ℕ) :
    tradedBy (ts.take m) i ≤ tradedBy (ts.take n) i := by
  have e : ts.take n = ts.take m ++ (ts.drop m).take (n - m) := by
    rw [← List.take_add, Nat.add_sub_cancel' hmn]
  rw [e, tradedBy_append]
  have : 0 ≤ tradedBy ((ts.drop m).take (n - m)) i := by
    unfold tradedBy
    apply List.sum_nonneg
    intro x hx
    obtain ⟨t, ht, rfl⟩ := List.mem_map.mp hx
    exact h t (List.mem_of_mem_drop (List.mem_of_mem_take (List.mem_filter.mp ht).1))
  linarith

/-- If every list contains a hit, there are at least as many hits as lists. -/
theorem length_le_hits {α : Type} (T : α → Bool) (L : List (List α)) (h : ∀ l ∈ L, ∃ x ∈ l, T x = true) :
    L.length ≤ (L.flatten.filter T).length := by
  induction L with
  | nil => simp
  | cons l L ih =>
    obtain ⟨x, hx, hT⟩ := h l List.mem_cons_self
    have h1 := ih (fun l' hl' => h l' (List.mem_cons_of_mem _ hl'))
    have h2 : 0 < (l.filter T).length := List.length_pos_of_mem (List.mem_filter.mpr ⟨hx, hT⟩)
    rw [List.flatten_cons, List.filter_append, List.length_append, List.length_cons]
    omega

/-- If every list contains at most one hit, there are at most as many hits as lists. -/
theorem hits_le_length {α : Type} (T : α → Bool) (L : List (List α)) (h : ∀ l ∈ L, (l.filter T).length ≤ 1) :
    (L.flatten.filter T).length ≤ L.length := by
  induction L with
  | nil => simp
  | cons l L ih =>
    have h1 := ih (fun l' hl' => h l' (List.mem_cons_of_mem _ hl'))
    have h2 := h l List.mem_cons_self
    rw [List.flatten_cons, List.filter_append, List.length_append, List.length_cons]
    omega

theorem mem_side {df : DF} (ht : IsTable df) {i : ℕ} :
    (isBuy df i = true ↔ i ∈ (df.filter (fun r => r.buying)).map (fun r => r.label)) ∧
    (isSell df i = true ↔ i ∈ (df.filter (fun r => !r.buying)).map (fun r => r.label)) := by
  constructor
  · constructor
    · intro h
      cases hr : df[i]? with
      | none => simp [isBuy, hr] at h
      | some r =>
        exact List.mem_map.mpr ⟨r, List.mem_filter.mpr ⟨List.mem_of_getElem? hr, by simpa [isBuy, hr] using h⟩,
          ht.label hr⟩
    · intro h
      obtain ⟨r, hr, rfl⟩ := List.mem_map.mp h
      obtain ⟨h1, h2⟩ := List.mem_filter.mp hr
      rw [ht.isBuy_eq h1]; exact h2
  · constructor
    · intro h
      cases hr : df[i]? with
      | none => simp [isSell, hr] at h
      | some r =>
        exact List.mem_map.mpr ⟨r, List.mem_filter.mpr ⟨List.mem_of_getElem? hr, by simpa [isSell, hr] using h⟩,
          ht.label hr⟩
    · intro h
      obtain ⟨r, hr, rfl⟩ := List.mem_map.mp h
      obtain ⟨h1, h2⟩ := List.mem_filter.mp hr
      rw [ht.isSell_eq h1]; exact h2

/-- **C109 (rounds).** Whatever the random choices, trading ends after fewer rounds than there are bids. -/
theorem C109_rounds (c : ℚ) (choice : ℕ → ℕ) (df : DF) (ht : IsTable df) (hq : ∀ r ∈ df, 0 ≤ r.quantity)
    (tm : TransactionManager) (R : List (List (ℕ × ℕ))) (h : p2pRandom c choice df = .ok (tm, .p2p R)) :
    R.length ≤ df.length - 1 := by
  obtain ⟨tm', R', h', hpair, hnd, hround⟩ := C19_rounds c choice df ht hq
  obtain ⟨tm'', ex, h'', hnn, _⟩ := C20_conservation c choice df ht hq
  rw [h] at h' h''
  cases h'
  cases h''
  rcases List.eq_nil_or_concat R with rfl | ⟨pre, last, rfl⟩
  · simp
  rw [List.concat_eq_append] at *
  obtain ⟨hne, _, hleft, _⟩ := hround pre last [] rfl
  obtain ⟨p, hp⟩ := List.exists_mem_of_ne_nil _ hne
  have hfl : (pre ++ [last]).flatten = pre.flatten ++ last := by simp
  rw [hfl] at hpair hnd
  have hpp := hpair p (List.mem_append_right _ hp)
  have hnp : p ∉ pre.flatten := fun hm => (List.nodup_append.mp hnd).2.2 p hm p hp rfl
  -- the pair is open in all earlier rounds
  have hhit : ∀ rd ∈ pre, ∃ x ∈ rd, decide (x.1 = p.1 ∨ x.2 = p.2) = true := by
    intro rd hrd
    obtain ⟨a, b, rfl⟩ := List.append_of_mem hrd
    obtain ⟨k1, k2⟩ := hleft (by simp) p hp
    obtain ⟨_, _, _, hmax⟩ := hround a rd (b ++ [last]) (by simp)
    have hlen : 2 * a.flatten.length ≤ 2 * (a ++ rd :: b).flatten.length := by
      simp only [List.flatten_append, List.length_append]; omega
    obtain ⟨x, hx, hx'⟩ := hmax p.1 p.2 hpp
      (fun hm => hnp (by rw [List.flatten_append]; exact List.mem_append_left _ hm))
      (lt_of_le_of_lt (tradedBy_take_le hnn hlen _) k1) (lt_of_le_of_lt (tradedBy_take_le hnn hlen _) k2)
    exact ⟨x, hx, by simpa using hx'⟩
  have hlen := length_le_hits _ pre hhit
  -- how many pairs share a bid with it
  set B := (df.filter (fun r => r.buying)).map (fun r => r.label) with hB
  set S := (df.filter (fun r => !r.buying)).map (fun r => r.label) with hS
  have hsub : ((pre.flatten.filter (fun x => decide (x.1 = p.1 ∨ x.2 = p.2))).Subperm
      ((B.erase p.1).map (fun b => (b, p.2)) ++ (S.erase p.2).map (fun s => (p.1, s)))) := by
    apply List.Nodup.subperm ((List.nodup_append.mp hnd).1.filter _)
    intro x hx
    obtain ⟨hx1, hx2⟩ := List.mem_filter.mp hx
    have hxp := hpair x (List.mem_append_left _ hx1)
    have hxne : x ≠ p := fun he => hnp (he ▸ hx1)
    rcases (by simpa using hx2 : x.1 = p.1 ∨ x.2 = p.2) with he | he
    · apply List.mem_append_right
      refine List.mem_map.mpr ⟨x.2, ?_, by rw [← he]⟩
      exact (List.mem_erase_of_ne (fun h2 => hxne (Prod.ext he h2))).mpr ((mem_side ht).2.mp hxp.2)
    · apply List.mem_append_left
      refine List.mem_map.mpr ⟨x.1, ?_, by rw [← he]⟩
      exact (List.mem_erase_of_ne (fun h2 => hxne (Prod.ext h2 he))).mpr ((mem_side ht).1.mp hxp.1)
  have h1 := hsub.length_le
  have m1 := (mem_side ht).1.mp hpp.1
  have m2 := (mem_side ht).2.mp hpp.2
  rw [List.length_append, List.length_map, List.length_map, List.length_erase_of_mem m1,
    List.length_erase_of_mem m2] at h1
  have p1 := List.length_pos_of_mem m1
  have p2 := List.length_pos_of_mem m2
  have hsum : B.length + S.length = df.length := by
    rw [hB, hS, List.length_map, List.length_map]
    exact (List.length_eq_length_filter_add (l := df) (fun r : Row => r.buying)).symm
  have hgoal : (pre ++ [last]).length = pre.length + 1 := by simp
  rw [hgoal]
  change (List.filter (fun x => decide (x.1 = p.1 ∨ x.2 = p.2)) pre.flatten).length ≤
    B.length - 1 + (S.length - 1) at h1
  change 0 < B.length at p1
  change 0 < S.length at p2
  omega

/-- How many of the first `n` bids have something left. -/
def Spec.withRest (n : ℕ) (q : ℕ → ℚ) : ℕ := ((Finset.range n).filter (fun i => q i ≠ 0)).card

theorem tradeRound_deals {prices : ℕ → ℚ} {c : ℚ} {n : ℕ} (M : List (ℕ × ℕ)) :
    ∀ q : ℕ → ℚ, (∀ i, 0 ≤ q i) → (∀ p ∈ M, p.1 ≠ p.2 ∧ p.1 < n ∧ p.2 < n) →
      dealEntries (tradeRound prices c q M).2 = [] ∨
      (dealEntries (tradeRound prices c q M).2).length + 2 ≤ 2 * withRest n q := by
  induction M with
  | nil => intro q _ _; exact Or.inl rfl
  | cons p M ih =>
    intro q hq hM
    obtain ⟨hne, l1, l2⟩ := hM p List.mem_cons_self
    have hb := tradeOne_bounds prices c q p hne hq
    have hrec := ih (tradeOne prices c q p).1 (fun i => (hb i).1) (fun x hx => hM x (List.mem_cons_of_mem _ hx))
    simp only [tradeRound]
    unfold dealEntries at *
    rw [List.filter_append]
    have hmono : withRest n (tradeOne prices c q p).1 ≤ withRest n q := by
      unfold withRest
      apply Finset.card_le_card
      intro i hi
      rw [Finset.mem_filter] at hi ⊢
      refine ⟨hi.1, fun h0 => hi.2 ?_⟩
      have := hb i
      rw [h0] at this
      exact le_antisymm this.2 this.1
    by_cases hdeal : prices p.2 ≤ prices p.1 ∧ 0 < min (q p.1) (q p.2)
    · right
      obtain ⟨hpr, hmin⟩ := hdeal
      have q1 : 0 < q p.1 := lt_of_lt_of_le hmin (min_le_left _ _)
      have q2 : 0 < q p.2 := lt_of_lt_of_le hmin (min_le_right _ _)
      have hlen : ((tradeOne prices c q p).2.filter (fun t => decide (0 < t.quantity))).length = 2 := by
        rw [tradeOne_entries, if_pos hpr]
        simp [q1, q2]
      have m1 : p.1 ∈ (Finset.range n).filter (fun i => q i ≠ 0) :=
        Finset.mem_filter.mpr ⟨Finset.mem_range.mpr l1, q1.ne'⟩
      have m2 : p.2 ∈ (Finset.range n).filter (fun i => q i ≠ 0) :=
        Finset.mem_filter.mpr ⟨Finset.mem_range.mpr l2, q2.ne'⟩
      have htwo : 2 ≤ withRest n q := by
        unfold withRest
        exact Finset.one_lt_card.mpr ⟨_, m1, _, m2, hne⟩
      have hlt : withRest n (tradeOne prices c q p).1 < withRest n q := by
        unfold withRest
        apply Finset.card_lt_card
        rw [Finset.ssubset_iff_of_subset]
        · rcases tradeOne_exhausts prices c q p hne hpr with hz | hz
          · exact ⟨_, m1, fun hm => (Finset.mem_filter.mp hm).2 hz⟩
          · exact ⟨_, m2, fun hm => (Finset.mem_filter.mp hm).2 hz⟩
        · intro i hi
          rw [Finset.mem_filter] at hi ⊢
          refine ⟨hi.1, fun h0 => hi.2 ?_⟩
          have := hb i
          rw [h0] at this
          exact le_antisymm this.2 this.1
      rw [List.length_append, hlen]
      rcases hrec with h0 | h0
      · rw [h0]; simp only [List.length_nil]; omega
      · omega
    · have hnil : (tradeOne prices c q p).2.filter (fun t => decide (0 < t.quantity)) = [] := by
        rw [tradeOne_entries]
        split_ifs with hpr
        · have hn : ¬ 0 < min (q p.1) (q p.2) := fun h0 => hdeal ⟨hpr, h0⟩
          simp only [List.filter_cons, hn, decide_false, List.filter_nil]
          rfl
        · simp
      rw [hnil, List.nil_append]
      rcases hrec with h0 | h0
      · exact Or.inl h0
      · exact Or.inr (by omega)

/-- **C109 (deals).** However many meetings there are, fewer exchanges take place than there are bids: of the two
log entries per meeting at most `2 * (n - 1)` have a positive quantity. -/
theorem C109_deals (c : ℚ) (choice : ℕ → ℕ) (df : DF) (ht : IsTable df) (hq : ∀ r ∈ df, 0 ≤ r.quantity)
    (tm : TransactionManager) (R : List (List (ℕ × ℕ))) (h : p2pRandom c choice df = .ok (tm, .p2p R)) :
    (dealEntries tm.trans).length ≤ 2 * (df.length - 1) := by
  obtain ⟨tm', R', h', hR⟩ := p2p_run c choice df ht
  rw [h] at h'
  cases h'
  have hlt : ∀ i, (isBuy df i = true ∨ isSell df i = true) → i < df.length := by
    intro i hi
    by_contra hge
    rw [not_lt] at hge
    simp [isBuy, isSell, List.getElem?_eq_none hge] at hi
  have := tradeRound_deals (prices := priceOf df) (c := c) (n := df.length) R.flatten (qtyOf df) (qtyOf_nonneg hq)
    (fun p hp => ⟨hR.ne p hp, hlt _ (Or.inl (hR.pair p hp).1), hlt _ (Or.inr (hR.pair p hp).2)⟩)
  rw [← hR.loop.trans] at this
  have hcard : withRest df.length (qtyOf df) ≤ df.length := by
    unfold withRest
    exact (Finset.card_filter_le _ _).trans (by simp)
  rcases this with h0 | h0
  · rw [h0]; simp
  · omega

/-- **C109 (no deals).** When no two bids have compatible prices and all offer something, every buyer still meets
every seller once: the log has `2 * #buyers * #sellers` entries, all of quantity 0, and there are at least as many
rounds as sellers and as buyers, if there are both. -/
theorem C109_no_deals (c : ℚ) (choice : ℕ → ℕ) (df : DF) (ht : IsTable df) (hq : ∀ r ∈ df, 0 < r.quantity)
    (hno : ∀ b s, IsPair df b s → priceOf df b < priceOf df s)
    (tm : TransactionManager) (R : List (List (ℕ × ℕ))) (h : p2pRandom c choice df = .ok (tm, .p2p R)) :
    (∀ b s, IsPair df b s → (b, s) ∈ R.flatten) ∧
    tm.trans.length = 2 * ((df.filter (fun r => r.buying)).length * (df.filter (fun r => !r.buying)).length) ∧
    (∀ t ∈ tm.trans, t.quantity = 0) ∧
    (∀ b, isBuy df b = true → (df.filter (fun r => !r.buying)).length ≤ R.length) ∧
    ∀ s, isSell df s = true → (df.filter (fun r => r.buying)).length ≤ R.length := by
  have hq0 : ∀ r ∈ df, 0 ≤ r.quantity := fun r hr => (hq r hr).le
  obtain ⟨tm1, R1, h1, hpair, hnd, hround⟩ := C19_rounds c choice df ht hq0
  obtain ⟨tm2, R2, h2, hlog, _⟩ := C23_log c choice df ht hq
  obtain ⟨tm3, R3, h3, hR⟩ := p2p_run c choice df ht
  rw [h] at h1 h2 h3
  cases h1
  cases h2
  cases h3
  have hstay : ∀ (M : List (ℕ × ℕ)) (q : ℕ → ℚ), (∀ p ∈ M, IsPair df p.1 p.2) →
      (tradeRound (priceOf df) c q M).1 = q ∧ ∀ t ∈ (tradeRound (priceOf df) c q M).2, t.quantity = 0 := by
    intro M
    induction M with
    | nil => intro q _; exact ⟨rfl, fun t h => by cases h⟩
    | cons p M ih =>
      intro q hM
      have hp := hno _ _ (hM p List.mem_cons_self)
      have e1 : (tradeOne (priceOf df) c q p).1 = q := by
        unfold tradeOne
        simp only [not_le.mpr hp, if_false]
      simp only [tradeRound]
      rw [e1]
      obtain ⟨i1, i2⟩ := ih q (fun x hx => hM x (List.mem_cons_of_mem _ hx))
      refine ⟨i1, ?_⟩
      intro t htm
      rcases List.mem_append.mp htm with h' | h'
      · rw [tradeOne_entries, if_neg (not_le.mpr hp)] at h'
        rcases List.mem_cons.mp h' with rfl | h'
        · rfl
        · rcases List.mem_cons.mp h' with rfl | h'
          · rfl
          · cases h'
      · exact i2 t h'
  obtain ⟨hst, hz⟩ := hstay R.flatten (qtyOf df) hpair
  have hmeet : ∀ b s, IsPair df b s → (b, s) ∈ R.flatten := by
    intro b s hbs
    by_contra hnm
    have hmem := (mem_allPairs_iff ht).mpr hbs
    have hqpos : ∀ r ∈ df, 0 < qtyOf df r.label := fun r hr => by rw [ht.qty_eq hr]; exact hq r hr
    rcases hR.loop.final with hf | hf
    · rw [hst] at hf
      obtain ⟨rb, hb, _, _, _, _, _⟩ := mem_allPairs.mp hmem
      have hle := List.single_le_sum (l := df.map (fun r => qtyOf df r.label)) (by
        intro x hx
        obtain ⟨r, hr, rfl⟩ := List.mem_map.mp hx
        exact (hqpos r hr).le) _ (List.mem_map_of_mem (f := fun r : Row => qtyOf df r.label) hb)
      have := hqpos rb hb
      linarith
    · obtain ⟨i, hi, _⟩ := hf (b, s) hmem hnm
      split_ifs at hi with h0
      · cases hi
      · rw [hst] at hi
        obtain ⟨⟨r, hr, rfl⟩, h00⟩ := mem_exhausted.mp hi
        exact (hqpos r hr).ne' h00
  have hperm : R.flatten.Perm (allPairs df) := by
    refine (List.perm_ext_iff_of_nodup hnd (allPairs_nodup ht)).mpr ?_
    rintro ⟨b, s⟩
    rw [mem_allPairs_iff ht]
    exact ⟨fun hm => hpair _ hm, hmeet b s⟩
  have hone : ∀ (T : ℕ × ℕ → Bool), (∀ x y : ℕ × ℕ, T x = true → T y = true → x.1 = y.1 ∨ x.2 = y.2) →
      ∀ rd ∈ R, (rd.filter T).length ≤ 1 := by
    intro T hT rd hrd
    obtain ⟨a, b, rfl⟩ := List.append_of_mem hrd
    obtain ⟨_, hap, _⟩ := hround a rd b rfl
    have hap' := hap.filter T
    by_contra hgt
    rw [not_le] at hgt
    match hl : rd.filter T with
    | [] => rw [hl] at hgt; simp at hgt
    | [x] => rw [hl] at hgt; simp at hgt
    | x :: y :: l =>
      rw [hl] at hap'
      have hxy := (List.pairwise_cons.mp hap').1 y List.mem_cons_self
      have hx := (List.mem_filter.mp (hl ▸ List.mem_cons_self : x ∈ rd.filter T)).2
      have hy := (List.mem_filter.mp (hl ▸ List.mem_cons_of_mem _ List.mem_cons_self : y ∈ rd.filter T)).2
      rcases hT x y hx hy with he | he
      · exact hxy.1 he
      · exact hxy.2 he
  refine ⟨hmeet, ?_, ?_, ?_, ?_⟩
  · rw [hlog, hperm.length_eq, allPairs_length]
    rfl
  · rw [hR.loop.trans]; exact hz
  · intro b hb
    have h1 := hits_le_length (fun x : ℕ × ℕ => decide (x.1 = b)) R
      (hone _ (fun x y hx hy => Or.inl (by rw [of_decide_eq_true hx, of_decide_eq_true hy])))
    have h2 : ((df.filter (fun r => !r.buying)).map (fun r => (b, r.label))).Subperm
        (R.flatten.filter (fun x : ℕ × ℕ => decide (x.1 = b))) := by
      apply List.Nodup.subperm
      · have hs := (ht.nodup.sublist ((List.filter_sublist (l := df)
          (p := fun r : Row => !r.buying)).map (fun r => r.label)))
        rw [show (fun r : Row => (b, r.label)) = (fun i => (b, i)) ∘ (fun r : Row => r.label) from rfl, ← List.map_map]
        exact hs.map (fun x y hxy => (Prod.mk.inj hxy).2)
      · intro x hx
        obtain ⟨r, hr, rfl⟩ := List.mem_map.mp hx
        exact List.mem_filter.mpr ⟨hmeet b r.label ⟨hb, (mem_side ht).2.mpr (List.mem_map_of_mem hr)⟩, by simp⟩
    have h3 := h2.length_le
    rw [List.length_map] at h3
    omega
  · intro s hs'
    have h1 := hits_le_length (fun x : ℕ × ℕ => decide (x.2 = s)) R
      (hone _ (fun x y hx hy => Or.inr (by rw [of_decide_eq_true hx, of_decide_eq_true hy])))
    have h2 : ((df.filter (fun r => r.buying)).map (fun r => (r.label, s))).Subperm
        (R.flatten.filter (fun x : ℕ × ℕ => decide (x.2 = s))) := by
      apply List.Nodup.subperm
      · have hs := (ht.nodup.sublist ((List.filter_sublist (l := df)
          (p := fun r : Row => r.buying)).map (fun r => r.label)))
        rw [show (fun r : Row => (r.label, s)) = (fun i => (i, s)) ∘ (fun r : Row => r.label) from rfl, ← List.map_map]
        exact hs.map (fun x y hxy => (Prod.mk.inj hxy).1)
      · intro x hx
        obtain ⟨r, hr, rfl⟩ := List.mem_map.mp hx
        exact List.mem_filter.mpr ⟨hmeet r.label s ⟨(mem_side ht).1.mpr (List.mem_map_of_mem hr), hs'⟩, by simp⟩
    have h3 := h2.length_le
    rw [List.length_map] at h3
    omega

/-- Three buyers and three sellers that cannot trade. -/
def strangers : DF := labelFrom 0
  [⟨1, 1, 0, true, 0, true⟩, ⟨1, 2, 1, true, 0, true⟩, ⟨1, 3, 2, true, 0, true⟩,
   ⟨1, 4, 3, false, 0, true⟩, ⟨1, 5, 4, false, 0, true⟩, ⟨1, 6, 5, false, 0, true⟩]

/-- The hypotheses of `C109_no_deals` hold; drawing position `n` in the `n`-th draw takes three rounds, the least
possible number, always drawing the first open pair takes four. -/
example : IsTable strangers ∧ (∀ r ∈ strangers, 0 < r.quantity) ∧
    (∀ b ∈ strangers, ∀ s ∈ strangers, b.buying = true → s.buying = false → b.price < s.price) ∧
    (∃ tm R, p2pRandom (1 / 2) (fun _ => 0) strangers = .ok (tm, .p2p R) ∧ R.length = 4) ∧
    (∃ tm R, p2pRandom (1 / 2) (fun n => n) strangers = .ok (tm, .p2p R) ∧ R.length = 3) := by
  refine ⟨by decide +kernel, by decide +kernel, by decide +kernel, ⟨_, _, rfl, by decide +kernel⟩,
    ⟨_, _, rfl, by decide +kernel⟩⟩

/-- Two buyers and two sellers of quantities 3, 2, 4, 1. -/
def staircase : DF := labelFrom 0
  [⟨3, 9, 0, true, 0, true⟩, ⟨2, 8, 1, true, 0, true⟩, ⟨4, 1, 2, false, 0, true⟩, ⟨1, 2, 3, false, 0, true⟩]

/-- `C109_deals` is attained: four bids and three exchanges, that is six entries. -/
example : IsTable staircase ∧ (∀ r ∈ staircase, 0 ≤ r.quantity) ∧
    ∃ tm R, p2pRandom (1 / 2) (fun _ => 0) staircase = .ok (tm, .p2p R) ∧
      (dealEntries tm.trans).length = 2 * (staircase.length - 1) :=
  ⟨by decide +kernel, by decide +kernel, _, _, rfl, by decide +kernel⟩

end PyMarket
