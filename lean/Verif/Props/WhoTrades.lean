import Verif.Lemmas.P2PExec
import Verif.Spec.Graph

/-! # C113: who can trade with whom in `p2p_random` -/

set_option autoImplicit false

namespace PyMarket

open Spec

/-- A transaction of positive quantity belongs to a compatible meeting of two bids that had something
left. -/
theorem tradeRound_positive {df : DF} {c : ℚ} {q : ℕ → ℚ} {M : List (ℕ × ℕ)} (hM : ∀ p ∈ M, p.1 ≠ p.2)
    (hq : ∀ i, 0 ≤ q i) : ∀ t ∈ (tradeRound (priceOf df) c q M).2, 0 < t.quantity → ∃ p ∈ M,
      ((t.bid = p.1 ∧ t.source = (p.2 : ℤ)) ∨ (t.bid = p.2 ∧ t.source = (p.1 : ℤ))) ∧
      priceOf df p.2 ≤ priceOf df p.1 ∧ 0 < q p.1 ∧ 0 < q p.2 := by
  induction M generalizing q with
  | nil => intro t ht; cases ht
  | cons p M ih =>
    intro t ht h0
    simp only [tradeRound] at ht
    rcases List.mem_append.mp ht with h | h
    · refine ⟨p, List.mem_cons_self, ?_⟩
      rw [tradeOne_entries] at h
      split_ifs at h with hc
      · simp only [List.mem_cons, List.not_mem_nil, or_false] at h
        rcases h with rfl | rfl
        · exact ⟨Or.inl ⟨rfl, rfl⟩, hc, lt_min_iff.mp h0⟩
        · exact ⟨Or.inr ⟨rfl, rfl⟩, hc, lt_min_iff.mp h0⟩
      · simp only [List.mem_cons, List.not_mem_nil, or_false] at h
        rcases h with rfl | rfl <;> exact absurd h0 (lt_irrefl 0)
    · have hb := tradeOne_bounds (priceOf df) c q p (hM p List.mem_cons_self) hq
      obtain ⟨p', hp', h1, h2, h3, h4⟩ := ih (fun p' hp' => hM p' (List.mem_cons_of_mem _ hp'))
        (fun i => (hb i).1) t h h0
      exact ⟨p', List.mem_cons_of_mem _ hp', h1, h2, h3.trans_le (hb _).2, h4.trans_le (hb _).2⟩

/-- **C113, bids.** A buying bid `b` and a selling bid `s` trade with each other for some schedule exactly
if both quantities are positive and the seller asks no more than the buyer offers. -/
theorem C113_bids (c : ℚ) (df : DF) (ht : IsTable df) (hq : ∀ r ∈ df, 0 ≤ r.quantity) (b s : ℕ)
    (hbs : IsPair df b s) :
    (∃ choice tm ex, p2pRandom c choice df = .ok (tm, ex) ∧
      ∃ t ∈ tm.trans, t.bid = b ∧ t.source = (s : ℤ) ∧ 0 < t.quantity) ↔
      priceOf df s ≤ priceOf df b ∧ 0 < qtyOf df b ∧ 0 < qtyOf df s := by
  constructor
  · rintro ⟨choice, tm, ex, h, t, htm, h1, h2, h3⟩
    obtain ⟨tm', R, h', hR⟩ := p2p_run c choice df ht
    rw [h] at h'
    cases h'
    rw [hR.loop.trans] at htm
    obtain ⟨p, hp, hor, hle, hp1, hp2⟩ := tradeRound_positive hR.ne (qtyOf_nonneg hq) t htm h3
    rcases hor with ⟨e1, e2⟩ | ⟨e1, e2⟩
    · rw [h1] at e1
      rw [h2] at e2
      have e2 : s = p.2 := by exact_mod_cast e2
      rw [e1, e2]
      exact ⟨hle, hp1, hp2⟩
    · exfalso
      have hp := hR.pair p hp
      rw [h1] at e1
      rw [← e1] at hp
      exact isPair_ne ⟨hbs.1, hp.2⟩ rfl
  · rintro ⟨hle, hb, hs⟩
    have hmem := (mem_allPairs_iff ht).mpr hbs
    obtain ⟨k, hk, hk'⟩ := List.getElem_of_mem hmem
    obtain ⟨tm, R, h, hR⟩ := p2p_run c (fun _ => k) df ht
    have hidx := (p2pRandom_iff c _ df R).mp ⟨tm, h⟩
    have hsum : 0 < (df.map (fun r => qtyOf df r.label)).sum := by
      have e : (df.map (fun r => qtyOf df r.label)).sum = (df.map (fun r => r.quantity)).sum := by
        congr 1
        exact List.map_congr_left (fun r hr => ht.qty_eq hr)
      rw [e]
      unfold qtyOf at hb
      cases hr : df[b]? with
      | none => rw [hr] at hb; exact absurd hb (lt_irrefl 0)
      | some r =>
        rw [hr] at hb
        have h1 := List.single_le_sum (l := df.map (fun r => r.quantity))
          (by simpa using hq) r.quantity (List.mem_map_of_mem (List.mem_of_getElem? hr))
        exact lt_of_lt_of_le hb h1
    have hmask : maskOut (allPairs df) [] = allPairs df := rfl
    cases R with
    | nil =>
      rw [LoopIdx, hmask] at hidx
      exact absurd ⟨hsum, List.ne_nil_of_mem hmem⟩ hidx
    | cons rd R =>
      rw [LoopIdx, hmask] at hidx
      obtain ⟨⟨-, hne⟩, hrd, -⟩ := hidx
      cases rd with
      | nil => rw [RoundIdx] at hrd; exact absurd hrd hne
      | cons p rd =>
        rw [RoundIdx] at hrd
        have hp : p = (b, s) := by
          have := hrd.1
          rw [Nat.mod_eq_of_lt hk, List.getElem?_eq_getElem hk, hk'] at this
          exact (Option.some.inj this).symm
        subst hp
        refine ⟨_, tm, _, h, ⟨b, min (qtyOf df b) (qtyOf df s),
          priceOf df b * c + (1 - c) * priceOf df s, (s : ℤ),
          decide (0 < qtyOf df b - min (qtyOf df b) (qtyOf df s))⟩, ?_, rfl, rfl, lt_min hb hs⟩
        rw [hR.loop.trans]
        simp only [List.flatten_cons, List.cons_append, tradeRound]
        apply List.mem_append_left
        rw [tradeOne_entries, if_pos hle]
        exact List.mem_cons_self

/-- Users `u` and `v` have bids that could be exchanged: a buying bid of one and a selling bid of the
other, of positive quantity and with compatible prices. -/
def Spec.CanExchange (df : DF) (u v : ℤ) : Prop :=
  ∃ b ∈ df, ∃ s ∈ df, b.buying = true ∧ s.buying = false ∧ s.price ≤ b.price ∧ 0 < b.quantity ∧
    0 < s.quantity ∧ ((b.user = u ∧ s.user = v) ∨ (b.user = v ∧ s.user = u))

/-- **C113, users.** Two users, who may be the same, trade with each other for some schedule exactly if
they have compatible bids of positive quantity. -/
theorem C113_users (c : ℚ) (df : DF) (ht : IsTable df) (hq : ∀ r ∈ df, 0 ≤ r.quantity) (u v : ℤ) :
    (∃ choice tm ex, p2pRandom c choice df = .ok (tm, ex) ∧
      ∃ t ∈ tm.trans, 0 < t.quantity ∧ Between df t u v) ↔ CanExchange df u v := by
  constructor
  · rintro ⟨choice, tm, ex, h, t, htm, h0, hb0, hm⟩
    obtain ⟨tm', R, h', hR⟩ := p2p_run c choice df ht
    rw [h] at h'
    cases h'
    rw [hR.loop.trans] at htm
    obtain ⟨p, hp, hor, hle, hp1, hp2⟩ := tradeRound_positive hR.ne (qtyOf_nonneg hq) t htm h0
    obtain ⟨rb, hrb, rs, hrs, f1, f2, f3⟩ := mem_allPairs.mp (hR.loop.subset p hp)
    subst f3
    have hmeets : Meets df (rb.label, rs.label) u v := by
      rcases hor with ⟨e1, e2⟩ | ⟨e1, e2⟩
      · rw [e1, e2] at hm
        exact hm
      · rw [e1, e2] at hm
        unfold Meets at hm ⊢
        simp only [Int.toNat_natCast] at hm
        tauto
    have hu : ∀ r ∈ df, userOf df r.label = some r.user := fun r hr => by
      unfold userOf; rw [ht.get_label hr]; rfl
    refine ⟨rb, hrb, rs, hrs, f1, f2, ?_, ?_, ?_, ?_⟩
    · simpa only [ht.price_eq hrb, ht.price_eq hrs] using hle
    · simpa only [ht.qty_eq hrb] using hp1
    · simpa only [ht.qty_eq hrs] using hp2
    · unfold Meets at hmeets
      simpa only [hu rb hrb, hu rs hrs, Option.some.injEq] using hmeets
  · rintro ⟨b, hb, s, hs, f1, f2, hle, h1, h2, hor⟩
    have hpair : IsPair df b.label s.label := (mem_allPairs_iff ht).mp
      (mem_allPairs.mpr ⟨b, hb, s, hs, f1, f2, rfl⟩)
    obtain ⟨choice, tm, ex, h, t, htm, e1, e2, e3⟩ := (C113_bids c df ht hq b.label s.label hpair).mpr
      ⟨by rw [ht.price_eq hb, ht.price_eq hs]; exact hle, by rw [ht.qty_eq hb]; exact h1,
        by rw [ht.qty_eq hs]; exact h2⟩
    refine ⟨choice, tm, ex, h, t, htm, e3, by rw [e2]; exact Int.natCast_nonneg _, ?_⟩
    have hu : ∀ r ∈ df, userOf df r.label = some r.user := fun r hr => by
      unfold userOf; rw [ht.get_label hr]; rfl
    unfold Meets
    simp only [e1, e2, Int.toNat_natCast, hu b hb, hu s hs, Option.some.injEq]
    exact hor

/-- What one would expect: nobody trades with oneself. -/
def Spec.NoSelfTrade : Prop :=
  ∀ (c : ℚ) (choice : ℕ → ℕ) (df : DF), IsTable df → (∀ r ∈ df, 0 ≤ r.quantity) →
    ∀ tm ex, p2pRandom c choice df = .ok (tm, ex) →
      ∀ t ∈ tm.trans, 0 < t.quantity → ∀ u, ¬ Between df t u u

/-- User 7 is on both sides, user 8 sells cheaper. -/
def bothSides : DF := labelFrom 0
  [⟨1, 5, 7, true, 0, true⟩, ⟨1, 3, 7, false, 0, true⟩, ⟨1, 2, 8, false, 0, true⟩]

example : IsTable bothSides ∧ (∀ r ∈ bothSides, 0 ≤ r.quantity) ∧ IsPair bothSides 0 1 :=
  ⟨by decide +kernel, by decide +kernel, by decide +kernel, by decide +kernel⟩

/-- **C113, refuted.** A user with bids on both sides buys from oneself, while a cheaper seller gets
nothing. -/
theorem C113_self_refuted : ¬ NoSelfTrade := by
  intro h
  have hrun : p2pRandom (1 / 2) (fun _ => 0) bothSides = .ok
      (⟨2, [⟨0, 1, 4, 1, false⟩, ⟨1, 1, 4, 0, false⟩]⟩, .p2p [[(0, 1)]]) := by decide +kernel
  exact h _ _ _ (by decide +kernel) (by decide +kernel) _ _ hrun _ List.mem_cons_self (by decide +kernel) 7
    (by decide +kernel)

/-- **C113, partial.** Full statement: `Spec.NoSelfTrade`. Missing: it is needed, and enough, that no user
has a buying and a selling bid of positive quantity with compatible prices. -/
theorem C113_self_partial (c : ℚ) (df : DF) (ht : IsTable df) (hq : ∀ r ∈ df, 0 ≤ r.quantity) :
    (∀ choice tm ex, p2pRandom c choice df = .ok (tm, ex) →
      ∀ t ∈ tm.trans, 0 < t.quantity → ∀ u, ¬ Between df t u u) ↔
    ∀ b ∈ df, ∀ s ∈ df, b.user = s.user → b.buying = true → s.buying = false → 0 < b.quantity →
      0 < s.quantity → b.price < s.price := by
  constructor
  · intro h b hb s hs hu f1 f2 h1 h2
    by_contra hle
    obtain ⟨choice, tm, ex, hr, t, htm, h0, hbt⟩ := (C113_users c df ht hq b.user b.user).mpr
      ⟨b, hb, s, hs, f1, f2, not_lt.mp hle, h1, h2, Or.inl ⟨rfl, hu.symm⟩⟩
    exact h choice tm ex hr t htm h0 b.user hbt
  · intro h choice tm ex hr t htm h0 u hbt
    obtain ⟨b, hb, s, hs, f1, f2, hle, h1, h2, hor⟩ := (C113_users c df ht hq u u).mp
      ⟨choice, tm, ex, hr, t, htm, h0, hbt⟩
    have hu : b.user = s.user := by rcases hor with ⟨e1, e2⟩ | ⟨e1, e2⟩ <;> rw [e1, e2]
    exact absurd hle (not_le.mpr (h b hb s hs hu f1 f2 h1 h2))

/-- User 7 asks more than they offer. -/
def bothSidesApart : DF := labelFrom 0
  [⟨1, 5, 7, true, 0, true⟩, ⟨1, 6, 7, false, 0, true⟩, ⟨1, 2, 8, false, 0, true⟩]

example : IsTable bothSidesApart ∧ (∀ r ∈ bothSidesApart, 0 ≤ r.quantity) ∧
    ∀ b ∈ bothSidesApart, ∀ s ∈ bothSidesApart, b.user = s.user → b.buying = true → s.buying = false →
      0 < b.quantity → 0 < s.quantity → b.price < s.price := by decide +kernel

end PyMarket
