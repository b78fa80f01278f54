import Verif.Lemmas.P2P

/-! # C19 – C23: peer-to-peer trading -/

set_option autoImplicit false

namespace PyMarket

open Spec

/-- `b` is the id of a buying bid, `s` of a selling bid. -/
def Spec.IsPair (df : DF) (b s : ℕ) : Prop := isBuy df b = true ∧ isSell df s = true

theorem mem_allPairs_iff {df : DF} (ht : IsTable df) {b s : ℕ} :
    (b, s) ∈ allPairs df ↔ IsPair df b s := by
  rw [mem_allPairs]
  constructor
  · rintro ⟨rb, hb, rs, hs, h1, h2, h⟩
    cases h
    exact ⟨by rw [ht.isBuy_eq hb, h1], by rw [ht.isSell_eq hs, h2]; rfl⟩
  · rintro ⟨h1, h2⟩
    unfold isBuy at h1
    unfold isSell at h2
    cases hb : df[b]? with
    | none => rw [hb] at h1; cases h1
    | some rb =>
      cases hs : df[s]? with
      | none => rw [hs] at h2; cases h2
      | some rs =>
        rw [hb] at h1; rw [hs] at h2
        simp only [Option.map_some, Option.getD_some, Bool.not_eq_true'] at h1 h2
        exact ⟨rb, List.mem_of_getElem? hb, rs, List.mem_of_getElem? hs, h1, h2, by
          rw [ht.label hb, ht.label hs]⟩

theorem isPair_ne {df : DF} {b s : ℕ} (h : IsPair df b s) : b ≠ s := by
  rintro rfl
  obtain ⟨h1, h2⟩ := h
  unfold isBuy at h1
  unfold isSell at h2
  cases hb : df[b]? with
  | none => rw [hb] at h1; cases h1
  | some r =>
    rw [hb] at h1 h2
    simp only [Option.map_some, Option.getD_some, Bool.not_eq_true'] at h1 h2
    rw [h1] at h2; cases h2

theorem take_tradeRound (prices : ℕ → ℚ) (c : ℚ) (q : ℕ → ℚ) (A B : List (ℕ × ℕ)) :
    (tradeRound prices c q (A ++ B)).2.take (2 * A.length) = (tradeRound prices c q A).2 := by
  rw [tradeRound_append]
  exact List.take_left' (tradeRound_length prices c q A)

/-- The rounds of a run, with everything the properties need. -/
structure P2PRun (df : DF) (c : ℚ) (R : List (List (ℕ × ℕ))) (ts : List Transaction) : Prop where
  loop : LoopSpec df (priceOf df) c (qtyOf df) (allPairs df) [] R ts
  pair : ∀ p ∈ R.flatten, IsPair df p.1 p.2

theorem p2p_run (c : ℚ) (choice : ℕ → ℕ) (df : DF) (ht : IsTable df) :
    ∃ tm R, p2pRandom c choice df = .ok (tm, .p2p R) ∧ P2PRun df c R tm.trans := by
  obtain ⟨tm, R, h, hL⟩ := p2p_spec c choice df ht
  exact ⟨tm, R, h, hL, fun p hp => (mem_allPairs_iff ht).mp (hL.subset p hp)⟩

namespace P2PRun

variable {df : DF} {c : ℚ} {R : List (List (ℕ × ℕ))} {ts : List Transaction}

theorem ne (h : P2PRun df c R ts) : ∀ p ∈ R.flatten, p.1 ≠ p.2 := fun p hp => isPair_ne (h.pair p hp)

/-- Remaining quantities after the meetings `A`, read off the log. -/
theorem remaining (h : P2PRun df c R ts) {A B : List (ℕ × ℕ)} (hAB : R.flatten = A ++ B) (i : ℕ) :
    (tradeRound (priceOf df) c (qtyOf df) A).1 i =
      qtyOf df i - tradedBy (ts.take (2 * A.length)) i := by
  rw [h.loop.trans, hAB, take_tradeRound]
  apply tradeRound_qty
  intro p hp
  exact h.ne p (by rw [hAB]; exact List.mem_append_left _ hp)

end P2PRun

/-- **C19.** For every random schedule: all meetings are between a buying and a selling bid and no
two bids meet twice in the whole run; in each round each bid has at most one meeting; from the
second round on, only bids with remaining quantity meet; and each round is maximal: two bids that
still have quantity to trade and have not met before cannot both be idle in a round. The remaining
quantity before a round is the bid's quantity minus what the log records for it up to then. -/
theorem C19_rounds (c : ℚ) (choice : ℕ → ℕ) (df : DF) (ht : IsTable df) (hq : ∀ r ∈ df, 0 ≤ r.quantity) :
    ∃ tm R, p2pRandom c choice df = .ok (tm, .p2p R) ∧
      (∀ p ∈ R.flatten, IsPair df p.1 p.2) ∧ R.flatten.Nodup ∧
      ∀ pre rd post, R = pre ++ rd :: post →
        rd ≠ [] ∧ rd.Pairwise (fun p p' => p.1 ≠ p'.1 ∧ p.2 ≠ p'.2) ∧
        (pre ≠ [] → ∀ p ∈ rd,
          tradedBy (tm.trans.take (2 * pre.flatten.length)) p.1 < qtyOf df p.1 ∧
          tradedBy (tm.trans.take (2 * pre.flatten.length)) p.2 < qtyOf df p.2) ∧
        ∀ b s, IsPair df b s → (b, s) ∉ pre.flatten →
          tradedBy (tm.trans.take (2 * pre.flatten.length)) b < qtyOf df b →
          tradedBy (tm.trans.take (2 * pre.flatten.length)) s < qtyOf df s →
          ∃ p ∈ rd, p.1 = b ∨ p.2 = s := by
  obtain ⟨tm, R, h, hR⟩ := p2p_run c choice df ht
  refine ⟨tm, R, h, hR.pair, hR.loop.nodup, ?_⟩
  intro pre rd post heq
  obtain ⟨g0, g1, g2, g3⟩ := hR.loop.round pre rd post heq
  have hfl : R.flatten = pre.flatten ++ (rd ++ post.flatten) := by
    rw [heq]; simp
  have hrem := fun i => hR.remaining hfl i
  have hrd : ∀ p ∈ rd, IsPair df p.1 p.2 := by
    intro p hp
    apply hR.pair
    rw [hfl]
    exact List.mem_append_right _ (List.mem_append_left _ hp)
  have hbnd : ∀ i, 0 ≤ (tradeRound (priceOf df) c (qtyOf df) pre.flatten).1 i := by
    intro i
    refine (tradeRound_bounds _ _ _ _ ?_ (qtyOf_nonneg hq) i).1
    intro p hp
    exact hR.ne p (by rw [hfl]; exact List.mem_append_left _ hp)
  have hlabel : ∀ i, (isBuy df i = true ∨ isSell df i = true) → ∃ r ∈ df, r.label = i := by
    intro i hi
    cases hr : df[i]? with
    | none => simp [isBuy, isSell, hr] at hi
    | some r => exact ⟨r, List.mem_of_getElem? hr, ht.label hr⟩
  refine ⟨g0, ?_, ?_, ?_⟩
  · refine g1.imp ?_
    intro p p' hpp
    exact ⟨fun h => hpp (Or.inl h.symm), fun h => hpp (Or.inr (Or.inr (Or.inr h.symm)))⟩
  · intro hpre p hp
    have := g2 p hp
    rw [if_neg hpre] at this
    have hp' := hrd p hp
    constructor
    · have hne : (tradeRound (priceOf df) c (qtyOf df) pre.flatten).1 p.1 ≠ 0 := fun h0 =>
        (this p.1 (mem_exhausted.mpr ⟨hlabel _ (Or.inl hp'.1), h0⟩)).1 rfl
      have hpos := lt_of_le_of_ne (hbnd p.1) (Ne.symm hne)
      rw [hrem] at hpos; linarith
    · have hne : (tradeRound (priceOf df) c (qtyOf df) pre.flatten).1 p.2 ≠ 0 := fun h0 =>
        (this p.2 (mem_exhausted.mpr ⟨hlabel _ (Or.inr hp'.2), h0⟩)).2 rfl
      have hpos := lt_of_le_of_ne (hbnd p.2) (Ne.symm hne)
      rw [hrem] at hpos; linarith
  · intro b s hbs hnm hb hs
    obtain ⟨p', hp', ht'⟩ := g3 (b, s) ((mem_allPairs_iff ht).mpr hbs) hnm (by
      intro i hi
      split_ifs at hi with h0
      · cases hi
      · have := (mem_exhausted.mp hi).2
        rw [hrem] at this
        constructor
        · rintro rfl; simp only at this; linarith
        · rintro rfl; simp only at this; linarith)
    refine ⟨p', hp', ?_⟩
    have hp'' := hrd p' hp'
    rcases ht' with h | h | h | h
    · exact Or.inl h.symm
    · exfalso
      exact isPair_ne (df := df) ⟨hbs.1, hp''.2⟩ h
    · exfalso
      exact isPair_ne (df := df) ⟨hp''.1, hbs.2⟩ h.symm
    · exact Or.inr h.symm

/-- A book for this file: two buyers (bids 0 and 1), two sellers (bids 2 and 3). -/
def p2pBook : DF := labelFrom 0
  [⟨2, 3, 0, true, 0, true⟩, ⟨1, 1/2, 1, true, 0, true⟩, ⟨1, 1, 2, false, 0, true⟩,
   ⟨3, 2, 3, false, 0, true⟩]

example : IsTable p2pBook ∧ Pos p2pBook := by decide +kernel

/-- Non-vacuity for this file: a run with two rounds. In the first round bid 0 meets bid 2 and trades
its whole supply; bids 1 and 3 are incompatible. In the second round only `(0, 3)` is allowed. -/
example : p2pRandom (1/2) (fun _ => 0) p2pBook = .ok
    (⟨6, [⟨0, 1, 2, 2, true⟩, ⟨2, 1, 2, 0, false⟩, ⟨1, 0, 0, 3, true⟩, ⟨3, 0, 0, 1, true⟩,
      ⟨0, 1, 5/2, 3, false⟩, ⟨3, 1, 5/2, 0, true⟩]⟩,
     .p2p [[(0, 2), (1, 3)], [(0, 3)]]) := by decide +kernel

theorem tradeOne_nonneg {prices : ℕ → ℚ} {c : ℚ} {q : ℕ → ℚ} {p : ℕ × ℕ} (hq : ∀ i, 0 ≤ q i) :
    ∀ t ∈ (tradeOne prices c q p).2, 0 ≤ t.quantity := by
  intro t ht
  rw [tradeOne_entries] at ht
  split_ifs at ht
  · simp only [List.mem_cons, List.not_mem_nil, or_false] at ht
    rcases ht with rfl | rfl <;> exact le_min (hq _) (hq _)
  · simp only [List.mem_cons, List.not_mem_nil, or_false] at ht
    rcases ht with rfl | rfl <;> exact le_refl _

theorem tradeRound_nonneg {prices : ℕ → ℚ} {c : ℚ} {q : ℕ → ℚ} {M : List (ℕ × ℕ)}
    (hM : ∀ p ∈ M, p.1 ≠ p.2) (hq : ∀ i, 0 ≤ q i) :
    ∀ t ∈ (tradeRound prices c q M).2, 0 ≤ t.quantity := by
  induction M generalizing q with
  | nil => simp [tradeRound]
  | cons p M ih =>
    intro t ht
    simp only [tradeRound] at ht
    rcases List.mem_append.mp ht with h | h
    · exact tradeOne_nonneg hq t h
    · exact ih (fun p' hp' => hM p' (List.mem_cons_of_mem _ hp'))
        (fun j => (tradeOne_bounds prices c q p (hM p List.mem_cons_self) hq j).1) t h

theorem isPair_flags {df : DF} {b s : ℕ} (h : IsPair df b s) :
    isSell df b = false ∧ isBuy df s = false := by
  obtain ⟨h1, h2⟩ := h
  unfold isBuy at h1
  unfold isSell at h2
  constructor
  · unfold isSell
    cases hb : df[b]? with
    | none => rfl
    | some r => rw [hb] at h1; simpa using h1
  · unfold isBuy
    cases hb : df[s]? with
    | none => rfl
    | some r => rw [hb] at h2; simpa using h2

theorem tradeOne_balanced {df : DF} {prices : ℕ → ℚ} {c : ℚ} {q : ℕ → ℚ} {p : ℕ × ℕ}
    (h : IsPair df p.1 p.2) : boughtQty df (tradeOne prices c q p).2 =
      soldQty df (tradeOne prices c q p).2 := by
  obtain ⟨f1, f2⟩ := isPair_flags h
  rw [tradeOne_entries]
  unfold boughtQty soldQty
  split_ifs <;> simp [h.1, h.2, f1, f2]

theorem tradeRound_balanced {df : DF} {prices : ℕ → ℚ} {c : ℚ} {q : ℕ → ℚ} {M : List (ℕ × ℕ)}
    (h : ∀ p ∈ M, IsPair df p.1 p.2) : boughtQty df (tradeRound prices c q M).2 =
      soldQty df (tradeRound prices c q M).2 := by
  induction M generalizing q with
  | nil => rfl
  | cons p M ih =>
    simp only [tradeRound]
    rw [boughtQty_append, soldQty_append, tradeOne_balanced (h p List.mem_cons_self),
      ih (fun p' hp' => h p' (List.mem_cons_of_mem _ hp'))]

/-- **C20.** For every random schedule, after every number `k` of complete meetings (two log entries
each; `k` large gives the whole run): no bid has traded more than its quantity, and total bought
equals total sold. All logged quantities are non-negative. -/
theorem C20_conservation (c : ℚ) (choice : ℕ → ℕ) (df : DF) (ht : IsTable df) (hq : ∀ r ∈ df, 0 ≤ r.quantity) :
    ∃ tm ex, p2pRandom c choice df = .ok (tm, ex) ∧
      (∀ t ∈ tm.trans, 0 ≤ t.quantity) ∧
      (∀ i, tradedBy tm.trans i ≤ qtyOf df i) ∧ boughtQty df tm.trans = soldQty df tm.trans ∧
      ∀ k, (∀ i, tradedBy (tm.trans.take (2 * k)) i ≤ qtyOf df i) ∧
        boughtQty df (tm.trans.take (2 * k)) = soldQty df (tm.trans.take (2 * k)) := by
  obtain ⟨tm, R, h, hR⟩ := p2p_run c choice df ht
  have hk : ∀ k, (∀ i, tradedBy (tm.trans.take (2 * k)) i ≤ qtyOf df i) ∧
        boughtQty df (tm.trans.take (2 * k)) = soldQty df (tm.trans.take (2 * k)) := by
    intro k
    have hsplit := (List.take_append_drop k R.flatten).symm
    have e : tm.trans.take (2 * k) =
        (tradeRound (priceOf df) c (qtyOf df) (R.flatten.take k)).2 := by
      rw [hR.loop.trans]
      rcases le_total k R.flatten.length with hle | hle
      · conv_lhs => rw [hsplit]
        have := take_tradeRound (priceOf df) c (qtyOf df) (R.flatten.take k) (R.flatten.drop k)
        rwa [List.length_take, min_eq_left hle] at this
      · rw [List.take_of_length_le hle, List.take_of_length_le]
        rw [tradeRound_length]; omega
    have hM : ∀ p ∈ R.flatten.take k, IsPair df p.1 p.2 :=
      fun p hp => hR.pair p (List.mem_of_mem_take hp)
    rw [e]
    refine ⟨fun i => ?_, tradeRound_balanced hM⟩
    have h1 := tradeRound_qty (priceOf df) c (qtyOf df) (R.flatten.take k)
      (fun p hp => isPair_ne (hM p hp)) i
    have h2 := (tradeRound_bounds (priceOf df) c (qtyOf df) (R.flatten.take k)
      (fun p hp => isPair_ne (hM p hp)) (qtyOf_nonneg hq) i).1
    linarith
  have hall : tm.trans.take (2 * tm.trans.length) = tm.trans :=
    List.take_of_length_le (by omega)
  have hfull := hk tm.trans.length
  rw [hall] at hfull
  refine ⟨tm, _, h, ?_, hfull.1, hfull.2, hk⟩
  rw [hR.loop.trans]
  exact tradeRound_nonneg hR.ne (qtyOf_nonneg hq)

/-- What the log says about one meeting of buyer `b` and seller `s`. -/
def Spec.PriceRule (df : DF) (c : ℚ) (t : Transaction) (b s : ℕ) : Prop :=
  (priceOf df s ≤ priceOf df b → t.price = c * priceOf df b + (1 - c) * priceOf df s) ∧
  (priceOf df b < priceOf df s → t.quantity = 0 ∧ t.price = 0 ∧ t.active = true)

theorem tradeRound_priceRule {df : DF} {c : ℚ} {q : ℕ → ℚ} {M : List (ℕ × ℕ)} :
    ∀ t ∈ (tradeRound (priceOf df) c q M).2, ∃ p ∈ M,
      ((t.bid = p.1 ∧ t.source = (p.2 : ℤ)) ∨ (t.bid = p.2 ∧ t.source = (p.1 : ℤ))) ∧
      PriceRule df c t p.1 p.2 := by
  induction M generalizing q with
  | nil => intro t ht; cases ht
  | cons p M ih =>
    intro t ht
    simp only [tradeRound] at ht
    rcases List.mem_append.mp ht with h | h
    · refine ⟨p, List.mem_cons_self, ?_⟩
      rw [tradeOne_entries] at h
      split_ifs at h with hc
      · simp only [List.mem_cons, List.not_mem_nil, or_false] at h
        rcases h with rfl | rfl
        · exact ⟨Or.inl ⟨rfl, rfl⟩, fun _ => by simp only; ring,
            fun hlt => absurd hc (not_le.mpr hlt)⟩
        · exact ⟨Or.inr ⟨rfl, rfl⟩, fun _ => by simp only; ring,
            fun hlt => absurd hc (not_le.mpr hlt)⟩
      · simp only [List.mem_cons, List.not_mem_nil, or_false] at h
        rcases h with rfl | rfl
        · exact ⟨Or.inl ⟨rfl, rfl⟩, fun hle => absurd hle hc, fun _ => ⟨rfl, rfl, rfl⟩⟩
        · exact ⟨Or.inr ⟨rfl, rfl⟩, fun hle => absurd hle hc, fun _ => ⟨rfl, rfl, rfl⟩⟩
    · obtain ⟨p', hp', h'⟩ := ih t h
      exact ⟨p', List.mem_cons_of_mem _ hp', h'⟩

/-- **C21.** Every transaction names a buyer `b` and a seller `s` (one as the bid, the other as the
source) that met. If their prices are compatible the price is `p_coef·(price of b) + (1 − p_coef)·
(price of s)`; otherwise quantity and price are 0 and the bid stays active. For `0 ≤ p_coef ≤ 1`,
every transaction of positive quantity has a price between the two bid prices; for `p_coef = 1` it is
the buyer's and for `p_coef = 0` the seller's price. -/
theorem C21_price_rule (c : ℚ) (choice : ℕ → ℕ) (df : DF) (ht : IsTable df) :
    ∃ tm R, p2pRandom c choice df = .ok (tm, .p2p R) ∧
      ∀ t ∈ tm.trans, ∃ b s, (b, s) ∈ R.flatten ∧ IsPair df b s ∧
        ((t.bid = b ∧ t.source = (s : ℤ)) ∨ (t.bid = s ∧ t.source = (b : ℤ))) ∧
        PriceRule df c t b s ∧
        (t.quantity ≠ 0 → priceOf df s ≤ priceOf df b ∧
          (0 ≤ c → c ≤ 1 → priceOf df s ≤ t.price ∧ t.price ≤ priceOf df b) ∧
          (c = 1 → t.price = priceOf df b) ∧ (c = 0 → t.price = priceOf df s)) := by
  obtain ⟨tm, R, h, hR⟩ := p2p_run c choice df ht
  refine ⟨tm, R, h, ?_⟩
  intro t htm
  rw [hR.loop.trans] at htm
  obtain ⟨p, hp, hor, hrule⟩ := tradeRound_priceRule t htm
  refine ⟨p.1, p.2, hp, hR.pair p hp, hor, hrule, ?_⟩
  intro hne
  have hle : priceOf df p.2 ≤ priceOf df p.1 := by
    by_contra hlt
    exact hne (hrule.2 (not_le.mp hlt)).1
  have hpr := hrule.1 hle
  refine ⟨hle, ?_, ?_, ?_⟩
  · intro h0 h1
    rw [hpr]
    constructor
    · nlinarith
    · nlinarith
  · rintro rfl; rw [hpr]; ring
  · rintro rfl; rw [hpr]; ring

/-- **C22.** Every run halts (`p2pRandom` is a total function: the two `while` loops are well-founded
recursions) after at most `#buyers · #sellers` meetings, and then every pair with compatible prices
has a party that traded its whole quantity. -/
theorem C22_complete (c : ℚ) (choice : ℕ → ℕ) (df : DF) (ht : IsTable df) (hq : ∀ r ∈ df, 0 ≤ r.quantity) :
    ∃ tm R, p2pRandom c choice df = .ok (tm, .p2p R) ∧
      R.flatten.length ≤ (df.filter (fun r => r.buying)).length *
        (df.filter (fun r => !r.buying)).length ∧
      ∀ b s, IsPair df b s → priceOf df s ≤ priceOf df b →
        tradedBy tm.trans b = qtyOf df b ∨ tradedBy tm.trans s = qtyOf df s := by
  obtain ⟨tm, R, h, hR⟩ := p2p_run c choice df ht
  refine ⟨tm, R, h, ?_, ?_⟩
  · have h1 := (hR.loop.nodup.subperm hR.loop.subset).length_le
    rw [allPairs_length] at h1
    exact h1
  · intro b s hbs hle
    have hbnd := fun (M : List (ℕ × ℕ)) (hM : ∀ p ∈ M, p.1 ≠ p.2) =>
      tradeRound_bounds (priceOf df) c (qtyOf df) M hM (qtyOf_nonneg hq)
    have hrem : ∀ i, (tradeRound (priceOf df) c (qtyOf df) R.flatten).1 i =
        qtyOf df i - tradedBy tm.trans i := by
      intro i
      rw [hR.loop.trans]
      exact tradeRound_qty _ _ _ _ hR.ne i
    suffices hz : (tradeRound (priceOf df) c (qtyOf df) R.flatten).1 b = 0 ∨
        (tradeRound (priceOf df) c (qtyOf df) R.flatten).1 s = 0 by
      rcases hz with hz | hz
      · left; rw [hrem] at hz; linarith
      · right; rw [hrem] at hz; linarith
    by_cases hmet : (b, s) ∈ R.flatten
    · obtain ⟨A, B, hAB⟩ := List.append_of_mem hmet
      have hneA : ∀ p ∈ A, p.1 ≠ p.2 := fun p hp => hR.ne p (by
        rw [hAB]; exact List.mem_append_left _ hp)
      have hneB : ∀ p ∈ B, p.1 ≠ p.2 := fun p hp => hR.ne p (by
        rw [hAB]; exact List.mem_append_right _ (List.mem_cons_of_mem _ hp))
      have hne : b ≠ s := isPair_ne hbs
      rw [hAB, tradeRound_append]
      simp only [tradeRound]
      have hA := hbnd A hneA
      have hO := tradeOne_bounds (priceOf df) c (tradeRound (priceOf df) c (qtyOf df) A).1 (b, s) hne
        (fun i => (hA i).1)
      have hB := tradeRound_bounds (priceOf df) c _ B hneB (fun i => (hO i).1)
      rcases tradeOne_exhausts (priceOf df) c (tradeRound (priceOf df) c (qtyOf df) A).1 (b, s) hne hle
        with hz | hz
      · left
        have := hB b
        simp only at hz
        rw [hz] at this
        exact le_antisymm this.2 this.1
      · right
        have := hB s
        simp only at hz
        rw [hz] at this
        exact le_antisymm this.2 this.1
    · rcases hR.loop.final with hf | hf
      · left
        have hnn := fun i => (hbnd R.flatten hR.ne i).1
        have hmem : (tradeRound (priceOf df) c (qtyOf df) R.flatten).1 b ∈
            df.map (fun r => (tradeRound (priceOf df) c (qtyOf df) R.flatten).1 r.label) := by
          obtain ⟨rb, hb, _, _, _, _, he⟩ := mem_allPairs.mp ((mem_allPairs_iff ht).mpr hbs)
          rw [(Prod.mk.inj he).1]
          exact List.mem_map_of_mem (f := fun r : Row =>
            (tradeRound (priceOf df) c (qtyOf df) R.flatten).1 r.label) hb
        have hle' := List.single_le_sum (l := df.map (fun r =>
          (tradeRound (priceOf df) c (qtyOf df) R.flatten).1 r.label)) (by
            intro x hx
            obtain ⟨r, _, rfl⟩ := List.mem_map.mp hx
            exact hnn _) _ hmem
        exact le_antisymm (hle'.trans hf) (hnn b)
      · obtain ⟨i, hi, hpi⟩ := hf (b, s) ((mem_allPairs_iff ht).mpr hbs) hmet
        split_ifs at hi with h0
        · cases hi
        · have hz := (mem_exhausted.mp hi).2
          rcases hpi with rfl | rfl
          · exact Or.inl hz
          · exact Or.inr hz

/-- **C23.** The log consists of two entries per meeting, in the order of `trading_list`: the
buyer's with the seller as source and the seller's with the buyer as source, with equal price and
quantity; the quantity is all that both still have (0 for incompatible prices), and each entry is
active exactly if that bid has quantity left after the meeting. -/
theorem C23_log (c : ℚ) (choice : ℕ → ℕ) (df : DF) (ht : IsTable df) (hq : ∀ r ∈ df, 0 < r.quantity) :
    ∃ tm R, p2pRandom c choice df = .ok (tm, .p2p R) ∧
      tm.trans.length = 2 * R.flatten.length ∧
      ∀ k p, R.flatten[k]? = some p → ∃ q price,
        q = (if priceOf df p.2 ≤ priceOf df p.1 then
          min (qtyOf df p.1 - tradedBy (tm.trans.take (2 * k)) p.1)
            (qtyOf df p.2 - tradedBy (tm.trans.take (2 * k)) p.2) else 0) ∧
        tm.trans[2 * k]? = some ⟨p.1, q, price, (p.2 : ℤ),
          decide (tradedBy (tm.trans.take (2 * k + 2)) p.1 < qtyOf df p.1)⟩ ∧
        tm.trans[2 * k + 1]? = some ⟨p.2, q, price, (p.1 : ℤ),
          decide (tradedBy (tm.trans.take (2 * k + 2)) p.2 < qtyOf df p.2)⟩ := by
  obtain ⟨tm, R, h, hR⟩ := p2p_run c choice df ht
  refine ⟨tm, R, h, ?_, ?_⟩
  · rw [hR.loop.trans, tradeRound_length]
  · intro k p hk
    obtain ⟨hkl, hkp⟩ := List.getElem?_eq_some_iff.mp hk
    have hsplit : R.flatten = R.flatten.take k ++ (p :: R.flatten.drop (k + 1)) := by
      rw [← hkp, ← List.drop_eq_getElem_cons hkl, List.take_append_drop]
    have hsplit' : R.flatten = (R.flatten.take k ++ [p]) ++ R.flatten.drop (k + 1) := by
      rw [List.append_assoc]; exact hsplit
    have hlen : (R.flatten.take k).length = k := by
      rw [List.length_take, min_eq_left hkl.le]
    have hA := fun i => hR.remaining hsplit i
    have hA' := fun i => hR.remaining hsplit' i
    rw [hlen] at hA
    have hlen' : 2 * (R.flatten.take k ++ [p]).length = 2 * k + 2 := by
      rw [List.length_append, hlen]; rfl
    rw [hlen'] at hA'
    have hpair := hR.pair p (List.mem_of_getElem? hk)
    have hne := isPair_ne hpair
    have hneA : ∀ p' ∈ R.flatten.take k, p'.1 ≠ p'.2 :=
      fun p' hp' => hR.ne p' (List.mem_of_mem_take hp')
    have hbA := tradeRound_bounds (priceOf df) c (qtyOf df) (R.flatten.take k) hneA
      (qtyOf_nonneg (fun r hr => (hq r hr).le))
    -- the log around the meeting
    have htr : tm.trans = (tradeRound (priceOf df) c (qtyOf df) (R.flatten.take k)).2 ++
        ((tradeOne (priceOf df) c (tradeRound (priceOf df) c (qtyOf df) (R.flatten.take k)).1 p).2 ++
        (tradeRound (priceOf df) c (tradeOne (priceOf df) c
          (tradeRound (priceOf df) c (qtyOf df) (R.flatten.take k)).1 p).1
          (R.flatten.drop (k + 1))).2) := by
      conv_lhs => rw [hR.loop.trans, hsplit, tradeRound_append]
      rfl
    have hl2 : (tradeRound (priceOf df) c (qtyOf df) (R.flatten.take k)).2.length = 2 * k := by
      rw [tradeRound_length, hlen]
    have hget : ∀ j, j < 2 → tm.trans[2 * k + j]? =
        (tradeOne (priceOf df) c (tradeRound (priceOf df) c (qtyOf df) (R.flatten.take k)).1 p).2[j]? := by
      intro j hj
      rw [htr, List.getElem?_append_right (by omega), hl2]
      have : 2 * k + j - 2 * k = j := by omega
      rw [this, List.getElem?_append_left]
      rw [tradeOne_length]; exact hj
    have g0 := hget 0 (by omega)
    have g1 := hget 1 (by omega)
    rw [Nat.add_zero] at g0
    -- remaining quantities after the meeting
    have hO : ∀ i, (tradeRound (priceOf df) c (qtyOf df) (R.flatten.take k ++ [p])).1 i =
        (tradeOne (priceOf df) c (tradeRound (priceOf df) c (qtyOf df) (R.flatten.take k)).1 p).1 i := by
      intro i; rw [tradeRound_append]; rfl
    rw [g0, g1, tradeOne_entries]
    by_cases hc : priceOf df p.2 ≤ priceOf df p.1
    · refine ⟨_, priceOf df p.1 * c + (1 - c) * priceOf df p.2, rfl, ?_, ?_⟩
      · rw [if_pos hc, if_pos hc]
        simp only [List.getElem?_cons_zero, Option.some.injEq]
        rw [← hA p.1, ← hA p.2]
        congr 1
        have hx := hA' p.1
        rw [hO] at hx
        have hv : (tradeOne (priceOf df) c (tradeRound (priceOf df) c (qtyOf df) (R.flatten.take k)).1 p).1 p.1
            = (tradeRound (priceOf df) c (qtyOf df) (R.flatten.take k)).1 p.1 -
              min ((tradeRound (priceOf df) c (qtyOf df) (R.flatten.take k)).1 p.1)
                ((tradeRound (priceOf df) c (qtyOf df) (R.flatten.take k)).1 p.2) := by
          unfold tradeOne
          simp only [hc, if_true, setQ, hne, if_false]
        rw [← hv, hx]
        simp only [sub_pos]
      · rw [if_pos hc, if_pos hc]
        simp only [List.getElem?_cons_succ, List.getElem?_cons_zero, Option.some.injEq]
        rw [← hA p.1, ← hA p.2]
        congr 1
        have hx := hA' p.2
        rw [hO] at hx
        have hv : (tradeOne (priceOf df) c (tradeRound (priceOf df) c (qtyOf df) (R.flatten.take k)).1 p).1 p.2
            = (tradeRound (priceOf df) c (qtyOf df) (R.flatten.take k)).1 p.2 -
              min ((tradeRound (priceOf df) c (qtyOf df) (R.flatten.take k)).1 p.1)
                ((tradeRound (priceOf df) c (qtyOf df) (R.flatten.take k)).1 p.2) := by
          unfold tradeOne
          simp only [hc, if_true, setQ, hne.symm, if_false]
        rw [← hv, hx]
        simp only [sub_pos]
    · -- an incompatible meeting changes nothing, and both parties had quantity left
      have hsame : ∀ i, (tradeOne (priceOf df) c (tradeRound (priceOf df) c (qtyOf df) (R.flatten.take k)).1 p).1 i
          = (tradeRound (priceOf df) c (qtyOf df) (R.flatten.take k)).1 i := by
        intro i; unfold tradeOne; simp only [hc, if_false]
      have hleft : ∀ i, (i = p.1 ∨ i = p.2) →
          0 < (tradeRound (priceOf df) c (qtyOf df) (R.flatten.take k)).1 i := by
        -- locate the round of the meeting
        obtain ⟨tm2, R2, h2, hp2, hn2, hround⟩ := C19_rounds c choice df ht (fun r hr => (hq r hr).le)
        rw [h] at h2
        cases h2
        obtain ⟨rd, hrd, hprd⟩ := List.mem_flatten.mp (List.mem_of_getElem? hk)
        obtain ⟨pre, post, hpp⟩ := List.append_of_mem hrd
        obtain ⟨X, Y, hXY⟩ := List.append_of_mem hprd
        obtain ⟨_, hpw, hrest, _⟩ := hround pre rd post hpp
        have hfl : R.flatten = (pre.flatten ++ X) ++ (p :: (Y ++ post.flatten)) := by
          rw [hpp, hXY]; simp
        have hkeq : R.flatten.take k = pre.flatten ++ X := by
          -- the position of `p` is unique
          have hkk : (pre.flatten ++ X).length = k := by
            have hat : R.flatten[(pre.flatten ++ X).length]? = some p := by
              rw [hfl, List.getElem?_append_right (le_refl _), Nat.sub_self]; rfl
            obtain ⟨hl1, he1⟩ := List.getElem?_eq_some_iff.mp hat
            exact (List.Nodup.getElem_inj_iff hR.loop.nodup).mp (he1.trans hkp.symm)
          conv_lhs => rw [hfl, ← hkk]
          exact List.take_left
        intro i hi
        have hnotX : ∀ p' ∈ X, p'.1 ≠ i ∧ p'.2 ≠ i := by
          intro p' hp'
          have hpair' := hR.pair p' (by
            rw [hfl]; exact List.mem_append_left _ (List.mem_append_right _ hp'))
          rw [hXY, List.pairwise_append] at hpw
          have := hpw.2.2 p' hp' p List.mem_cons_self
          rcases hi with rfl | rfl
          · exact ⟨this.1, fun he => isPair_ne (df := df) ⟨hpair.1, hpair'.2⟩ he.symm⟩
          · exact ⟨fun he => isPair_ne (df := df) ⟨hpair'.1, hpair.2⟩ he, this.2⟩
        have hXzero : ∀ (q' : ℕ → ℚ), (tradeRound (priceOf df) c q' X).1 i = q' i := by
          clear hXY hfl hkeq
          induction X with
          | nil => intro q'; rfl
          | cons p' X ih =>
            intro q'
            simp only [tradeRound]
            rw [ih (fun p'' h'' => hnotX p'' (List.mem_cons_of_mem _ h''))]
            obtain ⟨n1, n2⟩ := hnotX p' List.mem_cons_self
            unfold tradeOne
            simp only
            split_ifs
            · simp [setQ, n1.symm, n2.symm]
            · rfl
        rw [hkeq, tradeRound_append]
        simp only
        rw [hXzero]
        by_cases hpre : pre = []
        · subst hpre
          simp only [List.flatten_nil, tradeRound]
          have : ∃ r, df[i]? = some r := by
            cases hr : df[i]? with
            | none =>
              rcases hi with rfl | rfl
              · have := hpair.1; simp [isBuy, hr] at this
              · have := hpair.2; simp [isSell, hr] at this
            | some r => exact ⟨r, rfl⟩
          obtain ⟨r, hr⟩ := this
          simp only [qtyOf, hr, Option.map_some, Option.getD_some]
          exact hq r (List.mem_of_getElem? hr)
        · have hlt := hrest hpre p hprd
          have hfl2 : R.flatten = pre.flatten ++ (X ++ (p :: (Y ++ post.flatten))) := by
            rw [hfl, List.append_assoc]
          rw [hR.remaining hfl2]
          rcases hi with rfl | rfl
          · linarith [hlt.1]
          · linarith [hlt.2]
      refine ⟨0, 0, by rw [if_neg hc], ?_, ?_⟩
      · rw [if_neg hc]
        have hx := hA' p.1
        rw [hO, hsame] at hx
        have := hleft p.1 (Or.inl rfl)
        rw [hx] at this
        have hd : tradedBy (tm.trans.take (2 * k + 2)) p.1 < qtyOf df p.1 := by linarith
        simp [hd]
      · rw [if_neg hc]
        have hx := hA' p.2
        rw [hO, hsame] at hx
        have := hleft p.2 (Or.inr rfl)
        rw [hx] at this
        have hd : tradedBy (tm.trans.take (2 * k + 2)) p.2 < qtyOf df p.2 := by linarith
        simp [hd]

end PyMarket
