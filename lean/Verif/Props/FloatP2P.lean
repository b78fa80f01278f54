import Verif.Lemmas.FloatP2P
import Verif.Props.P2P

/-! # C77: peer-to-peer trading in floating point arithmetic

C19 – C23 are about exact numbers. Here the quantities and prices are floating point numbers, every
operation is rounded, and the sum of the loop condition is computed in any order. -/

set_option autoImplicit false

namespace PyMarket

open Spec

/-- All quantities and prices of the table are numbers of the format. -/
def Spec.RepBook (F : Fmt) (df : DF) : Prop := ∀ r ∈ df, F.Rep r.quantity ∧ F.Rep r.price

/-- The number of log entries of bid `i`. -/
def Spec.meetingsOf (ts : List Transaction) (i : ℕ) : ℕ := (ts.filter (fun t => t.bid == i)).length

theorem qtyOf_rep {F : Fmt} {df : DF} (h : RepBook F df) (i : ℕ) : F.Rep (qtyOf df i) := by
  unfold qtyOf
  cases hi : df[i]? with
  | none => exact F.rep_zero
  | some r => exact (h r (List.mem_of_getElem? hi)).1

theorem priceOf_rep {F : Fmt} {df : DF} (h : RepBook F df) (i : ℕ) : F.Rep (priceOf df i) := by
  unfold priceOf
  cases hi : df[i]? with
  | none => exact F.rep_zero
  | some r => exact (h r (List.mem_of_getElem? hi)).2

/-- A run, with everything the properties need. -/
structure P2PRunF (F : Fmt) (s : Summer F) (df : DF) (c : ℚ) (R : List (List (ℕ × ℕ)))
    (ts : List Transaction) : Prop where
  loop : LoopSpecF F s df (priceOf df) c (qtyOf df) (allPairs df) [] R ts
  pair : ∀ p ∈ R.flatten, IsPair df p.1 p.2

theorem p2pF_run (F : Fmt) (s : Summer F) (c : ℚ) (choice : ℕ → ℕ) (df : DF) (ht : IsTable df) :
    ∃ tm R, p2pRandomF F s c choice df = .ok (tm, .p2p R) ∧ P2PRunF F s df c R tm.trans := by
  obtain ⟨tm, R, h, hs⟩ := p2pF_spec F s c choice df ht
  exact ⟨tm, R, h, hs, fun p hp => (mem_allPairs_iff ht).mp (hs.subset p hp)⟩

theorem P2PRunF.ne {F : Fmt} {s : Summer F} {df : DF} {c : ℚ} {R : List (List (ℕ × ℕ))}
    {ts : List Transaction} (h : P2PRunF F s df c R ts) : ∀ p ∈ R.flatten, p.1 ≠ p.2 :=
  fun p hp => isPair_ne (h.pair p hp)

/-- **C77 (meetings).** For every format, order of summation, coefficient and random choice, the
procedure returns; no pair meets twice, all meetings are between a buyer and a seller, and nobody
meets two others in the same round. -/
theorem C77_meetings (F : Fmt) (s : Summer F) (c : ℚ) (choice : ℕ → ℕ) (df : DF) (ht : IsTable df) :
    ∃ tm R, p2pRandomF F s c choice df = .ok (tm, .p2p R) ∧
      (∀ p ∈ R.flatten, IsPair df p.1 p.2) ∧ R.flatten.Nodup ∧
      ∀ rd ∈ R, rd ≠ [] ∧ rd.Pairwise (fun p p' => p.1 ≠ p'.1 ∧ p.2 ≠ p'.2) := by
  obtain ⟨tm, R, h, hR⟩ := p2pF_run F s c choice df ht
  refine ⟨tm, R, h, hR.pair, hR.loop.nodup, ?_⟩
  intro rd hrd
  obtain ⟨pre, post, hpp⟩ := List.append_of_mem hrd
  obtain ⟨g0, g1, _, _⟩ := hR.loop.round pre rd post hpp
  refine ⟨g0, g1.imp ?_⟩
  intro a b hab
  unfold Touch at hab
  push Not at hab
  exact ⟨hab.1.symm, hab.2.2.2.symm⟩

/-- **C77 (log).** Two entries per meeting, with the same quantity and the same price, so that
exactly as much is bought as sold, rounding or not. The quantity is not negative and no more than
what either bid asked for, and zero when the prices are not compatible. -/
theorem C77_log (F : Fmt) (s : Summer F) (c : ℚ) (choice : ℕ → ℕ) (df : DF) (ht : IsTable df)
    (hq : NonNeg df) (hr : RepBook F df) :
    ∃ tm R, p2pRandomF F s c choice df = .ok (tm, .p2p R) ∧
      tm.trans.length = 2 * R.flatten.length ∧
      ∀ k p, R.flatten[k]? = some p → ∃ q price a a',
        tm.trans[2 * k]? = some ⟨p.1, q, price, (p.2 : ℤ), a⟩ ∧
        tm.trans[2 * k + 1]? = some ⟨p.2, q, price, (p.1 : ℤ), a'⟩ ∧
        0 ≤ q ∧ q ≤ qtyOf df p.1 ∧ q ≤ qtyOf df p.2 ∧
        (priceOf df p.1 < priceOf df p.2 → q = 0 ∧ price = 0) := by
  obtain ⟨tm, R, h, hR⟩ := p2pF_run F s c choice df ht
  refine ⟨tm, R, h, ?_, ?_⟩
  · rw [hR.loop.trans, tradeRoundF_length]
  intro k p hk
  obtain ⟨hkl, hkp⟩ := List.getElem?_eq_some_iff.mp hk
  have hsplit : R.flatten = R.flatten.take k ++ (p :: R.flatten.drop (k + 1)) := by
    rw [← hkp, ← List.drop_eq_getElem_cons hkl, List.take_append_drop]
  have hlen : (R.flatten.take k).length = k := by
    rw [List.length_take, min_eq_left hkl.le]
  set Q := (tradeRoundF F (priceOf df) c (qtyOf df) (R.flatten.take k)).1 with hQ
  have htr : tm.trans = (tradeRoundF F (priceOf df) c (qtyOf df) (R.flatten.take k)).2 ++
      ((tradeOneF F (priceOf df) c Q p).2 ++
      (tradeRoundF F (priceOf df) c (tradeOneF F (priceOf df) c Q p).1 (R.flatten.drop (k + 1))).2) := by
    conv_lhs => rw [hR.loop.trans, hsplit, tradeRoundF_append]
    rfl
  have hl2 : (tradeRoundF F (priceOf df) c (qtyOf df) (R.flatten.take k)).2.length = 2 * k := by
    rw [tradeRoundF_length, hlen]
  have hget : ∀ j, j < 2 → tm.trans[2 * k + j]? = (tradeOneF F (priceOf df) c Q p).2[j]? := by
    intro j hj
    rw [htr, List.getElem?_append_right (by omega), hl2]
    have : 2 * k + j - 2 * k = j := by omega
    rw [this, List.getElem?_append_left]
    rw [tradeOneF_length]; exact hj
  have g0 := hget 0 (by omega)
  have g1 := hget 1 (by omega)
  rw [Nat.add_zero] at g0
  have hb := tradeRoundF_bounds F (priceOf df) c (qtyOf df) (R.flatten.take k)
    (fun p' hp' => hR.ne p' (List.mem_of_mem_take hp')) (qtyOf_nonneg hq.qty) (qtyOf_rep hr)
  rw [g0, g1, tradeOneF_entries]
  by_cases hc : priceOf df p.2 ≤ priceOf df p.1
  · rw [if_pos hc]
    refine ⟨_, _, _, _, rfl, rfl, le_min (hb _).1 (hb _).1, (min_le_left _ _).trans (hb _).2.1,
      (min_le_right _ _).trans (hb _).2.1, fun hlt => absurd hc (not_le.mpr hlt)⟩
  · rw [if_neg hc]
    exact ⟨_, _, _, _, rfl, rfl, le_refl _, qtyOf_nonneg hq.qty _, qtyOf_nonneg hq.qty _, fun _ => ⟨rfl, rfl⟩⟩

theorem tradeRoundF_balance (F : Fmt) (df : DF) (prices : ℕ → ℚ) (c : ℚ) (q : ℕ → ℚ) (M : List (ℕ × ℕ))
    (hM : ∀ p ∈ M, IsPair df p.1 p.2) :
    boughtQty df (tradeRoundF F prices c q M).2 = soldQty df (tradeRoundF F prices c q M).2 ∧
    paid df (tradeRoundF F prices c q M).2 = received df (tradeRoundF F prices c q M).2 := by
  induction M generalizing q with
  | nil => exact ⟨rfl, rfl⟩
  | cons p M ih =>
    obtain ⟨i1, i2⟩ := ih (tradeOneF F prices c q p).1 (fun p' hp' => hM p' (List.mem_cons_of_mem _ hp'))
    simp only [tradeRoundF]
    obtain ⟨hb, hs⟩ := hM p List.mem_cons_self
    have hb' : isSell df p.1 = false := by
      cases h : isSell df p.1 with
      | false => rfl
      | true => exact absurd rfl (isPair_ne (df := df) (b := p.1) (s := p.1) ⟨hb, h⟩)
    have hs' : isBuy df p.2 = false := by
      cases h : isBuy df p.2 with
      | false => rfl
      | true => exact absurd rfl (isPair_ne (df := df) (b := p.2) (s := p.2) ⟨h, hs⟩)
    unfold boughtQty soldQty at *
    unfold paid received at *
    simp only [List.filter_append, List.map_append, List.sum_append]
    rw [i1, i2, tradeOneF_entries]
    split_ifs <;> simp [hb, hs, hb', hs']

/-- **C77 (balance).** Exactly as much is bought as sold and exactly as much paid as received. -/
theorem C77_balance (F : Fmt) (s : Summer F) (c : ℚ) (choice : ℕ → ℕ) (df : DF) (ht : IsTable df) :
    ∃ tm R, p2pRandomF F s c choice df = .ok (tm, .p2p R) ∧
      boughtQty df tm.trans = soldQty df tm.trans ∧ paid df tm.trans = received df tm.trans := by
  obtain ⟨tm, R, h, hR⟩ := p2pF_run F s c choice df ht
  refine ⟨tm, R, h, ?_⟩
  rw [hR.loop.trans]
  exact tradeRoundF_balance F df _ c _ _ hR.pair

/-! ## Prices -/

theorem halfPrice (F : Fmt) {pb ps : ℚ} (hb : F.Rep pb) (hs : F.Rep ps) (h : ps ≤ pb) :
    ps ≤ F.rnd (F.rnd (pb * (1 / 2)) + F.rnd (F.rnd (1 - 1 / 2) * ps)) ∧
    F.rnd (F.rnd (pb * (1 / 2)) + F.rnd (F.rnd (1 - 1 / 2) * ps)) ≤ pb := by
  have h1 : F.rnd (pb * (1 / 2)) = pb / 2 := by
    rw [mul_one_div]; exact F.rep_half hb
  have h2 : F.rnd (1 - 1 / 2) = 1 / 2 := by
    have := F.rep_half F.rep_one
    unfold Fmt.Rep at this
    rw [show (1 : ℚ) - 1 / 2 = 1 / 2 by norm_num, this]
  have h3 : F.rnd (1 / 2 * ps) = ps / 2 := by
    rw [one_div, inv_mul_eq_div]; exact F.rep_half hs
  rw [h1, h2, h3]
  exact ⟨F.le_rnd hs (by linarith), F.rnd_le hb (by linarith)⟩

theorem tradeRoundF_price (F : Fmt) {df : DF} {c : ℚ} {q : ℕ → ℚ} {M : List (ℕ × ℕ)} :
    ∀ t ∈ (tradeRoundF F (priceOf df) c q M).2, ∃ p ∈ M,
      ((t.bid = p.1 ∧ t.source = (p.2 : ℤ)) ∨ (t.bid = p.2 ∧ t.source = (p.1 : ℤ))) ∧
      ((priceOf df p.2 ≤ priceOf df p.1 ∧ t.price =
        F.rnd (F.rnd (priceOf df p.1 * c) + F.rnd (F.rnd (1 - c) * priceOf df p.2))) ∨
      t.quantity = 0) := by
  induction M generalizing q with
  | nil => intro t ht; cases ht
  | cons p M ih =>
    intro t ht
    simp only [tradeRoundF] at ht
    rcases List.mem_append.mp ht with h | h
    · refine ⟨p, List.mem_cons_self, ?_⟩
      rw [tradeOneF_entries] at h
      split_ifs at h with hc
      · simp only [List.mem_cons, List.not_mem_nil, or_false] at h
        rcases h with rfl | rfl
        · exact ⟨Or.inl ⟨rfl, rfl⟩, Or.inl ⟨hc, rfl⟩⟩
        · exact ⟨Or.inr ⟨rfl, rfl⟩, Or.inl ⟨hc, rfl⟩⟩
      · simp only [List.mem_cons, List.not_mem_nil, or_false] at h
        rcases h with rfl | rfl
        · exact ⟨Or.inl ⟨rfl, rfl⟩, Or.inr rfl⟩
        · exact ⟨Or.inr ⟨rfl, rfl⟩, Or.inr rfl⟩
    · obtain ⟨p', hp', h'⟩ := ih t h
      exact ⟨p', List.mem_cons_of_mem _ hp', h'⟩

/-- **C77 (individual rationality).** With the default coefficient ½ no rounding can push a price
beyond what one of the parties accepts. -/
theorem C77_prices (F : Fmt) (s : Summer F) (choice : ℕ → ℕ) (df : DF) (ht : IsTable df)
    (hr : RepBook F df) :
    ∃ tm R, p2pRandomF F s (1 / 2) choice df = .ok (tm, .p2p R) ∧
      ∀ t ∈ tm.trans, t.quantity ≠ 0 → ∃ b r, (b, r) ∈ R.flatten ∧ IsPair df b r ∧
        ((t.bid = b ∧ t.source = (r : ℤ)) ∨ (t.bid = r ∧ t.source = (b : ℤ))) ∧
        priceOf df r ≤ t.price ∧ t.price ≤ priceOf df b := by
  obtain ⟨tm, R, h, hR⟩ := p2pF_run F s (1 / 2) choice df ht
  refine ⟨tm, R, h, ?_⟩
  intro t htm hne
  rw [hR.loop.trans] at htm
  obtain ⟨p, hp, hor, hpr⟩ := tradeRoundF_price F t htm
  refine ⟨p.1, p.2, hp, hR.pair p hp, hor, ?_⟩
  rcases hpr with ⟨hle, he⟩ | h0
  · rw [he]
    exact halfPrice F (priceOf_rep hr _) (priceOf_rep hr _) hle
  · exact absurd h0 hne

theorem Fmt.rnd_bounds (F : Fmt) {x : ℚ} (h : 0 ≤ x) :
    (1 - F.eps) * x ≤ F.rnd x ∧ F.rnd x ≤ (1 + F.eps) * x := by
  have := F.err x
  rw [abs_of_nonneg h, abs_le] at this
  constructor <;> linarith [this.1, this.2]

theorem mixPrice (F : Fmt) {pb ps c : ℚ} (h0 : 0 ≤ ps) (h : ps ≤ pb) (hc0 : 0 ≤ c) (hc1 : c ≤ 1) :
    (1 - F.eps) ^ 3 * ps ≤ F.rnd (F.rnd (pb * c) + F.rnd (F.rnd (1 - c) * ps)) ∧
    F.rnd (F.rnd (pb * c) + F.rnd (F.rnd (1 - c) * ps)) ≤ (1 + F.eps) ^ 3 * pb := by
  have e0 := F.eps_nonneg
  have e1 := F.eps_lt
  have hb0 : 0 ≤ pb := h0.trans h
  have hbc : 0 ≤ pb * c := mul_nonneg hb0 hc0
  have hd0 : 0 ≤ F.rnd (1 - c) := F.rnd_nonneg (by linarith)
  obtain ⟨a1, a2⟩ := F.rnd_bounds hbc
  obtain ⟨d1, d2⟩ := F.rnd_bounds (x := 1 - c) (by linarith)
  obtain ⟨s1, s2⟩ := F.rnd_bounds (x := F.rnd (1 - c) * ps) (mul_nonneg hd0 h0)
  obtain ⟨t1, t2⟩ := F.rnd_bounds (x := F.rnd (pb * c) + F.rnd (F.rnd (1 - c) * ps))
    (add_nonneg (F.rnd_nonneg hbc) (F.rnd_nonneg (mul_nonneg hd0 h0)))
  have hc' : 0 ≤ 1 - c := by linarith
  have el : 0 ≤ 1 - F.eps := by linarith
  have eh : 0 ≤ 1 + F.eps := by linarith
  have lo : (1 - F.eps) ^ 2 * ps ≤ F.rnd (pb * c) + F.rnd (F.rnd (1 - c) * ps) := by
    have k1 : (1 - F.eps) * ((1 - F.eps) * (1 - c) * ps) ≤ F.rnd (F.rnd (1 - c) * ps) :=
      le_trans (mul_le_mul_of_nonneg_left (mul_le_mul_of_nonneg_right d1 h0) el) s1
    have k2 : (1 - F.eps) * ((1 - F.eps) * (ps * c)) ≤ F.rnd (pb * c) := by
      refine le_trans ?_ a1
      apply mul_le_mul_of_nonneg_left _ el
      have : ps * c ≤ pb * c := mul_le_mul_of_nonneg_right h hc0
      have hpc : 0 ≤ ps * c := mul_nonneg h0 hc0
      nlinarith
    nlinarith
  have hi : F.rnd (pb * c) + F.rnd (F.rnd (1 - c) * ps) ≤ (1 + F.eps) ^ 2 * pb := by
    have k1 : F.rnd (F.rnd (1 - c) * ps) ≤ (1 + F.eps) * ((1 + F.eps) * (1 - c) * pb) := by
      refine s2.trans (mul_le_mul_of_nonneg_left ?_ eh)
      exact mul_le_mul d2 h h0 (mul_nonneg eh hc')
    have k2 : F.rnd (pb * c) ≤ (1 + F.eps) * ((1 + F.eps) * (pb * c)) := by
      refine a2.trans (mul_le_mul_of_nonneg_left ?_ eh)
      nlinarith
    nlinarith
  constructor
  · have := mul_le_mul_of_nonneg_left lo el
    nlinarith
  · have := mul_le_mul_of_nonneg_left hi eh
    nlinarith

/-- **C77 (individual rationality, other coefficients).** For any `p_coef` in `[0, 1]` the price is
within three relative rounding errors of the interval between the two parties' prices. It may be
outside (`C77_prices_refuted`), hence partial. -/
theorem C77_prices_partial (F : Fmt) (s : Summer F) (c : ℚ) (hc0 : 0 ≤ c) (hc1 : c ≤ 1)
    (choice : ℕ → ℕ) (df : DF) (ht : IsTable df) (hq : NonNeg df) :
    ∃ tm R, p2pRandomF F s c choice df = .ok (tm, .p2p R) ∧
      ∀ t ∈ tm.trans, t.quantity ≠ 0 → ∃ b r, (b, r) ∈ R.flatten ∧ IsPair df b r ∧
        ((t.bid = b ∧ t.source = (r : ℤ)) ∨ (t.bid = r ∧ t.source = (b : ℤ))) ∧
        (1 - F.eps) ^ 3 * priceOf df r ≤ t.price ∧ t.price ≤ (1 + F.eps) ^ 3 * priceOf df b := by
  obtain ⟨tm, R, h, hR⟩ := p2pF_run F s c choice df ht
  refine ⟨tm, R, h, ?_⟩
  intro t htm hne
  rw [hR.loop.trans] at htm
  obtain ⟨p, hp, hor, hpr⟩ := tradeRoundF_price F t htm
  refine ⟨p.1, p.2, hp, hR.pair p hp, hor, ?_⟩
  rcases hpr with ⟨hle, he⟩ | h0
  · rw [he]
    refine mixPrice F ?_ hle hc0 hc1
    unfold priceOf
    cases hi : df[p.2]? with
    | none => exact le_refl _
    | some r => exact (hq r (List.mem_of_getElem? hi)).2
  · exact absurd h0 hne

/-! ## Capacity and completeness -/

/-- **C77 (capacity and completeness, up to rounding).** A bid that meets `n` others trades at most
`(1 + n·eps)` times its quantity, and for every pair with compatible prices one of the two trades at
least `(1 - n·eps)` times its quantity. (`eps = 2^-53` for float64.) -/
theorem C77_capacity_partial (F : Fmt) (s : Summer F) (c : ℚ) (choice : ℕ → ℕ) (df : DF)
    (ht : IsTable df) (hq : NonNeg df) (hr : RepBook F df) :
    ∃ tm R, p2pRandomF F s c choice df = .ok (tm, .p2p R) ∧
      (∀ i, tradedBy tm.trans i ≤ qtyOf df i * (1 + meetingsOf tm.trans i * F.eps)) ∧
      ∀ b r, IsPair df b r → priceOf df r ≤ priceOf df b →
        qtyOf df b * (1 - meetingsOf tm.trans b * F.eps) ≤ tradedBy tm.trans b ∨
        qtyOf df r * (1 - meetingsOf tm.trans r * F.eps) ≤ tradedBy tm.trans r := by
  obtain ⟨tm, R, h, hR⟩ := p2pF_run F s c choice df ht
  have hbnd := fun (M : List (ℕ × ℕ)) (hM : ∀ p ∈ M, p.1 ≠ p.2) =>
    tradeRoundF_bounds F (priceOf df) c (qtyOf df) M hM (qtyOf_nonneg hq.qty) (qtyOf_rep hr)
  have hrem : ∀ i, |qtyOf df i - tradedBy tm.trans i -
      (tradeRoundF F (priceOf df) c (qtyOf df) R.flatten).1 i| ≤
      F.eps * qtyOf df i * meetingsOf tm.trans i := by
    intro i
    rw [hR.loop.trans]
    exact (hbnd R.flatten hR.ne i).2.2.2
  have hnn := fun i => (hbnd R.flatten hR.ne i).1
  refine ⟨tm, R, h, ?_, ?_⟩
  · intro i
    have := (abs_le.mp (hrem i)).1
    have := hnn i
    nlinarith
  intro b r hbs hle
  suffices hz : (tradeRoundF F (priceOf df) c (qtyOf df) R.flatten).1 b = 0 ∨
      (tradeRoundF F (priceOf df) c (qtyOf df) R.flatten).1 r = 0 by
    rcases hz with hz | hz
    · left
      have := (abs_le.mp (hrem b)).2
      rw [hz] at this
      nlinarith
    · right
      have := (abs_le.mp (hrem r)).2
      rw [hz] at this
      nlinarith
  by_cases hmet : (b, r) ∈ R.flatten
  · obtain ⟨A, B, hAB⟩ := List.append_of_mem hmet
    have hneA : ∀ p ∈ A, p.1 ≠ p.2 := fun p hp => hR.ne p (by
      rw [hAB]; exact List.mem_append_left _ hp)
    have hneB : ∀ p ∈ B, p.1 ≠ p.2 := fun p hp => hR.ne p (by
      rw [hAB]; exact List.mem_append_right _ (List.mem_cons_of_mem _ hp))
    have hne : b ≠ r := isPair_ne hbs
    rw [hAB, tradeRoundF_append]
    simp only [tradeRoundF]
    have hA := hbnd A hneA
    have hO := tradeOneF_bounds F (priceOf df) c (tradeRoundF F (priceOf df) c (qtyOf df) A).1 (b, r) hne
      (fun i => (hA i).1) (fun i => (hA i).2.2.1)
    have hB := tradeRoundF_bounds F (priceOf df) c _ B hneB (fun i => (hO i).1) (fun i => (hO i).2.2.1)
    rcases tradeOneF_exhausts F (priceOf df) c (tradeRoundF F (priceOf df) c (qtyOf df) A).1 (b, r) hne hle
      with hz | hz
    · left
      have := hB b
      simp only at hz
      rw [hz] at this
      exact le_antisymm this.2.1 this.1
    · right
      have := hB r
      simp only at hz
      rw [hz] at this
      exact le_antisymm this.2.1 this.1
  · rcases hR.loop.final with hf | hf
    · left
      obtain ⟨rb, hb, _, _, _, _, he⟩ := mem_allPairs.mp ((mem_allPairs_iff ht).mpr hbs)
      have hmem : (tradeRoundF F (priceOf df) c (qtyOf df) R.flatten).1 b ∈
          df.map (fun r => (tradeRoundF F (priceOf df) c (qtyOf df) R.flatten).1 r.label) := by
        rw [(Prod.mk.inj he).1]
        exact List.mem_map_of_mem (f := fun r : Row =>
          (tradeRoundF F (priceOf df) c (qtyOf df) R.flatten).1 r.label) hb
      by_contra hne
      have hpos : 0 < (tradeRoundF F (priceOf df) c (qtyOf df) R.flatten).1 b :=
        lt_of_le_of_ne (hnn b) (Ne.symm hne)
      have := (((s.isSum (df.map (fun r =>
        (tradeRoundF F (priceOf df) c (qtyOf df) R.flatten).1 r.label))).pos_iff (by
          intro x hx
          obtain ⟨r, _, rfl⟩ := List.mem_map.mp hx
          exact hnn _)).mpr ⟨_, hmem, hpos⟩)
      linarith
    · obtain ⟨i, hi, hpi⟩ := hf (b, r) ((mem_allPairs_iff ht).mpr hbs) hmet
      split_ifs at hi with h0
      · cases hi
      · have hz := (mem_exhausted.mp hi).2
        rcases hpi with rfl | rfl
        · exact Or.inl hz
        · exact Or.inr hz

/-- A buyer of 1 and five sellers, four of which offer next to nothing. -/
def tinySellers : DF := labelFrom 0
  [⟨1, 3, 0, true, 0, true⟩, ⟨1 / 2 ^ 55, 1, 1, false, 0, true⟩, ⟨1 / 2 ^ 55, 1, 2, false, 0, true⟩,
   ⟨1 / 2 ^ 55, 1, 3, false, 0, true⟩, ⟨1 / 2 ^ 55, 1, 4, false, 0, true⟩, ⟨1, 1, 5, false, 0, true⟩]

/-- The table satisfies the hypotheses of the theorems in float64. -/
example : IsTable tinySellers ∧ NonNeg tinySellers ∧ RepBook float64 tinySellers := by
  refine ⟨by decide +kernel, by decide +kernel, ?_⟩
  unfold RepBook Fmt.Rep
  decide +kernel

/-- **C77, refuted part.** In float64 a bid may trade more than its quantity: the buyer of 1 above
first buys from the four small sellers, which does not change its remaining quantity (1 - 2^-55
rounds to 1), and then 1 from the last one. -/
theorem C77_capacity_refuted :
    ∃ tm R, p2pRandomF float64 (pairSummer float64) (1 / 2) (fun _ => 0) tinySellers = .ok (tm, .p2p R) ∧
      qtyOf tinySellers 0 < tradedBy tm.trans 0 := by
  refine ⟨_, _, rfl, ?_⟩
  decide +kernel

/-- A buyer and a seller at the same price. -/
def samePrice : DF := labelFrom 0 [⟨1, 3, 0, true, 0, true⟩, ⟨1, 3, 1, false, 0, true⟩]

/-- **C77, refuted part.** With another coefficient than ½ the price may be outside the interval
between the two parties' prices: with `p_coef = 0.2`, buyer and seller at price 3 trade at
3.0000000000000004, more than the buyer is willing to pay. -/
theorem C77_prices_refuted :
    RepBook float64 samePrice ∧ float64.Rep (roundBin 53 (1 / 5)) ∧
    ∃ tm R, p2pRandomF float64 (pairSummer float64) (roundBin 53 (1 / 5)) (fun _ => 0) samePrice =
        .ok (tm, .p2p R) ∧
      ∃ t ∈ tm.trans, isBuy samePrice t.bid = true ∧ 0 < t.quantity ∧ priceOf samePrice t.bid < t.price := by
  refine ⟨?_, ?_, _, _, rfl, ?_⟩
  · unfold RepBook Fmt.Rep
    decide +kernel
  · unfold Fmt.Rep
    decide +kernel
  · decide +kernel

end PyMarket
