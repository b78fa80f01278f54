import Verif.Props.P2PHalf
import Verif.Props.P2PDistribution

/-! # C110: which share of the possible gains peer to peer trading realises -/

set_option autoImplicit false

namespace PyMarket

open Spec

theorem gains_append (df : DF) (v : ℕ → ℚ) (l l' : List Transaction) :
    gains df v (l ++ l') = gains df v l + gains df v l' := by
  unfold gains boughtValue soldValue paid received
  simp only [List.filter_append, List.map_append, List.sum_append]
  ring

/-- What a meeting brings. -/
theorem gains_meeting {df : DF} (c : ℚ) (q : ℕ → ℚ) {p : ℕ × ℕ} (hp : IsPair df p.1 p.2) :
    gains df (priceOf df) (tradeOne (priceOf df) c q p).2 =
        (if priceOf df p.2 ≤ priceOf df p.1 then min (q p.1) (q p.2) * (priceOf df p.1 - priceOf df p.2) else 0) ∧
      boughtQty df (tradeOne (priceOf df) c q p).2 =
        if priceOf df p.2 ≤ priceOf df p.1 then min (q p.1) (q p.2) else 0 := by
  obtain ⟨h1, h4⟩ := hp
  obtain ⟨h2, h3⟩ := isPair_flags ⟨h1, h4⟩
  rw [tradeOne_entries]
  split_ifs with h
  · constructor
    · simp only [gains, boughtValue, soldValue, paid, received, List.filter_cons, h1, h2, h3, h4, List.filter_nil,
        if_true, List.map_cons, List.map_nil, List.sum_cons, List.sum_nil, Bool.false_eq_true, if_false]
      ring
    · simp [boughtQty, h1, h3]
  · constructor
    · simp [gains, boughtValue, soldValue, paid, received, h1, h2, h3, h4]
    · simp [boughtQty, h1, h3]

theorem tradeRound_gains {df : DF} {c δ : ℚ}
    (hδ : ∀ b s, IsPair df b s → priceOf df s ≤ priceOf df b → δ ≤ priceOf df b - priceOf df s)
    (M : List (ℕ × ℕ)) : ∀ q : ℕ → ℚ, (∀ i, 0 ≤ q i) → (∀ p ∈ M, IsPair df p.1 p.2) →
      δ * boughtQty df (tradeRound (priceOf df) c q M).2 ≤
        gains df (priceOf df) (tradeRound (priceOf df) c q M).2 := by
  induction M with
  | nil => intro q _ _; simp [tradeRound, boughtQty, gains, boughtValue, soldValue, paid, received]
  | cons p M ih =>
    intro q hq hM
    have hp := hM p List.mem_cons_self
    have hb := tradeOne_bounds (priceOf df) c q p (isPair_ne hp) hq
    have := ih _ (fun i => (hb i).1) (fun x hx => hM x (List.mem_cons_of_mem _ hx))
    simp only [tradeRound]
    rw [boughtQty_append, gains_append, (gains_meeting c q hp).1, (gains_meeting c q hp).2]
    have hm := le_min (hq p.1) (hq p.2)
    split_ifs with h
    · have := hδ _ _ hp h
      nlinarith
    · linarith

/-- **C110 (a share that depends on the book).** When every buyer and seller with compatible prices could gain
between `δ` and `Δ` per unit from each other, peer to peer trading realises at least the share `δ / (2 * Δ)` of the
largest possible gain, whatever the random choices. -/
theorem C110_share (c : ℚ) (choice : ℕ → ℕ) (df : DF) (ht : IsTable df) (hq : ∀ r ∈ df, 0 ≤ r.quantity)
    (δ Δ : ℚ) (hd : 0 ≤ δ) (hD : 0 ≤ Δ)
    (hgain : ∀ b s, IsPair df b s → priceOf df s ≤ priceOf df b →
      δ ≤ priceOf df b - priceOf df s ∧ priceOf df b - priceOf df s ≤ Δ)
    (tm : TransactionManager) (ex : Extra) (h : p2pRandom c choice df = .ok (tm, ex))
    (best : ℚ) (hb : BestWelfare df (priceOf df) best) :
    δ * best ≤ 2 * Δ * gains df (priceOf df) tm.trans := by
  obtain ⟨tm1, R, h1, hR⟩ := p2p_run c choice df ht
  obtain ⟨tm2, ex2, h2, hnn, _, hbal, _⟩ := C20_conservation c choice df ht hq
  obtain ⟨tm3, R3, h3, _, hsat⟩ := C22_complete c choice df ht hq
  rw [h] at h1 h2 h3
  cases h1
  cases h2
  cases h3
  have hlow : δ * boughtQty df tm.trans ≤ gains df (priceOf df) tm.trans := by
    have := tradeRound_gains (c := c) (fun b s k1 k2 => (hgain b s k1 k2).1) R.flatten (qtyOf df)
      (qtyOf_nonneg hq) hR.pair
    rwa [← hR.loop.trans] at this
  have hknown : ∀ t ∈ tm.trans, t.bid < df.length := by
    intro t htt
    have hmem : ∀ (M : List (ℕ × ℕ)) (q : ℕ → ℚ), (∀ p ∈ M, IsPair df p.1 p.2) →
        ∀ t ∈ (tradeRound (priceOf df) c q M).2, t.bid < df.length := by
      intro M
      induction M with
      | nil => intro q _ t h'; cases h'
      | cons p M ih =>
        intro q hM t h'
        simp only [tradeRound] at h'
        have hp := hM p List.mem_cons_self
        rcases List.mem_append.mp h' with h' | h'
        · have : t.bid = p.1 ∨ t.bid = p.2 := by
            rw [tradeOne_entries] at h'
            split_ifs at h' <;> simp only [List.mem_cons, List.not_mem_nil, or_false] at h' <;>
              rcases h' with rfl | rfl <;> simp
          obtain ⟨l1, l2⟩ := isPair_lt hp
          rcases this with e | e
          · rw [e]; exact l1
          · rw [e]; exact l2
        · exact ih _ (fun x hx => hM x (List.mem_cons_of_mem _ hx)) t h'
    exact hmem R.flatten (qtyOf df) hR.pair t (by rw [← hR.loop.trans]; exact htt)
  obtain ⟨⟨q, hplan, rfl⟩, _⟩ := hb
  -- leave out the meetings at a loss
  set q' : ℕ → ℕ → ℚ := fun i j => if priceOf df j ≤ priceOf df i then q i j else 0 with hq'
  have hle : ∀ i j, 0 ≤ q' i j ∧ q' i j ≤ q i j := by
    intro i j
    have := hplan.nonneg i j
    simp only [hq']
    split_ifs
    · exact ⟨this, le_refl _⟩
    · exact ⟨le_refl _, this⟩
  have hne : ∀ i j, q' i j ≠ 0 → q i j ≠ 0 ∧ priceOf df j ≤ priceOf df i := by
    intro i j h0
    simp only [hq'] at h0
    split_ifs at h0 with hc
    · exact ⟨h0, hc⟩
    · exact absurd rfl h0
  have hplan' : TradePlan df q' := by
    refine ⟨fun i j => (hle i j).1, fun i j h0 => hplan.pair i j (hne i j h0).1, ?_, ?_⟩
    · intro i
      exact le_trans (List.sum_le_sum (fun j _ => (hle i j).2)) (hplan.buyer i)
    · intro j
      exact le_trans (List.sum_le_sum (fun i _ => (hle i j).2)) (hplan.seller j)
  have hvol := plan_le_twice ht hknown hnn (fun b s k1 k2 => hsat b s ⟨k1, k2⟩) hplan'
    (fun i j h0 => (hne i j h0).2)
  rw [← hbal] at hvol
  have hw : planWelfare df (priceOf df) q ≤ Δ * planVolume df q' := by
    unfold planWelfare planVolume
    rw [← List.sum_map_mul_left]
    apply List.sum_le_sum
    intro i _
    rw [← List.sum_map_mul_left]
    apply List.sum_le_sum
    intro j _
    by_cases h0 : q i j = 0
    · have : q' i j = 0 := le_antisymm (h0 ▸ (hle i j).2) (hle i j).1
      rw [h0, this, mul_zero, mul_zero]
    · have hn := hplan.nonneg i j
      simp only [hq']
      split_ifs with hc
      · exact mul_le_mul_of_nonneg_right (hgain i j (hplan.pair i j h0) hc).2 hn
      · rw [mul_zero]
        exact mul_nonpos_of_nonpos_of_nonneg (by linarith [not_le.mp hc]) hn
  have h5 : planWelfare df (priceOf df) q ≤ Δ * (2 * boughtQty df tm.trans) :=
    hw.trans (mul_le_mul_of_nonneg_left (by linarith) hD)
  calc δ * planWelfare df (priceOf df) q ≤ δ * (Δ * (2 * boughtQty df tm.trans)) :=
        mul_le_mul_of_nonneg_left h5 hd
    _ = 2 * Δ * (δ * boughtQty df tm.trans) := by ring
    _ ≤ 2 * Δ * gains df (priceOf df) tm.trans := mul_le_mul_of_nonneg_left hlow (by linarith)

/-- Buyers 1 @ `H + 1` and 1 @ 1, sellers 1 @ 0 and 1 @ `H`. -/
def misfits (H : ℚ) : DF := labelFrom 0
  [⟨1, H + 1, 0, true, 0, true⟩, ⟨1, 1, 1, true, 0, true⟩, ⟨1, 0, 2, false, 0, true⟩, ⟨1, H, 3, false, 0, true⟩]

theorem misfits_table (H : ℚ) : IsTable (misfits H) := rfl

theorem misfits_facts (H : ℚ) (i : ℕ) : isBuy (misfits H) i = decide (i < 2) ∧
    isSell (misfits H) i = decide (2 ≤ i ∧ i < 4) ∧ qtyOf (misfits H) i = (if i < 4 then 1 else 0) := by
  match i with
  | 0 => exact ⟨rfl, rfl, rfl⟩
  | 1 => exact ⟨rfl, rfl, rfl⟩
  | 2 => exact ⟨rfl, rfl, rfl⟩
  | 3 => exact ⟨rfl, rfl, rfl⟩
  | n + 4 => exact ⟨by simp [isBuy, misfits, labelFrom], by simp [isSell, misfits, labelFrom],
      by simp [qtyOf, misfits, labelFrom]⟩

/-- The bad run: the dear seller meets the rich buyer and the cheap seller the poor one. -/
theorem misfits_process (H : ℚ) : Process (misfits H) (qtyOf (misfits H)) [] true [[(0, 3), (1, 2)]] := by
  have hl : (misfits H).length = 4 := rfl
  refine ⟨?_, by simp, ⟨?_, ?_, ?_⟩, Or.inl ?_⟩
  · unfold totalLeft
    rw [hl]
    have : (List.range 4).map (qtyOf (misfits H)) = [1, 1, 1, 1] := rfl
    rw [this]; norm_num
  · intro p hp
    simp only [List.mem_cons, List.not_mem_nil, or_false] at hp
    unfold openPairs
    simp only [Finset.mem_filter, Finset.mem_product, Finset.mem_range, (misfits_facts H _).1,
      (misfits_facts H _).2.1, hl]
    rcases hp with rfl | rfl <;> simp
  · simp [Apart]
  · intro p hp
    unfold openPairs at hp
    simp only [Finset.mem_filter, Finset.mem_product, Finset.mem_range, (misfits_facts H _).1,
      (misfits_facts H _).2.1, decide_eq_true_eq] at hp
    obtain ⟨_, h1, _⟩ := hp
    rcases (by omega : p.1 = 0 ∨ p.1 = 1) with e | e
    · exact ⟨(0, 3), by simp, fun h => h.1 e⟩
    · exact ⟨(1, 2), by simp, fun h => h.1 e⟩
  · unfold totalLeft
    rw [hl]
    have e0 : priceOf (misfits H) 0 = H + 1 := rfl
    have e1 : priceOf (misfits H) 1 = 1 := rfl
    have e2 : priceOf (misfits H) 2 = 0 := rfl
    have e3 : priceOf (misfits H) 3 = H := rfl
    have q0 : qtyOf (misfits H) 0 = 1 := rfl
    have q1 : qtyOf (misfits H) 1 = 1 := rfl
    have q2 : qtyOf (misfits H) 2 = 1 := rfl
    have q3 : qtyOf (misfits H) 3 = 1 := rfl
    simp [List.range_succ, leftover, e0, e1, e2, e3, q0, q1, q2, q3]

/-- **C110 (no fixed share).** No positive share of the possible gains is guaranteed: for every `ε > 0` there are a
book of four unit bids and random choices with which, for every price coefficient, peer to peer trading realises
less than the share `ε`, although everybody trades everything. -/
theorem C110_no_fixed_share (ε : ℚ) (hε : 0 < ε) :
    ∃ df, IsTable df ∧ df.length = 4 ∧ (∀ r ∈ df, r.quantity = 1 ∧ 0 ≤ r.price) ∧
      ∀ c, ∃ choice tm R best, p2pRandom c choice df = .ok (tm, .p2p R) ∧
        (∀ i < 4, tradedBy tm.trans i = qtyOf df i) ∧
        BestWelfare df (priceOf df) best ∧ 0 < best ∧
        0 < gains df (priceOf df) tm.trans ∧ gains df (priceOf df) tm.trans < ε * best := by
  set H : ℚ := 2 / ε with hH
  have hHpos : 0 < H := by positivity
  refine ⟨misfits H, misfits_table H, rfl, ?_, ?_⟩
  · intro r hr
    simp only [misfits, labelFrom, List.mem_cons, List.not_mem_nil, or_false] at hr
    rcases hr with rfl | rfl | rfl | rfl
    · exact ⟨rfl, by simp only; linarith⟩
    · exact ⟨rfl, by norm_num⟩
    · exact ⟨rfl, le_refl _⟩
    · exact ⟨rfl, hHpos.le⟩
  intro c
  obtain ⟨choice, tm, hrun⟩ := (C87_runs c (misfits H) (misfits_table H) _).mpr (misfits_process H)
  have hq : ∀ r ∈ misfits H, 0 ≤ r.quantity := by
    intro r hr
    simp only [misfits, labelFrom, List.mem_cons, List.not_mem_nil, or_false] at hr
    rcases hr with rfl | rfl | rfl | rfl <;> norm_num
  obtain ⟨⟨best, hbest⟩, hall⟩ := C39_welfare (misfits H) (misfits_table H) hq (fun _ => none)
  have hB : BestWelfare (misfits H) (priceOf (misfits H)) best := (hall best hbest).2
  have hge : H + 1 ≤ best := by
    apply hB.2
    refine ⟨fun i j => if i = 0 ∧ j = 2 then 1 else 0, ⟨?_, ?_, ?_, ?_⟩, ?_⟩
    · intro i j; split_ifs <;> norm_num
    · intro i j h0
      split_ifs at h0 with hij
      · obtain ⟨rfl, rfl⟩ := hij; exact ⟨rfl, rfl⟩
      · exact absurd rfl h0
    · intro i
      have hl : (misfits H).length = 4 := rfl
      rw [hl, (misfits_facts H i).2.2]
      by_cases hi : i = 0
      · subst hi; simp [List.range_succ]
      · simp only [hi, false_and, if_false]
        simp only [List.map_const', List.sum_replicate, smul_zero]
        split_ifs <;> norm_num
    · intro j
      have hl : (misfits H).length = 4 := rfl
      rw [hl, (misfits_facts H j).2.2]
      by_cases hj : j = 2
      · subst hj; simp [List.range_succ]
      · simp only [hj, and_false, if_false]
        simp only [List.map_const', List.sum_replicate, smul_zero]
        split_ifs <;> norm_num
    · have hl : (misfits H).length = 4 := rfl
      have e0 : priceOf (misfits H) 0 = H + 1 := rfl
      have e2 : priceOf (misfits H) 2 = 0 := rfl
      unfold planWelfare
      rw [hl]
      simp [List.range_succ, e0, e2]
  obtain ⟨tm', R', hrun', hR⟩ := p2p_run c choice (misfits H) (misfits_table H)
  rw [hrun] at hrun'
  cases hrun'
  have hpr : IsPair (misfits H) 0 3 ∧ IsPair (misfits H) 1 2 := ⟨⟨rfl, rfl⟩, ⟨rfl, rfl⟩⟩
  have e0 : priceOf (misfits H) 0 = H + 1 := rfl
  have e1 : priceOf (misfits H) 1 = 1 := rfl
  have e2 : priceOf (misfits H) 2 = 0 := rfl
  have e3 : priceOf (misfits H) 3 = H := rfl
  have q0 : qtyOf (misfits H) 0 = 1 := rfl
  have q1 : qtyOf (misfits H) 1 = 1 := rfl
  have q2 : qtyOf (misfits H) 2 = 1 := rfl
  have q3 : qtyOf (misfits H) 3 = 1 := rfl
  have h03 : priceOf (misfits H) 3 ≤ priceOf (misfits H) 0 := by rw [e0, e3]; linarith
  have h12 : priceOf (misfits H) 2 ≤ priceOf (misfits H) 1 := by rw [e1, e2]; norm_num
  have hts : tm.trans = (tradeOne (priceOf (misfits H)) c (qtyOf (misfits H)) (0, 3)).2 ++
      (tradeOne (priceOf (misfits H)) c (tradeOne (priceOf (misfits H)) c (qtyOf (misfits H)) (0, 3)).1 (1, 2)).2 := by
    rw [hR.loop.trans]
    simp [tradeRound]
  have hq12 : (tradeOne (priceOf (misfits H)) c (qtyOf (misfits H)) (0, 3)).1 1 = 1 ∧
      (tradeOne (priceOf (misfits H)) c (qtyOf (misfits H)) (0, 3)).1 2 = 1 := by
    constructor <;> simp [tradeOne, setQ, h03, q1, q2]
  have hg : gains (misfits H) (priceOf (misfits H)) tm.trans = 2 := by
    rw [hts, gains_append, (gains_meeting c _ hpr.1).1, (gains_meeting c _ hpr.2).1, if_pos h03, if_pos h12,
      hq12.1, hq12.2, q0, q3, e0, e1, e2, e3]
    norm_num
  refine ⟨choice, tm, _, best, hrun, ?_, hB, by linarith, by rw [hg]; norm_num, ?_⟩
  · intro i hi
    rw [hts, tradeOne_entries, tradeOne_entries, if_pos h03, if_pos h12]
    simp only [hq12.1, hq12.2, q0, q3]
    rcases (by omega : i = 0 ∨ i = 1 ∨ i = 2 ∨ i = 3) with rfl | rfl | rfl | rfl <;>
      simp [tradedBy, q0, q1, q2, q3]
  · rw [hg]
    calc (2 : ℚ) = ε * H := by rw [hH]; field_simp
      _ < ε * best := mul_lt_mul_of_pos_left (by linarith) hε

/-- The hypotheses of `C110_share` hold for `halfBook` with `δ = 1` and `Δ = 4`. -/
example : IsTable halfBook ∧ (∀ r ∈ halfBook, 0 ≤ r.quantity) ∧
    (∀ b ∈ halfBook, ∀ s ∈ halfBook, b.buying = true → s.buying = false → s.price ≤ b.price →
      1 ≤ b.price - s.price ∧ b.price - s.price ≤ 4) ∧
    ∃ tm ex, p2pRandom (1 / 2) (fun _ => 1) halfBook = .ok (tm, ex) ∧
      gains halfBook (priceOf halfBook) tm.trans = 3 :=
  ⟨by decide +kernel, by decide +kernel, by decide +kernel, _, _, rfl, by decide +kernel⟩

end PyMarket
