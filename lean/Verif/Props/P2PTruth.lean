import Verif.Props.P2PCoef
import Verif.Props.P2PDistribution
import Verif.Lemmas.KnownBids

/-! # C90: misreporting the price in peer to peer trading -/

set_option autoImplicit false

namespace PyMarket

open Spec

/-- What the transactions of bid `i` are worth to a buyer with value `v`. -/
def Spec.buyerGain (v : ℚ) (ts : List Transaction) (i : ℕ) : ℚ :=
  ((ts.filter (fun t => t.bid == i)).map (fun t => t.quantity * (v - t.price))).sum

/-- What the transactions of bid `i` are worth to a seller with cost `v`. -/
def Spec.sellerGain (v : ℚ) (ts : List Transaction) (i : ℕ) : ℚ :=
  ((ts.filter (fun t => t.bid == i)).map (fun t => t.quantity * (t.price - v))).sum

/-- The table in which bid `i` reports the price `x`. -/
def Spec.reporting (df : DF) (i : ℕ) (x : ℚ) : DF :=
  df.mapIdx (fun j r => if j = i then { r with price := x } else r)

/-! ## Runs that differ in one price -/

/-- The parts of a table that decide who can meet. -/
def keys (df : DF) : List (ℕ × Bool) := df.map (fun r => (r.label, r.buying))

theorem keys_reporting (df : DF) (i : ℕ) (x : ℚ) : keys (reporting df i x) = keys df := by
  unfold keys reporting
  apply List.ext_getElem?
  intro j
  simp only [List.getElem?_map, List.getElem?_mapIdx, Option.map_map]
  congr 1
  funext r
  simp only [Function.comp_apply]
  split <;> rfl

theorem buys_keys (df : DF) : (buys df).map (fun r => r.label) =
    ((keys df).filter (fun k => k.2)).map Prod.fst := by
  unfold buys keys
  rw [List.filter_map, List.map_map]
  rfl

theorem sells_keys (df : DF) : (sells df).map (fun r => r.label) =
    ((keys df).filter (fun k => !k.2)).map Prod.fst := by
  unfold sells keys
  rw [List.filter_map, List.map_map]
  rfl

theorem allPairs_keys (df : DF) : allPairs df =
    ((buys df).map (fun r => r.label)).flatMap (fun b => ((sells df).map (fun r => r.label)).map (fun s => (b, s))) := by
  unfold allPairs
  rw [List.flatMap_map]
  simp only [List.map_map]
  rfl

section
variable {df df' : DF}

theorem allPairs_congr (h : keys df' = keys df) : allPairs df' = allPairs df := by
  rw [allPairs_keys, allPairs_keys, buys_keys, buys_keys, sells_keys, sells_keys, h]

theorem exhausted_congr (h : keys df' = keys df) (q : ℕ → ℚ) : exhausted df' q = exhausted df q := by
  unfold exhausted
  rw [buys_keys, buys_keys, sells_keys, sells_keys, h]

theorem sum_congr (h : keys df' = keys df) (q : ℕ → ℚ) :
    (df'.map (fun r => q r.label)).sum = (df.map (fun r => q r.label)).sum := by
  have : ∀ df : DF, df.map (fun r => q r.label) = (keys df).map (fun k => q k.1) := by
    intro df; unfold keys; rw [List.map_map]; rfl
  rw [this, this, h]

/-- Meetings that do not involve `i` do not depend on its price. -/
theorem tradeRound_congr {π π' : ℕ → ℚ} {i : ℕ} (hπ : ∀ j, j ≠ i → π' j = π j) (c : ℚ) (q : ℕ → ℚ)
    (M : List (ℕ × ℕ)) (hM : ∀ p ∈ M, p.1 ≠ i ∧ p.2 ≠ i) :
    tradeRound π' c q M = tradeRound π c q M ∧
      (∀ t ∈ (tradeRound π c q M).2, t.bid ≠ i) ∧ (tradeRound π c q M).1 i = q i := by
  induction M generalizing q with
  | nil => exact ⟨rfl, by simp [tradeRound], rfl⟩
  | cons p M ih =>
    obtain ⟨h1, h2⟩ := hM p List.mem_cons_self
    have he : tradeOne π' c q p = tradeOne π c q p := by
      unfold tradeOne
      simp only [hπ _ h1, hπ _ h2]
    obtain ⟨i1, i2, i3⟩ := ih (tradeOne π c q p).1 (fun p hp => hM p (List.mem_cons_of_mem _ hp))
    have hone : (∀ t ∈ (tradeOne π c q p).2, t.bid ≠ i) ∧ (tradeOne π c q p).1 i = q i := by
      unfold tradeOne
      simp only
      split
      · refine ⟨?_, ?_⟩
        · intro t ht
          simp only [List.mem_cons, List.not_mem_nil, or_false] at ht
          rcases ht with rfl | rfl
          · exact h1
          · exact h2
        · simp only [setQ, if_neg (Ne.symm h1), if_neg (Ne.symm h2)]
      · refine ⟨?_, rfl⟩
        intro t ht
        simp only [List.mem_cons, List.not_mem_nil, or_false] at ht
        rcases ht with rfl | rfl
        · exact h1
        · exact h2
    refine ⟨by simp only [tradeRound, he, i1], ?_, i3.trans hone.2⟩
    simp only [tradeRound]
    intro t ht
    rcases List.mem_append.mp ht with ht | ht
    · exact hone.1 t ht
    · exact i2 t ht

/-- A bid that can meet nobody has no transactions. -/
theorem p2pLoop_absent (df : DF) (π : ℕ → ℚ) (c : ℚ) (choice : ℕ → ℕ) (n : ℕ) (q : ℕ → ℚ)
    (active : List (ℕ × ℕ)) (inactive : List ℕ) (hn : active.Nodup) {i : ℕ}
    (hi : ∀ p ∈ active, p.1 ≠ i ∧ p.2 ≠ i) :
    ∀ t ∈ (p2pLoop df π c choice n q active inactive).2, t.bid ≠ i := by
  have hL := p2pLoop_spec df π c choice n q active inactive hn
  rw [hL.trans]
  exact (tradeRound_congr (π := π) (π' := π) (fun _ _ => rfl) c q _
    (fun p hp => hi p (hL.subset p hp))).2.1

theorem sellerGain_append (v : ℚ) (A B : List Transaction) (i : ℕ) :
    sellerGain v (A ++ B) i = sellerGain v A i + sellerGain v B i := by
  simp [sellerGain]

theorem sellerGain_absent (v : ℚ) {A : List Transaction} {i : ℕ} (h : ∀ t ∈ A, t.bid ≠ i) :
    sellerGain v A i = 0 := by
  unfold sellerGain
  rw [List.filter_eq_nil_iff.mpr]
  · rfl
  · intro t ht; simpa using h t ht

theorem buyerGain_eq (v : ℚ) (ts : List Transaction) (i : ℕ) :
    buyerGain v ts i = - sellerGain v ts i := by
  unfold buyerGain sellerGain
  induction ts.filter (fun t => t.bid == i) with
  | nil => simp
  | cons t l ih =>
    simp only [List.map_cons, List.sum_cons] at ih ⊢
    rw [ih]; ring

theorem sellerGain_tradeOne (v : ℚ) (π : ℕ → ℚ) (c : ℚ) (q : ℕ → ℚ) (p : ℕ × ℕ) (hp : p.1 ≠ p.2)
    {i : ℕ} (hi : p.1 = i ∨ p.2 = i) :
    sellerGain v (tradeOne π c q p).2 i = if π p.2 ≤ π p.1 then
      min (q p.1) (q p.2) * (π p.1 * c + (1 - c) * π p.2 - v) else 0 := by
  rw [tradeOne_entries]
  split
  · rcases hi with rfl | rfl
    · simp [sellerGain, hp.symm]
    · simp [sellerGain, hp]
  · rcases hi with rfl | rfl
    · simp [sellerGain, hp.symm]
    · simp [sellerGain, hp]

/-- A bid that can only meet in the pair `p₀` trades a quantity that does not depend on its price,
if it trades at all. -/
theorem p2pLoop_single (π : ℕ → ℚ) (c : ℚ) (choice : ℕ → ℕ) (n : ℕ)
    (q : ℕ → ℚ) (active : List (ℕ × ℕ)) (inactive : List ℕ) (hn : active.Nodup)
    (hne : ∀ p ∈ active, p.1 ≠ p.2) (hq : ∀ j, 0 ≤ q j) {i : ℕ} {p₀ : ℕ × ℕ}
    (hp₀ : p₀.1 = i ∨ p₀.2 = i)
    (hi : ∀ p ∈ active, (p.1 = i ∨ p.2 = i) → p = p₀) :
    ∃ Q : ℚ, 0 ≤ Q ∧ ∀ (df' : DF) (ρ : ℕ → ℚ), keys df' = keys df → (∀ j, j ≠ i → ρ j = π j) →
      ∀ v, sellerGain v (p2pLoop df' ρ c choice n q active inactive).2 i =
        if ρ p₀.2 ≤ ρ p₀.1 then Q * (ρ p₀.1 * c + (1 - c) * ρ p₀.2 - v) else 0 := by
  fun_induction p2pLoop df π c choice n q active inactive with
  | case1 n q active inactive tmp hcond m t rest ih =>
    have hs := meetLoop_spec choice n active tmp hn
    have hact : ∀ p ∈ m.2.2, p ∈ active := fun p hp => (mem_maskOut.mp (hs.subset p hp)).1
    have hsub : ∀ p ∈ m.2.1, p ∈ active := fun p hp => ((hs.mem p).mp hp).1
    have hstep : ∀ (df' : DF) (ρ : ℕ → ℚ), keys df' = keys df →
        (p2pLoop df' ρ c choice n q active inactive).2 =
          (tradeRound ρ c q m.2.2).2 ++ (p2pLoop df' ρ c choice m.1 (tradeRound ρ c q m.2.2).1 m.2.1
            (exhausted df (tradeRound ρ c q m.2.2).1)).2 := by
      intro df' ρ hk
      rw [p2pLoop, dif_pos (by rw [sum_congr hk]; exact hcond)]
      simp only [exhausted_congr hk]
      rfl
    have hmnd : m.2.2.Nodup := by
      refine hs.disjoint.imp ?_
      intro a b hab hEq
      subst hEq
      exact hab (touch_refl _)
    by_cases hin : p₀ ∈ m.2.2
    · obtain ⟨A, B, hAB⟩ := List.append_of_mem hin
      rw [hAB, List.nodup_append] at hmnd
      have hA : ∀ p ∈ A, p.1 ≠ i ∧ p.2 ≠ i := by
        intro p hp
        by_contra hcon
        have h1 : p = p₀ := hi p (hact p (by rw [hAB]; exact List.mem_append_left _ hp)) (by tauto)
        exact hmnd.2.2 p hp p₀ List.mem_cons_self h1
      have hB : ∀ p ∈ B, p.1 ≠ i ∧ p.2 ≠ i := by
        intro p hp
        by_contra hcon
        have hmem : p ∈ m.2.2 := by rw [hAB]; exact List.mem_append_right A (List.mem_cons_of_mem p₀ hp)
        have h1 : p = p₀ := hi p (hact p hmem) (by tauto)
        exact (List.nodup_cons.mp hmnd.2.1).1 (h1 ▸ hp)
      have hrest : ∀ p ∈ m.2.1, p.1 ≠ i ∧ p.2 ≠ i := by
        intro p hp
        by_contra hcon
        have h1 : p = p₀ := hi p (hsub p hp) (by tauto)
        exact ((hs.mem p).mp hp).2 (h1 ▸ hin)
      have hpne : p₀.1 ≠ p₀.2 := hne p₀ (hact p₀ hin)
      have hqA : ∀ j, 0 ≤ (tradeRound π c q A).1 j := fun j =>
        (tradeRound_bounds π c q A (fun p hp => hne p (hact p (by
          rw [hAB]; exact List.mem_append_left _ hp))) hq j).1
      refine ⟨min ((tradeRound π c q A).1 p₀.1) ((tradeRound π c q A).1 p₀.2),
        le_min (hqA _) (hqA _), ?_⟩
      intro df' ρ hk hρ v
      rw [hstep df' ρ hk, sellerGain_append,
        sellerGain_absent v (p2pLoop_absent df' ρ c choice _ _ _ _ hs.nodup hrest), add_zero, hAB,
        tradeRound_append, sellerGain_append, (tradeRound_congr hρ c q A hA).1,
        sellerGain_absent v (tradeRound_congr hρ c q A hA).2.1, zero_add]
      simp only [tradeRound]
      rw [sellerGain_append, sellerGain_absent v (tradeRound_congr (π := ρ) (π' := ρ)
        (fun _ _ => rfl) c _ B hB).2.1, add_zero, sellerGain_tradeOne v ρ c _ p₀ hpne hp₀]
    · have hM : ∀ p ∈ m.2.2, p.1 ≠ i ∧ p.2 ≠ i := by
        intro p hp
        by_contra hcon
        have h1 : p = p₀ := hi p (hact p hp) (by tauto)
        exact hin (h1 ▸ hp)
      obtain ⟨Q, hQ, h⟩ := ih hs.nodup (fun p hp => hne p (hsub p hp))
        (fun j => (tradeRound_bounds π c q m.2.2 (fun p hp => hne p (hact p hp)) hq j).1)
        (fun p hp => hi p (hsub p hp))
      refine ⟨Q, hQ, ?_⟩
      intro df' ρ hk hρ v
      rw [hstep df' ρ hk, sellerGain_append, (tradeRound_congr hρ c q _ hM).1,
        sellerGain_absent v (tradeRound_congr hρ c q _ hM).2.1, zero_add]
      exact h df' ρ hk hρ v
  | case2 n q active inactive tmp hcond =>
    refine ⟨0, le_refl _, ?_⟩
    intro df' ρ hk hρ v
    rw [p2pLoop, dif_neg (by rw [sum_congr hk]; exact hcond)]
    simp [sellerGain]

end

section
variable {df : DF} {i : ℕ} {x : ℚ}

theorem getElem?_reporting (j : ℕ) : (reporting df i x)[j]? =
    (df[j]?).map (fun r => if j = i then { r with price := x } else r) := by
  unfold reporting
  rw [List.getElem?_mapIdx]

theorem isTable_reporting (ht : IsTable df) : IsTable (reporting df i x) := by
  have h1 : ∀ l : DF, l.map (fun r => r.label) = (keys l).map Prod.fst := by
    intro l; unfold keys; rw [List.map_map]; rfl
  have h2 : (reporting df i x).length = df.length := by unfold reporting; rw [List.length_mapIdx]
  unfold IsTable
  rw [h1, keys_reporting, ← h1, h2]
  exact ht

theorem qtyOf_reporting : qtyOf (reporting df i x) = qtyOf df := by
  funext j
  unfold qtyOf
  rw [getElem?_reporting, Option.map_map]
  congr 2
  funext r
  simp only [Function.comp_apply]
  split <;> rfl

theorem priceOf_reporting_ne {j : ℕ} (h : j ≠ i) : priceOf (reporting df i x) j = priceOf df j := by
  unfold priceOf
  rw [getElem?_reporting]
  simp only [if_neg h, Option.map_id']

theorem priceOf_reporting_self (h : i < df.length) : priceOf (reporting df i x) i = x := by
  unfold priceOf
  rw [getElem?_reporting, List.getElem?_eq_getElem h]
  simp

end

/-- Bids of one pair that are alone: the outcome for any report. -/
theorem p2p_single (c : ℚ) (choice : ℕ → ℕ) (df : DF) (ht : IsTable df) (hq : ∀ r ∈ df, 0 ≤ r.quantity) (i : ℕ)
    (p₀ : ℕ × ℕ) (hp₀ : p₀.1 = i ∨ p₀.2 = i)
    (hi : ∀ b s, IsPair df b s → (b = i ∨ s = i) → (b, s) = p₀) :
    ∃ Q : ℚ, 0 ≤ Q ∧ ∀ x, ∃ tm R, p2pRandom c choice (reporting df i x) = .ok (tm, .p2p R) ∧
      ∀ v, sellerGain v tm.trans i =
        if priceOf (reporting df i x) p₀.2 ≤ priceOf (reporting df i x) p₀.1 then
          Q * (priceOf (reporting df i x) p₀.1 * c + (1 - c) * priceOf (reporting df i x) p₀.2 - v)
        else 0 := by
  obtain ⟨Q, hQ, h⟩ := p2pLoop_single (df := df) (priceOf df) c choice 0 (qtyOf df) (allPairs df) []
    (allPairs_nodup ht) (fun p hp => allPairs_ne ht hp) (qtyOf_nonneg hq) hp₀
    (fun p hp hpi => hi p.1 p.2 ((mem_allPairs_iff ht).mp hp) hpi)
  refine ⟨Q, hQ, fun x => ?_⟩
  have hx := h (reporting df i x) (priceOf (reporting df i x)) (keys_reporting df i x)
    (fun j hj => priceOf_reporting_ne hj)
  obtain ⟨tm, R, hr, hL⟩ := p2p_run c choice (reporting df i x) (isTable_reporting ht)
  refine ⟨tm, R, hr, fun v => ?_⟩
  simp only [p2pRandom, Except.ok.injEq, Prod.mk.injEq] at hr
  rw [← hr.1, TransactionManager.init_addAll_trans, valueAt_qty, valueAt_price,
    allPairs_congr (keys_reporting df i x), qtyOf_reporting]
  exact hx v

/-- **C90, one seller.** If there is only one selling bid `s`, there is a quantity that does not
depend on the price reported by the buying bid `i`, and for every report `x`, the bid trades it at
`c·x + (1 − c)·(price of s)` if `x` is at least the price of `s` and otherwise trades nothing. -/
theorem C90_one_seller (c : ℚ) (choice : ℕ → ℕ) (df : DF) (ht : IsTable df) (hq : ∀ r ∈ df, 0 ≤ r.quantity) (i s : ℕ)
    (hib : isBuy df i = true) (hs : isSell df s = true) (honly : ∀ s', isSell df s' = true → s' = s) :
    ∃ Q : ℚ, 0 ≤ Q ∧ ∀ x, ∃ tm R, p2pRandom c choice (reporting df i x) = .ok (tm, .p2p R) ∧
      ∀ v, buyerGain v tm.trans i =
        if priceOf df s ≤ x then Q * (v - (c * x + (1 - c) * priceOf df s)) else 0 := by
  have hne : i ≠ s := isPair_ne (df := df) ⟨hib, hs⟩
  have hlen : i < df.length := lt_of_isBuy hib
  obtain ⟨Q, hQ, h⟩ := p2p_single c choice df ht hq i (i, s) (Or.inl rfl) (by
    rintro b s' ⟨h1, h2⟩ hor
    rw [honly s' h2]
    rcases hor with rfl | rfl
    · rfl
    · exact absurd (honly _ h2) hne)
  refine ⟨Q, hQ, fun x => ?_⟩
  obtain ⟨tm, R, hr, hv⟩ := h x
  refine ⟨tm, R, hr, fun v => ?_⟩
  rw [buyerGain_eq, hv v]
  simp only [priceOf_reporting_self hlen, priceOf_reporting_ne hne.symm]
  split <;> ring

/-- **C90, one buyer.** The same for a selling bid `i` when there is only one buying bid `b`. -/
theorem C90_one_buyer (c : ℚ) (choice : ℕ → ℕ) (df : DF) (ht : IsTable df) (hq : ∀ r ∈ df, 0 ≤ r.quantity) (i b : ℕ)
    (his : isSell df i = true) (hb : isBuy df b = true) (honly : ∀ b', isBuy df b' = true → b' = b) :
    ∃ Q : ℚ, 0 ≤ Q ∧ ∀ x, ∃ tm R, p2pRandom c choice (reporting df i x) = .ok (tm, .p2p R) ∧
      ∀ v, sellerGain v tm.trans i =
        if x ≤ priceOf df b then Q * (c * priceOf df b + (1 - c) * x - v) else 0 := by
  have hne : b ≠ i := isPair_ne (df := df) ⟨hb, his⟩
  have hlen : i < df.length := lt_of_isSell his
  obtain ⟨Q, hQ, h⟩ := p2p_single c choice df ht hq i (b, i) (Or.inr rfl) (by
    rintro b' s ⟨h1, h2⟩ hor
    rw [honly b' h1]
    rcases hor with rfl | rfl
    · exact absurd (honly _ h1) hne.symm
    · rfl)
  refine ⟨Q, hQ, fun x => ?_⟩
  obtain ⟨tm, R, hr, hv⟩ := h x
  refine ⟨tm, R, hr, fun v => ?_⟩
  rw [hv v]
  simp only [priceOf_reporting_self hlen, priceOf_reporting_ne hne]
  split <;> ring

/-- **C90, buyers (partial).** With one selling bid, a buyer gains nothing by reporting more than its
value, for every price coefficient in [0, 1]; and nothing by any report if the coefficient is 0, when
trades are at the seller's price. Missing: several selling bids, and reporting less than the value
when the coefficient is positive; both claims are false then (`C90_refuted_sellers`,
`C90_refuted_shading`). -/
theorem C90_buyer_partial (c : ℚ) (hc0 : 0 ≤ c) (hc1 : c ≤ 1) (choice : ℕ → ℕ) (df : DF)
    (ht : IsTable df) (hq : ∀ r ∈ df, 0 ≤ r.quantity) (i s : ℕ) (hib : isBuy df i = true) (hs : isSell df s = true)
    (honly : ∀ s', isSell df s' = true → s' = s) (v x : ℚ) (hx : v ≤ x ∨ c = 0) :
    ∃ tm R tm' R', p2pRandom c choice (reporting df i v) = .ok (tm, .p2p R) ∧
      p2pRandom c choice (reporting df i x) = .ok (tm', .p2p R') ∧
      buyerGain v tm'.trans i ≤ buyerGain v tm.trans i := by
  obtain ⟨Q, hQ, h⟩ := C90_one_seller c choice df ht hq i s hib hs honly
  obtain ⟨tm, R, h1, h2⟩ := h v
  obtain ⟨tm', R', h1', h2'⟩ := h x
  refine ⟨tm, R, tm', R', h1, h1', ?_⟩
  rw [h2, h2']
  split <;> split
  · rename_i e1 e2
    apply mul_le_mul_of_nonneg_left _ hQ
    rcases hx with hx | rfl
    · nlinarith
    · linarith
  · rename_i e1 e2
    apply mul_nonpos_of_nonneg_of_nonpos hQ
    rcases hx with hx | rfl
    · nlinarith
    · linarith
  · rename_i e1 e2
    apply mul_nonneg hQ
    nlinarith
  · exact le_refl _

/-- **C90, sellers (partial).** With one buying bid, a seller gains nothing by reporting less than its
cost, for every price coefficient in [0, 1]; and nothing by any report if the coefficient is 1. -/
theorem C90_seller_partial (c : ℚ) (hc0 : 0 ≤ c) (hc1 : c ≤ 1) (choice : ℕ → ℕ) (df : DF)
    (ht : IsTable df) (hq : ∀ r ∈ df, 0 ≤ r.quantity) (i b : ℕ) (his : isSell df i = true) (hb : isBuy df b = true)
    (honly : ∀ b', isBuy df b' = true → b' = b) (v x : ℚ) (hx : x ≤ v ∨ c = 1) :
    ∃ tm R tm' R', p2pRandom c choice (reporting df i v) = .ok (tm, .p2p R) ∧
      p2pRandom c choice (reporting df i x) = .ok (tm', .p2p R') ∧
      sellerGain v tm'.trans i ≤ sellerGain v tm.trans i := by
  obtain ⟨Q, hQ, h⟩ := C90_one_buyer c choice df ht hq i b his hb honly
  obtain ⟨tm, R, h1, h2⟩ := h v
  obtain ⟨tm', R', h1', h2'⟩ := h x
  refine ⟨tm, R, tm', R', h1, h1', ?_⟩
  rw [h2, h2']
  split <;> split
  · rename_i e1 e2
    apply mul_le_mul_of_nonneg_left _ hQ
    rcases hx with hx | rfl
    · nlinarith
    · linarith
  · rename_i e1 e2
    apply mul_nonpos_of_nonneg_of_nonpos hQ
    rcases hx with hx | rfl
    · nlinarith
    · linarith
  · rename_i e1 e2
    apply mul_nonneg hQ
    nlinarith
  · exact le_refl _

/-! ## What is false -/

/-- The run for any draws that agree with given draws where they matter. -/
theorem p2p_witness {df : DF} (ht : IsTable df) (R : List (List (ℕ × ℕ))) (choice : ℕ → ℕ)
    (h : (p2pRandom 0 choice df).toOption.map Prod.snd = some (.p2p R)) (c : ℚ) (choice' : ℕ → ℕ)
    (hw : ∀ k w, (options df (qtyOf df) [] true R)[k]? = some w → choice' k ≡ choice k [MOD w]) :
    ∃ tm, p2pRandom c choice' df = .ok (tm, .p2p R) ∧
      tm.trans = (tradeRound (priceOf df) c (qtyOf df) R.flatten).2 := by
  obtain ⟨tm, tm₀, _, R', h1, h2, _⟩ := C91_coefficient c 0 c 1 (by ring) choice df ht
  rw [h2] at h
  simp only [Except.toOption, Option.map_some, Option.some.injEq, Extra.p2p.injEq] at h
  subst h
  obtain ⟨tm', h'⟩ := ((C87_draws c df ht _ choice tm h1).2 choice').mpr hw
  obtain ⟨tm'', R'', e, hR⟩ := p2p_run c choice' df ht
  rw [h'] at e
  cases e
  exact ⟨tm', h', hR.loop.trans⟩

/-- One buyer and two sellers. -/
def twoSellers : DF := labelFrom 0 [⟨1, 10, 0, true, 0, true⟩, ⟨1, 9, 1, false, 0, true⟩,
  ⟨1, 1, 2, false, 0, true⟩]

/-- The mirror image: one seller and two buyers. -/
def twoBuyers : DF := labelFrom 0 [⟨1, 1, 0, false, 0, true⟩, ⟨1, 2, 1, true, 0, true⟩,
  ⟨1, 10, 2, true, 0, true⟩]

theorem mod_two {choice : ℕ → ℕ} {o : List ℕ} {a : ℕ} (ho : o = [2] ∨ o = [2, 1])
    (h : choice 0 % 2 = a % 2) : ∀ k w, o[k]? = some w → choice k ≡ (fun _ => a) k [MOD w] := by
  intro k w hk
  rcases ho with rfl | rfl
  · match k, hk with
    | 0, hk =>
      simp only [List.getElem?_cons_zero, Option.some.injEq] at hk
      subst hk
      exact h
  · match k, hk with
    | 0, hk =>
      simp only [List.getElem?_cons_zero, Option.some.injEq] at hk
      subst hk
      exact h
    | 1, hk =>
      simp only [List.getElem?_cons_succ, List.getElem?_cons_zero, Option.some.injEq] at hk
      subst hk
      exact Nat.modEq_one

/-- **C90, refuted for buyers.** For every price coefficient in [0, 1] there is a book, with two
sellers, in which a buyer of value 10 that reports 5 instead is never worse off, whatever the draws,
and better off whenever the first draw is even: it then does not trade with the expensive seller and
meets the cheap one later. -/
theorem C90_refuted_sellers (c : ℚ) (hc0 : 0 ≤ c) (hc1 : c ≤ 1) :
    ∃ (df : DF) (i : ℕ) (x : ℚ), IsTable df ∧ Pos df ∧ isBuy df i = true ∧ ∀ choice : ℕ → ℕ,
      ∃ tm R tm' R', p2pRandom c choice df = .ok (tm, .p2p R) ∧
        p2pRandom c choice (reporting df i x) = .ok (tm', .p2p R') ∧
        buyerGain (priceOf df i) tm.trans i ≤ buyerGain (priceOf df i) tm'.trans i ∧
        (choice 0 % 2 = 0 → buyerGain (priceOf df i) tm.trans i < buyerGain (priceOf df i) tm'.trans i) := by
  have ht : IsTable twoSellers := isTable_labelFrom _
  have ht' : IsTable (reporting twoSellers 0 5) := isTable_reporting ht
  refine ⟨twoSellers, 0, 5, ht, by unfold Pos; decide +kernel, by decide +kernel, fun choice => ?_⟩
  have hp : priceOf twoSellers 0 = 10 := by decide +kernel
  have hp1 : priceOf twoSellers 1 = 9 := by decide +kernel
  have hp2 : priceOf twoSellers 2 = 1 := by decide +kernel
  have hp' : priceOf (reporting twoSellers 0 5) 0 = 5 := by decide +kernel
  have hp1' : priceOf (reporting twoSellers 0 5) 1 = 9 := by decide +kernel
  have hp2' : priceOf (reporting twoSellers 0 5) 2 = 1 := by decide +kernel
  have hq : ∀ i ∈ [0, 1, 2], qtyOf twoSellers i = 1 ∧ qtyOf (reporting twoSellers 0 5) i = 1 := by
    decide +kernel
  simp only [List.mem_cons, List.not_mem_nil, or_false, forall_eq_or_imp, forall_eq] at hq
  obtain ⟨⟨q0, q0'⟩, ⟨q1, q1'⟩, ⟨q2, q2'⟩⟩ := hq
  rcases Nat.mod_two_eq_zero_or_one (choice 0) with h | h
  · obtain ⟨tm, h1, h2⟩ := p2p_witness ht [[(0, 1)]] (fun _ => 0) (by decide +kernel) c choice
      (mod_two (Or.inl (by decide +kernel)) h)
    obtain ⟨tm', h1', h2'⟩ := p2p_witness ht' [[(0, 1)], [(0, 2)]] (fun _ => 0) (by decide +kernel) c
      choice (mod_two (Or.inr (by decide +kernel)) h)
    refine ⟨tm, _, tm', _, h1, h1', ?_⟩
    rw [h2, h2']
    have e1 : buyerGain (priceOf twoSellers 0)
        (tradeRound (priceOf twoSellers) c (qtyOf twoSellers) [[(0, 1)]].flatten).2 0 = 1 - c := by
      norm_num [tradeRound, tradeOne, buyerGain, hp, hp1, q0, q1]
      try ring
    have e2 : buyerGain (priceOf twoSellers 0)
        (tradeRound (priceOf (reporting twoSellers 0 5)) c (qtyOf (reporting twoSellers 0 5))
          [[(0, 1)], [(0, 2)]].flatten).2 0 = 9 - 4 * c := by
      norm_num [tradeRound, tradeOne, buyerGain, hp, hp', hp1', hp2', q0', q2']
      try ring
    rw [e1, e2]
    exact ⟨by linarith, fun _ => by linarith⟩
  · obtain ⟨tm, h1, h2⟩ := p2p_witness ht [[(0, 2)]] (fun _ => 1) (by decide +kernel) c choice
      (mod_two (Or.inl (by decide +kernel)) h)
    obtain ⟨tm', h1', h2'⟩ := p2p_witness ht' [[(0, 2)]] (fun _ => 1) (by decide +kernel) c
      choice (mod_two (Or.inl (by decide +kernel)) h)
    refine ⟨tm, _, tm', _, h1, h1', ?_⟩
    rw [h2, h2']
    have e1 : buyerGain (priceOf twoSellers 0)
        (tradeRound (priceOf twoSellers) c (qtyOf twoSellers) [[(0, 2)]].flatten).2 0 = 9 - 9 * c := by
      norm_num [tradeRound, tradeOne, buyerGain, hp, hp2, q0, q2]
      try ring
    have e2 : buyerGain (priceOf twoSellers 0)
        (tradeRound (priceOf (reporting twoSellers 0 5)) c (qtyOf (reporting twoSellers 0 5))
          [[(0, 2)]].flatten).2 0 = 9 - 4 * c := by
      norm_num [tradeRound, tradeOne, buyerGain, hp, hp', hp2', q0', q2']
      try ring
    rw [e1, e2]
    exact ⟨by linarith, fun h0 => by omega⟩

/-- **C90, refuted for sellers.** The mirror image. -/
theorem C90_refuted_buyers (c : ℚ) (hc0 : 0 ≤ c) (hc1 : c ≤ 1) :
    ∃ (df : DF) (i : ℕ) (x : ℚ), IsTable df ∧ Pos df ∧ isSell df i = true ∧ ∀ choice : ℕ → ℕ,
      ∃ tm R tm' R', p2pRandom c choice df = .ok (tm, .p2p R) ∧
        p2pRandom c choice (reporting df i x) = .ok (tm', .p2p R') ∧
        sellerGain (priceOf df i) tm.trans i ≤ sellerGain (priceOf df i) tm'.trans i ∧
        (choice 0 % 2 = 0 →
          sellerGain (priceOf df i) tm.trans i < sellerGain (priceOf df i) tm'.trans i) := by
  have ht : IsTable twoBuyers := isTable_labelFrom _
  have ht' : IsTable (reporting twoBuyers 0 6) := isTable_reporting ht
  refine ⟨twoBuyers, 0, 6, ht, by unfold Pos; decide +kernel, by decide +kernel, fun choice => ?_⟩
  have hp : priceOf twoBuyers 0 = 1 := by decide +kernel
  have hp1 : priceOf twoBuyers 1 = 2 := by decide +kernel
  have hp2 : priceOf twoBuyers 2 = 10 := by decide +kernel
  have hp' : priceOf (reporting twoBuyers 0 6) 0 = 6 := by decide +kernel
  have hp1' : priceOf (reporting twoBuyers 0 6) 1 = 2 := by decide +kernel
  have hp2' : priceOf (reporting twoBuyers 0 6) 2 = 10 := by decide +kernel
  have hq : ∀ i ∈ [0, 1, 2], qtyOf twoBuyers i = 1 ∧ qtyOf (reporting twoBuyers 0 6) i = 1 := by
    decide +kernel
  simp only [List.mem_cons, List.not_mem_nil, or_false, forall_eq_or_imp, forall_eq] at hq
  obtain ⟨⟨q0, q0'⟩, ⟨q1, q1'⟩, ⟨q2, q2'⟩⟩ := hq
  rcases Nat.mod_two_eq_zero_or_one (choice 0) with h | h
  · obtain ⟨tm, h1, h2⟩ := p2p_witness ht [[(1, 0)]] (fun _ => 0) (by decide +kernel) c choice
      (mod_two (Or.inl (by decide +kernel)) h)
    obtain ⟨tm', h1', h2'⟩ := p2p_witness ht' [[(1, 0)], [(2, 0)]] (fun _ => 0) (by decide +kernel) c
      choice (mod_two (Or.inr (by decide +kernel)) h)
    refine ⟨tm, _, tm', _, h1, h1', ?_⟩
    rw [h2, h2']
    have e1 : sellerGain (priceOf twoBuyers 0)
        (tradeRound (priceOf twoBuyers) c (qtyOf twoBuyers) [[(1, 0)]].flatten).2 0 = c := by
      norm_num [tradeRound, tradeOne, sellerGain, hp, hp1, q0, q1]
      try ring
    have e2 : sellerGain (priceOf twoBuyers 0)
        (tradeRound (priceOf (reporting twoBuyers 0 6)) c (qtyOf (reporting twoBuyers 0 6))
          [[(1, 0)], [(2, 0)]].flatten).2 0 = 5 + 4 * c := by
      norm_num [tradeRound, tradeOne, sellerGain, hp, hp', hp1', hp2', q0', q2']
      try ring
    rw [e1, e2]
    exact ⟨by linarith, fun _ => by linarith⟩
  · obtain ⟨tm, h1, h2⟩ := p2p_witness ht [[(2, 0)]] (fun _ => 1) (by decide +kernel) c choice
      (mod_two (Or.inl (by decide +kernel)) h)
    obtain ⟨tm', h1', h2'⟩ := p2p_witness ht' [[(2, 0)]] (fun _ => 1) (by decide +kernel) c
      choice (mod_two (Or.inl (by decide +kernel)) h)
    refine ⟨tm, _, tm', _, h1, h1', ?_⟩
    rw [h2, h2']
    have e1 : sellerGain (priceOf twoBuyers 0)
        (tradeRound (priceOf twoBuyers) c (qtyOf twoBuyers) [[(2, 0)]].flatten).2 0 = 9 * c := by
      norm_num [tradeRound, tradeOne, sellerGain, hp, hp2, q0, q2]
      try ring
    have e2 : sellerGain (priceOf twoBuyers 0)
        (tradeRound (priceOf (reporting twoBuyers 0 6)) c (qtyOf (reporting twoBuyers 0 6))
          [[(2, 0)]].flatten).2 0 = 5 + 4 * c := by
      norm_num [tradeRound, tradeOne, sellerGain, hp, hp', hp2', q0', q2']
      try ring
    rw [e1, e2]
    exact ⟨by linarith, fun h0 => by omega⟩

/-- One buyer and one seller. -/
def onePair : DF := labelFrom 0 [⟨1, 10, 0, true, 0, true⟩, ⟨1, 0, 1, false, 0, true⟩]

theorem mod_one {choice : ℕ → ℕ} {o : List ℕ} (ho : o = [1]) :
    ∀ k w, o[k]? = some w → choice k ≡ (fun _ => 0) k [MOD w] := by
  intro k w hk
  subst ho
  match k, hk with
  | 0, hk =>
    simp only [List.getElem?_cons_zero, Option.some.injEq] at hk
    subst hk
    exact Nat.modEq_one

/-- **C90, refuted for one pair.** Even if there is one buyer and one seller, for every positive price
coefficient the buyer gains by reporting less than its value, whatever the draws. -/
theorem C90_refuted_shading (c : ℚ) (hc0 : 0 < c) :
    ∃ (df : DF) (i : ℕ) (x : ℚ), IsTable df ∧ NonNeg df ∧ isBuy df i = true ∧ df.length = 2 ∧
      ∀ choice : ℕ → ℕ, ∃ tm R tm' R', p2pRandom c choice df = .ok (tm, .p2p R) ∧
        p2pRandom c choice (reporting df i x) = .ok (tm', .p2p R') ∧
        buyerGain (priceOf df i) tm.trans i < buyerGain (priceOf df i) tm'.trans i := by
  have ht : IsTable onePair := isTable_labelFrom _
  have ht' : IsTable (reporting onePair 0 5) := isTable_reporting ht
  refine ⟨onePair, 0, 5, ht, by unfold NonNeg; decide +kernel, by decide +kernel, rfl, fun choice => ?_⟩
  have hp : priceOf onePair 0 = 10 := by decide +kernel
  have hp1 : priceOf onePair 1 = 0 := by decide +kernel
  have hp' : priceOf (reporting onePair 0 5) 0 = 5 := by decide +kernel
  have hp1' : priceOf (reporting onePair 0 5) 1 = 0 := by decide +kernel
  have hq : ∀ i ∈ [0, 1], qtyOf onePair i = 1 ∧ qtyOf (reporting onePair 0 5) i = 1 := by
    decide +kernel
  simp only [List.mem_cons, List.not_mem_nil, or_false, forall_eq_or_imp, forall_eq] at hq
  obtain ⟨⟨q0, q0'⟩, ⟨q1, q1'⟩⟩ := hq
  obtain ⟨tm, h1, h2⟩ := p2p_witness ht [[(0, 1)]] (fun _ => 0) (by decide +kernel) c choice
    (mod_one (by decide +kernel))
  obtain ⟨tm', h1', h2'⟩ := p2p_witness ht' [[(0, 1)]] (fun _ => 0) (by decide +kernel) c choice
    (mod_one (by decide +kernel))
  refine ⟨tm, _, tm', _, h1, h1', ?_⟩
  rw [h2, h2']
  have e1 : buyerGain (priceOf onePair 0)
      (tradeRound (priceOf onePair) c (qtyOf onePair) [[(0, 1)]].flatten).2 0 = 10 - 10 * c := by
    norm_num [tradeRound, tradeOne, buyerGain, hp, hp1, q0, q1]
    try ring
  have e2 : buyerGain (priceOf onePair 0)
      (tradeRound (priceOf (reporting onePair 0 5)) c (qtyOf (reporting onePair 0 5))
        [[(0, 1)]].flatten).2 0 = 10 - 5 * c := by
    norm_num [tradeRound, tradeOne, buyerGain, hp, hp', hp1', q0', q1']
    try ring
  rw [e1, e2]
  linarith

/-- Two buyers and one seller: the hypotheses of the positive results, with trade. -/
example : IsTable (labelFrom 0 [⟨1, 10, 0, true, 0, true⟩, ⟨1, 7, 1, true, 0, true⟩,
      ⟨2, 3, 2, false, 0, true⟩]) ∧
    (p2pRandom (1/2) (fun _ => 0) (labelFrom 0 [⟨1, 10, 0, true, 0, true⟩, ⟨1, 7, 1, true, 0, true⟩,
      ⟨2, 3, 2, false, 0, true⟩])).toOption.map (fun r => buyerGain 10 r.1.trans 0) = some (7/2) ∧
    ∀ s', isSell (labelFrom 0 [⟨1, 10, 0, true, 0, true⟩, ⟨1, 7, 1, true, 0, true⟩,
      ⟨2, 3, 2, false, 0, true⟩]) s' = true → s' = 2 := by
  refine ⟨isTable_labelFrom _, by decide +kernel, ?_⟩
  intro s' h
  have := lt_of_isSell h
  simp only [labelFrom, List.length_cons, List.length_nil] at this
  rcases (by omega : s' = 0 ∨ s' = 1 ∨ s' = 2) with rfl | rfl | rfl
  · exact absurd h (by decide +kernel)
  · exact absurd h (by decide +kernel)
  · rfl

end PyMarket
