import Verif.Props.P2P
import Verif.Props.Muda
import Verif.Lemmas.HuangOutcome

/-! # C55, C57, C58: P2P and MUDA with `merge=True` -/

set_option autoImplicit false

namespace PyMarket

open Spec

theorem mechRun_two_sided (algo : Algo) (df : DF) :
    mechRun algo df = algo df ∨ mechRun algo df = .ok (TransactionManager.init, .empty) := by
  unfold mechRun
  simp only
  split_ifs
  · exact Or.inl rfl
  · exact Or.inr rfl

/-- A run with merging that returns went through the algorithm on the merged table. -/
theorem mechanism_merge_inv (smp : Sampler) (algo : Algo) {df nb : DF} {mp : List (List ℕ)}
    (hm : mergeSamePrice smp df = .ok (nb, mp)) {tm' : TransactionManager} {ex : Extra}
    (h : mechanism smp true algo df = .ok (tm', ex)) :
    ∃ tm, mechRun algo nb = .ok (tm, ex) := by
  unfold mechanism at h
  simp only [if_true, hm, bind, Except.bind] at h
  cases hr : mechRun algo nb with
  | error e => rw [hr] at h; cases h
  | ok o =>
    obtain ⟨tm, ex'⟩ := o
    rw [hr] at h
    simp only at h
    cases hs : splitTransactions tm df mp with
    | error e => rw [hs] at h; cases h
    | ok tm'' => rw [hs] at h; cases h; exact ⟨tm, rfl⟩

/-- What conservation means for a log: entries of submitted bids with non-negative quantities, no bid
trades more than submitted, and what is bought is sold. -/
structure Spec.Conserves (df : DF) (ts : List Transaction) : Prop where
  entries : ∀ t ∈ ts, t.bid < df.length ∧ 0 ≤ t.quantity
  bounded : ∀ i, tradedBy ts i ≤ qtyOf df i
  balanced : boughtQty df ts = soldQty df ts

theorem MergeSpec.conserves {df nb : DF} {mp : List (List ℕ)} (hM : MergeSpec df nb mp)
    (hq : ∀ r ∈ df, 0 ≤ r.quantity) {ts : List Transaction} (h : Conserves nb ts) :
    Conserves df (ts.flatMap (splitT df mp)) := by
  have hlt : ∀ t ∈ ts, t.bid < nb.length := fun t ht => (h.entries t ht).1
  have hent : ∀ t ∈ ts.flatMap (splitT df mp), t.bid < df.length ∧ 0 ≤ t.quantity := by
    intro t' ht'
    obtain ⟨t, htm, row, r, g1, g2, g3, g4, g5, g6, g7, g8, g9, _⟩ := hM.mem_lift hlt ht'
    refine ⟨(List.getElem?_eq_some_iff.mp g2).1, ?_⟩
    rw [g8]
    exact mul_nonneg (h.entries t htm).2
      (div_nonneg (hq r (List.mem_of_getElem? g2)) g9.le)
  refine ⟨hent, ?_, ?_⟩
  · intro i
    by_cases hi : i < df.length
    · obtain ⟨k, ids, hk, hids, hmem⟩ := hM.exists_group hi
      obtain ⟨row, ids', h1, h2, _, h4, h5, h6⟩ := hM.get hk
      rw [hids] at h2
      cases h2
      obtain ⟨r, hr, _⟩ := h6 i hmem
      rw [hM.tradedBy_lift hlt hids h1 hmem hr, qtyOf_some hr]
      have hb := h.bounded k
      rw [qtyOf_some h1] at hb
      have hr0 := hq r (List.mem_of_getElem? hr)
      calc tradedBy ts k * (r.quantity / row.quantity)
          ≤ row.quantity * (r.quantity / row.quantity) :=
            mul_le_mul_of_nonneg_right hb (div_nonneg hr0 h5.le)
        _ = r.quantity := by rw [mul_div_cancel₀ _ h5.ne']
    · have h0 : tradedBy (ts.flatMap (splitT df mp)) i = 0 := by
        unfold tradedBy
        rw [List.filter_eq_nil_iff.mpr]
        · rfl
        · intro t ht hti
          rw [beq_iff_eq] at hti
          exact hi (hti ▸ (hent t ht).1)
      have h1 : qtyOf df i = 0 := by
        simp [qtyOf, List.getElem?_eq_none (not_lt.mp hi)]
      rw [h0, h1]
  · rw [hM.boughtQty_lift hlt, hM.soldQty_lift hlt]
    exact h.balanced

theorem conserves_nil {df : DF} (hq : ∀ r ∈ df, 0 ≤ r.quantity) : Conserves df [] := by
  refine ⟨by simp, ?_, rfl⟩
  intro i
  change (0 : ℚ) ≤ _
  unfold qtyOf
  cases h : df[i]? with
  | none => exact le_refl _
  | some r => exact hq r (List.mem_of_getElem? h)

theorem isPair_lt {df : DF} {b s : ℕ} (h : IsPair df b s) : b < df.length ∧ s < df.length := by
  obtain ⟨h1, h2⟩ := h
  constructor
  · by_contra hc
    simp [isBuy, List.getElem?_eq_none (not_lt.mp hc)] at h1
  · by_contra hc
    simp [isSell, List.getElem?_eq_none (not_lt.mp hc)] at h2

/-- Everything about P2P on one table that survives merging. -/
theorem p2p_conserves (c : ℚ) (choice : ℕ → ℕ) {df : DF} (ht : IsTable df) (hq : ∀ r ∈ df, 0 ≤ r.quantity) :
    ∃ tm ex, mechRun (p2pRandom c choice) df = .ok (tm, ex) ∧ Conserves df tm.trans ∧
      ∀ t ∈ tm.trans, ∃ b s, IsPair df b s ∧
        ((t.bid = b ∧ t.source = (s : ℤ)) ∨ (t.bid = s ∧ t.source = (b : ℤ))) ∧
        PriceRule df c t b s ∧ (t.quantity ≠ 0 → priceOf df s ≤ priceOf df b) := by
  rcases mechRun_two_sided (p2pRandom c choice) df with h | h
  · obtain ⟨tm, R, h1, h2⟩ := C21_price_rule c choice df ht
    obtain ⟨tm', ex, h1', h3, h4, h5, _⟩ := C20_conservation c choice df ht hq
    rw [h1] at h1'
    cases h1'
    have hlog : ∀ t ∈ tm.trans, ∃ b s, IsPair df b s ∧
        ((t.bid = b ∧ t.source = (s : ℤ)) ∨ (t.bid = s ∧ t.source = (b : ℤ))) ∧
        PriceRule df c t b s ∧ (t.quantity ≠ 0 → priceOf df s ≤ priceOf df b) := by
      intro t htt
      obtain ⟨b, s, _, hp, hor, hrule, hc⟩ := h2 t htt
      exact ⟨b, s, hp, hor, hrule, fun h0 => (hc h0).1⟩
    refine ⟨tm, _, h.trans h1, ⟨?_, h4, h5⟩, hlog⟩
    intro t htt
    refine ⟨?_, h3 t htt⟩
    obtain ⟨b, s, hp, hor, _⟩ := hlog t htt
    have := isPair_lt hp
    rcases hor with h | h
    · rw [h.1]; exact this.1
    · rw [h.1]; exact this.2
  · refine ⟨_, _, h, conserves_nil hq, ?_⟩
    intro t htt; cases htt

/-- **C57 (P2P).** With `merge=True`, `Market.run('p2p')` returns a log that conserves quantities, for
every book without zero-quantity price groups and every random schedule. -/
theorem C57_p2p (S : Sorter) (smp : Sampler) (c : ℚ) (choice : ℕ → ℕ) (df : DF) (ht : IsTable df)
    (hp : GroupQty df) :
    ∃ tm ex, runAlgo S smp (.p2p true c choice) df = .ok (tm, ex) ∧ Conserves df tm.trans := by
  obtain ⟨nb, mp, hm, hM⟩ := merge_spec_qty smp ht hp
  obtain ⟨tm, ex, hrun, hC, _⟩ := p2p_conserves c choice hM.table (fun r hr => (hM.qty r hr).le)
  obtain ⟨tm', e1, e2⟩ := mechanism_merge smp (p2pRandom c choice) hm hM hrun
    (fun t htt => (hC.entries t htt).1)
  exact ⟨tm', ex, e1, by rw [e2]; exact hM.conserves hp.1 hC⟩

theorem tradedBy_single {ts : List Transaction} (hn : (ts.map (fun t => t.bid)).Nodup)
    {t : Transaction} (ht : t ∈ ts) : tradedBy ts t.bid = t.quantity := by
  unfold tradedBy
  have : ts.filter (fun t' => t'.bid == t.bid) = [t] := by
    induction ts with
    | nil => cases ht
    | cons a ts ih =>
      rw [List.map_cons, List.nodup_cons] at hn
      rcases List.mem_cons.mp ht with rfl | h
      · rw [List.filter_cons, if_pos (by simp), List.filter_eq_nil_iff.mpr]
        intro t' ht' he
        exact hn.1 (List.mem_map.mpr ⟨t', ht', beq_iff_eq.mp he⟩)
      · rw [List.filter_cons, if_neg, ih hn.2 h]
        intro he
        exact hn.1 (List.mem_map.mpr ⟨t, h, (beq_iff_eq.mp he).symm⟩)
  rw [this]; simp

theorem muda_mechRun {S : Sorter} {coin : ℕ → Bool} {df : DF} (ht : IsTable df)
    (hq : ∀ r ∈ df, 0 ≤ r.quantity) {tm : TransactionManager} {ex : Extra}
    (h : mechRun (muda S coin) df = .ok (tm, ex)) : Conserves df tm.trans ∧
      ∀ t ∈ tm.trans, (isBuy df t.bid = true → t.price ≤ priceOf df t.bid) ∧
        (isSell df t.bid = true → priceOf df t.bid ≤ t.price) := by
  rcases mechRun_two_sided (muda S coin) df with h' | h'
  · rw [h] at h'
    obtain ⟨left, right, pl, pr, fees, rfl, _⟩ := muda_run ht h'.symm
    obtain ⟨_, _, g3, g4, g5⟩ := C25_balance S coin df ht hq tm left right pl pr fees h'.symm
    have hr := C26_rational S coin df ht hq tm left right pl pr fees h'.symm
    refine ⟨⟨fun t htt => ⟨(g5 t htt).1, (g5 t htt).2.1⟩, ?_, g3⟩,
      fun t htt => ⟨(hr t htt).1, (hr t htt).2.1⟩⟩
    intro i
    by_cases hi : ∃ t ∈ tm.trans, t.bid = i
    · obtain ⟨t, htt, rfl⟩ := hi
      rw [tradedBy_single g4 htt]
      exact (g5 t htt).2.2.1
    · have h0 : tradedBy tm.trans i = 0 := by
        unfold tradedBy
        rw [List.filter_eq_nil_iff.mpr]
        · rfl
        · intro t htt he
          exact hi ⟨t, htt, beq_iff_eq.mp he⟩
      rw [h0]
      exact (conserves_nil hq).bounded i
  · rw [h] at h'
    cases h'
    exact ⟨conserves_nil hq, by intro t htt; cases htt⟩

/-- **C57 (MUDA).** Whenever `Market.run('muda', merge=True)` returns, its log conserves quantities. -/
theorem C57_muda (S : Sorter) (smp : Sampler) (coin : ℕ → Bool) (df : DF) (ht : IsTable df)
    (hp : GroupQty df) (tm : TransactionManager) (ex : Extra)
    (h : runAlgo S smp (.muda true coin) df = .ok (tm, ex)) : Conserves df tm.trans := by
  obtain ⟨nb, mp, hm, hM⟩ := merge_spec_qty smp ht hp
  obtain ⟨tm0, hrun⟩ := mechanism_merge_inv smp (muda S coin) hm h
  obtain ⟨hC, _⟩ := muda_mechRun hM.table (fun r hr => (hM.qty r hr).le) hrun
  obtain ⟨tm', e1, e2⟩ := mechanism_merge smp (muda S coin) hm hM hrun
    (fun t htt => (hC.entries t htt).1)
  have : runAlgo S smp (.muda true coin) df = mechanism smp true (muda S coin) df := rfl
  rw [this, e1] at h
  cases h
  rw [e2]
  exact hM.conserves hp.1 hC

/-- A book for this file. After rounding and merging, the bids are ordered buyers first and by price,
so the merged ids differ from the submitted ones. The first two bids merge. -/
def mergedBook : DF := labelFrom 0
  [⟨1, 3, 0, true, 0, true⟩, ⟨2, 3000001 / 1000000, 1, true, 0, true⟩, ⟨4, 1, 2, false, 0, true⟩,
   ⟨1, 2, 3, true, 0, true⟩]

/-- Non-vacuity: the merged bid of bids 0 and 1 trades 3 units and is split 1 to 2. -/
example : IsTable mergedBook ∧ Pos mergedBook ∧
    (runAlgo stableSorter headSampler (.p2p true 1 (fun _ => 0)) mergedBook).toOption.map
      (fun r => r.1.trans) = some
      [⟨3, 1, 2, 2, false⟩, ⟨2, 1, 2, 0, true⟩, ⟨0, 1, 3, 2, false⟩, ⟨1, 2, 3, 2, false⟩,
       ⟨2, 3, 3, 1, false⟩] := by decide +kernel

/-- A book for MUDA: bid 0 is rounded up to 1.00001. -/
def mergedMuda : DF := labelFrom 0
  [⟨1, 1000006 / 1000000, 0, true, 0, true⟩, ⟨1, 2, 1, true, 0, true⟩,
   ⟨1, 2 / 100000, 2, false, 0, true⟩, ⟨1, 1 / 2, 3, false, 0, true⟩]

theorem mergedMuda_run : (runAlgo stableSorter headSampler
    (.muda true (fun i => decide (i = 0 ∨ i = 3))) mergedMuda) = .ok
      (⟨4, [⟨3, 1, 100001 / 100000, -1, false⟩, ⟨0, 1, 100001 / 100000, -1, false⟩,
        ⟨2, 1, 150001 / 200000, -1, false⟩, ⟨1, 1, 150001 / 200000, -1, false⟩]⟩,
       .muda [0, 3] [1, 2] (.fin (150001 / 200000)) (.fin (100001 / 100000)) [0, 0, 0, 0]) := by
  decide +kernel

/-! ### C58 -/

/-- No buyer pays more than the submitted price plus `ε` and no seller receives less than the
submitted price minus `ε`, in entries of positive quantity. -/
def Spec.PricesWithin (ε : ℚ) (df : DF) (ts : List Transaction) : Prop :=
  ∀ t ∈ ts, 0 < t.quantity → (isBuy df t.bid = true → t.price ≤ priceOf df t.bid + ε) ∧
    (isSell df t.bid = true → priceOf df t.bid - ε ≤ t.price)

/-- The bound carries over from the rounded to the submitted prices. -/
theorem MergeSpec.prices {df nb : DF} {mp : List (List ℕ)} (hM : MergeSpec df nb mp)
    {ts : List Transaction} {ε : ℚ}
    (hlt : ∀ t ∈ ts, t.bid < nb.length ∧ 0 ≤ t.quantity) (h : PricesWithin 0 nb ts)
    (he : ∀ r ∈ df, |npRound 5 r.price - r.price| ≤ ε) :
    PricesWithin ε df (ts.flatMap (splitT df mp)) := by
  intro t' ht' h0
  obtain ⟨t, htm, row, r, g1, g2, g3, g4, g5, g6, g7, g8, g9, _⟩ :=
    hM.mem_lift (fun t ht => (hlt t ht).1) ht'
  have hpos : 0 < t.quantity := by
    rcases lt_or_eq_of_le (hlt t htm).2 with h | h
    · exact h
    · rw [g8, ← h, zero_mul] at h0
      exact absurd h0 (lt_irrefl _)
  obtain ⟨h1, h2⟩ := h t htm hpos
  have hab := abs_le.mp (he r (List.mem_of_getElem? g2))
  rw [isBuy_some g1, priceOf_some g1, ← g4] at h1
  rw [isSell_some g1, priceOf_some g1, ← g4] at h2
  rw [isBuy_some g2, isSell_some g2, priceOf_some g2, g3, g5]
  exact ⟨fun hb => by linarith [h1 hb, hab.2], fun hb => by linarith [h2 hb, hab.1]⟩

theorem p2p_prices {df : DF} {c : ℚ} (hc0 : 0 ≤ c) (hc1 : c ≤ 1) {ts : List Transaction}
    (h : ∀ t ∈ ts, ∃ b s, IsPair df b s ∧
        ((t.bid = b ∧ t.source = (s : ℤ)) ∨ (t.bid = s ∧ t.source = (b : ℤ))) ∧
        PriceRule df c t b s ∧ (t.quantity ≠ 0 → priceOf df s ≤ priceOf df b)) :
    PricesWithin 0 df ts := by
  intro t htt h0
  obtain ⟨b, s, hp, hor, hrule, hc⟩ := h t htt
  have hle := hc h0.ne'
  have hpr := hrule.1 hle
  have hlo : priceOf df s ≤ t.price := by rw [hpr]; nlinarith
  have hhi : t.price ≤ priceOf df b := by rw [hpr]; nlinarith
  have hb : ∀ {i j}, isBuy df i = true → isSell df j = true → i ≠ j :=
    fun h1 h2 => isPair_ne (df := df) ⟨h1, h2⟩
  rcases hor with ⟨e, _⟩ | ⟨e, _⟩
  · rw [e]
    exact ⟨fun _ => by rw [add_zero]; exact hhi, fun hs => absurd rfl (hb hp.1 hs)⟩
  · rw [e]
    exact ⟨fun hbuy => absurd rfl (hb hbuy hp.2), fun _ => by rw [sub_zero]; exact hlo⟩

/-- **C58 (P2P, what holds).** With `merge=True` the submitted prices are respected up to half a unit
of the fifth decimal, and exactly if all prices have at most five decimals (`ε = 0`). Missing for
C58: the rounding error itself, see `C58_p2p_refuted`. -/
theorem C58_p2p_partial (S : Sorter) (smp : Sampler) (c : ℚ) (hc0 : 0 ≤ c) (hc1 : c ≤ 1)
    (choice : ℕ → ℕ) (df : DF) (ht : IsTable df) (hp : GroupQty df) :
    ∃ tm ex, runAlgo S smp (.p2p true c choice) df = .ok (tm, ex) ∧
      PricesWithin (1 / 200000) df tm.trans ∧
      ((∀ r ∈ df, IsRounded 5 r.price r.price) → PricesWithin 0 df tm.trans) := by
  obtain ⟨nb, mp, hm, hM⟩ := merge_spec_qty smp ht hp
  obtain ⟨tm, ex, hrun, hC, hlog⟩ := p2p_conserves c choice hM.table (fun r hr => (hM.qty r hr).le)
  obtain ⟨tm', e1, e2⟩ := mechanism_merge smp (p2pRandom c choice) hm hM hrun
    (fun t htt => (hC.entries t htt).1)
  refine ⟨tm', ex, e1, ?_, ?_⟩
  · rw [e2]
    refine hM.prices hC.entries (p2p_prices hc0 hc1 hlog) ?_
    intro r _
    have := npRound_near 5 r.price
    norm_num at this
    exact this
  · intro hr
    rw [e2]
    refine hM.prices hC.entries (p2p_prices hc0 hc1 hlog) ?_
    intro r hrm
    rw [isRounded_unique (npRound_isRounded 5 _) (hr r hrm), sub_self, abs_zero]

/-- **C58 (MUDA, what holds).** The same for MUDA, whenever it returns. The run `mergedMuda_run`
meets the hypotheses, and `mergedBook` those of the P2P version. -/
theorem C58_muda_partial (S : Sorter) (smp : Sampler) (coin : ℕ → Bool) (df : DF) (ht : IsTable df)
    (hp : GroupQty df) (tm : TransactionManager) (ex : Extra)
    (h : runAlgo S smp (.muda true coin) df = .ok (tm, ex)) :
    PricesWithin (1 / 200000) df tm.trans ∧
      ((∀ r ∈ df, IsRounded 5 r.price r.price) → PricesWithin 0 df tm.trans) := by
  obtain ⟨nb, mp, hm, hM⟩ := merge_spec_qty smp ht hp
  obtain ⟨tm0, hrun⟩ := mechanism_merge_inv smp (muda S coin) hm h
  obtain ⟨hC, hlog⟩ := muda_mechRun hM.table (fun r hr => (hM.qty r hr).le) hrun
  obtain ⟨tm', e1, e2⟩ := mechanism_merge smp (muda S coin) hm hM hrun
    (fun t htt => (hC.entries t htt).1)
  have : runAlgo S smp (.muda true coin) df = mechanism smp true (muda S coin) df := rfl
  rw [this, e1] at h
  cases h
  have h0 : PricesWithin 0 nb tm0.trans := by
    intro t htt _
    obtain ⟨h1, h2⟩ := hlog t htt
    exact ⟨fun hb => by rw [add_zero]; exact h1 hb, fun hb => by rw [sub_zero]; exact h2 hb⟩
  refine ⟨?_, ?_⟩
  · rw [e2]
    refine hM.prices hC.entries h0 ?_
    intro r _
    have := npRound_near 5 r.price
    norm_num at this
    exact this
  · intro hr
    rw [e2]
    refine hM.prices hC.entries h0 ?_
    intro r hrm
    rw [isRounded_unique (npRound_isRounded 5 _) (hr r hrm), sub_self, abs_zero]

/-- C58 at full strength, for a call. -/
def Spec.RespectsPrices (call : AlgoCall) (df : DF) : Prop :=
  ∀ S smp tm ex, runAlgo S smp call df = .ok (tm, ex) → PricesWithin 0 df tm.trans

/-- **C58 (P2P, refuted).** Bid 0 of `mergedMuda` offers 1.000006 and is charged 1.00001. -/
theorem C58_p2p_refuted : ¬ ∀ c choice df, 0 ≤ c → c ≤ 1 → IsTable df → Pos df →
    RespectsPrices (.p2p true c choice) df := by
  intro h
  have h1 := h 1 (fun _ => 0) mergedMuda (by norm_num) (by norm_num) (by decide +kernel)
    (by decide +kernel) stableSorter headSampler
    ⟨4, [⟨0, 1, 100001 / 100000, 2, false⟩, ⟨2, 1, 100001 / 100000, 0, false⟩,
      ⟨1, 1, 2, 3, false⟩, ⟨3, 1, 2, 1, false⟩]⟩ (.p2p [[(0, 2), (1, 3)]]) (by decide +kernel)
  have h2 := (h1 _ List.mem_cons_self (by norm_num)).1 (by decide +kernel)
  revert h2
  decide +kernel

/-- **C58 (MUDA, refuted).** The same bid is charged 1.00001 by MUDA. -/
theorem C58_muda_refuted : ¬ ∀ coin df, IsTable df → Pos df →
    RespectsPrices (.muda true coin) df := by
  intro h
  have h1 := h _ mergedMuda (by decide +kernel) (by decide +kernel) stableSorter headSampler _ _
    mergedMuda_run ⟨0, 1, 100001 / 100000, -1, false⟩ (by simp) (by norm_num)
  have h2 := h1.1 (by decide +kernel)
  revert h2
  decide +kernel

/-! ### C55 -/

/-- C55: every entry's source is a submitted bid of the opposite side. -/
def Spec.NamesCounterparty (df : DF) (ts : List Transaction) : Prop :=
  ∀ t ∈ ts, ∃ j : ℕ, t.source = (j : ℤ) ∧
    (IsPair df t.bid j ∨ IsPair df j t.bid)

/-- **C55 (refuted).** With `merge=True` the source column keeps the ids of the merged table: in
`mergedBook` the buying bid 0 is recorded as trading with bid 2, which is right, but the selling bid
2 with bid 1 for a trade with bids 0 and 1, and the sale to bid 3 with bid 0. In the book below a
bid is recorded as its own counterparty. -/
theorem C55_refuted : ¬ ∀ S smp c choice df tm ex, IsTable df → Pos df →
    runAlgo S smp (.p2p true c choice) df = .ok (tm, ex) → NamesCounterparty df tm.trans := by
  intro h
  have h1 := h stableSorter headSampler 1 (fun _ => 0) (labelFrom 0 [⟨1, 3, 0, true, 0, true⟩,
      ⟨2, 1, 2, false, 0, true⟩, ⟨1, 2, 1, true, 0, true⟩])
    ⟨4, [⟨2, 1, 2, 2, false⟩, ⟨1, 1, 2, 0, true⟩, ⟨0, 1, 3, 2, false⟩, ⟨1, 1, 3, 1, false⟩]⟩
    (.p2p [[(0, 2)], [(1, 2)]]) (by decide +kernel) (by decide +kernel) (by decide +kernel)
    _ List.mem_cons_self
  obtain ⟨j, hj, hp⟩ := h1
  have : j = 2 := by
    have : (2 : ℤ) = (j : ℤ) := hj
    omega
  subst this
  revert hp
  unfold IsPair
  decide +kernel

/-- **C55 (without merging).** Every entry's source is a submitted bid of the opposite side. -/
theorem C55_unmerged_partial (S : Sorter) (smp : Sampler) (c : ℚ) (choice : ℕ → ℕ) (df : DF)
    (ht : IsTable df) (hq : ∀ r ∈ df, 0 ≤ r.quantity) :
    ∃ tm ex, runAlgo S smp (.p2p false c choice) df = .ok (tm, ex) ∧
      NamesCounterparty df tm.trans := by
  obtain ⟨tm, ex, h, _, hlog⟩ := p2p_conserves c choice ht hq
  refine ⟨tm, ex, h, ?_⟩
  intro t htt
  obtain ⟨b, s, hp, hor, _⟩ := hlog t htt
  rcases hor with ⟨h1, h2⟩ | ⟨h1, h2⟩
  · exact ⟨s, h2, Or.inl (by rw [h1]; exact hp)⟩
  · exact ⟨b, h2, Or.inr (by rw [h1]; exact hp)⟩

theorem MergeSpec.isBuy_group {df nb : DF} {mp : List (List ℕ)} (hM : MergeSpec df nb mp) {k : ℕ}
    (hk : k < nb.length) : ∃ ids, mp[k]? = some ids ∧ ids ≠ [] ∧
      ∀ i ∈ ids, isBuy df i = isBuy nb k ∧ isSell df i = isSell nb k := by
  obtain ⟨row, ids, h1, h2, h3, _, _, h6⟩ := hM.get hk
  refine ⟨ids, h2, h3, ?_⟩
  intro i hi
  obtain ⟨r, hr, hb, _⟩ := h6 i hi
  rw [isBuy_some hr, isBuy_some h1, isSell_some hr, isSell_some h1, hb]
  exact ⟨rfl, rfl⟩

/-- **C55 (with merging).** Every entry's source is the id of a group of the merging, and all members
of that group are on the opposite side. Missing for C55: the group id is not translated back. -/
theorem C55_merged_partial (S : Sorter) (smp : Sampler) (c : ℚ) (choice : ℕ → ℕ) (df : DF)
    (ht : IsTable df) (hp : GroupQty df) :
    ∃ tm ex nb mp, runAlgo S smp (.p2p true c choice) df = .ok (tm, ex) ∧
      mergeSamePrice smp df = .ok (nb, mp) ∧
      ∀ t ∈ tm.trans, ∃ (k : ℕ) (ids : List ℕ), t.source = (k : ℤ) ∧ mp[k]? = some ids ∧ ids ≠ [] ∧
        ∀ j ∈ ids, IsPair df t.bid j ∨ IsPair df j t.bid := by
  obtain ⟨nb, mp, hm, hM⟩ := merge_spec_qty smp ht hp
  obtain ⟨tm, ex, hrun, hC, hlog⟩ := p2p_conserves c choice hM.table (fun r hr => (hM.qty r hr).le)
  have hlt : ∀ t ∈ tm.trans, t.bid < nb.length := fun t htt => (hC.entries t htt).1
  obtain ⟨tm', e1, e2⟩ := mechanism_merge smp (p2pRandom c choice) hm hM hrun hlt
  refine ⟨tm', ex, nb, mp, e1, hm, ?_⟩
  intro t' ht'
  rw [e2] at ht'
  obtain ⟨t, htm, row, r, g1, g2, g3, g4, g5, g6, _⟩ := hM.mem_lift hlt ht'
  obtain ⟨b, s, hpair, hor, _⟩ := hlog t htm
  have hbnd := isPair_lt hpair
  have hB : isBuy df t'.bid = isBuy nb t.bid := by rw [isBuy_some g2, isBuy_some g1, g3]
  have hS : isSell df t'.bid = isSell nb t.bid := by rw [isSell_some g2, isSell_some g1, g3]
  rcases hor with ⟨h1, h2⟩ | ⟨h1, h2⟩
  · obtain ⟨ids, hids, hne, hside⟩ := hM.isBuy_group hbnd.2
    refine ⟨s, ids, g6.trans h2, hids, hne, fun j hj => Or.inl ⟨?_, ?_⟩⟩
    · rw [hB, h1]; exact hpair.1
    · rw [(hside j hj).2]; exact hpair.2
  · obtain ⟨ids, hids, hne, hside⟩ := hM.isBuy_group hbnd.1
    refine ⟨b, ids, g6.trans h2, hids, hne, fun j hj => Or.inr ⟨?_, ?_⟩⟩
    · rw [(hside j hj).1]; exact hpair.1
    · rw [hS, h1]; exact hpair.2

end PyMarket
