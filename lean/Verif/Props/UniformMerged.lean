import Verif.Props.MarketPrice
import Verif.Props.HuangMerged
import Verif.Props.Uniform
import Verif.Props.Totals
import Verif.Props.Anonymity

/-! # C121: the uniform price mechanism of the documentation with `merge=True` -/

set_option autoImplicit false

namespace PyMarket

open Spec

theorem Keeps.uniformShort_map {e : Row → Row} (h : Keeps e) (p : ℚ) (rows : DF) :
    uniformShort p (rows.map e) = uniformShort p rows := by
  unfold uniformShort
  rw [List.map_map]
  apply List.map_congr_left
  intro r _
  simp only [Function.comp_apply, h.label, h.quantity]

theorem Keeps.uniformLong_map {e : Row → Row} (h : Keeps e) (p q : ℚ) (rows : DF) (a : ℚ) :
    uniformLong p q a (rows.map e) = uniformLong p q a rows := by
  induction rows generalizing a with
  | nil => rfl
  | cons r rows ih =>
    rw [List.map_cons]
    unfold uniformLong
    rw [h.label, h.quantity, ih]

theorem Keeps.uniformAlgo_map {e : Row → Row} (h : Keeps e) (S : Sorter) (df : DF) :
    uniformAlgo S (df.map e) = uniformAlgo S df := by
  unfold uniformAlgo
  congr 1
  unfold uniformPrice
  simp only [h.demandCurve_map, h.supplyCurve_map, h.buys_map, h.sells_map, h.sortDesc_map,
    h.sortAsc_map, ← List.map_take, h.qsum_map]
  congr 1
  funext i
  split
  · split_ifs <;> simp only [h.qsum_map, h.uniformShort_map, h.uniformLong_map]
  · rfl

section

variable {df nb : DF} {mp : List (List ℕ)}

theorem roundedBook_qtyOf (i : ℕ) : qtyOf (roundedBook (npRound 5) df) i = qtyOf df i := by
  unfold qtyOf
  rw [roundedBook_get]
  cases df[i]? <;> rfl

theorem roundedBook_priceOf {i : ℕ} {r : Row} (h : df[i]? = some r) :
    priceOf (roundedBook (npRound 5) df) i = npRound 5 r.price := by
  have : (roundedBook (npRound 5) df)[i]? = some { r with price := npRound 5 r.price } := by
    rw [roundedBook_get, h]; rfl
  rw [priceOf_some this]

theorem roundedBook_pos (h : Pos df) : Pos (roundedBook (npRound 5) df) := by
  intro r hr
  have h0 := roundedBook_nonNeg h.nonNeg r hr
  obtain ⟨r', hr', rfl⟩ := List.mem_map.mp hr
  exact ⟨(h r' hr').1, h0.2⟩

/-- Where a bid went in the merged book. -/
theorem MergeSpec.of_bid (hM : MergeSpec df nb mp) {i : ℕ} {r : Row} (hr : df[i]? = some r) :
    ∃ (k : ℕ) (ids : List ℕ) (row : Row), mp[k]? = some ids ∧ i ∈ ids ∧ nb[k]? = some row ∧ r.buying = row.buying ∧
      npRound 5 r.price = row.price ∧ 0 < row.quantity := by
  obtain ⟨k, ids, hk, hids, hmem⟩ := hM.exists_group (List.getElem?_eq_some_iff.mp hr).1
  obtain ⟨row, ids', h1, h2, _, _, h5, h6⟩ := hM.get hk
  rw [hids] at h2
  cases h2
  obtain ⟨r', hr', hb, hp⟩ := h6 i hmem
  rw [hr] at hr'
  cases hr'
  exact ⟨k, ids, row, hids, hmem, h1, hb, hp, h5⟩

/-- An outcome of the merged book is, after splitting, one of the book with rounded prices. -/
theorem MergeSpec.uniform_lift (hM : MergeSpec df nb mp) (hq : ∀ r ∈ df, 0 ≤ r.quantity)
    {ts : List Transaction} {q p : ℚ} (u : UniformOutcome nb ts q p) :
    UniformOutcome (roundedBook (npRound 5) df) (ts.flatMap (splitT df mp)) q p := by
  have hlt : ∀ t ∈ ts, t.bid < nb.length := fun t h => (u.trans t h).1
  have htr : ∀ t ∈ ts.flatMap (splitT df mp), t.bid < (roundedBook (npRound 5) df).length ∧ 0 ≤ t.quantity ∧
      t.quantity ≤ qtyOf (roundedBook (npRound 5) df) t.bid ∧ t.price = p ∧ t.source = -1 ∧ t.active = false := by
    intro t' ht'
    obtain ⟨t, htm, row, r, g1, g2, g3, g4, g5, g6, g7, g8, g9, _⟩ := hM.mem_lift hlt ht'
    obtain ⟨_, v1, v2, v3, v4, v5⟩ := u.trans t htm
    rw [qtyOf_some g1] at v2
    have hr0 := div_nonneg (hq r (List.mem_of_getElem? g2)) g9.le
    refine ⟨?_, ?_, ?_, g5.trans v3, g6.trans v4, g7.trans v5⟩
    · rw [roundedBook_length]
      exact (List.getElem?_eq_some_iff.mp g2).1
    · rw [g8]; exact mul_nonneg v1 hr0
    · rw [roundedBook_qtyOf, qtyOf_some g2, g8]
      calc t.quantity * (r.quantity / row.quantity) ≤ row.quantity * (r.quantity / row.quantity) :=
            mul_le_mul_of_nonneg_right v2 hr0
        _ = r.quantity := by rw [mul_div_cancel₀ _ g9.ne']
  have hB : boughtQty (roundedBook (npRound 5) df) (ts.flatMap (splitT df mp)) = q := by
    rw [roundedBook_bought, hM.boughtQty_lift hlt, u.bought]
  have hS : soldQty (roundedBook (npRound 5) df) (ts.flatMap (splitT df mp)) = q := by
    rw [roundedBook_sold, hM.soldQty_lift hlt, u.sold]
  have hprio : ∀ (i j : ℕ) (r r' : Row), df[i]? = some r → df[j]? = some r' →
      (∀ k k' row row', nb[k]? = some row → nb[k']? = some row' → r.buying = row.buying →
        npRound 5 r.price = row.price → r'.buying = row'.buying → npRound 5 r'.price = row'.price →
        0 < tradedBy ts k' → tradedBy ts k = qtyOf nb k) →
      0 < tradedBy (ts.flatMap (splitT df mp)) j →
      tradedBy (ts.flatMap (splitT df mp)) i = qtyOf (roundedBook (npRound 5) df) i := by
    intro i j r r' hr hr' hprio h0
    obtain ⟨k, ids, row, a1, a2, a3, a4, a5, a6⟩ := hM.of_bid hr
    obtain ⟨k', ids', row', b1, b2, b3, b4, b5, b6⟩ := hM.of_bid hr'
    rw [hM.tradedBy_lift hlt b1 b3 b2 hr'] at h0
    have hr0 := div_nonneg (hq r' (List.mem_of_getElem? hr')) b6.le
    have hk' : 0 < tradedBy ts k' := by
      by_contra hn
      have := mul_nonpos_of_nonpos_of_nonneg (not_lt.mp hn) hr0
      linarith
    rw [hM.tradedBy_lift hlt a1 a3 a2 hr, hprio k k' row row' a3 b3 a4 a5 b4 b5 hk', qtyOf_some a3,
      roundedBook_qtyOf, qtyOf_some hr, mul_div_cancel₀ _ a6.ne']
  have get_of_buy : ∀ {i}, isBuy (roundedBook (npRound 5) df) i = true → ∃ r, df[i]? = some r ∧ r.buying = true := by
    intro i hi
    rw [(roundedBook_flags i).1] at hi
    cases h : df[i]? with
    | none => simp [isBuy, h] at hi
    | some r => exact ⟨r, rfl, by rwa [isBuy_some h] at hi⟩
  have get_of_sell : ∀ {i}, isSell (roundedBook (npRound 5) df) i = true →
      ∃ r, df[i]? = some r ∧ r.buying = false := by
    intro i hi
    rw [(roundedBook_flags i).2.1] at hi
    cases h : df[i]? with
    | none => simp [isSell, h] at hi
    | some r => exact ⟨r, rfl, by simpa [isSell_some h] using hi⟩
  have money : ∀ side : ℕ → Bool, (((ts.flatMap (splitT df mp)).filter (fun t => side t.bid)).map
      (fun t => t.quantity * t.price)).sum =
      p * (((ts.flatMap (splitT df mp)).filter (fun t => side t.bid)).map (fun t => t.quantity)).sum := by
    intro side
    rw [mul_comm, ← List.sum_map_mul_right]
    congr 1
    apply List.map_congr_left
    intro t ht
    rw [(htr t (List.mem_filter.mp ht).1).2.2.2.1]
  refine ⟨htr, hM.nodup_lift hlt u.once, ?_, hB, hS, ?_, ?_, ?_, ?_⟩
  · intro t' ht'
    obtain ⟨t, htm, row, r, g1, g2, g3, g4, g5, g6, g7, g8, g9, _⟩ := hM.mem_lift hlt ht'
    obtain ⟨r1, r2⟩ := u.rational t htm
    rw [isBuy_some g1, priceOf_some g1, ← g3, ← g4] at r1
    rw [isSell_some g1, priceOf_some g1, ← g3, ← g4] at r2
    rw [(roundedBook_flags _).1, (roundedBook_flags _).2.1, isBuy_some g2, isSell_some g2, roundedBook_priceOf g2]
    exact ⟨r1, r2⟩
  · rw [← hB]; exact money (isBuy (roundedBook (npRound 5) df))
  · rw [← hS]; exact money (isSell (roundedBook (npRound 5) df))
  · intro i j hi hj hlt' h0
    obtain ⟨r, hr, hb⟩ := get_of_buy hi
    obtain ⟨r', hr', hb'⟩ := get_of_buy hj
    rw [roundedBook_priceOf hr, roundedBook_priceOf hr'] at hlt'
    refine hprio i j r r' hr hr' ?_ h0
    intro k k' row row' e1 e2 e3 e4 e5 e6 h0
    apply u.priority_buy k k' _ _ _ h0
    · rw [isBuy_some e1, ← e3, hb]
    · rw [isBuy_some e2, ← e5, hb']
    · rw [priceOf_some e1, priceOf_some e2, ← e4, ← e6]; exact hlt'
  · intro i j hi hj hlt' h0
    obtain ⟨r, hr, hb⟩ := get_of_sell hi
    obtain ⟨r', hr', hb'⟩ := get_of_sell hj
    rw [roundedBook_priceOf hr, roundedBook_priceOf hr'] at hlt'
    refine hprio i j r r' hr hr' ?_ h0
    intro k k' row row' e1 e2 e3 e4 e5 e6 h0
    apply u.priority_sell k k' _ _ _ h0
    · rw [isSell_some e1, ← e3, hb]; rfl
    · rw [isSell_some e2, ← e5, hb']; rfl
    · rw [priceOf_some e1, priceOf_some e2, ← e4, ← e6]; exact hlt'

/-- The marginal pairs of the merged book have the prices of those of the rounded book. -/
theorem MergeSpec.pair (hM : MergeSpec df nb mp) (ht : IsTable df) (h : Pos df) {x : ℚ} {b a : Row}
    (hp : MarginalPair (roundedBook (npRound 5) df) x b a) :
    ∃ b' a', MarginalPair nb x b' a' ∧ pairPrice nb x b' a' = pairPrice (roundedBook (npRound 5) df) x b a := by
  have hR := roundedBook_pos h
  have hc := (crossing_iff_pair (S := stableSorter) hR x).mpr ⟨b, a, hp⟩
  have hc' := hM.crossing ht h.nonNeg stableSorter stableSorter hc
  have hP := hM.pos h.nonNeg
  obtain ⟨b', a', hp'⟩ := (crossing_iff_pair hP x).mp hc'
  obtain ⟨d1, s1⟩ := pair_prices (S := stableSorter) hR hp
  obtain ⟨d2, s2⟩ := pair_prices (S := stableSorter) hP hp'
  rw [hM.demandAt_eq ht h.nonNeg stableSorter stableSorter hp.pos.le, d1] at d2
  rw [hM.supplyAt_eq ht h.nonNeg stableSorter stableSorter hp.pos.le, s1] at s2
  refine ⟨b', a', hp', ?_⟩
  unfold pairPrice
  rw [hM.demandQty_eq, hM.supplyQty_eq, WithTop.coe_inj.mp d2, WithTop.coe_inj.mp s2]

theorem MergeSpec.pair_inv (hM : MergeSpec df nb mp) (ht : IsTable df) (h : Pos df) {x : ℚ} {b a : Row}
    (hp : MarginalPair nb x b a) : ∃ b' a', MarginalPair (roundedBook (npRound 5) df) x b' a' := by
  have hR := roundedBook_pos h
  have hc := (crossing_iff_pair (S := stableSorter) (hM.pos h.nonNeg) x).mpr ⟨b, a, hp⟩
  apply (crossing_iff_pair (S := stableSorter) hR x).mp
  apply crossing_of hR.nonNeg hc.nonneg
  · rw [← hM.supplyAt_eq ht h.nonNeg stableSorter stableSorter hc.nonneg,
      ← hM.demandAt_eq ht h.nonNeg stableSorter stableSorter hc.nonneg]
    exact hc.at_x
  · intro z hz
    rcases eq_or_ne z ⊤ with rfl | hne
    · rw [demandAt_top, supplyAt_top]; exact WithTop.coe_lt_top 0
    · obtain ⟨y, rfl⟩ := WithTop.ne_top_iff_exists.mp hne
      have hy0 : 0 ≤ y := le_trans hc.nonneg (WithTop.coe_lt_coe.mp hz).le
      rw [← hM.supplyAt_eq ht h.nonNeg stableSorter stableSorter hy0,
        ← hM.demandAt_eq ht h.nonNeg stableSorter stableSorter hy0]
      exact hc.above _ hz

theorem MergeSpec.distinct (hM : MergeSpec df nb mp) : DistinctPrices nb := by
  intro r hr r' hr' hb hp
  cases hbuy : r'.buying with
  | true => exact List.inj_on_of_nodup_map hM.buyPrices (by simp [hr, hb, hbuy]) (by simp [hr', hbuy]) hp
  | false => exact List.inj_on_of_nodup_map hM.sellPrices (by simp [hr, hb, hbuy]) (by simp [hr', hbuy]) hp

end

/-- The class `UniformPrice` (`docs/new_mechanism.ipynb:239-252`) run with `merge=True` on a table of bids. -/
abbrev runMerged (S : Sorter) (smp : Sampler) (df : DF) : Except PyErr (TransactionManager × Extra) :=
  mechanism smp true (uniformAlgo S) df

/-- What the run on the merged book returns. -/
theorem uniform_merged (S : Sorter) (smp : Sampler) {df : DF} (ht : IsTable df) (h : Pos df) {x : ℚ} {b a : Row}
    (hp : MarginalPair (roundedBook (npRound 5) df) x b a) :
    ∃ nb mp tm₀ tm, mergeSamePrice smp df = .ok (nb, mp) ∧ MergeSpec df nb mp ∧
      mechRun (uniformAlgo S) nb = .ok (tm₀, .empty) ∧
      UniformOutcome nb tm₀.trans x (pairPrice (roundedBook (npRound 5) df) x b a) ∧
      runMerged S smp df = .ok (tm, .empty) ∧ tm.trans = tm₀.trans.flatMap (splitT df mp) := by
  obtain ⟨nb, mp, hm, hM⟩ := merge_spec smp ht h.groupPos
  obtain ⟨b', a', hp', hpp⟩ := hM.pair ht h hp
  obtain ⟨tm₀, hr, _⟩ := (C119_uniform S nb hM.table (hM.pos h.nonNeg) hM.distinct).1 x b' a' hp'
  obtain ⟨q, p, e1, e2, _, u, _⟩ := C94_outcome S nb hM.table (hM.pos h.nonNeg).nonNeg tm₀ _ _ hr
  have e1' : x = q := WithTop.coe_injective (Option.some.inj e1)
  have e2' : pairPrice nb x b' a' = p := Val.fin.inj e2
  rw [← e1', ← e2', hpp] at u
  have hrun : mechRun (uniformAlgo S) nb = .ok (tm₀, .empty) := by
    rw [mechRun_both _ hp'.buyer.1 hp'.buyer.2 hp'.seller.1 hp'.seller.2]
    simp [uniformAlgo, hr, Except.map]
  obtain ⟨tm, h1, h2⟩ := mechanism_merge smp (uniformAlgo S) hm hM hrun (fun t htt => (u.trans t htt).1)
  exact ⟨nb, mp, tm₀, tm, hm, hM, hrun, u, h1, h2⟩

/-- **C121, outcome.** Let the pair `b`, `a` be marginal at `x` among the bids with prices rounded to five
decimals. With `merge=True` exactly `x` is traded, at the price of this pair, better bids first; of bids of a side
with the same rounded price everyone trades the same share; and nothing more can be gained. -/
theorem C121_outcome (S : Sorter) (smp : Sampler) (df : DF) (ht : IsTable df) (h : Pos df) (rd : ℚ → ℚ)
    (hrd : ∀ p, IsRounded 5 p (rd p)) (x : ℚ) (b a : Row) (hp : MarginalPair (roundedBook rd df) x b a) :
    ∃ tm, runMerged S smp df = .ok (tm, .empty) ∧
      UniformOutcome (roundedBook rd df) tm.trans x (pairPrice (roundedBook rd df) x b a) ∧
      (∀ r ∈ df, ∀ r' ∈ df, r.buying = r'.buying → rd r.price = rd r'.price →
        tradedBy tm.trans r.label * r'.quantity = tradedBy tm.trans r'.label * r.quantity) ∧
      BestWelfare (roundedBook rd df) (priceOf (roundedBook rd df))
        (gains (roundedBook rd df) (priceOf (roundedBook rd df)) tm.trans) := by
  obtain rfl : rd = npRound 5 := funext (fun p => isRounded_unique (hrd p) (npRound_isRounded 5 p))
  obtain ⟨nb, mp, tm₀, tm, _, hM, _, u, h1, h2⟩ := uniform_merged S smp ht h hp
  have hq : ∀ r ∈ df, 0 ≤ r.quantity := fun r hr => (h r hr).1.le
  have u' := hM.uniform_lift hq u
  rw [← h2] at u'
  refine ⟨tm, h1, u', ?_, ?_⟩
  · intro r hr r' hr' hb hpr
    rw [h2]
    exact (sameRates_lift ht ht hM hM rfl (fun t htt => (u.trans t htt).1) r hr r' hr' hb hpr).1
  · have hR := roundedBook_pos h
    have hc := (crossing_iff_pair (S := S) hR x).mpr ⟨b, a, hp⟩
    obtain ⟨c, _, _, _, hc⟩ := hc.clears_between hR.nonNeg
    have hb := best_of_clears (roundedBook_table ht) (roundedBook_qty hq) hc
    rw [u'.gains_eq (roundedBook_table ht) (roundedBook_qty hq) hc]
    exact hb

/-- **C121, no pair.** If no pair is marginal the mechanism raises `TypeError`, unless a side is empty: then
nothing is traded. -/
theorem C121_none (S : Sorter) (smp : Sampler) (df : DF) (ht : IsTable df) (h : Pos df) (rd : ℚ → ℚ)
    (hrd : ∀ p, IsRounded 5 p (rd p)) (hno : ¬ ∃ x b a, MarginalPair (roundedBook rd df) x b a) :
    ((∃ r ∈ df, r.buying = true) → (∃ r ∈ df, r.buying = false) →
      runMerged S smp df = .error .typeError) ∧
    ((∀ r ∈ df, r.buying = true) ∨ (∀ r ∈ df, r.buying = false) →
      ∃ tm, runMerged S smp df = .ok (tm, .empty) ∧ tm.trans = []) := by
  obtain rfl : rd = npRound 5 := funext (fun p => isRounded_unique (hrd p) (npRound_isRounded 5 p))
  obtain ⟨nb, mp, hm, hM⟩ := merge_spec smp ht h.groupPos
  constructor
  · rintro ⟨r, hr, hb⟩ ⟨r', hr', hb'⟩
    have e := (C119_uniform S nb hM.table (hM.pos h.nonNeg) hM.distinct).2 (by
      rintro ⟨x, b, a, hp⟩
      exact hno ⟨x, hM.pair_inv ht h hp⟩)
    obtain ⟨_, _, row, _, _, a3, a4, _⟩ := hM.of_bid (ht.get_label hr)
    obtain ⟨_, _, row', _, _, b3, b4, _⟩ := hM.of_bid (ht.get_label hr')
    have hrun : mechRun (uniformAlgo S) nb = .error .typeError := by
      rw [mechRun_both _ (List.mem_of_getElem? a3) (a4.symm.trans hb) (List.mem_of_getElem? b3) (b4.symm.trans hb')]
      simp [uniformAlgo, e, Except.map]
    unfold runMerged mechanism
    simp [hm, hrun, bind, Except.bind]
  · intro hone
    have hrow : ∀ row ∈ nb, ∃ r ∈ df, r.buying = row.buying := by
      intro row hrow
      obtain ⟨row', ids, g1, _, g3, _, _, g6⟩ := hM.get (hM.table.label_lt hrow)
      rw [hM.table.get_label hrow] at g1
      cases g1
      obtain ⟨i, hi⟩ := List.exists_mem_of_ne_nil _ g3
      obtain ⟨r, hr, hb, _⟩ := g6 i hi
      exact ⟨r, List.mem_of_getElem? hr, hb⟩
    have hrun : mechRun (uniformAlgo S) nb = .ok (TransactionManager.init, .empty) := by
      unfold mechRun
      simp only
      rw [if_neg]
      rintro ⟨h1, h2⟩
      rcases hone with h' | h'
      · apply h2
        unfold buys
        rw [List.length_filter_eq_length_iff]
        intro row hr
        obtain ⟨r, h3, h4⟩ := hrow row hr
        rw [← h4, h' r h3]
      · apply h1
        unfold buys
        rw [List.length_eq_zero_iff, List.filter_eq_nil_iff]
        intro row hr
        obtain ⟨r, h3, h4⟩ := hrow row hr
        rw [← h4, h' r h3]
        simp
    obtain ⟨tm, h1, h2⟩ := mechanism_merge smp (uniformAlgo S) hm hM hrun (by intro t h'; cases h')
    exact ⟨tm, h1, h2⟩

/-- **C121, totals.** On two books that offer the same totals at every rounded price the run with `merge=True`
either raises the same error or returns the same per unit offered. -/
theorem C121_totals (S : Sorter) (smp smp' : Sampler) (df df' : DF) (ht : IsTable df) (ht' : IsTable df')
    (h : Pos df) (h' : Pos df') (rd : ℚ → ℚ) (hrd : ∀ p, IsRounded 5 p (rd p)) (hT : SameTotals rd df df') :
    (runMerged S smp df = .error .typeError ∧ runMerged S smp' df' = .error .typeError) ∨
    ∃ tm tm', runMerged S smp df = .ok (tm, .empty) ∧ runMerged S smp' df' = .ok (tm', .empty) ∧
      SameRates rd df df' tm.trans tm'.trans := by
  obtain rfl : rd = npRound 5 := funext (fun p => isRounded_unique (hrd p) (npRound_isRounded 5 p))
  obtain ⟨nb, mp, nb', mp', hm, hm', hM, hM', hb⟩ := merge_sameTotals smp smp' ht ht' h.groupPos h'.groupPos hT
  have hr : mechRun (uniformAlgo S) nb' = mechRun (uniformAlgo S) nb := by
    rw [← blank_keeps.mechRun_map _ (blank_keeps.uniformAlgo_map S), ← hb,
      blank_keeps.mechRun_map _ (blank_keeps.uniformAlgo_map S)]
  have hlen : nb.length = nb'.length := by simpa using congrArg List.length hb
  have herr : ∀ (smp : Sampler) (df nb : DF) (mp : List (List ℕ)), mergeSamePrice smp df = .ok (nb, mp) →
      mechRun (uniformAlgo S) nb = .error .typeError → runMerged S smp df = .error .typeError := by
    intro smp df nb mp hm hrun
    unfold runMerged mechanism
    simp [hm, hrun, bind, Except.bind]
  have key : mechRun (uniformAlgo S) nb = .error .typeError ∨
      ∃ tm, mechRun (uniformAlgo S) nb = .ok (tm, .empty) ∧ ∀ t ∈ tm.trans, t.bid < nb.length := by
    rcases mechRun_two_sided (uniformAlgo S) nb with e | e
    · cases hu : uniformPrice S nb with
      | error er =>
        left
        have her := (C94_returns S nb (hM.pos h.nonNeg).nonNeg).2 er hu
        rw [e, ← her]
        simp [uniformAlgo, hu, Except.map]
      | ok o =>
        obtain ⟨tm, q, v⟩ := o
        right
        obtain ⟨_, _, _, _, _, u, _⟩ := C94_outcome S nb hM.table (hM.pos h.nonNeg).nonNeg tm _ _ hu
        exact ⟨tm, by rw [e]; simp [uniformAlgo, hu, Except.map], fun t htt => (u.trans t htt).1⟩
    · exact Or.inr ⟨_, e, by intro t h'; cases h'⟩
  rcases key with e | ⟨tm, e, hlt⟩
  · exact Or.inl ⟨herr _ _ _ _ hm e, herr _ _ _ _ hm' (hr.trans e)⟩
  · right
    obtain ⟨t1, e1, e2⟩ := mechanism_merge smp _ hm hM e hlt
    obtain ⟨t1', e1', e2'⟩ := mechanism_merge smp' _ hm' hM' (hr.trans e) (fun t h => hlen ▸ hlt t h)
    refine ⟨t1, t1', e1, e1', ?_⟩
    rw [e2, e2']
    exact sameRates_lift ht ht' hM hM' hb hlt

/-- **C121, anonymity.** Who submits a bid, when, and whether it is divisible does not matter, with and without
merging. -/
theorem C121_anonymous (S : Sorter) (smp smp' : Sampler) (merge : Bool) (df df' : DF)
    (h : List.Forall₂ SameOffer df df') :
    mechanism smp merge (uniformAlgo S) df = mechanism smp' merge (uniformAlgo S) df' :=
  mechanism_blank smp smp' merge _ (blank_keeps.uniformAlgo_map S) (map_blank_eq h)

/-- **C121, several names.** With `merge=True` dividing a bid between two names changes nothing: the two parts
together trade and pay what the bid did, and so does everyone else. Without merging this fails
(`C117_uniform_refuted`). -/
theorem C121_split (S : Sorter) (smp smp' : Sampler) (l₁ l₂ : List Bid) (b b₁ b₂ : Bid)
    (hp : Pos (labelFrom 0 (l₁ ++ b :: l₂))) (h₁ : 0 < b₁.quantity) (h₂ : 0 < b₂.quantity)
    (hq : b₁.quantity + b₂.quantity = b.quantity) (hp₁ : b₁.price = b.price) (hp₂ : b₂.price = b.price)
    (hs₁ : b₁.buying = b.buying) (hs₂ : b₂.buying = b.buying) :
    (runMerged S smp (labelFrom 0 (l₁ ++ b :: l₂)) = .error .typeError ∧
      runMerged S smp' (labelFrom 0 (l₁ ++ b₁ :: l₂ ++ [b₂])) = .error .typeError) ∨
    ∃ tm tm', runMerged S smp (labelFrom 0 (l₁ ++ b :: l₂)) = .ok (tm, .empty) ∧
      runMerged S smp' (labelFrom 0 (l₁ ++ b₁ :: l₂ ++ [b₂])) = .ok (tm', .empty) ∧
      SplitNeutral l₁.length (l₁ ++ b :: l₂).length tm.trans tm'.trans := by
  obtain ⟨hp', hT, hN⟩ := split_bid l₁ l₂ b b₁ b₂ hp h₁ h₂ hq hp₁ hp₂ hs₁ hs₂
  rcases C121_totals S smp smp' _ _ (isTable_labelFrom _) (isTable_labelFrom _) hp hp' (npRound 5)
    (npRound_isRounded 5) hT with h | ⟨tm, tm', e1, e2, hR⟩
  · exact Or.inl h
  · exact Or.inr ⟨tm, tm', e1, e2, hN _ _ hR⟩

/-- **C121, prices, partial.** The submitted prices are respected up to half a unit of the fifth decimal, and
exactly if they have at most five decimals. Missing: the rounding error itself, see `C121_refuted`. -/
theorem C121_prices_partial (S : Sorter) (smp : Sampler) (df : DF) (ht : IsTable df) (h : Pos df)
    (tm : TransactionManager) (ex : Extra) (hrun : runMerged S smp df = .ok (tm, ex)) :
    PricesWithin (1 / 200000) df tm.trans ∧
      ((∀ r ∈ df, IsRounded 5 r.price r.price) → PricesWithin 0 df tm.trans) := by
  by_cases hpair : ∃ x b a, MarginalPair (roundedBook (npRound 5) df) x b a
  · obtain ⟨x, b, a, hp⟩ := hpair
    obtain ⟨nb, mp, tm₀, tm', _, hM, _, u, h1, h2⟩ := uniform_merged S smp ht h hp
    rw [h1] at hrun
    cases hrun
    have hlt : ∀ t ∈ tm₀.trans, t.bid < nb.length ∧ 0 ≤ t.quantity :=
      fun t htt => ⟨(u.trans t htt).1, (u.trans t htt).2.1⟩
    have h0 : PricesWithin 0 nb tm₀.trans := by
      intro t htt _
      obtain ⟨r1, r2⟩ := u.rational t htt
      rw [(u.trans t htt).2.2.2.1, add_zero, sub_zero]
      exact ⟨r1, r2⟩
    rw [h2]
    constructor
    · refine hM.prices hlt h0 ?_
      intro r _
      have := npRound_near 5 r.price
      norm_num at this
      exact this.trans (by norm_num)
    · intro hd
      refine hM.prices hlt h0 ?_
      intro r hr
      rw [isRounded_unique (npRound_isRounded 5 r.price) (hd r hr), sub_self, abs_zero]
  · obtain ⟨n1, n2⟩ := C121_none S smp df ht h _ (npRound_isRounded 5) hpair
    have hnil : tm.trans = [] := by
      by_cases hb : ∃ r ∈ df, r.buying = true
      · by_cases hs : ∃ r ∈ df, r.buying = false
        · rw [n1 hb hs] at hrun
          cases hrun
        · obtain ⟨tm', e, e'⟩ := n2 (Or.inl (fun r hr => by
            by_contra hne
            exact hs ⟨r, hr, by simpa using hne⟩))
          rw [e] at hrun
          cases hrun
          exact e'
      · obtain ⟨tm', e, e'⟩ := n2 (Or.inr (fun r hr => by
            by_contra hne
            exact hb ⟨r, hr, by simpa using hne⟩))
        rw [e] at hrun
        cases hrun
        exact e'
    rw [hnil]
    have hn : ∀ ε, PricesWithin ε df [] := fun ε t h' => (List.not_mem_nil h').elim
    exact ⟨hn _, fun _ => hn _⟩

/-- The full claim of C121 about prices: nobody pays more or receives less than submitted. -/
def Spec.MergedRespectsPrices (df : DF) : Prop := ∀ S smp tm ex, runMerged S smp df = .ok (tm, ex) →
  PricesWithin 0 df tm.trans

/-- **C121, prices, refuted.** A buyer who bids 1.000006 pays 1.00001. -/
theorem C121_refuted : ¬ ∀ df, IsTable df → Pos df → MergedRespectsPrices df := by
  intro h
  have h1 := h (labelFrom 0 [⟨2, 1000006 / 1000000, 0, true, 0, true⟩, ⟨1, 1 / 2, 1, false, 0, true⟩])
    (isTable_labelFrom _) (by decide +kernel) stableSorter headSampler
    ⟨2, [⟨1, 1, 100001 / 100000, -1, false⟩, ⟨0, 1, 100001 / 100000, -1, false⟩]⟩ .empty (by decide +kernel)
  have h2 := (h1 ⟨0, 1, 100001 / 100000, -1, false⟩ (by simp) (by norm_num)).1 (by decide +kernel)
  revert h2
  decide +kernel

/-- A case that meets the hypotheses: two buyers at 7 share what is left for this price. Without merging the later
one gets nothing, and the price is the mean of 7 and 4 instead of 7. -/
def sharedBook : DF := labelFrom 0 [⟨3, 10, 0, true, 0, true⟩, ⟨2, 7, 1, true, 0, true⟩, ⟨4, 7, 2, true, 0, true⟩,
  ⟨5, 4, 3, false, 0, true⟩]

example : IsTable sharedBook ∧ Pos sharedBook ∧
    MarginalPair (roundedBook (npRound 5) sharedBook) 5 ⟨⟨2, 7, 1, true, 0, true⟩, 1⟩ ⟨⟨5, 4, 3, false, 0, true⟩, 3⟩ ∧
    pairPrice (roundedBook (npRound 5) sharedBook) 5 ⟨⟨2, 7, 1, true, 0, true⟩, 1⟩ ⟨⟨5, 4, 3, false, 0, true⟩, 3⟩ = 7 ∧
    (runMerged stableSorter headSampler sharedBook).toOption.map (fun o => o.1.trans) =
      some [⟨3, 5, 7, -1, false⟩, ⟨0, 3, 7, -1, false⟩, ⟨1, 2 / 3, 7, -1, false⟩, ⟨2, 4 / 3, 7, -1, false⟩] ∧
    (uniformPrice stableSorter sharedBook).toOption.map (fun o => o.1.trans) =
      some [⟨0, 3, 11 / 2, -1, false⟩, ⟨1, 2, 11 / 2, -1, false⟩, ⟨3, 5, 11 / 2, -1, false⟩] := by
  refine ⟨by decide +kernel, by decide +kernel, ⟨by decide +kernel, by decide +kernel, by decide +kernel,
    by decide +kernel, by decide +kernel, by decide +kernel, by decide +kernel, by decide +kernel⟩, by decide +kernel,
    ?_, ?_⟩
  · decide +kernel
  · decide +kernel

end PyMarket
