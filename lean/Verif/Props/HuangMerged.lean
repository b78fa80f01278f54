import Verif.Lemmas.HuangMerged

/-! # C104: what `Market.run('huang')` gives up, and whose bids it depends on -/

set_option autoImplicit false

namespace PyMarket

open Spec

theorem mechRun_both (algo : Algo) {df : DF} {b s : Row} (hb : b ∈ df) (hbb : b.buying = true) (hs : s ∈ df)
    (hss : s.buying = false) : mechRun algo df = algo df := by
  unfold mechRun
  simp only
  rw [if_pos]
  constructor
  · have := List.length_pos_of_mem (mem_buys.mpr ⟨hb, hbb⟩)
    omega
  · intro h
    have := List.length_filter_eq_length_iff.mp h s hs
    rw [hss] at this
    cases this

/-- The run of the class on the merged book. -/
theorem huang_merged_run {S : Sorter} {smp : Sampler} {df : DF} (ht : IsTable df) (hp : GroupPos df)
    {tm : TransactionManager} {ex : Extra} (hrun : runAlgo S smp .huang df = .ok (tm, ex)) :
    ∃ nb mp tm₀, mergeSamePrice smp df = .ok (nb, mp) ∧ MergeSpec df nb mp ∧
      mechRun (huangAuction S) nb = .ok (tm₀, ex) ∧ (∀ t ∈ tm₀.trans, t.bid < nb.length) ∧
      tm.trans = tm₀.trans.flatMap (splitT df mp) := by
  obtain ⟨nb, mp, hm, hM⟩ := merge_spec smp ht hp
  obtain ⟨tm₀, ex₀, hr, hlt⟩ := huang_mechRun_ok S nb hM.table (hM.pos hp.1)
  obtain ⟨t1, e1, e2⟩ := mechanism_merge smp (huangAuction S) hm hM hr hlt
  have : runAlgo S smp .huang df = mechanism smp true (huangAuction S) df := rfl
  rw [this, e1] at hrun
  cases hrun
  exact ⟨nb, mp, tm₀, hm, hM, hr, hlt, e2⟩

/-- When the curves of the rounded book cross, the class runs `huang_auction` on the merged book. -/
theorem huang_merged_crossing {S S' : Sorter} {smp : Sampler} {df : DF} (ht : IsTable df) (hp : GroupPos df)
    {x : ℚ} (hc : Crossing S' (roundedBook (npRound 5) df) x) {tm : TransactionManager} {ex : Extra}
    (hrun : runAlgo S smp .huang df = .ok (tm, ex)) :
    ∃ nb mp tm₀, MergeSpec df nb mp ∧ Crossing S nb x ∧ huangAuction S nb = .ok (tm₀, ex) ∧
      (∀ t ∈ tm₀.trans, t.bid < nb.length) ∧ tm.trans = tm₀.trans.flatMap (splitT df mp) := by
  obtain ⟨nb, mp, tm₀, _, hM, hr, hlt, e⟩ := huang_merged_run ht hp hrun
  have hc' := hM.crossing ht hp.1 S S' hc
  refine ⟨nb, mp, tm₀, hM, hc', ?_, hlt, e⟩
  obtain ⟨mb, hmb, _⟩ := hc'.marginal_buy (hM.pos hp.1).nonNeg
  obtain ⟨ms, hms, _⟩ := hc'.marginal_sell
  have h1 := mem_buys.mp (mem_sortDesc.mp (List.mem_of_getElem? hmb))
  have h2 := mem_sells.mp (mem_sortAsc.mp (List.mem_of_getElem? hms))
  rw [← hr, mechRun_both _ h1.1 h1.2 h2.1 h2.2]

/-- **C104, quantity.** Let `x` be the quantity at which the curves of the book with rounded prices cross.
`Market.run('huang')` reports two prices at which something is offered, buys as much as it sells, less than
`x` (equal only when `x = 0`), and gives up at most the larger of the total quantities offered at these two
prices. -/
theorem C104_deficit (S S' : Sorter) (smp : Sampler) (df : DF) (ht : IsTable df) (hp : GroupPos df)
    (rd : ℚ → ℚ) (hrd : ∀ p, IsRounded 5 p (rd p)) (k : ℚ) (i : Intersection) (x : ℚ)
    (hi : intersectStepwise (demandCurve S' (roundedBook rd df)).1 (supplyCurve S' (roundedBook rd df)).1 k =
      .ok i) (hx : i.x = some (x : Ext)) (tm : TransactionManager) (ex : Extra)
    (hrun : runAlgo S smp .huang df = .ok (tm, ex)) :
    ∃ ps pb q : ℚ, ex = .huang (ps : Ext) (pb : Ext) q ∧ 0 < offered rd df false ps ∧ 0 < offered rd df true pb ∧
      x - max (offered rd df true pb) (offered rd df false ps) ≤ boughtQty df tm.trans ∧
      boughtQty df tm.trans = soldQty df tm.trans ∧ boughtQty df tm.trans ≤ x ∧
      (0 < x → boughtQty df tm.trans < x) := by
  obtain rfl : rd = npRound 5 := funext (fun p => isRounded_unique (hrd p) (npRound_isRounded 5 p))
  obtain ⟨x', he, hc, rfl⟩ := intersect_some (roundedBook_nonNeg hp.1) hi hx
  obtain rfl := WithTop.coe_injective he
  obtain ⟨nb, mp, tm₀, hM, hc', hr, hlt, e⟩ := huang_merged_crossing ht hp hc hrun
  have hN := (hM.pos hp.1).nonNeg
  obtain ⟨y, hcy, hiy⟩ : ∃ y, Crossing S nb y ∧
      intersectStepwise (demandCurve S nb).1 (supplyCurve S nb).1 k =
        .ok ⟨some (y : Ext), some (demandIdx S nb y), some (supplyIdx S nb y), crossPrice S nb k y⟩ := by
    rcases intersect_cases S hN k with h | ⟨_, hno⟩
    · exact h
    · exact absurd ⟨⟨x, WithTop.coe_le_coe.mpr hc'.nonneg, hc'.at_x⟩, fun z _ => hc'.no_tie hN z⟩ hno
  obtain rfl := hcy.unique hc'
  obtain ⟨mb, b1, ms, s1, q, b2, s2, h1, h2, h3, h4, h5⟩ :=
    C64_deficit S nb hM.table hN k _ y hiy rfl tm₀ ex hr
  have o1 : offered (npRound 5) df true mb.price = mb.quantity := by
    rw [hM.offered_eq, ← b2, hM.offered_row b1]
  have o2 : offered (npRound 5) df false ms.price = ms.quantity := by
    rw [hM.offered_eq, ← s2, hM.offered_row s1]
  refine ⟨ms.price, mb.price, q, h1, ?_, ?_, ?_⟩
  · rw [o2]; exact hM.qty ms s1
  · rw [o1]; exact hM.qty mb b1
  · rw [o1, o2, e, hM.boughtQty_lift hlt, hM.soldQty_lift hlt]
    exact ⟨h2, h3, h4, h5⟩

/-- **C104, value.** Measured with the rounded prices, the value created by `Market.run('huang')` falls
short of the largest possible value `y` by at most the quantity given up times the distance between the
highest buying and the lowest selling price. -/
theorem C104_welfare (S S' : Sorter) (smp : Sampler) (df : DF) (ht : IsTable df) (hp : GroupPos df)
    (rd : ℚ → ℚ) (hrd : ∀ p, IsRounded 5 p (rd p)) (k : ℚ) (i : Intersection) (x : ℚ)
    (hi : intersectStepwise (demandCurve S' (roundedBook rd df)).1 (supplyCurve S' (roundedBook rd df)).1 k =
      .ok i) (hx : i.x = some (x : Ext)) (tm : TransactionManager) (ex : Extra)
    (hrun : runAlgo S smp .huang df = .ok (tm, ex)) (y : ℚ)
    (hy : BestWelfare (roundedBook rd df) (priceOf (roundedBook rd df)) y) (hi' lo : ℚ)
    (hhi : ∀ r ∈ df, r.buying = true → rd r.price ≤ hi') (hlo : ∀ r ∈ df, r.buying = false → lo ≤ rd r.price) :
    y - (boughtValue df (priceOf (roundedBook rd df)) tm.trans -
        soldValue df (priceOf (roundedBook rd df)) tm.trans) ≤ (x - boughtQty df tm.trans) * (hi' - lo) := by
  obtain rfl : rd = npRound 5 := funext (fun p => isRounded_unique (hrd p) (npRound_isRounded 5 p))
  obtain ⟨x', he, hc, rfl⟩ := intersect_some (roundedBook_nonNeg hp.1) hi hx
  obtain rfl := WithTop.coe_injective he
  obtain ⟨nb, mp, tm₀, hM, hc', hr, hlt, e⟩ := huang_merged_crossing ht hp hc hrun
  have hN := (hM.pos hp.1).nonNeg
  obtain ⟨⟨q, h1, rfl⟩, _⟩ := hy
  have hrow : ∀ row ∈ nb, ∃ r ∈ df, r.buying = row.buying ∧ npRound 5 r.price = row.price := by
    intro row hrow
    obtain ⟨row', ids, g1, _, g3, _, _, g6⟩ := hM.get (hM.table.label_lt hrow)
    rw [hM.table.get_label hrow] at g1
    cases g1
    obtain ⟨i, hi⟩ := List.exists_mem_of_ne_nil _ g3
    obtain ⟨r, hr, hb, hpr⟩ := g6 i hi
    exact ⟨r, List.mem_of_getElem? hr, hb, hpr⟩
  have := huang_loss S hM.table hN hc' hr
    (fun c => by rw [hM.claims c]; exact planWelfare_le (roundedBook_table ht) h1 c)
    (hi' := hi') (lo := lo)
    (fun row hr hb => by
      obtain ⟨r, h1, h2, h3⟩ := hrow row hr
      rw [← h3]; exact hhi r h1 (h2.trans hb))
    (fun row hr hb => by
      obtain ⟨r, h1, h2, h3⟩ := hrow row hr
      rw [← h3]; exact hlo r h1 (h2.trans hb))
  obtain ⟨v1, v2⟩ := hM.values_lift hlt
  rw [e, v1, v2, hM.boughtQty_lift hlt]
  exact this

/-- Nobody in `df'` is keener than in `df`: at every price at most as much is demanded and supplied. -/
structure Spec.NotKeener (rd : ℚ → ℚ) (df df' : DF) : Prop where
  demand : ∀ p, demandQty (roundedBook rd df') p ≤ demandQty (roundedBook rd df) p
  supply : ∀ p, supplyQty (roundedBook rd df') p ≤ supplyQty (roundedBook rd df) p

/-- The same totals are offered at the buying prices from `pb` on and the selling prices up to `ps`. -/
structure Spec.SameFront (rd : ℚ → ℚ) (ps pb : ℚ) (df df' : DF) : Prop where
  buy : ∀ y, pb ≤ y → offered rd df' true y = offered rd df true y
  sell : ∀ y, y ≤ ps → offered rd df' false y = offered rd df false y

/-- **C104, losers.** If `Market.run('huang')` reports the prices `ps` and `pb`, then on every other book
with the same totals at these prices and at the better ones, and in which nobody else is keener, it reports
the same, and bids of a side with the same rounded price trade the same quantity and money per unit offered. -/
theorem C104_losers (S : Sorter) (smp smp' : Sampler) (df df' : DF) (ht : IsTable df) (ht' : IsTable df')
    (hp : GroupPos df) (hp' : GroupPos df') (rd : ℚ → ℚ) (hrd : ∀ p, IsRounded 5 p (rd p))
    (tm : TransactionManager) (ps pb q : ℚ)
    (h : runAlgo S smp .huang df = .ok (tm, .huang (ps : Ext) (pb : Ext) q))
    (hF : SameFront rd ps pb df df') (hK : NotKeener rd df df') :
    ∃ tm', runAlgo S smp' .huang df' = .ok (tm', .huang (ps : Ext) (pb : Ext) q) ∧
      SameRates rd df df' tm.trans tm'.trans := by
  obtain rfl : rd = npRound 5 := funext (fun p => isRounded_unique (hrd p) (npRound_isRounded 5 p))
  obtain ⟨nb, mp, tm₀, _, hM, hr, hlt, e⟩ := huang_merged_run ht hp h
  obtain ⟨nb', mp', hm', hM'⟩ := merge_spec smp' ht' hp'
  have hN := (hM.pos hp.1).nonNeg
  have hN' := (hM'.pos hp'.1).nonNeg
  replace hr : huangAuction S nb = .ok (tm₀, .huang (ps : Ext) (pb : Ext) q) := by
    rcases mechRun_two_sided (huangAuction S) nb with h' | h'
    · rw [← h']; exact hr
    · rw [h'] at hr; cases hr
  rcases huang_cases S hN with ⟨h0, _⟩ | ⟨x, ps₀, pb₀, hc, hps, hpb, _, hcase⟩
  · rw [hr] at h0; cases h0
  have hex : ps = ps₀ ∧ pb = pb₀ := by
    rcases hcase with ⟨_, _, _, _, _, _, _, _, _, heq⟩ | ⟨_, heq⟩ <;>
    · rw [hr] at heq
      simp only [Except.ok.injEq, Prod.mk.injEq, Extra.huang.injEq, WithTop.coe_inj] at heq
      exact ⟨heq.2.1, heq.2.2.1⟩
  obtain ⟨rfl, rfl⟩ := hex
  -- both sides of both tables are strictly sorted
  have sd : ∀ {df nb : DF} {mp : List (List ℕ)}, MergeSpec df nb mp →
      (sortDesc S (buys nb)).Pairwise (fun r r' => r'.price < r.price) := by
    intro df nb mp hM
    have h1 : ((sortDesc S (buys nb)).map (fun r => r.price)).Nodup :=
      ((sortDesc_perm S _).map _).nodup_iff.mpr hM.buyPrices
    have h2 := (sortDesc_sorted S (buys nb)).and (List.pairwise_map.mp h1)
    exact h2.imp (fun h => lt_of_le_of_ne h.1 (Ne.symm h.2))
  have sa : ∀ {df nb : DF} {mp : List (List ℕ)}, MergeSpec df nb mp →
      (sortAsc S (sells nb)).Pairwise (fun r r' => r.price < r'.price) := by
    intro df nb mp hM
    have h1 : ((sortAsc S (sells nb)).map (fun r => r.price)).Nodup :=
      ((sortAsc_perm S _).map _).nodup_iff.mpr hM.sellPrices
    have h2 := (sortAsc_sorted S (sells nb)).and (List.pairwise_map.mp h1)
    exact h2.imp (fun h => lt_of_le_of_ne h.1 h.2)
  have fb := front_pq (side := true) hM hM' (fun y => decide (pb ≤ y)) (fun a b => b < a)
    (fun a b h1 h2 => lt_asymm h1 h2) (L := sortDesc S (buys nb)) (L' := sortDesc S (buys nb'))
    (fun r => by rw [mem_sortDesc, mem_buys]) (fun r => by rw [mem_sortDesc, mem_buys]) (sd hM) (sd hM')
    (fun y hy => hF.buy y (by simpa using hy))
  have fs := front_pq (side := false) hM hM' (fun y => decide (y ≤ ps)) (fun a b => a < b)
    (fun a b h1 h2 => lt_asymm h1 h2) (L := sortAsc S (sells nb)) (L' := sortAsc S (sells nb'))
    (fun r => by rw [mem_sortAsc, mem_sells]) (fun r => by rw [mem_sortAsc, mem_sells]) (sa hM) (sa hM')
    (fun y hy => hF.sell y (by simpa using hy))
  obtain ⟨mb, hmb, hmbp⟩ := hc.marginal_buy hN
  obtain ⟨ms, hms, hmsp⟩ := hc.marginal_sell
  have hmb' : mb.price = pb := by rw [hmbp] at hpb; exact WithTop.coe_injective hpb
  have hms' : ms.price = ps := by rw [hmsp] at hps; exact WithTop.coe_injective hps
  have pd : ∀ (L : DF), L.Pairwise (fun r r' => r'.price < r.price) → L.Pairwise
      (fun r r' => decide (pb ≤ r'.price) = true → decide (pb ≤ r.price) = true) := fun L hL =>
    hL.imp (fun h h' => by simp only [decide_eq_true_eq] at h' ⊢; linarith)
  have pa : ∀ (L : DF), L.Pairwise (fun r r' => r.price < r'.price) → L.Pairwise
      (fun r r' => decide (r'.price ≤ ps) = true → decide (r.price ≤ ps) = true) := fun L hL =>
    hL.imp (fun h h' => by simp only [decide_eq_true_eq] at h' ⊢; linarith)
  obtain ⟨d1, d2⟩ := side_front (e := ((0 : ℚ) : Ext)) (P := fun r => decide (pb ≤ r.price))
    (pd _ (sd hM)) (pd _ (sd hM')) hmb (by simp [hmb']) fb
  obtain ⟨s1, s2⟩ := side_front (e := (⊤ : Ext)) (P := fun r => decide (r.price ≤ ps))
    (pa _ (sa hM)) (pa _ (sa hM')) hms (by simp [hms']) fs
  have hD : demandAt S nb' x = (pb : Ext) := by rw [← hpb]; exact d1
  have hSu : supplyAt S nb' x = (ps : Ext) := by rw [← hps]; exact s1
  have hc' : Crossing S nb' x := by
    apply crossing_of hN' hc.nonneg
    · rw [hD, hSu, ← hpb, ← hps]; exact hc.at_x
    · intro z hz
      rcases eq_or_ne z ⊤ with rfl | hne
      · rw [demandAt_top, supplyAt_top]; exact WithTop.coe_lt_top 0
      · obtain ⟨y, rfl⟩ := WithTop.ne_top_iff_exists.mp hne
        have hy0 : 0 < y := lt_of_le_of_lt hc.nonneg (WithTop.coe_lt_coe.mp hz)
        exact lt_of_le_of_lt
          (demandAt_le_of_qty S S hN' hN (fun p => by
            rw [hM.demandQty_eq, hM'.demandQty_eq]; exact hK.demand p) hy0)
          (lt_of_lt_of_le (hc.above _ hz) (supplyAt_le_of_qty S S hN' hN (fun p => by
            rw [hM.supplyQty_eq, hM'.supplyQty_eq]; exact hK.supply p) hy0))
  rw [huang_eval hN hc hps hpb] at hr
  obtain ⟨tm₁, r1, r2⟩ := huangClear_pq (A := huangA S nb x) (B := huangB S nb x)
    (A' := huangA S nb' x) (B' := huangB S nb' x) s2 d2 hr
  rw [← huang_eval hN' hc' hSu hD] at r1
  have hboth : mechRun (huangAuction S) nb' = huangAuction S nb' := by
    obtain ⟨b, hb, _⟩ := hc'.marginal_buy hN'
    obtain ⟨s, hs, _⟩ := hc'.marginal_sell
    have h1 := mem_buys.mp (mem_sortDesc.mp (List.mem_of_getElem? hb))
    have h2 := mem_sells.mp (mem_sortAsc.mp (List.mem_of_getElem? hs))
    exact mechRun_both _ h1.1 h1.2 h2.1 h2.2
  have hlt' : ∀ t ∈ tm₁.trans, t.bid < nb'.length := by
    obtain ⟨_, _, g1, g2⟩ := huang_mechRun_ok S nb' hM'.table (hM'.pos hp'.1)
    rw [hboth, r1] at g1
    cases g1
    exact g2
  obtain ⟨tm', e1', e2'⟩ := mechanism_merge smp' (huangAuction S) hm' hM' (hboth.trans r1) hlt'
  refine ⟨tm', e1', ?_⟩
  rw [e, e2']
  -- the rows of the merged tables trade the same
  have hBs := huangB_strict hN hc hpb hM.buyPrices
  have hAs := huangA_strict hc hps hM.sellPrices
  have hBs' := huangB_strict hN' hc' hD hM'.buyPrices
  have hAs' := huangA_strict hc' hSu hM'.sellPrices
  have hBm := huangB_mem_iff hN hc hpb hBs
  have hAm := huangA_mem_iff hc hps hAs
  have hBm' := huangB_mem_iff hN' hc' hD hBs'
  have hAm' := huangA_mem_iff hc' hSu hAs'
  have hprB : ((huangB S nb x).map (fun r => r.price)).Nodup :=
    (((sortDesc_perm S _).map _).nodup_iff.mpr hM.buyPrices).sublist ((List.take_sublist _ _).map _)
  have hprA : ((huangA S nb x).map (fun r => r.price)).Nodup :=
    (((sortAsc_perm S _).map _).nodup_iff.mpr hM.sellPrices).sublist ((List.take_sublist _ _).map _)
  have other : ∀ {nb A : DF} {row : Row}, IsTable nb → (∀ r ∈ A, r ∈ nb) → row ∈ nb → row ∉ A →
      ∀ r ∈ A, r.label ≠ row.label := by
    intro nb A row ht hA hrow hno r hrA hl
    have h1 := ht.get_label (hA r hrA)
    rw [hl, ht.get_label hrow] at h1
    cases h1
    exact hno hrA
  have rows : ∀ row ∈ nb, ∀ row' ∈ nb', row.buying = row'.buying → row.price = row'.price →
      tradedBy tm₀.trans row.label = tradedBy tm₁.trans row'.label ∧
      moneyOf tm₀.trans row.label = moneyOf tm₁.trans row'.label := by
    intro row hrow row' hrow' hb hpr
    rcases r2 with ⟨z1, z2⟩ | ⟨qs, qb, z1, z2⟩
    · rw [z1, z2]; exact ⟨rfl, rfl⟩
    rw [z1, z2, tradedBy_append, tradedBy_append, moneyOf_append, moneyOf_append, moneyOf_side, moneyOf_side,
      moneyOf_side, moneyOf_side]
    have kA : tradedBy (huangSideTrans (huangA S nb x) qs ps) row.label =
        tradedBy (huangSideTrans (huangA S nb' x) qs ps) row'.label := by
      by_cases hin : row.buying = false ∧ row.price < ps
      · exact tradedBy_side s2.symm (huangA_labels_nodup hM.table.nodup x) (huangA_labels_nodup hM'.table.nodup x)
          hprA qs ps ((hAm row).mpr ⟨hrow, hin⟩) ((hAm' row').mpr ⟨hrow', by rw [← hb, ← hpr]; exact hin⟩) hpr
      · rw [tradedBy_side_nil (other hM.table (fun r hr => ((hAm r).mp hr).1) hrow
            (fun hr => hin ((hAm row).mp hr).2)),
          tradedBy_side_nil (other hM'.table (fun r hr => ((hAm' r).mp hr).1) hrow'
            (fun hr => hin (by rw [hb, hpr]; exact ((hAm' row').mp hr).2)))]
    have kB : tradedBy (huangSideTrans (huangB S nb x) qb pb) row.label =
        tradedBy (huangSideTrans (huangB S nb' x) qb pb) row'.label := by
      by_cases hin : row.buying = true ∧ pb < row.price
      · exact tradedBy_side d2.symm (huangB_labels_nodup hM.table.nodup x) (huangB_labels_nodup hM'.table.nodup x)
          hprB qb pb ((hBm row).mpr ⟨hrow, hin⟩) ((hBm' row').mpr ⟨hrow', by rw [← hb, ← hpr]; exact hin⟩) hpr
      · rw [tradedBy_side_nil (other hM.table (fun r hr => ((hBm r).mp hr).1) hrow
            (fun hr => hin ((hBm row).mp hr).2)),
          tradedBy_side_nil (other hM'.table (fun r hr => ((hBm' r).mp hr).1) hrow'
            (fun hr => hin (by rw [hb, hpr]; exact ((hBm' row').mp hr).2)))]
    rw [kA, kB]
    exact ⟨rfl, rfl⟩
  have zero : ∀ row ∈ nb, ¬ (if row.buying then pb ≤ row.price else row.price ≤ ps) →
      tradedBy tm₀.trans row.label = 0 ∧ moneyOf tm₀.trans row.label = 0 := by
    intro row hrow hno
    rcases r2 with ⟨z1, _⟩ | ⟨qs, qb, z1, _⟩
    · rw [z1]; exact ⟨rfl, rfl⟩
    have kA := tradedBy_side_nil (qs := qs) (p := ps)
      (other hM.table (fun r hr => ((hAm r).mp hr).1) hrow (fun hr => hno (by
        have := ((hAm row).mp hr).2
        rw [this.1]; simpa using this.2.le)))
    have kB := tradedBy_side_nil (qs := qb) (p := pb)
      (other hM.table (fun r hr => ((hBm r).mp hr).1) hrow (fun hr => hno (by
        have := ((hBm row).mp hr).2
        rw [this.1]; simpa using this.2.le)))
    rw [z1, tradedBy_append, moneyOf_append, moneyOf_side, moneyOf_side, kA, kB]
    simp
  intro r hr r' hr' hside hprice
  obtain ⟨k, ids, hk, hids, hmem⟩ := hM.exists_group (ht.label_lt hr)
  obtain ⟨k', ids', hk', hids', hmem'⟩ := hM'.exists_group (ht'.label_lt hr')
  obtain ⟨row, i1, a1, a2, _, a4, a5, a6⟩ := hM.get hk
  obtain ⟨row', i1', b1, b2, _, b4, b5, b6⟩ := hM'.get hk'
  rw [hids] at a2; cases a2
  rw [hids'] at b2; cases b2
  obtain ⟨s, t1, t2, t3⟩ := a6 _ hmem
  rw [ht.get_label hr] at t1; cases t1
  obtain ⟨s', t1', t2', t3'⟩ := b6 _ hmem'
  rw [ht'.get_label hr'] at t1'; cases t1'
  have hrow := List.mem_of_getElem? a1
  have hrow' := List.mem_of_getElem? b1
  have eb : row.buying = row'.buying := by rw [← t2, ← t2', hside]
  have ep : row.price = row'.price := by rw [← t3, ← t3', hprice]
  have lk : row.label = k := hM.table.label a1
  have lk' : row'.label = k' := hM'.table.label b1
  obtain ⟨w1, w2⟩ := rows row hrow row' hrow' eb ep
  have hq : row.quantity = row'.quantity ∨ (tradedBy tm₀.trans k = 0 ∧ moneyOf tm₀.trans k = 0) := by
    by_cases hfront : if row.buying then pb ≤ row.price else row.price ≤ ps
    · left
      rw [← hM.offered_row hrow, ← hM'.offered_row hrow', ← hM.offered_eq, ← hM'.offered_eq, ← eb, ← ep]
      cases hb : row.buying with
      | true => rw [hb] at hfront; exact (hF.buy _ hfront).symm
      | false => rw [hb] at hfront; exact (hF.sell _ (by simpa using hfront)).symm
    · right
      rw [← lk]
      exact zero row hrow hfront
  rw [lk, lk'] at w1 w2
  rw [hM.tradedBy_lift hlt hids a1 hmem (ht.get_label hr), hM'.tradedBy_lift hlt' hids' b1 hmem' (ht'.get_label hr'),
    moneyOf_eq, moneyOf_eq, splitT_money, splitT_money,
    hM.tradedBy_lift (by
      intro t htt
      obtain ⟨t0, h0, rfl⟩ := List.mem_map.mp htt
      exact hlt t0 h0) hids a1 hmem (ht.get_label hr),
    hM'.tradedBy_lift (by
      intro t htt
      obtain ⟨t0, h0, rfl⟩ := List.mem_map.mp htt
      exact hlt' t0 h0) hids' b1 hmem' (ht'.get_label hr'), ← moneyOf_eq, ← moneyOf_eq, ← w1, ← w2]
  rcases hq with hq | ⟨z1, z2⟩
  · rw [hq]
    constructor <;> ring
  · rw [z1, z2]
    constructor <;> ring

/-! ## Withdrawing losing bids -/

theorem sum_labelFrom (f : Bid → Bool) (n : ℕ) (l : List Bid) :
    (((labelFrom n l).filter (fun r => f r.toBid)).map (fun r => r.quantity)).sum =
      ((l.filter f).map (fun b => b.quantity)).sum := by
  conv_rhs => rw [← labelFrom_map_toBid n l, List.filter_map, List.map_map]
  rfl

theorem sum_filter_stays (f stays : Bid → Bool) (l : List Bid) (hq : ∀ b ∈ l, 0 ≤ b.quantity) :
    (((l.filter stays).filter f).map (fun b => b.quantity)).sum ≤ ((l.filter f).map (fun b => b.quantity)).sum := by
  have e : (l.filter stays).filter f = (l.filter f).filter stays := by
    rw [List.filter_filter, List.filter_filter]
    congr 1
    funext b
    exact Bool.and_comm _ _
  rw [e]
  apply List.Sublist.sum_le_sum (List.filter_sublist.map _)
  intro y hy
  obtain ⟨r, hr, rfl⟩ := List.mem_map.mp hy
  exact hq r (List.mem_filter.mp hr).1

theorem filter_stays_eq (f stays : Bid → Bool) (l : List Bid) (h : ∀ b ∈ l, f b = true → stays b = true) :
    (l.filter stays).filter f = l.filter f := by
  rw [List.filter_filter]
  apply List.filter_congr
  intro b hb
  cases hf : f b with
  | false => rfl
  | true => rw [h b hb hf]; rfl

/-- **C104, withdrawal.** If `Market.run('huang')` reports the prices `ps` and `pb`, it reports the same in
the market in which any of the losing bids — buyers below `pb`, sellers above `ps` — were never submitted,
and the other bids trade the same. -/
theorem C104_withdraw (S : Sorter) (smp smp' : Sampler) (bids : List Bid) (stays : Bid → Bool)
    (hp : GroupPos (labelFrom 0 bids)) (hp' : GroupPos (labelFrom 0 (bids.filter stays)))
    (rd : ℚ → ℚ) (hrd : ∀ p, IsRounded 5 p (rd p)) (tm : TransactionManager) (ps pb q : ℚ)
    (h : runAlgo S smp .huang (labelFrom 0 bids) = .ok (tm, .huang (ps : Ext) (pb : Ext) q))
    (hlose : ∀ b ∈ bids, stays b = false → if b.buying then rd b.price < pb else ps < rd b.price) :
    ∃ tm', runAlgo S smp' .huang (labelFrom 0 (bids.filter stays)) =
        .ok (tm', .huang (ps : Ext) (pb : Ext) q) ∧
      SameRates rd (labelFrom 0 bids) (labelFrom 0 (bids.filter stays)) tm.trans tm'.trans := by
  have hq : ∀ b ∈ bids, 0 ≤ b.quantity := by
    intro b hb
    rw [← labelFrom_map_toBid 0 bids] at hb
    obtain ⟨r, hr, rfl⟩ := List.mem_map.mp hb
    exact (hp.1 r hr).1
  have hoff : ∀ l side y, offered rd (labelFrom 0 l) side y =
      ((l.filter (fun b => b.buying == side && rd b.price == y)).map (fun b => b.quantity)).sum :=
    fun l side y => sum_labelFrom (fun b => b.buying == side && rd b.price == y) 0 l
  have hround : ∀ (l : List Bid) (g : Bool → ℚ → Bool),
      (((roundedBook rd (labelFrom 0 l)).filter (fun r => g r.buying r.price)).map (fun r => r.quantity)).sum =
        ((l.filter (fun b => g b.buying (rd b.price))).map (fun b => b.quantity)).sum := by
    intro l g
    rw [← sum_labelFrom (fun b => g b.buying (rd b.price)) 0 l]
    unfold roundedBook
    rw [List.filter_map, List.map_map]
    rfl
  refine C104_losers S smp smp' _ _ (isTable_labelFrom _) (isTable_labelFrom _) hp hp' rd hrd tm ps pb q h
    ⟨?_, ?_⟩ ⟨?_, ?_⟩
  · intro y hy
    rw [hoff, hoff, filter_stays_eq]
    intro b hb hf
    simp only [Bool.and_eq_true, beq_iff_eq] at hf
    by_contra hs
    have := hlose b hb (by simpa using hs)
    rw [hf.1, if_pos rfl, hf.2] at this
    linarith
  · intro y hy
    rw [hoff, hoff, filter_stays_eq]
    intro b hb hf
    simp only [Bool.and_eq_true, beq_iff_eq] at hf
    by_contra hs
    have := hlose b hb (by simpa using hs)
    rw [hf.1, if_neg (by simp), hf.2] at this
    linarith
  · intro p
    have := sum_filter_stays (fun b => b.buying && decide (p ≤ rd b.price)) stays bids hq
    unfold demandQty
    rw [hround _ (fun s y => s && decide (p ≤ y)), hround _ (fun s y => s && decide (p ≤ y))]
    exact this
  · intro p
    have := sum_filter_stays (fun b => !b.buying && decide (rd b.price ≤ p)) stays bids hq
    unfold supplyQty
    rw [hround _ (fun s y => !s && decide (y ≤ p)), hround _ (fun s y => !s && decide (y ≤ p))]
    exact this

/-! ## Cases -/

/-- Two buyers at 10 and two at 8; the buyer at 4 and the seller at 6 lose. -/
def frontBids : List Bid :=
  [⟨3, 10, 0, true, 0, true⟩, ⟨1, 8, 1, true, 0, true⟩, ⟨2, 10, 2, true, 0, true⟩, ⟨1, 8, 3, true, 0, true⟩,
   ⟨3, 4, 4, true, 0, true⟩, ⟨5, 1, 5, false, 0, true⟩, ⟨2, 3, 6, false, 0, true⟩, ⟨1, 6, 7, false, 0, true⟩]

/-- The curves cross at 7; 5 units are traded at 3 and 8, where 2 units are offered on each side. -/
example : IsTable (labelFrom 0 frontBids) ∧ Pos (labelFrom 0 frontBids) ∧
    roundedBook (npRound 5) (labelFrom 0 frontBids) = labelFrom 0 frontBids ∧
    intersectStepwise (demandCurve stableSorter (labelFrom 0 frontBids)).1
      (supplyCurve stableSorter (labelFrom 0 frontBids)).1 =
        .ok ⟨some ((7 : ℚ) : Ext), some 3, some 1, .fin (11 / 2)⟩ ∧
    runAlgo stableSorter headSampler .huang (labelFrom 0 frontBids) =
      .ok (⟨3, [⟨5, 5, 3, -1, false⟩, ⟨0, 3, 8, -1, false⟩, ⟨2, 2, 8, -1, false⟩]⟩,
        .huang ((3 : ℚ) : Ext) ((8 : ℚ) : Ext) 5) ∧
    offered (npRound 5) (labelFrom 0 frontBids) true 8 = 2 ∧
    offered (npRound 5) (labelFrom 0 frontBids) false 3 = 2 ∧
    (labelFrom 0 frontBids).map (fun r => claim 5 r.toBid) = [15, 3, 10, 3, 0, 20, 4, 0] := by
  decide +kernel

/-- Without the losing buyer and seller. -/
example : GroupPos (labelFrom 0 frontBids) ∧ GroupPos (labelFrom 0 (frontBids.filter (fun b => b.user != 4 && b.user != 7))) ∧
    (∀ b ∈ frontBids, (b.user != 4 && b.user != 7) = false →
      if b.buying then npRound 5 b.price < 8 else 3 < npRound 5 b.price) ∧
    runAlgo stableSorter headSampler .huang (labelFrom 0 (frontBids.filter (fun b => b.user != 4 && b.user != 7))) =
      .ok (⟨3, [⟨4, 5, 3, -1, false⟩, ⟨0, 3, 8, -1, false⟩, ⟨2, 2, 8, -1, false⟩]⟩,
        .huang ((3 : ℚ) : Ext) ((8 : ℚ) : Ext) 5) :=
  ⟨Spec.Pos.groupPos (by decide +kernel), Spec.Pos.groupPos (by decide +kernel), by decide +kernel,
    by decide +kernel⟩

/-- The condition on keenness is needed: when the losing buyer at 4 offers 7, still less than the price 8,
the outcome changes, although the totals from 8 on and up to 3 are the same. -/
theorem C104_keener_matters :
    SameFront (npRound 5) 3 8 (labelFrom 0 frontBids)
      (labelFrom 0 (frontBids.set 4 ⟨3, 7, 4, true, 0, true⟩)) ∧
    (runAlgo stableSorter headSampler .huang
      (labelFrom 0 (frontBids.set 4 ⟨3, 7, 4, true, 0, true⟩))).toOption.map (fun o => o.2) =
        some (.huang ((6 : ℚ) : Ext) ((7 : ℚ) : Ext) 7) := by
  refine ⟨⟨?_, ?_⟩, by decide +kernel⟩ <;>
  · intro y hy
    rw [offered_labelFrom, offered_labelFrom]
    simp only [frontBids, List.set_cons_succ, List.set_cons_zero, List.map_cons, List.map_nil, List.sum_cons,
      List.sum_nil]
    have h4 : npRound 5 4 = 4 := by decide +kernel
    have h7 : npRound 5 7 = 7 := by decide +kernel
    have n4 : ((4 : ℚ) == y) = false := by rw [beq_eq_false_iff_ne]; intro h; linarith
    have n7 : ((7 : ℚ) == y) = false := by rw [beq_eq_false_iff_ne]; intro h; linarith
    simp only [h4, h7, n4, n7, Bool.and_false, Bool.false_eq_true, if_false]

end PyMarket
