import Verif.Lemmas.Remainder
import Verif.Props.Remainder
import Verif.Props.HuangMerged
import Verif.Props.Statistics
import Verif.Props.UniformMerged

/-! # C133 with merging: running a mechanism again on what is left -/

set_option autoImplicit false

namespace PyMarket

open Spec

theorem leftOf_nonneg {df : DF} {ts : List Transaction} (ht : IsTable df) (hb : ∀ i, tradedBy ts i ≤ qtyOf df i) :
    ∀ r ∈ df, 0 ≤ leftOf ts r := by
  intro r hr
  have := hb r.label
  rw [ht.qty_eq hr] at this
  unfold leftOf
  linarith

/-- No pair is marginal in a book with an empty side. -/
theorem no_pair_of_init {algo : Algo} {df : DF} (hne : ¬ mechRun algo df = algo df) :
    ∀ b ∈ df, ∀ s ∈ df, b.buying = true → s.buying = false → False :=
  fun _ hb _ hs h1 h2 => hne (mechRun_both algo hb h1 hs h2)

/-- **C133, class `HuangAuction`.** The class merges bids with the same price, so equal prices do no harm: whatever
the order of equal prices, the second run trades nothing and reports the same two prices again. -/
theorem C133_huang_class (S S' : Sorter) (smp smp' : Sampler) (df : DF) (ht : IsTable df) (h : Pos df)
    (tm : TransactionManager) (ex : Extra) (hrun : runAlgo S smp .huang df = .ok (tm, ex)) :
    ∃ tm' ex', runAlgo S' smp' .huang (leftBook df tm.trans) = .ok (tm', ex') ∧ tm'.trans = [] ∧
      (ex = .empty → ex' = .empty) ∧ ∀ ps pb q, ex = .huang ps pb q → ∃ q', ex' = .huang ps pb q' := by
  obtain ⟨nb, mp, t₀, _, hM, hr, hlt, e⟩ := huang_merged_run ht h.groupPos hrun
  have hN := hM.pos h.nonNeg
  -- what is left of the merged book
  have hleft : (∀ row ∈ nb, 0 ≤ leftOf t₀.trans row) ∧ Idle (leftBook nb t₀.trans) ∧
      (ex = .empty → ¬ ∃ x b a, MarginalPair (leftBook nb t₀.trans) x b a) ∧
      ∀ ps pb q, ex = .huang ps pb q → ∃ x b a, MarginalPair (leftBook nb t₀.trans) x b a ∧
        ps = ((a.price : ℚ) : Ext) ∧ pb = ((b.price : ℚ) : Ext) := by
    by_cases hm : mechRun (huangAuction S) nb = huangAuction S nb
    · rw [hm] at hr
      refine ⟨?_, left_idle hM.table hN hM.distinct hr⟩
      rcases huang_cutRun S hN.nonNeg hr with h0 | ⟨x, ps, pb, cs, cb, q, w, _⟩
      · intro row hrow
        rw [h0]
        simpa [leftOf, tradedBy] using (hN row hrow).1.le
      · exact w.left_nonneg hM.table hN.nonNeg hM.distinct
    · have hone := no_pair_of_init hm
      rw [(mechRun_two_sided _ nb).resolve_left hm] at hr
      cases hr
      have e0 : leftBook nb TransactionManager.init.trans = nb := leftBook_nil hM.table hN
      rw [e0]
      refine ⟨fun row hrow => by simpa [leftOf, tradedBy, TransactionManager.init] using (hN row hrow).1.le, ?_, ?_, ?_⟩
      · intro x b a m
        exact (hone b m.buyer.1 a m.seller.1 m.buyer.2 m.seller.2).elim
      · rintro _ ⟨x, b, a, m⟩
        exact hone b m.buyer.1 a m.seller.1 m.buyer.2 m.seller.2
      · intro ps pb q hq; cases hq
  obtain ⟨hle, hidle, hex1, hex2⟩ := hleft
  -- the merged book of what is left
  have ht' := leftBook_table df tm.trans
  have hp' : Pos (leftBook df tm.trans) := leftBook_pos (fun r hr => (h r hr).2)
  obtain ⟨nb', mp', hm', hM'⟩ := merge_spec smp' ht' hp'.groupPos
  rw [e] at hM'
  have hk := merge_left hM ht h hlt hle hM'
  rw [← e] at hM'
  have hN' := hM'.pos hp'.nonNeg
  have hn : nb'.Nodup := List.Nodup.of_map _ hM'.table.nodup
  have hid := idle_offerKey hk.symm hidle
  obtain ⟨t₁, ex₁, hr₁, ht₁⟩ := idle_run S' hN' (distinct_buys hn hM'.distinct) (distinct_sells hn hM'.distinct) hid
  have hx := C119_huang S' nb' hN' t₁ ex₁ hr₁
  have hgo : ∀ {t₂ : TransactionManager} {ex₂ : Extra}, mechRun (huangAuction S') nb' = .ok (t₂, ex₂) → t₂.trans = [] →
      ∃ tm', runAlgo S' smp' .huang (leftBook df tm.trans) = .ok (tm', ex₂) ∧ tm'.trans = [] := by
    intro t₂ ex₂ h1 h2
    obtain ⟨tm', e1, e2⟩ := mechanism_merge smp' (huangAuction S') hm' hM' h1 (by rw [h2]; intro t htt; cases htt)
    rw [h2] at e2
    exact ⟨tm', e1, e2⟩
  by_cases hm : mechRun (huangAuction S') nb' = huangAuction S' nb'
  · obtain ⟨tm', e1, e2⟩ := hgo (hm.trans hr₁) ht₁
    refine ⟨tm', ex₁, e1, e2, ?_, ?_⟩
    · intro h0
      refine (hx.2 ?_).1
      rintro ⟨x, b, a, m⟩
      obtain ⟨b', a', m', _⟩ := pair_offerKey hk m
      exact hex1 h0 ⟨x, b', a', m'⟩
    · intro ps pb q h0
      obtain ⟨x, b, a, m, rfl, rfl⟩ := hex2 ps pb q h0
      obtain ⟨b', a', m', e3, e4⟩ := pair_offerKey hk.symm m
      rw [← e3, ← e4]
      exact hx.1 x b' a' m'
  · have hone := no_pair_of_init hm
    obtain ⟨tm', e1, e2⟩ := hgo ((mechRun_two_sided _ nb').resolve_left hm) rfl
    refine ⟨tm', _, e1, e2, fun _ => rfl, ?_⟩
    intro ps pb q h0
    obtain ⟨x, b, a, m, _⟩ := hex2 ps pb q h0
    obtain ⟨b', a', m', _⟩ := pair_offerKey hk.symm m
    exact (hone b' m'.buyer.1 a' m'.seller.1 m'.buyer.2 m'.seller.2).elim

/-- **C133, class `P2PTrading` with `merge=True`.** -/
theorem C133_p2p_class (S S' : Sorter) (smp smp' : Sampler) (c c' : ℚ) (choice choice' : ℕ → ℕ) (df : DF)
    (ht : IsTable df) (h : Pos df) :
    ∃ tm ex tm' ex', runAlgo S smp (.p2p true c choice) df = .ok (tm, ex) ∧
      runAlgo S' smp' (.p2p true c' choice') (leftBook df tm.trans) = .ok (tm', ex') ∧
      ∀ t ∈ tm'.trans, t.quantity = 0 := by
  obtain ⟨nb, mp, hm, hM⟩ := merge_spec smp ht h.groupPos
  have hN := hM.pos h.nonNeg
  obtain ⟨t₀, ex₀, hr, hC, _⟩ := p2p_conserves c choice hM.table hN.nonNeg.qty
  have hlt : ∀ t ∈ t₀.trans, t.bid < nb.length := fun t htt => (hC.entries t htt).1
  obtain ⟨tm, e1, e2⟩ := mechanism_merge smp (p2pRandom c choice) hm hM hr hlt
  have ht' := leftBook_table df tm.trans
  have hp' : Pos (leftBook df tm.trans) := leftBook_pos (fun r hr => (h r hr).2)
  obtain ⟨nb', mp', hm', hM'⟩ := merge_spec smp' ht' hp'.groupPos
  rw [e2] at hM'
  have hk := merge_left hM ht h hlt (leftOf_nonneg hM.table hC.bounded) hM'
  rw [← e2] at hM'
  have hN' := hM'.pos hp'.nonNeg
  obtain ⟨t₁, ex₁, hr₁, hC₁, hlog⟩ := p2p_conserves c' choice' hM'.table hN'.nonNeg.qty
  have hlt₁ : ∀ t ∈ t₁.trans, t.bid < nb'.length := fun t htt => (hC₁.entries t htt).1
  obtain ⟨tm', e3, e4⟩ := mechanism_merge smp' (p2pRandom c' choice') hm' hM' hr₁ hlt₁
  refine ⟨tm, _, tm', _, e1, e3, ?_⟩
  -- no buyer that is left pays the price of a seller that is left
  have hsep : ∀ b ∈ leftBook nb t₀.trans, ∀ s ∈ leftBook nb t₀.trans, b.buying = true → s.buying = false →
      b.price < s.price := by
    intro b hb s hs hbb hss
    obtain ⟨rb, b1, b2, b3, b4, _⟩ := leftBook_mem hb
    obtain ⟨rs, s1, s2, s3, s4, _⟩ := leftBook_mem hs
    by_contra hle
    rw [not_lt, b4, s4] at hle
    rw [mechRun_both _ b1 (b3.symm.trans hbb) s1 (s3.symm.trans hss)] at hr
    obtain ⟨t₂, R, h1, _, h2⟩ := C22_complete c choice nb hM.table hN.nonNeg.qty
    rw [hr] at h1
    cases h1
    rcases h2 rb.label rs.label ⟨by rw [hM.table.isBuy_eq b1, ← b3, hbb], by
        rw [hM.table.isSell_eq s1, ← s3, hss]; rfl⟩ (by rw [hM.table.price_eq b1, hM.table.price_eq s1]; exact hle)
      with h' | h'
    · rw [hM.table.qty_eq b1] at h'; unfold leftOf at b2; linarith
    · rw [hM.table.qty_eq s1] at h'; unfold leftOf at s2; linarith
  have hzero : ∀ t ∈ t₁.trans, t.quantity = 0 := by
    intro t htt
    by_contra hne
    obtain ⟨b, s, ⟨hb, hs⟩, _, _, hle⟩ := hlog t htt
    have hle := hle hne
    obtain ⟨hb', hs'⟩ := isPair_lt ⟨hb, hs⟩
    have gb := List.getElem?_eq_getElem hb'
    have gs := List.getElem?_eq_getElem hs'
    obtain ⟨rb, b1, b2, b3, _⟩ := offerKey_mem hk (List.getElem_mem hb')
    obtain ⟨rs, s1, s2, s3, _⟩ := offerKey_mem hk (List.getElem_mem hs')
    have := hsep rb b1 rs s1 (by rw [b2]; simpa [isBuy, gb] using hb) (by rw [s2]; simpa [isSell, gs] using hs)
    rw [b3, s3] at this
    simp only [priceOf, gb, gs] at hle
    exact absurd this (not_lt.mpr (by simpa using hle))
  intro t' htt
  rw [e4] at htt
  obtain ⟨t, h1, row, r, _, _, _, _, _, _, _, h8, _⟩ := hM'.mem_lift hlt₁ htt
  rw [h8, hzero t h1, zero_mul]

/-- **C133, class `UniformPrice` with `merge=True`.** The second run raises `TypeError`, unless a side is empty: then
nothing is traded. -/
theorem C133_uniform_class (S S' : Sorter) (smp smp' : Sampler) (df : DF) (ht : IsTable df) (h : Pos df)
    (tm : TransactionManager) (ex : Extra) (hrun : runMerged S smp df = .ok (tm, ex)) :
    runMerged S' smp' (leftBook df tm.trans) = .error .typeError ∨
      ∃ tm', runMerged S' smp' (leftBook df tm.trans) = .ok (tm', .empty) ∧ tm'.trans = [] := by
  obtain ⟨nb, mp, hm, hM⟩ := merge_spec smp ht h.groupPos
  have hN := hM.pos h.nonNeg
  obtain ⟨t₀, hr⟩ := mechanism_merge_inv smp (uniformAlgo S) hm hrun
  have hleft : (∀ t ∈ t₀.trans, t.bid < nb.length) ∧ (∀ row ∈ nb, 0 ≤ leftOf t₀.trans row) ∧
      ¬ ∃ x b a, MarginalPair (leftBook nb t₀.trans) x b a := by
    by_cases hm : mechRun (uniformAlgo S) nb = uniformAlgo S nb
    · rw [hm] at hr
      unfold uniformAlgo at hr
      cases hu : uniformPrice S nb with
      | error e => rw [hu] at hr; cases hr
      | ok o =>
        obtain ⟨t₁, x, v⟩ := o
        rw [hu] at hr
        cases hr
        obtain ⟨q, p, _, _, _, u, _⟩ := C94_outcome S nb hM.table hN.nonNeg t₁ _ _ hu
        refine ⟨fun t htt => (u.trans t htt).1, leftOf_nonneg hM.table ?_, ?_⟩
        · exact capacity_of_nodup u.once (fun t htt => (u.trans t htt).2.2.1) hN.nonNeg.qty
        · rintro ⟨x', b, a, m⟩
          obtain ⟨c, ⟨h1, h2⟩, _, _⟩ := C96_some_price_serves S nb hM.table hN.nonNeg t₁ _ _ hu
          obtain ⟨rb, b1, b2, b3, b4, _⟩ := leftBook_mem m.buyer.1
          obtain ⟨rs, s1, s2, s3, s4, _⟩ := leftBook_mem m.seller.1
          have hbc : rb.price ≤ c := by
            by_contra hn
            have := h1 rb.label (by rw [hM.table.isBuy_eq b1, ← b3, m.buyer.2])
              (by rw [hM.table.price_eq b1]; exact not_le.mp hn)
            unfold leftOf at b2
            rw [this, hM.table.qty_eq b1, sub_self] at b2
            exact lt_irrefl _ b2
          have hsc : c ≤ rs.price := by
            by_contra hn
            have := h2 rs.label (by rw [hM.table.isSell_eq s1, ← s3, m.seller.2]; rfl)
              (by rw [hM.table.price_eq s1]; exact not_le.mp hn)
            unfold leftOf at s2
            rw [this, hM.table.qty_eq s1, sub_self] at s2
            exact lt_irrefl _ s2
          have hlt := m.lt
          rw [b4, s4] at hlt
          linarith
    · have hone := no_pair_of_init hm
      rw [(mechRun_two_sided _ nb).resolve_left hm] at hr
      cases hr
      have e0 : leftBook nb TransactionManager.init.trans = nb := leftBook_nil hM.table hN
      rw [e0]
      refine ⟨fun t htt => (List.not_mem_nil htt).elim, fun row hrow => by simpa [leftOf, tradedBy, TransactionManager.init] using
        (hN row hrow).1.le, ?_⟩
      rintro ⟨x, b, a, m⟩
      exact hone b m.buyer.1 a m.seller.1 m.buyer.2 m.seller.2
  obtain ⟨hlt, hle, hno⟩ := hleft
  obtain ⟨tm', e1, e⟩ := mechanism_merge smp (uniformAlgo S) hm hM hr hlt
  have : runMerged S smp df = mechanism smp true (uniformAlgo S) df := rfl
  rw [this, e1] at hrun
  cases hrun
  have ht' := leftBook_table df tm.trans
  have hp' : Pos (leftBook df tm.trans) := leftBook_pos (fun r hr => (h r hr).2)
  obtain ⟨nb', mp', hm', hM'⟩ := merge_spec smp' ht' hp'.groupPos
  rw [e] at hM'
  have hk := merge_left hM ht h hlt hle hM'
  rw [← e] at hM'
  have hu := (C119_uniform S' nb' hM'.table (hM'.pos hp'.nonNeg) hM'.distinct).2 (by
    rintro ⟨x, b, a, m⟩
    obtain ⟨b', a', m', _⟩ := pair_offerKey hk m
    exact hno ⟨x, b', a', m'⟩)
  rcases mechRun_two_sided (uniformAlgo S') nb' with h1 | h1
  · left
    have h2 : mechRun (uniformAlgo S') nb' = .error .typeError := by
      rw [h1]; simp [uniformAlgo, hu, Except.map]
    unfold runMerged mechanism
    simp [hm', h2, bind, Except.bind]
  · right
    obtain ⟨tm', e3, e4⟩ := mechanism_merge smp' (uniformAlgo S') hm' hM' h1 (by intro t htt; cases htt)
    exact ⟨tm', e3, e4⟩

/-! ## The hypotheses are met -/

/-- The book of `C133_huang_refuted`: with merging the order of the two sellers @ 2 does not matter. -/
example : IsTable tiedRest ∧ Pos tiedRest ∧
    (runAlgo pairSorter headSampler .huang tiedRest).toOption.map (fun o =>
      (boughtQty tiedRest o.1.trans, (leftBook tiedRest o.1.trans).map (fun r => (r.quantity, r.price)),
        (runAlgo pairSorter headSampler .huang (leftBook tiedRest o.1.trans)).toOption.map
          (fun o' => o'.1.trans))) = some (1, [(1, 10), (1, 9), (3, 2), (1, 2)], some []) := by
  decide +kernel

/-- Peer to peer and the uniform price leave something, too. -/
example : (runAlgo stableSorter headSampler (.p2p true (1 / 2) (fun _ => 0)) tiedRest).toOption.map (fun o =>
      (boughtQty tiedRest o.1.trans, (leftBook tiedRest o.1.trans).map (fun r => (r.quantity, r.price)))) =
        some (3, [(3 / 2, 2), (1 / 2, 2)]) ∧
    (runMerged stableSorter headSampler tiedRest).toOption.map (fun o =>
      (boughtQty tiedRest o.1.trans, (leftBook tiedRest o.1.trans).map (fun r => (r.quantity, r.price)))) =
        some (3, [(3 / 2, 2), (1 / 2, 2)]) := by
  decide +kernel

end PyMarket
