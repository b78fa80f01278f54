import Verif.Lemmas.UnlimitedP2P
import Verif.Lemmas.Huang
import Verif.Lemmas.P2P

/-! # C129: bids without a limit

Quantities may be `np.inf`. The book is given with a column `qty` of quantities that may be infinite; `withQty qty
Q df` is the same book with `Q` in place of every infinite quantity, and `limitedTotal qty df` the total of the
limited bids. -/

set_option autoImplicit false

namespace PyMarket

open Spec

section

variable (S : Sorter) (qty : ℕ → Ext) (df : DF)

/-- C129, Huang's auction: a bid without a limit is treated like one larger than all limited bids together, unless
an unlimited buyer could trade with an unlimited seller. -/
theorem C129_huang_partial (h : NonNegU qty df) (hn : NoUnlimitedTrade qty df) (Q : ℚ) (hQ : limitedTotal qty df < Q) :
    huangAuctionU S df qty = huangAuction S (withQty qty Q df) := by
  unfold huangAuctionU huangAuction
  rcases book_intersect (S := S) h hn hQ with ⟨x, i, e1, e2, hx, hxB, hf, hg, _⟩ |
    ⟨iU, iQ, e1, e2, _, _, h1, h2, h3, h4⟩
  · simp only [bind, Except.bind, e1, e2, hf, hg]
    have hs : ∀ {f g : Curve}, SameCurve (limitedTotal qty df) Q f g → ∀ j : ℕ,
        (∃ s t, f[j]? = some s ∧ g[j]? = some t ∧ s.2 = t.2) ∨ (f[j]? = none ∧ g[j]? = none) := by
      intro f g hfg j
      have := hfg.snd
      have hj : (f.map Prod.snd)[j]? = (g.map Prod.snd)[j]? := by rw [this]
      rw [List.getElem?_map, List.getElem?_map] at hj
      cases hfj : f[j]? with
      | none =>
        rw [hfj] at hj
        cases hgj : g[j]? with
        | none => exact Or.inr ⟨rfl, rfl⟩
        | some t => rw [hgj] at hj; cases hj
      | some s =>
        rw [hfj] at hj
        cases hgj : g[j]? with
        | none => rw [hgj] at hj; cases hj
        | some t =>
          rw [hgj] at hj
          exact Or.inl ⟨s, t, rfl, rfl, Option.some.inj hj⟩
    rcases hs (supplyCurve_same (S := S) h hQ) (argmaxTrue ((supplyCurveU S df qty).map (fun s => decide (x ≤ s.1))))
      with ⟨s, t, hs1, hs2, hs3⟩ | ⟨hs1, hs2⟩
    · rcases hs (demandCurve_same (S := S) h hQ) (argmaxTrue ((demandCurveU S df qty).map (fun s => decide (x ≤ s.1))))
        with ⟨s', t', hb1, hb2, hb3⟩ | ⟨hb1, hb2⟩
      · simp only [hs1, hs2, hb1, hb2, hs3, hb3]
        have fb := finiteColumn_ok Q (front_limited (qty := qty) (rows := sortDesc S (buys df))
          (y := ((0 : ℚ) : Ext)) (x := x))
        have fs := finiteColumn_ok Q (front_limited (qty := qty) (rows := sortAsc S (sells df))
          (y := (⊤ : Ext)) (x := x))
        unfold demandCurveU supplyCurveU
        simp only [fb, fs, buys_fill, sells_fill, sortDesc_fill, sortAsc_fill, ← List.map_take, qtys_fill,
          huangSideTrans_fill]
      · simp only [hs1, hs2, hb1, hb2]
    · simp only [hs1, hs2]
  · simp only [bind, Except.bind, e1, e2, h1, h3]

/-- The curves do not cross when an unlimited buyer and an unlimited seller could trade with each other. -/
theorem blocked_intersect (h : NonNegU qty df) (r r' : Row) (hr : r ∈ df) (hr' : r' ∈ df) (hb : r.buying = true)
    (hs : r'.buying = false) (hq : qty r.label = ⊤) (hq' : qty r'.label = ⊤) (hp : r'.price ≤ r.price) :
    ∃ i, intersectStepwise (demandCurveU S df qty) (supplyCurveU S df qty) = .ok i ∧ i.x = none ∧ i.f = none ∧
      i.g = none ∧ ∃ v w : ℚ, stepFun (demandCurveU S df qty) ⊤ = (v : Ext) ∧
        stepFun (supplyCurveU S df qty) ⊤ = (w : Ext) ∧ r.price ≤ v ∧ w ≤ r'.price ∧ i.v = .fin ((w + v) / 2) := by
  obtain ⟨Q, hQ⟩ := exists_gt (limitedTotal qty df)
  have hn := withQty_nonNeg h (le_trans (limitedTotal_nonneg h) hQ.le)
  have tl : ∀ {f : Curve} {y : Ext}, ∃ s ∈ f ++ [((⊤ : Ext), y)], s.1 = ⊤ := fun {f y} =>
    ⟨_, List.mem_append_right _ (List.mem_singleton.mpr rfl), rfl⟩
  have td : ∃ s ∈ demandCurveU S df qty, s.1 = ⊤ := tl
  have ts : ∃ s ∈ supplyCurveU S df qty, s.1 = ⊤ := tl
  have dsame := demandCurve_same (S := S) h hQ
  have ssame := supplyCurve_same (S := S) h hQ
  have sd : IsStep (demandCurve S (withQty qty Q df)).1 := curve_isStep (by
      intro x hx
      obtain ⟨r, hr, rfl⟩ := List.mem_map.mp hx
      exact (hn r (buyRows_mem hr).1).1) _
  have ss : IsStep (supplyCurve S (withQty qty Q df)).1 := curve_isStep (by
      intro x hx
      obtain ⟨r, hr, rfl⟩ := List.mem_map.mp hx
      exact (hn r (sellRows_mem hr).1).1) _
  have hdec := C05_demand_nonincreasing S (withQty qty Q df) (fun r hr => (hn r hr).2)
  have hinc := C06_supply_nondecreasing S (withQty qty Q df)
  rw [List.pairwise_map] at hdec hinc
  have hm : DomainEnd (demandCurveU S df qty) (supplyCurveU S df qty) ⊤ := by
    obtain ⟨s, hs, h1⟩ := td
    obtain ⟨t, ht, h2⟩ := ts
    exact ⟨⊤, ⊤, ⟨⟨s, hs, h1⟩, fun _ _ => le_top⟩, ⟨⟨t, ht, h2⟩, fun _ _ => le_top⟩, (min_self _).symm⟩
  obtain ⟨i, hi, hx, _, hnone⟩ := C74_contract _ _ (dsame.isStep hQ sd) (ssame.isStep hQ ss)
    (dsame.snd_pairwise (R := fun a b => b ≤ a) hdec) (ssame.snd_pairwise (R := fun a b => a ≤ b) hinc) (1/2) ⊤ hm
  obtain ⟨v, hv, hv'⟩ := lookup_top_rel (qty := qty) (R := fun a b => b ≤ a) (fun a => le_refl a) ((0 : ℚ) : Ext)
    (rows := sortDesc S (buys df)) (a := 0) (sortDesc_sorted S (buys df)) (mem_sortDesc.mpr (mem_buys.mpr ⟨hr, hb⟩)) hq
  obtain ⟨w, hw, hw'⟩ := lookup_top_rel (qty := qty) (R := fun a b => a ≤ b) (fun a => le_refl a) (⊤ : Ext)
    (rows := sortAsc S (sells df)) (a := 0) (sortAsc_sorted S (sells df)) (mem_sortAsc.mpr (mem_sells.mpr ⟨hr', hs⟩))
    hq'
  have ev : stepFun (demandCurveU S df qty) ⊤ = (v : Ext) := by
    show (stepLookup ⊤ _).getD _ = _
    rw [show stepLookup ⊤ (demandCurveU S df qty) = some (v : Ext) from hv]
    rfl
  have ew : stepFun (supplyCurveU S df qty) ⊤ = (w : Ext) := by
    show (stepLookup ⊤ _).getD _ = _
    rw [show stepLookup ⊤ (supplyCurveU S df qty) = some (w : Ext) from hw]
    rfl
  have hxn : i.x = none := by
    cases hix : i.x with
    | none => rfl
    | some x =>
      obtain ⟨h1, _, _, h2⟩ := (crossesAt_top td ts).mp ((hx x).mp hix)
      have := h2 ⊤ h1
      rw [ev, ew] at this
      have := WithTop.coe_lt_coe.mp this
      linarith
  obtain ⟨h1, h2, h3⟩ := hnone hxn
  refine ⟨i, hi, hxn, h1, h2, v, w, ev, ew, hv', hw', ?_⟩
  rw [h3 v w ((valueAt_stepFun td).mpr ⟨le_top, ev.symm⟩) ((valueAt_stepFun ts).mpr ⟨le_top, ew.symm⟩)]
  congr 1
  ring

/-- C129: when an unlimited buyer offers at least what an unlimited seller asks for, the curves never cross, and
Huang's auction trades nothing at all. -/
theorem C129_huang_blocked (h : NonNegU qty df) (r r' : Row) (hr : r ∈ df) (hr' : r' ∈ df) (hb : r.buying = true)
    (hs : r'.buying = false) (hq : qty r.label = ⊤) (hq' : qty r'.label = ⊤) (hp : r'.price ≤ r.price) :
    huangAuctionU S df qty = .ok (TransactionManager.init, .empty) := by
  obtain ⟨i, hi, _, h1, h2, _⟩ := blocked_intersect S qty df h r r' hr hr' hb hs hq hq' hp
  unfold huangAuctionU
  simp only [bind, Except.bind, hi, h1]

/-- C129: the same book raises `TypeError` in the uniform price mechanism. -/
theorem C129_uniform_blocked (h : NonNegU qty df) (r r' : Row) (hr : r ∈ df) (hr' : r' ∈ df) (hb : r.buying = true)
    (hs : r'.buying = false) (hq : qty r.label = ⊤) (hq' : qty r'.label = ⊤) (hp : r'.price ≤ r.price) :
    uniformPriceU S df qty = .error .typeError := by
  obtain ⟨i, hi, _, h1, h2, _⟩ := blocked_intersect S qty df h r r' hr hr' hb hs hq hq' hp
  unfold uniformPriceU
  simp only [bind, Except.bind, hi, h1]

/-- C129: the auction of Huang always ends, and the mark `nanQuantity` of the model is never reached. -/
theorem C129_never_stuck (h : NonNegU qty df) : ∃ tm e, huangAuctionU S df qty = .ok (tm, e) := by
  by_cases hn : NoUnlimitedTrade qty df
  · obtain ⟨Q, hQ⟩ := exists_gt (limitedTotal qty df)
    rw [C129_huang_partial S qty df h hn Q hQ]
    rcases huang_cases S (withQty_nonNeg h (le_trans (limitedTotal_nonneg h) hQ.le)) with
      ⟨h1, _⟩ | ⟨_, _, _, _, _, _, _, ⟨_, _, _, _, _, _, _, _, _, h1⟩ | ⟨_, h1⟩⟩
    · exact ⟨_, _, h1⟩
    · exact ⟨_, _, h1⟩
    · exact ⟨_, _, h1⟩
  · unfold NoUnlimitedTrade at hn
    push Not at hn
    obtain ⟨r, hr, r', hr', hb, hs, hq, hq', hp⟩ := hn
    exact ⟨_, _, C129_huang_blocked S qty df h r r' hr hr' hb hs hq hq' hp.le⟩

/-- C129, MUDA: the price of a half in which the curves cross is that of the filled half. -/
theorem C129_muda_price_partial (h : NonNegU qty df) (hn : NoUnlimitedTrade qty df) (Q : ℚ) (hQ : limitedTotal qty df < Q)
    (p : ℚ) (hp : findCompetitivePrice S (withQty qty Q df) = .ok (.fin p)) :
    findCompetitivePriceU S df qty = .ok (.fin p) := by
  unfold findCompetitivePrice at hp
  unfold findCompetitivePriceU
  rcases book_intersect (S := S) h hn hQ with ⟨x, i, e1, e2, _⟩ | ⟨iU, iQ, e1, e2, _, h1, _, _, _, _⟩
  · rw [e2] at hp
    rw [e1]
    exact hp
  · rcases intersect_cases S (withQty_nonNeg h (le_trans (limitedTotal_nonneg h) hQ.le)) (1/2) with
      ⟨x, _, e3⟩ | ⟨e3, _⟩
    · have e4 := e2.symm.trans e3
      cases e4
      cases h1
    · rw [e3] at hp
      have e4 : kMix (1/2) ⊤ ((0 : ℚ) : Ext) = .inf := by decide +kernel
      simp only [bind, Except.bind, e4] at hp
      cases hp

/-- C129, uniform price: a bid without a limit is treated like one larger than all limited bids together, unless an
unlimited buyer could trade with an unlimited seller. -/
theorem C129_uniform_partial (h : NonNegU qty df) (hn : NoUnlimitedTrade qty df) (Q : ℚ) (hQ : limitedTotal qty df < Q) :
    uniformPriceU S df qty =
      (uniformPrice S (withQty qty Q df)).map (fun o => (o.1.trans.map ofTransaction, o.2.1, o.2.2)) := by
  unfold uniformPriceU uniformPrice
  rcases book_intersect (S := S) h hn hQ with ⟨x, i, e1, e2, hx, hxB, hf, hg, hc⟩ |
    ⟨iU, iQ, e1, e2, _, _, h1, h2, h3, h4⟩
  · simp only [bind, Except.bind, e1, e2, hf, hg, buys_fill, sells_fill, sortDesc_fill, sortAsc_fill,
      ← List.map_take]
    have mb := marginal_limited (qty := qty) (rows := sortDesc S (buys df)) (y := ((0 : ℚ) : Ext)) (x := x)
    have ms := marginal_limited (qty := qty) (rows := sortAsc S (sells df)) (y := (⊤ : Ext)) (x := x)
    have hb0 := fun j => side_nonneg (qty := qty) (rows := (sortDesc S (buys df)).take j) h
      (fun r hr => (buyRows_mem (List.mem_of_mem_take hr)).1)
    have hs0 := fun j => side_nonneg (qty := qty) (rows := (sortAsc S (sells df)).take j) h
      (fun r hr => (sellRows_mem (List.mem_of_mem_take hr)).1)
    have hnot : ¬ (((sortDesc S (buys df)).take (argmaxTrue ((demandCurveU S df qty).map
          (fun s => decide (x ≤ s.1))) + 1)).map (fun r => qty r.label)).sum = ⊤ ∨
        ¬ (((sortAsc S (sells df)).take (argmaxTrue ((supplyCurveU S df qty).map
          (fun s => decide (x ≤ s.1))) + 1)).map (fun r => qty r.label)).sum = ⊤ := by
      by_contra hcon
      push Not at hcon
      have h1 : stepFun (demandCurveU S df qty) ⊤ = stepFun (demandCurveU S df qty) x := flat_of_top hcon.1
      have h2 : stepFun (supplyCurveU S df qty) ⊤ = stepFun (supplyCurveU S df qty) x := flat_of_top hcon.2
      have tl : ∀ {f : Curve} {y : Ext}, ∃ s ∈ f ++ [((⊤ : Ext), y)], s.1 = ⊤ := fun {f y} =>
        ⟨_, List.mem_append_right _ (List.mem_singleton.mpr rfl), rfl⟩
      obtain ⟨_, _, h3, _⟩ := (crossesAt_top (f := demandCurveU S df qty) (g := supplyCurveU S df qty) tl tl).mp hc
      rw [← h1, ← h2] at h3
      exact absurd (limits_le (S := S) h hn) (not_le.mpr h3)
    have hB0 := limitedTotal_nonneg h
    have hQ0 : 0 ≤ Q := by linarith
    have hbt := side_total (qty := qty) (rows := sortDesc S (buys df)) h (fun r => r.buying) (sortDesc_perm S _)
    have hst := side_total (qty := qty) (rows := sortAsc S (sells df)) h (fun r => !r.buying) (sortAsc_perm S _)
    change (sortDesc S (buys df)).take (argmaxTrue ((demandCurveU S df qty).map (fun s => decide (x ≤ s.1))) + 1)
      |>.Pairwise _ at mb
    change (sortAsc S (sells df)).take (argmaxTrue ((supplyCurveU S df qty).map (fun s => decide (x ≤ s.1))) + 1)
      |>.Pairwise _ at ms
    generalize argmaxTrue ((demandCurveU S df qty).map (fun s => decide (x ≤ s.1))) + 1 = nb at *
    generalize argmaxTrue ((supplyCurveU S df qty).map (fun s => decide (x ≤ s.1))) + 1 = ns at *
    have htake : ∀ {rows : DF} (n : ℕ), (∀ e ∈ rows.map (fun r => qty r.label), ((0 : ℚ) : Ext) ≤ e) →
        (((rows.take n).map (fun r => qty r.label)).map (fun e => e.untopD 0)).sum ≤
          ((rows.map (fun r => qty r.label)).map (fun e => e.untopD 0)).sum := by
      intro rows n h0
      conv_rhs => rw [← List.take_append_drop n rows, List.map_append, List.map_append, List.sum_append]
      have : 0 ≤ (((rows.drop n).map (fun r => qty r.label)).map (fun e => e.untopD 0)).sum := by
        apply List.sum_nonneg
        intro v hv
        obtain ⟨e, he, rfl⟩ := List.mem_map.mp hv
        obtain ⟨r, hr, rfl⟩ := List.mem_map.mp he
        exact untop_nonneg (h0 _ (List.mem_map.mpr ⟨r, List.mem_of_mem_drop hr, rfl⟩))
      linarith
    have sb := sum_sameUpTo hQ0 (hb0 nb) (le_trans (htake nb (side_nonneg h (fun r hr => (buyRows_mem hr).1))) hbt)
    have sl := sum_sameUpTo hQ0 (hs0 ns) (le_trans (htake ns (side_nonneg h (fun r hr => (sellRows_mem hr).1))) hst)
    have hb0 := hb0 nb
    have hs0 := hs0 ns
    generalize (sortDesc S (buys df)).take nb = L at *
    generalize (sortAsc S (sells df)).take ns = M at *
    have qs : ∀ rows : DF, qsum (rows.map (fillRow qty Q)) =
        ((rows.map (fun r => qty r.label)).map (fun e => e.untopD Q)).sum := by
      intro rows
      unfold qsum
      rw [qtys_fill]
    simp only [qs]
    have key : ∀ {L M : DF}, (L.map (fun r => qty r.label)).sum ≠ ⊤ →
        SameUpTo (limitedTotal qty df) Q (L.map (fun r => qty r.label)).sum
          (((L.map (fun r => qty r.label)).map (fun e => e.untopD Q)).sum : ℚ) →
        (∀ e ∈ M.map (fun r => qty r.label), ((0 : ℚ) : Ext) ≤ e) → M.Pairwise (fun r _ => qty r.label ≠ ⊤) →
        ∀ p : ℚ, uniformShortU p qty L ++ uniformLongU p qty (L.map (fun r => qty r.label)).sum 0 M =
          (uniformShort p (L.map (fillRow qty Q)) ++ uniformLong p
            ((L.map (fun r => qty r.label)).map (fun e => e.untopD Q)).sum 0 (M.map (fillRow qty Q))).map
              ofTransaction := by
      intro L M hL hs h0 hp p
      rcases hs with ⟨e3, e4⟩ | ⟨e3, _⟩
      · rw [List.map_append, uniformShortU_eq (Q := Q) p (sum_limited hL), e3]
        congr 1
        rw [e3] at e4
        have := WithTop.coe_le_coe.mp e4
        exact uniformLongU_eq p (by linarith) (le_refl 0) h0 hp
      · exact absurd e3 hL
    have hcmp : ((M.map (fun r => qty r.label)).sum < (L.map (fun r => qty r.label)).sum ↔
        ((M.map (fun r => qty r.label)).map (fun e => e.untopD Q)).sum <
          ((L.map (fun r => qty r.label)).map (fun e => e.untopD Q)).sum) ∧
        ((M.map (fun r => qty r.label)).sum < (L.map (fun r => qty r.label)).sum →
          (M.map (fun r => qty r.label)).sum ≠ ⊤) ∧
        (¬ (M.map (fun r => qty r.label)).sum < (L.map (fun r => qty r.label)).sum →
          (L.map (fun r => qty r.label)).sum ≠ ⊤) := by
      refine ⟨?_, fun hlt => ne_top_of_lt hlt, fun hlt ht => ?_⟩
      · rcases sb with ⟨b1, b2⟩ | ⟨b1, b2⟩
        · rcases sl with ⟨s1, s2⟩ | ⟨s1, s2⟩
          · rw [b1, s1]
            exact WithTop.coe_lt_coe
          · rw [s1]
            rw [b1] at b2
            have := WithTop.coe_le_coe.mp b2
            have := WithTop.coe_le_coe.mp s2
            exact ⟨fun hlt => absurd le_top (not_le.mpr hlt), fun hlt => by linarith⟩
        · rcases sl with ⟨s1, s2⟩ | ⟨s1, s2⟩
          · rw [b1, s1]
            rw [s1] at s2
            have := WithTop.coe_le_coe.mp s2
            have := WithTop.coe_le_coe.mp b2
            exact ⟨fun _ => by linarith, fun _ => WithTop.coe_lt_top _⟩
          · rcases hnot with hnot | hnot
            · exact absurd b1 hnot
            · exact absurd s1 hnot
      · rcases hnot with hnot | hnot
        · exact hnot ht
        · rw [ht] at hlt
          exact hlt (lt_top_iff_ne_top.mpr hnot)
    by_cases hlt : (M.map (fun r => qty r.label)).sum < (L.map (fun r => qty r.label)).sum
    · rw [if_pos hlt, if_pos (hcmp.1.mp hlt), key (hcmp.2.1 hlt) sl hb0 mb]
      simp only [Except.map, TransactionManager.init_addAll_trans, qs]
    · rw [if_neg hlt, if_neg (fun h' => hlt (hcmp.1.mpr h')), key (hcmp.2.2 hlt) sb hs0 ms]
      simp only [Except.map, TransactionManager.init_addAll_trans, qs]
  · simp only [bind, Except.bind, e1, e2, h1, h3]
    rfl


/-- C129, peer to peer: when no unlimited buyer can trade with an unlimited seller, the rounds and the transactions
are those of the filled book, for all random choices. -/
theorem C129_p2p_partial (ht : IsTable df) (h : NonNegU qty df) (c : ℚ) (choice : ℕ → ℕ)
    (hn : ∀ r ∈ df, ∀ r' ∈ df, r.buying = true → r'.buying = false → qty r.label = ⊤ → qty r'.label = ⊤ →
      r.price < r'.price) (Q : ℚ) (hQ : limitedTotal qty df < Q) :
    ∃ tm rounds, p2pRandom c choice (withQty qty Q df) = .ok (tm, .p2p rounds) ∧
      p2pRandomU c choice df qty = (rounds, tm.trans.map ofTransaction) := by
  have hlen : ∀ {r : Row}, r ∈ df → df[r.label]? = some r := fun hr => ht.get_label hr
  have hprice : valueAt (withQty qty Q df) (fun r => r.price) = valueAt df (fun r => r.price) := by
    funext i
    unfold valueAt
    rw [withQty_eq, List.getElem?_map]
    cases df[i]? <;> rfl
  have hpairs : allPairs (withQty qty Q df) = allPairs df := by
    unfold allPairs
    rw [buys_fill, sells_fill, List.flatMap_map]
    congr 1
    funext b
    rw [List.map_map]
    rfl
  have hq : ∀ r ∈ df, valueAt (withQty qty Q df) (fun r => r.quantity) r.label = (qty r.label).untopD Q := by
    intro r hr
    unfold valueAt
    rw [withQty_eq, List.getElem?_map, hlen hr]
    rfl
  have hleft : limitedLeft qty df (valueAt (withQty qty Q df) (fun r => r.quantity)) ≤ limitedTotal qty df := by
    have e : ((df.filter (fun r => decide (qty r.label ≠ ⊤))).map (fun r => r.label)).map
        (valueAt (withQty qty Q df) (fun r => r.quantity)) =
        ((df.filter (fun r => decide (qty r.label ≠ ⊤))).map (fun r => qty r.label)).map (fun e => e.untopD 0) := by
      rw [List.map_map, List.map_map]
      apply List.map_congr_left
      intro r hr
      obtain ⟨hr1, hr2⟩ := List.mem_filter.mp hr
      show valueAt (withQty qty Q df) (fun r => r.quantity) r.label = (qty r.label).untopD 0
      rw [hq r hr1]
      have hr2 : qty r.label ≠ ⊤ := by simpa using hr2
      generalize qty r.label = e at hr2
      induction e using WithTop.recTopCoe with
      | top => exact absurd rfl hr2
      | coe q => rfl
    unfold limitedLeft
    rw [e]
    exact side_total h _ (List.Perm.refl _)
  have hB0 := limitedTotal_nonneg h
  have hsame : SameLeft qty df (fun i => Val.ofExt (qty i)) (valueAt (withQty qty Q df) (fun r => r.quantity)) := by
    intro r hr
    rw [hq r hr]
    have h0 := (h r hr).1
    show _ ∧ ((_ ∧ Val.ofExt (qty r.label) = _) ∨ (_ ∧ Val.ofExt (qty r.label) = _ ∧ _))
    generalize qty r.label = e at h0
    induction e using WithTop.recTopCoe with
    | top => exact ⟨by show 0 ≤ Q; linarith, Or.inr ⟨rfl, rfl, by show _ < Q; linarith⟩⟩
    | coe q => exact ⟨WithTop.coe_le_coe.mp h0, Or.inl ⟨WithTop.coe_ne_top, rfl⟩⟩
  have hok : ∀ p ∈ allPairs df, PairOk qty df (valueAt df (fun r => r.price)) p := by
    intro p hp
    obtain ⟨b, hb, s, hs, hbb, hss, rfl⟩ := mem_allPairs.mp hp
    refine ⟨b, hb, s, hs, rfl, ?_, ?_⟩
    · intro e
      have e1 := hlen hb
      rw [e, hlen hs] at e1
      have e1 := Option.some.inj e1
      subst e1
      rw [hbb] at hss
      cases hss
    · intro q1 q2
      unfold valueAt
      rw [hlen hb, hlen hs]
      exact hn b hb s hs hbb hss q1 q2
  have hex : ∀ q, exhausted (withQty qty Q df) q = exhausted df q := by
    intro q
    unfold exhausted
    rw [buys_fill, sells_fill, List.map_map, List.map_map]
    rfl
  obtain ⟨h1, h2⟩ := p2pLoop_same ht (valueAt df (fun r => r.price)) c choice _ (n := 0) (inactive := [])
    (withQty qty Q df) (le_refl _) hsame hok (by rw [withQty_eq, List.map_map]; rfl) hex
  refine ⟨_, _, rfl, ?_⟩
  rw [TransactionManager.init_addAll_trans, hprice, hpairs, ← h1, ← h2]
  rfl

end

/-! ## Cases -/

/-- Two buyers, one of them unlimited, and three sellers, the most expensive of them unlimited; the quantities of
the rows are not used. -/
def unlimitedBook : DF := labelFrom 0 [⟨0, 10, 0, true, 0, true⟩, ⟨0, 12, 1, true, 0, true⟩, ⟨0, 1, 2, false, 0, true⟩,
  ⟨0, 2, 3, false, 0, true⟩, ⟨0, 11, 4, false, 0, true⟩]

def unlimitedCol : ℕ → Ext := fun i => if i = 1 then ((2 : ℚ) : Ext) else if i = 2 then ((1 : ℚ) : Ext) else
  if i = 3 then ((3 : ℚ) : Ext) else ⊤

example : NonNegU unlimitedCol unlimitedBook ∧ NoUnlimitedTrade unlimitedCol unlimitedBook ∧
    limitedTotal unlimitedCol unlimitedBook < 7 ∧ IsTable unlimitedBook ∧
    (∀ r ∈ unlimitedBook, ∀ r' ∈ unlimitedBook, r.buying = true → r'.buying = false → unlimitedCol r.label = ⊤ →
      unlimitedCol r'.label = ⊤ → r.price < r'.price) ∧
    huangAuctionU stableSorter unlimitedBook unlimitedCol =
      .ok (⟨2, [⟨2, 1, 2, -1, false⟩, ⟨1, 1, 10, -1, false⟩]⟩, .huang ((2 : ℚ) : Ext) ((10 : ℚ) : Ext) 1) ∧
    uniformPriceU stableSorter unlimitedBook unlimitedCol =
      .ok ([⟨2, .fin 1, 10, -1, false⟩, ⟨3, .fin 3, 10, -1, false⟩, ⟨1, .fin 2, 10, -1, false⟩,
        ⟨0, .fin 2, 10, -1, false⟩], some ((4 : ℚ) : Ext), .fin 10) ∧
    findCompetitivePrice stableSorter (withQty unlimitedCol 7 unlimitedBook) = .ok (.fin 10) := by decide +kernel

example : (p2pRandomU (1/2) (fun _ => 0) unlimitedBook unlimitedCol).1 = [[(0, 2), (1, 3)], [(0, 3)], [(0, 4)]] := by
  decide +kernel

/-- An unlimited buyer at `10` and an unlimited seller at `1` besides two limited bids. -/
def blockedBook : DF := labelFrom 0 [⟨0, 12, 0, true, 0, true⟩, ⟨0, 10, 1, true, 0, true⟩, ⟨0, 1/2, 2, false, 0, true⟩,
  ⟨0, 1, 3, false, 0, true⟩]

def blockedCol : ℕ → Ext := fun i => if i = 1 ∨ i = 3 then ⊤ else ((1 : ℚ) : Ext)

example : NonNegU blockedCol blockedBook ∧ ∃ r ∈ blockedBook, ∃ r' ∈ blockedBook, r.buying = true ∧
    r'.buying = false ∧ blockedCol r.label = ⊤ ∧ blockedCol r'.label = ⊤ ∧ r'.price ≤ r.price := by decide +kernel

/-- C129: without the condition on the unlimited bids the claim fails for Huang's auction. The two limited bids trade
with any large number in place of the infinities, but not with the infinities. -/
theorem C129_huang_refuted : ∃ (S : Sorter) (qty : ℕ → Ext) (df : DF) (Q : ℚ), NonNegU qty df ∧
    limitedTotal qty df < Q ∧ huangAuctionU S df qty = .ok (TransactionManager.init, .empty) ∧
    huangAuction S (withQty qty Q df) =
      .ok (⟨2, [⟨2, 1, 1, -1, false⟩, ⟨0, 1, 10, -1, false⟩]⟩, .huang ((1 : ℚ) : Ext) ((10 : ℚ) : Ext) 1) :=
  ⟨stableSorter, blockedCol, blockedBook, 5, by decide +kernel⟩

/-- C129: the same for the uniform price mechanism, which raises an exception. -/
theorem C129_uniform_refuted : ∃ (S : Sorter) (qty : ℕ → Ext) (df : DF) (Q : ℚ), NonNegU qty df ∧
    limitedTotal qty df < Q ∧ uniformPriceU S df qty = .error .typeError ∧
    ∃ o, uniformPrice S (withQty qty Q df) = .ok o := by
  refine ⟨stableSorter, blockedCol, blockedBook, 5, by decide +kernel, by decide +kernel, by decide +kernel, ?_⟩
  have h : (match uniformPrice stableSorter (withQty blockedCol 5 blockedBook) with
    | .ok _ => true
    | .error _ => false) = true := by decide +kernel
  revert h
  cases uniformPrice stableSorter (withQty blockedCol 5 blockedBook) with
  | ok o => exact fun _ => ⟨o, rfl⟩
  | error e => intro h; cases h

/-- C129, MUDA: the price of a half without a crossing is infinite in the filled book, and half the price of the
unlimited seller with an infinite quantity. -/
theorem C129_muda_price_refuted : ∃ (S : Sorter) (qty : ℕ → Ext) (df : DF) (Q : ℚ), NonNegU qty df ∧
    NoUnlimitedTrade qty df ∧ limitedTotal qty df < Q ∧ findCompetitivePriceU S df qty = .ok (.fin (5/2)) ∧
    findCompetitivePrice S (withQty qty Q df) = .ok .inf :=
  ⟨stableSorter, fun i => if i = 0 then ((1 : ℚ) : Ext) else ⊤,
    labelFrom 0 [⟨0, 2, 0, true, 0, true⟩, ⟨0, 5, 1, false, 0, true⟩], 5, by decide +kernel⟩

/-- C129, peer to peer: when an unlimited buyer has met an unlimited seller with a lower price, their remaining
quantities and the total are `nan`, and the market ends at once. In the filled book the last buyer still trades. -/
theorem C129_p2p_refuted : ∃ (qty : ℕ → Ext) (df : DF) (c : ℚ) (choice : ℕ → ℕ) (Q : ℚ), NonNegU qty df ∧
    IsTable df ∧ limitedTotal qty df < Q ∧
    (p2pRandomU c choice df qty).1 = [[(0, 3), (2, 4)], [(0, 4)]] ∧
    (p2pRandomU c choice df qty).2.drop 4 = [⟨0, .inf, 11/2, 4, false⟩, ⟨4, .inf, 11/2, 0, false⟩] ∧
    (p2pRandom c choice (withQty qty Q df)).map (fun o => (o.1.trans.drop 4, o.2)) =
      .ok ([⟨0, 4, 11/2, 4, false⟩, ⟨4, 4, 11/2, 0, true⟩, ⟨1, 1, 13/2, 4, false⟩, ⟨4, 1, 13/2, 1, false⟩],
        .p2p [[(0, 3), (2, 4)], [(0, 4)], [(1, 4)]]) :=
  ⟨fun i => if i = 0 ∨ i = 4 then ⊤ else ((1 : ℚ) : Ext),
    labelFrom 0 [⟨0, 10, 0, true, 0, true⟩, ⟨0, 12, 1, true, 0, true⟩, ⟨0, 1/2, 2, true, 0, true⟩,
      ⟨0, 2, 3, false, 0, true⟩, ⟨0, 1, 4, false, 0, true⟩], 1/2, fun n => if n = 1 then 1 else 0, 5,
    by decide +kernel⟩

end PyMarket
