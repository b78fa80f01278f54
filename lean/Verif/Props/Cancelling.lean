import Verif.Props.ZeroGroups
import Verif.Props.Totals
import Verif.Props.Statistics

/-! # C134: bids of a price whose quantities cancel -/

set_option autoImplicit false

namespace PyMarket

open Spec

/-- The entry of a bid of quantity `q` whose group has the total `G` and trades `t`: the share `q / G` of `t`; if `G` is
0, `NaN` where the code computes zero times infinity or zero by zero, and infinite otherwise. -/
structure Spec.ShareEntry (q G t : ℚ) (v : Val) : Prop where
  share : G ≠ 0 → v = .fin (t * (q / G))
  nan : G = 0 → (v = .nan ↔ q * t = 0)
  inf : G = 0 → (v = .inf ↔ 0 < q * t)
  ninf : G = 0 → (v = .ninf ↔ q * t < 0)

theorem shareEntry_quot (q G t : ℚ) : ShareEntry q G t ((Val.quot q G).times t) := by
  constructor
  · intro h
    simp [Val.quot, h, Val.times]
  all_goals
    rintro rfl
    rcases lt_trichotomy q 0 with hq | rfl | hq <;> rcases lt_trichotomy t 0 with ht | rfl | ht <;>
      simp_all [Val.quot, Val.times, not_lt.mpr, le_of_lt, ne_of_gt, ne_of_lt, mul_pos_of_neg_of_neg,
        mul_neg_of_pos_of_neg, mul_neg_of_neg_of_pos]

/-- The merged book, for any quantities. -/
theorem merge_any (smp : Sampler) {df : DF} (ht : IsTable df) :
    ∃ nb mp, mergeSamePrice smp df = .ok (nb, mp) ∧ IsTable nb ∧ mp.length = nb.length ∧
      ∀ (k : ℕ) (row : Row) (ids : List ℕ), nb[k]? = some row → mp[k]? = some ids →
        ids ≠ [] ∧ row.quantity = (ids.map (qtyOf df)).sum ∧
        row.quantity = offered (npRound 5) df row.buying row.price ∧
        ∀ i ∈ ids, ∃ r, df[i]? = some r ∧ r.buying = row.buying ∧ npRound 5 r.price = row.price := by
  obtain ⟨nb, mp, h1, h2, h3, h4, h5, h6, _⟩ := C34_merge_partition smp df 5 ht
  refine ⟨nb, mp, h1, h2, h3, ?_⟩
  intro k row ids hr hi
  obtain ⟨g1, g2, g3⟩ := h5 k row ids hr hi
  have g3' : ∀ i ∈ ids, ∃ r, df[i]? = some r ∧ r.buying = row.buying ∧ npRound 5 r.price = row.price := by
    intro i hi
    obtain ⟨r, hr, hb, hround⟩ := g3 i hi
    exact ⟨r, hr, hb, isRounded_unique (npRound_isRounded 5 _) hround⟩
  refine ⟨g1, g2, ?_, g3'⟩
  have hn : mp.flatten.Nodup := h4.nodup_iff.mpr List.nodup_range
  have hidm := List.mem_of_getElem? hi
  have hidn : ids.Nodup := (List.nodup_flatten.mp hn).1 ids hidm
  have hperm : ids.Perm ((df.filter (fun r => r.buying == row.buying && npRound 5 r.price == row.price)).map
      (fun r => r.label)) := by
    have hdn : ((df.filter (fun r => r.buying == row.buying && npRound 5 r.price == row.price)).map
      (fun r => r.label)).Nodup := ht.nodup.sublist (List.filter_sublist.map _)
    rw [List.perm_ext_iff_of_nodup hidn hdn]
    intro i
    constructor
    · intro hi
      obtain ⟨r, hr, hb, hp⟩ := g3' i hi
      refine List.mem_map.mpr ⟨r, List.mem_filter.mpr ⟨List.mem_of_getElem? hr, by simp [hb, hp]⟩, ht.label hr⟩
    · intro hi
      obtain ⟨r, hr, rfl⟩ := List.mem_map.mp hi
      obtain ⟨hr, hc⟩ := List.mem_filter.mp hr
      simp only [Bool.and_eq_true, beq_iff_eq] at hc
      obtain ⟨j, hj⟩ := List.exists_mem_of_ne_nil _ g1
      obtain ⟨r', hr', hb', hp'⟩ := g3' j hj
      have hr'm := List.mem_of_getElem? hr'
      obtain ⟨ids', m1, m2, m3⟩ := (h6 r hr r' hr'm).mpr ⟨hc.1.trans hb'.symm, npRound 5 r.price,
        npRound_isRounded 5 _, by rw [hc.2, ← hp']; exact npRound_isRounded 5 _⟩
      rw [ht.label hr'] at m3
      rwa [flatten_nodup_inj hn m1 hidm m3 hj] at m2
  rw [g2, (hperm.map _).sum_eq, List.map_map]
  unfold offered
  congr 1
  refine List.map_congr_left (fun r hr => ?_)
  exact ht.qty_eq (List.mem_filter.mp hr).1

/-- The log after splitting, for any quantities. -/
theorem mechanismV_any (smp : Sampler) (algo : Algo) {df : DF} (ht : IsTable df)
    (hlt : ∀ nb tm ex, IsTable nb → (∀ row ∈ nb, row.quantity = offered (npRound 5) df row.buying row.price) →
      mechRun algo nb = .ok (tm, ex) → ∀ t ∈ tm.trans, t.bid < nb.length)
    {l : List TransV} {ex : Extra} (h : mechanismV smp true algo df = .ok (l, ex)) :
    ∃ nb tm, IsTable nb ∧ mechRun algo nb = .ok (tm, ex) ∧
      (∀ row ∈ nb, row.quantity = offered (npRound 5) df row.buying row.price ∧
        ∃ r ∈ df, r.buying = row.buying ∧ npRound 5 r.price = row.price) ∧
      ∀ e ∈ l, ∃ t ∈ tm.trans, ∃ row ∈ nb, ∃ r ∈ df, row.label = t.bid ∧ r.label = e.bid ∧ r.buying = row.buying ∧
        npRound 5 r.price = row.price ∧ e.price = t.price ∧ ShareEntry r.quantity row.quantity t.quantity e.quantity := by
  obtain ⟨nb, mp, hm, htn, hlen, hg⟩ := merge_any smp ht
  have get : ∀ k, k < nb.length → ∃ row ids, nb[k]? = some row ∧ mp[k]? = some ids := fun k hk =>
    ⟨_, _, List.getElem?_eq_getElem hk, List.getElem?_eq_getElem (hlen ▸ hk)⟩
  have hrows : ∀ row ∈ nb, row.quantity = offered (npRound 5) df row.buying row.price ∧
      ∃ r ∈ df, r.buying = row.buying ∧ npRound 5 r.price = row.price := by
    intro row hrow
    obtain ⟨row', ids, e1, e2⟩ := get _ (htn.label_lt hrow)
    rw [htn.get_label hrow] at e1
    cases e1
    obtain ⟨g1, _, g3, g4⟩ := hg _ row ids (htn.get_label hrow) e2
    obtain ⟨i, hi⟩ := List.exists_mem_of_ne_nil _ g1
    obtain ⟨r, hr', hb, hp⟩ := g4 i hi
    exact ⟨g3, r, List.mem_of_getElem? hr', hb, hp⟩
  cases hr : mechRun algo nb with
  | error e =>
    unfold mechanismV at h
    simp only [if_true, hm, bind, Except.bind, hr] at h
    cases h
  | ok o =>
    obtain ⟨tm, ex'⟩ := o
    have hlt' := hlt nb tm ex' htn (fun row h => (hrows row h).1) hr
    have hs : splitAllV df mp tm.getDf = .ok (tm.trans.flatMap (splitV df mp)) := by
      refine splitAllV_ok (fun t htt => ?_)
      obtain ⟨row, ids, e1, e2⟩ := get _ (hlt' t htt)
      refine ⟨ids, e2, fun i hi => ?_⟩
      obtain ⟨r, hr', _⟩ := (hg _ row ids e1 e2).2.2.2 i hi
      exact (List.getElem?_eq_some_iff.mp hr').1
    unfold mechanismV at h
    simp only [if_true, hm, bind, Except.bind, hr, hs] at h
    cases h
    refine ⟨nb, tm, htn, hr, hrows, ?_⟩
    · intro e he
      obtain ⟨t, htt, hs'⟩ := List.mem_flatMap.mp he
      obtain ⟨row, ids, e1, e2⟩ := get _ (hlt' t htt)
      obtain ⟨_, g2, g3, g4⟩ := hg _ row ids e1 e2
      unfold splitV at hs'
      rw [e2, Option.getD_some] at hs'
      obtain ⟨i, hi, rfl⟩ := List.mem_map.mp hs'
      obtain ⟨r, hr', hb, hp⟩ := g4 i hi
      refine ⟨t, htt, row, List.mem_of_getElem? e1, r, List.mem_of_getElem? hr', htn.label e1, ht.label hr', hb, hp,
        rfl, ?_⟩
      simp only [← g2, qtyOf_some hr']
      exact shareEntry_quot _ _ _

theorem SignedOut.conserves {df : DF} {ps pb : ℚ} {ts : List Transaction} (hq : ∀ r ∈ df, 0 ≤ r.quantity)
    (h : SignedOut df ps pb ts) : Conserves df ts :=
  ⟨fun t ht => ⟨(h.trade t ht).id_lt, (h.trade t ht).nonneg⟩,
    fun i => capacity_of_nodup h.nodup (fun t ht => (h.trade t ht).le) hq i, h.balanced⟩

/-- The rows offer the totals of the submitted bids of their side and rounded price. -/
def Spec.IsMergedBook (rd : ℚ → ℚ) (df nb : DF) : Prop := IsTable nb ∧
  ∀ row ∈ nb, row.quantity = offered rd df row.buying row.price ∧
    ∃ r ∈ df, r.buying = row.buying ∧ rd r.price = row.price

/-- **C134, peer to peer.** For quantities of any sign the class with `merge=True` returns. Every entry of its log is the
share of a bid in what its group trades; if the quantities of the group cancel, it is infinite, with the sign of the
product of the bid's quantity and of what the group trades, and `NaN` if this product is 0. -/
theorem C134_p2p (S : Sorter) (smp : Sampler) (c : ℚ) (choice : ℕ → ℕ) (df : DF) (ht : IsTable df) (rd : ℚ → ℚ)
    (hrd : ∀ p, IsRounded 5 p (rd p)) :
    ∃ l ex nb tm, runAlgoV S smp (.p2p true c choice) df = .ok (l, ex) ∧ IsMergedBook rd df nb ∧
      runAlgo S smp (.p2p false c choice) nb = .ok (tm, ex) ∧
      ∀ e ∈ l, ∃ t ∈ tm.trans, ∃ row ∈ nb, ∃ r ∈ df, row.label = t.bid ∧ r.label = e.bid ∧ r.buying = row.buying ∧
        rd r.price = row.price ∧ e.price = t.price ∧ ShareEntry r.quantity row.quantity t.quantity e.quantity := by
  obtain rfl : rd = npRound 5 := funext (fun p => isRounded_unique (hrd p) (npRound_isRounded 5 p))
  have hlt : ∀ nb tm ex, IsTable nb → mechRun (p2pRandom c choice) nb = .ok (tm, ex) →
      ∀ t ∈ tm.trans, t.bid < nb.length := by
    intro nb tm ex hn hr t htt
    rcases mechRun_two_sided (p2pRandom c choice) nb with h | h
    · obtain ⟨tm', R, h1, h2⟩ := C21_price_rule c choice nb hn
      rw [h, h1] at hr
      cases hr
      obtain ⟨b, s, _, hp, hor, _⟩ := h2 t htt
      have := isPair_lt hp
      rcases hor with h | h
      · rw [h.1]; exact this.1
      · rw [h.1]; exact this.2
    · rw [h] at hr
      cases hr
      cases htt
  have hret : ∃ l ex, runAlgoV S smp (.p2p true c choice) df = .ok (l, ex) := by
    obtain ⟨nb, mp, hm, htn, hlen, hg⟩ := merge_any smp ht
    obtain ⟨tm, ex, hr⟩ : ∃ tm ex, mechRun (p2pRandom c choice) nb = .ok (tm, ex) := by
      rcases mechRun_two_sided (p2pRandom c choice) nb with h | h
      · obtain ⟨tm', R, h1, _⟩ := C21_price_rule c choice nb htn
        exact ⟨_, _, h.trans h1⟩
      · exact ⟨_, _, h⟩
    have hs : splitAllV df mp tm.getDf = .ok (tm.trans.flatMap (splitV df mp)) := by
      refine splitAllV_ok (fun t htt => ?_)
      have hk := hlt nb tm ex htn hr t htt
      refine ⟨_, List.getElem?_eq_getElem (hlen ▸ hk), fun i hi => ?_⟩
      obtain ⟨r, hr', _⟩ := (hg _ _ _ (List.getElem?_eq_getElem hk) (List.getElem?_eq_getElem (hlen ▸ hk))).2.2.2 i hi
      exact (List.getElem?_eq_some_iff.mp hr').1
    refine ⟨tm.trans.flatMap (splitV df mp), ex, ?_⟩
    change mechanismV smp true (p2pRandom c choice) df = _
    unfold mechanismV
    simp only [if_true, hm, bind, Except.bind, hr, hs]
  obtain ⟨l, ex, hl⟩ := hret
  obtain ⟨nb, tm, h1, h2, h3, h4⟩ := mechanismV_any smp (p2pRandom c choice) ht
    (fun nb tm ex hn _ hr => hlt nb tm ex hn hr) hl
  refine ⟨l, ex, nb, tm, hl, ⟨h1, h3⟩, ?_, h4⟩
  change mechanism smp false (p2pRandom c choice) nb = _
  unfold mechanism
  simp only [Bool.false_eq_true, if_false, bind, Except.bind, h2]

/-- **C134, no infinite entries.** If no price has a negative total on a side, then in the log of every mechanism run
with merging each entry is a number or `NaN`, and it is `NaN` exactly if the quantities of its price cancel. -/
theorem C134_no_infinity (S : Sorter) (smp : Sampler) (call : AlgoCall) (df : DF) (ht : IsTable df) (rd : ℚ → ℚ)
    (hrd : ∀ p, IsRounded 5 p (rd p)) (hq : ∀ side y, 0 ≤ offered rd df side y)
    (hcall : call = .huang ∨ (∃ coin, call = .muda true coin) ∨ ∃ c choice, call = .p2p true c choice)
    (l : List TransV) (ex : Extra) (hrun : runAlgoV S smp call df = .ok (l, ex)) :
    NumOrNan l ∧ ∀ e ∈ l, ∃ r ∈ df, e.bid = r.label ∧
      (e.quantity = .nan ↔ offered rd df r.buying (rd r.price) = 0) := by
  obtain rfl : rd = npRound 5 := funext (fun p => isRounded_unique (hrd p) (npRound_isRounded 5 p))
  have main : ∀ algo : Algo, mechanismV smp true algo df = .ok (l, ex) →
      (∀ nb tm ex, IsTable nb → (∀ r ∈ nb, 0 ≤ r.quantity) → mechRun algo nb = .ok (tm, ex) → Conserves nb tm.trans) →
      ∀ e ∈ l, ∃ r ∈ df, e.bid = r.label ∧ ((e.quantity = .nan ∧ offered (npRound 5) df r.buying (npRound 5 r.price) = 0) ∨
        ((∃ q, e.quantity = .fin q) ∧ offered (npRound 5) df r.buying (npRound 5 r.price) ≠ 0)) := by
    intro algo hr hC e he
    obtain ⟨nb, tm, h1, h2, h3, h4⟩ := mechanismV_any smp algo ht (fun nb tm ex hn hq' hr t htt =>
      ((hC nb tm ex hn (fun r hr => by rw [hq' r hr]; exact hq _ _) hr).entries t htt).1) hr
    obtain ⟨t, htt, row, hrow, r, hrd', e1, e2, e3, e4, _, e6⟩ := h4 e he
    have hC' := hC nb tm ex h1 (fun r hr => by rw [(h3 r hr).1]; exact hq _ _) h2
    refine ⟨r, hrd', e2.symm, ?_⟩
    rw [e3, e4, ← (h3 row hrow).1]
    by_cases h0 : row.quantity = 0
    · left
      refine ⟨(e6.nan h0).mpr ?_, h0⟩
      have hle := hC'.le htt
      rw [← e1, h1.qty_eq hrow, h0] at hle
      rw [le_antisymm hle (hC'.entries t htt).2, mul_zero]
    · exact .inr ⟨⟨_, e6.share h0⟩, h0⟩
  have key : ∀ e ∈ l, ∃ r ∈ df, e.bid = r.label ∧
      ((e.quantity = .nan ∧ offered (npRound 5) df r.buying (npRound 5 r.price) = 0) ∨
        ((∃ q, e.quantity = .fin q) ∧ offered (npRound 5) df r.buying (npRound 5 r.price) ≠ 0)) := by
    rcases hcall with rfl | ⟨coin, rfl⟩ | ⟨c, choice, rfl⟩
    · refine main (huangAuction S) hrun ?_
      intro nb tm ex hn hqn h
      rcases mechRun_two_sided (huangAuction S) nb with h' | h'
      · rw [h] at h'
        rcases huang_direct_signed S hn hqn with h1 | ⟨tm', ps, pb, q, h1, hO, _⟩
        · rw [h1] at h'; cases h'; exact conserves_nil hqn
        · rw [h1] at h'; cases h'; exact SignedOut.conserves hqn hO
      · rw [h] at h'; cases h'; exact conserves_nil hqn
    · exact main (muda S coin) hrun (fun nb tm ex hn hqn h => (muda_mechRun hn hqn h).1)
    · refine main (p2pRandom c choice) hrun ?_
      intro nb tm ex hn hqn h
      obtain ⟨tm', ex', h', hC, _⟩ := p2p_conserves c choice hn hqn
      rw [h] at h'; cases h'
      exact hC
  constructor
  · intro e he
    obtain ⟨r, _, _, h' | h'⟩ := key e he
    · exact .inl h'.1
    · exact .inr h'.1
  · intro e he
    obtain ⟨r, hr, hl, h' | h'⟩ := key e he
    · exact ⟨r, hr, hl, fun _ => h'.2, fun _ => h'.1⟩
    · refine ⟨r, hr, hl, fun hn => ?_, fun hE => absurd hE h'.2⟩
      obtain ⟨⟨q, hq'⟩, _⟩ := h'
      rw [hq'] at hn; cases hn

/-! ## The hypotheses are met -/

/-- Buyers 1 and -1 @ 10, 2 @ 9; sellers -2 @ 1, 3 @ 2. -/
def cancelBook : DF := labelFrom 0 [⟨1, 10, 0, true, 0, true⟩, ⟨-1, 10, 1, true, 0, true⟩, ⟨2, 9, 2, true, 0, true⟩,
  ⟨-2, 1, 3, false, 0, true⟩, ⟨3, 2, 4, false, 0, true⟩]

/-- **C134, infinite entries exist** when a price has a negative total: the two buyers @ 10 cancel and meet the seller of
-2 @ 1 first. Their profits and the profit of the market are not numbers. -/
theorem C134_infinite : IsTable cancelBook ∧
    ((runAlgoV stableSorter headSampler (.p2p true (1 / 2) (fun _ => 2)) cancelBook).toOption.map
      (fun p => (p.1.map (fun e => (e.bid, e.quantity)), calculateProfitsV cancelBook p.1 none none))) = some
    ([(0, .ninf), (1, .inf), (3, .fin (-2)), (2, .fin 2), (4, .fin 2), (0, .inf), (1, .ninf), (4, .fin 1)],
      ⟨[.nan, .nan, .fin 7, .fin (-9), .fin 11], [.nan, .nan, .fin 7, .fin (-9), .fin 11], .nan⟩) := by
  decide +kernel

/-- Buyers 1 and -1 @ 10, 2 @ 9, 1 @ 4; sellers 1 @ 1, 3 and -1 @ 2, 2 @ 3. -/
def cancelTotals : DF := labelFrom 0 [⟨1, 10, 0, true, 0, true⟩, ⟨-1, 10, 1, true, 0, true⟩, ⟨2, 9, 2, true, 0, true⟩,
  ⟨1, 4, 3, true, 0, true⟩, ⟨1, 1, 4, false, 0, true⟩, ⟨3, 2, 5, false, 0, true⟩, ⟨-1, 2, 6, false, 0, true⟩,
  ⟨2, 3, 7, false, 0, true⟩]

/-- A total can only be negative at the price of a bid. -/
theorem offered_nonneg_of_prices {rd : ℚ → ℚ} {df : DF} (h : ∀ r ∈ df, 0 ≤ offered rd df r.buying (rd r.price)) :
    ∀ side y, 0 ≤ offered rd df side y := by
  intro side y
  by_cases hr : ∃ r ∈ df, r.buying = side ∧ rd r.price = y
  · obtain ⟨r, hr, rfl, rfl⟩ := hr
    exact h r hr
  · unfold offered
    rw [List.filter_eq_nil_iff.mpr]
    · exact le_refl _
    · intro r hm hc
      simp only [Bool.and_eq_true, beq_iff_eq] at hc
      exact hr ⟨r, hm, hc⟩

/-- No total is negative, and the buyers @ 10 get `NaN`. -/
example : IsTable cancelTotals ∧ (∀ side y, 0 ≤ offered (npRound 5) cancelTotals side y) ∧
    ((runAlgoV stableSorter headSampler .huang cancelTotals).toOption.map
      (fun p => p.1.map (fun e => (e.bid, e.quantity)))) = some [(4, .fin 1), (0, .nan), (1, .nan), (2, .fin 1)] :=
  ⟨by decide +kernel, offered_nonneg_of_prices (by decide +kernel), by decide +kernel⟩

end PyMarket
