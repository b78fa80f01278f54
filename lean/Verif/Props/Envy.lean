import Verif.Spec.Envy
import Verif.Props.Uniform
import Verif.Props.Totals
import Verif.Props.Muda
import Verif.Props.Huang
import Verif.Lemmas.Pools

/-! # C124: who would rather have the trade of somebody else -/

set_option autoImplicit false

namespace PyMarket

open Spec

section

variable {df : DF} {ts : List Transaction}

/-- With one price per side the own gain is the margin times the traded quantity. -/
theorem ownGain_eq {i : ℕ} {p : ℚ} (h : ∀ t ∈ ts, t.bid = i → t.price = p) :
    ownGain df ts i = marginAt df i p * tradedBy ts i := by
  induction ts with
  | nil => simp [ownGain, tradedBy]
  | cons t ts ih =>
    have ih := ih (fun t' ht' => h t' (List.mem_cons_of_mem _ ht'))
    unfold ownGain tradedBy at *
    by_cases hb : t.bid = i
    · rw [List.filter_cons_of_pos (by simpa using hb), List.map_cons, List.sum_cons, List.map_cons, List.sum_cons,
        ih, h t List.mem_cons_self hb]
      ring
    · rw [List.filter_cons_of_neg (by simpa using hb)]
      exact ih

/-- Nobody envies when the own trade is at least as large, or the price is of no interest. -/
theorem gainWith_le {i : ℕ} {p : ℚ} {t : Transaction} (htp : t.price = p) (hq0 : 0 ≤ t.quantity)
    (hq : 0 ≤ qtyOf df i) (hown : 0 ≤ marginAt df i p * tradedBy ts i)
    (hge : 0 < marginAt df i p → min t.quantity (qtyOf df i) ≤ tradedBy ts i) :
    gainWith df i t ≤ marginAt df i p * tradedBy ts i := by
  unfold gainWith
  rw [htp]
  rcases lt_or_ge 0 (marginAt df i p) with h | h
  · exact mul_le_mul_of_nonneg_left (hge h) h.le
  · exact le_trans (mul_nonpos_of_nonpos_of_nonneg h (le_min hq0 hq)) hown

end

/-! ## Huang's auction -/

/-- **C124, Huang's auction.** A bid that would rather have the transaction of another one has been cut itself, and
the other bid is larger. So bids that do not trade envy nobody, and nobody envies a bid of at most the own
quantity. -/
theorem C124_huang (S : Sorter) (df : DF) (ht : IsTable df) (h : NonNeg df) :
    ∃ tm ex, huangAuction S df = .ok (tm, ex) ∧ ∀ i < df.length, ∀ t ∈ tm.trans, Envies df tm.trans i t →
      (∃ t' ∈ tm.trans, t'.bid = i ∧ t'.quantity < qtyOf df i) ∧ qtyOf df i < qtyOf df t.bid := by
  rcases huang_cases S h with ⟨h1, _⟩ | ⟨x, ps, pb, hc, hps, hpb, hlt, hcase⟩
  · exact ⟨_, _, h1, by intro i _ t h; cases h⟩
  rcases hcase with ⟨_, _, cs, cb, hcs, hcb, _, _, _, hrun⟩ | ⟨_, hrun⟩
  swap
  · exact ⟨_, _, hrun, by intro i _ t h; cases h⟩
  refine ⟨_, _, hrun, ?_⟩
  rw [TransactionManager.init_addAll_trans]
  obtain ⟨b1, b2⟩ := huangB_spec h hc hpb
  obtain ⟨a1, a2⟩ := huangA_spec hc hps
  have hnd : ((cutTrans (huangA S df x) cs ps ++ cutTrans (huangB S df x) cb pb).map (fun t => t.bid)).Nodup := by
    obtain ⟨tm, ex, e, hn, _⟩ := C14_at_most_once_direct S df ht h
    rw [hrun] at e
    cases e
    simpa only [TransactionManager.init_addAll_trans] using hn
  generalize hts : cutTrans (huangA S df x) cs ps ++ cutTrans (huangB S df x) cb pb = ts at hnd ⊢
  -- the log, without the distinction of the sides
  have hmem : ∀ t ∈ ts, ∃ s ∈ df, t.bid = s.label ∧
      t.quantity = max (s.quantity - (if s.buying then cb else cs)) 0 ∧
      t.price = (if s.buying then pb else ps) ∧ 0 ≤ marginAt df s.label (if s.buying then pb else ps) := by
    intro t htm
    rw [← hts] at htm
    rcases List.mem_append.mp htm with hm | hm
    · obtain ⟨s, hs, rfl⟩ := List.mem_map.mp hm
      obtain ⟨h1, h2, h3⟩ := a1 s hs
      refine ⟨s, h1, rfl, ?_⟩
      unfold marginAt
      rw [ht.isBuy_eq h1, ht.price_eq h1]
      simp only [h2, Bool.false_eq_true, if_false, true_and]
      linarith
    · obtain ⟨s, hs, rfl⟩ := List.mem_map.mp hm
      obtain ⟨h1, h2, h3⟩ := b1 s hs
      refine ⟨s, h1, rfl, ?_⟩
      unfold marginAt
      rw [ht.isBuy_eq h1, ht.price_eq h1]
      simp only [h2, if_true, true_and]
      linarith
  have hfront : ∀ s ∈ df, 0 < marginAt df s.label (if s.buying then pb else ps) →
      (⟨s.label, max (s.quantity - (if s.buying then cb else cs)) 0, if s.buying then pb else ps, -1, false⟩ :
        Transaction) ∈ ts := by
    intro s hs hm
    rw [← hts]
    unfold marginAt at hm
    rw [ht.isBuy_eq hs, ht.price_eq hs] at hm
    cases hb : s.buying with
    | true =>
      rw [hb] at hm
      simp only [if_true] at hm ⊢
      exact List.mem_append_right _ (List.mem_map_of_mem (b2 s hs hb (by linarith)))
    | false =>
      rw [hb] at hm
      simp only [Bool.false_eq_true, if_false] at hm ⊢
      exact List.mem_append_left _ (List.mem_map_of_mem (a2 s hs hb (by linarith)))
  intro i hi t htm ⟨hside, hen⟩
  obtain ⟨r, hr, rfl⟩ : ∃ r ∈ df, r.label = i :=
    ⟨df[i], List.getElem_mem hi, ht.label (List.getElem?_eq_getElem hi)⟩
  obtain ⟨s, hs, hbid, hqt, hpt, _⟩ := hmem t htm
  rw [hbid, ht.isBuy_eq hr, ht.isBuy_eq hs] at hside
  have hinj : ∀ s' ∈ df, s'.label = r.label → s' = r := fun s' h1 h2 =>
    List.inj_on_of_nodup_map ht.nodup h1 hr h2
  have hprice : ∀ t' ∈ ts, t'.bid = r.label → t'.price = (if r.buying then pb else ps) := by
    intro t' ht' hb'
    obtain ⟨s', h1, h2, _, h4, _⟩ := hmem t' ht'
    rw [h4, hinj s' h1 (h2.symm.trans hb')]
  have hq0 : ∀ t' ∈ ts, 0 ≤ t'.quantity := by
    intro t' ht'
    obtain ⟨s', _, _, h3, _⟩ := hmem t' ht'
    rw [h3]; exact le_max_right _ _
  rw [ownGain_eq hprice] at hen
  unfold gainWith at hen
  rw [hpt, ← hside, hqt, ← hside, ht.qty_eq hr] at hen
  rw [hbid, ht.qty_eq hr, ht.qty_eq hs]
  by_cases hm : 0 < marginAt df r.label (if r.buying then pb else ps)
  · have hin := hfront r hr hm
    have htb := tradedBy_nodup hnd hin
    simp only at htb
    rw [htb] at hen
    have hlt' := lt_of_mul_lt_mul_left hen hm.le
    have l1 := lt_of_lt_of_le hlt' (min_le_left _ _)
    have l2 := lt_of_lt_of_le hlt' (min_le_right _ _)
    refine ⟨⟨_, hin, rfl, l2⟩, ?_⟩
    by_contra hle
    exact absurd (max_le_max (by linarith [not_lt.mp hle]) (le_refl (0 : ℚ))) (not_le.mpr l1)
  · exfalso
    have hm' := not_lt.mp hm
    have hg := mul_nonpos_of_nonpos_of_nonneg hm'
      (le_min (le_max_right (s.quantity - (if r.buying then cb else cs)) 0) (h r hr).1)
    have ho : 0 ≤ marginAt df r.label (if r.buying then pb else ps) * tradedBy ts r.label := by
      by_cases hz : tradedBy ts r.label = 0
      · rw [hz, mul_zero]
      · obtain ⟨t', h1, h2, _⟩ := tradedBy_ne_zero hz
        obtain ⟨s', g1, g2, _, _, g5⟩ := hmem t' h1
        rw [hinj s' g1 (g2.symm.trans h2)] at g5
        exact mul_nonneg g5 (tradedBy_nonneg hq0 _)
    linarith

/-- Buyers of 1 and 2 units in front, sellers of 2: the buyers are cut by 1/2 each. -/
def cutEnvyBook : DF := labelFrom 0
  [⟨1, 10, 0, true, 0, true⟩, ⟨2, 9, 1, true, 0, true⟩, ⟨1, 8, 2, true, 0, true⟩, ⟨2, 1, 3, false, 0, true⟩,
   ⟨5, 2, 4, false, 0, true⟩]

/-- **C124 refuted for Huang's auction.** The buyer of 1 trades 1/2 and would rather have the 3/2 of the buyer of
2 units, of which it could use 1. -/
theorem C124_huang_refuted : IsTable cutEnvyBook ∧ NonNeg cutEnvyBook ∧
    ∃ ex, huangAuction stableSorter cutEnvyBook = .ok (⟨3, [⟨3, 2, 2, -1, false⟩, ⟨0, 1 / 2, 8, -1, false⟩,
      ⟨1, 3 / 2, 8, -1, false⟩]⟩, ex) ∧
    Envies cutEnvyBook [⟨3, 2, 2, -1, false⟩, ⟨0, 1 / 2, 8, -1, false⟩, ⟨1, 3 / 2, 8, -1, false⟩] 0
      ⟨1, 3 / 2, 8, -1, false⟩ :=
  ⟨by decide +kernel, by decide +kernel, .huang ((2 : ℚ) : Ext) ((8 : ℚ) : Ext) 2, by decide +kernel,
    by decide +kernel⟩

/-- **C124, the class.** In `Market.run('huang')`, where bids with the same rounded price are merged, no bid would
rather have the transaction of a bid of its side with the same rounded price and at most its quantity. -/
theorem C124_same_price (S : Sorter) (smp : Sampler) (df : DF) (ht : IsTable df) (h : GroupPos df) (rd : ℚ → ℚ)
    (hrd : ∀ p, IsRounded 5 p (rd p)) :
    ∃ tm ex, runAlgo S smp .huang df = .ok (tm, ex) ∧ ∀ r ∈ df, ∀ r' ∈ df, rd r.price = rd r'.price →
      r'.quantity ≤ r.quantity → ∀ t ∈ tm.trans, t.bid = r'.label → ¬ Envies df tm.trans r.label t := by
  obtain ⟨tm, tm', ex, e1, e2, hrate⟩ := C83_huang S smp smp df df ht ht h h rd hrd (fun _ _ => rfl)
  rw [e1] at e2
  cases e2
  refine ⟨tm, ex, e1, ?_⟩
  intro r hr r' hr' hp hle t htm hbid ⟨hside, hen⟩
  rw [hbid, ht.isBuy_eq hr, ht.isBuy_eq hr'] at hside
  have hR := (hrate r hr r' hr' hside hp).1
  rcases huang_market S smp ht h with ⟨tm', e, h2⟩ | ⟨tm', ps, pb, q, e, hO, _⟩
  · rw [e1] at e
    cases e
    rw [h2] at htm
    cases htm
  rw [e1] at e
  cases e
  have hq : ∀ s ∈ df, 0 ≤ s.quantity := fun s hs => (h.1 s hs).1
  have hpr : ∀ t' ∈ tm.trans, ∀ s ∈ df, t'.bid = s.label → t'.price = (if s.buying then pb else ps) ∧
      0 ≤ marginAt df s.label (if s.buying then pb else ps) := by
    intro t' ht' s hs hb
    have hT := hO.trade t' ht'
    have b1 := hT.buyer
    have b2 := hT.seller
    rw [hb, ht.isBuy_eq hs, ht.price_eq hs] at b1
    rw [hb, ht.isSell_eq hs, ht.price_eq hs] at b2
    unfold marginAt
    rw [ht.isBuy_eq hs, ht.price_eq hs]
    cases hsb : s.buying with
    | true => have := b1 hsb; simp only [if_true]; exact ⟨this.1, by linarith [this.2]⟩
    | false =>
      have := b2 (by rw [hsb]; rfl)
      simp only [Bool.false_eq_true, if_false]; exact ⟨this.1, by linarith [this.2]⟩
  have htp : t.price = (if r.buying then pb else ps) := by
    rw [(hpr t htm r' hr' hbid).1, hside]
  have htq : tradedBy tm.trans r'.label = t.quantity := by rw [← hbid]; exact tradedBy_nodup hO.nodup htm
  rw [ownGain_eq (fun t' ht' hb => (hpr t' ht' r hr hb).1)] at hen
  refine absurd hen (not_lt.mpr (gainWith_le htp (hO.trade t htm).nonneg (by rw [ht.qty_eq hr]; exact hq r hr) ?_ ?_))
  · by_cases hz : tradedBy tm.trans r.label = 0
    · rw [hz, mul_zero]
    · obtain ⟨t', h1, h2, _⟩ := tradedBy_ne_zero hz
      exact mul_nonneg (hpr t' h1 r hr h2).2 (tradedBy_nonneg (fun t h => (hO.trade t h).nonneg) _)
  · intro _
    refine (min_le_left _ _).trans ?_
    rw [htq] at hR
    have hT := hO.trade t htm
    have hle' := hT.le
    rw [hbid, ht.qty_eq hr'] at hle'
    have h0 : 0 ≤ tradedBy tm.trans r.label := tradedBy_nonneg (fun t h => (hO.trade t h).nonneg) _
    rcases (hq r' hr').eq_or_lt with hz | hz
    · linarith
    · have : t.quantity * r'.quantity ≤ tradedBy tm.trans r.label * r'.quantity := by
        rw [hR]; exact mul_le_mul_of_nonneg_left hle hT.nonneg
      exact le_of_mul_le_mul_right this hz

/-- Two buyers of 1 unit at 9 and one at 10. -/
def groupEnvyBook : DF := labelFrom 0
  [⟨1, 10, 0, true, 0, true⟩, ⟨1, 9, 1, true, 0, true⟩, ⟨1, 9, 2, true, 0, true⟩, ⟨1, 8, 3, true, 0, true⟩,
   ⟨2, 1, 4, false, 0, true⟩, ⟨5, 2, 5, false, 0, true⟩]

example : IsTable groupEnvyBook ∧ GroupPos groupEnvyBook ∧
    (runAlgo stableSorter headSampler .huang groupEnvyBook).toOption.map (fun o => o.1.trans) =
      some [⟨4, 2, 2, -1, false⟩, ⟨0, 1 / 2, 8, -1, false⟩, ⟨1, 3 / 4, 8, -1, false⟩, ⟨2, 3 / 4, 8, -1, false⟩] :=
  ⟨by decide +kernel, (show Pos _ by decide +kernel).groupPos, by decide +kernel⟩

/-- **C124 refuted for the class.** All buyers want 1 unit. The best one trades 1/2, the next two 3/4 each, because
they are cut together. -/
theorem C124_class_refuted : IsTable groupEnvyBook ∧ Pos groupEnvyBook ∧
    ∃ ex, runAlgo stableSorter headSampler .huang groupEnvyBook = .ok (⟨4, [⟨4, 2, 2, -1, false⟩,
      ⟨0, 1 / 2, 8, -1, false⟩, ⟨1, 3 / 4, 8, -1, false⟩, ⟨2, 3 / 4, 8, -1, false⟩]⟩, ex) ∧
    qtyOf groupEnvyBook 0 = qtyOf groupEnvyBook 1 ∧
    Envies groupEnvyBook [⟨4, 2, 2, -1, false⟩, ⟨0, 1 / 2, 8, -1, false⟩, ⟨1, 3 / 4, 8, -1, false⟩,
      ⟨2, 3 / 4, 8, -1, false⟩] 0 ⟨1, 3 / 4, 8, -1, false⟩ :=
  ⟨by decide +kernel, by decide +kernel, .huang ((2 : ℚ) : Ext) ((8 : ℚ) : Ext) 2, by decide +kernel,
    by decide +kernel, by decide +kernel⟩

/-! ## The uniform price -/

/-- **C124, uniform price.** With the uniform price mechanism of the documentation nobody envies anybody, as long as
no more than the cleared quantity is demanded above and offered below the price (C96: exactly then all willing
bids are served). -/
theorem C124_uniform_partial (S : Sorter) (df : DF) (ht : IsTable df) (h : NonNeg df) (tm : TransactionManager)
    (q p : ℚ) (hrun : uniformPrice S df = .ok (tm, some (q : Ext), .fin p))
    (hq : demandQtyAbove df p ≤ q ∧ supplyQtyBelow df p ≤ q) :
    ∀ i < df.length, ∀ t ∈ tm.trans, ¬ Envies df tm.trans i t := by
  obtain ⟨s1, s2⟩ := (C96_exact S df ht h tm q p hrun).mpr hq
  obtain ⟨q', p', e1, e2, _, u, _⟩ := C94_outcome S df ht h tm _ _ hrun
  obtain rfl : p = p' := by cases e2; rfl
  intro i hi t htm ⟨hside, hen⟩
  obtain ⟨r, hr, rfl⟩ : ∃ r ∈ df, r.label = i :=
    ⟨df[i], List.getElem_mem hi, ht.label (List.getElem?_eq_getElem hi)⟩
  rw [ownGain_eq (fun t' ht' _ => (u.trans t' ht').2.2.2.1)] at hen
  have h0 := tradedBy_nonneg (fun t h => (u.trans t h).2.1) r.label
  refine absurd hen (not_lt.mpr (gainWith_le (u.trans t htm).2.2.2.1 (u.trans t htm).2.1
    (by rw [ht.qty_eq hr]; exact (h r hr).1) ?_ ?_))
  · by_cases hz : tradedBy tm.trans r.label = 0
    · rw [hz, mul_zero]
    · obtain ⟨t', h1, h2, _⟩ := tradedBy_ne_zero hz
      refine mul_nonneg ?_ h0
      have hR := u.rational t' h1
      rw [h2] at hR
      unfold marginAt
      cases hb : r.buying with
      | true =>
        have := hR.1 (by rw [ht.isBuy_eq hr]; exact hb)
        rw [ht.isBuy_eq hr, hb, if_pos rfl]; linarith
      | false =>
        have := hR.2 (by rw [ht.isSell_eq hr, hb]; rfl)
        rw [ht.isBuy_eq hr, hb, if_neg (by decide)]; linarith
  · intro hm
    refine (min_le_right _ _).trans (le_of_eq ?_)
    unfold marginAt at hm
    cases hb : r.buying with
    | true =>
      rw [ht.isBuy_eq hr, hb, if_pos rfl] at hm
      exact (s1 _ (by rw [ht.isBuy_eq hr]; exact hb) (by linarith)).symm
    | false =>
      rw [ht.isBuy_eq hr, hb, if_neg (by decide)] at hm
      exact (s2 _ (by rw [ht.isSell_eq hr, hb]; rfl) (by linarith)).symm

example : IsTable uniformBook ∧ NonNeg uniformBook ∧ demandQtyAbove uniformBook 4 ≤ 3 ∧
    supplyQtyBelow uniformBook 4 ≤ 3 ∧
    (uniformPrice stableSorter uniformBook).toOption.map (fun o => o.2) = some (some ((3 : ℚ) : Ext), .fin 4) :=
  ⟨by decide +kernel, by decide +kernel, by decide +kernel, by decide +kernel, by decide +kernel⟩

/-- **C124 refuted for the uniform price.** Buyers 1 @ 10 and 1 @ 9, sellers 1 @ 1 and 1 @ 19/2: the second buyer
would like to have the unit that the first one gets for 11/2. -/
theorem C124_uniform_refuted : IsTable alignedBook ∧ NonNeg alignedBook ∧ ∃ q,
    uniformPrice stableSorter alignedBook = .ok (⟨2, [⟨0, 1, 11 / 2, -1, false⟩, ⟨2, 1, 11 / 2, -1, false⟩]⟩,
      some q, .fin (11 / 2)) ∧
    Envies alignedBook [⟨0, 1, 11 / 2, -1, false⟩, ⟨2, 1, 11 / 2, -1, false⟩] 1 ⟨0, 1, 11 / 2, -1, false⟩ :=
  ⟨by decide +kernel, by decide +kernel, ((1 : ℚ) : Ext), by decide +kernel, by decide +kernel⟩

/-! ## MUDA -/

theorem sum_single {rows : DF} (hn : (rows.map (fun r => r.label)).Nodup) {r : Row} (hr : r ∈ rows) (f : Row → ℚ)
    (d : ℚ) : (rows.map (fun s => f s * (if s.label = r.label then d else 0))).sum = f r * d := by
  induction rows with
  | nil => cases hr
  | cons s rows ih =>
    rw [List.map_cons, List.nodup_cons] at hn
    rw [List.map_cons, List.sum_cons]
    rcases List.mem_cons.mp hr with rfl | h
    · rw [if_pos rfl, List.sum_eq_zero, add_zero]
      intro y hy
      obtain ⟨s', hs', rfl⟩ := List.mem_map.mp hy
      rw [if_neg, mul_zero]
      intro he
      exact hn.1 (he ▸ List.mem_map_of_mem hs')
    · rw [ih hn.2 h, if_neg, mul_zero, zero_add]
      intro he
      exact hn.1 (he ▸ List.mem_map_of_mem h)

/-- The fee of a user is at least what another bid of the long side would gain with what the user's bid trades. -/
theorem externality_ge {S : Sorter} {H : DF} (hn : (H.map (fun r => r.label)).Nodup)
    {p : ℚ} {ts : List Transaction} (hh : HalfTrade S H p ts) {r r' : Row} (hr : r ∈ longSide H p)
    (hr' : r' ∈ longSide H p) (hu : r.user ≠ r'.user) {x : ℚ} (hx : IsExternality H p ts r'.user x) :
    unitGain p r * min (tradedBy ts r'.label) (r.quantity - tradedBy ts r.label) ≤ x := by
  have hlong := hh.long_bound hn
  have hsum := hh.long_total hn
  have hsubH : (longSide H p).Sublist H := by
    unfold longSide
    split <;> exact List.filter_sublist
  have hnl : ((longSide H p).map (fun r => r.label)).Nodup := hn.sublist (hsubH.map _)
  obtain ⟨W, hW, rfl⟩ := hx
  set d := min (tradedBy ts r'.label) (r.quantity - tradedBy ts r.label) with hd
  have hd0 : 0 ≤ d := le_min (hlong r' hr').1 (by linarith [(hlong r hr).2.1])
  have hno : ((others (longSide H p) r'.user).map (fun r => r.label)).Nodup :=
    hnl.sublist (List.filter_sublist.map _)
  have hro : r ∈ others (longSide H p) r'.user := List.mem_filter.mpr ⟨hr, decide_eq_true hu⟩
  have hsplit : ((others (longSide H p) r'.user).map (fun r => tradedBy ts r.label)).sum + tradedBy ts r'.label ≤
      ((longSide H p).map (fun r => tradedBy ts r.label)).sum := by
    unfold others
    revert hr' hlong
    generalize longSide H p = l
    intro hr' hlong
    have hpos : ∀ l' : DF, (∀ s ∈ l', s ∈ l) →
        ((l'.filter (fun r => decide (r.user ≠ r'.user))).map (fun r => tradedBy ts r.label)).sum ≤
          (l'.map (fun r => tradedBy ts r.label)).sum := by
      intro l' hl'
      apply List.Sublist.sum_le_sum (List.filter_sublist.map _)
      intro y hy
      obtain ⟨s, hs, rfl⟩ := List.mem_map.mp hy
      exact (hlong s (hl' s hs)).1
    obtain ⟨l1, l2, rfl⟩ := List.append_of_mem hr'
    have g1 := hpos l1 (fun s hs => List.mem_append_left _ hs)
    have g2 := hpos l2 (fun s hs => List.mem_append_right _ (List.mem_cons_of_mem _ hs))
    rw [List.filter_append, List.filter_cons_of_neg (by simp)]
    simp only [List.map_append, List.sum_append, List.map_cons, List.sum_cons]
    linarith
  have hmem : gainIn (others (longSide H p) r'.user) p ts + unitGain p r * d ∈
      CouldGain (others (longSide H p) r'.user) p (volumeAt H p) := by
    refine ⟨fun i => tradedBy ts i + (if i = r.label then d else 0), ?_, ?_, ?_⟩
    · intro s hs
      have hs' := (List.mem_filter.mp hs).1
      obtain ⟨b1, b2, _⟩ := hlong s hs'
      by_cases he : s.label = r.label
      · have : s = r := List.inj_on_of_nodup_map hnl hs' hr he
        subst this
        simp only [if_true]
        exact ⟨by linarith, by linarith [min_le_right (tradedBy ts r'.label) (s.quantity - tradedBy ts s.label)]⟩
      · simp only [if_neg he, add_zero]
        exact ⟨b1, b2⟩
    · have e := sum_single hno hro (fun _ => 1) d
      simp only [one_mul] at e
      rw [List.sum_map_add, e, ← hsum]
      linarith [min_le_left (tradedBy ts r'.label) (r.quantity - tradedBy ts r.label)]
    · unfold gainIn
      rw [← sum_single hno hro (unitGain p) d, ← List.sum_map_add]
      congr 1
      apply List.map_congr_left
      intro s _
      ring
  have := hW.2 hmem
  linarith

/-- **C124, MUDA.** When every user has one bid: no bid would rather have the transaction of a bid of its side of the
same half together with the fee of that bid, if its own gain is counted before its own fee. In particular a
bid without a fee, for example one that does not trade, does not envy anybody in its half. -/
theorem C124_muda_partial (S : Sorter) (coin : ℕ → Bool) (df : DF) (ht : IsTable df)
    (hq : ∀ r ∈ df, 0 ≤ r.quantity) (hone : (df.map (fun r => r.user)).Nodup) (hu : UsersInRange df)
    (tm : TransactionManager) (left right : List ℕ) (pl pr : Val) (fees : List ℚ)
    (h : muda S coin df = .ok (tm, .muda left right pl pr fees)) (ids : List ℕ) (hids : ids = left ∨ ids = right)
    (r r' : Row) (hr : r ∈ df) (hr' : r' ∈ df) (hl : r.label ∈ ids) (hl' : r'.label ∈ ids)
    (hside : r.buying = r'.buying) (t : Transaction) (htm : t ∈ tm.trans) (hbid : t.bid = r'.label) :
    ∃ fee, fees[r'.user.toNat]? = some fee ∧
      gainWith df r.label t - fee ≤ ownGain df tm.trans r.label := by
  obtain ⟨hlen, hfees⟩ := C27_fees S coin df ht hq hu tm left right pl pr fees h
  have hur := hu r' hr'
  have hnat : ((r'.user.toNat : ℕ) : ℤ) = r'.user := Int.toNat_of_nonneg hur.1
  obtain ⟨fee, hfee, hfee0, howe⟩ := hfees r'.user.toNat (by rw [hlen]; omega)
  rw [hnat] at howe
  refine ⟨fee, hfee, ?_⟩
  have hrun := muda_run' ht h
  obtain ⟨hsplit, ol, or⟩ := hrun.halves ht hq
  have hdis := hrun.disjoint
  have hrH : r ∈ half df ids := List.mem_filter.mpr ⟨hr, decide_eq_true hl⟩
  have hrH' : r' ∈ half df ids := List.mem_filter.mpr ⟨hr', decide_eq_true hl'⟩
  have htin : t ∈ tradesIn ids tm.trans := List.mem_filter.mpr ⟨htm, decide_eq_true (hbid ▸ hl')⟩
  -- users of the other half are different
  have huniq : ∀ s ∈ df, s.user = r'.user → s = r' := fun s hs he =>
    List.inj_on_of_nodup_map hone hs hr' he
  obtain ⟨p, hh, hfeeX⟩ : ∃ p, HalfTrade S (half df ids) p (tradesIn ids tm.trans) ∧
      (TradesLong (half df ids) p (tradesIn ids tm.trans) r'.user →
        IsExternality (half df ids) p (tradesIn ids tm.trans) r'.user fee) := by
    have hlongmem : ∀ (is : List ℕ) (p : ℚ), TradesLong (half df is) p (tradesIn is tm.trans) r'.user →
        r'.label ∈ is := by
      rintro is p ⟨t', ht', s, hs, h1, h2⟩
      have hs' : s ∈ half df is := by
        unfold longSide at hs
        split at hs <;> exact (List.mem_filter.mp hs).1
      rw [← huniq s (half_sub s hs') h2]
      exact half_label hs'
    rcases hids with rfl | rfl
    · rcases ol with ⟨e, _⟩ | ⟨p, rfl, hh⟩
      · rw [e] at htin; cases htin
      · refine ⟨p, hh, fun hT => ?_⟩
        rcases howe with ⟨p', _, hT', _⟩ | ⟨_, ⟨p', hp', _, hX⟩ | ⟨hn, _⟩⟩
        · exact absurd (hlongmem _ _ hT') (hdis _ hl')
        · cases hp'; exact hX
        · exact absurd hT (hn p rfl)
    · rcases or with ⟨e, _⟩ | ⟨p, rfl, hh⟩
      · rw [e] at htin; cases htin
      · refine ⟨p, hh, fun hT => ?_⟩
        rcases howe with ⟨p', hp', _, hX⟩ | ⟨hn, _⟩
        · cases hp'; exact hX
        · exact absurd hT (hn p rfl)
  have hnH := half_nodup ht ids
  have hnd := hh.nodup hnH
  have htr : tradedBy tm.trans r.label = tradedBy (tradesIn ids tm.trans) r.label := (tradedBy_tradesIn hl).symm
  have hmemp : ∀ t' ∈ tm.trans, t'.bid = r.label → t'.price = p := by
    intro t' ht' hb
    obtain ⟨_, _, _, _, _, h6, _⟩ := hh.mem t' (List.mem_filter.mpr ⟨ht', decide_eq_true (hb ▸ hl)⟩)
    exact h6
  obtain ⟨s, hs, hsb, hq0, hqle, htp, _, _, hwb, hws⟩ := hh.mem t htin
  obtain rfl : s = r' := ht.inj (half_sub s hs) hr' (hsb.symm.trans hbid)
  have htq : tradedBy (tradesIn ids tm.trans) s.label = t.quantity := by rw [← hbid]; exact tradedBy_nodup hnd htin
  have h0 : 0 ≤ tradedBy tm.trans r.label := by
    rw [htr]
    exact tradedBy_nonneg (fun t' ht' => by obtain ⟨_, _, _, h4, _⟩ := hh.mem t' ht'; exact h4) _
  have hmu : marginAt df r.label p = unitGain p r := by
    unfold marginAt unitGain
    rw [ht.isBuy_eq hr, ht.price_eq hr]
  rw [ownGain_eq hmemp, hmu]
  unfold gainWith
  rw [htp, hmu, ht.qty_eq hr]
  by_cases hm : 0 < unitGain p r
  swap
  · have hg := mul_nonpos_of_nonpos_of_nonneg (not_lt.mp hm) (le_min hq0 (hq r hr))
    have ho : 0 ≤ unitGain p r * tradedBy tm.trans r.label := by
      by_cases hz : tradedBy tm.trans r.label = 0
      · rw [hz, mul_zero]
      · refine mul_nonneg ?_ h0
        rw [htr] at hz
        obtain ⟨t', h1, h2, _⟩ := tradedBy_ne_zero hz
        obtain ⟨s', g1, g2, _, _, _, _, _, g8, g9⟩ := hh.mem t' h1
        obtain rfl : s' = r := ht.inj (half_sub s' g1) hr (g2.symm.trans h2)
        unfold unitGain
        cases hb : s'.buying with
        | true => rw [if_pos rfl]; linarith [g8 hb]
        | false => rw [if_neg (by decide)]; linarith [g9 hb]
    linarith
  -- a bid that gains is willing; on the shorter side it is served
  have hfull : tradedBy tm.trans r.label = r.quantity →
      unitGain p r * min t.quantity r.quantity - fee ≤ unitGain p r * tradedBy tm.trans r.label := by
    intro e
    rw [e]
    have := mul_le_mul_of_nonneg_left (min_le_right t.quantity r.quantity) hm.le
    linarith
  have heff : HalfOutcome S (half df ids) (.fin p) (tradesIn ids tm.trans) := Or.inr ⟨p, rfl, hh⟩
  rcases (half_outcome_efficiency ht heff).2 with ⟨e, _⟩ | ⟨e1, e2, _⟩
  · rw [e] at htin; cases htin
  have hlongcase : r ∈ longSide (half df ids) p → s ∈ longSide (half df ids) p →
      unitGain p r * min t.quantity r.quantity - fee ≤ unitGain p r * tradedBy tm.trans r.label := by
    intro g1 g2
    by_cases hrs : r = s
    · subst hrs
      rw [htr, htq]
      have := mul_le_mul_of_nonneg_left (min_le_left t.quantity r.quantity) hm.le
      linarith
    · have hne : r.user ≠ s.user := fun he => hrs (huniq r hr he)
      have hX := hfeeX ⟨t, htin, s, g2, hbid.symm, rfl⟩
      have key := externality_ge hnH hh g1 g2 hne hX
      rw [htq, ← htr] at key
      have : min t.quantity r.quantity ≤
          min t.quantity (r.quantity - tradedBy tm.trans r.label) + tradedBy tm.trans r.label := by
        rcases min_cases t.quantity (r.quantity - tradedBy tm.trans r.label) with ⟨e, _⟩ | ⟨e, _⟩ <;> rw [e]
        · linarith [min_le_left t.quantity r.quantity]
        · linarith [min_le_right t.quantity r.quantity]
      have := mul_le_mul_of_nonneg_left this hm.le
      rw [mul_add] at this
      linarith
  cases hb : r.buying with
  | true =>
    have hwill : r ∈ willingBuyers (half df ids) p := by
      unfold unitGain at hm
      rw [hb, if_pos rfl] at hm
      refine List.mem_filter.mpr ⟨hrH, ?_⟩
      rw [hb, Bool.true_and]
      exact decide_eq_true (by linarith)
    have hwill' : s ∈ willingBuyers (half df ids) p := by
      refine List.mem_filter.mpr ⟨hs, ?_⟩
      rw [← hside, hb, Bool.true_and]
      exact decide_eq_true (hwb (hside ▸ hb))
    by_cases hlt : ((willingBuyers (half df ids) p).map (fun r => r.quantity)).sum <
        ((willingSellers (half df ids) p).map (fun r => r.quantity)).sum
    · exact hfull (e1 hlt.le r hwill)
    · refine hlongcase ?_ ?_ <;> (unfold longSide; rw [if_neg hlt]; assumption)
  | false =>
    have hwill : r ∈ willingSellers (half df ids) p := by
      unfold unitGain at hm
      rw [hb, if_neg (by decide)] at hm
      refine List.mem_filter.mpr ⟨hrH, ?_⟩
      rw [hb, Bool.not_false, Bool.true_and]
      exact decide_eq_true (by linarith)
    have hwill' : s ∈ willingSellers (half df ids) p := by
      refine List.mem_filter.mpr ⟨hs, ?_⟩
      rw [← hside, hb, Bool.not_false, Bool.true_and]
      exact decide_eq_true (hws (hside ▸ hb))
    by_cases hlt : ((willingBuyers (half df ids) p).map (fun r => r.quantity)).sum <
        ((willingSellers (half df ids) p).map (fun r => r.quantity)).sum
    · refine hlongcase ?_ ?_ <;> (unfold longSide; rw [if_pos hlt]; assumption)
    · exact hfull (e2 (not_lt.mp hlt) r hwill)

/-- Two halves: one buyer and one seller in the first, two buyers and one seller in the second. -/
def halvesEnvyBook : DF := labelFrom 0
  [⟨1, 10, 0, true, 0, true⟩, ⟨1, 1, 1, false, 0, true⟩, ⟨1, 8, 2, true, 0, true⟩, ⟨1, 7, 3, true, 0, true⟩,
   ⟨1, 3, 4, false, 0, true⟩]

/-- The second half has buyers of 1 @ 10 and 2 @ 9 and a seller of 2. -/
def feeEnvyBook : DF := labelFrom 0
  [⟨1, 21 / 2, 0, true, 0, true⟩, ⟨1, 1 / 2, 1, false, 0, true⟩, ⟨1, 10, 2, true, 0, true⟩,
   ⟨2, 9, 3, true, 0, true⟩, ⟨2, 1, 4, false, 0, true⟩]

/-- The hypotheses can be met: in the second half of `halvesEnvyBook` the buyer at 7 does not trade, and the fee of
the buyer at 8 is what the buyer at 7 would have gained. -/
example : IsTable halvesEnvyBook ∧ (∀ r ∈ halvesEnvyBook, 0 ≤ r.quantity) ∧
    (halvesEnvyBook.map (fun r => r.user)).Nodup ∧ UsersInRange halvesEnvyBook ∧
    gainWith halvesEnvyBook 3 ⟨2, 1, 11 / 2, -1, false⟩ = 3 / 2 :=
  ⟨by decide +kernel, by decide +kernel, by decide +kernel, by decide +kernel, by decide +kernel⟩

/-- **C124 refuted for MUDA.** (1) In `halvesEnvyBook` the buyer at 7 does not trade and would like to have the unit
that the first buyer gets in the other half at 11/2 without a fee. (2) In `feeEnvyBook` the buyer at 10 pays
11/2 and a fee of 7/2; the buyer at 9 of the same half gets a unit without a fee. -/
theorem C124_muda_refuted :
    (muda stableSorter (fun n => decide (n ≤ 1)) halvesEnvyBook = .ok (⟨4, [⟨1, 1, 11 / 2, -1, false⟩,
        ⟨0, 1, 11 / 2, -1, false⟩, ⟨4, 1, 11 / 2, -1, false⟩, ⟨2, 1, 11 / 2, -1, false⟩]⟩,
        .muda [0, 1] [2, 3, 4] (.fin (11 / 2)) (.fin (11 / 2)) [0, 0, 3 / 2, 0, 0]) ∧
      Envies halvesEnvyBook [⟨1, 1, 11 / 2, -1, false⟩, ⟨0, 1, 11 / 2, -1, false⟩, ⟨4, 1, 11 / 2, -1, false⟩,
        ⟨2, 1, 11 / 2, -1, false⟩] 3 ⟨0, 1, 11 / 2, -1, false⟩) ∧
    (muda stableSorter (fun n => decide (n ≤ 1)) feeEnvyBook = .ok (⟨5, [⟨1, 1, 9, -1, false⟩, ⟨0, 1, 9, -1, false⟩,
        ⟨4, 2, 11 / 2, -1, false⟩, ⟨2, 1, 11 / 2, -1, false⟩, ⟨3, 1, 11 / 2, -1, false⟩]⟩,
        .muda [0, 1] [2, 3, 4] (.fin (11 / 2)) (.fin 9) [0, 0, 7 / 2, 0, 0]) ∧
      ownGain feeEnvyBook [⟨1, 1, 9, -1, false⟩, ⟨0, 1, 9, -1, false⟩, ⟨4, 2, 11 / 2, -1, false⟩,
        ⟨2, 1, 11 / 2, -1, false⟩, ⟨3, 1, 11 / 2, -1, false⟩] 2 - 7 / 2 <
      gainWith feeEnvyBook 2 ⟨3, 1, 11 / 2, -1, false⟩ - 0) :=
  ⟨⟨by decide +kernel, by decide +kernel⟩, by decide +kernel, by decide +kernel⟩

/-! ## Peer to peer trading -/

/-- Two buyers of one unit and a seller of one. -/
def p2pEnvyBook : DF := labelFrom 0
  [⟨1, 10, 0, true, 0, true⟩, ⟨1, 9, 1, true, 0, true⟩, ⟨1, 1, 2, false, 0, true⟩]

/-- **C124 refuted for peer to peer trading.** The buyer who meets the seller first gets the unit; the better buyer
would like to have it. -/
theorem C124_p2p_refuted : IsTable p2pEnvyBook ∧ Pos p2pEnvyBook ∧
    p2pRandom (1 / 2) (fun _ => 1) p2pEnvyBook = .ok (⟨2, [⟨1, 1, 5, 2, false⟩, ⟨2, 1, 5, 1, false⟩]⟩,
      .p2p [[(1, 2)]]) ∧
    Envies p2pEnvyBook [⟨1, 1, 5, 2, false⟩, ⟨2, 1, 5, 1, false⟩] 0 ⟨1, 1, 5, 2, false⟩ :=
  ⟨by decide +kernel, by decide +kernel, by decide +kernel, by decide +kernel⟩

end PyMarket
