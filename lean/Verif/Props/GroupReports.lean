import Verif.Lemmas.GroupReports
import Verif.Props.UniformTruth
import Verif.Props.P2PTruth
import Verif.Props.Groups

/-! # C130: can a group gain by agreeing on what to report?

In Huang's auction the bids that trade can all change their reports at once, and nothing happens as long as every
report stays strictly better than the price of the trade. It follows that no group, of buyers, of sellers or
of both, can report prices with which each of its bids gains more than with the true ones. Somebody who does not trade can still do
the others a favour: that only one of them gains and nobody loses is possible. -/

set_option autoImplicit false

namespace PyMarket

open Spec

theorem groupReport_nil (df : DF) (w : ℕ → ℚ) : groupReport df [] w = df := by
  unfold groupReport
  simp

theorem groupReport_cons {df : DF} (ht : IsTable df) {i : ℕ} {r : Row} (hi : df[i]? = some r) (G : List ℕ)
    (w : ℕ → ℚ) : groupReport df (i :: G) w = groupReport (df.set i { r with price := w i }) G w := by
  rw [(repriced_set ht hi (w i)).eq]
  unfold groupReport
  rw [List.map_map]
  apply List.map_congr_left
  intro a _
  rw [Function.comp_apply]
  by_cases h1 : a.label = i
  · rw [if_pos h1, if_pos (by rw [h1]; exact List.mem_cons_self)]
    by_cases h2 : a.label ∈ G
    · rw [if_pos h2]
    · rw [if_neg h2, h1]
  · rw [if_neg h1]
    by_cases h2 : a.label ∈ G
    · rw [if_pos h2, if_pos (List.mem_cons_of_mem _ h2)]
    · rw [if_neg h2, if_neg (by rw [List.mem_cons]; push Not; exact ⟨h1, h2⟩)]

theorem groupReport_back {df : DF} (ht : IsTable df) (G : List ℕ) (w : ℕ → ℚ) :
    groupReport (groupReport df G w) G (priceOf df) = df := by
  unfold groupReport
  rw [List.map_map]
  conv_rhs => rw [← List.map_id df]
  apply List.map_congr_left
  intro a ha
  rw [Function.comp_apply]
  by_cases h : a.label ∈ G
  · rw [if_pos h, if_pos h]
    show { a with price := priceOf df a.label } = a
    rw [ht.price_eq ha]
  · rw [if_neg h, if_neg h]
    rfl

theorem groupReport_table {df : DF} (ht : IsTable df) (G : List ℕ) (w : ℕ → ℚ) : IsTable (groupReport df G w) := by
  have e : (groupReport df G w).map (fun r => r.label) = df.map (fun r => r.label) := by
    unfold groupReport
    rw [List.map_map]
    apply List.map_congr_left
    intro a _
    rw [Function.comp_apply]
    split <;> rfl
  unfold IsTable
  rw [e, ht]
  unfold groupReport
  rw [List.length_map]

theorem groupReport_nonNeg {df : DF} (hn : NonNeg df) (G : List ℕ) (w : ℕ → ℚ) (hw : ∀ i ∈ G, 0 ≤ w i) :
    NonNeg (groupReport df G w) := by
  intro a ha
  obtain ⟨b, hb, rfl⟩ := List.mem_map.mp ha
  by_cases h : b.label ∈ G
  · rw [if_pos h]
    exact ⟨(hn b hb).1, hw _ h⟩
  · rw [if_neg h]
    exact hn b hb

theorem groupReport_isBuy (df : DF) (G : List ℕ) (w : ℕ → ℚ) (i : ℕ) :
    isBuy (groupReport df G w) i = isBuy df i := by
  unfold isBuy groupReport
  rw [List.getElem?_map, Option.map_map]
  congr 2
  funext a
  rw [Function.comp_apply]
  split <;> rfl

theorem set_isBuy {df : DF} {i : ℕ} {r : Row} (hi : df[i]? = some r) (w : ℚ) (j : ℕ) :
    isBuy (df.set i { r with price := w }) j = isBuy df j := by
  unfold isBuy
  by_cases h : i = j
  · subst h
    rw [List.getElem?_set_self (List.getElem?_eq_some_iff.mp hi).1, hi]
    rfl
  · rw [List.getElem?_set_ne h]

/-- The transactions of Huang's auction: the bid exists, the quantity is not negative and the price is no worse
than the reported one. -/
theorem huang_trans_spec (S : Sorter) {df : DF} (ht : IsTable df) (hn : NonNeg df) {tm : TransactionManager}
    {ex : Extra} (h : huangAuction S df = .ok (tm, ex)) {t : Transaction} (htm : t ∈ tm.trans) :
    (∃ r, df[t.bid]? = some r) ∧ 0 ≤ t.quantity ∧ 0 ≤ marginAt df t.bid t.price := by
  obtain ⟨x, ps, pb, cs, cb, hc, hps, hpb, _, _, htr, _⟩ := huang_trade S hn h htm
  rw [htr] at htm
  rcases List.mem_append.mp htm with hm | hm
  · obtain ⟨a, ha, rfl⟩ := List.mem_map.mp hm
    obtain ⟨ham, hside, hp⟩ := (huangA_spec hc hps).1 a ha
    refine ⟨⟨a, ht.get_label ham⟩, le_max_right _ _, ?_⟩
    unfold marginAt
    rw [ht.isBuy_eq ham, ht.price_eq ham, hside]
    simpa using hp
  · obtain ⟨a, ha, rfl⟩ := List.mem_map.mp hm
    obtain ⟨ham, hside, hp⟩ := (huangB_spec hn hc hpb).1 a ha
    refine ⟨⟨a, ht.get_label ham⟩, le_max_right _ _, ?_⟩
    unfold marginAt
    rw [ht.isBuy_eq ham, ht.price_eq ham, hside]
    simpa using hp

/-- **C130, all winners at once.** In Huang's auction with a stable sort, let any number of the bids that trade
report other prices at the same time, each strictly better than the price at which it trades. The transactions stay the
same up to their order, and so do the two prices and the quantity that are returned with them. -/
theorem C130_winners (S : Sorter) (hS : Stable S) (df : DF) (ht : IsTable df) (hn : NonNeg df) (G : List ℕ)
    (w : ℕ → ℚ) (hw : ∀ i ∈ G, 0 ≤ w i) (tm : TransactionManager) (ex : Extra)
    (h : huangAuction S df = .ok (tm, ex))
    (hG : ∀ i ∈ G, ∃ t ∈ tm.trans, t.bid = i ∧ (isBuy df i = true → t.price < w i) ∧
      (isBuy df i = false → w i < t.price)) :
    ∃ tm', huangAuction S (groupReport df G w) = .ok (tm', ex) ∧ tm'.trans.Perm tm.trans := by
  induction G generalizing df tm with
  | nil => rw [groupReport_nil]; exact ⟨tm, h, List.Perm.refl _⟩
  | cons i G ih =>
    obtain ⟨t, htm, hb, h1, h2⟩ := hG i List.mem_cons_self
    obtain ⟨⟨r, hr⟩, _⟩ := huang_trans_spec S ht hn h htm
    rw [hb] at hr
    have hside : isBuy df i = r.buying := by unfold isBuy; rw [hr]; rfl
    rw [hside] at h1 h2
    have hR := repriced_set ht hr (w i)
    obtain ⟨tm1, hrun, hp⟩ := winner_kept S hS ht hn hr (hw i List.mem_cons_self) h htm hb h1 h2
    rw [groupReport_cons ht hr]
    obtain ⟨tm2, hrun2, hp2⟩ := ih _ hR.table' (hR.nonNeg hn (hw i List.mem_cons_self))
      (fun j hj => hw j (List.mem_cons_of_mem _ hj)) tm1 hrun
      (fun j hj => by
        obtain ⟨t', ht', e1, e2, e3⟩ := hG j (List.mem_cons_of_mem _ hj)
        rw [set_isBuy hr]
        exact ⟨t', hp.mem_iff.mpr ht', e1, e2, e3⟩)
    exact ⟨tm2, hrun2, hp2.trans hp⟩

theorem ownGain_pos {df : DF} {ts : List Transaction} {i : ℕ} (hq : ∀ t ∈ ts, 0 ≤ t.quantity)
    (h : 0 < ownGain df ts i) : ∃ t ∈ ts, t.bid = i ∧ 0 < marginAt df i t.price := by
  by_contra hno
  push Not at hno
  refine absurd h (not_lt.mpr ?_)
  unfold ownGain
  apply list_sum_nonpos
  intro x hx
  obtain ⟨t, htm, rfl⟩ := List.mem_map.mp hx
  obtain ⟨h1, h2⟩ := List.mem_filter.mp htm
  exact mul_nonpos_of_nonpos_of_nonneg (hno t h1 (by simpa using h2)) (hq t h1)

theorem ownGain_perm {df : DF} {ts ts' : List Transaction} (h : ts.Perm ts') (i : ℕ) :
    ownGain df ts i = ownGain df ts' i := by
  unfold ownGain
  exact ((h.filter _).map _).sum_eq

/-- **C130, Huang's auction.** With a stable sort no group of bids can report prices with which every one of its
bids gains more than with the true ones. The full claim, that no group can report prices with which some of its
bids gain and none loses, is refuted below, and so is the claim for the other mechanisms. -/
theorem C130_huang_partial (S : Sorter) (hS : Stable S) (df : DF) (ht : IsTable df) (hn : NonNeg df) (G : List ℕ)
    (hne : G ≠ []) (w : ℕ → ℚ) (hw : ∀ i ∈ G, 0 ≤ w i) (tm tm' : TransactionManager) (ex ex' : Extra)
    (h : huangAuction S df = .ok (tm, ex)) (h' : huangAuction S (groupReport df G w) = .ok (tm', ex')) :
    ¬ AllGain df G tm.trans tm'.trans := by
  intro hall
  have ht' := groupReport_table ht G w
  have hn' := groupReport_nonNeg hn G w hw
  have hpos : ∀ i ∈ G, 0 < ownGain df tm'.trans i := by
    intro i hi
    refine lt_of_le_of_lt ?_ (hall i hi)
    apply List.sum_nonneg
    intro x hx
    obtain ⟨t, htm, rfl⟩ := List.mem_map.mp hx
    obtain ⟨h1, h2⟩ := List.mem_filter.mp htm
    obtain ⟨_, hq, hm⟩ := huang_trans_spec S ht hn h h1
    obtain rfl : t.bid = i := by simpa using h2
    exact mul_nonneg hm hq
  obtain ⟨tm2, hrun, hp⟩ := C130_winners S hS (groupReport df G w) ht' hn' G (priceOf df)
    (fun i hi => by
      unfold priceOf
      cases hr : df[i]? with
      | none => exact le_refl _
      | some r => exact (hn r (List.mem_of_getElem? hr)).2) tm' ex' h'
    (fun i hi => by
      obtain ⟨t, htm, hb, hm⟩ := ownGain_pos (fun t htm => (huang_trans_spec S ht' hn' h' htm).2.1) (hpos i hi)
      unfold marginAt at hm
      rw [groupReport_isBuy]
      refine ⟨t, htm, hb, fun hs => ?_, fun hs => ?_⟩
      · rw [if_pos hs] at hm; linarith
      · rw [if_neg (by rw [hs]; decide)] at hm; linarith)
  rw [groupReport_back ht, h] at hrun
  cases hrun
  obtain ⟨i, hi⟩ := List.exists_mem_of_ne_nil G hne
  exact absurd (hall i hi) (by rw [ownGain_perm hp]; exact lt_irrefl _)

/-- Buyers 1 @ 10, 1 @ 9 and 1 @ 8, sellers 1 @ 1, 1 @ 2 and 1 @ 3. -/
def pactBook : DF := labelFrom 0
  [⟨1, 10, 0, true, 0, true⟩, ⟨1, 9, 1, true, 0, true⟩, ⟨1, 8, 2, true, 0, true⟩,
   ⟨1, 1, 3, false, 0, true⟩, ⟨1, 2, 4, false, 0, true⟩, ⟨1, 3, 5, false, 0, true⟩]

/-- A case that meets the hypotheses of `C130_winners`: two buyers and a seller of `pactBook` report other prices. -/
example : Stable stableSorter ∧ IsTable pactBook ∧ NonNeg pactBook ∧
    (huangAuction stableSorter pactBook).toOption.map (fun o => o.1.trans.map (fun t => (t.bid, t.price))) =
      some [(3, 3), (4, 3), (0, 8), (1, 8)] ∧
    (huangAuction stableSorter (groupReport pactBook [0, 1, 3] (fun i => [17 / 2, 20, 0, 5 / 2].getD i 0))).toOption.map
      (fun o => o.1.trans.map (fun t => (t.bid, t.price))) = some [(4, 3), (3, 3), (1, 8), (0, 8)] :=
  ⟨stableSorter_stable, by decide +kernel, by decide +kernel, by decide +kernel, by decide +kernel⟩

/-- A case that meets the hypotheses of `C130_huang_partial`: the three buyers agree to report 5, 4 and 6. Then the
last buyer gains and the other two do not. -/
example : ∃ tm tm' ex ex', huangAuction stableSorter pactBook = .ok (tm, ex) ∧
    huangAuction stableSorter (groupReport pactBook [0, 1, 2] (fun i => [5, 4, 6].getD i 0)) = .ok (tm', ex') ∧
    ownGain pactBook tm.trans 2 < ownGain pactBook tm'.trans 2 ∧
    ¬ AllGain pactBook [0, 1, 2] tm.trans tm'.trans :=
  ⟨⟨4, [⟨3, 1, 3, -1, false⟩, ⟨4, 1, 3, -1, false⟩, ⟨0, 1, 8, -1, false⟩, ⟨1, 1, 8, -1, false⟩]⟩,
    ⟨4, [⟨3, 1, 3, -1, false⟩, ⟨4, 1, 3, -1, false⟩, ⟨2, 1, 4, -1, false⟩, ⟨0, 1, 4, -1, false⟩]⟩,
    .huang ((3 : ℚ) : Ext) ((8 : ℚ) : Ext) 2, .huang ((3 : ℚ) : Ext) ((4 : ℚ) : Ext) 2,
    by decide +kernel, by decide +kernel, by decide +kernel, by decide +kernel⟩

/-- **C130 refuted for Huang's auction.** The buyer at 8 of `pactBook`, who does not trade, reports 4: the two
buyers who trade pay 4 instead of 8, and nobody in the group loses. -/
theorem C130_huang_refuted : IsTable pactBook ∧ Pos pactBook ∧ ∃ tm tm' ex ex',
    huangAuction stableSorter pactBook = .ok (tm, ex) ∧
    huangAuction stableSorter (groupReport pactBook [0, 1, 2] (fun i => [10, 9, 4].getD i 0)) = .ok (tm', ex') ∧
    SomeGain pactBook [0, 1, 2] tm.trans tm'.trans :=
  ⟨by decide +kernel, by decide +kernel,
    ⟨4, [⟨3, 1, 3, -1, false⟩, ⟨4, 1, 3, -1, false⟩, ⟨0, 1, 8, -1, false⟩, ⟨1, 1, 8, -1, false⟩]⟩,
    ⟨4, [⟨3, 1, 3, -1, false⟩, ⟨4, 1, 3, -1, false⟩, ⟨0, 1, 4, -1, false⟩, ⟨1, 1, 4, -1, false⟩]⟩,
    .huang ((3 : ℚ) : Ext) ((8 : ℚ) : Ext) 2, .huang ((3 : ℚ) : Ext) ((4 : ℚ) : Ext) 2,
    by decide +kernel, by decide +kernel, by decide +kernel⟩

/-- Buyers 1 @ 10 and 1 @ 11, sellers 1 @ 2 and 1 @ 3. -/
def pactHalves : DF := labelFrom 0
  [⟨1, 10, 0, true, 0, true⟩, ⟨1, 11, 1, true, 0, true⟩, ⟨1, 2, 2, false, 0, true⟩, ⟨1, 3, 3, false, 0, true⟩]

/-- **C130 refuted for MUDA.** The two buyers of `pactHalves` are in different halves, so each sets the price of the
other. If both report 8 they pay 11/2 and 5 instead of 7 and 6; there are no fees in either run. -/
theorem C130_muda_refuted : IsTable pactHalves ∧ Pos pactHalves ∧ ∃ tm tm' l r pl pr pl' pr',
    muda stableSorter (fun n => decide (n % 2 = 0)) pactHalves = .ok (tm, .muda l r pl pr [0, 0, 0, 0]) ∧
    muda stableSorter (fun n => decide (n % 2 = 0)) (groupReport pactHalves [0, 1] (fun _ => 8)) =
      .ok (tm', .muda l r pl' pr' [0, 0, 0, 0]) ∧
    AllGain pactHalves [0, 1] tm.trans tm'.trans :=
  ⟨by decide +kernel, by decide +kernel,
    ⟨4, [⟨2, 1, 7, -1, false⟩, ⟨0, 1, 7, -1, false⟩, ⟨3, 1, 6, -1, false⟩, ⟨1, 1, 6, -1, false⟩]⟩,
    ⟨4, [⟨2, 1, 11 / 2, -1, false⟩, ⟨0, 1, 11 / 2, -1, false⟩, ⟨3, 1, 5, -1, false⟩, ⟨1, 1, 5, -1, false⟩]⟩,
    [0, 2], [1, 3], .fin 6, .fin 7, .fin 5, .fin (11 / 2), by decide +kernel, by decide +kernel, by decide +kernel⟩

/-- **C130 refuted for the uniform price.** One bid is enough: the buyer of `shadeBuyBook` sets the price. -/
theorem C130_uniform_refuted : IsTable shadeBuyBook ∧ ∃ tm tm' q q' p p',
    uniformPrice stableSorter shadeBuyBook = .ok (tm, q, p) ∧
    uniformPrice stableSorter (groupReport shadeBuyBook [0] (fun _ => 5)) = .ok (tm', q', p') ∧
    AllGain shadeBuyBook [0] tm.trans tm'.trans :=
  ⟨by decide +kernel, ⟨2, [⟨1, 1, 10, -1, false⟩, ⟨0, 1, 10, -1, false⟩]⟩,
    ⟨2, [⟨1, 1, 5, -1, false⟩, ⟨0, 1, 5, -1, false⟩]⟩, some ((1 : ℚ) : Ext), some ((1 : ℚ) : Ext), .fin 10, .fin 5,
    by decide +kernel, by decide +kernel, by decide +kernel⟩

/-- **C130 refuted for peer to peer trading.** Both buyers of `pactHalves` report 8: whomever they meet, the price
half way between the two reports is lower. -/
theorem C130_p2p_refuted : IsTable pactHalves ∧ Pos pactHalves ∧ ∃ tm tm' R,
    p2pRandom (1 / 2) (fun _ => 0) pactHalves = .ok (tm, .p2p R) ∧
    p2pRandom (1 / 2) (fun _ => 0) (groupReport pactHalves [0, 1] (fun _ => 8)) = .ok (tm', .p2p R) ∧
    AllGain pactHalves [0, 1] tm.trans tm'.trans :=
  ⟨by decide +kernel, by decide +kernel,
    ⟨4, [⟨0, 1, 6, 2, false⟩, ⟨2, 1, 6, 0, false⟩, ⟨1, 1, 7, 3, false⟩, ⟨3, 1, 7, 1, false⟩]⟩,
    ⟨4, [⟨0, 1, 5, 2, false⟩, ⟨2, 1, 5, 0, false⟩, ⟨1, 1, 11 / 2, 3, false⟩, ⟨3, 1, 11 / 2, 1, false⟩]⟩,
    [[(0, 2), (1, 3)]], by decide +kernel, by decide +kernel, by decide +kernel⟩

end PyMarket
