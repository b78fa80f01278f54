import Verif.Props.Uniform
import Verif.Props.HuangTruthful

/-! # C97: misreported prices in the uniform price mechanism -/

set_option autoImplicit false

namespace PyMarket

open Spec

/-- Two outcomes with the same prices and the same trades of every bid. -/
structure Spec.SameTrades (ts ts' : List Transaction) : Prop where
  traded : ∀ i, tradedBy ts' i = tradedBy ts i
  price : ∀ t ∈ ts, ∀ t' ∈ ts', t'.price = t.price

/-- The quantity where the buyers in front of the marginal one and the marginal one end. -/
theorem step_mem_iff {rows : DF} {e : Ext} {x : ℚ} {m : Row} (hq : ∀ r ∈ rows, 0 ≤ r.quantity)
    (hm : rows[stepIdx (x : Ext) 0 rows]? = some m) :
    (x : Ext) ∈ (stepCurve 0 rows e).map Prod.fst ↔
      qsum (rows.take (stepIdx (x : Ext) 0 rows)) + m.quantity = x := by
  constructor
  · intro hx
    have := stepIdx_exact hq hx hm
    rwa [zero_add] at this
  · intro hx
    have key : ∀ (rows : DF) (a : ℚ) (n : ℕ) (m : Row), rows[n]? = some m →
        ((a + (qsum (rows.take n) + m.quantity) : ℚ) : Ext) ∈ (stepCurve a rows e).map Prod.fst := by
      intro rows
      induction rows with
      | nil => intro a n m h; simp at h
      | cons r rows ih =>
        intro a n m h
        cases n with
        | zero =>
          simp only [List.getElem?_cons_zero, Option.some.injEq] at h
          subst h
          simp [stepCurve, qsum]
        | succ n =>
          simp only [List.getElem?_cons_succ] at h
          have := ih (a + r.quantity) n m h
          rw [List.take_succ_cons, qsum_cons]
          simp only [stepCurve, List.map_cons, List.mem_cons]
          right
          have e : a + (r.quantity + qsum (rows.take n) + m.quantity) =
              a + r.quantity + (qsum (rows.take n) + m.quantity) := by ring
          rw [e]
          exact this
    have := key rows 0 _ m hm
    rwa [zero_add, hx] at this

theorem tradedBy_served (rows : DF) (m : Row) (x p : ℚ) (k : ℕ) :
    tradedBy (servedTrans rows m x p) k =
      ((rows.filter (fun r => r.label == k)).map (fun r => r.quantity)).sum +
        (if m.label = k then x - qsum rows else 0) := by
  unfold servedTrans
  rw [tradedBy_append]
  congr 1
  · unfold tradedBy uniformShort
    rw [List.filter_map, List.map_map]
    rfl
  · unfold tradedBy
    by_cases h : m.label = k <;> simp [h]

theorem tradedBy_perm {ts ts' : List Transaction} (h : ts.Perm ts') (k : ℕ) : tradedBy ts k = tradedBy ts' k :=
  ((h.filter _).map _).sum_eq

/-- The front of a side is given by the prices when none of it has the marginal price. -/
theorem front_perm_buy {S : Sorter} {df : DF} (ht : IsTable df) (h : NonNeg df) {x pb : ℚ}
    (hc : Crossing S df x) (hpb : demandAt S df x = (pb : Ext)) (hs : ∀ r ∈ huangB S df x, pb < r.price) :
    (huangB S df x).Perm (df.filter (fun r => r.buying && decide (pb < r.price))) := by
  have sB := huangB_spec h hc hpb
  rw [List.perm_ext_iff_of_nodup (List.Nodup.of_map _ (huangB_labels_nodup ht.nodup x))
    ((List.Nodup.of_map _ ht.nodup).sublist List.filter_sublist)]
  intro a
  rw [List.mem_filter]
  simp only [Bool.and_eq_true, decide_eq_true_eq]
  exact ⟨fun ha => ⟨(sB.1 a ha).1, (sB.1 a ha).2.1, hs a ha⟩, fun ha => sB.2 a ha.1 ha.2.1 ha.2.2⟩

theorem front_perm_sell {S : Sorter} {df : DF} (ht : IsTable df) {x ps : ℚ}
    (hc : Crossing S df x) (hps : supplyAt S df x = (ps : Ext)) (hs : ∀ r ∈ huangA S df x, r.price < ps) :
    (huangA S df x).Perm (df.filter (fun r => !r.buying && decide (r.price < ps))) := by
  have sA := huangA_spec hc hps
  rw [List.perm_ext_iff_of_nodup (List.Nodup.of_map _ (huangA_labels_nodup ht.nodup x))
    ((List.Nodup.of_map _ ht.nodup).sublist List.filter_sublist)]
  intro a
  rw [List.mem_filter]
  simp only [Bool.and_eq_true, decide_eq_true_eq, Bool.not_eq_true']
  exact ⟨fun ha => ⟨(sA.1 a ha).1, (sA.1 a ha).2.1, hs a ha⟩, fun ha => sA.2 a ha.1 ha.2.1 ha.2.2⟩

/-- The marginal bid is not in front of itself. -/
theorem not_mem_front {l : DF} (hn : (l.map (fun r => r.label)).Nodup) {n : ℕ} {m : Row} (hm : l[n]? = some m) :
    m ∉ l.take n := by
  intro h
  have h1 : ((l.take (n + 1)).map (fun r => r.label)).Nodup := hn.sublist ((List.take_sublist _ _).map _)
  rw [take_succ_of_getElem? hm, List.map_append, List.nodup_append] at h1
  exact h1.2.2 _ (List.mem_map_of_mem h) m.label (by simp) rfl

/-- **C97, buyers.** A buyer who outbids another buyer that trades, and keeps doing so with another report,
changes neither the price nor any trade. -/
theorem C97_front_buyer_partial (S : Sorter) (df : DF) (ht : IsTable df) (h : NonNeg df) (i : ℕ) (r : Row)
    (hi : df[i]? = some r) (hb : r.buying = true)
    (hd : ((df.filter (fun a => a.buying)).map (fun a => a.price)).Nodup)
    (tm : TransactionManager) (x : Option Ext) (v : Val) (hrun : uniformPrice S df = .ok (tm, x, v))
    (j : ℕ) (hj : isBuy df j = true) (hjt : 0 < tradedBy tm.trans j) (hjr : priceOf df j < r.price)
    (w : ℚ) (hjw : priceOf df j < w) :
    ∃ tm', uniformPrice S (df.set i { r with price := w }) = .ok (tm', x, v) ∧
      SameTrades tm.trans tm'.trans := by
  obtain ⟨q, p, mb, ms, rfl, rfl, u⟩ := uniform_sides S h hrun
  have hrm : r ∈ df := List.mem_of_getElem? hi
  have hri : r.label = i := ht.label hi
  have sB := huangB_spec h u.cross u.demand
  have hmin : mb.price ≤ priceOf df j := by
    obtain ⟨t, h', rfl, _⟩ := tradedBy_ne_zero hjt.ne'
    rcases List.mem_append.mp (u.perm.mem_iff.mp h') with h' | h'
    · obtain ⟨_, _, _, a, ha, _, e, _, _, hp⟩ := u.buy_trans h h'
      rw [e, ht.price_eq ha]
      exact hp
    · rw [(u.sell_side ht h t h').2] at hj
      cases hj
  have hr : r ∈ huangB S df q := sB.2 r hrm hb (lt_of_le_of_lt hmin hjr)
  have hw : mb.price < w := lt_of_le_of_lt hmin hjw
  have hw0 : 0 ≤ w := le_trans (h mb u.mb_mem.1).2 hw.le
  have hR := repriced_set ht hi w
  set df' := df.set i { r with price := w } with hdf'
  have ht' := hR.table'
  have h' : NonNeg df' := hR.nonNeg h hw0
  obtain ⟨hc', hd', hs'⟩ := crossing_reprice_buy hR h u.cross u.demand hr hri hw.le
  obtain ⟨_, _, p0, _, _, _, _, _, _, _, _, _, _, _, hrun'⟩ := uniform_eval S h' hc'
  obtain ⟨q', p', mb', ms', hq', hv', u'⟩ := uniform_sides S h' hrun'
  obtain rfl : q = q' := WithTop.coe_injective (Option.some.inj hq')
  obtain rfl : p' = p0 := by cases hv'; rfl
  have hsells := hR.sells hrm hri hb
  have hA : huangA S df' q = huangA S df q := by
    unfold huangA supplyIdx
    rw [hsells]
  have hms : ms' = ms := by
    have e := u'.sell_get
    unfold supplyIdx at e
    rw [hsells] at e
    exact Option.some.inj (e.symm.trans u.sell_get)
  -- the marginal buyer is the only one with its price
  have uniq : ∀ a ∈ df', a.buying = true → a.price = mb.price → a = mb := by
    intro a' ha' hb' hp'
    obtain ⟨a, ha, e1, e2, e3, _, e4, e5⟩ := hR.mem' ha'
    by_cases he : a.label = i
    · rw [e4 he] at hp'
      linarith
    · rw [e5 he] at hb' hp' ⊢
      exact List.inj_on_of_nodup_map hd (List.mem_filter.mpr ⟨ha, hb'⟩)
        (List.mem_filter.mpr ⟨u.mb_mem.1, u.mb_mem.2⟩) hp'
  have hpb' : mb'.price = mb.price := WithTop.coe_injective (u'.demand.symm.trans hd')
  have hmb : mb' = mb := uniq mb' u'.mb_mem.1 u'.mb_mem.2 hpb'
  have strict := huangB_strict h u.cross u.demand hd
  have strict' : ∀ a ∈ huangB S df' q, mb.price < a.price := by
    intro a ha
    obtain ⟨h1, h2, h3⟩ := (huangB_spec h' hc' hd').1 a ha
    refine lt_of_le_of_ne h3 (fun he => ?_)
    have hnd : ((sortDesc S (buys df')).map (fun r => r.label)).Nodup :=
      ((sortDesc_perm S _).map _).nodup_iff.mpr (ht'.nodup.sublist ((buys_sublist df').map _))
    refine not_mem_front hnd u'.buy_get ?_
    rw [hmb, ← uniq a h1 h2 he.symm]
    exact ha
  have pB := front_perm_buy ht h u.cross u.demand strict
  have pB' := front_perm_buy ht' h' hc' hd' strict'
  have hsum : ∀ P : Row → Bool, (∀ a ∈ df, a.label = i → P { a with price := w } = P a) →
      (((huangB S df' q).filter P).map (fun r => r.quantity)).sum =
        (((huangB S df q).filter P).map (fun r => r.quantity)).sum := by
    intro P hP
    rw [((pB'.filter P).map _).sum_eq, ((pB.filter P).map _).sum_eq, List.filter_filter, List.filter_filter]
    apply hR.sum_filter
    intro a ha he
    have : a = r := ht.inj ha hrm (by rw [he, hri])
    subst this
    simp only [hP a ha he, hw, lt_of_le_of_lt hmin hjr, decide_true]
  have hqs : qsum (huangB S df' q) = qsum (huangB S df q) := by
    have := hsum (fun _ => true) (fun _ _ _ => rfl)
    simpa [qsum] using this
  have hp : p' = p := by
    have e : crossPrice S df' (1 / 2) q = crossPrice S df (1 / 2) q := by
      have m1 : (q : Ext) ∈ (demandCurve S df').1.map Prod.fst ↔ (q : Ext) ∈ (demandCurve S df).1.map Prod.fst := by
        rw [demandCurve_eq, demandCurve_eq,
          step_mem_iff (fun r hr => (h' r (mem_buys.mp (mem_sortDesc.mp hr)).1).1) u'.buy_get,
          step_mem_iff (fun r hr => (h r (mem_buys.mp (mem_sortDesc.mp hr)).1).1) u.buy_get, hmb]
        exact Iff.of_eq (congrArg (fun y => y + mb.quantity = q) hqs)
      have m2 : (supplyCurve S df').1 = (supplyCurve S df).1 := by
        rw [supplyCurve_eq, supplyCurve_eq, hsells]
      unfold crossPrice
      rw [m2, hs', hd', ← u.demand]
      simp only [m1]
    rw [u'.price, u.price] at e
    cases e
    rfl
  subst hp hmb hms
  refine ⟨_, hrun', ?_, ?_⟩
  · intro k
    rw [tradedBy_perm u'.perm, tradedBy_perm u.perm, tradedBy_append, tradedBy_append, hA,
      tradedBy_served (huangB S df' q), tradedBy_served (huangB S df q), hqs,
      hsum (fun r => r.label == k) (fun _ _ _ => rfl)]
  · intro t h1 t' h2
    rw [((u.outcome ht h).trans t h1).2.2.2.1, ((u'.outcome ht' h').trans t' h2).2.2.2.1]

/-- **C97, sellers.** A seller who undercuts another seller that trades, and keeps doing so with another report,
changes neither the price nor any trade. -/
theorem C97_front_seller_partial (S : Sorter) (df : DF) (ht : IsTable df) (h : NonNeg df) (i : ℕ) (r : Row)
    (hi : df[i]? = some r) (hb : r.buying = false)
    (hd : ((df.filter (fun a => !a.buying)).map (fun a => a.price)).Nodup)
    (tm : TransactionManager) (x : Option Ext) (v : Val) (hrun : uniformPrice S df = .ok (tm, x, v))
    (j : ℕ) (hj : isSell df j = true) (hjt : 0 < tradedBy tm.trans j) (hjr : r.price < priceOf df j)
    (w : ℚ) (hw0 : 0 ≤ w) (hjw : w < priceOf df j) :
    ∃ tm', uniformPrice S (df.set i { r with price := w }) = .ok (tm', x, v) ∧
      SameTrades tm.trans tm'.trans := by
  obtain ⟨q, p, mb, ms, rfl, rfl, u⟩ := uniform_sides S h hrun
  have hrm : r ∈ df := List.mem_of_getElem? hi
  have hri : r.label = i := ht.label hi
  have sA := huangA_spec u.cross u.supply
  have hmin : priceOf df j ≤ ms.price := by
    obtain ⟨t, h', rfl, _⟩ := tradedBy_ne_zero hjt.ne'
    rcases List.mem_append.mp (u.perm.mem_iff.mp h') with h' | h'
    · rw [(u.buy_side ht h t h').2] at hj
      cases hj
    · obtain ⟨_, _, _, a, ha, _, e, _, _, hp⟩ := u.sell_trans h h'
      rw [e, ht.price_eq ha]
      exact hp
  have hr : r ∈ huangA S df q := sA.2 r hrm hb (lt_of_lt_of_le hjr hmin)
  have hw : w < ms.price := lt_of_lt_of_le hjw hmin
  have hR := repriced_set ht hi w
  set df' := df.set i { r with price := w } with hdf'
  have ht' := hR.table'
  have h' : NonNeg df' := hR.nonNeg h hw0
  obtain ⟨hc', hs', hd'⟩ := crossing_reprice_sell hR h hw0 u.cross u.supply hr hri hw.le
  obtain ⟨_, _, p0, _, _, _, _, _, _, _, _, _, _, _, hrun'⟩ := uniform_eval S h' hc'
  obtain ⟨q', p', mb', ms', hq', hv', u'⟩ := uniform_sides S h' hrun'
  obtain rfl : q = q' := WithTop.coe_injective (Option.some.inj hq')
  obtain rfl : p' = p0 := by cases hv'; rfl
  have hbuys := hR.buys hrm hri hb
  have hB : huangB S df' q = huangB S df q := by
    unfold huangB demandIdx
    rw [hbuys]
  have hmb : mb' = mb := by
    have e := u'.buy_get
    unfold demandIdx at e
    rw [hbuys] at e
    exact Option.some.inj (e.symm.trans u.buy_get)
  -- the marginal seller is the only one with its price
  have uniq : ∀ a ∈ df', a.buying = false → a.price = ms.price → a = ms := by
    intro a' ha' hb' hp'
    obtain ⟨a, ha, e1, e2, e3, _, e4, e5⟩ := hR.mem' ha'
    by_cases he : a.label = i
    · rw [e4 he] at hp'
      linarith
    · rw [e5 he] at hb' hp' ⊢
      exact List.inj_on_of_nodup_map hd (List.mem_filter.mpr ⟨ha, by simp [hb']⟩)
        (List.mem_filter.mpr ⟨u.ms_mem.1, by simp [u.ms_mem.2]⟩) hp'
  have hps' : ms'.price = ms.price := WithTop.coe_injective (u'.supply.symm.trans hs')
  have hms : ms' = ms := uniq ms' u'.ms_mem.1 u'.ms_mem.2 hps'
  have strict := huangA_strict u.cross u.supply hd
  have strict' : ∀ a ∈ huangA S df' q, a.price < ms.price := by
    intro a ha
    obtain ⟨h1, h2, h3⟩ := (huangA_spec hc' hs').1 a ha
    refine lt_of_le_of_ne h3 (fun he => ?_)
    have hnd : ((sortAsc S (sells df')).map (fun r => r.label)).Nodup :=
      ((sortAsc_perm S _).map _).nodup_iff.mpr (ht'.nodup.sublist ((sells_sublist df').map _))
    refine not_mem_front hnd u'.sell_get ?_
    rw [hms, ← uniq a h1 h2 he]
    exact ha
  have pA := front_perm_sell ht u.cross u.supply strict
  have pA' := front_perm_sell ht' hc' hs' strict'
  have hsum : ∀ P : Row → Bool, (∀ a ∈ df, a.label = i → P { a with price := w } = P a) →
      (((huangA S df' q).filter P).map (fun r => r.quantity)).sum =
        (((huangA S df q).filter P).map (fun r => r.quantity)).sum := by
    intro P hP
    rw [((pA'.filter P).map _).sum_eq, ((pA.filter P).map _).sum_eq, List.filter_filter, List.filter_filter]
    apply hR.sum_filter
    intro a ha he
    have : a = r := ht.inj ha hrm (by rw [he, hri])
    subst this
    simp only [hP a ha he, hw, lt_of_lt_of_le hjr hmin, decide_true]
  have hqs : qsum (huangA S df' q) = qsum (huangA S df q) := by
    have := hsum (fun _ => true) (fun _ _ _ => rfl)
    simpa [qsum] using this
  have hp : p' = p := by
    have e : crossPrice S df' (1 / 2) q = crossPrice S df (1 / 2) q := by
      have m1 : (q : Ext) ∈ (supplyCurve S df').1.map Prod.fst ↔ (q : Ext) ∈ (supplyCurve S df).1.map Prod.fst := by
        rw [supplyCurve_eq, supplyCurve_eq,
          step_mem_iff (fun r hr => (h' r (mem_sells.mp (mem_sortAsc.mp hr)).1).1) u'.sell_get,
          step_mem_iff (fun r hr => (h r (mem_sells.mp (mem_sortAsc.mp hr)).1).1) u.sell_get, hms]
        exact Iff.of_eq (congrArg (fun y => y + ms.quantity = q) hqs)
      have m2 : (demandCurve S df').1 = (demandCurve S df).1 := by
        rw [demandCurve_eq, demandCurve_eq, hbuys]
      unfold crossPrice
      rw [m2, hd', hs', ← u.supply]
      simp only [m1]
    rw [u'.price, u.price] at e
    cases e
    rfl
  subst hp hmb hms
  refine ⟨_, hrun', ?_, ?_⟩
  · intro k
    rw [tradedBy_perm u'.perm, tradedBy_perm u.perm, tradedBy_append, tradedBy_append, hB,
      tradedBy_served (huangA S df' q), tradedBy_served (huangA S df q), hqs,
      hsum (fun r => r.label == k) (fun _ _ _ => rfl)]
  · intro t h1 t' h2
    rw [((u.outcome ht h).trans t h1).2.2.2.1, ((u'.outcome ht' h').trans t' h2).2.2.2.1]

/-- Buyers 1 @ 10, 2 @ 8, 2 @ 3, sellers 1 @ 1, 4 @ 4: buyer 0 outbids buyer 1, who trades. -/
example : IsTable uniformBook ∧ NonNeg uniformBook ∧ isBuy uniformBook 1 = true ∧
    ((uniformBook.filter (fun a => a.buying)).map (fun a => a.price)).Nodup ∧
    ((uniformBook.filter (fun a => !a.buying)).map (fun a => a.price)).Nodup ∧
    priceOf uniformBook 1 < priceOf uniformBook 0 ∧ priceOf uniformBook 3 < priceOf uniformBook 4 ∧
    tradedBy [⟨0, 1, 4, -1, false⟩, ⟨1, 2, 4, -1, false⟩, ⟨3, 1, 4, -1, false⟩, ⟨4, 2, 4, -1, false⟩] 1 = 2 := by
  decide +kernel

/-- C97 as claimed: a user with a single bid does not gain by reporting another price. -/
def Spec.UniformTruthful (S : Sorter) (df : DF) : Prop :=
  ∀ (i : ℕ) (r : Row) (w : ℚ), df[i]? = some r → (∀ a ∈ df, a.user = r.user → a = r) → 0 ≤ w →
    ∀ tm tm' x x' v v', uniformPrice S df = .ok (tm, x, v) →
      uniformPrice S (df.set i { r with price := w }) = .ok (tm', x', v') →
      surplusOf df (priceOf df) r.user tm'.trans ≤ surplusOf df (priceOf df) r.user tm.trans

/-- A buyer 2 @ 10 and a seller 1 @ 1. -/
def shadeBuyBook : DF := labelFrom 0 [⟨2, 10, 0, true, 0, true⟩, ⟨1, 1, 1, false, 0, true⟩]

/-- **C97 refuted, buyers.** The marginal buyer pays what it reports: with 5 instead of 10 it gains 5. -/
theorem C97_refuted_buyer : ¬ UniformTruthful stableSorter shadeBuyBook := by
  intro h
  have key := h 0 ⟨⟨2, 10, 0, true, 0, true⟩, 0⟩ 5 (by decide +kernel) (by decide +kernel) (by norm_num)
    ⟨2, [⟨1, 1, 10, -1, false⟩, ⟨0, 1, 10, -1, false⟩]⟩ ⟨2, [⟨1, 1, 5, -1, false⟩, ⟨0, 1, 5, -1, false⟩]⟩
    (some ((1 : ℚ) : Ext)) (some ((1 : ℚ) : Ext)) (.fin 10) (.fin 5) (by decide +kernel) (by decide +kernel)
  revert key
  decide +kernel

/-- A buyer 1 @ 10 and a seller 2 @ 1. -/
def shadeSellBook : DF := labelFrom 0 [⟨1, 10, 0, true, 0, true⟩, ⟨2, 1, 1, false, 0, true⟩]

/-- **C97 refuted, sellers.** The marginal seller receives what it reports: with 6 instead of 1 it gains 5. -/
theorem C97_refuted_seller : ¬ UniformTruthful stableSorter shadeSellBook := by
  intro h
  have key := h 1 ⟨⟨2, 1, 1, false, 0, true⟩, 1⟩ 6 (by decide +kernel) (by decide +kernel) (by norm_num)
    ⟨2, [⟨0, 1, 1, -1, false⟩, ⟨1, 1, 1, -1, false⟩]⟩ ⟨2, [⟨0, 1, 6, -1, false⟩, ⟨1, 1, 6, -1, false⟩]⟩
    (some ((1 : ℚ) : Ext)) (some ((1 : ℚ) : Ext)) (.fin 1) (.fin 6) (by decide +kernel) (by decide +kernel)
  revert key
  decide +kernel

/-- Buyers 1 @ 10 and 1 @ 8, a seller 1 @ 1. -/
def enterBook : DF := labelFrom 0
  [⟨1, 10, 0, true, 0, true⟩, ⟨1, 8, 1, true, 0, true⟩, ⟨1, 1, 2, false, 0, true⟩]

/-- **C97 refuted, losers.** Exaggerating helps as well: the losing buyer reports 11, gets the unit for 6 and
gains 2. -/
theorem C97_refuted_loser : ¬ UniformTruthful stableSorter enterBook := by
  intro h
  have key := h 1 ⟨⟨1, 8, 1, true, 0, true⟩, 1⟩ 11 (by decide +kernel) (by decide +kernel) (by norm_num)
    ⟨2, [⟨0, 1, 11 / 2, -1, false⟩, ⟨2, 1, 11 / 2, -1, false⟩]⟩ ⟨2, [⟨1, 1, 6, -1, false⟩, ⟨2, 1, 6, -1, false⟩]⟩
    (some ((1 : ℚ) : Ext)) (some ((1 : ℚ) : Ext)) (.fin (11 / 2)) (.fin 6) (by decide +kernel)
    (by decide +kernel)
  revert key
  decide +kernel

end PyMarket
