import Verif.Lemmas.Uniform
import Verif.Spec.Uniform
import Verif.Props.ClosedForm

/-! # The two sides of a market with a single price -/

set_option autoImplicit false

namespace PyMarket

open Spec

/-! ## One side of the outcome -/

theorem servedTrans_mem {rows : DF} {m : Row} {x p : ℚ} {t : Transaction}
    (ht : t ∈ servedTrans rows m x p) : t.price = p ∧ t.source = -1 ∧ t.active = false ∧
      ((∃ r ∈ rows, t.bid = r.label ∧ t.quantity = r.quantity) ∨
        (t.bid = m.label ∧ t.quantity = x - qsum rows)) := by
  rcases List.mem_append.mp ht with ht | ht
  · obtain ⟨r, hr, rfl⟩ := List.mem_map.mp ht
    exact ⟨rfl, rfl, rfl, .inl ⟨r, hr, rfl, rfl⟩⟩
  · obtain rfl := List.mem_singleton.mp ht
    exact ⟨rfl, rfl, rfl, .inr ⟨rfl, rfl⟩⟩

theorem servedTrans_bids (rows : DF) (m : Row) (x p : ℚ) :
    (servedTrans rows m x p).map (fun t => t.bid) = (rows ++ [m]).map (fun r => r.label) := by
  simp [servedTrans, uniformShort]

/-- Weighted sums over one side. -/
theorem servedTrans_sum (rows : DF) (m : Row) (x p : ℚ) (w : ℕ → ℚ) :
    ((servedTrans rows m x p).map (fun t => t.quantity * w t.bid)).sum =
      (rows.map (fun r => r.quantity * w r.label)).sum + (x - qsum rows) * w m.label := by
  simp [servedTrans, uniformShort, Function.comp_def]

theorem servedTrans_money (rows : DF) (m : Row) (x p : ℚ) :
    ((servedTrans rows m x p).map (fun t => t.quantity * t.price)).sum = p * x := by
  have h1 : (servedTrans rows m x p).map (fun t => t.quantity * t.price) =
      (servedTrans rows m x p).map (fun t => t.quantity * p) := by
    apply List.map_congr_left
    intro t ht
    rw [(servedTrans_mem ht).1]
  rw [h1, servedTrans_sum rows m x p (fun _ => p), List.sum_map_mul_right]
  unfold qsum
  ring

theorem servedTrans_quantity (rows : DF) (m : Row) (x p : ℚ) :
    ((servedTrans rows m x p).map (fun t => t.quantity)).sum = x := by
  simp [servedTrans, uniformShort, Function.comp_def, qsum]

theorem tradedBy_of_nodup {ts : List Transaction} (hn : (ts.map (fun t => t.bid)).Nodup) {t : Transaction}
    (ht : t ∈ ts) : tradedBy ts t.bid = t.quantity := by
  induction ts with
  | nil => cases ht
  | cons a ts ih =>
    rw [List.map_cons, List.nodup_cons] at hn
    unfold tradedBy at *
    rw [List.filter_cons]
    rcases List.mem_cons.mp ht with rfl | ht'
    · have : ts.filter (fun t' => t'.bid == t.bid) = [] := by
        rw [List.filter_eq_nil_iff]
        intro b hb
        have : b.bid ≠ t.bid := fun h => hn.1 (h ▸ List.mem_map_of_mem hb)
        simpa using this
      simp [this]
    · have : a.bid ≠ t.bid := fun h => hn.1 (h ▸ List.mem_map_of_mem (f := fun t : Transaction => t.bid) ht')
      simp only [beq_iff_eq, this, if_false]
      exact ih hn.2 ht'

/-- The totals of an outcome made of a buying and a selling side. -/
theorem two_sides {df : DF} {ts tb tS : List Transaction} (hp : ts.Perm (tb ++ tS))
    (hb : ∀ t ∈ tb, isBuy df t.bid = true ∧ isSell df t.bid = false)
    (hs : ∀ t ∈ tS, isSell df t.bid = true ∧ isBuy df t.bid = false) (f : Transaction → ℚ) :
    ((ts.filter (fun t => isBuy df t.bid)).map f).sum = (tb.map f).sum ∧
      ((ts.filter (fun t => isSell df t.bid)).map f).sum = (tS.map f).sum := by
  constructor
  · rw [((hp.filter _).map f).sum_eq, List.filter_append, List.filter_eq_self.mpr (fun t ht => (hb t ht).1),
      List.filter_eq_nil_iff.mpr (fun t ht => by simp [(hs t ht).2]), List.append_nil]
  · rw [((hp.filter _).map f).sum_eq, List.filter_append, List.filter_eq_self.mpr (fun t ht => (hs t ht).1),
      List.filter_eq_nil_iff.mpr (fun t ht => by simp [(hb t ht).2]), List.nil_append]

theorem isBuy_row {df : DF} (ht : IsTable df) {i : ℕ} (hi : isBuy df i = true) :
    ∃ r ∈ df, r.buying = true ∧ r.label = i := by
  unfold isBuy at hi
  cases hr : df[i]? with
  | none => simp [hr] at hi
  | some r => exact ⟨r, List.mem_of_getElem? hr, by simpa [hr] using hi, ht.label hr⟩

theorem isSell_row {df : DF} (ht : IsTable df) {i : ℕ} (hi : isSell df i = true) :
    ∃ r ∈ df, r.buying = false ∧ r.label = i := by
  unfold isSell at hi
  cases hr : df[i]? with
  | none => simp [hr] at hi
  | some r => exact ⟨r, List.mem_of_getElem? hr, by simpa [hr] using hi, ht.label hr⟩

/-- The facts about a crossing from which the properties follow. -/
structure UniformSides (S : Sorter) (df : DF) (x p : ℚ) (ts : List Transaction) (mb ms : Row) : Prop where
  cross : Crossing S df x
  buy_get : (sortDesc S (buys df))[demandIdx S df x]? = some mb
  sell_get : (sortAsc S (sells df))[supplyIdx S df x]? = some ms
  demand : demandAt S df x = (mb.price : Ext)
  supply : supplyAt S df x = (ms.price : Ext)
  price : crossPrice S df (1 / 2) x = .fin p
  ge : ms.price ≤ p
  le : p ≤ mb.price
  buy_lo : qsum (huangB S df x) ≤ x
  buy_hi : x ≤ qsum (huangB S df x) + mb.quantity
  sell_lo : qsum (huangA S df x) ≤ x
  sell_hi : x ≤ qsum (huangA S df x) + ms.quantity
  perm : ts.Perm (servedTrans (huangB S df x) mb x p ++ servedTrans (huangA S df x) ms x p)

theorem uniform_sides (S : Sorter) {df : DF} (h : NonNeg df) {tm : TransactionManager} {x : Option Ext} {v : Val}
    (hrun : uniformPrice S df = .ok (tm, x, v)) :
    ∃ (q p : ℚ) (mb ms : Row), x = some (q : Ext) ∧ v = .fin p ∧ UniformSides S df q p tm.trans mb ms := by
  rcases intersect_cases S h (1 / 2) with ⟨y, hc, he⟩ | ⟨he, hn⟩
  swap
  · unfold uniformPrice at hrun
    simp only [he, bind, Except.bind] at hrun
    cases hrun
  obtain ⟨mb, ms, p, h1, h2, h3, h4, h5, h6, h7, h8, h9, h10, h11, h12⟩ := uniform_eval S h hc
  rw [hrun] at h12
  cases h12
  refine ⟨y, p, mb, ms, rfl, rfl, ⟨hc, h1, h2, h3, h4, h5, h6, h7, h8, h9, h10, h11, ?_⟩⟩
  rw [TransactionManager.init_addAll_trans]
  split_ifs
  · exact List.perm_append_comm
  · exact List.Perm.refl _

namespace UniformSides

variable {S : Sorter} {df : DF} {x p : ℚ} {ts : List Transaction} {mb ms : Row}

theorem mb_mem (u : UniformSides S df x p ts mb ms) : mb ∈ df ∧ mb.buying = true :=
  mem_buys.mp (mem_sortDesc.mp (List.mem_of_getElem? u.buy_get))

theorem ms_mem (u : UniformSides S df x p ts mb ms) : ms ∈ df ∧ ms.buying = false :=
  mem_sells.mp (mem_sortAsc.mp (List.mem_of_getElem? u.sell_get))

/-- A transaction of the buying side. -/
theorem buy_trans (u : UniformSides S df x p ts mb ms) (h : NonNeg df) {t : Transaction}
    (ht : t ∈ servedTrans (huangB S df x) mb x p) : t.price = p ∧ t.source = -1 ∧ t.active = false ∧
      ∃ r ∈ df, r.buying = true ∧ t.bid = r.label ∧ 0 ≤ t.quantity ∧ t.quantity ≤ r.quantity ∧
        mb.price ≤ r.price := by
  obtain ⟨h1, h2, h3, h4⟩ := servedTrans_mem ht
  refine ⟨h1, h2, h3, ?_⟩
  rcases h4 with ⟨r, hr, e1, e2⟩ | ⟨e1, e2⟩
  · obtain ⟨a, b, c⟩ := (huangB_spec h u.cross u.demand).1 r hr
    exact ⟨r, a, b, e1, e2 ▸ (h r a).1, e2.le, c⟩
  · exact ⟨mb, u.mb_mem.1, u.mb_mem.2, e1, by have := u.buy_lo; linarith,
      by have := u.buy_hi; linarith, le_refl _⟩

/-- A transaction of the selling side. -/
theorem sell_trans (u : UniformSides S df x p ts mb ms) (h : NonNeg df) {t : Transaction}
    (ht : t ∈ servedTrans (huangA S df x) ms x p) : t.price = p ∧ t.source = -1 ∧ t.active = false ∧
      ∃ r ∈ df, r.buying = false ∧ t.bid = r.label ∧ 0 ≤ t.quantity ∧ t.quantity ≤ r.quantity ∧
        r.price ≤ ms.price := by
  obtain ⟨h1, h2, h3, h4⟩ := servedTrans_mem ht
  refine ⟨h1, h2, h3, ?_⟩
  rcases h4 with ⟨r, hr, e1, e2⟩ | ⟨e1, e2⟩
  · obtain ⟨a, b, c⟩ := (huangA_spec u.cross u.supply).1 r hr
    exact ⟨r, a, b, e1, e2 ▸ (h r a).1, e2.le, c⟩
  · exact ⟨ms, u.ms_mem.1, u.ms_mem.2, e1, by have := u.sell_lo; linarith,
      by have := u.sell_hi; linarith, le_refl _⟩

theorem buy_side (u : UniformSides S df x p ts mb ms) (ht : IsTable df) (h : NonNeg df) :
    ∀ t ∈ servedTrans (huangB S df x) mb x p, isBuy df t.bid = true ∧ isSell df t.bid = false := by
  intro t h'
  obtain ⟨_, _, _, r, hr, hb, e, _⟩ := u.buy_trans h h'
  rw [e, ht.isBuy_eq hr, ht.isSell_eq hr, hb]
  exact ⟨rfl, rfl⟩

theorem sell_side (u : UniformSides S df x p ts mb ms) (ht : IsTable df) (h : NonNeg df) :
    ∀ t ∈ servedTrans (huangA S df x) ms x p, isSell df t.bid = true ∧ isBuy df t.bid = false := by
  intro t h'
  obtain ⟨_, _, _, r, hr, hb, e, _⟩ := u.sell_trans h h'
  rw [e, ht.isBuy_eq hr, ht.isSell_eq hr, hb]
  exact ⟨rfl, rfl⟩

theorem nodup (u : UniformSides S df x p ts mb ms) (ht : IsTable df) (h : NonNeg df) :
    (ts.map (fun t => t.bid)).Nodup := by
  rw [(u.perm.map _).nodup_iff, List.map_append, List.nodup_append]
  refine ⟨?_, ?_, ?_⟩
  · have e : huangB S df x ++ [mb] = _ := (take_succ_of_getElem? u.buy_get).symm
    rw [servedTrans_bids, e]
    exact take_labels_nodup ht.nodup _ (.inr ⟨buys df, buys_sublist df, sortDesc_perm S _⟩)
  · have e : huangA S df x ++ [ms] = _ := (take_succ_of_getElem? u.sell_get).symm
    rw [servedTrans_bids, e]
    exact take_labels_nodup ht.nodup _ (.inr ⟨sells df, sells_sublist df, sortAsc_perm S _⟩)
  · intro a ha b hb hab
    obtain ⟨t, ht1, rfl⟩ := List.mem_map.mp ha
    obtain ⟨t', ht2, rfl⟩ := List.mem_map.mp hb
    have h1 := (u.buy_side ht h t ht1).1
    have h2 := (u.sell_side ht h t' ht2).2
    rw [hab, h2] at h1
    cases h1

/-- A bid in front of the marginal one trades everything. -/
theorem front_buy (u : UniformSides S df x p ts mb ms) (ht : IsTable df) (h : NonNeg df) {r : Row}
    (hr : r ∈ huangB S df x) : tradedBy ts r.label = r.quantity := by
  have hm : (⟨r.label, r.quantity, p, -1, false⟩ : Transaction) ∈ ts := by
    rw [u.perm.mem_iff]
    exact List.mem_append_left _ (List.mem_append_left _
      (List.mem_map_of_mem (f := fun x : Row => (⟨x.label, x.quantity, p, -1, false⟩ : Transaction)) hr))
  exact tradedBy_of_nodup (u.nodup ht h) hm

theorem front_sell (u : UniformSides S df x p ts mb ms) (ht : IsTable df) (h : NonNeg df) {r : Row}
    (hr : r ∈ huangA S df x) : tradedBy ts r.label = r.quantity := by
  have hm : (⟨r.label, r.quantity, p, -1, false⟩ : Transaction) ∈ ts := by
    rw [u.perm.mem_iff]
    exact List.mem_append_right _ (List.mem_append_left _
      (List.mem_map_of_mem (f := fun x : Row => (⟨x.label, x.quantity, p, -1, false⟩ : Transaction)) hr))
  exact tradedBy_of_nodup (u.nodup ht h) hm

theorem outcome (u : UniformSides S df x p ts mb ms) (ht : IsTable df) (h : NonNeg df) :
    UniformOutcome df ts x p := by
  have sB := huangB_spec h u.cross u.demand
  have sA := huangA_spec u.cross u.supply
  have tot := two_sides u.perm (u.buy_side ht h) (u.sell_side ht h)
  refine ⟨?_, u.nodup ht h, ?_, ?_, ?_, ?_, ?_, ?_, ?_⟩
  · intro t h'
    rcases List.mem_append.mp (u.perm.mem_iff.mp h') with h' | h'
    · obtain ⟨a, b, c, r, hr, _, e, q0, q1, _⟩ := u.buy_trans h h'
      rw [e]
      exact ⟨ht.label_lt hr, q0, by rw [ht.qty_eq hr]; exact q1, a, b, c⟩
    · obtain ⟨a, b, c, r, hr, _, e, q0, q1, _⟩ := u.sell_trans h h'
      rw [e]
      exact ⟨ht.label_lt hr, q0, by rw [ht.qty_eq hr]; exact q1, a, b, c⟩
  · intro t h'
    rcases List.mem_append.mp (u.perm.mem_iff.mp h') with h' | h'
    · obtain ⟨_, _, _, r, hr, hb, e, _, _, hp⟩ := u.buy_trans h h'
      refine ⟨fun _ => ?_, fun hs => ?_⟩
      · rw [e, ht.price_eq hr]
        exact le_trans u.le hp
      · rw [(u.buy_side ht h t h').2] at hs
        cases hs
    · obtain ⟨_, _, _, r, hr, hb, e, _, _, hp⟩ := u.sell_trans h h'
      refine ⟨fun hs => ?_, fun _ => ?_⟩
      · rw [(u.sell_side ht h t h').2] at hs
        cases hs
      · rw [e, ht.price_eq hr]
        exact le_trans hp u.ge
  · exact (tot _).1.trans (servedTrans_quantity _ _ _ _)
  · exact (tot _).2.trans (servedTrans_quantity _ _ _ _)
  · exact (tot _).1.trans (servedTrans_money _ _ _ _)
  · exact (tot _).2.trans (servedTrans_money _ _ _ _)
  · intro i j hi hj hlt hpos
    obtain ⟨t, h', rfl, _⟩ := tradedBy_ne_zero hpos.ne'
    have hmin : mb.price ≤ priceOf df t.bid := by
      rcases List.mem_append.mp (u.perm.mem_iff.mp h') with h' | h'
      · obtain ⟨_, _, _, r, hr, hb, e, _, _, hp⟩ := u.buy_trans h h'
        rw [e, ht.price_eq hr]
        exact hp
      · rw [(u.sell_side ht h t h').2] at hj
        cases hj
    obtain ⟨r, hr, hb, rfl⟩ := isBuy_row ht hi
    rw [ht.price_eq hr] at hlt
    rw [ht.qty_eq hr]
    exact u.front_buy ht h (sB.2 r hr hb (lt_of_le_of_lt hmin hlt))
  · intro i j hi hj hlt hpos
    obtain ⟨t, h', rfl, _⟩ := tradedBy_ne_zero hpos.ne'
    have hmin : priceOf df t.bid ≤ ms.price := by
      rcases List.mem_append.mp (u.perm.mem_iff.mp h') with h' | h'
      · rw [(u.buy_side ht h t h').2] at hj
        cases hj
      · obtain ⟨_, _, _, r, hr, hb, e, _, _, hp⟩ := u.sell_trans h h'
        rw [e, ht.price_eq hr]
        exact hp
    obtain ⟨r, hr, hb, rfl⟩ := isSell_row ht hi
    rw [ht.price_eq hr] at hlt
    rw [ht.qty_eq hr]
    exact u.front_sell ht h (sA.2 r hr hb (lt_of_lt_of_le hlt hmin))

end UniformSides

/-! ## Clearing prices and the outcome -/

/-- On one side of a market that serves better bids first and trades `x` in total: at a threshold that
clears the side, better bids trade everything and worse ones nothing. -/
theorem side_cleared {l : List ℕ} {side : ℕ → Prop} [DecidablePred side] {f q w : ℕ → ℚ} {θ x : ℚ}
    (h0 : ∀ i, 0 ≤ f i) (hq : ∀ i, f i ≤ q i)
    (hpri : ∀ i j, side i → side j → w j < w i → 0 < f j → f i = q i)
    (hx : (l.map (fun i => if side i then f i else 0)).sum = x)
    (hlo : (l.map (fun i => if side i ∧ θ < w i then q i else 0)).sum ≤ x)
    (hhi : x ≤ (l.map (fun i => if side i ∧ θ ≤ w i then q i else 0)).sum) :
    (∀ i ∈ l, side i → θ < w i → f i = q i) ∧ (∀ i ∈ l, side i → w i < θ → f i = 0) := by
  constructor
  · intro i hi hs hw
    by_contra hne
    have hlt : f i < q i := lt_of_le_of_ne (hq i) hne
    have : (l.map (fun i => if side i then f i else 0)).sum <
        (l.map (fun i => if side i ∧ θ < w i then q i else 0)).sum := by
      apply List.sum_lt_sum
      · intro j _
        by_cases hsj : side j
        · by_cases hwj : θ < w j
          · simpa [hsj, hwj] using hq j
          · have : f j = 0 := by
              by_contra hf
              exact hne (hpri i j hs hsj (lt_of_le_of_lt (not_lt.mp hwj) hw) (lt_of_le_of_ne (h0 j) (Ne.symm hf)))
            simp [hsj, hwj, this]
        · simp [hsj]
      · exact ⟨i, hi, by simpa [hs, hw] using hlt⟩
    linarith
  · intro j hj hs hw
    by_contra hne
    have hpos : 0 < f j := lt_of_le_of_ne (h0 j) (Ne.symm hne)
    have : (l.map (fun i => if side i ∧ θ ≤ w i then q i else 0)).sum <
        (l.map (fun i => if side i then f i else 0)).sum := by
      apply List.sum_lt_sum
      · intro i _
        by_cases hsi : side i
        · by_cases hwi : θ ≤ w i
          · simpa [hsi, hwi] using (hpri i j hsi hs (lt_of_lt_of_le hw hwi) hpos).ge
          · simpa [hsi, hwi] using h0 i
        · simp [hsi]
      · exact ⟨j, hj, by simpa [hs, not_le.mpr hw] using hpos⟩
    linarith

/-- Quantities of a side as sums over the ids. -/
theorem qty_range {df : DF} (ht : IsTable df) (P : Row → Bool) (Q : ℕ → Prop) [DecidablePred Q]
    (h : ∀ r ∈ df, P r = true ↔ Q r.label) :
    ((df.filter P).map (fun r => r.quantity)).sum =
      ((List.range df.length).map (fun i => if Q i then qtyOf df i else 0)).sum := by
  rw [sum_range_label ht, sum_filter_map]
  congr 1
  apply List.map_congr_left
  intro r hr
  rw [ht.qty_eq hr]
  by_cases hp : P r = true
  · simp [hp, (h r hr).mp hp]
  · have : ¬ Q r.label := fun hQ => hp ((h r hr).mpr hQ)
    simp [hp, this]

namespace Spec.UniformOutcome

variable {df : DF} {ts : List Transaction} {q p c : ℚ}

theorem traded_nonneg (u : UniformOutcome df ts q p) (i : ℕ) : 0 ≤ tradedBy ts i :=
  tradedBy_nonneg (fun t ht => (u.trans t ht).2.1) i

theorem traded_le (u : UniformOutcome df ts q p) (hq : ∀ r ∈ df, 0 ≤ r.quantity) (i : ℕ) :
    tradedBy ts i ≤ qtyOf df i := by
  by_cases h : tradedBy ts i = 0
  · rw [h]
    unfold qtyOf
    cases hr : df[i]? with
    | none => simp
    | some r => simpa using hq r (List.mem_of_getElem? hr)
  · obtain ⟨t, ht, rfl, _⟩ := tradedBy_ne_zero h
    rw [tradedBy_of_nodup u.once ht]
    exact (u.trans t ht).2.2.1

theorem buyers_cleared (u : UniformOutcome df ts q p) (ht : IsTable df) (hq : ∀ r ∈ df, 0 ≤ r.quantity)
    (hc : Clears df c q) : (∀ i, isBuy df i = true → c < priceOf df i → tradedBy ts i = qtyOf df i) ∧
      (∀ i, isBuy df i = true → priceOf df i < c → tradedBy ts i = 0) := by
  have e1 : demandQtyAbove df c = _ := qty_range ht (fun r => r.buying && decide (c < r.price))
    (fun i => isBuy df i = true ∧ c < priceOf df i)
    (fun r hr => by rw [ht.isBuy_eq hr, ht.price_eq hr]; simp)
  have e2 : demandQty df c = _ := qty_range ht (fun r => r.buying && decide (c ≤ r.price))
    (fun i => isBuy df i = true ∧ c ≤ priceOf df i)
    (fun r hr => by rw [ht.isBuy_eq hr, ht.price_eq hr]; simp)
  have key := side_cleared (l := List.range df.length) (side := fun i => isBuy df i = true)
    (f := tradedBy ts) (q := qtyOf df) (w := priceOf df) (θ := c) (x := q) u.traded_nonneg (u.traded_le hq)
    u.priority_buy ((bought_eq ht (fun t h => (u.trans t h).1)).trans u.bought) (e1 ▸ hc.1) (e2 ▸ hc.2.1)
  exact ⟨fun i hi => key.1 i (List.mem_range.mpr (isBuy_lt hi)) hi,
    fun i hi => key.2 i (List.mem_range.mpr (isBuy_lt hi)) hi⟩

theorem sellers_cleared (u : UniformOutcome df ts q p) (ht : IsTable df) (hq : ∀ r ∈ df, 0 ≤ r.quantity)
    (hc : Clears df c q) : (∀ i, isSell df i = true → priceOf df i < c → tradedBy ts i = qtyOf df i) ∧
      (∀ i, isSell df i = true → c < priceOf df i → tradedBy ts i = 0) := by
  have e1 : supplyQtyBelow df c = _ := qty_range ht (fun r => !r.buying && decide (r.price < c))
    (fun i => isSell df i = true ∧ -c < -priceOf df i)
    (fun r hr => by rw [ht.isSell_eq hr, ht.price_eq hr]; simp)
  have e2 : supplyQty df c = _ := qty_range ht (fun r => !r.buying && decide (r.price ≤ c))
    (fun i => isSell df i = true ∧ -c ≤ -priceOf df i)
    (fun r hr => by rw [ht.isSell_eq hr, ht.price_eq hr]; simp)
  have key := side_cleared (l := List.range df.length) (side := fun i => isSell df i = true)
    (f := tradedBy ts) (q := qtyOf df) (w := fun i => -priceOf df i) (θ := -c) (x := q) u.traded_nonneg
    (u.traded_le hq) (fun i j hi hj hw => u.priority_sell i j hi hj (by linarith))
    ((sold_eq ht (fun t h => (u.trans t h).1)).trans u.sold) (e1 ▸ hc.2.2.1) (e2 ▸ hc.2.2.2)
  exact ⟨fun i hi hw => key.1 i (List.mem_range.mpr (isSell_lt hi)) hi (by linarith),
    fun i hi hw => key.2 i (List.mem_range.mpr (isSell_lt hi)) hi (by linarith)⟩

/-- The traders gain what all bids could gain at a clearing price. -/
theorem gains_eq (u : UniformOutcome df ts q p) (ht : IsTable df) (hq : ∀ r ∈ df, 0 ≤ r.quantity)
    (hc : Clears df c q) :
    gains df (priceOf df) ts = (df.map (fun r => claim c r.toBid)).sum := by
  have hk : ∀ t ∈ ts, t.bid < df.length := fun t h => (u.trans t h).1
  obtain ⟨b1, b2⟩ := u.buyers_cleared ht hq hc
  obtain ⟨s1, s2⟩ := u.sellers_cleared ht hq hc
  have hB : boughtValue df (priceOf df) ts - c * q =
      ((List.range df.length).map (fun i => if isBuy df i = true then
        qtyOf df i * max 0 (priceOf df i - c) else 0)).sum := by
    have e1 : boughtValue df (priceOf df) ts = ((List.range df.length).map
        (fun i => if isBuy df i = true then priceOf df i * tradedBy ts i else 0)).sum := by
      rw [sum_buyers ht hk (priceOf df)]
      unfold boughtValue
      simp only [mul_comm]
    rw [e1, ← u.bought, ← bought_eq ht hk, ← List.sum_map_mul_left, ← sum_map_sub']
    congr 1
    apply List.map_congr_left
    intro i _
    by_cases hi : isBuy df i = true
    · simp only [hi, if_true]
      rcases lt_trichotomy c (priceOf df i) with hlt | heq | hlt
      · rw [b1 i hi hlt, max_eq_right (by linarith)]
        ring
      · rw [← heq]
        simp
      · rw [b2 i hi hlt, max_eq_left (by linarith)]
        ring
    · simp [hi]
  have hS : c * q - soldValue df (priceOf df) ts =
      ((List.range df.length).map (fun i => if isSell df i = true then
        qtyOf df i * max 0 (c - priceOf df i) else 0)).sum := by
    have e1 : soldValue df (priceOf df) ts = ((List.range df.length).map
        (fun i => if isSell df i = true then priceOf df i * tradedBy ts i else 0)).sum := by
      rw [sum_sellers ht hk (priceOf df)]
      unfold soldValue
      simp only [mul_comm]
    rw [e1, ← u.sold, ← sold_eq ht hk, ← List.sum_map_mul_left, ← sum_map_sub']
    congr 1
    apply List.map_congr_left
    intro i _
    by_cases hi : isSell df i = true
    · simp only [hi, if_true]
      rcases lt_trichotomy c (priceOf df i) with hlt | heq | hlt
      · rw [s2 i hi hlt, max_eq_left (by linarith)]
        ring
      · rw [← heq]
        simp
      · rw [s1 i hi hlt, max_eq_right (by linarith)]
        ring
    · simp [hi]
  have hT : (df.map (fun r => claim c r.toBid)).sum =
      (boughtValue df (priceOf df) ts - c * q) + (c * q - soldValue df (priceOf df) ts) := by
    rw [hB, hS, ← List.sum_map_add, sum_range_label ht]
    congr 1
    apply List.map_congr_left
    intro r hr
    rw [ht.isBuy_eq hr, ht.isSell_eq hr, ht.qty_eq hr, ht.price_eq hr]
    unfold claim
    cases hb : r.buying <;> simp
  rw [hT]
  unfold gains
  rw [u.paid, u.received]
  ring

end Spec.UniformOutcome

end PyMarket
