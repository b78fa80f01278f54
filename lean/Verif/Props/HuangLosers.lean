import Verif.Lemmas.HuangClear
import Verif.Props.HuangOrder

/-! # C65: bids that lose in Huang's auction are irrelevant -/

set_option autoImplicit false

namespace PyMarket

/-- `r'` is a losing bid `r` that does not try harder: same side, a price that is not better, any
quantity if the old one was positive, otherwise again none. -/
structure Spec.Meeker (r r' : Row) : Prop where
  label : r'.label = r.label
  side : r'.buying = r.buying
  price : if r.buying then r'.price ≤ r.price else r.price ≤ r'.price
  quantity : 0 < r.quantity ∨ r'.quantity ≤ r.quantity

open Spec

theorem filter_set_irrelevant {P : Row → Bool} {df : DF} {i : ℕ} {r r' : Row} (hi : df[i]? = some r)
    (h : P r = false) (h' : P r' = false) : (df.set i r').filter P = df.filter P := by
  induction df generalizing i with
  | nil => rfl
  | cons a df ih =>
    cases i with
    | zero =>
      simp only [List.getElem?_cons_zero, Option.some.injEq] at hi
      subst hi
      simp [h, h']
    | succ i =>
      simp only [List.getElem?_cons_succ] at hi
      simp only [List.set_cons_succ, List.filter_cons, ih hi]

theorem sum_filter_eq_ite (P : Row → Bool) (l : DF) :
    ((l.filter P).map (fun r => r.quantity)).sum =
      (l.map (fun r => if P r then r.quantity else 0)).sum := by
  induction l with
  | nil => rfl
  | cons a l ih =>
    simp only [List.filter_cons, List.map_cons, List.sum_cons]
    by_cases h : P a = true
    · simp [h, ih]
    · simp [h, ih]

theorem sum_set_le {g : Row → ℚ} {df : DF} {i : ℕ} {r r' : Row} (hi : df[i]? = some r)
    (h : g r' ≤ g r) : ((df.set i r').map g).sum ≤ (df.map g).sum := by
  induction df generalizing i with
  | nil => simp
  | cons a df ih =>
    cases i with
    | zero =>
      simp only [List.getElem?_cons_zero, Option.some.injEq] at hi
      subst hi
      simpa using h
    | succ i =>
      simp only [List.getElem?_cons_succ] at hi
      have := ih hi
      simp only [List.set_cons_succ, List.map_cons, List.sum_cons]
      linarith

theorem sum_add_le {f g : Row → ℚ} {l : DF} {r : Row} {c : ℚ} (hr : r ∈ l)
    (h : ∀ a ∈ l, f a ≤ g a) (hc : f r + c ≤ g r) : (l.map f).sum + c ≤ (l.map g).sum := by
  induction l with
  | nil => cases hr
  | cons a l ih =>
    simp only [List.map_cons, List.sum_cons]
    have hl : (l.map f).sum ≤ (l.map g).sum :=
      List.sum_le_sum (fun b hb => h b (List.mem_cons_of_mem _ hb))
    rcases List.mem_cons.mp hr with rfl | hr
    · linarith
    · have := ih hr (fun b hb => h b (List.mem_cons_of_mem _ hb))
      have := h a List.mem_cons_self
      linarith

theorem demandAt_zero_iff (S : Sorter) {df : DF} (hq : ∀ r ∈ df, 0 ≤ r.quantity) {p : ℚ}
    (hp : 0 < p) : (p : Ext) ≤ demandAt S df ((0 : ℚ) : Ext) ↔
      df.filter (fun r => r.buying && decide (p ≤ r.price)) ≠ [] := by
  have hs := sortDesc_sorted S (buys df)
  have hm : ∀ r, r ∈ sortDesc S (buys df) ↔ r ∈ df ∧ r.buying = true := fun r => by
    rw [mem_sortDesc, mem_buys]
  unfold demandAt
  cases hl : sortDesc S (buys df) with
  | nil =>
    rw [hl] at hm
    simp only [stepVal]
    constructor
    · intro h; exact absurd h (not_le.mpr (WithTop.coe_lt_coe.mpr hp))
    · intro h
      obtain ⟨r, hr⟩ := List.exists_mem_of_ne_nil _ h
      simp only [List.mem_filter, Bool.and_eq_true, decide_eq_true_eq] at hr
      have := (hm r).mpr ⟨hr.1, hr.2.1⟩
      cases this
  | cons a l =>
    rw [hl] at hs hm
    have ha := (hm a).mp List.mem_cons_self
    have h0 : ((0 : ℚ) : Ext) ≤ ((0 + a.quantity : ℚ) : Ext) := by
      rw [WithTop.coe_le_coe, zero_add]; exact hq a ha.1
    simp only [stepVal, h0, if_true, WithTop.coe_le_coe]
    constructor
    · intro h
      exact List.ne_nil_of_mem (List.mem_filter.mpr ⟨ha.1, by simp [ha.2, h]⟩)
    · intro h
      obtain ⟨r, hr⟩ := List.exists_mem_of_ne_nil _ h
      simp only [List.mem_filter, Bool.and_eq_true, decide_eq_true_eq] at hr
      have := (hm r).mpr ⟨hr.1, hr.2.1⟩
      rcases List.mem_cons.mp this with rfl | h'
      · exact hr.2.2
      · exact hr.2.2.trans (List.rel_of_pairwise_cons hs h')

theorem supplyAt_zero_iff (S : Sorter) {df : DF} (hq : ∀ r ∈ df, 0 ≤ r.quantity) {p : ℚ} :
    supplyAt S df ((0 : ℚ) : Ext) ≤ (p : Ext) ↔
      df.filter (fun r => !r.buying && decide (r.price ≤ p)) ≠ [] := by
  have hs := sortAsc_sorted S (sells df)
  have hm : ∀ r, r ∈ sortAsc S (sells df) ↔ r ∈ df ∧ r.buying = false := fun r => by
    rw [mem_sortAsc, mem_sells]
  unfold supplyAt
  cases hl : sortAsc S (sells df) with
  | nil =>
    rw [hl] at hm
    simp only [stepVal]
    constructor
    · intro h; exact absurd h (not_le.mpr (WithTop.coe_lt_top p))
    · intro h
      obtain ⟨r, hr⟩ := List.exists_mem_of_ne_nil _ h
      simp only [List.mem_filter, Bool.and_eq_true, decide_eq_true_eq, Bool.not_eq_true'] at hr
      have := (hm r).mpr ⟨hr.1, hr.2.1⟩
      cases this
  | cons a l =>
    rw [hl] at hs hm
    have ha := (hm a).mp List.mem_cons_self
    have h0 : ((0 : ℚ) : Ext) ≤ ((0 + a.quantity : ℚ) : Ext) := by
      rw [WithTop.coe_le_coe, zero_add]; exact hq a ha.1
    simp only [stepVal, h0, if_true, WithTop.coe_le_coe]
    constructor
    · intro h
      exact List.ne_nil_of_mem (List.mem_filter.mpr ⟨ha.1, by simp [ha.2, h]⟩)
    · intro h
      obtain ⟨r, hr⟩ := List.exists_mem_of_ne_nil _ h
      simp only [List.mem_filter, Bool.and_eq_true, decide_eq_true_eq, Bool.not_eq_true'] at hr
      have := (hm r).mpr ⟨hr.1, hr.2.1⟩
      rcases List.mem_cons.mp this with rfl | h'
      · exact hr.2.2
      · exact (List.rel_of_pairwise_cons hs h').trans hr.2.2

theorem nonNeg_set {df : DF} (hn : NonNeg df) {i : ℕ} {r' : Row} (h : 0 ≤ r'.quantity ∧ 0 ≤ r'.price) :
    NonNeg (df.set i r') := by
  intro a ha
  rcases List.mem_or_eq_of_mem_set ha with h' | rfl
  · exact hn a h'
  · exact h

/-- The crossing stays where it is when a losing buyer becomes meeker. -/
theorem crossing_meeker_buy {S : Sorter} {df : DF} (hn : NonNeg df) {i : ℕ} {r r' : Row}
    (hi : df[i]? = some r) (hm : Meeker r r') (hb : r.buying = true)
    (h' : 0 ≤ r'.quantity ∧ 0 ≤ r'.price) {x pb : ℚ} (hc : Crossing S df x)
    (hpb : demandAt S df x = (pb : Ext)) (hlose : r.price < pb) :
    Crossing S (df.set i r') x ∧ demandAt S (df.set i r') x = (pb : Ext) ∧
      sells (df.set i r') = sells df := by
  have hn' := nonNeg_set (i := i) hn h'
  have hq : ∀ r ∈ df, 0 ≤ r.quantity := fun r hr => (hn r hr).1
  have hq' : ∀ r ∈ df.set i r', 0 ≤ r.quantity := fun r hr => (hn' r hr).1
  have hrm := List.mem_of_getElem? hi
  have hr0 := hn r hrm
  have hb' : r'.buying = true := hm.side.trans hb
  have hp' : r'.price ≤ r.price := by have := hm.price; rw [hb] at this; exact this
  have hs : sells (df.set i r') = sells df := by
    unfold sells
    exact filter_set_irrelevant hi (by simp [hb]) (by simp [hb'])
  have hsup : ∀ z, supplyAt S (df.set i r') z = supplyAt S df z := by
    intro z; unfold supplyAt; rw [hs]
  have hfil : ∀ t, r.price < t →
      (df.set i r').filter (fun r => r.buying && decide (t ≤ r.price)) =
        df.filter (fun r => r.buying && decide (t ≤ r.price)) := by
    intro t ht
    apply filter_set_irrelevant hi
    · simp [hb, ht]
    · simp [hb', lt_of_le_of_lt hp' ht]
  have hgal : ∀ (y t : ℚ), 0 ≤ y → r.price < t →
      ((t : Ext) ≤ demandAt S (df.set i r') y ↔ (t : Ext) ≤ demandAt S df y) := by
    intro y t hy ht
    have ht0 : 0 < t := lt_of_le_of_lt hr0.2 ht
    rcases eq_or_lt_of_le hy with rfl | hy
    · rw [demandAt_zero_iff S hq' ht0, demandAt_zero_iff S hq ht0, hfil t ht]
    · rw [demandAt_galois S hq' hy ht0, demandAt_galois S hq hy ht0]
      unfold demandQty
      rw [hfil t ht]
  have hd : demandAt S (df.set i r') x = (pb : Ext) := by
    apply le_antisymm
    · obtain ⟨d, hdd⟩ := demand_fin S (df.set i r') x
      rw [hdd]
      by_contra hlt
      rw [WithTop.coe_le_coe, not_le] at hlt
      have := (hgal x d hc.nonneg (hlose.trans hlt)).mp hdd.ge
      rw [hpb] at this
      exact absurd (WithTop.coe_le_coe.mp this) (not_le.mpr hlt)
    · exact (hgal x pb hc.nonneg hlose).mpr hpb.ge
  refine ⟨crossing_of hn' hc.nonneg ?_ ?_, hd, hs⟩
  · rw [hsup, hd, ← hpb]; exact hc.at_x
  · intro z hz
    rw [hsup]
    rcases eq_or_ne z ⊤ with rfl | hzt
    · have := hc.above ⊤ hz
      rwa [demandAt_top] at this ⊢
    obtain ⟨y, rfl⟩ := WithTop.ne_top_iff_exists.mp hzt
    have hxy := WithTop.coe_lt_coe.mp hz
    have hy0 : 0 < y := lt_of_le_of_lt hc.nonneg hxy
    have habove := hc.above _ hz
    change demandAt S (df.set i r') (y : Ext) < supplyAt S df (y : Ext)
    change demandAt S df (y : Ext) < supplyAt S df (y : Ext) at habove
    obtain ⟨d, hdd⟩ := demand_fin S (df.set i r') (y : Ext)
    have hd0 := demandAt_nonneg S (fun r hr => (hn' r hr).2) (y : Ext)
    rw [hdd] at hd0 ⊢
    rcases lt_or_ge r.price d with hcase | hcase
    · exact lt_of_le_of_lt ((hgal y d hy0.le hcase).mp hdd.ge) habove
    rcases hm.quantity with hqp | hqle
    · -- just after `x` the old book already asks for `r.price`
      have hbig : x + r.quantity ≤ demandQty df r.price := by
        have h1 : x ≤ demandQty df pb := by
          rcases eq_or_lt_of_le hc.nonneg with h0 | h0
          · rw [← h0]
            unfold demandQty
            apply List.sum_nonneg
            intro q hqm
            obtain ⟨a, ha, rfl⟩ := List.mem_map.mp hqm
            exact hq a (List.mem_filter.mp ha).1
          · exact (demandAt_galois S hq h0 (lt_of_le_of_lt hr0.2 hlose)).mp hpb.ge
        refine (add_le_add_left h1 _).trans ?_
        unfold demandQty
        rw [sum_filter_eq_ite, sum_filter_eq_ite]
        apply sum_add_le hrm
        · intro a ha
          by_cases h1 : a.buying = true ∧ pb ≤ a.price
          · simp [h1.1, h1.2, hlose.le.trans h1.2]
          · have : (a.buying && decide (pb ≤ a.price)) = false := by
              simpa using h1
            rw [this]
            simp only [Bool.false_eq_true, if_false]
            split
            · exact hq a ha
            · exact le_refl _
        · simp [hb, not_le.mpr hlose]
      have hu : x < min y (x + r.quantity) := lt_min hxy (by linarith)
      have hau := hc.above ((min y (x + r.quantity) : ℚ) : Ext) (WithTop.coe_lt_coe.mpr hu)
      have hsm : supplyAt S df ((min y (x + r.quantity) : ℚ) : Ext) ≤ supplyAt S df (y : Ext) :=
        supplyAt_monotone S df (WithTop.coe_le_coe.mpr (min_le_left _ _))
      refine lt_of_le_of_lt ?_ (lt_of_lt_of_le hau hsm)
      rcases eq_or_lt_of_le hr0.2 with hz0 | hz0
      · refine le_trans ?_ (demandAt_nonneg S (fun r hr => (hn r hr).2) _)
        rw [WithTop.coe_le_coe]
        linarith
      · refine le_trans (WithTop.coe_le_coe.mpr hcase) ?_
        rw [demandAt_galois S hq (lt_of_le_of_lt hc.nonneg hu) hz0]
        exact (min_le_right _ _).trans hbig
    · refine lt_of_le_of_lt ?_ habove
      rcases eq_or_lt_of_le (WithTop.coe_le_coe.mp hd0) with rfl | hd0
      · exact demandAt_nonneg S (fun r hr => (hn r hr).2) _
      rw [demandAt_galois S hq hy0 hd0]
      have := (demandAt_galois S hq' hy0 hd0).mp hdd.ge
      refine this.trans ?_
      unfold demandQty
      rw [sum_filter_eq_ite, sum_filter_eq_ite]
      apply sum_set_le hi
      simp only [hb, hb', Bool.true_and, decide_eq_true_eq, hcase, if_true]
      split
      · exact hqle
      · exact hr0.1

/-- The same for a losing seller. -/
theorem crossing_meeker_sell {S : Sorter} {df : DF} (hn : NonNeg df) {i : ℕ} {r r' : Row}
    (hi : df[i]? = some r) (hm : Meeker r r') (hb : r.buying = false)
    (h' : 0 ≤ r'.quantity ∧ 0 ≤ r'.price) {x ps : ℚ} (hc : Crossing S df x)
    (hps : supplyAt S df x = (ps : Ext)) (hlose : ps < r.price) :
    Crossing S (df.set i r') x ∧ supplyAt S (df.set i r') x = (ps : Ext) ∧
      buys (df.set i r') = buys df := by
  have hn' := nonNeg_set (i := i) hn h'
  have hq : ∀ r ∈ df, 0 ≤ r.quantity := fun r hr => (hn r hr).1
  have hq' : ∀ r ∈ df.set i r', 0 ≤ r.quantity := fun r hr => (hn' r hr).1
  have hrm := List.mem_of_getElem? hi
  have hr0 := hn r hrm
  have hb' : r'.buying = false := hm.side.trans hb
  have hp' : r.price ≤ r'.price := by have := hm.price; rw [hb] at this; simpa using this
  have hs : buys (df.set i r') = buys df := by
    unfold buys
    exact filter_set_irrelevant hi (by simp [hb]) (by simp [hb'])
  have hdem : ∀ z, demandAt S (df.set i r') z = demandAt S df z := by
    intro z; unfold demandAt; rw [hs]
  have hfil : ∀ t, t < r.price →
      (df.set i r').filter (fun r => !r.buying && decide (r.price ≤ t)) =
        df.filter (fun r => !r.buying && decide (r.price ≤ t)) := by
    intro t ht
    apply filter_set_irrelevant hi
    · simp [hb, ht]
    · simp [hb', lt_of_lt_of_le ht hp']
  have hgal : ∀ (y t : ℚ), 0 ≤ y → t < r.price →
      (supplyAt S (df.set i r') y ≤ (t : Ext) ↔ supplyAt S df y ≤ (t : Ext)) := by
    intro y t hy ht
    rcases eq_or_lt_of_le hy with rfl | hy
    · rw [supplyAt_zero_iff S hq', supplyAt_zero_iff S hq, hfil t ht]
    · rw [supplyAt_galois S hq' hy, supplyAt_galois S hq hy]
      unfold supplyQty
      rw [hfil t ht]
  have hd : supplyAt S (df.set i r') x = (ps : Ext) := by
    have hle := (hgal x ps hc.nonneg hlose).mpr hps.le
    apply le_antisymm hle
    obtain ⟨d, hdd⟩ := WithTop.ne_top_iff_exists.mp (ne_top_of_le_ne_top (WithTop.coe_ne_top) hle)
    rw [← hdd] at hle ⊢
    have hle' := WithTop.coe_le_coe.mp hle
    have := (hgal x d hc.nonneg (lt_of_le_of_lt hle' hlose)).mp hdd.ge
    rwa [hps] at this
  refine ⟨crossing_of hn' hc.nonneg ?_ ?_, hd, hs⟩
  · rw [hdem, hd, ← hps]; exact hc.at_x
  · intro z hz
    rw [hdem]
    rcases eq_or_ne z ⊤ with rfl | hzt
    · have := hc.above ⊤ hz
      rwa [supplyAt_top] at this ⊢
    obtain ⟨y, rfl⟩ := WithTop.ne_top_iff_exists.mp hzt
    have hxy := WithTop.coe_lt_coe.mp hz
    have hy0 : 0 < y := lt_of_le_of_lt hc.nonneg hxy
    have habove := hc.above _ hz
    change demandAt S df (y : Ext) < supplyAt S (df.set i r') (y : Ext)
    change demandAt S df (y : Ext) < supplyAt S df (y : Ext) at habove
    rcases eq_or_ne (supplyAt S (df.set i r') (y : Ext)) ⊤ with ht | hne
    · rw [ht]; exact lt_of_lt_of_le habove le_top
    obtain ⟨d, hdd⟩ := WithTop.ne_top_iff_exists.mp hne
    rw [← hdd]
    rcases lt_or_ge d r.price with hcase | hcase
    · exact lt_of_lt_of_le habove ((hgal y d hy0.le hcase).mp hdd.ge)
    rcases hm.quantity with hqp | hqle
    · have hbig : x + r.quantity ≤ supplyQty df r.price := by
        have h1 : x ≤ supplyQty df ps := by
          rcases eq_or_lt_of_le hc.nonneg with h0 | h0
          · rw [← h0]
            unfold supplyQty
            apply List.sum_nonneg
            intro q hqm
            obtain ⟨a, ha, rfl⟩ := List.mem_map.mp hqm
            exact hq a (List.mem_filter.mp ha).1
          · exact (supplyAt_galois S hq h0).mp hps.le
        refine (add_le_add_left h1 _).trans ?_
        unfold supplyQty
        rw [sum_filter_eq_ite, sum_filter_eq_ite]
        apply sum_add_le hrm
        · intro a ha
          by_cases h1 : a.buying = false ∧ a.price ≤ ps
          · simp [h1.1, h1.2, h1.2.trans hlose.le]
          · have : (!a.buying && decide (a.price ≤ ps)) = false := by
              simpa using h1
            rw [this]
            simp only [Bool.false_eq_true, if_false]
            split
            · exact hq a ha
            · exact le_refl _
        · simp [hb, not_le.mpr hlose]
      have hu : x < min y (x + r.quantity) := lt_min hxy (by linarith)
      have hau := hc.above ((min y (x + r.quantity) : ℚ) : Ext) (WithTop.coe_lt_coe.mpr hu)
      have hdm : demandAt S df (y : Ext) ≤ demandAt S df ((min y (x + r.quantity) : ℚ) : Ext) :=
        demandAt_antitone S (fun r hr => (hn r hr).2) (WithTop.coe_le_coe.mpr (min_le_left _ _))
      refine lt_of_le_of_lt hdm (lt_of_lt_of_le hau ?_)
      refine le_trans ?_ (WithTop.coe_le_coe.mpr hcase)
      rw [supplyAt_galois S hq (lt_of_le_of_lt hc.nonneg hu)]
      exact (min_le_right _ _).trans hbig
    · refine lt_of_lt_of_le habove ?_
      rw [supplyAt_galois S hq hy0]
      have := (supplyAt_galois S hq' hy0).mp hdd.ge
      refine this.trans ?_
      unfold supplyQty
      rw [sum_filter_eq_ite, sum_filter_eq_ite]
      apply sum_set_le hi
      simp only [hb, hb', Bool.not_false, Bool.true_and, decide_eq_true_eq, hcase, if_true]
      split
      · exact hqle
      · exact hr0.1

/-- Prefixes of sorted lists with different prices are determined by their elements. -/
theorem prefix_eq {l l' : DF} (hn : l.Nodup) (hn' : l'.Nodup) (hmem : ∀ a, a ∈ l ↔ a ∈ l')
    (hp : (l.map (fun r => r.price)).Nodup) (le : ℚ → ℚ → Prop)
    (ha : ∀ a b, le a b → le b a → a = b)
    (s : l.Pairwise (fun r r' => le r.price r'.price))
    (s' : l'.Pairwise (fun r r' => le r.price r'.price)) : l = l' :=
  perm_prices_eq (List.Perm.refl l) ((List.perm_ext_iff_of_nodup hn' hn).mpr (fun a => (hmem a).symm))
    hp le ha s s'

theorem huangB_mem_iff {S : Sorter} {df : DF} (h : NonNeg df) {x pb : ℚ} (hc : Crossing S df x)
    (hpb : demandAt S df x = (pb : Ext)) (hst : ∀ r ∈ huangB S df x, pb < r.price) (a : Row) :
    a ∈ huangB S df x ↔ a ∈ df ∧ a.buying = true ∧ pb < a.price := by
  constructor
  · intro ha
    have := (huangB_spec h hc hpb).1 a ha
    exact ⟨this.1, this.2.1, hst a ha⟩
  · rintro ⟨h1, h2, h3⟩
    exact (huangB_spec h hc hpb).2 a h1 h2 h3

theorem huangA_mem_iff {S : Sorter} {df : DF} {x ps : ℚ} (hc : Crossing S df x)
    (hps : supplyAt S df x = (ps : Ext)) (hst : ∀ r ∈ huangA S df x, r.price < ps) (a : Row) :
    a ∈ huangA S df x ↔ a ∈ df ∧ a.buying = false ∧ a.price < ps := by
  constructor
  · intro ha
    have := (huangA_spec hc hps).1 a ha
    exact ⟨this.1, this.2.1, hst a ha⟩
  · rintro ⟨h1, h2, h3⟩
    exact (huangA_spec hc hps).2 a h1 h2 h3

theorem mem_set_iff {df : DF} (ht : IsTable df) {i : ℕ} {r r' : Row} (hi : df[i]? = some r)
    (hl : r'.label = r.label) {a : Row} (ha : a.label ≠ i) : a ∈ df.set i r' ↔ a ∈ df := by
  have hlab := ht.label hi
  constructor
  · intro h
    rcases List.mem_or_eq_of_mem_set h with h' | rfl
    · exact h'
    · exact absurd (hl.trans hlab) ha
  · intro h
    obtain ⟨k, hk⟩ := List.getElem?_of_mem h
    have hki : i ≠ k := by
      intro e; apply ha; rw [e]; exact ht.label hk
    exact List.mem_of_getElem? (i := k) (by rw [List.getElem?_set_ne hki]; exact hk)

/-- A change of a losing bid keeps the other bids quoting `p` unique. -/
theorem set_unique {df : DF} {i : ℕ} {r' : Row} {p : ℚ} (side : Bool) (hp : r'.price ≠ p)
    (hd : ∀ a ∈ df, ∀ b ∈ df, a.buying = side → b.buying = side → a.price = b.price → a = b) :
    ∀ a ∈ df.set i r', ∀ b ∈ df.set i r', a.buying = side → b.buying = side → a.price = p →
      b.price = p → a = b := by
  intro a ha b hb h1 h2 h3 h4
  rcases List.mem_or_eq_of_mem_set ha with ha | rfl
  swap
  · exact absurd h3 hp
  rcases List.mem_or_eq_of_mem_set hb with hb | rfl
  swap
  · exact absurd h4 hp
  exact hd a ha b hb h1 h2 (h3.trans h4.symm)

/-- **C65.** Let Huang's auction return the prices `ps` and `pb`. A buying bid below `pb` that lowers its
price, a selling bid above `ps` that raises its price, also when it changes its quantity at the same
time (to any quantity, or to none at all), leaves the whole outcome as it is: prices, quantities and
the list of transactions. The prices on that side are pairwise different; the new one need not be
different from the others. -/
theorem C65_losers (S : Sorter) (df : DF) (ht : IsTable df) (hn : NonNeg df)
    (i : ℕ) (r r' : Row) (hi : df[i]? = some r) (hm : Meeker r r')
    (h' : 0 ≤ r'.quantity ∧ 0 ≤ r'.price)
    (hd : ((df.filter (fun a => a.buying == r.buying)).map (fun a => a.price)).Nodup)
    (tm : TransactionManager) (ps pb : Ext) (q : ℚ)
    (h : huangAuction S df = .ok (tm, .huang ps pb q))
    (hlose : if r.buying then (r.price : Ext) < pb else ps < (r.price : Ext)) :
    huangAuction S (df.set i r') = .ok (tm, .huang ps pb q) := by
  have hlab := ht.label hi
  have hn' := nonNeg_set (i := i) hn h'
  have ht' : IsTable (df.set i r') := isTable_set ht (hm.label.trans hlab)
  rcases huang_cases S hn with ⟨h0, _⟩ | ⟨x, ps₀, pb₀, hc, hps, hpb, _, hcase⟩
  · rw [h] at h0; cases h0
  have hex : ps = (ps₀ : Ext) ∧ pb = (pb₀ : Ext) := by
    rcases hcase with ⟨_, _, _, _, _, _, _, _, _, heq⟩ | ⟨_, heq⟩
    · rw [h] at heq; cases heq; exact ⟨rfl, rfl⟩
    · rw [h] at heq; cases heq; exact ⟨rfl, rfl⟩
  obtain ⟨rfl, rfl⟩ := hex
  rw [← h, huang_eval hn hc hps hpb]
  have hu : ∀ a ∈ df, ∀ b ∈ df, a.buying = r.buying → b.buying = r.buying → a.price = b.price →
      a = b := by
    intro a ha b hb' h1 h2 h3
    exact List.inj_on_of_nodup_map hd (List.mem_filter.mpr ⟨ha, by simp [h1]⟩)
      (List.mem_filter.mpr ⟨hb', by simp [h2]⟩) h3
  cases hside : r.buying with
  | true =>
    rw [hside] at hlose hu
    have hlose : r.price < pb₀ := WithTop.coe_lt_coe.mp hlose
    have hp' : r'.price ≤ r.price := by have := hm.price; rw [hside] at this; exact this
    obtain ⟨hc', hdem, hsells⟩ := crossing_meeker_buy hn hi hm hside h' hc hpb hlose
    have hsup : supplyAt S (df.set i r') x = (ps₀ : Ext) := by
      rw [← hps]; unfold supplyAt; rw [hsells]
    have hA : huangA S (df.set i r') x = huangA S df x := by
      unfold huangA supplyIdx; rw [hsells]
    have st := huangB_strict' ht hn hc hpb
      (fun a ha b hb h1 h2 h3 h4 => hu a ha b hb h1 h2 (h3.trans h4.symm))
    have st' := huangB_strict' ht' hn' hc' hdem
      (set_unique true (lt_of_le_of_lt hp' hlose).ne hu)
    have hB : huangB S (df.set i r') x = huangB S df x := by
      refine (prefix_eq (huangB_labels_nodup ht.nodup x).of_map
        (huangB_labels_nodup ht'.nodup x).of_map ?_ ?_ (fun a b => b ≤ a)
        (fun _ _ h1 h2 => le_antisymm h2 h1)
        ((sortDesc_sorted S _).sublist (List.take_sublist _ _))
        ((sortDesc_sorted S _).sublist (List.take_sublist _ _))).symm
      · intro a
        rw [huangB_mem_iff hn hc hpb st, huangB_mem_iff hn' hc' hdem st']
        by_cases ha : a.label = i
        · constructor
          · rintro ⟨h1, _, h3⟩
            have : a = r := ht.inj h1 (List.mem_of_getElem? hi) (ha.trans hlab.symm)
            rw [this] at h3
            exact absurd h3 (not_lt.mpr hlose.le)
          · rintro ⟨h1, _, h3⟩
            have hi' : (df.set i r')[i]? = some r' := by
              rw [List.getElem?_set_self (List.getElem?_eq_some_iff.mp hi).1]
            have : a = r' := ht'.inj h1 (List.mem_of_getElem? hi')
              (ha.trans (hm.label.trans hlab).symm)
            rw [this] at h3
            exact absurd h3 (not_lt.mpr (hp'.trans hlose.le))
        · rw [mem_set_iff ht hi hm.label ha]
      · rw [List.nodup_map_iff_inj_on (huangB_labels_nodup ht.nodup x).of_map]
        intro a ha b hb hab
        have ha' := (huangB_spec hn hc hpb).1 a ha
        have hb' := (huangB_spec hn hc hpb).1 b hb
        exact hu a ha'.1 b hb'.1 ha'.2.1 hb'.2.1 hab
    rw [huang_eval hn' hc' hsup hdem, hA, hB]
  | false =>
    rw [hside] at hlose hu
    have hlose : ps₀ < r.price := by simpa using hlose
    have hp' : r.price ≤ r'.price := by have := hm.price; rw [hside] at this; simpa using this
    obtain ⟨hc', hsup, hbuys⟩ := crossing_meeker_sell hn hi hm hside h' hc hps hlose
    have hdem : demandAt S (df.set i r') x = (pb₀ : Ext) := by
      rw [← hpb]; unfold demandAt; rw [hbuys]
    have hB : huangB S (df.set i r') x = huangB S df x := by
      unfold huangB demandIdx; rw [hbuys]
    have st := huangA_strict' ht hc hps
      (fun a ha b hb h1 h2 h3 h4 => hu a ha b hb h1 h2 (h3.trans h4.symm))
    have st' := huangA_strict' ht' hc' hsup
      (set_unique false (lt_of_lt_of_le hlose hp').ne' hu)
    have hA : huangA S (df.set i r') x = huangA S df x := by
      refine (prefix_eq (huangA_labels_nodup ht.nodup x).of_map
        (huangA_labels_nodup ht'.nodup x).of_map ?_ ?_ (fun a b => a ≤ b)
        (fun _ _ h1 h2 => le_antisymm h1 h2)
        ((sortAsc_sorted S _).sublist (List.take_sublist _ _))
        ((sortAsc_sorted S _).sublist (List.take_sublist _ _))).symm
      · intro a
        rw [huangA_mem_iff hc hps st, huangA_mem_iff hc' hsup st']
        by_cases ha : a.label = i
        · constructor
          · rintro ⟨h1, _, h3⟩
            have : a = r := ht.inj h1 (List.mem_of_getElem? hi) (ha.trans hlab.symm)
            rw [this] at h3
            exact absurd h3 (not_lt.mpr hlose.le)
          · rintro ⟨h1, _, h3⟩
            have hi' : (df.set i r')[i]? = some r' := by
              rw [List.getElem?_set_self (List.getElem?_eq_some_iff.mp hi).1]
            have : a = r' := ht'.inj h1 (List.mem_of_getElem? hi')
              (ha.trans (hm.label.trans hlab).symm)
            rw [this] at h3
            exact absurd h3 (not_lt.mpr (hlose.le.trans hp'))
        · rw [mem_set_iff ht hi hm.label ha]
      · rw [List.nodup_map_iff_inj_on (huangA_labels_nodup ht.nodup x).of_map]
        intro a ha b hb hab
        have ha' := (huangA_spec hc hps).1 a ha
        have hb' := (huangA_spec hc hps).1 b hb
        exact hu a ha'.1 b hb'.1 ha'.2.1 hb'.2.1 hab
    rw [huang_eval hn' hc' hsup hdem, hA, hB]

/-- Bid 2 (a buyer at 4) and bid 5 (a seller at 6) lose; the prices are 3 and 8. -/
def loserBook : DF := labelFrom 0
  [⟨5, 10, 0, true, 0, true⟩, ⟨2, 8, 1, true, 0, true⟩, ⟨3, 4, 2, true, 0, true⟩,
   ⟨5, 1, 3, false, 0, true⟩, ⟨2, 3, 4, false, 0, true⟩, ⟨1, 6, 5, false, 0, true⟩]

/-- A case that meets the hypotheses: bid 2 asks for 100 units at 3. -/
example : IsTable loserBook ∧ NonNeg loserBook ∧
    loserBook[2]? = some ⟨⟨3, 4, 2, true, 0, true⟩, 2⟩ ∧
    Meeker ⟨⟨3, 4, 2, true, 0, true⟩, 2⟩ ⟨⟨100, 3, 2, true, 0, true⟩, 2⟩ ∧
    ((loserBook.filter (fun a => a.buying == true)).map (fun a => a.price)).Nodup ∧
    huangAuction stableSorter loserBook =
      .ok (⟨2, [⟨3, 5, 3, -1, false⟩, ⟨0, 5, 8, -1, false⟩]⟩,
        .huang ((3 : ℚ) : Ext) ((8 : ℚ) : Ext) 5) ∧
    ((4 : ℚ) : Ext) < ((8 : ℚ) : Ext) := by
  refine ⟨by decide +kernel, by decide +kernel, by decide +kernel, ⟨rfl, rfl, ?_, ?_⟩,
    by decide +kernel, by decide +kernel, by decide +kernel⟩
  · decide +kernel
  · decide +kernel

/-- Raising the price of a losing bid is another matter: if bid 2 asks for its 3 units at 6, the price
of bid 5, the curves touch instead of crossing and nobody trades any more. -/
theorem C65_raising_matters :
    huangAuction stableSorter loserBook =
      .ok (⟨2, [⟨3, 5, 3, -1, false⟩, ⟨0, 5, 8, -1, false⟩]⟩,
        .huang ((3 : ℚ) : Ext) ((8 : ℚ) : Ext) 5) ∧
    huangAuction stableSorter (loserBook.set 2 ⟨⟨3, 6, 2, true, 0, true⟩, 2⟩) =
      .ok (⟨0, []⟩, .empty) := by
  decide +kernel

end PyMarket
