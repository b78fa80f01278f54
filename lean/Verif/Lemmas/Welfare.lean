import Verif.Props.Statistics
import Verif.Props.Equilibrium

/-! # The gains from trade at an equilibrium -/

set_option autoImplicit false

namespace PyMarket

open Spec

/-- The next breakpoint after `x`, or any point if there is none. -/
theorem gap_next (x : ℚ) (l : Curve) :
    ∃ y : ℚ, x < y ∧ ∀ b ∈ l, (x : Ext) < b.1 → (y : Ext) ≤ b.1 := by
  have h : (x : Ext) ∉ (l.filter (fun b => decide ((x : Ext) < b.1))).map Prod.fst := by
    intro hm
    obtain ⟨b, hb, he⟩ := List.mem_map.mp hm
    have := of_decide_eq_true (List.mem_filter.mp hb).2
    rw [he] at this
    exact lt_irrefl _ this
  obtain ⟨y, hy1, hy2⟩ := gap_after x _ h
  refine ⟨y, hy1, fun b hb hx => hy2 b ?_ hx.le⟩
  exact List.mem_filter.mpr ⟨hb, decide_eq_true hx⟩

/-- Some price between the two curves clears the quantity at which they cross. -/
theorem Crossing.clears_between {S : Sorter} {df : DF} (h : NonNeg df) {x : ℚ}
    (hc : Crossing S df x) :
    ∃ p : ℚ, 0 ≤ p ∧ supplyAt S df x ≤ (p : Ext) ∧ (p : Ext) ≤ demandAt S df x ∧ Clears df p x := by
  have hq : ∀ r ∈ df, 0 ≤ r.quantity := fun r hr => (h r hr).1
  have hp : ∀ r ∈ df, 0 ≤ r.price := fun r hr => (h r hr).2
  obtain ⟨s, hs⟩ := hc.supply_fin
  obtain ⟨d, hd⟩ := demand_fin S df x
  have hsd := hc.at_x
  rw [hs, hd] at hsd
  have hsd' : s < d := WithTop.coe_lt_coe.mp hsd
  have hs0 : (0 : ℚ) ≤ s := by
    have := supplyAt_nonneg S hp (x : Ext)
    rw [hs] at this
    exact WithTop.coe_le_coe.mp this
  obtain ⟨y1, hy1, hg1⟩ := gap_next x (demandCurve S df).1
  obtain ⟨y2, hy2, hg2⟩ := gap_next x (supplyCurve S df).1
  obtain ⟨y, hxy, hyd, hys⟩ : ∃ y : ℚ, x < y ∧
      (∀ b ∈ (demandCurve S df).1, (x : Ext) < b.1 → (y : Ext) ≤ b.1) ∧
      (∀ b ∈ (supplyCurve S df).1, (x : Ext) < b.1 → (y : Ext) ≤ b.1) :=
    ⟨min y1 y2, lt_min hy1 hy2,
      fun b hb hx => le_trans (WithTop.coe_le_coe.mpr (min_le_left _ _)) (hg1 b hb hx),
      fun b hb hx => le_trans (WithTop.coe_le_coe.mpr (min_le_right _ _)) (hg2 b hb hx)⟩
  have hcD : ∀ z : ℚ, x < z → z ≤ y → demandAt S df z = demandAt S df y := by
    intro z hz hzy
    apply stepVal_const _ _ _ (WithTop.coe_le_coe.mpr hzy)
    intro b hb hzb
    rw [← demandCurve_eq] at hb
    exact hyd b hb (lt_of_lt_of_le (WithTop.coe_lt_coe.mpr hz) hzb)
  have hcS : ∀ z : ℚ, x < z → z ≤ y → supplyAt S df z = supplyAt S df y := by
    intro z hz hzy
    apply stepVal_const _ _ _ (WithTop.coe_le_coe.mpr hzy)
    intro b hb hzb
    rw [← supplyCurve_eq] at hb
    exact hys b hb (lt_of_lt_of_le (WithTop.coe_lt_coe.mpr hz) hzb)
  obtain ⟨e, he⟩ := demand_fin S df y
  have hed : e ≤ d := by
    have := demandAt_antitone S hp (WithTop.coe_le_coe.mpr hxy.le)
    rw [he, hd] at this
    exact WithTop.coe_le_coe.mp this
  have habove := hc.above y (WithTop.coe_lt_coe.mpr hxy)
  rw [he] at habove
  have hsy : (s : Ext) ≤ supplyAt S df y := by
    rw [← hs]; exact supplyAt_monotone S df (WithTop.coe_le_coe.mpr hxy.le)
  have hmy : ((max s e : ℚ) : Ext) ≤ supplyAt S df y := by
    rcases le_total s e with hle | hle
    · rw [max_eq_right hle]; exact habove.le
    · rw [max_eq_left hle]; exact hsy
  have hm0 : 0 ≤ max s e := le_trans hs0 (le_max_left _ _)
  have hcs : supplyAt S df x ≤ ((max s e : ℚ) : Ext) := by
    rw [hs]; exact WithTop.coe_le_coe.mpr (le_max_left _ _)
  have hcd : ((max s e : ℚ) : Ext) ≤ demandAt S df x := by
    rw [hd]; exact WithTop.coe_le_coe.mpr (max_le hsd'.le hed)
  refine ⟨max s e, hm0, hcs, hcd, ?_, crossing_le_demandQty h hc hcd, ?_,
    crossing_le_supplyQty h hc hcs⟩
  · by_contra hlt
    rw [not_le] at hlt
    have hz := lt_min hxy hlt
    have h1 := (demandAt_galois_lt S hq (lt_of_le_of_lt hc.nonneg hz) hm0).mpr (min_le_right _ _)
    rw [hcD _ hz (min_le_left _ _), he] at h1
    exact absurd (WithTop.coe_lt_coe.mp h1) (not_lt.mpr (le_max_right _ _))
  · by_contra hlt
    rw [not_le] at hlt
    have hz := lt_min hxy hlt
    have h1 := (supplyAt_galois_lt S hq (lt_of_le_of_lt hc.nonneg hz)).mpr (min_le_right _ _)
    rw [hcS _ hz (min_le_left _ _)] at h1
    exact absurd h1 (not_lt.mpr hmy)

/-- Some price clears the quantity at which the curves cross. -/
theorem Crossing.clears {S : Sorter} {df : DF} (h : NonNeg df) {x : ℚ} (hc : Crossing S df x) :
    ∃ p : ℚ, 0 ≤ p ∧ Clears df p x := by
  obtain ⟨p, h0, _, _, h1⟩ := hc.clears_between h
  exact ⟨p, h0, h1⟩

/-- No plan gains more than what all bids could gain at a common price. -/
theorem planWelfare_le {df : DF} (ht : IsTable df)
    {q : ℕ → ℕ → ℚ} (h : TradePlan df q) (p : ℚ) :
    planWelfare df (priceOf df) q ≤ (df.map (fun r => claim p r.toBid)).sum := by
  set f : ℕ → ℕ → ℚ := fun i j => max 0 (priceOf df i - p) * q i j with hf
  set g : ℕ → ℕ → ℚ := fun i j => max 0 (p - priceOf df j) * q i j with hg
  have h1 : planWelfare df (priceOf df) q ≤ sum2 df.length f + sum2 df.length g := by
    unfold planWelfare sum2
    rw [← sum_add_map]
    apply List.sum_le_sum
    intro i _
    rw [← sum_add_map]
    apply List.sum_le_sum
    intro j _
    simp only [hf, hg]
    have e : (priceOf df i - priceOf df j) * q i j =
        (priceOf df i - p) * q i j + (p - priceOf df j) * q i j := by ring
    rw [e]
    exact add_le_add (mul_le_mul_of_nonneg_right (le_max_right _ _) (h.nonneg i j))
      (mul_le_mul_of_nonneg_right (le_max_right _ _) (h.nonneg i j))
  refine le_trans h1 ?_
  have e : (df.map (fun r => claim p r.toBid)).sum = ((List.range df.length).map (fun i =>
      (if isBuy df i = true then max 0 (priceOf df i - p) * qtyOf df i else 0) +
      (if isSell df i = true then max 0 (p - priceOf df i) * qtyOf df i else 0))).sum := by
    rw [sum_range_label ht]
    congr 1
    apply List.map_congr_left
    intro r hr
    rw [ht.isBuy_eq hr, ht.isSell_eq hr, ht.price_eq hr, ht.qty_eq hr]
    unfold claim
    cases r.buying <;> simp [mul_comm]
  rw [e, sum_add_map]
  apply add_le_add
  · apply List.sum_le_sum
    intro i _
    simp only [hf]
    rw [List.sum_map_mul_left]
    by_cases hb : isBuy df i = true
    · rw [if_pos hb]
      exact mul_le_mul_of_nonneg_left (h.buyer i) (le_max_left _ _)
    · rw [if_neg hb]
      have : ((List.range df.length).map (fun j => q i j)).sum = 0 := by
        apply List.sum_eq_zero
        intro y hy
        obtain ⟨j, _, rfl⟩ := List.mem_map.mp hy
        by_contra hne
        exact hb (h.pair i j hne).1
      rw [this, mul_zero]
  · rw [sum2_swap]
    unfold sum2
    apply List.sum_le_sum
    intro j _
    simp only [hg]
    rw [List.sum_map_mul_left]
    by_cases hb : isSell df j = true
    · rw [if_pos hb]
      exact mul_le_mul_of_nonneg_left (h.seller j) (le_max_left _ _)
    · rw [if_neg hb]
      have : ((List.range df.length).map (fun i => q i j)).sum = 0 := by
        apply List.sum_eq_zero
        intro y hy
        obtain ⟨i, _, rfl⟩ := List.mem_map.mp hy
        by_contra hne
        exact hb (h.pair i j hne).2
      rw [this, mul_zero]

/-- The share of a side of which `above` must and `above + at` may be served. -/
theorem share_exists {a t x : ℚ} (h1 : a ≤ x) (h2 : x ≤ a + t) (ht : 0 ≤ t) :
    ∃ θ : ℚ, 0 ≤ θ ∧ θ ≤ 1 ∧ a + θ * t = x := by
  rcases eq_or_lt_of_le ht with h0 | h0
  · exact ⟨0, le_refl _, zero_le_one, by linarith⟩
  · refine ⟨(x - a) / t, div_nonneg (by linarith) ht, ?_, ?_⟩
    · rw [div_le_one h0]; linarith
    · rw [div_mul_cancel₀ _ h0.ne']; ring

/-- Transactions in which bid `i` trades `f i`. -/
def plainTrans (n : ℕ) (f : ℕ → ℚ) : List Transaction :=
  (List.range n).map (fun i => ⟨i, f i, 0, 0, false⟩)

theorem tradedBy_plain (n : ℕ) (f : ℕ → ℚ) (i : ℕ) :
    tradedBy (plainTrans n f) i = if i < n then f i else 0 := by
  unfold tradedBy plainTrans
  induction n with
  | zero => rfl
  | succ n ih =>
    rw [List.range_succ, List.map_append, List.filter_append, List.map_append, List.sum_append, ih]
    rcases lt_trichotomy i n with h | h | h
    · have h1 : i < n + 1 := by omega
      have h2 : n ≠ i := by omega
      simp [h, h1, h2]
    · subst h; simp
    · have h1 : ¬ i < n + 1 := by omega
      have h2 : ¬ i < n := by omega
      have h3 : n ≠ i := by omega
      simp [h1, h2, h3]

/-- What a bid trades when the price is `p` and the bids quoting `p` are served to the shares `θb`
and `θs`. -/
def allot (p θb θs : ℚ) (b : Bid) : ℚ :=
  if b.buying then (if p < b.price then b.quantity else if b.price = p then θb * b.quantity else 0)
  else (if b.price < p then b.quantity else if b.price = p then θs * b.quantity else 0)

theorem sum_split_buy (df : DF) (p θ : ℚ) :
    (df.map (fun r => if r.buying then allot p θ 0 r.toBid else 0)).sum =
      demandQtyAbove df p + θ * (demandQty df p - demandQtyAbove df p) := by
  unfold demandQtyAbove demandQty
  induction df with
  | nil => simp
  | cons r df ih =>
    rw [List.map_cons, List.sum_cons, ih]
    unfold allot
    cases hb : r.buying
    · simp [hb]
    · rcases lt_trichotomy p r.price with h | h | h
      · simp [hb, h, h.le]; ring
      · simp [hb, ← h]; ring
      · simp [hb, h.not_gt, h.not_ge, h.ne]

theorem sum_split_sell (df : DF) (p θ : ℚ) :
    (df.map (fun r => if r.buying then 0 else allot p 0 θ r.toBid)).sum =
      supplyQtyBelow df p + θ * (supplyQty df p - supplyQtyBelow df p) := by
  unfold supplyQtyBelow supplyQty
  induction df with
  | nil => simp
  | cons r df ih =>
    rw [List.map_cons, List.sum_cons, ih]
    unfold allot
    cases hb : r.buying
    · rcases lt_trichotomy r.price p with h | h | h
      · simp [hb, h, h.le]; ring
      · simp [hb, ← h]; ring
      · simp [hb, h.not_gt, h.not_ge, h.ne']
    · simp [hb]

theorem demandQtyAbove_le {df : DF} (hq : ∀ r ∈ df, 0 ≤ r.quantity) (p : ℚ) :
    demandQtyAbove df p ≤ demandQty df p := by
  unfold demandQty demandQtyAbove
  apply List.Sublist.sum_le_sum
  · apply List.Sublist.map
    apply List.monotone_filter_right
    intro r hr
    simp only [Bool.and_eq_true, decide_eq_true_eq] at hr ⊢
    exact ⟨hr.1, hr.2.le⟩
  · intro q hm
    obtain ⟨r, hr, rfl⟩ := List.mem_map.mp hm
    exact hq r (List.mem_filter.mp hr).1

theorem supplyQtyBelow_le {df : DF} (hq : ∀ r ∈ df, 0 ≤ r.quantity) (p : ℚ) :
    supplyQtyBelow df p ≤ supplyQty df p := by
  unfold supplyQty supplyQtyBelow
  apply List.Sublist.sum_le_sum
  · apply List.Sublist.map
    apply List.monotone_filter_right
    intro r hr
    simp only [Bool.and_eq_true, decide_eq_true_eq] at hr ⊢
    exact ⟨hr.1, hr.2.le⟩
  · intro q hm
    obtain ⟨r, hr, rfl⟩ := List.mem_map.mp hm
    exact hq r (List.mem_filter.mp hr).1

/-- At a clearing price the bids can be served so that everybody gains all it could gain at that
price. -/
theorem clears_plan {df : DF} (ht : IsTable df) (hq : ∀ r ∈ df, 0 ≤ r.quantity) {p x : ℚ}
    (hc : Clears df p x) : ∃ q, TradePlan df q ∧ Compatible df q ∧ planVolume df q = x ∧
      planWelfare df (priceOf df) q = (df.map (fun r => claim p r.toBid)).sum := by
  obtain ⟨h1, h2, h3, h4⟩ := hc
  obtain ⟨θb, hb0, hb1, hb⟩ := share_exists (t := demandQty df p - demandQtyAbove df p) h1
    (by linarith) (by have := demandQtyAbove_le hq p; linarith)
  obtain ⟨θs, hs0, hs1, hs⟩ := share_exists (t := supplyQty df p - supplyQtyBelow df p) h3
    (by linarith) (by have := supplyQtyBelow_le hq p; linarith)
  set a : Row → ℚ := fun r => allot p θb θs r.toBid with ha
  have ha0 : ∀ r ∈ df, 0 ≤ a r ∧ a r ≤ r.quantity := by
    intro r hr
    have h0 := hq r hr
    simp only [ha, allot]
    split_ifs
    all_goals first
      | exact ⟨h0, le_refl _⟩
      | exact ⟨le_refl _, h0⟩
      | exact ⟨mul_nonneg hb0 h0, mul_le_of_le_one_left h0 hb1⟩
      | exact ⟨mul_nonneg hs0 h0, mul_le_of_le_one_left h0 hs1⟩
  set f : ℕ → ℚ := fun i => match df[i]? with
    | some r => a r
    | none => 0 with hf
  have hfr : ∀ r ∈ df, f r.label = a r := by
    intro r hr
    simp only [hf, ht.get_label hr]
  set ts := plainTrans df.length f with hts
  have hlt : ∀ t ∈ ts, t.bid < df.length := by
    intro t h
    obtain ⟨i, hi, rfl⟩ := List.mem_map.mp h
    exact List.mem_range.mp hi
  have htr : ∀ r ∈ df, tradedBy ts r.label = a r := by
    intro r hr
    rw [hts, tradedBy_plain, if_pos (ht.label_lt hr), hfr r hr]
  have hmem : ∀ t ∈ ts, ∃ r ∈ df, t.bid = r.label ∧ t.quantity = a r := by
    intro t h
    obtain ⟨i, hi, rfl⟩ := List.mem_map.mp h
    have hi := List.mem_range.mp hi
    have hr : df[i] ∈ df := List.getElem_mem hi
    have hl : df[i].label = i := ht.label (List.getElem?_eq_getElem hi)
    exact ⟨df[i], hr, hl.symm, by simp only; rw [← hfr _ hr, hl]⟩
  have hbought : boughtQty df ts = x := by
    rw [← bought_eq ht hlt, sum_range_label ht, ← hb, ← sum_split_buy]
    congr 1
    apply List.map_congr_left
    intro r hr
    rw [ht.isBuy_eq hr, htr r hr]
    by_cases hbb : r.buying = true
    · simp [ha, allot, hbb]
    · simp [hbb]
  have hsold : soldQty df ts = x := by
    rw [← sold_eq ht hlt, sum_range_label ht, ← hs, ← sum_split_sell]
    congr 1
    apply List.map_congr_left
    intro r hr
    rw [ht.isSell_eq hr, htr r hr]
    by_cases hbb : r.buying = true
    · simp [hbb]
    · simp [ha, allot, hbb]
  have hset : Settled df ts := by
    refine ⟨⟨[ts], by simp, ?_⟩, ?_⟩
    · intro ps hps
      rw [List.mem_singleton] at hps
      subst hps
      refine ⟨hlt, ?_, by rw [hbought, hsold], p, ?_⟩
      · intro t h
        obtain ⟨r, hr, _, he⟩ := hmem t h
        rw [he]; exact (ha0 r hr).1
      · intro t h hne
        obtain ⟨r, hr, hl, he⟩ := hmem t h
        rw [hl, ht.isBuy_eq hr, ht.isSell_eq hr, ht.price_eq hr]
        rw [he] at hne
        simp only [ha, allot] at hne
        constructor
        · intro hbb
          by_contra hlt'
          rw [not_le] at hlt'
          apply hne
          simp [hbb, hlt'.not_gt, hlt'.ne]
        · intro hbb
          have hbb : r.buying = false := by simpa using hbb
          by_contra hlt'
          rw [not_le] at hlt'
          apply hne
          simp [hbb, hlt'.not_gt, hlt'.ne']
    · intro i
      rw [hts, tradedBy_plain]
      split
      · rename_i hi
        have hr : df[i] ∈ df := List.getElem_mem hi
        have hl : df[i].label = i := ht.label (List.getElem?_eq_getElem hi)
        have e1 := hfr _ hr
        have e2 := ht.qty_eq hr
        rw [hl] at e1 e2
        rw [e1, e2]
        exact (ha0 _ hr).2
      · exact qtyOf_nonneg' hq i
  obtain ⟨q, k1, k2, k3, k4⟩ := hset.plan ht hq
  refine ⟨q, k1, k2, by rw [k3, hbought], ?_⟩
  rw [k4]
  have e1 := sum_buyers ht hlt (fun i => priceOf df i - p)
  have e2 := sum_sellers ht hlt (fun i => p - priceOf df i)
  rw [sum_range_label ht] at e1 e2
  have e3 : (df.map (fun r => claim p r.toBid)).sum =
      (df.map (fun r => if isBuy df r.label = true then
        (priceOf df r.label - p) * tradedBy ts r.label else 0)).sum +
      (df.map (fun r => if isSell df r.label = true then
        (p - priceOf df r.label) * tradedBy ts r.label else 0)).sum := by
    rw [← List.sum_map_add]
    congr 1
    apply List.map_congr_left
    intro r hr
    rw [ht.isBuy_eq hr, ht.isSell_eq hr, ht.price_eq hr, htr r hr]
    simp only [claim, ha, allot]
    cases r.buying
    · rcases lt_trichotomy r.price p with h | h | h
      · simp [h, max_eq_right (sub_nonneg.mpr h.le)]; ring
      · simp [h]
      · simp [h.not_gt, h.ne', max_eq_left (sub_nonpos.mpr h.le)]
    · rcases lt_trichotomy p r.price with h | h | h
      · simp [h, max_eq_right (sub_nonneg.mpr h.le)]; ring
      · simp [h]
      · simp [h.not_gt, h.ne, max_eq_left (sub_nonpos.mpr h.le)]
  rw [e3, e1, e2]
  have hB : ((ts.filter (fun t => isBuy df t.bid)).map
      (fun t => (priceOf df t.bid - p) * t.quantity)).sum = boughtValue df (priceOf df) ts - p * x := by
    rw [← hbought, eq_sub_iff_add_eq]
    unfold boughtValue boughtQty
    rw [← List.sum_map_mul_left, ← List.sum_map_add]
    congr 1
    apply List.map_congr_left
    intro t _
    ring
  have hS : ((ts.filter (fun t => isSell df t.bid)).map
      (fun t => (p - priceOf df t.bid) * t.quantity)).sum = p * x - soldValue df (priceOf df) ts := by
    rw [← hsold, eq_sub_iff_add_eq]
    unfold soldValue soldQty
    rw [← List.sum_map_mul_left, ← List.sum_map_add]
    congr 1
    apply List.map_congr_left
    intro t _
    ring
  rw [hB, hS]
  ring

end PyMarket
