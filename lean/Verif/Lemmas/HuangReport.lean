import Verif.Lemmas.HuangOutcome
import Verif.Props.MudaTruthful

/-! # Huang's auction when one bid reports another price -/

set_option autoImplicit false

namespace PyMarket

open Spec

/-- `df'` is `df` with bid `i` reporting the price `p`. -/
structure Repriced (i : ℕ) (p : ℚ) (df df' : DF) : Prop where
  table : IsTable df
  eq : df' = df.map (fun a => if a.label = i then { a with price := p } else a)

theorem repriced_set {df : DF} (ht : IsTable df) {i : ℕ} {r : Row} (hi : df[i]? = some r) (p : ℚ) :
    Repriced i p df (df.set i { r with price := p }) := by
  refine ⟨ht, ?_⟩
  rw [set_eq_map ht]
  apply List.map_congr_left
  intro a ha
  split
  · rename_i he
    have : a = r := ht.inj ha (List.mem_of_getElem? hi) (by rw [he, ht.label hi])
    rw [this]
  · rfl

section Repriced

variable {i : ℕ} {p : ℚ} {df df' : DF} (h : Repriced i p df df')

include h

theorem Repriced.table' : IsTable df' := by
  have e : df'.map (fun r => r.label) = df.map (fun r => r.label) := by
    rw [h.eq, List.map_map]
    apply List.map_congr_left
    intro a _
    simp only [Function.comp_apply]
    split <;> rfl
  have h1 : df.map (fun r => r.label) = List.range df.length := h.table
  change df'.map (fun r => r.label) = List.range df'.length
  rw [e, h1, h.eq, List.length_map]

/-- What a bid of the old book becomes. -/
theorem Repriced.mem {a : Row} (ha : a ∈ df) : ∃ a' ∈ df', a'.label = a.label ∧
    a'.quantity = a.quantity ∧ a'.buying = a.buying ∧ a'.user = a.user ∧
    (a.label = i → a'.price = p) ∧ (a.label ≠ i → a' = a) := by
  rw [h.eq]
  refine ⟨_, List.mem_map_of_mem ha, ?_⟩
  by_cases he : a.label = i
  · simp [he]
  · simp [he]

theorem Repriced.mem' {a' : Row} (ha : a' ∈ df') : ∃ a ∈ df, a'.label = a.label ∧
    a'.quantity = a.quantity ∧ a'.buying = a.buying ∧ a'.user = a.user ∧
    (a.label = i → a'.price = p) ∧ (a.label ≠ i → a' = a) := by
  rw [h.eq] at ha
  obtain ⟨a, hm, rfl⟩ := List.mem_map.mp ha
  refine ⟨a, hm, ?_⟩
  by_cases he : a.label = i
  · simp [he]
  · simp [he]

/-- Undoing the report. -/
theorem Repriced.symm {r : Row} (hr : r ∈ df) (hri : r.label = i) : Repriced i r.price df' df := by
  refine ⟨h.table', ?_⟩
  rw [h.eq, List.map_map]
  conv_lhs => rw [← List.map_id df]
  apply List.map_congr_left
  intro a ha
  simp only [Function.comp_apply, id]
  by_cases he : a.label = i
  · have : a = r := h.table.inj ha hr (by rw [he, hri])
    subst this
    simp only [he, if_true]
    rw [← he]
  · simp [he]

theorem Repriced.nonNeg (hn : NonNeg df) (hp : 0 ≤ p) : NonNeg df' := by
  intro a' ha'
  obtain ⟨a, ha, _, hq, _, _, h1, h2⟩ := h.mem' ha'
  by_cases he : a.label = i
  · rw [hq, h1 he]; exact ⟨(hn a ha).1, hp⟩
  · rw [h2 he]; exact hn a ha

theorem Repriced.sum_filter {P : Row → Bool}
    (hP : ∀ a ∈ df, a.label = i → P { a with price := p } = P a) :
    ((df'.filter P).map (fun r => r.quantity)).sum = ((df.filter P).map (fun r => r.quantity)).sum := by
  rw [h.eq, List.filter_map, List.map_map]
  have e : df.filter (P ∘ fun a => if a.label = i then { a with price := p } else a) =
      df.filter P := by
    apply List.filter_congr
    intro a ha
    simp only [Function.comp_apply]
    split
    · exact hP a ha (by assumption)
    · rfl
  rw [e]
  congr 1
  apply List.map_congr_left
  intro a _
  simp only [Function.comp_apply]
  split <;> rfl

theorem Repriced.sells {r : Row} (hr : r ∈ df) (hri : r.label = i) (hb : r.buying = true) :
    sells df' = sells df := by
  unfold PyMarket.sells
  rw [h.eq]
  apply filter_map_fix
  intro a ha
  split
  · rename_i he
    have : a = r := h.table.inj ha hr (by rw [he, hri])
    subst this
    right; simp [hb]
  · exact Or.inl rfl

theorem Repriced.buys {r : Row} (hr : r ∈ df) (hri : r.label = i) (hb : r.buying = false) :
    buys df' = buys df := by
  unfold PyMarket.buys
  rw [h.eq]
  apply filter_map_fix
  intro a ha
  split
  · rename_i he
    have : a = r := h.table.inj ha hr (by rw [he, hri])
    subst this
    right; simp [hb]
  · exact Or.inl rfl

end Repriced

/-- Sums over lists of bids with labels among those of another list. -/
theorem qsum_le_of_labels {df : DF} (ht : IsTable df) (hq : ∀ r ∈ df, 0 ≤ r.quantity) {l l' : DF}
    (hl : ∀ r ∈ l, r.quantity = qtyOf df r.label) (hl' : ∀ r ∈ l', r ∈ df)
    (hn : (l.map (fun r => r.label)).Nodup)
    (hs : ∀ r ∈ l, ∃ r' ∈ l', r'.label = r.label) (f : ℚ → ℚ) (hf : ∀ q, 0 ≤ q → 0 ≤ f q) :
    (l.map (fun r => f r.quantity)).sum ≤ (l'.map (fun r => f r.quantity)).sum := by
  have e : l.map (fun r => f r.quantity) =
      (l.map (fun r => r.label)).map (fun k => f (qtyOf df k)) := by
    rw [List.map_map]
    apply List.map_congr_left
    intro r hr
    simp only [Function.comp_apply, hl r hr]
  have e' : l'.map (fun r => f r.quantity) =
      (l'.map (fun r => r.label)).map (fun k => f (qtyOf df k)) := by
    rw [List.map_map]
    apply List.map_congr_left
    intro r hr
    simp only [Function.comp_apply, ht.qty_eq (hl' r hr)]
  rw [e, e']
  have hsub : (l.map (fun r => r.label)).Subperm (l'.map (fun r => r.label)) := by
    apply List.subperm_of_subset hn
    intro k hk
    obtain ⟨r, hr, rfl⟩ := List.mem_map.mp hk
    obtain ⟨r', hr', he⟩ := hs r hr
    exact List.mem_map.mpr ⟨r', hr', he⟩
  obtain ⟨m, hm1, hm2⟩ := hsub
  rw [← ((hm1.map (fun k => f (qtyOf df k)))).sum_eq]
  apply List.Sublist.sum_le_sum (hm2.map _)
  intro y hy
  obtain ⟨k, hk, rfl⟩ := List.mem_map.mp hy
  obtain ⟨r, hr, rfl⟩ := List.mem_map.mp hk
  apply hf
  rw [ht.qty_eq (hl' r hr)]
  exact hq r (hl' r hr)

theorem qsum_huangB_lt {S : Sorter} {df : DF} (hn : NonNeg df) {x : ℚ} (hne : huangB S df x ≠ []) :
    qsum (huangB S df x) < x := by
  have := stepIdx_take_lt x 0 (sortDesc S (buys df))
    (fun r hr => (hn r (mem_buys.mp (mem_sortDesc.mp hr)).1).1) ?_
  · rw [zero_add] at this; exact this
  · by_contra h0
    have h0' : demandIdx S df x = 0 := by unfold demandIdx; omega
    apply hne
    unfold huangB
    rw [h0']; rfl

theorem qsum_huangA_lt {S : Sorter} {df : DF} (hn : NonNeg df) {x : ℚ} (hne : huangA S df x ≠ []) :
    qsum (huangA S df x) < x := by
  have := stepIdx_take_lt x 0 (sortAsc S (sells df))
    (fun r hr => (hn r (mem_sells.mp (mem_sortAsc.mp hr)).1).1) ?_
  · rw [zero_add] at this; exact this
  · by_contra h0
    have h0' : supplyIdx S df x = 0 := by unfold supplyIdx; omega
    apply hne
    unfold huangA
    rw [h0']; rfl

/-- A point where the curves cross is the one the auction uses. -/
theorem crossing_of {S : Sorter} {df : DF} (h : NonNeg df) {x : ℚ} (h0 : 0 ≤ x)
    (hx : supplyAt S df x < demandAt S df x)
    (ha : ∀ z : Ext, (x : Ext) < z → demandAt S df z < supplyAt S df z) : Crossing S df x := by
  rcases intersect_cases S h (1 / 2) with ⟨y, hc, _⟩ | ⟨_, hn⟩
  · rcases lt_trichotomy x y with hlt | rfl | hlt
    · exact absurd hc.at_x (not_lt.mpr (ha y (WithTop.coe_lt_coe.mpr hlt)).le)
    · exact hc
    · exact absurd hx (not_lt.mpr (hc.above x (WithTop.coe_lt_coe.mpr hlt)).le)
  · exfalso
    apply hn
    refine ⟨⟨x, WithTop.coe_le_coe.mpr h0, hx⟩, ?_⟩
    intro z _
    rcases lt_or_ge (x : Ext) z with hz | hz
    · exact (ha z hz).ne
    · have h1 := demandAt_antitone S (fun r hr => (h r hr).2) hz
      have h2 := supplyAt_monotone S df hz
      exact (lt_of_le_of_lt h2 (lt_of_lt_of_le hx h1)).ne'

/-- A buyer in front of the marginal one that reports any price not below the marginal price leaves the
crossing, and both marginal prices, where they are. -/
theorem crossing_reprice_buy {S : Sorter} {df df' : DF} {i : ℕ} {p : ℚ} (h : Repriced i p df df')
    (hn : NonNeg df) {x pb : ℚ} (hc : Crossing S df x) (hpb : demandAt S df x = (pb : Ext))
    {r : Row} (hr : r ∈ huangB S df x) (hri : r.label = i) (hp : pb ≤ p) :
    Crossing S df' x ∧ demandAt S df' x = (pb : Ext) ∧ ∀ z, supplyAt S df' z = supplyAt S df z := by
  obtain ⟨hrm, hrb, hrp⟩ := (huangB_spec hn hc hpb).1 r hr
  have hpos : 0 < pb := by
    have h1 := supplyAt_nonneg S (fun r hr => (hn r hr).2) (x : Ext)
    have := lt_of_le_of_lt h1 hc.at_x
    rw [hpb] at this
    exact WithTop.coe_lt_coe.mp this
  have hn' : NonNeg df' := h.nonNeg hn (le_trans hpos.le hp)
  have hne : huangB S df x ≠ [] := List.ne_nil_of_mem hr
  have hlt := qsum_huangB_lt hn hne
  have hx0 : 0 < x := by
    refine lt_of_le_of_lt ?_ hlt
    apply List.sum_nonneg
    intro q hq
    obtain ⟨a, ha, rfl⟩ := List.mem_map.mp hq
    exact (hn a ((huangB_spec hn hc hpb).1 a ha).1).1
  have hs : ∀ z, supplyAt S df' z = supplyAt S df z := by
    intro z
    unfold supplyAt
    rw [h.sells hrm hri hrb]
  have hlow : ∀ t ≤ pb, demandQty df' t = demandQty df t := by
    intro t ht
    unfold demandQty
    apply h.sum_filter
    intro a ha he
    have : a = r := h.table.inj ha hrm (by rw [he, hri])
    subst this
    simp [le_trans ht hp, le_trans ht hrp]
  have hge : (pb : Ext) ≤ demandAt S df' x := by
    rw [demandAt_galois S (fun r hr => (hn' r hr).1) hx0 hpos, hlow pb (le_refl _),
      ← demandAt_galois S (fun r hr => (hn r hr).1) hx0 hpos]
    exact hpb.ge
  have habove : demandQtyAbove df' pb < x := by
    refine lt_of_le_of_lt ?_ hlt
    refine qsum_le_of_labels h.table (fun r hr => (hn r hr).1) ?_ ?_ ?_ ?_ (fun q => q)
      (fun q hq => hq)
    · intro a' ha'
      obtain ⟨a, ha, e1, e2, _⟩ := h.mem' (List.mem_filter.mp ha').1
      rw [e1, e2, h.table.qty_eq ha]
    · intro a ha; exact ((huangB_spec hn hc hpb).1 a ha).1
    · exact h.table'.nodup.sublist (List.filter_sublist.map _)
    · intro a' ha'
      obtain ⟨hm, hc'⟩ := List.mem_filter.mp ha'
      simp only [Bool.and_eq_true, decide_eq_true_eq] at hc'
      obtain ⟨a, ha, e1, e2, e3, _, e4, e5⟩ := h.mem' hm
      by_cases he : a.label = i
      · exact ⟨r, hr, by rw [hri, e1, he]⟩
      · rw [e5 he] at hc' ⊢
        exact ⟨a, (huangB_spec hn hc hpb).2 a ha hc'.1 hc'.2, rfl⟩
  have hle : demandAt S df' x ≤ (pb : Ext) := by
    rw [← not_lt, demandAt_galois_lt S (fun r hr => (hn' r hr).1) hx0 hpos.le]
    exact not_le.mpr habove
  have hd : demandAt S df' x = (pb : Ext) := le_antisymm hle hge
  refine ⟨crossing_of hn' hc.nonneg ?_ ?_, hd, hs⟩
  · rw [hs, hd, ← hpb]; exact hc.at_x
  · intro z hz
    rw [hs]
    refine lt_of_le_of_lt ?_ (hc.above z hz)
    rcases eq_or_ne z ⊤ with rfl | hzt
    · rw [demandAt_top, demandAt_top]
    obtain ⟨y, rfl⟩ := WithTop.ne_top_iff_exists.mp hzt
    have hxy := WithTop.coe_lt_coe.mp hz
    obtain ⟨d, hdd⟩ := demand_fin S df' (y : Ext)
    have hd0 := demandAt_nonneg S (fun r hr => (hn' r hr).2) (y : Ext)
    show demandAt S df' (y : Ext) ≤ demandAt S df (y : Ext)
    rw [hdd] at hd0 ⊢
    rcases eq_or_lt_of_le (WithTop.coe_le_coe.mp hd0) with rfl | hd0
    · exact demandAt_nonneg S (fun r hr => (hn r hr).2) _
    have hdpb : d ≤ pb := by
      have := demandAt_antitone S (fun r hr => (hn' r hr).2) hz.le
      change demandAt S df' (y : Ext) ≤ _ at this
      rw [hdd, hd] at this
      exact WithTop.coe_le_coe.mp this
    rw [demandAt_galois S (fun r hr => (hn r hr).1) (hx0.trans hxy) hd0, ← hlow d hdpb,
      ← demandAt_galois S (fun r hr => (hn' r hr).1) (hx0.trans hxy) hd0]
    exact hdd.ge

/-- The same for a seller in front of the marginal one. -/
theorem crossing_reprice_sell {S : Sorter} {df df' : DF} {i : ℕ} {p : ℚ} (h : Repriced i p df df')
    (hn : NonNeg df) (hp0 : 0 ≤ p) {x ps : ℚ} (hc : Crossing S df x)
    (hps : supplyAt S df x = (ps : Ext))
    {r : Row} (hr : r ∈ huangA S df x) (hri : r.label = i) (hp : p ≤ ps) :
    Crossing S df' x ∧ supplyAt S df' x = (ps : Ext) ∧ ∀ z, demandAt S df' z = demandAt S df z := by
  obtain ⟨hrm, hrb, hrp⟩ := (huangA_spec hc hps).1 r hr
  have hn' : NonNeg df' := h.nonNeg hn hp0
  have hne : huangA S df x ≠ [] := List.ne_nil_of_mem hr
  have hlt := qsum_huangA_lt hn hne
  have hx0 : 0 < x := by
    refine lt_of_le_of_lt ?_ hlt
    apply List.sum_nonneg
    intro q hq
    obtain ⟨a, ha, rfl⟩ := List.mem_map.mp hq
    exact (hn a ((huangA_spec hc hps).1 a ha).1).1
  have hs : ∀ z, demandAt S df' z = demandAt S df z := by
    intro z
    unfold demandAt
    rw [h.buys hrm hri hrb]
  have hlow : ∀ t, ps ≤ t → supplyQty df' t = supplyQty df t := by
    intro t ht
    unfold supplyQty
    apply h.sum_filter
    intro a ha he
    have : a = r := h.table.inj ha hrm (by rw [he, hri])
    subst this
    simp [le_trans hp ht, le_trans hrp ht]
  have hle : supplyAt S df' x ≤ (ps : Ext) := by
    rw [supplyAt_galois S (fun r hr => (hn' r hr).1) hx0, hlow ps (le_refl _),
      ← supplyAt_galois S (fun r hr => (hn r hr).1) hx0]
    exact hps.le
  have hbelow : supplyQtyBelow df' ps < x := by
    refine lt_of_le_of_lt ?_ hlt
    refine qsum_le_of_labels h.table (fun r hr => (hn r hr).1) ?_ ?_ ?_ ?_ (fun q => q)
      (fun q hq => hq)
    · intro a' ha'
      obtain ⟨a, ha, e1, e2, _⟩ := h.mem' (List.mem_filter.mp ha').1
      rw [e1, e2, h.table.qty_eq ha]
    · intro a ha; exact ((huangA_spec hc hps).1 a ha).1
    · exact h.table'.nodup.sublist (List.filter_sublist.map _)
    · intro a' ha'
      obtain ⟨hm, hc'⟩ := List.mem_filter.mp ha'
      simp only [Bool.and_eq_true, decide_eq_true_eq, Bool.not_eq_true'] at hc'
      obtain ⟨a, ha, e1, e2, e3, _, e4, e5⟩ := h.mem' hm
      by_cases he : a.label = i
      · exact ⟨r, hr, by rw [hri, e1, he]⟩
      · rw [e5 he] at hc' ⊢
        exact ⟨a, (huangA_spec hc hps).2 a ha hc'.1 hc'.2, rfl⟩
  have hge : (ps : Ext) ≤ supplyAt S df' x := by
    rw [← not_lt, supplyAt_galois_lt S (fun r hr => (hn' r hr).1) hx0]
    exact not_le.mpr hbelow
  have hd : supplyAt S df' x = (ps : Ext) := le_antisymm hle hge
  refine ⟨crossing_of hn' hc.nonneg ?_ ?_, hd, hs⟩
  · rw [hs, hd, ← hps]; exact hc.at_x
  · intro z hz
    rw [hs]
    refine lt_of_lt_of_le (hc.above z hz) ?_
    rcases eq_or_ne z ⊤ with rfl | hzt
    · rw [supplyAt_top, supplyAt_top]
    rcases eq_or_ne (supplyAt S df' z) ⊤ with ht | hne'
    · rw [ht]; exact le_top
    obtain ⟨d, hdd⟩ := WithTop.ne_top_iff_exists.mp hne'
    obtain ⟨y, rfl⟩ := WithTop.ne_top_iff_exists.mp hzt
    have hxy := WithTop.coe_lt_coe.mp hz
    have hdps : ps ≤ d := by
      have := supplyAt_monotone S df' hz.le
      rw [← hdd, hd] at this
      exact WithTop.coe_le_coe.mp this
    show supplyAt S df (y : Ext) ≤ supplyAt S df' (y : Ext)
    rw [← hdd, supplyAt_galois S (fun r hr => (hn r hr).1) (hx0.trans hxy), ← hlow d hdps,
      ← supplyAt_galois S (fun r hr => (hn' r hr).1) (hx0.trans hxy)]
    exact hdd.ge

end PyMarket
