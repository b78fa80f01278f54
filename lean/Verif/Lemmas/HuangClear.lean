import Verif.Lemmas.HuangReport

/-! # The last stage of Huang's auction as a function of the bids in front of the marginal ones -/

set_option autoImplicit false

namespace PyMarket

open Spec

/-- What `huang_auction` does once both marginal bids are known
(`pymarket/mechanisms/huang_auction.py:140-205`); `huang_eval` proves that it is the model's auction. -/
def huangClear (A B : DF) (ps pb : ℚ) : Except PyErr (TransactionManager × Extra) :=
  if B ≠ [] ∧ A ≠ [] then do
    let quantityBuy := B.map (fun r => r.quantity)
    let quantitySell := A.map (fun r => r.quantity)
    let gap := quantitySell.sum - quantityBuy.sum
    let (qs, qb) ←
      if 0 < gap then do
        let qs ← updateQuantity quantitySell gap
        Except.ok (qs, quantityBuy)
      else do
        let qb ← updateQuantity quantityBuy (-gap)
        Except.ok (quantitySell, qb)
    let ts := huangSideTrans A qs ps ++ huangSideTrans B qb pb
    .ok (TransactionManager.init.addAll ts, .huang (ps : Ext) (pb : Ext) qb.sum)
  else
    .ok (TransactionManager.init, .huang (ps : Ext) (pb : Ext)
      (B.map (fun r => r.quantity)).sum)

theorem huang_eval {S : Sorter} {df : DF} (h : NonNeg df) {x ps pb : ℚ} (hc : Crossing S df x)
    (hps : supplyAt S df x = (ps : Ext)) (hpb : demandAt S df x = (pb : Ext)) :
    huangAuction S df = huangClear (huangA S df x) (huangB S df x) ps pb := by
  rcases intersect_cases S h (1 / 2) with ⟨y, hc', he⟩ | ⟨_, hn⟩
  swap
  · exfalso
    apply hn
    exact ⟨⟨x, WithTop.coe_le_coe.mpr hc.nonneg, hc.at_x⟩, fun z _ => hc.no_tie h z⟩
  obtain rfl : y = x := hc'.unique hc
  obtain ⟨rs, hrs1, hrs2⟩ := hc.marginal_sell
  obtain ⟨rb, hrb1, hrb2⟩ := hc.marginal_buy h
  obtain ⟨bg, _, hbg⟩ := stepCurve_get_idx (y : Ext) 0 (sortAsc S (sells df)) ⊤
  obtain ⟨bf, _, hbf⟩ := stepCurve_get_idx (y : Ext) 0 (sortDesc S (buys df)) ((0 : ℚ) : Ext)
  have g1 : (demandCurve S df).1[demandIdx S df y]? = some (bf, (pb : Ext)) := by
    rw [demandCurve_eq, ← hpb]; exact hbf
  have g2 : (supplyCurve S df).1[supplyIdx S df y]? = some (bg, (ps : Ext)) := by
    rw [supplyCurve_eq, ← hps]; exact hbg
  obtain ⟨hbl, _⟩ := List.getElem?_eq_some_iff.mp hrb1
  obtain ⟨hsl, _⟩ := List.getElem?_eq_some_iff.mp hrs1
  have hB : huangB S df y = [] ↔ demandIdx S df y = 0 := take_eq_nil hbl
  have hA : huangA S df y = [] ↔ supplyIdx S df y = 0 := take_eq_nil hsl
  have hcond : (0 < demandIdx S df y ∧ 0 < supplyIdx S df y) ↔
      (huangB S df y ≠ [] ∧ huangA S df y ≠ []) := by
    rw [Ne, Ne, hB, hA]; omega
  unfold huangAuction huangClear
  simp only [he, bind, Except.bind, g1, g2]
  by_cases hp : 0 < demandIdx S df y ∧ 0 < supplyIdx S df y
  · rw [if_pos hp, if_pos (hcond.mp hp)]
    rfl
  · rw [if_neg hp, if_neg (fun h' => hp (hcond.mpr h'))]
    rfl

/-- Reaching the marginal bid covers the quantity. -/
theorem stepIdx_cover (x a : ℚ) (rows : DF) {r : Row} (h : rows[stepIdx (x : Ext) a rows]? = some r) :
    x ≤ a + qsum (rows.take (stepIdx (x : Ext) a rows)) + r.quantity := by
  induction rows generalizing a with
  | nil => simp at h
  | cons r' rows ih =>
    simp only [stepIdx] at h ⊢
    by_cases hc : (x : Ext) ≤ ((a + r'.quantity : ℚ) : Ext)
    · simp only [hc, if_true] at h ⊢
      cases h
      have := WithTop.coe_le_coe.mp hc
      simpa using this
    · simp only [hc, if_false, List.take_succ_cons, qsum_cons] at h ⊢
      have := ih (a + r'.quantity) (by simpa using h)
      linarith

/-- The marginal buying bid: its price, and the quantities in front of it. -/
theorem Crossing.marginal_buy_cover {S : Sorter} {df : DF} (h : NonNeg df) {x pb : ℚ}
    (hc : Crossing S df x) (hpb : demandAt S df x = (pb : Ext)) :
    ∃ m ∈ df, m.buying = true ∧ m.price = pb ∧ x ≤ qsum (huangB S df x) + m.quantity := by
  obtain ⟨m, h1, h2⟩ := hc.marginal_buy h
  have hm := mem_buys.mp (mem_sortDesc.mp (List.mem_of_getElem? h1))
  refine ⟨m, hm.1, hm.2, by rw [h2] at hpb; exact WithTop.coe_injective hpb, ?_⟩
  have := stepIdx_cover x 0 _ h1
  rw [zero_add] at this
  exact this

theorem Crossing.marginal_sell_cover {S : Sorter} {df : DF} {x ps : ℚ}
    (hc : Crossing S df x) (hps : supplyAt S df x = (ps : Ext)) :
    ∃ m ∈ df, m.buying = false ∧ m.price = ps ∧ x ≤ qsum (huangA S df x) + m.quantity := by
  obtain ⟨m, h1, h2⟩ := hc.marginal_sell
  have hm := mem_sells.mp (mem_sortAsc.mp (List.mem_of_getElem? h1))
  refine ⟨m, hm.1, hm.2, by rw [h2] at hps; exact WithTop.coe_injective hps, ?_⟩
  have := stepIdx_cover x 0 _ h1
  rw [zero_add] at this
  exact this

theorem qsum_huangB_le {S : Sorter} {df : DF} (h : NonNeg df) {x : ℚ} (hc : Crossing S df x) :
    qsum (huangB S df x) ≤ x := by
  by_cases hne : huangB S df x = []
  · rw [hne]; exact hc.nonneg
  · exact (qsum_huangB_lt h hne).le

theorem qsum_huangA_le {S : Sorter} {df : DF} (h : NonNeg df) {x : ℚ} (hc : Crossing S df x) :
    qsum (huangA S df x) ≤ x := by
  by_cases hne : huangA S df x = []
  · rw [hne]; exact hc.nonneg
  · exact (qsum_huangA_lt h hne).le

/-- If no other bid quotes the marginal price, the bids in front of it are better. -/
theorem huangB_strict' {S : Sorter} {df : DF} (ht : IsTable df) (h : NonNeg df) {x pb : ℚ}
    (hc : Crossing S df x) (hpb : demandAt S df x = (pb : Ext))
    (hu : ∀ a ∈ df, ∀ b ∈ df, a.buying = true → b.buying = true → a.price = pb → b.price = pb →
      a = b) : ∀ r ∈ huangB S df x, pb < r.price := by
  obtain ⟨m, hm1, hm2⟩ := hc.marginal_buy h
  have hmp : m.price = pb := by rw [hm2] at hpb; exact WithTop.coe_injective hpb
  intro r hr
  obtain ⟨r1, r2, r3⟩ := (huangB_spec h hc hpb).1 r hr
  refine lt_of_le_of_ne r3 ?_
  intro he
  have hmm := mem_buys.mp (mem_sortDesc.mp (List.mem_of_getElem? hm1))
  have : r = m := hu r r1 m hmm.1 r2 hmm.2 he.symm hmp
  subst this
  have hn' : ((sortDesc S (buys df)).map (fun r => r.label)).Nodup :=
    (((sortDesc_perm S _).map _).nodup_iff.mpr (ht.nodup.sublist ((buys_sublist df).map _)))
  obtain ⟨hl, he'⟩ := List.getElem?_eq_some_iff.mp hm1
  rw [← List.take_append_drop (demandIdx S df x) (sortDesc S (buys df)), List.map_append,
    List.nodup_append] at hn'
  refine hn'.2.2 _ (List.mem_map_of_mem hr) _ (List.mem_map_of_mem ?_) rfl
  rw [List.drop_eq_getElem_cons hl, he']; exact List.mem_cons_self

theorem huangA_strict' {S : Sorter} {df : DF} (ht : IsTable df) {x ps : ℚ}
    (hc : Crossing S df x) (hps : supplyAt S df x = (ps : Ext))
    (hu : ∀ a ∈ df, ∀ b ∈ df, a.buying = false → b.buying = false → a.price = ps → b.price = ps →
      a = b) : ∀ r ∈ huangA S df x, r.price < ps := by
  obtain ⟨m, hm1, hm2⟩ := hc.marginal_sell
  have hmp : m.price = ps := by rw [hm2] at hps; exact WithTop.coe_injective hps
  intro r hr
  obtain ⟨r1, r2, r3⟩ := (huangA_spec hc hps).1 r hr
  refine lt_of_le_of_ne r3 ?_
  intro he
  have hmm := mem_sells.mp (mem_sortAsc.mp (List.mem_of_getElem? hm1))
  have : r = m := hu r r1 m hmm.1 r2 hmm.2 he hmp
  subst this
  have hn' : ((sortAsc S (sells df)).map (fun r => r.label)).Nodup :=
    (((sortAsc_perm S _).map _).nodup_iff.mpr (ht.nodup.sublist ((sells_sublist df).map _)))
  obtain ⟨hl, he'⟩ := List.getElem?_eq_some_iff.mp hm1
  rw [← List.take_append_drop (supplyIdx S df x) (sortAsc S (sells df)), List.map_append,
    List.nodup_append] at hn'
  refine hn'.2.2 _ (List.mem_map_of_mem hr) _ (List.mem_map_of_mem ?_) rfl
  rw [List.drop_eq_getElem_cons hl, he']; exact List.mem_cons_self

end PyMarket
