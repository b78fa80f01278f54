import Verif.Lemmas.FloatMuda
import Mathlib.Algebra.Order.Group.MinMax

/-! # A whole MUDA run in floating point arithmetic -/

set_option autoImplicit false

namespace PyMarket

open Spec

section half

variable {F : Fmt} {s o : Summer F} {S : Sorter} {H df : DF} {p : ℚ} {ts : List Transaction}

theorem HalfTradeF.mem (h : HalfTradeF F s S H p ts) : ∀ t ∈ ts, ∃ r ∈ H, t.bid = r.label ∧
    t.quantity ≤ r.quantity ∧ t.price = p ∧ t.source = -1 ∧ t.active = false ∧
    (r.buying = true → p ≤ r.price) ∧ (r.buying = false → r.price ≤ p) := by
  obtain ⟨tb, tl, hor, hb, hs⟩ := h.sides
  intro t ht
  have : t ∈ tb ∨ t ∈ tl := by
    rcases hor with rfl | rfl
    · exact List.mem_append.mp ht
    · exact (List.mem_append.mp ht).symm
  rcases this with h' | h'
  · obtain ⟨r, hr, h1, h3, h4, h5, h6⟩ := hb.mem t h'
    obtain ⟨hr, hr1, hr2⟩ := mem_willingDemand.mp hr
    refine ⟨r, hr, h1, h3, h4, h5, h6, fun _ => of_decide_eq_true hr2, ?_⟩
    intro hf; rw [hr1] at hf; cases hf
  · obtain ⟨r, hr, h1, h3, h4, h5, h6⟩ := hs.mem t h'
    obtain ⟨hr, hr1, hr2⟩ := mem_willingSupply.mp hr
    refine ⟨r, hr, h1, h3, h4, h5, h6, ?_, fun _ => of_decide_eq_true hr2⟩
    intro hf; rw [hr1] at hf; cases hf

theorem HalfTradeF.nodup (hn : (H.map (fun r => r.label)).Nodup) (h : HalfTradeF F s S H p ts) :
    (ts.map (fun t => t.bid)).Nodup := by
  obtain ⟨tb, tl, hor, hb, hs⟩ := h.sides
  have hd : ∀ t ∈ tb, ∀ t' ∈ tl, t.bid ≠ t'.bid := by
    intro t ht t' ht'
    obtain ⟨r, hr, h1, _⟩ := hb.mem t ht
    obtain ⟨r', hr', h1', _⟩ := hs.mem t' ht'
    rw [h1, h1']
    exact disjoint_sides hn hr hr'
  have key : ((tb ++ tl).map (fun t => t.bid)).Nodup := by
    rw [List.map_append, List.nodup_append]
    refine ⟨hb.nodup, hs.nodup, ?_⟩
    intro a ha b hb'
    obtain ⟨t, ht, rfl⟩ := List.mem_map.mp ha
    obtain ⟨t', ht', rfl⟩ := List.mem_map.mp hb'
    exact hd t ht t' ht'
  rcases hor with rfl | rfl
  · exact key
  · exact ((List.perm_append_comm (l₁ := tb) (l₂ := tl)).map _).nodup_iff.mp key

/-- The computed volume of a half is the exact one up to rounding. -/
theorem halfQtyF_err (s : Summer F) (S : Sorter) (hq : ∀ r ∈ H, 0 ≤ r.quantity) (p : ℚ) {n : ℕ}
    (hd : (willingDemand S H (.fin p)).length ≤ n) (hs : (willingSupply S H (.fin p)).length ≤ n) :
    |halfQtyF F s S H p - volumeAt H p| ≤ ((1 + F.eps) ^ n - 1) *
      (totalQty (willingDemand S H (.fin p)) + totalQty (willingSupply S H (.fin p))) := by
  have e0 := F.eps_nonneg
  have nd : ∀ x ∈ (willingDemand S H (.fin p)).map (fun r => r.quantity), 0 ≤ x := by
    intro x hx
    obtain ⟨r, hr, rfl⟩ := List.mem_map.mp hx
    exact hq r (mem_willingDemand.mp hr).1
  have ns : ∀ x ∈ (willingSupply S H (.fin p)).map (fun r => r.quantity), 0 ≤ x := by
    intro x hx
    obtain ⟨r, hr, rfl⟩ := List.mem_map.mp hx
    exact hq r (mem_willingSupply.mp hr).1
  have h1 := (s.isSum _).err nd
  have h2 := (s.isSum _).err ns
  have t1 : 0 ≤ totalQty (willingDemand S H (.fin p)) := List.sum_nonneg nd
  have t2 : 0 ≤ totalQty (willingSupply S H (.fin p)) := List.sum_nonneg ns
  rw [List.length_map] at h1 h2
  have p1 : (1 + F.eps) ^ ((willingDemand S H (.fin p)).length - 1) ≤ (1 + F.eps) ^ n :=
    pow_le_pow_right₀ (by linarith) (by omega)
  have p2 : (1 + F.eps) ^ ((willingSupply S H (.fin p)).length - 1) ≤ (1 + F.eps) ^ n :=
    pow_le_pow_right₀ (by linarith) (by omega)
  have hP : 1 ≤ (1 + F.eps) ^ n := one_le_pow₀ (by linarith)
  rw [← halfQty_eq S]
  unfold halfQtyF halfQty
  refine (abs_min_sub_min_le_max _ _ _ _).trans (max_le ?_ ?_)
  · refine h1.trans ?_
    change _ * totalQty (willingDemand S H (.fin p)) ≤ _
    exact mul_le_mul (by linarith) (by linarith) t1 (by linarith)
  · refine h2.trans ?_
    change _ * totalQty (willingSupply S H (.fin p)) ≤ _
    exact mul_le_mul (by linarith) (by linarith) t2 (by linarith)

theorem willing_total_le (S : Sorter) (hq : ∀ r ∈ H, 0 ≤ r.quantity) (v : Val) :
    totalQty (willingDemand S H v) + totalQty (willingSupply S H v) ≤ totalQty H := by
  have h1 : totalQty (willingDemand S H v) ≤ totalQty (buys H) := by
    unfold willingDemand
    rw [totalQty_perm (sortDesc_perm S _)]
    apply List.Sublist.sum_le_sum (List.filter_sublist.map _)
    intro x hx
    obtain ⟨r, hr, rfl⟩ := List.mem_map.mp hx
    exact hq r (mem_buys.mp hr).1
  have h2 : totalQty (willingSupply S H v) ≤ totalQty (sells H) := by
    unfold willingSupply
    rw [totalQty_perm (sortAsc_perm S _)]
    apply List.Sublist.sum_le_sum (List.filter_sublist.map _)
    intro x hx
    obtain ⟨r, hr, rfl⟩ := List.mem_map.mp hx
    exact hq r (mem_sells.mp hr).1
  have h3 := totalQty_sides S H
  rw [totalQty_perm (sortDesc_perm S _), totalQty_perm (sortAsc_perm S _)] at h3
  linarith

/-- Bought and sold quantities of a half when the sums are computed from left to right. -/
theorem HalfTradeF.sums (ht : IsTable df) (hsub : ∀ r ∈ H, r ∈ df) (hq : ∀ r ∈ df, 0 ≤ r.quantity)
    (hr : ∀ r ∈ df, F.Rep r.quantity) {n : ℕ} (hs : LeftToRight s n)
    (hb : (df.filter (fun r => r.buying)).length ≤ n)
    (hsl : (df.filter (fun r => !r.buying)).length ≤ n)
    (hHs : H.Sublist df) (h : HalfTradeF F s S H p ts) :
    (∀ t ∈ ts, 0 ≤ t.quantity) ∧
    |boughtQty df ts - soldQty df ts| ≤ slack F n * totalQty H ∧
    |boughtQty df ts - volumeAt H p| ≤ 2 * (slack F n * totalQty H) := by
  have e0 := F.eps_nonneg
  obtain ⟨tb, tl, hor, hbo, hso⟩ := h.sides
  have hqH : ∀ r ∈ H, 0 ≤ r.quantity := fun r hr => hq r (hsub r hr)
  have ld : (willingDemand S H (.fin p)).length ≤ n := by
    refine le_trans ?_ hb
    unfold willingDemand
    rw [(sortDesc_perm S _).length_eq]
    exact (List.length_filter_le _ _).trans ((hHs.filter _).length_le)
  have ls : (willingSupply S H (.fin p)).length ≤ n := by
    refine le_trans ?_ hsl
    unfold willingSupply
    rw [(sortAsc_perm S _).length_eq]
    exact (List.length_filter_le _ _).trans ((hHs.filter _).length_le)
  obtain ⟨b0, b1⟩ := hbo.fill n ld hs (fun r hr' => hr r (hsub r (mem_willingDemand.mp hr').1))
  obtain ⟨s0, s1⟩ := hso.fill n ls hs (fun r hr' => hr r (hsub r (mem_willingSupply.mp hr').1))
  have hbm : ∀ t ∈ tb, isBuy df t.bid = true ∧ isSell df t.bid = false := by
    intro t htt
    obtain ⟨r, hr, h1, _⟩ := hbo.mem t htt
    obtain ⟨hr, hr1, _⟩ := mem_willingDemand.mp hr
    rw [h1, ht.isBuy_eq (hsub r hr), ht.isSell_eq (hsub r hr), hr1]
    exact ⟨rfl, rfl⟩
  have hsm : ∀ t ∈ tl, isBuy df t.bid = false ∧ isSell df t.bid = true := by
    intro t htt
    obtain ⟨r, hr, h1, _⟩ := hso.mem t htt
    obtain ⟨hr, hr1, _⟩ := mem_willingSupply.mp hr
    rw [h1, ht.isBuy_eq (hsub r hr), ht.isSell_eq (hsub r hr), hr1]
    exact ⟨rfl, rfl⟩
  have f1 : tb.filter (fun t => isBuy df t.bid) = tb :=
    List.filter_eq_self.mpr (fun t h => (hbm t h).1)
  have f2 : tb.filter (fun t => isSell df t.bid) = [] :=
    List.filter_eq_nil_iff.mpr (fun t h => by rw [(hbm t h).2]; simp)
  have f3 : tl.filter (fun t => isSell df t.bid) = tl :=
    List.filter_eq_self.mpr (fun t h => (hsm t h).2)
  have f4 : tl.filter (fun t => isBuy df t.bid) = [] :=
    List.filter_eq_nil_iff.mpr (fun t h => by rw [(hsm t h).1]; simp)
  have e : boughtQty df ts = (tb.map (fun t => t.quantity)).sum ∧
      soldQty df ts = (tl.map (fun t => t.quantity)).sum := by
    have e1 : boughtQty df ts = boughtQty df tb + boughtQty df tl ∧
        soldQty df ts = soldQty df tb + soldQty df tl := by
      rcases hor with rfl | rfl
      · exact ⟨boughtQty_append .., soldQty_append ..⟩
      · refine ⟨?_, ?_⟩
        · rw [boughtQty_append, add_comm]
        · rw [soldQty_append, add_comm]
    rw [e1.1, e1.2]
    unfold boughtQty soldQty
    rw [f1, f2, f3, f4]
    simp
  have hv := halfQtyF_err s S hqH p ld ls
  have hw := willing_total_le S hqH (.fin p)
  set D := totalQty (willingDemand S H (.fin p)) with hD
  set U := totalQty (willingSupply S H (.fin p)) with hU
  have hD0 : 0 ≤ D := totalQty_nonneg (fun r hr => hqH r (mem_willingDemand.mp hr).1)
  have hU0 : 0 ≤ U := totalQty_nonneg (fun r hr => hqH r (mem_willingSupply.mp hr).1)
  have hP : 1 ≤ (1 + F.eps) ^ n := one_le_pow₀ (by linarith)
  have hsl0 : (1 + F.eps) ^ n - 1 ≤ slack F n := by
    unfold slack
    have : 0 ≤ ((n : ℚ) + 1) * (F.eps * (1 + F.eps) ^ n) := by positivity
    linarith
  have hslack : 0 ≤ slack F n := by linarith
  have h1 : slack F n * (D + U) ≤ slack F n * totalQty H := mul_le_mul_of_nonneg_left hw hslack
  have h2 : ((1 + F.eps) ^ n - 1) * (D + U) ≤ slack F n * totalQty H :=
    (mul_le_mul_of_nonneg_right hsl0 (by linarith)).trans h1
  have h3 : slack F n * D ≤ slack F n * totalQty H := mul_le_mul_of_nonneg_left (by linarith) hslack
  rw [e.1, e.2]
  refine ⟨?_, ?_, ?_⟩
  · intro t ht
    have : t ∈ tb ∨ t ∈ tl := by
      rcases hor with rfl | rfl
      · exact List.mem_append.mp ht
      · exact (List.mem_append.mp ht).symm
    rcases this with h' | h'
    · exact b0 t h'
    · exact s0 t h'
  · rw [abs_le] at b1 s1 ⊢
    constructor <;> nlinarith [b1.1, b1.2, s1.1, s1.2]
  · rw [abs_le] at b1 hv ⊢
    constructor <;> linarith [b1.1, b1.2, hv.1, hv.2]

end half

/-! ## Both halves -/

/-- The steps of a run that is not rejected. -/
structure MudaRunF (F : Fmt) (s o : Summer F) (S : Sorter) (coin : ℕ → Bool) (df : DF)
    (tm : TransactionManager) (left right : List ℕ) (pl pr : Val) (fees : List ℚ) : Prop where
  left_eq : left = (List.range df.length).filter coin
  right_eq : right = (List.range df.length).filter (fun i => !coin i)
  priceLeft : findCompetitivePriceF F S (half df left) = .ok pl
  priceRight : findCompetitivePriceF F S (half df right) = .ok pr
  sides : ∃ tl tr fees', solveSideF F s o S (half df left) pr
      (List.replicate (df.map (fun r => r.user)).dedup.length (0 : ℚ)) = .ok (tl, fees') ∧
    solveSideF F s o S (half df right) pl fees' = .ok (tr, fees) ∧ tm.trans = tl.trans ++ tr.trans

theorem mudaBodyF_halves {F : Fmt} {s o : Summer F} {S : Sorter} {coin : ℕ → Bool} {df : DF}
    (ht : IsTable df) :
    mudaBodyF F s o S coin df = (do
      let left := (List.range df.length).filter coin
      let right := (List.range df.length).filter (fun i => !coin i)
      let pl ← findCompetitivePriceF F S (half df left)
      let pr ← findCompetitivePriceF F S (half df right)
      let fees := List.replicate (df.map (fun r => r.user)).dedup.length (0 : ℚ)
      let (transLeft, fees) ← solveSideF F s o S (half df left) pr fees
      let (transRight, fees) ← solveSideF F s o S (half df right) pl fees
      .ok (transLeft.merge transRight, .muda left right pl pr fees)) := by
  have hlab : df.map (fun r => r.label) = List.range df.length := ht
  have hr : (List.range df.length).filter (fun i => decide (i ∉ (List.range df.length).filter coin)) =
      (List.range df.length).filter (fun i => !coin i) := by
    apply List.filter_congr
    intro i hi
    by_cases hc : coin i = true
    · simp [hc]; exact List.mem_range.mp hi
    · simp [hc]
  unfold mudaBodyF
  simp only [hlab, coinLeft_range, hr, filterMap_find_labels ht, half_filter ht]

theorem mudaF_run {F : Fmt} {s o : Summer F} {S : Sorter} {coin : ℕ → Bool} {df : DF}
    (ht : IsTable df) {tm : TransactionManager} {ex : Extra}
    (h : mudaF F s o S coin df = .ok (tm, ex)) :
    ∃ left right pl pr fees, ex = .muda left right pl pr fees ∧
      MudaRunF F s o S coin df tm left right pl pr fees := by
  unfold mudaF at h
  split at h
  · cases h
  rw [mudaBodyF_halves ht] at h
  simp only [bind, Except.bind] at h
  cases hpl : findCompetitivePriceF F S (half df ((List.range df.length).filter coin)) with
  | error e => rw [hpl] at h; cases h
  | ok pl =>
    cases hpr : findCompetitivePriceF F S (half df ((List.range df.length).filter (fun i => !coin i))) with
    | error e => rw [hpl, hpr] at h; cases h
    | ok pr =>
      rw [hpl, hpr] at h
      simp only at h
      cases hl : solveSideF F s o S (half df ((List.range df.length).filter coin)) pr
          (List.replicate (df.map (fun r => r.user)).dedup.length (0 : ℚ)) with
      | error e => rw [hl] at h; cases h
      | ok x =>
        obtain ⟨tl, f1⟩ := x
        rw [hl] at h
        simp only at h
        cases hr : solveSideF F s o S (half df ((List.range df.length).filter (fun i => !coin i))) pl f1 with
        | error e => rw [hr] at h; cases h
        | ok x =>
          obtain ⟨tr, f2⟩ := x
          rw [hr] at h
          cases h
          exact ⟨_, _, _, _, _, rfl, rfl, rfl, hpl, hpr, tl, tr, f1, hl, hr,
            TransactionManager.merge_trans _ _⟩

theorem mudaF_ok {F : Fmt} {s o : Summer F} {S : Sorter} {coin : ℕ → Bool} {df : DF}
    (ht : IsTable df) (hc : checkEqualPriceRaises df = false) {pl pr : Val}
    {tl tr : TransactionManager} {f1 f2 : List ℚ}
    (hpl : findCompetitivePriceF F S (half df ((List.range df.length).filter coin)) = .ok pl)
    (hpr : findCompetitivePriceF F S (half df ((List.range df.length).filter (fun i => !coin i))) = .ok pr)
    (hl : solveSideF F s o S (half df ((List.range df.length).filter coin)) pr
      (List.replicate (df.map (fun r => r.user)).dedup.length (0 : ℚ)) = .ok (tl, f1))
    (hr : solveSideF F s o S (half df ((List.range df.length).filter (fun i => !coin i))) pl f1 =
      .ok (tr, f2)) :
    mudaF F s o S coin df = .ok (tl.merge tr, .muda ((List.range df.length).filter coin)
      ((List.range df.length).filter (fun i => !coin i)) pl pr f2) := by
  unfold mudaF
  rw [hc, if_neg (by simp), mudaBodyF_halves ht]
  simp only [bind, Except.bind, hpl, hpr, hl, hr]

/-- The trades of one half of a run. -/
def HalfOutcomeF (F : Fmt) (s : Summer F) (S : Sorter) (H : DF) (v : Val) (ts : List Transaction) :
    Prop :=
  (ts = [] ∧ ∀ p, v = .fin p → halfQtyF F s S H p = 0) ∨ ∃ p, v = .fin p ∧ HalfTradeF F s S H p ts

theorem solveSideF_out {F : Fmt} {s o : Summer F} {S : Sorter} {H : DF}
    (hn : (H.map (fun r => r.label)).Nodup) (hq : ∀ r ∈ H, 0 ≤ r.quantity) {v : Val}
    {fees fees' : List ℚ} {tm : TransactionManager}
    (h : solveSideF F s o S H v fees = .ok (tm, fees')) (h0 : ∀ x ∈ fees, 0 ≤ x) :
    HalfOutcomeF F s S H v tm.trans ∧ fees'.length = fees.length ∧ ∀ x ∈ fees', 0 ≤ x := by
  rcases solveSideF_cases F s o S hn hq v with ⟨he, hz⟩ | ⟨p, rows, k, us, tm', hv, ht, _, he⟩
  · rw [he] at h
    cases h
    exact ⟨Or.inl ⟨rfl, hz⟩, rfl, h0⟩
  · rw [he] at h
    cases hf : feeLoopF F o rows k (halfQtyF F s S H p) p us fees with
    | error e => rw [hf] at h; cases h
    | ok f =>
      rw [hf] at h
      cases h
      obtain ⟨h1, h2⟩ := feeLoopF_spec hf h0
      exact ⟨Or.inr ⟨p, hv, ht⟩, h1, h2⟩

theorem HalfOutcomeF.bids {F : Fmt} {s : Summer F} {S : Sorter} {df : DF} {ids : List ℕ} {v : Val}
    {ts : List Transaction} (h : HalfOutcomeF F s S (half df ids) v ts) : ∀ t ∈ ts, t.bid ∈ ids := by
  intro t ht
  rcases h with ⟨rfl, _⟩ | ⟨p, _, h⟩
  · cases ht
  · obtain ⟨r, hr, h1, _⟩ := h.mem t ht
    rw [h1]
    exact of_decide_eq_true (List.mem_filter.mp hr).2

theorem MudaRunF.halves {F : Fmt} {s o : Summer F} {S : Sorter} {coin : ℕ → Bool} {df : DF}
    (ht : IsTable df) (hq : ∀ r ∈ df, 0 ≤ r.quantity) {tm : TransactionManager}
    {left right : List ℕ} {pl pr : Val} {fees : List ℚ}
    (h : MudaRunF F s o S coin df tm left right pl pr fees) :
    tm.trans = tradesIn left tm.trans ++ tradesIn right tm.trans ∧
    HalfOutcomeF F s S (half df left) pr (tradesIn left tm.trans) ∧
    HalfOutcomeF F s S (half df right) pl (tradesIn right tm.trans) ∧
    (∀ i ∈ left, i ∉ right) ∧
    fees.length = (df.map (fun r => r.user)).dedup.length ∧ ∀ x ∈ fees, 0 ≤ x := by
  obtain ⟨tl, tr, f', hl, hr, he⟩ := h.sides
  obtain ⟨ol, n1, z1⟩ := solveSideF_out (half_nodup ht left) (fun r hr => hq r (half_sub r hr)) hl
    (fun x hx => (List.eq_of_mem_replicate hx).ge)
  obtain ⟨or, n2, z2⟩ := solveSideF_out (half_nodup ht right) (fun r hr => hq r (half_sub r hr)) hr z1
  have bl := ol.bids
  have br := or.bids
  have hd : ∀ i ∈ left, i ∉ right := by
    intro i hi hi'
    rw [h.left_eq] at hi
    rw [h.right_eq] at hi'
    have h1 := (List.mem_filter.mp hi).2
    have h2 := (List.mem_filter.mp hi').2
    simp [h1] at h2
  have e1 : tradesIn left tm.trans = tl.trans := by
    unfold tradesIn
    rw [he, List.filter_append, List.filter_eq_self.mpr (fun t ht => decide_eq_true (bl t ht)),
      List.filter_eq_nil_iff.mpr, List.append_nil]
    intro t ht
    simp only [decide_eq_true_eq]
    exact fun hc => hd _ hc (br t ht)
  have e2 : tradesIn right tm.trans = tr.trans := by
    unfold tradesIn
    rw [he, List.filter_append, List.filter_eq_self.mpr (fun t ht => decide_eq_true (br t ht)),
      List.filter_eq_nil_iff.mpr, List.nil_append]
    intro t ht
    simp only [decide_eq_true_eq]
    exact fun hc => hd _ (bl t ht) hc
  rw [e1, e2]
  exact ⟨he, ol, or, hd, by rw [n2, n1, List.length_replicate], z2⟩

theorem solveSideF_total (F : Fmt) (s o : Summer F) (S : Sorter) {H : DF}
    (hn : (H.map (fun r => r.label)).Nodup) (hq : ∀ r ∈ H, 0 ≤ r.quantity) (v : Val)
    {fees : List ℚ} (hu : ∀ r ∈ H, 0 ≤ r.user ∧ r.user < fees.length) :
    ∃ tm fees', solveSideF F s o S H v fees = .ok (tm, fees') := by
  rcases solveSideF_cases F s o S hn hq v with ⟨he, _⟩ | ⟨p, rows, k, us, tm', _, _, hus, he⟩
  · exact ⟨_, _, he fees⟩
  · obtain ⟨f, hf⟩ := feeLoopF_total F o rows k (halfQtyF F s S H p) p (us := us) (fees := fees) (by
      intro u huu
      obtain ⟨r, hr, rfl⟩ := hus u huu
      exact hu r hr)
    exact ⟨tm', f, by rw [he, hf]; rfl⟩

end PyMarket
