import Verif.Lemmas.MudaMarketOrders
import Verif.Lemmas.MudaRun
import Verif.Props.MarketOrders

/-! # C132: MUDA with bids at any price

Prices may be `np.inf`, as in C131. The price of a half, the transactions and the fees may then be infinite. -/

set_option autoImplicit false

namespace PyMarket

open Spec

section

variable {S : Sorter} {SE : ExtSorter} {prc : ℕ → Ext} {df : DF} {P P' : ℚ}

theorem isTable_price (ht : IsTable df) : IsTable (atPrice prc P df) := by
  unfold IsTable at *
  rw [labels_price, ht, atPrice_eq, List.length_map]

theorem mudaBodyM_halves (ht : IsTable df) (coin : ℕ → Bool) :
    mudaBodyM SE prc coin df = (do
      let pl ← findCompetitivePriceM SE (leftRows coin df) prc
      let pr ← findCompetitivePriceM SE (rightRows coin df) prc
      let fees := List.replicate (df.map (fun r => r.user)).dedup.length (Val.fin 0)
      let (transLeft, fees) ← solveSideM SE prc (leftRows coin df) pr fees
      let (transRight, fees) ← solveSideM SE prc (rightRows coin df) pl fees
      .ok ⟨transLeft ++ transRight, (List.range df.length).filter coin, (List.range df.length).filter (fun i => !coin i),
        pl, pr, fees⟩) := by
  have hlab : df.map (fun r => r.label) = List.range df.length := ht
  have hr : (List.range df.length).filter (fun i => decide (i ∉ (List.range df.length).filter coin)) =
      (List.range df.length).filter (fun i => !coin i) := by
    apply List.filter_congr
    intro i hi
    by_cases hc : coin i = true
    · simp [hc]; exact List.mem_range.mp hi
    · simp [hc]
  unfold mudaBodyM leftRows rightRows
  simp only [hlab, coinLeft_range, hr, filterMap_find_labels ht]

theorem mudaBody_price (ht : IsTable df) (coin : ℕ → Bool) :
    mudaBody S coin (atPrice prc P df) = (do
      let pl ← findCompetitivePrice S (atPrice prc P (leftRows coin df))
      let pr ← findCompetitivePrice S (atPrice prc P (rightRows coin df))
      let fees := List.replicate (df.map (fun r => r.user)).dedup.length (0 : ℚ)
      let (transLeft, fees) ← solveSide S (atPrice prc P (leftRows coin df)) pr fees
      let (transRight, fees) ← solveSide S (atPrice prc P (rightRows coin df)) pl fees
      .ok (transLeft.merge transRight, .muda ((List.range df.length).filter coin)
        ((List.range df.length).filter (fun i => !coin i)) pl pr fees)) := by
  have h1 : (atPrice prc P df).filter (fun r => coin r.label) = atPrice prc P (leftRows coin df) := by
    rw [atPrice_eq, List.filter_map]
    rfl
  have h2 : (atPrice prc P df).filter (fun r => !coin r.label) = atPrice prc P (rightRows coin df) := by
    rw [atPrice_eq, List.filter_map]
    rfl
  have hn : (atPrice prc P df).length = df.length := by rw [atPrice_eq, List.length_map]
  have k1 := half_filter (isTable_price (prc := prc) (P := P) ht) coin
  have k2 := half_filter (isTable_price (prc := prc) (P := P) ht) (fun i => !coin i)
  rw [hn, h1] at k1
  rw [hn, h2] at k2
  rw [mudaBody_halves (isTable_price ht)]
  simp only [hn, k1, k2, users_price]

theorem sub_nonNeg {H : DF} (h : NonNegM prc df) (hH : ∀ r ∈ H, r ∈ df) : NonNegM prc H := fun r hr => h r (hH r hr)

theorem sub_above {H : DF} (ha : AbovePrices prc df P) (hH : ∀ r ∈ H, r ∈ df) : AbovePrices prc H P :=
  ⟨ha.1, fun r hr => ha.2 r (hH r hr)⟩

theorem left_mem {coin : ℕ → Bool} : ∀ r ∈ leftRows coin df, r ∈ df := fun _ h => List.mem_of_mem_filter h

theorem right_mem {coin : ℕ → Bool} : ∀ r ∈ rightRows coin df, r ∈ df := fun _ h => List.mem_of_mem_filter h

/-- A half has a finite price below `P`, which is then the one of the filled half, or an infinite price. -/
theorem priceM_cases (h : NonNegM prc df) (hs : SortsAlike SE S P) (ha : AbovePrices prc df P) :
    (∃ p, p < P ∧ findCompetitivePriceM SE df prc = .ok (.fin p) ∧
      findCompetitivePrice S (atPrice prc P df) = .ok (.fin p)) ∨
    findCompetitivePriceM SE df prc = .ok .inf := by
  by_cases hm : pricedQty prc df < marketQty prc df
  · exact Or.inr (C131_muda_blocked S SE prc df P h hs ha hm)
  · have h1 : pricedQty prc df ≤ offeredQty df := by
      rw [← pricedQty_eq ha, ← offeredQty_eq ha]
      unfold supplyQtyBelow supplyQty
      apply List.Sublist.sum_le_sum
      · apply List.Sublist.map
        apply List.monotone_filter_right
        intro r hr
        simp only [Bool.and_eq_true, decide_eq_true_eq] at hr ⊢
        exact ⟨hr.1, hr.2.le⟩
      · intro x hx
        obtain ⟨r, hr, rfl⟩ := List.mem_map.mp hx
        exact (atPrice_nonNeg h ha.1 r (List.mem_of_mem_filter hr)).1
    obtain ⟨v, vM, e1, e2, hc⟩ := C131_muda_partial S SE prc df P h hs ha ((not_lt.mp hm).trans h1)
    rcases hc with ⟨p, rfl, h2, rfl⟩ | ⟨_, _, _, rfl⟩ | ⟨_, rfl⟩
    · exact Or.inl ⟨p, h2, e2, e1⟩
    · exact Or.inr e2
    · exact Or.inr e2

end

section

variable (S : Sorter) (SE : ExtSorter) (prc : ℕ → Ext) (df : DF) (P P' : ℚ)

theorem zip_zero (n : ℕ) :
    List.replicate n (Val.fin 0) = List.zipWith feeFor (List.replicate n (0 : ℚ)) (List.replicate n (0 : ℚ)) := by
  induction n with
  | zero => rfl
  | succ n ih =>
    rw [List.replicate_succ, List.replicate_succ, List.zipWith_cons_cons, ih]
    congr 1

theorem withPriceM_fin {S : Sorter} {H : DF} {p : ℚ} {fees fees' : List ℚ} {tm : TransactionManager}
    (hn : (H.map (fun r => r.label)).Nodup) (hq : ∀ r ∈ H, 0 ≤ r.quantity)
    (h : solveSide S H (.fin p) fees = .ok (tm, fees')) : tm.trans.map (withPriceM (.fin p)) = tm.trans.map finTrans := by
  apply List.map_congr_left
  intro t ht
  have hp : t.price = p := by
    rcases solveSide_trades S hn hq h with ⟨h1, _⟩ | ⟨p', h1, h2⟩
    · rw [h1] at ht
      cases ht
    · cases h1
      obtain ⟨tb, tl, hor, hb, hs⟩ := h2.sides
      have : t ∈ tb ∨ t ∈ tl := by
        rcases hor with e | e <;> rw [e] at ht
        · exact List.mem_append.mp ht
        · exact (List.mem_append.mp ht).symm
      rcases this with h3 | h3
      · obtain ⟨_, _, _, _, _, h4, _⟩ := hb.mem t h3
        exact h4
      · obtain ⟨_, _, _, _, _, h4, _⟩ := hs.mem t h3
        exact h4
  unfold withPriceM finTrans
  rw [hp]

theorem nodup_price {df : DF} (ht : IsTable df) (f : Row → Bool) :
    ((atPrice prc P (df.filter f)).map (fun r => r.label)).Nodup := by
  rw [labels_price]
  have hn : (df.map (fun r => r.label)).Nodup := by
    unfold IsTable at ht
    rw [ht]
    exact List.nodup_range
  exact hn.sublist (List.filter_sublist.map _)

theorem qty_price {df H : DF} (h : NonNegM prc df) (hH : ∀ r ∈ H, r ∈ df) : ∀ r ∈ atPrice prc P H, 0 ≤ r.quantity := by
  intro r hr
  obtain ⟨s, hs, rfl⟩ := List.mem_map.mp hr
  exact (h s (hH s hs)).1

/-- C132: when both halves have a finite price, MUDA treats a buyer at any price like one with a price above all others:
the same halves, prices and transactions, and the same fees, except that a fee that depends on the stand-in is infinite. -/
theorem C132_muda_partial (ht : IsTable df) (h : NonNegM prc df) (hs : SortsAlike SE S P) (hs' : SortsAlike SE S P')
    (ha : AbovePrices prc df P) (hP : P < P') (coin : ℕ → Bool)
    (hl : findCompetitivePriceM SE (leftRows coin df) prc ≠ .ok .inf)
    (hr : findCompetitivePriceM SE (rightRows coin df) prc ≠ .ok .inf) :
    mudaM SE prc coin df = mudaFor (muda S coin (atPrice prc P df)) (muda S coin (atPrice prc P' df)) := by
  have ha' := above_mono ha hP
  have price : ∀ H : DF, (∀ r ∈ H, r ∈ df) → findCompetitivePriceM SE H prc ≠ .ok .inf →
      ∃ p, p < P ∧ findCompetitivePriceM SE H prc = .ok (.fin p) ∧
        findCompetitivePrice S (atPrice prc P H) = .ok (.fin p) ∧
        findCompetitivePrice S (atPrice prc P' H) = .ok (.fin p) := by
    intro H hH hf
    rcases priceM_cases (sub_nonNeg h hH) hs (sub_above ha hH) with ⟨p, h1, h2, h3⟩ | h1
    · rcases priceM_cases (sub_nonNeg h hH) hs' (sub_above ha' hH) with ⟨p', h1', h2', h3'⟩ | h1'
      · rw [h2] at h2'
        cases h2'
        exact ⟨p, h1, h2, h3, h3'⟩
      · exact absurd h1' hf
    · exact absurd h1 hf
  obtain ⟨pl, l1, l2, l3, l4⟩ := price _ left_mem hl
  obtain ⟨pr, r1, r2, r3, r4⟩ := price _ right_mem hr
  unfold mudaM muda
  rw [checkEqualPrice_price ha, checkEqualPrice_price ha']
  by_cases hc : checkEqualPriceRaisesM prc df = true
  · rw [if_pos hc, if_pos hc, if_pos hc]
    rfl
  rw [if_neg hc, if_neg hc, if_neg hc, mudaBodyM_halves ht, mudaBody_price ht, mudaBody_price ht, l2, l3, l4, r2, r3, r4]
  simp only [bind, Except.bind]
  generalize (df.map (fun r => r.user)).dedup.length = n
  rw [zip_zero]
  rcases solveSideM_eq hs hs' (sub_above ha (left_mem (coin := coin))) hP (fun r hr => (h r (left_mem r hr)).1)
    (Or.inl ⟨r1, rfl, rfl⟩) (List.replicate n 0) (List.replicate n 0) rfl with
    ⟨tm, g, tm', g', e1, e2, e3, e4, e5⟩ | ⟨e1, e2, e3⟩
  · rw [e1, e2, e5]
    dsimp only
    rcases solveSideM_eq hs hs' (sub_above ha (right_mem (coin := coin))) hP (fun r hr => (h r (right_mem r hr)).1)
      (Or.inl ⟨l1, rfl, rfl⟩) g g' (e3.trans e4.symm) with
      ⟨um, k, um', k', d1, d2, d3, d4, d5⟩ | ⟨d1, d2, d3⟩
    · rw [d1, d2, d5]
      show _ = Except.ok (MudaOutM.mk _ _ _ _ _ _)
      rw [TransactionManager.merge_trans, List.map_append, withPriceM_fin (nodup_price prc P ht _) (qty_price prc P h left_mem) e1,
        withPriceM_fin (nodup_price prc P ht _) (qty_price prc P h right_mem) d1]
    · rw [d1, d2, d3]
      rfl
  · rw [e1, e2, e3]
    rfl

theorem isBuy_price (i : ℕ) : isBuy (atPrice prc P df) i = isBuy df i := by
  unfold isBuy
  rw [atPrice_eq, List.getElem?_map]
  cases df[i]? <;> rfl

theorem isSell_price (i : ℕ) : isSell (atPrice prc P df) i = isSell df i := by
  unfold isSell
  rw [atPrice_eq, List.getElem?_map]
  cases df[i]? <;> rfl

theorem boughtM_price (v : Val) (ts : List Transaction) :
    boughtM df (ts.map (withPriceM v)) = boughtQty (atPrice prc P df) ts := by
  unfold boughtM boughtQty
  rw [List.filter_map, List.map_map]
  congr 2
  apply List.filter_congr
  intro t _
  exact (isBuy_price prc df P t.bid).symm

theorem soldM_price (v : Val) (ts : List Transaction) :
    soldM df (ts.map (withPriceM v)) = soldQty (atPrice prc P df) ts := by
  unfold soldM soldQty
  rw [List.filter_map, List.map_map]
  congr 2
  apply List.filter_congr
  intro t _
  exact (isSell_price prc df P t.bid).symm

/-- The transactions of a half at any price. -/
theorem side_labels (hs : SortsAlike SE S P) (hs' : SortsAlike SE S P') {H : DF} (ha : AbovePrices prc H P) (hP : P < P')
    (hn : ((atPrice prc P H).map (fun r => r.label)).Nodup) (hq : ∀ r ∈ H, 0 ≤ r.quantity) {v : Val}
    (hv : (∃ p, p < P ∧ v = .fin p) ∨ v = .inf) (f f' : List ℚ)
    (hl : f.length = f'.length) {ts : List TransM} {gs : List Val}
    (he : solveSideM SE prc H v (List.zipWith feeFor f f') = .ok (ts, gs)) :
    ∃ tm g g', g.length = g'.length ∧ gs = List.zipWith feeFor g g' ∧ ts = tm.trans.map (withPriceM v) ∧
      (∀ t ∈ ts, ∃ r ∈ H, t.bid = r.label) ∧
      (v = .inf → solveSide S (atPrice prc P H) (.fin P) f = .ok (tm, g)) ∧ ((∀ x ∈ f, 0 ≤ x) → ∀ x ∈ g, 0 ≤ x) := by
  have key : ∀ p p' : ℚ, ((p < P ∧ v = .fin p ∧ p' = p) ∨ (v = .inf ∧ p = P ∧ p' = P')) → (v = .inf → p = P) →
      ∃ tm g g', g.length = g'.length ∧ gs = List.zipWith feeFor g g' ∧ ts = tm.trans.map (withPriceM v) ∧
      (∀ t ∈ ts, ∃ r ∈ H, t.bid = r.label) ∧
      (v = .inf → solveSide S (atPrice prc P H) (.fin P) f = .ok (tm, g)) ∧ ((∀ x ∈ f, 0 ≤ x) → ∀ x ∈ g, 0 ≤ x) := by
    intro p p' hpp hpe
    rcases solveSideM_eq hs hs' ha hP hq hpp f f' hl with ⟨tm, g, tm', g', e1, e2, e3, e4, e5⟩ | ⟨_, _, e3⟩
    · rw [he] at e5
      cases e5
      refine ⟨tm, g, g', e3.trans e4.symm, rfl, rfl, ?_, fun hi => by rw [hpe hi] at e1; exact e1,
        fun hf => solveSide_nonneg hn (fun r hr => by
          obtain ⟨s, hs, rfl⟩ := List.mem_map.mp hr
          exact hq s hs) e1 hf⟩
      intro t ht
      obtain ⟨t', h1, rfl⟩ := List.mem_map.mp ht
      obtain ⟨r, h2, h3⟩ := solveSide_label e1 t' h1
      obtain ⟨r', h4, rfl⟩ := List.mem_map.mp h2
      exact ⟨r', h4, h3⟩
    · rw [he] at e3
      cases e3
  rcases hv with ⟨p, h1, h2⟩ | h1
  · exact key p p (Or.inl ⟨h1, h2, rfl⟩) (fun h => by rw [h2] at h; cases h)
  · exact key P P' (Or.inr ⟨h1, rfl, rfl⟩) (fun _ => rfl)

theorem infinite_side (ht : IsTable df) (h : NonNegM prc df) (ha : AbovePrices prc df P) (f : Row → Bool)
    {fees fees' : List ℚ} {tm : TransactionManager}
    (he : solveSide S (atPrice prc P (df.filter f)) (.fin P) fees = .ok (tm, fees')) :
    InfiniteTrade prc df (df.filter f) (tm.trans.map (withPriceM .inf)) := by
  have hH : ∀ r ∈ df.filter f, r ∈ df := fun r hr => List.mem_of_mem_filter hr
  have haH := sub_above ha hH
  have hvol : volumeAt (atPrice prc P (df.filter f)) P = min (marketQty prc (df.filter f)) (offeredQty (df.filter f)) := by
    rw [← marketQty_eq haH, ← offeredQty_eq haH]
    rfl
  unfold InfiniteTrade
  rw [boughtM_price prc df P, soldM_price prc df P, ← hvol]
  rcases solveSide_trades S (nodup_price prc P ht f) (qty_price prc P h hH) he with ⟨h1, _, h2⟩ | ⟨p, h1, h2⟩
  · have h3 := h2 P rfl
    rw [halfQty_eq] at h3
    rw [h1, h3]
    exact ⟨rfl, rfl, fun t ht => by cases ht⟩
  · cases h1
    have hs := h2.sums (isTable_price (prc := prc) (P := P) ht) (by
      intro r hr
      obtain ⟨r', h3, rfl⟩ := List.mem_map.mp hr
      exact List.mem_map_of_mem (hH r' h3))
    refine ⟨hs.1, hs.2.1, ?_⟩
    intro t htt
    obtain ⟨t', h3, rfl⟩ := List.mem_map.mp htt
    refine ⟨rfl, ?_⟩
    intro hb
    obtain ⟨tb, tl, hor, hb', hs'⟩ := h2.sides
    have : t' ∈ tb ∨ t' ∈ tl := by
      rcases hor with e | e <;> rw [e] at h3
      · exact List.mem_append.mp h3
      · exact (List.mem_append.mp h3).symm
    rcases this with h4 | h4
    · obtain ⟨r, hr, h5, _⟩ := hb'.mem t' h4
      obtain ⟨hr, _, h6⟩ := mem_willingDemand.mp hr
      obtain ⟨r', h7, rfl⟩ := List.mem_map.mp hr
      have h8 : P ≤ (prc r'.label).untopD P := of_decide_eq_true h6
      show prc t'.bid = ⊤
      rw [h5]
      show prc r'.label = ⊤
      by_contra hne
      have h9 := ha.2 r' (hH r' h7) hne
      generalize prc r'.label = e at h8 h9 hne
      induction e using WithTop.recTopCoe with
      | top => exact hne rfl
      | coe q => exact absurd h8 (not_le.mpr (WithTop.coe_lt_coe.mp h9))
    · exfalso
      obtain ⟨r, hr, h5, _⟩ := hs'.mem t' h4
      obtain ⟨hr, h6, _⟩ := mem_willingSupply.mp hr
      obtain ⟨r', h7, rfl⟩ := List.mem_map.mp hr
      have h8 : isBuy df t'.bid = true := hb
      rw [h5] at h8
      have h9 : isBuy df r'.label = true := h8
      rw [ht.isBuy_eq (hH r' h7)] at h9
      have h6' : r'.buying = false := h6
      rw [h6'] at h9
      cases h9

theorem mudaM_out (ht : IsTable df) (h : NonNegM prc df) (hs : SortsAlike SE S P) (hs' : SortsAlike SE S P')
    (ha : AbovePrices prc df P) (hP : P < P') (coin : ℕ → Bool) (out : MudaOutM) (ho : mudaM SE prc coin df = .ok out) :
    (out.priceRight = .inf → InfiniteTrade prc df (leftRows coin df) (out.trans.filter (fun t => coin t.bid))) ∧
    (out.priceLeft = .inf → InfiniteTrade prc df (rightRows coin df) (out.trans.filter (fun t => !coin t.bid))) ∧
    ∀ v ∈ out.fees, v = .inf ∨ ∃ x, 0 ≤ x ∧ v = .fin x := by
  have price : ∀ H : DF, (∀ r ∈ H, r ∈ df) →
      ∃ v, findCompetitivePriceM SE H prc = .ok v ∧ ((∃ p, p < P ∧ v = .fin p) ∨ v = .inf) := by
    intro H hH
    rcases priceM_cases (sub_nonNeg h hH) hs (sub_above ha hH) with ⟨p, h1, h2, _⟩ | h1
    · exact ⟨_, h2, Or.inl ⟨p, h1, rfl⟩⟩
    · exact ⟨_, h1, Or.inr rfl⟩
  obtain ⟨vl, l1, l2⟩ := price _ (left_mem (coin := coin))
  obtain ⟨vr, r1, r2⟩ := price _ (right_mem (coin := coin))
  unfold mudaM at ho
  split at ho
  · cases ho
  rw [mudaBodyM_halves ht, l1, r1] at ho
  simp only [bind, Except.bind] at ho
  generalize (df.map (fun r => r.user)).dedup.length = n at ho
  rw [zip_zero] at ho
  cases e1 : solveSideM SE prc (leftRows coin df) vr
      (List.zipWith feeFor (List.replicate n (0 : ℚ)) (List.replicate n (0 : ℚ))) with
  | error e => rw [e1] at ho; cases ho
  | ok x =>
    rw [e1] at ho
    dsimp only at ho
    obtain ⟨tm, g, g', h1, h2, h3, h4, h5, h6⟩ := side_labels S SE prc P P' hs hs' (sub_above ha (left_mem (coin := coin)))
      hP (nodup_price prc P ht _) (fun r hr => (h r (left_mem r hr)).1) r2 _ _ rfl e1
    cases e2 : solveSideM SE prc (rightRows coin df) vl x.2 with
    | error e => rw [e2] at ho; cases ho
    | ok y =>
      rw [e2] at ho
      cases ho
      rw [h2] at e2
      obtain ⟨um, k, k', k1, k2, k3, k4, k5, k6⟩ := side_labels S SE prc P P' hs hs'
        (sub_above ha (right_mem (coin := coin))) hP (nodup_price prc P ht _)
        (fun r hr => (h r (right_mem r hr)).1) l2 _ _ h1 e2
      have a1 : ∀ t ∈ x.1, coin t.bid = true := by
        intro t htt
        obtain ⟨r, hr, he⟩ := h4 t htt
        rw [he]
        exact (List.mem_filter.mp hr).2
      have a2 : ∀ t ∈ y.1, coin t.bid = false := by
        intro t htt
        obtain ⟨r, hr, he⟩ := k4 t htt
        rw [he]
        have := (List.mem_filter.mp hr).2
        simpa using this
      dsimp only
      rw [List.filter_append, List.filter_append, List.filter_eq_self.mpr a1,
        List.filter_eq_nil_iff.mpr (fun t htt => by rw [a2 t htt]; decide), List.append_nil,
        List.filter_eq_nil_iff.mpr (fun t htt => by rw [a1 t htt]; decide), List.nil_append,
        List.filter_eq_self.mpr (fun t htt => by rw [a2 t htt]; decide)]
      refine ⟨?_, ?_, ?_⟩
      · intro hv
        rw [h3, hv]
        exact infinite_side S prc df P ht h ha _ (h5 hv)
      · intro hv
        rw [k3, hv]
        exact infinite_side S prc df P ht h ha _ (k5 hv)
      · rw [k2]
        have nn := k6 (h6 (fun z hz => (List.eq_of_mem_replicate hz).ge))
        intro w hw
        obtain ⟨i, hi, rfl⟩ := List.getElem_of_mem hw
        rw [List.getElem_zipWith]
        unfold feeFor
        split
        · exact Or.inr ⟨_, nn _ (List.getElem_mem _), rfl⟩
        · exact Or.inl rfl

/-- C132: when the other half has an infinite price, exactly the buyers at any price of this half trade, with all sellers,
at an infinite price. -/
theorem C132_infinite (ht : IsTable df) (h : NonNegM prc df) (hs : SortsAlike SE S P) (hs' : SortsAlike SE S P')
    (ha : AbovePrices prc df P) (hP : P < P') (coin : ℕ → Bool) (out : MudaOutM) (ho : mudaM SE prc coin df = .ok out) :
    (out.priceRight = .inf → InfiniteTrade prc df (leftRows coin df) (out.trans.filter (fun t => coin t.bid))) ∧
    (out.priceLeft = .inf → InfiniteTrade prc df (rightRows coin df) (out.trans.filter (fun t => !coin t.bid))) :=
  ⟨(mudaM_out S SE prc df P P' ht h hs hs' ha hP coin out ho).1,
    (mudaM_out S SE prc df P P' ht h hs hs' ha hP coin out ho).2.1⟩

/-- C132: no fee is NaN or negative. -/
theorem C132_fees (ht : IsTable df) (h : NonNegM prc df) (hs : SortsAlike SE S P) (hs' : SortsAlike SE S P')
    (ha : AbovePrices prc df P) (hP : P < P') (coin : ℕ → Bool) (out : MudaOutM) (ho : mudaM SE prc coin df = .ok out) :
    ∀ v ∈ out.fees, v = .inf ∨ ∃ x, 0 ≤ x ∧ v = .fin x :=
  (mudaM_out S SE prc df P P' ht h hs hs' ha hP coin out ho).2.2

end

/-! ## Examples -/

/-- Prices with buyers at any price in both halves. -/
def halvesPrice : ℕ → Ext
  | 0 => ⊤
  | 1 => ((6 : ℚ) : Ext)
  | 2 => ((1 : ℚ) : Ext)
  | 3 => ((4 : ℚ) : Ext)
  | 4 => ⊤
  | 5 => ⊤
  | 6 => ((40 : ℚ) : Ext)
  | 7 => ((1 : ℚ) : Ext)
  | _ => ((50 : ℚ) : Ext)

/-- Four bids of the left half and five of the right one. -/
def halvesBook : DF :=
  labelFrom 0 [⟨1, 0, 0, true, 0, true⟩, ⟨1, 0, 1, true, 0, true⟩, ⟨1, 0, 2, false, 0, true⟩, ⟨1, 0, 3, false, 0, true⟩,
    ⟨1, 0, 4, true, 0, true⟩, ⟨1, 0, 5, true, 0, true⟩, ⟨1, 0, 6, true, 0, true⟩, ⟨1, 0, 7, false, 0, true⟩,
    ⟨2, 0, 8, false, 0, true⟩]

/-- The hypotheses of `C132_muda_partial` hold. Bid 4 trades at price 5 and is charged an infinite fee, since it keeps
another buyer at any price from trading. -/
example : IsTable halvesBook ∧ NonNegM halvesPrice halvesBook ∧ AbovePrices halvesPrice halvesBook 100 ∧
    findCompetitivePriceM stableExtSorter (leftRows (fun i => decide (i < 4)) halvesBook) halvesPrice = .ok (.fin 5) ∧
    findCompetitivePriceM stableExtSorter (rightRows (fun i => decide (i < 4)) halvesBook) halvesPrice = .ok (.fin 50) ∧
    mudaM stableExtSorter halvesPrice (fun i => decide (i < 4)) halvesBook =
      .ok ⟨[⟨0, 1, .fin 50, -1, false⟩, ⟨2, 1, .fin 50, -1, false⟩, ⟨7, 1, .fin 5, -1, false⟩,
        ⟨4, 1, .fin 5, -1, false⟩], [0, 1, 2, 3], [4, 5, 6, 7, 8], .fin 5, .fin 50,
        [.fin 0, .fin 0, .fin 46, .fin 0, .inf, .fin 0, .fin 0, .fin 0, .fin 0]⟩ := by decide +kernel

/-- Prices without a crossing in the right half. -/
def noCrossPrice : ℕ → Ext
  | 0 => ⊤
  | 1 => ((1 : ℚ) : Ext)
  | 2 => ((1 : ℚ) : Ext)
  | _ => ((2 : ℚ) : Ext)

/-- A buyer at any price and a seller in the left half; a buyer and a seller that do not agree in the right one. -/
def noCrossBook : DF :=
  labelFrom 0 [⟨1, 0, 0, true, 0, true⟩, ⟨2, 0, 1, false, 0, true⟩, ⟨1, 0, 2, true, 0, true⟩, ⟨1, 0, 3, false, 0, true⟩]

/-- The hypotheses of `C132_infinite`: the right half has an infinite price, the left half trades. -/
example : IsTable noCrossBook ∧ NonNegM noCrossPrice noCrossBook ∧ AbovePrices noCrossPrice noCrossBook 10 ∧
    marketQty noCrossPrice (leftRows (fun i => decide (i < 2)) noCrossBook) = 1 ∧
    offeredQty (leftRows (fun i => decide (i < 2)) noCrossBook) = 2 ∧
    (mudaM stableExtSorter noCrossPrice (fun i => decide (i < 2)) noCrossBook).toOption.map (fun o => (o.trans, o.priceRight)) =
      some ([⟨0, 1, .inf, -1, false⟩, ⟨1, 1, .inf, -1, false⟩], .inf) := by decide +kernel

/-- C132, the full statement fails: if one half has no crossing, buyers at any price in the other half trade at an
infinite price. With a price above all others, nobody trades. -/
theorem C132_refuted :
    ∃ (prc : ℕ → Ext) (df : DF) (P P' : ℚ) (coin : ℕ → Bool), IsTable df ∧ NonNegM prc df ∧ AbovePrices prc df P ∧ P < P' ∧
      SortsAlike stableExtSorter stableSorter P ∧ SortsAlike stableExtSorter stableSorter P' ∧
      marketQty prc df < pricedQty prc df ∧
      mudaM stableExtSorter prc coin df ≠
        mudaFor (muda stableSorter coin (atPrice prc P df)) (muda stableSorter coin (atPrice prc P' df)) ∧
      (muda stableSorter coin (atPrice prc P df)).toOption.map (fun o => o.1.trans) = some [] ∧
      ∃ out, mudaM stableExtSorter prc coin df = .ok out ∧ ∃ t ∈ out.trans, 0 < t.quantity ∧ t.price = .inf :=
  ⟨noCrossPrice, noCrossBook, 10, 20, fun i => decide (i < 2), by decide +kernel, by decide +kernel, by decide +kernel,
    by norm_num, stable_alike (by norm_num), stable_alike (by norm_num), by decide +kernel, by decide +kernel,
    by decide +kernel,
    ⟨[⟨0, 1, .inf, -1, false⟩, ⟨1, 1, .inf, -1, false⟩], [0, 1], [2, 3], .fin 1, .inf, [.fin 0, .fin 0, .fin 0, .fin 0]⟩,
    by decide +kernel, ⟨0, 1, .inf, -1, false⟩, by decide +kernel⟩

end PyMarket
