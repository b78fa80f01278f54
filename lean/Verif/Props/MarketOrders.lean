import Verif.Lemmas.MarketBook
import Verif.Lemmas.UnlimitedP2P
import Verif.Lemmas.P2P

/-! # C131: bids at any price

Prices may be `np.inf`. The book is given with a column `prc` of prices that may be infinite; `atPrice prc P df` is the
same book with `P` in place of every infinite price. -/

set_option autoImplicit false

namespace PyMarket

open Spec

section

variable (S : Sorter) (SE : ExtSorter) (prc : ℕ → Ext) (df : DF) (P : ℚ)

theorem ofExt_infFor {e : Ext} (he : e ≠ ⊤) :
    Val.ofExt (infFor P e) = if e.untopD 0 = P then .inf else .fin (e.untopD 0) := by
  induction e using WithTop.recTopCoe with
  | top => exact absurd rfl he
  | coe q =>
    show Val.ofExt (if (q : Ext) = (P : Ext) then ⊤ else (q : Ext)) = if q = P then .inf else .fin q
    by_cases h : q = P
    · rw [if_pos h, if_pos (congrArg _ h)]
      rfl
    · rw [if_neg h, if_neg (fun h' => h (WithTop.coe_injective h'))]
      rfl

theorem huangSideTransM_eq (rows : DF) (qs : List ℚ) {e : Ext} (he : e ≠ ⊤) :
    huangSideTransM rows qs (Val.ofExt (infFor P e)) =
      (huangSideTrans (rows.map (priceRow prc P)) qs (e.untopD 0)).map (transFor P) := by
  unfold huangSideTransM huangSideTrans
  rw [List.zip_map_left, List.map_map, List.map_map, ofExt_infFor P he]
  rfl

/-- C131, Huang's auction: a buyer at any price is treated like one with a price above all others, as long as the buyers
at any price ask for no more than is offered. -/
theorem C131_huang_partial (h : NonNegM prc df) (hs : SortsAlike SE S P) (ha : AbovePrices prc df P)
    (hm : marketQty prc df ≤ offeredQty df) :
    huangAuctionM SE df prc =
      (huangAuction S (atPrice prc P df)).map (fun o => (o.1.trans.map (transFor P), extraFor P o.2)) := by
  have c := curvePair (S := S) h ha
  obtain ⟨i, iM, e1, e2, _, hf, hg, hcase⟩ := c.intersect (no_tie_at_top h ha hm) (1/2)
  rw [← demandCurveM_eq hs ha, ← supplyCurveM_eq hs ha] at e2
  unfold huangAuctionM huangAuction
  rcases hcase with ⟨x, jf, jg, _, h1, h2, h3, h4, h5, _⟩ | ⟨_, h1, h2, _⟩
  · obtain ⟨s, hs1, hs2⟩ := first_value h4
    obtain ⟨b, hb1, hb2⟩ := first_value h3
    have hsM : (supplyCurveM SE df prc)[jg]? = some (s.1, infFor P s.2) := by
      rw [supplyCurveM_eq hs ha]
      unfold liftY
      rw [List.getElem?_map, hs1]
      rfl
    have hbM : (demandCurveM SE df prc)[jf]? = some (b.1, infFor P b.2) := by
      rw [demandCurveM_eq hs ha]
      unfold liftY
      rw [List.getElem?_map, hb1]
      rfl
    have hbt : b.2 ≠ ⊤ := by
      rw [hb2]
      exact (lt_of_le_of_lt (c.funF x) (WithTop.coe_lt_top P)).ne
    have hst : s.2 ≠ ⊤ := by
      rw [hs2]
      exact (lt_of_lt_of_le h5 le_top).ne
    rw [h1] at hf
    rw [h2] at hg
    simp only [bind, Except.bind, e1, e2, h1, h2, hf, hg, hs1, hb1, hsM, hbM, buys_price, sells_price,
      sortDesc_price hs (fun r hr => ha.2 r (mem_buys.mp hr).1), sortAsc_price hs (fun r hr => ha.2 r (mem_sells.mp hr).1),
      ← List.map_take, qtys_price]
    by_cases hpos : 0 < jf ∧ 0 < jg
    · rw [if_pos hpos, if_pos hpos]
      simp only [huangSideTransM_eq prc P _ _ hst, huangSideTransM_eq prc P _ _ hbt]
      split
      · generalize updateQuantity _ _ = u
        cases u with
        | error e => rfl
        | ok v =>
          show _ = Except.ok (List.map _ _, _)
          rw [TransactionManager.init_addAll_trans, List.map_append]
          rfl
      · generalize updateQuantity _ _ = u
        cases u with
        | error e => rfl
        | ok v =>
          show _ = Except.ok (List.map _ _, _)
          rw [TransactionManager.init_addAll_trans, List.map_append]
          rfl
    · rw [if_neg hpos, if_neg hpos]
      rfl
  · rw [h1] at hf
    simp only [bind, Except.bind, e1, e2, h1, hf]
    rfl

/-- C131: when the buyers at any price ask for more than the sellers with a finite price offer, the curves never cross,
and Huang's auction trades nothing at all. -/
theorem C131_huang_blocked (h : NonNegM prc df) (hs : SortsAlike SE S P) (ha : AbovePrices prc df P)
    (hm : pricedQty prc df < marketQty prc df) : huangAuctionM SE df prc = .ok ([], none) := by
  obtain ⟨iM, e, _, h1, _, _⟩ := marketBook_blocked (S := S) h hs ha hm (1/2)
  unfold huangAuctionM
  simp only [bind, Except.bind, e, h1]

/-- C131: the same book raises `TypeError` in the uniform price mechanism. -/
theorem C131_uniform_blocked (h : NonNegM prc df) (hs : SortsAlike SE S P) (ha : AbovePrices prc df P)
    (hm : pricedQty prc df < marketQty prc df) : uniformPriceM SE df prc = .error .typeError := by
  obtain ⟨iM, e, _, h1, _, _⟩ := marketBook_blocked (S := S) h hs ha hm (1/2)
  unfold uniformPriceM
  simp only [bind, Except.bind, e, h1]

/-- C131: a half of MUDA has an infinite price then. -/
theorem C131_muda_blocked (h : NonNegM prc df) (hs : SortsAlike SE S P) (ha : AbovePrices prc df P)
    (hm : pricedQty prc df < marketQty prc df) : findCompetitivePriceM SE df prc = .ok .inf := by
  obtain ⟨iM, e, _, _, _, h1⟩ := marketBook_blocked (S := S) h hs ha hm (1/2)
  unfold findCompetitivePriceM
  simp only [bind, Except.bind, e, h1]
  unfold kMix
  norm_num [Val.scale, Val.add, WithTop.coe, WithTop.some]

theorem supply_nonneg {df : DF} (h : NonNeg df) (x : Ext) : ((0 : ℚ) : Ext) ≤ stepFun (supplyCurve S df).1 x := by
  have tl : ∃ s ∈ (supplyCurve S df).1, x ≤ s.1 :=
    ⟨_, List.mem_append_right _ (List.mem_singleton.mpr rfl), le_top⟩
  obtain ⟨s, hs, h2⟩ := stepFun_mem tl
  rw [← h2]
  have : s.2 ∈ ((supplyCurve S df).1).map Prod.snd := List.mem_map_of_mem hs
  rw [supplyCurve_eq, stepCurve_snd] at this
  rcases List.mem_append.mp this with h1 | h1
  · obtain ⟨r, hr, h3⟩ := List.mem_map.mp h1
    rw [← h3]
    exact WithTop.coe_le_coe.mpr (h r (sellRows_mem hr).1).2
  · rw [List.mem_singleton.mp h1]
    exact le_top

/-- The price at the crossing: that of the filled book when it is below `P`; an infinite one only if the filled book's
is at least half of `P`. -/
theorem price_cases (h : NonNegM prc df) (hs : SortsAlike SE S P) (ha : AbovePrices prc df P)
    (hm : marketQty prc df ≤ offeredQty df) :
    ∃ i iM, intersectStepwise (demandCurve S (atPrice prc P df)).1 (supplyCurve S (atPrice prc P df)).1 = .ok i ∧
      intersectStepwise (demandCurveM SE df prc) (supplyCurveM SE df prc) = .ok iM ∧
      iM.x = i.x ∧ iM.f = i.f ∧ iM.g = i.g ∧
      ((∃ p, i.v = .fin p ∧ p < P ∧ iM.v = .fin p) ∨ (∃ p, i.v = .fin p ∧ P / 2 ≤ p ∧ iM.v = .inf) ∨
        (i.x = none ∧ i.f = none ∧ i.g = none ∧ i.v = .inf ∧ iM.v = .inf)) ∧ (i.f = none ↔ i.x = none) := by
  have c := curvePair (S := S) h ha
  obtain ⟨i, iM, e1, e2, hx, hf, hg, hcase⟩ := c.intersect (no_tie_at_top h ha hm) (1/2)
  rw [← demandCurveM_eq hs ha, ← supplyCurveM_eq hs ha] at e2
  refine ⟨i, iM, e1, e2, hx, hf, hg, ?_, ?_⟩
  · rcases hcase with ⟨x, jf, jg, _, _, _, _, _, h5, h6⟩ | ⟨h1, h2, h3, h4, h5⟩
    · have g0 := supply_nonneg S (atPrice_nonNeg h ha.1) x
      have hfP := c.funF x
      generalize stepFun (demandCurve S (atPrice prc P df)).1 x = ef at *
      generalize stepFun (supplyCurve S (atPrice prc P df)).1 x = eg at *
      induction ef using WithTop.recTopCoe with
      | top => exact absurd hfP (not_le.mpr (WithTop.coe_lt_top P))
      | coe f =>
        induction eg using WithTop.recTopCoe with
        | top => exact absurd h5 (not_lt.mpr le_top)
        | coe g =>
          have h5' := WithTop.coe_lt_coe.mp h5
          have hfP' := WithTop.coe_le_coe.mp hfP
          have g0' := WithTop.coe_le_coe.mp g0
          have hgP : infFor P (g : Ext) = (g : Ext) := infFor_ne (fun he => by
            have := WithTop.coe_injective he
            linarith)
          rw [hgP] at h6
          rcases h6 with ⟨v1, v2⟩ | ⟨v1, v2⟩ | ⟨v1, v2⟩
          · exact Or.inl ⟨g, v1, by linarith, v2⟩
          · by_cases hfe : f = P
            · rw [hfe, infFor_self] at v2
              exact Or.inr (Or.inl ⟨f, v1, by linarith [ha.1], v2⟩)
            · rw [infFor_ne (fun he => hfe (WithTop.coe_injective he))] at v2
              exact Or.inl ⟨f, v1, lt_of_le_of_ne hfP' hfe, v2⟩
          · have k1 : kMix (1/2) (g : Ext) (f : Ext) = .fin (1/2 * g + (1 - 1/2) * f) := rfl
            rw [k1] at v1
            by_cases hfe : f = P
            · rw [hfe, infFor_self] at v2
              have k2 : kMix (1/2) (g : Ext) ⊤ = .inf := by
                show (Val.fin _).add (if (0 : ℚ) < 1 - 1/2 then .inf else if (1 : ℚ) - 1/2 < 0 then .ninf else .nan) = .inf
                rw [if_pos (by norm_num)]
                rfl
              rw [k2] at v2
              exact Or.inr (Or.inl ⟨_, v1, by linarith, v2⟩)
            · rw [infFor_ne (fun he => hfe (WithTop.coe_injective he)), k1] at v2
              have := lt_of_le_of_ne hfP' hfe
              exact Or.inl ⟨_, v1, by linarith, v2⟩
    · have k : kMix (1/2) ⊤ ((0 : ℚ) : Ext) = .inf := by
        unfold kMix
        norm_num [Val.scale, Val.add, WithTop.coe, WithTop.some]
      rw [stepFun_demand, stepFun_supply] at h4 h5
      unfold demandAt supplyAt at h4 h5
      rw [stepVal_top, stepVal_top] at h4 h5
      rw [infFor_top, infFor_zero ha.1, k] at h5
      rw [k] at h4
      exact Or.inr (Or.inr ⟨h1, h2, h3, h4, h5⟩)
  · rcases hcase with ⟨x, jf, jg, h1, h2, _⟩ | ⟨h1, h2, _⟩
    · rw [h1, h2]
      exact ⟨fun h => (Option.some_ne_none _ h).elim, fun h => (Option.some_ne_none _ h).elim⟩
    · exact ⟨fun _ => h1, fun _ => h2⟩

/-- C131, MUDA: the price of a half is the one of the filled book, unless that is at least `P / 2` and becomes
infinite. -/
theorem C131_muda_partial (h : NonNegM prc df) (hs : SortsAlike SE S P) (ha : AbovePrices prc df P)
    (hm : marketQty prc df ≤ offeredQty df) :
    ∃ v vM, findCompetitivePrice S (atPrice prc P df) = .ok v ∧ findCompetitivePriceM SE df prc = .ok vM ∧
      ((∃ p, v = .fin p ∧ p < P ∧ vM = .fin p) ∨ (∃ p, v = .fin p ∧ P / 2 ≤ p ∧ vM = .inf) ∨
        (v = .inf ∧ vM = .inf)) := by
  obtain ⟨i, iM, e1, e2, _, _, _, hv, _⟩ := price_cases S SE prc df P h hs ha hm
  refine ⟨i.v, iM.v, ?_, ?_, ?_⟩
  · unfold findCompetitivePrice
    simp only [bind, Except.bind, e1]
  · unfold findCompetitivePriceM
    simp only [bind, Except.bind, e2]
  · rcases hv with hv | hv | ⟨_, _, _, h1, h2⟩
    · exact Or.inl hv
    · exact Or.inr (Or.inl hv)
    · exact Or.inr (Or.inr ⟨h1, h2⟩)

theorem uniformShortM_eq (p : ℚ) (v : Val) (rows : DF) :
    uniformShortM v rows = (uniformShort p (rows.map (priceRow prc P))).map (withPriceM v) := by
  unfold uniformShortM uniformShort
  rw [List.map_map, List.map_map]
  rfl

theorem uniformLongM_eq (p : ℚ) (v : Val) (t : ℚ) : ∀ (rows : DF) (a : ℚ),
    uniformLongM v t a rows = (uniformLong p t a (rows.map (priceRow prc P))).map (withPriceM v)
  | [], _ => rfl
  | r :: rows, a => by
    show _ :: _ = _ :: _
    rw [uniformLongM_eq p v t rows (a + r.quantity)]
    rfl

/-- C131, uniform price: the same bids trade the same quantities, at the same price unless the price of the filled book
is at least `P / 2` and becomes infinite. -/
theorem C131_uniform_partial (h : NonNegM prc df) (hs : SortsAlike SE S P) (ha : AbovePrices prc df P)
    (hm : marketQty prc df ≤ offeredQty df) :
    (uniformPrice S (atPrice prc P df) = .error .typeError ∧ uniformPriceM SE df prc = .error .typeError) ∨
    ∃ tm x v vM, uniformPrice S (atPrice prc P df) = .ok (tm, x, v) ∧
      uniformPriceM SE df prc = .ok (tm.trans.map (withPriceM vM), x, vM) ∧
      ((∃ p, v = .fin p ∧ p < P ∧ vM = .fin p) ∨ (∃ p, v = .fin p ∧ P / 2 ≤ p ∧ vM = .inf)) := by
  obtain ⟨i, iM, e1, e2, hx, hf, hg, hv, hn⟩ := price_cases S SE prc df P h hs ha hm
  unfold uniformPrice uniformPriceM
  simp only [bind, Except.bind, e1, e2, hx, hf, hg]
  cases hif : i.f with
  | none => exact Or.inl ⟨rfl, rfl⟩
  | some b =>
    cases hig : i.g with
    | none => exact Or.inl ⟨rfl, rfl⟩
    | some s =>
      right
      refine ⟨_, _, _, iM.v, rfl, ?_, ?_⟩
      · simp only [buys_price, sells_price, sortDesc_price hs (fun r hr => ha.2 r (mem_buys.mp hr).1),
          sortAsc_price hs (fun r hr => ha.2 r (mem_sells.mp hr).1), ← List.map_take]
        rw [TransactionManager.init_addAll_trans, List.map_append]
        have q : ∀ rows : DF, qsum (rows.map (priceRow prc P)) = qsum rows := fun rows => by
          unfold qsum
          rw [qtys_price]
        simp only [q]
        split
        · simp only [q, uniformShortM_eq prc P i.v.toRat, uniformLongM_eq prc P i.v.toRat]
        · simp only [q, uniformShortM_eq prc P i.v.toRat, uniformLongM_eq prc P i.v.toRat]
      · rcases hv with hv | hv | ⟨_, h2, _⟩
        · exact Or.inl hv
        · exact Or.inr hv
        · rw [hif] at h2; cases h2

end

section

variable {prc : ℕ → Ext} {df : DF} {P : ℚ}

theorem untop_le_iff {a b : Ext} (ha : a ≠ ⊤ → a < (P : Ext)) (hb : b ≠ ⊤ → b < (P : Ext)) :
    a.untopD P ≤ b.untopD P ↔ a ≤ b := by
  induction b using WithTop.recTopCoe with
  | top =>
    induction a using WithTop.recTopCoe with
    | top => exact ⟨fun _ => le_refl _, fun _ => le_refl _⟩
    | coe p => exact ⟨fun _ => le_top, fun _ => (WithTop.coe_lt_coe.mp (ha WithTop.coe_ne_top)).le⟩
  | coe q =>
    have h2 := WithTop.coe_lt_coe.mp (hb WithTop.coe_ne_top)
    induction a using WithTop.recTopCoe with
    | top => exact ⟨fun h => absurd h (not_le.mpr h2), fun h => absurd h (not_le.mpr (WithTop.coe_lt_top q))⟩
    | coe p => exact WithTop.coe_le_coe.symm

theorem valueAt_atPrice (ht : IsTable df) {r : Row} (hr : r ∈ df) :
    valueAt (atPrice prc P df) (fun r => r.price) r.label = (prc r.label).untopD P := by
  unfold valueAt
  rw [atPrice_eq, List.getElem?_map, ht.get_label hr]
  rfl

theorem tradeOneM_eq (ht : IsTable df) (ha : AbovePrices prc df P) (c : ℚ) (q : ℕ → ℚ) {p : ℕ × ℕ} (hp : p ∈ allPairs df) :
    (tradeOneM prc c q p).1 = (tradeOne (valueAt (atPrice prc P df) (fun r => r.price)) c q p).1 ∧
      (tradeOneM prc c q p).2 =
        (tradeOne (valueAt (atPrice prc P df) (fun r => r.price)) c q p).2.map (meetingFor c prc df) := by
  obtain ⟨b, hb, s, hs, h1, h2, rfl⟩ := mem_allPairs.mp hp
  have hbuy : isBuy df b.label = true := by
    unfold isBuy
    rw [ht.get_label hb]
    exact h1
  have hsell : isBuy df s.label = false := by
    unfold isBuy
    rw [ht.get_label hs]
    exact h2
  have hle : valueAt (atPrice prc P df) (fun r => r.price) s.label ≤
      valueAt (atPrice prc P df) (fun r => r.price) b.label ↔ prc s.label ≤ prc b.label := by
    rw [valueAt_atPrice ht hs, valueAt_atPrice ht hb]
    exact untop_le_iff (ha.2 s hs) (ha.2 b hb)
  unfold tradeOneM tradeOne
  by_cases hc : prc s.label ≤ prc b.label
  · simp only [if_pos hc, if_pos (hle.mpr hc)]
    refine ⟨trivial, ?_⟩
    simp only [List.map_cons, List.map_nil, meetingFor, hbuy, hsell, meetingPrice, Int.toNat_natCast, if_pos hc, if_true,
      Bool.false_eq_true, if_false]
  · simp only [if_neg hc, if_neg (fun h => hc (hle.mp h))]
    refine ⟨trivial, ?_⟩
    simp only [List.map_cons, List.map_nil, meetingFor, hbuy, hsell, meetingPrice, Int.toNat_natCast, if_neg hc, if_true,
      Bool.false_eq_true, if_false]

theorem tradeRoundM_eq (ht : IsTable df) (ha : AbovePrices prc df P) (c : ℚ) : ∀ (ps : List (ℕ × ℕ)) (q : ℕ → ℚ),
    (∀ p ∈ ps, p ∈ allPairs df) →
    (tradeRoundM prc c q ps).1 = (tradeRound (valueAt (atPrice prc P df) (fun r => r.price)) c q ps).1 ∧
      (tradeRoundM prc c q ps).2 =
        (tradeRound (valueAt (atPrice prc P df) (fun r => r.price)) c q ps).2.map (meetingFor c prc df)
  | [], _, _ => ⟨rfl, rfl⟩
  | p :: ps, q, hp => by
    obtain ⟨h1, h2⟩ := tradeOneM_eq ht ha c q (hp p List.mem_cons_self)
    obtain ⟨h3, h4⟩ := tradeRoundM_eq ht ha c ps (tradeOneM prc c q p).1 (fun p' hp' => hp p' (List.mem_cons_of_mem _ hp'))
    unfold tradeRoundM tradeRound
    simp only [List.map_append]
    rw [← h1, ← h2, h3, h4]
    exact ⟨rfl, rfl⟩

theorem p2pLoopM_eq (ht : IsTable df) (ha : AbovePrices prc df P) (c : ℚ) (choice : ℕ → ℕ) : ∀ (m : ℕ) {n : ℕ}
    {q : ℕ → ℚ} {active : List (ℕ × ℕ)} {inactive : List ℕ}, active.length ≤ m → (∀ p ∈ active, p ∈ allPairs df) →
    (p2pLoopM df prc c choice n q active inactive).1 =
        (p2pLoop (atPrice prc P df) (valueAt (atPrice prc P df) (fun r => r.price)) c choice n q active inactive).1 ∧
      (p2pLoopM df prc c choice n q active inactive).2 =
        (p2pLoop (atPrice prc P df) (valueAt (atPrice prc P df) (fun r => r.price)) c choice n q active inactive).2.map
          (meetingFor c prc df) := by
  have hex : ∀ q, exhausted (atPrice prc P df) q = exhausted df q := fun q => by
    unfold exhausted
    rw [buys_price, sells_price, List.map_map, List.map_map]
    rfl
  intro m
  induction m with
  | zero =>
    intro n q active inactive hm _
    have e : active = [] := List.length_eq_zero_iff.mp (Nat.le_zero.mp hm)
    subst e
    have e2 : maskOut [] inactive = [] := List.eq_nil_of_subset_nil (maskOut_sublist [] inactive).subset
    rw [p2pLoopM, p2pLoop]
    simp [e2]
  | succ m ih =>
    intro n q active inactive hm hp
    have es : (atPrice prc P df).map (fun r => q r.label) = df.map (fun r => q r.label) := by
      rw [atPrice_eq, List.map_map]
      rfl
    rw [p2pLoopM, p2pLoop]
    simp only [es]
    by_cases hc : 0 < (df.map (fun r => q r.label)).sum ∧ maskOut active inactive ≠ []
    · rw [dif_pos hc, dif_pos hc]
      have hsub := meetLoop_mem choice n active (maskOut active inactive)
      have hlt := meetLoop_active_lt choice n active (maskOut active inactive) hc.2 (maskOut_sublist active inactive).subset
      obtain ⟨h1, h2⟩ := tradeRoundM_eq ht ha c (meetLoop choice n active (maskOut active inactive)).2.2 q
        (fun p hp' => hp p ((maskOut_sublist active inactive).subset (hsub.2 hp')))
      rw [hex]
      obtain ⟨h3, h4⟩ := ih (n := (meetLoop choice n active (maskOut active inactive)).1)
        (q := (tradeRoundM prc c q (meetLoop choice n active (maskOut active inactive)).2.2).1)
        (inactive := exhausted df (tradeRoundM prc c q (meetLoop choice n active (maskOut active inactive)).2.2).1)
        (active := (meetLoop choice n active (maskOut active inactive)).2.1) (by omega)
        (fun p hp' => hp p (hsub.1 hp'))
      rw [h1] at h3 h4
      refine ⟨?_, ?_⟩
      · show _ :: _ = _ :: _
        rw [h1, h3]
      · show _ ++ _ = List.map _ (_ ++ _)
        rw [h1, h2, h4, List.map_append]
    · rw [dif_neg hc, dif_neg hc]
      exact ⟨rfl, rfl⟩

end

section

variable (prc : ℕ → Ext) (df : DF) (P : ℚ)

/-- C131, peer to peer: the same bids meet and trade the same quantities as in the filled book; the price of a meeting
is the weighted mean of the two prices. -/
theorem C131_p2p (ht : IsTable df) (ha : AbovePrices prc df P) (c : ℚ) (choice : ℕ → ℕ) :
    ∃ tm rounds, p2pRandom c choice (atPrice prc P df) = .ok (tm, .p2p rounds) ∧
      p2pRandomM c choice df prc = (rounds, tm.trans.map (meetingFor c prc df)) := by
  have hq : valueAt (atPrice prc P df) (fun r => r.quantity) = valueAt df (fun r => r.quantity) := by
    funext i
    unfold valueAt
    rw [atPrice_eq, List.getElem?_map]
    cases df[i]? <;> rfl
  have hpairs : allPairs (atPrice prc P df) = allPairs df := by
    unfold allPairs
    rw [buys_price, sells_price, List.flatMap_map]
    congr 1
    funext b
    rw [List.map_map]
    rfl
  refine ⟨_, _, rfl, ?_⟩
  rw [hq, hpairs, TransactionManager.init_addAll_trans]
  obtain ⟨h1, h2⟩ := p2pLoopM_eq ht ha c choice (allPairs df).length (n := 0)
    (q := valueAt df (fun r => r.quantity)) (active := allPairs df) (inactive := []) (le_refl _) (fun p hp => hp)
  exact Prod.ext h1 h2

theorem meetingPrice_top {c : ℚ} {b s : ℕ} (hb : prc b = ⊤) (hs : prc s ≠ ⊤) (hc : 0 ≤ c) :
    meetingPrice c prc b s = if c = 0 then .nan else .inf := by
  unfold meetingPrice
  rw [if_pos (by rw [hb]; exact le_top), hb]
  generalize prc s = e at hs
  induction e using WithTop.recTopCoe with
  | top => exact absurd rfl hs
  | coe p =>
    show (if 0 < c then Val.inf else if c < 0 then .ninf else .nan).add (.fin ((1 - c) * p)) = _
    rcases hc.eq_or_lt with rfl | h
    · rw [if_neg (lt_irrefl _), if_neg (lt_irrefl _), if_pos rfl]
      rfl
    · rw [if_pos h, if_neg h.ne']
      rfl

theorem exists_above : ∀ df : DF, ∃ P, AbovePrices prc df P
  | [] => ⟨1, one_pos, fun _ h => absurd h List.not_mem_nil⟩
  | r :: df => by
    obtain ⟨P, hP, h⟩ := exists_above df
    refine ⟨P + |(prc r.label).untopD 0|, by positivity, fun r' hr' hn => ?_⟩
    rcases List.mem_cons.mp hr' with rfl | hr'
    · generalize prc r'.label = e at hn
      induction e using WithTop.recTopCoe with
      | top => exact absurd rfl hn
      | coe q =>
        exact WithTop.coe_lt_coe.mpr (lt_of_le_of_lt (le_abs_self q) (lt_add_of_pos_left _ hP))
    · exact lt_of_lt_of_le (h r' hr' hn) (WithTop.coe_le_coe.mpr (le_add_of_nonneg_right (abs_nonneg _)))

/-- C131: a buyer at any price that meets a seller with a finite price trades at an infinite price, or at NaN if the
buyer's price has weight zero. -/
theorem C131_p2p_price (ht : IsTable df) (c : ℚ) (hc : 0 ≤ c) (choice : ℕ → ℕ) (t : TransM)
    (h : t ∈ (p2pRandomM c choice df prc).2) (hb : isBuy df t.bid = true) (hp : prc t.bid = ⊤)
    (hs : prc t.source.toNat ≠ ⊤) : t.price = if c = 0 then .nan else .inf := by
  obtain ⟨P, ha⟩ := exists_above prc df
  obtain ⟨tm, rounds, _, h2⟩ := C131_p2p prc df P ht ha c choice
  rw [h2] at h
  obtain ⟨t', _, rfl⟩ := List.mem_map.mp h
  show (if isBuy df t'.bid = true then _ else _) = _
  rw [if_pos (show isBuy df t'.bid = true from hb)]
  exact meetingPrice_top prc hp hs hc

end

/-! ## A concrete sort and examples -/

theorem takeIdx_sortedE (l : List Ext) (r : Ext → Ext → Prop) (is : List ℕ)
    (h : is.Pairwise (fun i j => r (l.getD i ((0 : ℚ) : Ext)) (l.getD j ((0 : ℚ) : Ext)))) :
    (takeIdx l is).Pairwise r := by
  unfold takeIdx
  induction is with
  | nil => simp
  | cons i is ih =>
    rw [List.pairwise_cons] at h
    rw [List.filterMap_cons]
    cases hi : l[i]? with
    | none => exact ih h.2
    | some v =>
      simp only [List.pairwise_cons]
      refine ⟨?_, ih h.2⟩
      intro w hw
      rw [List.mem_filterMap] at hw
      obtain ⟨j, hj, hjw⟩ := hw
      have := h.1 j hj
      simpa [List.getD_eq_getElem?_getD, hi, hjw] using this

/-- Stable insertion sort of a column with infinite entries. -/
def stableExtSorter : ExtSorter where
  asc l := (List.range l.length).insertionSort (fun i j => l.getD i ((0 : ℚ) : Ext) ≤ l.getD j ((0 : ℚ) : Ext))
  desc l := (List.range l.length).insertionSort (fun i j => l.getD j ((0 : ℚ) : Ext) ≤ l.getD i ((0 : ℚ) : Ext))
  asc_perm _ := List.perm_insertionSort _ _
  desc_perm _ := List.perm_insertionSort _ _
  asc_sorted l := by
    apply takeIdx_sortedE
    have : Std.Total (fun i j : ℕ => l.getD i ((0 : ℚ) : Ext) ≤ l.getD j ((0 : ℚ) : Ext)) := ⟨fun i j => le_total _ _⟩
    have : IsTrans ℕ (fun i j : ℕ => l.getD i ((0 : ℚ) : Ext) ≤ l.getD j ((0 : ℚ) : Ext)) := ⟨fun i j k => le_trans⟩
    exact List.pairwise_insertionSort _ _
  desc_sorted l := by
    apply takeIdx_sortedE l (fun a b => b ≤ a)
    have : Std.Total (fun i j : ℕ => l.getD j ((0 : ℚ) : Ext) ≤ l.getD i ((0 : ℚ) : Ext)) := ⟨fun i j => le_total _ _⟩
    have : IsTrans ℕ (fun i j : ℕ => l.getD j ((0 : ℚ) : Ext) ≤ l.getD i ((0 : ℚ) : Ext)) :=
      ⟨fun i j k h1 h2 => le_trans h2 h1⟩
    exact List.pairwise_insertionSort _ _

theorem insertionSort_rel {α : Type*} {r s : α → α → Prop} [hr : DecidableRel r] [hs : DecidableRel s] (l : List α)
    (h : ∀ a b, r a b ↔ s a b) : l.insertionSort r = l.insertionSort s := by
  obtain rfl : r = s := funext fun a => funext fun b => propext (h a b)
  have : hr = hs := Subsingleton.elim _ _
  rw [this]

/-- Stable sorts treat infinity like a large number. -/
theorem stable_alike {P : ℚ} (hP : 0 < P) : SortsAlike stableExtSorter stableSorter P := by
  intro l hl
  have key : ∀ i, (l.map (fun e : Ext => e.untopD P)).getD i 0 = (l.getD i ((0 : ℚ) : Ext)).untopD P := by
    intro i
    rw [List.getD_eq_getElem?_getD, List.getD_eq_getElem?_getD, List.getElem?_map]
    cases l[i]? <;> rfl
  have small : ∀ i, l.getD i ((0 : ℚ) : Ext) ≠ ⊤ → l.getD i ((0 : ℚ) : Ext) < (P : Ext) := by
    intro i
    rw [List.getD_eq_getElem?_getD]
    cases hi : l[i]? with
    | none => exact fun _ => WithTop.coe_lt_coe.mpr hP
    | some e => exact hl e (List.mem_of_getElem? hi)
  constructor
  · show (List.range (l.map _).length).insertionSort _ = (List.range l.length).insertionSort _
    rw [List.length_map]
    exact insertionSort_rel _ (fun i j => by rw [key, key]; exact untop_le_iff (small i) (small j))
  · show (List.range (l.map _).length).insertionSort _ = (List.range l.length).insertionSort _
    rw [List.length_map]
    exact insertionSort_rel _ (fun i j => by rw [key, key]; exact untop_le_iff (small j) (small i))

/-- The first two buyers pay any price. -/
def anyPrice : ℕ → Ext
  | 0 => ⊤
  | 1 => ⊤
  | 2 => ((6 : ℚ) : Ext)
  | 3 => ((1 : ℚ) : Ext)
  | 4 => ((2 : ℚ) : Ext)
  | _ => ((5 : ℚ) : Ext)

/-- Two buyers at any price and one with a limit; the sellers offer enough. -/
def anyBook : DF :=
  labelFrom 0 [⟨1, 0, 0, true, 0, true⟩, ⟨1, 0, 1, true, 0, true⟩, ⟨1, 0, 2, true, 0, true⟩, ⟨1, 0, 3, false, 0, true⟩,
    ⟨1/2, 0, 4, false, 0, true⟩, ⟨2, 0, 5, false, 0, true⟩]

/-- The same buyers; the sellers offer less than the buyers at any price ask for. -/
def scarceBook : DF := anyBook.take 5


example : SortsAlike stableExtSorter stableSorter 100 := stable_alike (by norm_num)

/-- The hypotheses of the `partial` theorems hold, and something is traded. -/
example : NonNegM anyPrice anyBook ∧ IsTable anyBook ∧ AbovePrices anyPrice anyBook 100 ∧
    marketQty anyPrice anyBook = 2 ∧ offeredQty anyBook = 7/2 ∧
    huangAuctionM stableExtSorter anyBook anyPrice =
      .ok ([⟨3, 1, .fin 5, -1, false⟩, ⟨4, 1/2, .fin 5, -1, false⟩, ⟨0, 3/4, .fin 6, -1, false⟩,
        ⟨1, 3/4, .fin 6, -1, false⟩], some (((5 : ℚ) : Ext), ((6 : ℚ) : Ext), 3/2)) ∧
    uniformPriceM stableExtSorter anyBook anyPrice =
      .ok ([⟨0, 1, .fin 5, -1, false⟩, ⟨1, 1, .fin 5, -1, false⟩, ⟨2, 1, .fin 5, -1, false⟩, ⟨3, 1, .fin 5, -1, false⟩,
        ⟨4, 1/2, .fin 5, -1, false⟩, ⟨5, 3/2, .fin 5, -1, false⟩], some ((3 : ℚ) : Ext), .fin 5) := by decide +kernel

/-- The hypotheses of the `blocked` theorems. -/
example : NonNegM anyPrice scarceBook ∧ AbovePrices anyPrice scarceBook 100 ∧
    pricedQty anyPrice scarceBook < marketQty anyPrice scarceBook := by decide +kernel

/-- Meetings with buyers at any price, with weight one half and with weight zero on the buyer's price. -/
example : (p2pRandomM (1/2) (fun _ => 0) anyBook anyPrice).2.map (fun t => (t.bid, t.source, t.price)) =
      [(0, 3, .inf), (3, 0, .inf), (1, 4, .inf), (4, 1, .inf), (2, 5, .fin (11/2)), (5, 2, .fin (11/2)), (1, 5, .inf),
        (5, 1, .inf)] ∧
    (p2pRandomM 0 (fun _ => 0) anyBook anyPrice).2.map (fun t => (t.bid, t.source, t.price)) =
      [(0, 3, .nan), (3, 0, .nan), (1, 4, .nan), (4, 1, .nan), (2, 5, .fin 5), (5, 2, .fin 5), (1, 5, .nan),
        (5, 1, .nan)] := by decide +kernel

/-- C131, Huang's auction: when the buyers at any price ask for more than is offered, the book with a large number in
place of infinity trades and the book with infinite prices does not. -/
theorem C131_huang_refuted : ∃ (S : Sorter) (SE : ExtSorter) (prc : ℕ → Ext) (df : DF) (P : ℚ), NonNegM prc df ∧
    IsTable df ∧ AbovePrices prc df P ∧ SortsAlike SE S P ∧ huangAuctionM SE df prc = .ok ([], none) ∧
    (huangAuction S (atPrice prc P df)).map (fun o => o.1.trans) = .ok [⟨3, 1, 2, -1, false⟩, ⟨0, 1, P, -1, false⟩] :=
  ⟨stableSorter, stableExtSorter, anyPrice, scarceBook, 100, by decide +kernel, by decide +kernel, by decide +kernel,
    stable_alike (by norm_num), by decide +kernel, by decide +kernel⟩

/-- C131, uniform price: the same book raises `TypeError`, and trades with a large number in place of infinity. -/
theorem C131_uniform_refuted : ∃ (S : Sorter) (SE : ExtSorter) (prc : ℕ → Ext) (df : DF) (P : ℚ), NonNegM prc df ∧
    IsTable df ∧ AbovePrices prc df P ∧ SortsAlike SE S P ∧ uniformPriceM SE df prc = .error .typeError ∧
    (uniformPrice S (atPrice prc P df)).map (fun o => (o.1.trans, o.2.2)) =
      .ok ([⟨3, 1, P, -1, false⟩, ⟨4, 1/2, P, -1, false⟩, ⟨0, 1, P, -1, false⟩, ⟨1, 1/2, P, -1, false⟩], .fin P) :=
  ⟨stableSorter, stableExtSorter, anyPrice, scarceBook, 100, by decide +kernel, by decide +kernel, by decide +kernel,
    stable_alike (by norm_num), by decide +kernel, by decide +kernel⟩

/-- C131, peer to peer: when only the seller's price counts, a large number in place of infinity gives the seller's price,
and infinity gives NaN. -/
theorem C131_p2p_refuted : ∃ (prc : ℕ → Ext) (df : DF) (P : ℚ) (choice : ℕ → ℕ), IsTable df ∧ AbovePrices prc df P ∧
    (p2pRandomM 0 choice df prc).2.head? = some ⟨0, 1, .nan, 3, false⟩ ∧
    (p2pRandom 0 choice (atPrice prc P df)).map (fun o => o.1.trans.head?) = .ok (some ⟨0, 1, 1, 3, false⟩) :=
  ⟨anyPrice, anyBook, 100, fun _ => 0, by decide +kernel, by decide +kernel, by decide +kernel, by decide +kernel⟩

end PyMarket
