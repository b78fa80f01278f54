import Verif.Lemmas.MudaSide

/-! # One half of a MUDA run -/

set_option autoImplicit false

namespace PyMarket

open Spec

/-- Gain per unit of a buying bid at price `p`. -/
def buyGain (p : ℚ) (r : Row) : ℚ := r.price - p

/-- Gain per unit of a selling bid at price `p`. -/
def sellGain (p : ℚ) (r : Row) : ℚ := p - r.price

theorem mem_willingDemand {S : Sorter} {H : DF} {v : Val} {r : Row} :
    r ∈ willingDemand S H v ↔ r ∈ H ∧ r.buying = true ∧ v.leRat r.price = true := by
  unfold willingDemand
  rw [mem_sortDesc, List.mem_filter, mem_buys, and_assoc]

theorem mem_willingSupply {S : Sorter} {H : DF} {v : Val} {r : Row} :
    r ∈ willingSupply S H v ↔ r ∈ H ∧ r.buying = false ∧ Val.ratLe r.price v = true := by
  unfold willingSupply
  rw [mem_sortAsc, List.mem_filter, mem_sells, and_assoc]

theorem willingDemand_perm (S : Sorter) (H : DF) (p : ℚ) :
    (willingDemand S H (.fin p)).Perm (H.filter (fun r => r.buying && decide (p ≤ r.price))) := by
  unfold willingDemand
  refine (sortDesc_perm S _).trans ?_
  unfold buys
  rw [List.filter_filter]
  apply List.Perm.of_eq
  apply List.filter_congr
  intro r _
  rw [Bool.and_comm]; rfl

theorem willingSupply_perm (S : Sorter) (H : DF) (p : ℚ) :
    (willingSupply S H (.fin p)).Perm (H.filter (fun r => !r.buying && decide (r.price ≤ p))) := by
  unfold willingSupply
  refine (sortAsc_perm S _).trans ?_
  unfold sells
  rw [List.filter_filter]
  apply List.Perm.of_eq
  apply List.filter_congr
  intro r _
  rw [Bool.and_comm]; rfl

theorem willingDemand_side {S : Sorter} {H : DF} (hn : (H.map (fun r => r.label)).Nodup)
    (hq : ∀ r ∈ H, 0 ≤ r.quantity) (p : ℚ) :
    Side (willingDemand S H (.fin p)) (buyGain p) p 1 where
  nodup := ((willingDemand_perm S H p).map _).nodup_iff.mpr (hn.sublist (List.filter_sublist.map _))
  nonneg := fun r hr => hq r (mem_willingDemand.mp hr).1
  sorted := (sortDesc_sorted S _).imp (fun h => sub_le_sub_right h p)
  gain := fun r hr => by
    have := (mem_willingDemand.mp hr).2.2
    have : p ≤ r.price := of_decide_eq_true this
    unfold buyGain; linarith
  sign := Or.inl rfl
  weight := fun r => by unfold buyGain; ring

theorem willingSupply_side {S : Sorter} {H : DF} (hn : (H.map (fun r => r.label)).Nodup)
    (hq : ∀ r ∈ H, 0 ≤ r.quantity) (p : ℚ) :
    Side (willingSupply S H (.fin p)) (sellGain p) p (-1) where
  nodup := ((willingSupply_perm S H p).map _).nodup_iff.mpr (hn.sublist (List.filter_sublist.map _))
  nonneg := fun r hr => hq r (mem_willingSupply.mp hr).1
  sorted := (sortAsc_sorted S _).imp (fun h => sub_le_sub_left h p)
  gain := fun r hr => by
    have := (mem_willingSupply.mp hr).2.2
    have : r.price ≤ p := of_decide_eq_true this
    unfold sellGain; linarith
  sign := Or.inr rfl
  weight := fun r => by unfold sellGain; ring

/-- The volume of a half at price `p`. -/
def halfQty (S : Sorter) (H : DF) (p : ℚ) : ℚ :=
  min (qsum (willingDemand S H (.fin p))) (qsum (willingSupply S H (.fin p)))

/-- The trades of a half at price `p`. -/
structure HalfTrade (S : Sorter) (H : DF) (p : ℚ) (ts : List Transaction) : Prop where
  pos : 0 < halfQty S H p
  sides : ∃ tb tl, (ts = tb ++ tl ∨ ts = tl ++ tb) ∧
    SideOut (willingDemand S H (.fin p)) (buyGain p) p (halfQty S H p) tb ∧
    SideOut (willingSupply S H (.fin p)) (sellGain p) p (halfQty S H p) tl

/-- The side with the larger willing quantity (demand when equal). -/
def longIsSupply (S : Sorter) (H : DF) (p : ℚ) : Bool :=
  decide (qsum (willingDemand S H (.fin p)) < qsum (willingSupply S H (.fin p)))

/-- Its bids, best first. -/
def longRows (S : Sorter) (H : DF) (p : ℚ) : DF :=
  if longIsSupply S H p then willingSupply S H (.fin p) else willingDemand S H (.fin p)

/-- Their gains. -/
def longGain (S : Sorter) (H : DF) (p : ℚ) : Row → ℚ :=
  if longIsSupply S H p then sellGain p else buyGain p

/-- What the others could gain from `Q` without `u`, minus what they gain. -/
def sideExt (rows : DF) (w : Row → ℚ) (Q : ℚ) (ts : List Transaction) (u : ℤ) : ℚ :=
  greedy (fun r => r.quantity) w Q (rows.filter (fun r => decide (r.user ≠ u))) -
    ((rows.filter (fun r => decide (r.user ≠ u))).map (fun r => w r * tradedBy ts r.label)).sum

theorem disjoint_sides {S : Sorter} {H : DF} (hn : (H.map (fun r => r.label)).Nodup) {v v' : Val}
    {r r' : Row} (hr : r ∈ willingDemand S H v) (hr' : r' ∈ willingSupply S H v') :
    r.label ≠ r'.label := by
  intro he
  have h1 := mem_willingDemand.mp hr
  have h2 := mem_willingSupply.mp hr'
  have := List.inj_on_of_nodup_map hn h1.1 h2.1 he
  subst this
  rw [h1.2.1] at h2
  exact absurd h2.2.1 (by simp)

theorem finite_of_both {S : Sorter} {H : DF} {v : Val}
    (hd : willingDemand S H v ≠ []) (hs : willingSupply S H v ≠ []) : ∃ p, v = .fin p := by
  obtain ⟨r, hr⟩ := List.exists_mem_of_ne_nil _ hd
  obtain ⟨r', hr'⟩ := List.exists_mem_of_ne_nil _ hs
  have h1 := (mem_willingDemand.mp hr).2.2
  have h2 := (mem_willingSupply.mp hr').2.2
  cases v with
  | fin p => exact ⟨p, rfl⟩
  | inf => cases h1
  | ninf => cases h2
  | nan => cases h1

theorem qsum_pos_ne_nil {rows : DF} (h : 0 < qsum rows) : rows ≠ [] := by
  rintro rfl; simp [qsum] at h

/-- All outcomes of one half, without reference to the user ids. -/
theorem solveSide_cases (S : Sorter) {H : DF} (hn : (H.map (fun r => r.label)).Nodup)
    (hq : ∀ r ∈ H, 0 ≤ r.quantity) (v : Val) :
    ((∀ fees, solveSide S H v fees = .ok (TransactionManager.init, fees)) ∧
      ∀ p, v = .fin p → halfQty S H p = 0) ∨
    ∃ p out k tm, v = .fin p ∧ HalfTrade S H p tm.trans ∧
      Side (longRows S H p) (longGain S H p) p (if longIsSupply S H p then -1 else 1) ∧
      TradeCut (longRows S H p) (halfQty S H p) out k ∧
      halfQty S H p ≤ qsum (longRows S H p) ∧
      (∀ r ∈ longRows S H p, tradedBy tm.trans r.label =
        tradedBy (tradingTrans out k p) r.label) ∧
      (∀ t ∈ tm.trans, (∃ r ∈ longRows S H p, r.label = t.bid) →
        t ∈ tradingTrans out k p) ∧
      (∀ t ∈ tradingTrans out k p, t ∈ tm.trans) ∧
      ∀ fees, solveSide S H v fees =
        (feeLoop out k (halfQty S H p) p (tradingUsers out k) fees).map (fun f => (tm, f)) := by
  have hdq : 0 ≤ qsum (willingDemand S H v) :=
    qsum_nonneg (fun r hr => hq r (mem_willingDemand.mp hr).1)
  have hsq : 0 ≤ qsum (willingSupply S H v) :=
    qsum_nonneg (fun r hr => hq r (mem_willingSupply.mp hr).1)
  by_cases hb : (buys H).length = 0
  · left
    refine ⟨fun fees => by unfold solveSide; rw [if_pos hb], ?_⟩
    rintro p rfl
    have : willingDemand S H (.fin p) = [] := by
      rw [List.eq_nil_iff_forall_not_mem]
      intro r hr
      have := mem_willingDemand.mp hr
      have hm : r ∈ buys H := mem_buys.mpr ⟨this.1, this.2.1⟩
      rw [List.length_eq_zero_iff.mp hb] at hm
      cases hm
    unfold halfQty
    rw [this] at hdq ⊢
    exact min_eq_left hsq
  by_cases hs : (sells H).length = 0
  · left
    refine ⟨fun fees => by unfold solveSide; rw [if_neg hb, if_pos hs], ?_⟩
    rintro p rfl
    have : willingSupply S H (.fin p) = [] := by
      rw [List.eq_nil_iff_forall_not_mem]
      intro r hr
      have := mem_willingSupply.mp hr
      have hm : r ∈ sells H := mem_sells.mpr ⟨this.1, this.2.1⟩
      rw [List.length_eq_zero_iff.mp hs] at hm
      cases hm
    unfold halfQty
    rw [this] at hsq ⊢
    exact min_eq_right hdq
  have htot : (if decide (qsum (willingDemand S H v) < qsum (willingSupply S H v)) = true then
      qsum (willingDemand S H v) else qsum (willingSupply S H v)) =
      min (qsum (willingDemand S H v)) (qsum (willingSupply S H v)) := by
    by_cases h : qsum (willingDemand S H v) < qsum (willingSupply S H v)
    · rw [if_pos (decide_eq_true h), min_eq_left h.le]
    · rw [if_neg (by simpa using h), min_eq_right (not_lt.mp h)]
  have hsolve : ∀ fees, solveSide S H v fees =
      if 0 < min (qsum (willingDemand S H v)) (qsum (willingSupply S H v)) then do
        let (longRows, lIndex) ← getTradingBids
          (if decide (qsum (willingDemand S H v) < qsum (willingSupply S H v)) then
            willingSupply S H v else willingDemand S H v)
          (min (qsum (willingDemand S H v)) (qsum (willingSupply S H v)))
        let (shortRows, sIndex) ← getTradingBids
          (if decide (qsum (willingDemand S H v) < qsum (willingSupply S H v)) then
            willingDemand S H v else willingSupply S H v)
          (min (qsum (willingDemand S H v)) (qsum (willingSupply S H v)))
        let fees' ← feeLoop longRows lIndex
          (min (qsum (willingDemand S H v)) (qsum (willingSupply S H v))) v.toRat
          (tradingUsers longRows lIndex) fees
        .ok (TransactionManager.init.addAll (tradingTrans shortRows sIndex v.toRat ++
          tradingTrans longRows lIndex v.toRat), fees')
      else .ok (TransactionManager.init, fees) := by
    intro fees
    rw [← htot]
    unfold solveSide
    rw [if_neg hb, if_neg hs]
  clear htot
  by_cases hpos : 0 < min (qsum (willingDemand S H v)) (qsum (willingSupply S H v))
  · right
    simp only [if_pos hpos] at hsolve
    have hd' := qsum_pos_ne_nil (lt_min_iff.mp hpos).1
    have hs' := qsum_pos_ne_nil (lt_min_iff.mp hpos).2
    obtain ⟨p, rfl⟩ := finite_of_both hd' hs'
    have sd := willingDemand_side (S := S) hn hq p
    have ss := willingSupply_side (S := S) hn hq p
    change 0 < halfQty S H p at hpos
    have hQD : halfQty S H p ≤ qsum (willingDemand S H (.fin p)) := min_le_left _ _
    have hQS : halfQty S H p ≤ qsum (willingSupply S H (.fin p)) := min_le_right _ _
    obtain ⟨od, kd, ed, cd⟩ := getTradingBids_spec hpos.le hd' sd.nonneg hQD
    obtain ⟨os, ks, es, cs⟩ := getTradingBids_spec hpos.le hs' ss.nonneg hQS
    have outd := cd.sideOut sd hpos.le hQD
    have outs := cs.sideOut ss hpos.le hQS
    have crossd : ∀ r ∈ willingDemand S H (.fin p), tradedBy (tradingTrans os ks p) r.label = 0 := by
      intro r hr
      apply tradedBy_not_mem
      intro t ht he
      obtain ⟨r', hr', hl, _⟩ := outs.mem t ht
      exact disjoint_sides hn hr hr' (by rw [← hl]; exact he.symm)
    have crosss : ∀ r ∈ willingSupply S H (.fin p), tradedBy (tradingTrans od kd p) r.label = 0 := by
      intro r hr
      apply tradedBy_not_mem
      intro t ht he
      obtain ⟨r', hr', hl, _⟩ := outd.mem t ht
      exact disjoint_sides hn hr' hr (by rw [← hl]; exact he)
    have hmin : min (qsum (willingDemand S H (.fin p))) (qsum (willingSupply S H (.fin p))) =
        halfQty S H p := rfl
    rw [hmin] at hsolve
    by_cases hl : qsum (willingDemand S H (.fin p)) < qsum (willingSupply S H (.fin p))
    · have hlong : longIsSupply S H p = true := decide_eq_true hl
      refine ⟨p, os, ks, TransactionManager.init.addAll
        (tradingTrans od kd p ++ tradingTrans os ks p), rfl, ?_, ?_, ?_, ?_, ?_, ?_, ?_, ?_⟩
      · rw [TransactionManager.init_addAll_trans]
        exact ⟨hpos, _, _, Or.inl rfl, outd, outs⟩
      · unfold longRows longGain; rw [hlong]; exact ss
      · unfold longRows; rw [hlong]; exact cs
      · unfold longRows; rw [hlong]; exact hQS
      · intro r hr
        unfold longRows at hr; rw [hlong] at hr
        rw [TransactionManager.init_addAll_trans, tradedBy_append, crosss r hr, zero_add]
      · intro t ht hr
        unfold longRows at hr; rw [hlong] at hr
        obtain ⟨r, hr, hrl⟩ := hr
        rw [TransactionManager.init_addAll_trans] at ht
        rcases List.mem_append.mp ht with h | h
        · obtain ⟨r', hr', hl', _⟩ := outd.mem t h
          exact absurd (hl'.symm.trans hrl.symm) (disjoint_sides hn hr' hr)
        · exact h
      · intro t ht
        rw [TransactionManager.init_addAll_trans]
        exact List.mem_append_right _ ht
      · intro fees
        simp only [hsolve fees, hl, decide_true, if_true, es, ed, bind, Except.bind, Val.toRat]
        cases feeLoop os ks (halfQty S H p) p (tradingUsers os ks) fees <;> rfl
    · have hlong : longIsSupply S H p = false := decide_eq_false hl
      refine ⟨p, od, kd, TransactionManager.init.addAll
        (tradingTrans os ks p ++ tradingTrans od kd p), rfl, ?_, ?_, ?_, ?_, ?_, ?_, ?_, ?_⟩
      · rw [TransactionManager.init_addAll_trans]
        exact ⟨hpos, _, _, Or.inr rfl, outd, outs⟩
      · unfold longRows longGain; rw [hlong]; exact sd
      · unfold longRows; rw [hlong]; exact cd
      · unfold longRows; rw [hlong]; exact hQD
      · intro r hr
        unfold longRows at hr; rw [hlong] at hr
        rw [TransactionManager.init_addAll_trans, tradedBy_append, crossd r hr, zero_add]
      · intro t ht hr
        unfold longRows at hr; rw [hlong] at hr
        obtain ⟨r, hr, hrl⟩ := hr
        rw [TransactionManager.init_addAll_trans] at ht
        rcases List.mem_append.mp ht with h | h
        · obtain ⟨r', hr', hl', _⟩ := outs.mem t h
          exact absurd (hrl.trans hl') (disjoint_sides hn hr hr')
        · exact h
      · intro t ht
        rw [TransactionManager.init_addAll_trans]
        exact List.mem_append_right _ ht
      · intro fees
        simp only [hsolve fees, hl, decide_false, Bool.false_eq_true, if_false, es, ed, bind, Except.bind,
          Val.toRat]
        cases feeLoop od kd (halfQty S H p) p (tradingUsers od kd) fees <;> rfl
  · left
    refine ⟨fun fees => by rw [hsolve fees, if_neg hpos], ?_⟩
    rintro p rfl
    exact le_antisymm (not_lt.mp hpos) (le_min hdq hsq)

/-- Outcomes of a half that returned. -/
theorem solveSide_trades (S : Sorter) {H : DF} (hn : (H.map (fun r => r.label)).Nodup)
    (hq : ∀ r ∈ H, 0 ≤ r.quantity) {v : Val} {fees fees' : List ℚ} {tm : TransactionManager}
    (h : solveSide S H v fees = .ok (tm, fees')) :
    (tm.trans = [] ∧ fees' = fees ∧ ∀ p, v = .fin p → halfQty S H p = 0) ∨
    ∃ p, v = .fin p ∧ HalfTrade S H p tm.trans := by
  rcases solveSide_cases S hn hq v with ⟨he, hz⟩ | ⟨p, out, k, tm', hv, ht, _, _, _, _, _, _, he⟩
  · left
    rw [he] at h
    cases h
    exact ⟨rfl, rfl, hz⟩
  · right
    refine ⟨p, hv, ?_⟩
    rw [he] at h
    cases hf : feeLoop out k (halfQty S H p) p (tradingUsers out k) fees with
    | error e => rw [hf] at h; cases h
    | ok f => rw [hf] at h; cases h; exact ht

/-- The fees after a half, when the user ids are valid positions. -/
structure HalfFees (S : Sorter) (H : DF) (v : Val) (ts : List Transaction)
    (fees fees' : List ℚ) : Prop where
  length : fees'.length = fees.length
  none : ts = [] → fees' = fees
  fee : ∀ p, v = .fin p → HalfTrade S H p ts → ∀ u : ℕ, u < fees.length → fees'[u]? =
    if ∃ t ∈ ts, ∃ r ∈ longRows S H p, r.label = t.bid ∧ r.user = u then
      some (sideExt (longRows S H p) (longGain S H p) (halfQty S H p) ts u) else fees[u]?

theorem HalfTrade.ne_nil {S : Sorter} {H : DF} {p : ℚ} {ts : List Transaction}
    (h : HalfTrade S H p ts) : ts ≠ [] := by
  obtain ⟨tb, tl, hor, hb, _⟩ := h.sides
  rintro rfl
  have : tb = [] := by
    rcases hor with h | h
    · exact (List.append_eq_nil_iff.mp h.symm).1
    · exact (List.append_eq_nil_iff.mp h.symm).2
  have hs := hb.sum
  rw [this] at hs
  have := h.pos
  simp at hs
  linarith

theorem solveSide_fees (S : Sorter) {H : DF} (hn : (H.map (fun r => r.label)).Nodup)
    (hq : ∀ r ∈ H, 0 ≤ r.quantity) (v : Val) {fees : List ℚ}
    (hu : ∀ r ∈ H, 0 ≤ r.user ∧ r.user < fees.length) :
    ∃ tm fees', solveSide S H v fees = .ok (tm, fees') ∧ HalfFees S H v tm.trans fees fees' := by
  rcases solveSide_cases S hn hq v with
    ⟨he, hz⟩ | ⟨p, out, k, tm, hv, ht, hside, hcut, hle, htb, hin, hout, he⟩
  · refine ⟨_, _, he fees, rfl, fun _ => rfl, ?_⟩
    intro p hv ht
    exact absurd (rfl : TransactionManager.init.trans = []) ht.ne_nil
  · have hlongH : ∀ r ∈ longRows S H p, r ∈ H := by
      intro r hr
      unfold longRows at hr
      split at hr
      · exact (mem_willingSupply.mp hr).1
      · exact (mem_willingDemand.mp hr).1
    have hus : ∀ u ∈ tradingUsers out k, 0 ≤ u ∧ u < fees.length := by
      intro u huu
      obtain ⟨t, _, r, hr, _, rfl⟩ := (hcut.users (p := p) hside.nodup u).mp huu
      exact hu r (hlongH r hr)
    obtain ⟨fees', e1, e2, e3⟩ := feeLoop_ok (long := out) (k := k) (Q := halfQty S H p) (p := p) hus
    refine ⟨tm, fees', by rw [he, e1]; rfl, e2, fun h => absurd h ht.ne_nil, ?_⟩
    intro p' hv' _ u huu
    have : p' = p := by rw [hv] at hv'; cases hv'; rfl
    subst this
    rw [e3 u huu]
    have hiff : (u : ℤ) ∈ tradingUsers out k ↔
        ∃ t ∈ tm.trans, ∃ r ∈ longRows S H p', r.label = t.bid ∧ r.user = u := by
      rw [hcut.users (p := p') hside.nodup]
      constructor
      · rintro ⟨t, h1, h2⟩; exact ⟨t, hout t h1, h2⟩
      · rintro ⟨t, h1, r, hr, hl, h2⟩
        exact ⟨t, hin t h1 ⟨r, hr, hl⟩, r, hr, hl, h2⟩
    by_cases hm : (u : ℤ) ∈ tradingUsers out k
    · rw [if_pos hm, if_pos (hiff.mp hm), hcut.fee hside ht.pos.le hle]
      unfold sideExt
      congr 2
      congr 1
      apply List.map_congr_left
      intro r hr
      rw [htb r (List.mem_filter.mp hr).1]
    · rw [if_neg hm, if_neg (fun h => hm (hiff.mpr h))]

end PyMarket
