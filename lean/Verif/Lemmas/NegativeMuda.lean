import Verif.Lemmas.NegativeQty
import Verif.Lemmas.MudaHalf
import Verif.Lemmas.MudaRun

/-! # MUDA's halves with quantities of either sign -/

set_option autoImplicit false

namespace PyMarket

open Spec

/-- The trading part of a side: quantities that sum to `Q`, for each bid at most `g`. -/
structure Portion (g : Row → ℚ) (rows part : DF) (Q : ℚ) : Prop where
  total : qsum part = Q
  labels : (part.map (fun r => r.label)).Sublist (rows.map (fun r => r.label))
  le : ∀ r' ∈ part, ∃ r ∈ rows, r'.label = r.label ∧ r'.quantity ≤ g r

theorem getTradingBids_signed {rows : DF} {Q : ℚ} (hQ : 0 ≤ Q) (hne : rows ≠ [])
    (hle : Q ≤ qsum rows) :
    ∃ out k, getTradingBids rows Q = .ok (out, k) ∧
      Portion (fun r => r.quantity) rows (out.take (k + 1)) Q := by
  have hcut : ∃ A r B, rows = A ++ r :: B ∧
      lastIndex (rows.map (fun r => r.quantity)) Q = A.length ∧ Q - qsum A ≤ r.quantity := by
    unfold lastIndex
    by_cases h : Q < (rows.map (fun r => r.quantity)).sum
    · rw [if_pos h]
      obtain ⟨A, x, B, rfl, hf, h1, h2⟩ := cumsum_first (q := fun r : Row => r.quantity) (Q := Q) 0
        rows hQ (by rw [zero_add]; exact h)
      rw [zero_add, total_quantity] at h1 h2
      refine ⟨A, x, B, rfl, ?_, by linarith⟩
      unfold argmaxTrue cumsum
      rw [hf]; rfl
    · rw [if_neg h]
      obtain ⟨A, x, rfl⟩ : ∃ A x, rows = A ++ [x] := by
        rcases List.eq_nil_or_concat rows with h' | ⟨A, x, h'⟩
        · exact absurd h' hne
        · exact ⟨A, x, by simpa using h'⟩
      refine ⟨A, x, [], rfl, by simp, ?_⟩
      simp only [qsum_append, qsum_cons, qsum_nil, add_zero] at hle
      linarith
  obtain ⟨A, r, B, rfl, hi, hd'⟩ := hcut
  have htake : ∀ (r' : Row) (E : DF), (A ++ r' :: E).take (A.length + 1) = A ++ [r'] := by
    intro r' E
    rw [List.take_append, List.take_of_length_le (by simp)]; simp
  have hport : Portion (fun r => r.quantity) (A ++ r :: B)
      (A ++ [{ r with quantity := Q - qsum A }]) Q := by
    refine ⟨by simp, ?_, ?_⟩
    · simp only [List.map_append, List.map_cons, List.map_nil]
      exact List.Sublist.append (List.Sublist.refl _) (by simp)
    · intro r' hr'
      rcases List.mem_append.mp hr' with h | h
      · exact ⟨r', by simp [h], rfl, le_refl _⟩
      · rw [List.mem_singleton] at h
        subst h
        exact ⟨r, by simp, rfl, hd'⟩
  unfold getTradingBids
  rw [if_neg (by simp), hi]
  simp only [List.getElem?_append_right (le_refl _), Nat.sub_self, List.getElem?_cons_zero,
    List.take_left', List.drop_append]
  by_cases hd : Q - qsum A < r.quantity
  · rw [if_pos hd]
    refine ⟨_, _, rfl, ?_⟩
    rw [htake]
    exact hport
  · rw [if_neg hd]
    refine ⟨_, _, rfl, ?_⟩
    rw [htake]
    have : Q - qsum A = r.quantity := le_antisymm hd' (not_lt.mp hd)
    rw [this] at hport
    exact hport

/-- Transactions of bids of `H`: the same quantity on both sides, every bid at most once, no bid more
than `g`. -/
structure HalfSigned (g : Row → ℚ) (df H : DF) (ts : List Transaction) : Prop where
  balanced : boughtQty df ts = soldQty df ts
  bids : (ts.map (fun t => t.bid)).Nodup
  own : ∀ t ∈ ts, ∃ r ∈ H, r.label = t.bid ∧ t.quantity ≤ g r

theorem HalfSigned.nil (g : Row → ℚ) (df H : DF) : HalfSigned g df H [] :=
  ⟨rfl, List.nodup_nil, fun _ h => by cases h⟩

theorem portion_buys {g : Row → ℚ} {df rows part : DF} {Q p : ℚ} (ht : IsTable df)
    (hr : ∀ r ∈ rows, r ∈ df ∧ r.buying = true) (h : Portion g rows part Q) :
    boughtQty df (mkTrans p part) = Q ∧ soldQty df (mkTrans p part) = 0 := by
  have hb : ∀ r ∈ part, isBuy df r.label = true ∧ isSell df r.label = false := by
    intro r hrp
    obtain ⟨r0, hr0, hl, _⟩ := h.le r hrp
    rw [hl, ht.isBuy_eq (hr r0 hr0).1, ht.isSell_eq (hr r0 hr0).1, (hr r0 hr0).2]
    exact ⟨rfl, rfl⟩
  have e1 : (mkTrans p part).filter (fun t => isBuy df t.bid) = mkTrans p part := by
    rw [List.filter_eq_self]
    intro t htr
    obtain ⟨r, hrp, rfl⟩ := List.mem_map.mp htr
    exact (hb r hrp).1
  have e2 : (mkTrans p part).filter (fun t => isSell df t.bid) = [] := by
    rw [List.filter_eq_nil_iff]
    intro t htr
    obtain ⟨r, hrp, rfl⟩ := List.mem_map.mp htr
    simp only [(hb r hrp).2]; simp
  unfold boughtQty soldQty
  rw [e1, e2, ← h.total]
  refine ⟨?_, rfl⟩
  unfold mkTrans qsum
  rw [List.map_map]; rfl

theorem portion_sells {g : Row → ℚ} {df rows part : DF} {Q p : ℚ} (ht : IsTable df)
    (hr : ∀ r ∈ rows, r ∈ df ∧ r.buying = false) (h : Portion g rows part Q) :
    boughtQty df (mkTrans p part) = 0 ∧ soldQty df (mkTrans p part) = Q := by
  have hb : ∀ r ∈ part, isBuy df r.label = false ∧ isSell df r.label = true := by
    intro r hrp
    obtain ⟨r0, hr0, hl, _⟩ := h.le r hrp
    rw [hl, ht.isBuy_eq (hr r0 hr0).1, ht.isSell_eq (hr r0 hr0).1, (hr r0 hr0).2]
    exact ⟨rfl, rfl⟩
  have e1 : (mkTrans p part).filter (fun t => isSell df t.bid) = mkTrans p part := by
    rw [List.filter_eq_self]
    intro t htr
    obtain ⟨r, hrp, rfl⟩ := List.mem_map.mp htr
    exact (hb r hrp).2
  have e2 : (mkTrans p part).filter (fun t => isBuy df t.bid) = [] := by
    rw [List.filter_eq_nil_iff]
    intro t htr
    obtain ⟨r, hrp, rfl⟩ := List.mem_map.mp htr
    simp only [(hb r hrp).1]; simp
  unfold boughtQty soldQty
  rw [e1, e2, ← h.total]
  refine ⟨rfl, ?_⟩
  unfold mkTrans qsum
  rw [List.map_map]; rfl

theorem mkTrans_bids (p : ℚ) (rows : DF) :
    (mkTrans p rows).map (fun t => t.bid) = rows.map (fun r => r.label) := by
  unfold mkTrans
  rw [List.map_map]; rfl

theorem portions_halfSigned {g : Row → ℚ} {df H D U d u : DF} {Q p : ℚ} (ht : IsTable df) (hH : ∀ r ∈ H, r ∈ df)
    (hD : ∀ r ∈ D, r ∈ H ∧ r.buying = true) (hU : ∀ r ∈ U, r ∈ H ∧ r.buying = false)
    (hDn : (D.map (fun r => r.label)).Nodup) (hUn : (U.map (fun r => r.label)).Nodup)
    (hd : Portion g D d Q) (hu : Portion g U u Q) {ts : List Transaction}
    (hts : ts = mkTrans p d ++ mkTrans p u ∨ ts = mkTrans p u ++ mkTrans p d) :
    HalfSigned g df H ts := by
  have hd' := portion_buys (p := p) ht (fun r hr => ⟨hH r (hD r hr).1, (hD r hr).2⟩) hd
  have hu' := portion_sells (p := p) ht (fun r hr => ⟨hH r (hU r hr).1, (hU r hr).2⟩) hu
  have hperm : ts.Perm (mkTrans p d ++ mkTrans p u) := by
    rcases hts with rfl | rfl
    · exact List.Perm.refl _
    · exact List.perm_append_comm
  have hown : ∀ {R part : DF} (_ : ∀ r ∈ R, r ∈ H) (_ : Portion g R part Q),
      ∀ t ∈ mkTrans p part, ∃ r ∈ H, r.label = t.bid ∧ t.quantity ≤ g r := by
    intro R part hR hp t htr
    obtain ⟨r', hr', rfl⟩ := List.mem_map.mp htr
    obtain ⟨r, hr, hl, hq⟩ := hp.le r' hr'
    exact ⟨r, hR r hr, hl.symm, hq⟩
  refine ⟨?_, ?_, ?_⟩
  · rcases hts with rfl | rfl
    · rw [boughtQty_append, soldQty_append, hd'.1, hd'.2, hu'.1, hu'.2]; ring
    · rw [boughtQty_append, soldQty_append, hd'.1, hd'.2, hu'.1, hu'.2]; ring
  · rw [(hperm.map _).nodup_iff, List.map_append, mkTrans_bids, mkTrans_bids, List.nodup_append]
    refine ⟨hDn.sublist hd.labels, hUn.sublist hu.labels, ?_⟩
    intro a ha b hb hab
    subst hab
    obtain ⟨r, hr, hra⟩ := List.mem_map.mp (hd.labels.subset ha)
    obtain ⟨r', hr', hra'⟩ := List.mem_map.mp (hu.labels.subset hb)
    have hbuy := ht.isBuy_eq (hH r (hD r hr).1)
    have hbuy' := ht.isBuy_eq (hH r' (hU r' hr').1)
    rw [hra, (hD r hr).2] at hbuy
    rw [hra', (hU r' hr').2, hbuy] at hbuy'
    cases hbuy'
  · intro t htr
    rcases List.mem_append.mp (hperm.subset htr) with h | h
    · exact hown (fun r hr => (hD r hr).1) hd t h
    · exact hown (fun r hr => (hU r hr).1) hu t h

theorem solveSide_signed (S : Sorter) {df H : DF} (ht : IsTable df) (hH : ∀ r ∈ H, r ∈ df)
    (hn : (H.map (fun r => r.label)).Nodup) {v : Val} {fees fees' : List ℚ}
    {tm : TransactionManager} (h : solveSide S H v fees = .ok (tm, fees')) :
    HalfSigned (fun r => r.quantity) df H tm.trans := by
  unfold solveSide at h
  split_ifs at h
  · cases h; exact HalfSigned.nil _ _ _
  · cases h; exact HalfSigned.nil _ _ _
  dsimp only at h
  have hDn : ((willingDemand S H v).map (fun r => r.label)).Nodup := by
    unfold willingDemand
    rw [((sortDesc_perm S _).map _).nodup_iff]
    exact hn.sublist ((List.filter_sublist.trans List.filter_sublist).map _)
  have hUn : ((willingSupply S H v).map (fun r => r.label)).Nodup := by
    unfold willingSupply
    rw [((sortAsc_perm S _).map _).nodup_iff]
    exact hn.sublist ((List.filter_sublist.trans List.filter_sublist).map _)
  have hD : ∀ r ∈ willingDemand S H v, r ∈ H ∧ r.buying = true := by
    intro r hr
    have := mem_buys.mp (List.mem_filter.mp (mem_sortDesc.mp hr)).1
    exact this
  have hU : ∀ r ∈ willingSupply S H v, r ∈ H ∧ r.buying = false := by
    intro r hr
    have := mem_sells.mp (List.mem_filter.mp (mem_sortAsc.mp hr)).1
    exact this
  generalize willingDemand S H v = D at *
  generalize willingSupply S H v = U at *
  have hne : ∀ {l : DF}, 0 < qsum l → l ≠ [] := fun h => qsum_pos_ne_nil h
  by_cases hlong : qsum D < qsum U
  · simp only [hlong, decide_true, if_true] at h
    split_ifs at h with hpos
    · obtain ⟨o1, k1, h1, p1⟩ := getTradingBids_signed hpos.le (hne (hpos.trans hlong)) hlong.le
      obtain ⟨o2, k2, h2, p2⟩ := getTradingBids_signed hpos.le (hne hpos) (le_refl _)
      rw [h1, h2] at h
      simp only [bind, Except.bind] at h
      split at h
      · cases h
      · cases h
        rw [TransactionManager.init_addAll_trans, tradingTrans_eq, tradingTrans_eq]
        exact portions_halfSigned ht hH hD hU hDn hUn p2 p1 (.inl rfl)
    · cases h; exact HalfSigned.nil _ _ _
  · simp only [hlong, decide_false, Bool.false_eq_true, if_false] at h
    split_ifs at h with hpos
    · obtain ⟨o1, k1, h1, p1⟩ := getTradingBids_signed hpos.le
        (hne (lt_of_lt_of_le hpos (not_lt.mp hlong))) (not_lt.mp hlong)
      obtain ⟨o2, k2, h2, p2⟩ := getTradingBids_signed hpos.le (hne hpos) (le_refl _)
      rw [h1, h2] at h
      simp only [bind, Except.bind] at h
      split at h
      · cases h
      · cases h
        rw [TransactionManager.init_addAll_trans, tradingTrans_eq, tradingTrans_eq]
        exact portions_halfSigned ht hH hD hU hDn hUn p1 p2 (.inr rfl)
    · cases h; exact HalfSigned.nil _ _ _

end PyMarket
