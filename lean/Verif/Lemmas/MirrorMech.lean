import Verif.Lemmas.Mirror
import Verif.Model.Uniform
import Verif.Props.WaterFill
import Verif.Lemmas.MudaRun
import Mathlib.Data.List.Sublists

/-! # The mechanisms commute with exchanging buyers and sellers -/

set_option autoImplicit false

namespace PyMarket

open Spec

/-! ## Huang's auction -/

theorem updateQuantity_zero {q : List ℚ} (hne : q ≠ []) (h0 : ∀ x ∈ q, 0 ≤ x) : updateQuantity q 0 = .ok q := by
  have hu : uqLoop (q.map some) q.length 0 = .ok (q.map some, q.length, 0) := by
    rw [uqLoop]
    split
    · rename_i hn
      cases q with
      | nil => exact absurd rfl hne
      | cons a q =>
        simp only [List.map_cons, nanArgMin] at hn
        split at hn
        · cases hn
        · split at hn <;> cases hn
    · rename_i i v hi
      have := nanArgMin_getElem? _ _ _ hi
      rw [List.getElem?_map] at this
      obtain ⟨w, hw, e⟩ := Option.map_eq_some_iff.mp this
      cases e
      rw [if_neg]
      rw [zero_div]
      exact not_lt.mpr (h0 _ (List.mem_of_getElem? hw))
  unfold updateQuantity
  simp only [hu, bind, Except.bind, zero_div, sub_zero, List.map_map]
  congr 1
  have e1 : q.map ((fun x : ℚ => x) ∘ (fun o : Option ℚ => o.getD 0) ∘ some) = q := by
    rw [show ((fun x : ℚ => x) ∘ (fun o : Option ℚ => o.getD 0) ∘ some) = id from rfl, List.map_id]
  rw [e1]
  conv_rhs => rw [← List.map_id q]
  apply List.map_congr_left
  intro x hx
  show min (max x 0) (maxList q) = x
  rw [max_eq_left (h0 x hx), min_eq_left (le_maxList hx)]

theorem huangSideTrans_mirror (M : ℚ) (rows : DF) (qs : List ℚ) (p : ℚ) :
    huangSideTrans (mirror M rows) qs (M - p) = (huangSideTrans rows qs p).map (repriceTrans (fun p => M - p)) := by
  unfold huangSideTrans mirror
  rw [List.zip_map_left, List.map_map, List.map_map]
  rfl

section

variable {S T : Sorter} (hST : MirrorSorters S T) {M : ℚ} {df : DF} (h : Mirrorable M df) (hM : 0 < M)

include hST h hM

/-- Huang's auction on the mirrored book. -/
theorem huang_mirror :
    (huangAuction S df = .ok (TransactionManager.init, .empty) ∧
      huangAuction T (mirror M df) = .ok (TransactionManager.init, .empty)) ∨
    ∃ (ps pb q q' : ℚ) (ts tb : List Transaction),
      huangAuction S df = .ok (TransactionManager.init.addAll (ts ++ tb), .huang (ps : Ext) (pb : Ext) q) ∧
      huangAuction T (mirror M df) = .ok (TransactionManager.init.addAll
        (tb.map (repriceTrans (fun p => M - p)) ++ ts.map (repriceTrans (fun p => M - p))),
        .huang ((M - pb : ℚ) : Ext) ((M - ps : ℚ) : Ext) q') ∧ (ts ++ tb ≠ [] → q' = q) := by
  rcases intersect_mirror hST h hM with
    ⟨x, rb, rs, xb, xs, hc, hrb, hrs, g1, g2, g3, g4, p, i1, i2⟩ | ⟨i1, i2⟩
  · right
    have hqB : ∀ q ∈ ((sortDesc S (buys df)).take (demandIdx S df x)).map (fun r => r.quantity), 0 ≤ q := by
      intro q hq
      obtain ⟨r, hr, rfl⟩ := List.mem_map.mp hq
      exact (h r (mem_buys.mp (mem_sortDesc.mp (List.mem_of_mem_take hr))).1).1
    have hqA : ∀ q ∈ ((sortAsc S (sells df)).take (supplyIdx S df x)).map (fun r => r.quantity), 0 ≤ q := by
      intro q hq
      obtain ⟨r, hr, rfl⟩ := List.mem_map.mp hq
      exact (h r (mem_sells.mp (mem_sortAsc.mp (List.mem_of_mem_take hr))).1).1
    have lB := (List.getElem?_eq_some_iff.mp hrb).1
    have lA := (List.getElem?_eq_some_iff.mp hrs).1
    unfold huangAuction
    simp only [i1, i2, bind, Except.bind, g1, g2, g3, g4]
    rw [buys_mirror, sells_mirror, sortDesc_mirror hST, sortAsc_mirror hST, take_mirror, take_mirror,
      quantities_mirror, quantities_mirror]
    generalize demandIdx S df x = b at *
    generalize supplyIdx S df x = s at *
    by_cases hpos : 0 < b ∧ 0 < s
    · have hBne : ((sortDesc S (buys df)).take b).map (fun r => r.quantity) ≠ [] := by
        intro e
        have := congrArg List.length e
        rw [List.length_map, List.length_take, List.length_nil] at this
        omega
      have hAne : ((sortAsc S (sells df)).take s).map (fun r => r.quantity) ≠ [] := by
        intro e
        have := congrArg List.length e
        rw [List.length_map, List.length_take, List.length_nil] at this
        omega
      rw [if_pos hpos, if_pos hpos.symm]
      have u1 : ((rs.price : ℚ) : Ext).untopD 0 = rs.price := rfl
      have u2 : ((rb.price : ℚ) : Ext).untopD 0 = rb.price := rfl
      have u3 : ((M - rs.price : ℚ) : Ext).untopD 0 = M - rs.price := rfl
      have u4 : ((M - rb.price : ℚ) : Ext).untopD 0 = M - rb.price := rfl
      simp only [u1, u2, u3, u4, huangSideTrans_mirror]
      generalize hB : ((sortDesc S (buys df)).take b).map (fun r => r.quantity) = qB at *
      generalize hA : ((sortAsc S (sells df)).take s).map (fun r => r.quantity) = qA at *
      have sA := List.sum_nonneg hqA
      have sB := List.sum_nonneg hqB
      rcases lt_trichotomy 0 (qA.sum - qB.sum) with hg | hg | hg
      · have hg' : ¬ 0 < qB.sum - qA.sum := by linarith
        rw [if_pos hg, if_neg hg', neg_sub]
        obtain ⟨c, _, hu, hs, _⟩ := C12_water_filling qA (qA.sum - qB.sum) hAne hg.le (by linarith)
        simp only [hu]
        exact ⟨rs.price, rb.price, _, _, _, _, rfl, rfl, fun _ => by rw [hs]; ring⟩
      · have hg' : ¬ 0 < qB.sum - qA.sum := by linarith
        rw [if_neg hg.not_lt, if_neg hg', neg_sub]
        have e0 : qB.sum - qA.sum = 0 := by linarith
        rw [e0, neg_zero]
        simp only [updateQuantity_zero hBne hqB, updateQuantity_zero hAne hqA]
        exact ⟨rs.price, rb.price, _, _, _, _, rfl, rfl, fun _ => by linarith⟩
      · have hg' : 0 < qB.sum - qA.sum := by linarith
        rw [if_neg (not_lt.mpr hg.le), if_pos hg', neg_sub]
        obtain ⟨c, _, hu, hs, _⟩ := C12_water_filling qB (qB.sum - qA.sum) hBne hg'.le (by linarith)
        simp only [hu]
        exact ⟨rs.price, rb.price, _, _, _, _, rfl, rfl, fun _ => by rw [hs]; ring⟩
    · rw [if_neg hpos, if_neg (fun k => hpos k.symm)]
      exact ⟨rs.price, rb.price, _, _, [], [], rfl, rfl, fun k => absurd rfl k⟩
  · left
    unfold huangAuction
    simp only [i1, i2, bind, Except.bind]
    exact ⟨trivial, trivial⟩

/-! ## The uniform price -/

omit hST h hM in
theorem uniformLong_full {rows : DF} (hq : ∀ r ∈ rows, 0 ≤ r.quantity) (p t a : ℚ) (ht : a + qsum rows ≤ t) :
    uniformLong p t a rows = uniformShort p rows := by
  induction rows generalizing a with
  | nil => rfl
  | cons r rows ih =>
    have hs : qsum (r :: rows) = r.quantity + qsum rows := by unfold qsum; rw [List.map_cons, List.sum_cons]
    have h0 : 0 ≤ qsum rows := List.sum_nonneg (by
      intro x hx
      obtain ⟨y, hy, rfl⟩ := List.mem_map.mp hx
      exact hq y (List.mem_cons_of_mem _ hy))
    rw [hs] at ht
    unfold uniformShort
    simp only [uniformLong, List.map_cons]
    rw [if_pos (by linarith), ih (fun r hr => hq r (List.mem_cons_of_mem _ hr)) _ (by linarith)]
    rfl

theorem uniform_mirror :
    (uniformPrice S df = .error .typeError ∧ uniformPrice T (mirror M df) = .error .typeError) ∨
    ∃ (p x : ℚ) (tm tm' : TransactionManager), uniformPrice S df = .ok (tm, some (x : Ext), .fin p) ∧
      uniformPrice T (mirror M df) = .ok (tm', some (x : Ext), .fin (M - p)) ∧
      tm'.trans.Perm (tm.trans.map (repriceTrans (fun p => M - p))) := by
  have hlong : ∀ (rows : DF) (p t a : ℚ), uniformLong (M - p) t a (mirror M rows) =
      (uniformLong p t a rows).map (repriceTrans (fun p => M - p)) := by
    intro rows p t
    induction rows with
    | nil => intro a; rfl
    | cons r rows ih =>
      intro a
      have e1 : mirror M (r :: rows) = mirrorRow M r :: mirror M rows := rfl
      simp only [e1, List.map_cons, uniformLong]
      rw [← ih]
      rfl
  have hshort : ∀ (rows : DF) (p : ℚ), uniformShort (M - p) (mirror M rows) =
      (uniformShort p rows).map (repriceTrans (fun p => M - p)) := by
    intro rows p
    unfold uniformShort mirror
    rw [List.map_map, List.map_map]
    rfl
  rcases intersect_mirror hST h hM with
    ⟨x, rb, rs, xb, xs, hc, hrb, hrs, g1, g2, g3, g4, p, i1, i2⟩ | ⟨i1, i2⟩
  · right
    have hqB : ∀ r ∈ (sortDesc S (buys df)).take (demandIdx S df x + 1), 0 ≤ r.quantity := fun r hr =>
      (h r (mem_buys.mp (mem_sortDesc.mp (List.mem_of_mem_take hr))).1).1
    have hqA : ∀ r ∈ (sortAsc S (sells df)).take (supplyIdx S df x + 1), 0 ≤ r.quantity := fun r hr =>
      (h r (mem_sells.mp (mem_sortAsc.mp (List.mem_of_mem_take hr))).1).1
    unfold uniformPrice
    simp only [i1, i2, bind, Except.bind]
    rw [buys_mirror, sells_mirror, sortDesc_mirror hST, sortAsc_mirror hST, take_mirror, take_mirror]
    generalize (sortDesc S (buys df)).take (demandIdx S df x + 1) = B at *
    generalize (sortAsc S (sells df)).take (supplyIdx S df x + 1) = A at *
    have u1 : (Val.fin p).toRat = p := rfl
    have u2 : (Val.fin (M - p)).toRat = M - p := rfl
    simp only [qsum_mirror, u1, u2]
    refine ⟨p, x, _, _, rfl, rfl, ?_⟩
    simp only [TransactionManager.init_addAll_trans]
    rcases lt_trichotomy (qsum A) (qsum B) with hg | hg | hg
    · rw [if_pos hg, if_neg (not_lt.mpr hg.le)]
      simp only [hlong, hshort, qsum_mirror, List.map_append]
      exact List.Perm.refl _
    · rw [if_neg hg.not_lt, if_neg hg.symm.not_lt]
      simp only [hlong, hshort, qsum_mirror, List.map_append]
      rw [uniformLong_full hqB p _ 0 (by linarith), uniformLong_full hqA p _ 0 (by linarith)]
      exact List.perm_append_comm
    · rw [if_neg (not_lt.mpr hg.le), if_pos hg]
      simp only [hlong, hshort, qsum_mirror, List.map_append]
      exact List.Perm.refl _
  · left
    unfold uniformPrice
    simp only [i1, i2, bind, Except.bind]
    exact ⟨trivial, trivial⟩

end

/-! ## MUDA -/

section

variable (M : ℚ)

theorem dupOnSide_mirror (df : DF) : dupOnSide (mirror M df) = dupOnSide df := by
  have hinj : Function.Injective (fun k : ℚ × ℤ => (M - k.1, k.2)) := by
    rintro ⟨x, u⟩ ⟨y, v⟩ h
    simp only [Prod.mk.injEq, sub_right_inj] at h
    rw [Prod.mk.injEq]
    exact h
  have hk : (mirror M df).map (fun r => (r.price, r.user)) =
      (df.map (fun r => (r.price, r.user))).map (fun k : ℚ × ℤ => (M - k.1, k.2)) := by
    unfold mirror
    rw [List.map_map, List.map_map]; rfl
  unfold dupOnSide
  simp only
  rw [hk, List.any_map]
  congr 1
  funext k
  simp only [Function.comp_apply]
  congr 2
  exact List.count_map_of_injective _ _ hinj k

theorem willingDemand_mirror {S T : Sorter} (hST : MirrorSorters S T) (df : DF) (p : ℚ) :
    willingDemand T (mirror M df) (.fin (M - p)) = mirror M (willingSupply S df (.fin p)) := by
  unfold willingDemand willingSupply
  rw [buys_mirror, ← sortDesc_mirror hST]
  unfold mirror
  rw [List.filter_map]
  congr 2
  apply List.filter_congr
  intro r _
  simp only [Val.leRat, Val.ratLe, Function.comp_apply, mirrorRow, sub_le_sub_iff_left]

theorem willingSupply_mirror {S T : Sorter} (hST : MirrorSorters S T) (df : DF) (p : ℚ) :
    willingSupply T (mirror M df) (.fin (M - p)) = mirror M (willingDemand S df (.fin p)) := by
  unfold willingDemand willingSupply
  rw [sells_mirror, ← sortAsc_mirror hST]
  unfold mirror
  rw [List.filter_map]
  congr 2
  apply List.filter_congr
  intro r _
  simp only [Val.leRat, Val.ratLe, Function.comp_apply, mirrorRow, sub_le_sub_iff_left]

theorem getTradingBids_mirror (df : DF) (q : ℚ) :
    getTradingBids (mirror M df) q = (getTradingBids df q).map (fun p => (mirror M p.1, p.2)) := by
  unfold getTradingBids
  rw [quantities_mirror]
  by_cases h : df = [] ∧ q < 0
  · rw [if_pos h, if_pos ⟨by rw [h.1]; rfl, h.2⟩]
    rfl
  · rw [if_neg h, if_neg (by unfold mirror; rw [List.map_eq_nil_iff]; exact h)]
    simp only
    have hg : (mirror M df)[lastIndex (df.map (fun r => r.quantity)) q]? =
        (df[lastIndex (df.map (fun r => r.quantity)) q]?).map (mirrorRow M) := List.getElem?_map ..
    rw [hg]
    cases df[lastIndex (df.map (fun r => r.quantity)) q]? with
    | none => rfl
    | some row =>
      have hq : (mirrorRow M row).quantity = row.quantity := rfl
      simp only [Option.map_some, take_mirror, qsum_mirror, hq, drop_mirror]
      split
      · simp only [Except.map]
        unfold mirror
        simp only [List.map_append, List.map_cons]
        rfl
      · rfl

theorem tradingTrans_mirror (rows : DF) (i : ℕ) (p : ℚ) :
    tradingTrans (mirror M rows) i (M - p) = (tradingTrans rows i p).map (repriceTrans (fun p => M - p)) := by
  unfold tradingTrans mirror
  rw [List.zipIdx_map, List.filter_map, List.map_map, List.map_map]
  rfl

theorem tradingUsers_mirror (rows : DF) (i : ℕ) : tradingUsers (mirror M rows) i = tradingUsers rows i := by
  unfold tradingUsers mirror
  rw [List.zipIdx_map, List.filter_map, List.map_map]
  rfl

theorem capLast_mirror (d : ℚ) (l : List (Row × ℕ)) :
    capLast d (l.map (Prod.map (mirrorRow M) id)) = (capLast d l).map (Prod.map (mirrorRow M) id) := by
  induction l with
  | nil => rfl
  | cons x l ih =>
    cases l with
    | nil =>
      have hq : (mirrorRow M x.1).quantity = x.1.quantity := rfl
      simp only [List.map_cons, List.map_nil, capLast, Prod.map_fst, hq]
      split <;> rfl
    | cons y l =>
      simp only [List.map_cons, capLast] at ih ⊢
      rw [ih]

theorem computeFee_mirror (rows : DF) (i : ℕ) (u : ℤ) (q p : ℚ) :
    computeFee (mirror M rows) i u q (M - p) = computeFee rows i u q p := by
  have hw : withoutUser (mirror M rows) u = (withoutUser rows u).map (Prod.map (mirrorRow M) id) := by
    unfold withoutUser mirror
    rw [List.zipIdx_map, List.filter_map]
    rfl
  have hq : ∀ l : List (Row × ℕ), (l.map (Prod.map (mirrorRow M) id)).map (fun p => p.1.quantity) =
      l.map (fun p => p.1.quantity) := by
    intro l
    rw [List.map_map]
    rfl
  have hneg : ∀ l : List (Row × ℕ), (l.map (fun x : Row × ℕ => (M - x.1.price - (M - p)) * x.1.quantity)).sum =
      - (l.map (fun x : Row × ℕ => (x.1.price - p) * x.1.quantity)).sum := by
    intro l
    induction l with
    | nil => simp
    | cons x l ih =>
      simp only [List.map_cons, List.sum_cons, ih]
      ring
  unfold computeFee
  simp only [hw, List.map_eq_nil_iff, hq, ← List.map_take, ← List.map_dropLast, capLast_mirror]
  rw [List.filter_map, List.map_map]
  split
  · rfl
  · rw [← abs_neg]
    congr 1
    rw [neg_eq_iff_eq_neg]
    exact hneg _

theorem feeLoop_mirror (rows : DF) (i : ℕ) (t p : ℚ) (us : List ℤ) (fees : List ℚ) :
    feeLoop (mirror M rows) i t (M - p) us fees = feeLoop rows i t p us fees := by
  induction us generalizing fees with
  | nil => rfl
  | cons u us ih =>
    unfold feeLoop
    rw [computeFee_mirror]
    cases npSet fees u (computeFee rows i u t p) with
    | error e => rfl
    | ok f => simp only [bind, Except.bind, ih]

end

/-- All of a side trades when its total is asked for. -/
theorem getTradingBids_all {rows : DF} (hne : rows ≠ []) :
    getTradingBids rows (qsum rows) = .ok (rows, rows.length - 1) := by
  have hl : lastIndex (rows.map (fun r => r.quantity)) (qsum rows) = rows.length - 1 := by
    unfold lastIndex
    rw [if_neg (by unfold qsum; exact lt_irrefl _), List.length_map]
  have hlen := List.length_pos_iff.mpr hne
  have hget : rows[rows.length - 1]? = some rows[rows.length - 1] := List.getElem?_eq_getElem (by omega)
  unfold getTradingBids
  rw [if_neg (fun k => hne k.1)]
  simp only [hl, hget]
  rw [if_neg]
  have hsplit : rows = rows.take (rows.length - 1) ++ [rows[rows.length - 1]] := by
    conv_lhs => rw [← List.take_append_drop (rows.length - 1) rows]
    congr 1
    rw [List.drop_eq_getElem_cons (by omega)]
    congr 1
    rw [List.drop_eq_nil_iff]
    omega
  have hs : qsum rows = qsum (rows.take (rows.length - 1)) + rows[rows.length - 1].quantity := by
    conv_lhs => rw [hsplit]
    unfold qsum
    rw [List.map_append, List.sum_append]
    simp
  rw [hs]
  linarith

section

variable {S T : Sorter} (hST : MirrorSorters S T) {M : ℚ} {df : DF}

include hST

/-- One half of the mirrored book, when the two sides are not equally long. -/
theorem solveSide_mirror (p : ℚ) (fees : List ℚ)
    (hne : qsum (willingDemand S df (.fin p)) ≠ qsum (willingSupply S df (.fin p))) :
    solveSide T (mirror M df) (.fin (M - p)) fees =
      (solveSide S df (.fin p) fees).map (fun r => (repriceLog (fun p => M - p) r.1, r.2)) := by
  unfold solveSide
  simp only [buys_mirror, sells_mirror, length_mirror, willingDemand_mirror M hST, willingSupply_mirror M hST,
    qsum_mirror]
  by_cases hb : (buys df).length = 0
  · simp only [if_pos hb]
    split <;> rfl
  by_cases hs : (sells df).length = 0
  · simp only [if_pos hs]
    split <;> rfl
  simp only [if_neg hb, if_neg hs]
  generalize willingDemand S df (.fin p) = D at *
  generalize willingSupply S df (.fin p) = U at *
  have u1 : (Val.fin p).toRat = p := rfl
  have u2 : (Val.fin (M - p)).toRat = M - p := rfl
  have key : ∀ (long short : DF) (q : ℚ),
      (if 0 < q then do
        let (longRows, lIndex) ← getTradingBids (mirror M long) q
        let (shortRows, sIndex) ← getTradingBids (mirror M short) q
        let trans := TransactionManager.init.addAll
          (tradingTrans shortRows sIndex (M - p) ++ tradingTrans longRows lIndex (M - p))
        let fees' ← feeLoop longRows lIndex q (M - p) (tradingUsers longRows lIndex) fees
        Except.ok (trans, fees')
      else Except.ok (TransactionManager.init, fees)) =
      (if 0 < q then do
        let (longRows, lIndex) ← getTradingBids long q
        let (shortRows, sIndex) ← getTradingBids short q
        let trans := TransactionManager.init.addAll
          (tradingTrans shortRows sIndex p ++ tradingTrans longRows lIndex p)
        let fees' ← feeLoop longRows lIndex q p (tradingUsers longRows lIndex) fees
        Except.ok (trans, fees')
      else (Except.ok (TransactionManager.init, fees) : Except PyErr (TransactionManager × List ℚ))).map
        (fun r => (repriceLog (fun p => M - p) r.1, r.2)) := by
    intro long short q
    split
    · rw [getTradingBids_mirror, getTradingBids_mirror]
      cases getTradingBids long q with
      | error e => rfl
      | ok x =>
        cases getTradingBids short q with
        | error e => rfl
        | ok y =>
          simp only [Except.map, bind, Except.bind, tradingTrans_mirror, tradingUsers_mirror, feeLoop_mirror,
            ← List.map_append, init_addAll_re]
          cases feeLoop x.1 x.2 q p (tradingUsers x.1 x.2) fees with
          | error e => rfl
          | ok f => rfl
    · rfl
  rcases lt_or_gt_of_ne hne with hlt | hlt
  · have e1 : decide (qsum D < qsum U) = true := decide_eq_true hlt
    have e2 : decide (qsum U < qsum D) = false := decide_eq_false (not_lt.mpr hlt.le)
    simp only [e1, e2, if_true, Bool.false_eq_true, if_false, u1, u2]
    exact key U D (qsum D)
  · have e1 : decide (qsum U < qsum D) = true := decide_eq_true hlt
    have e2 : decide (qsum D < qsum U) = false := decide_eq_false (not_lt.mpr hlt.le)
    simp only [e1, e2, if_true, Bool.false_eq_true, if_false, u1, u2]
    exact key D U (qsum U)

/-- One half of the mirrored book: the transactions, whenever both runs return. -/
theorem solveSide_mirror_trans (p : ℚ) (fees fees0 : List ℚ) {x y : TransactionManager × List ℚ}
    (hx : solveSide S df (.fin p) fees = .ok x) (hy : solveSide T (mirror M df) (.fin (M - p)) fees0 = .ok y) :
    y.1.trans.Perm (x.1.trans.map (repriceTrans (fun p => M - p))) := by
  by_cases hne : qsum (willingDemand S df (.fin p)) = qsum (willingSupply S df (.fin p))
  · unfold solveSide at hx hy
    simp only [buys_mirror, sells_mirror, length_mirror, willingDemand_mirror M hST, willingSupply_mirror M hST,
      qsum_mirror] at hx hy
    by_cases hb : (buys df).length = 0
    · simp only [if_pos hb] at hx hy
      cases hx
      split at hy <;> cases hy <;> exact List.Perm.refl _
    by_cases hs : (sells df).length = 0
    · simp only [if_pos hs] at hx hy
      cases hy
      split at hx <;> cases hx <;> exact List.Perm.refl _
    simp only [if_neg hb, if_neg hs] at hx hy
    generalize willingDemand S df (.fin p) = D at *
    generalize willingSupply S df (.fin p) = U at *
    have u1 : (Val.fin p).toRat = p := rfl
    have u2 : (Val.fin (M - p)).toRat = M - p := rfl
    have e1 : decide (qsum D < qsum U) = false := decide_eq_false (by rw [hne]; exact lt_irrefl _)
    have e2 : decide (qsum U < qsum D) = false := decide_eq_false (by rw [hne]; exact lt_irrefl _)
    simp only [e1, e2, Bool.false_eq_true, if_false, u1, u2] at hx hy
    by_cases hpos : 0 < qsum U
    · have hU : U ≠ [] := by rintro rfl; exact lt_irrefl _ hpos
      have hD : D ≠ [] := by rintro rfl; rw [← hne] at hpos; exact lt_irrefl _ hpos
      rw [if_pos hpos] at hx
      rw [if_pos (hne ▸ hpos)] at hy
      have h1 := getTradingBids_all hU
      have h2 := getTradingBids_all hD
      have h3 : getTradingBids D (qsum U) = .ok (D, D.length - 1) := by rw [← hne]; exact h2
      have h4 : getTradingBids U (qsum D) = .ok (U, U.length - 1) := by rw [hne]; exact h1
      simp only [getTradingBids_mirror, h1, h2, h3, h4, bind, Except.bind, Except.map] at hx hy
      split at hx
      · cases hx
      split at hy
      · cases hy
      cases hx
      cases hy
      simp only [TransactionManager.init_addAll_trans, tradingTrans_mirror, List.map_append]
      exact List.perm_append_comm
    · rw [if_neg hpos] at hx
      rw [if_neg (hne ▸ hpos)] at hy
      cases hx
      cases hy
      exact List.Perm.refl _
  · rw [solveSide_mirror hST p fees0 hne] at hy
    have hfee : ∀ (f g : List ℚ) (a b : TransactionManager × List ℚ), solveSide S df (.fin p) f = .ok a →
        solveSide S df (.fin p) g = .ok b → a.1 = b.1 := by
      intro f g a b ha hb
      unfold solveSide at ha hb
      by_cases k1 : (buys df).length = 0
      · rw [if_pos k1] at ha hb
        cases ha; cases hb; rfl
      by_cases k2 : (sells df).length = 0
      · rw [if_neg k1, if_pos k2] at ha hb
        cases ha; cases hb; rfl
      rw [if_neg k1, if_neg k2] at ha hb
      simp only at ha hb
      generalize (if decide (qsum (willingDemand S df (.fin p)) < qsum (willingSupply S df (.fin p))) = true then
        willingSupply S df (.fin p) else willingDemand S df (.fin p)) = L at ha hb
      generalize (if decide (qsum (willingDemand S df (.fin p)) < qsum (willingSupply S df (.fin p))) = true then
        willingDemand S df (.fin p) else willingSupply S df (.fin p)) = H at ha hb
      generalize (if decide (qsum (willingDemand S df (.fin p)) < qsum (willingSupply S df (.fin p))) = true then
        qsum (willingDemand S df (.fin p)) else qsum (willingSupply S df (.fin p))) = q at ha hb
      by_cases k : 0 < q
      · rw [if_pos k] at ha hb
        cases hX : getTradingBids L q with
        | error e => rw [hX] at ha; cases ha
        | ok X =>
          cases hY : getTradingBids H q with
          | error e => rw [hX, hY] at ha; cases ha
          | ok Y =>
            simp only [hX, hY, bind, Except.bind] at ha hb
            split at ha
            · cases ha
            split at hb
            · cases hb
            cases ha
            cases hb
            rfl
      · rw [if_neg k] at ha hb
        cases ha; cases hb; rfl
    cases hz : solveSide S df (.fin p) fees0 with
    | error e => rw [hz] at hy; cases hy
    | ok z =>
      rw [hz] at hy
      cases hy
      rw [hfee _ _ _ _ hx hz]
      exact List.Perm.refl _

end

/-- The price found on the mirrored book. -/
theorem findCompetitivePrice_mirror {S T : Sorter} (hST : MirrorSorters S T) {M : ℚ} {df : DF}
    (h : Mirrorable M df) (hM : 0 < M) :
    ∃ v, findCompetitivePrice S df = .ok v ∧ findCompetitivePrice T (mirror M df) = .ok (mirrorVal M v) ∧
      ((∃ p, v = .fin p) ∨ v = .inf) := by
  rcases intersect_mirror hST h hM with ⟨x, rb, rs, xb, xs, -, -, -, -, -, -, -, p, i1, i2⟩ | ⟨i1, i2⟩
  · refine ⟨.fin p, ?_, ?_, .inl ⟨p, rfl⟩⟩
    · unfold findCompetitivePrice; rw [i1]; rfl
    · unfold findCompetitivePrice; rw [i2]; rfl
  · refine ⟨.inf, ?_, ?_, .inr rfl⟩
    · unfold findCompetitivePrice; rw [i1]; rfl
    · unfold findCompetitivePrice; rw [i2]; rfl

theorem uneven_half {df : DF} (hu : Uneven df) (S : Sorter) {H : DF} (hH : H.Sublist df) (p : ℚ)
    (he : qsum (willingDemand S H (.fin p)) = qsum (willingSupply S H (.fin p))) :
    qsum (willingSupply S H (.fin p)) = 0 := by
  have e1 : qsum (willingDemand S H (.fin p)) =
      (((buys H).filter (fun r => (Val.fin p).leRat r.price)).map (fun r => r.quantity)).sum :=
    ((sortDesc_perm S _).map _).sum_eq
  have e2 : qsum (willingSupply S H (.fin p)) =
      (((sells H).filter (fun r => Val.ratLe r.price (.fin p))).map (fun r => r.quantity)).sum :=
    ((sortAsc_perm S _).map _).sum_eq
  rw [e1, e2] at he
  rw [e2]
  refine hu _ (List.mem_sublists.mpr ?_) _ (List.mem_sublists.mpr ?_) he
  · exact List.filter_sublist.trans (hH.filter _)
  · exact List.filter_sublist.trans (hH.filter _)

/-- A half of the mirrored book of uneven groups. -/
theorem solveSide_uneven {S T : Sorter} (hST : MirrorSorters S T) {M : ℚ} {df : DF} (hu : Uneven df) {H : DF}
    (hH : H.Sublist df) (fees : List ℚ) {v : Val} (hv : (∃ p, v = .fin p) ∨ v = .inf) :
    solveSide T (mirror M H) (mirrorVal M v) fees =
      (solveSide S H v fees).map (fun r => (repriceLog (fun p => M - p) r.1, r.2)) := by
  rcases hv with ⟨p, rfl⟩ | rfl
  · by_cases he : qsum (willingDemand S H (.fin p)) = qsum (willingSupply S H (.fin p))
    · have h0 := uneven_half hu S hH p he
      have h1 : solveSide S H (.fin p) fees = .ok (TransactionManager.init, fees) := by
        unfold solveSide
        simp only [he, h0, lt_irrefl, ite_self, if_false]
      have h2 : solveSide T (mirror M H) (.fin (M - p)) fees = .ok (TransactionManager.init, fees) := by
        unfold solveSide
        simp only [willingDemand_mirror M hST, willingSupply_mirror M hST, qsum_mirror, he, h0, lt_irrefl, ite_self,
          if_false]
      show solveSide T (mirror M H) (.fin (M - p)) fees = _
      rw [h1, h2]
      rfl
    · exact solveSide_mirror hST p fees he
  · show solveSide T (mirror M H) .inf fees = _
    rw [solveSide_inf, solveSide_inf]
    rfl

theorem locLabels_sublist {df : DF} (ht : IsTable df) (coin : ℕ → Bool) :
    (locLabels df (coinLeft coin (df.map (fun r => r.label)))).Sublist df ∧
    (locLabels df ((df.map (fun r => r.label)).filter
      (fun i => decide (i ∉ coinLeft coin (df.map (fun r => r.label)))))).Sublist df := by
  have ht' := ht
  unfold IsTable at ht
  rw [ht, coinLeft_range, filterMap_find_labels ht', filterMap_find_labels ht']
  exact ⟨List.filter_sublist, List.filter_sublist⟩

/-- MUDA on the mirrored book of uneven groups. -/
theorem muda_mirror {S T : Sorter} (hST : MirrorSorters S T) (coin : ℕ → Bool) {M : ℚ} {df : DF} (ht : IsTable df)
    (h : Mirrorable M df) (hM : 0 < M) (hu : Uneven df) :
    muda T coin (mirror M df) =
      (muda S coin df).map (fun r => (repriceLog (fun p => M - p) r.1, mirrorExtra M r.2)) := by
  unfold muda checkEqualPriceRaises
  rw [buys_mirror, sells_mirror, dupOnSide_mirror, dupOnSide_mirror, Bool.or_comm]
  split
  · rfl
  · unfold mudaBody
    obtain ⟨s1, s2⟩ := locLabels_sublist ht coin
    simp only [labels_mirror, locLabels_mirror, users_mirror]
    generalize coinLeft coin (df.map (fun r => r.label)) = left at *
    generalize (df.map (fun r => r.label)).filter (fun i => decide (i ∉ left)) = right at *
    obtain ⟨pl, l1, l2, l3⟩ := findCompetitivePrice_mirror hST (h.locLabels left) hM
    obtain ⟨pr, r1, r2, r3⟩ := findCompetitivePrice_mirror hST (h.locLabels right) hM
    rw [l1, l2, r1, r2]
    simp only [bind, Except.bind]
    generalize (df.map (fun r => r.user)).dedup.length = n
    rw [solveSide_uneven hST hu s1 _ r3]
    cases solveSide S (locLabels df left) pr (List.replicate n 0) with
    | error e => rfl
    | ok x =>
      simp only [Except.map]
      rw [solveSide_uneven hST hu s2 _ l3]
      cases solveSide S (locLabels df right) pl x.2 with
      | error e => rfl
      | ok y =>
        simp only [Except.map, merge_re]
        rfl

theorem solveSide_mirror_any {S T : Sorter} (hST : MirrorSorters S T) {M : ℚ} {df : DF} {v : Val}
    (hv : (∃ p, v = .fin p) ∨ v = .inf) (fees fees0 : List ℚ) {x y : TransactionManager × List ℚ}
    (hx : solveSide S df v fees = .ok x) (hy : solveSide T (mirror M df) (mirrorVal M v) fees0 = .ok y) :
    y.1.trans.Perm (x.1.trans.map (repriceTrans (fun p => M - p))) := by
  rcases hv with ⟨p, rfl⟩ | rfl
  · exact solveSide_mirror_trans hST p fees fees0 hx hy
  · rw [solveSide_inf] at hx
    cases hx
    have hy' : solveSide T (mirror M df) .inf fees0 = .ok y := hy
    rw [solveSide_inf] at hy'
    cases hy'
    exact List.Perm.refl _

/-- MUDA on the mirrored book, whenever both runs return. -/
theorem muda_mirror_trans {S T : Sorter} (hST : MirrorSorters S T) (coin : ℕ → Bool) {M : ℚ} {df : DF}
    (h : Mirrorable M df) (hM : 0 < M) {x y : TransactionManager × Extra} (hx : muda S coin df = .ok x)
    (hy : muda T coin (mirror M df) = .ok y) :
    y.1.trans.Perm (x.1.trans.map (repriceTrans (fun p => M - p))) ∧
    ∃ left right pl pr fees fees', x.2 = .muda left right pl pr fees ∧
      y.2 = .muda left right (mirrorVal M pl) (mirrorVal M pr) fees' := by
  unfold muda checkEqualPriceRaises at hx hy
  rw [buys_mirror, sells_mirror, dupOnSide_mirror, dupOnSide_mirror, Bool.or_comm] at hy
  split at hx
  · cases hx
  rename_i k
  rw [if_neg k] at hy
  unfold mudaBody at hx hy
  simp only [labels_mirror, locLabels_mirror, users_mirror] at hx hy
  generalize coinLeft coin (df.map (fun r => r.label)) = left at *
  generalize (df.map (fun r => r.label)).filter (fun i => decide (i ∉ left)) = right at *
  obtain ⟨pl, l1, l2, l3⟩ := findCompetitivePrice_mirror hST (h.locLabels left) hM
  obtain ⟨pr, r1, r2, r3⟩ := findCompetitivePrice_mirror hST (h.locLabels right) hM
  rw [l1, r1] at hx
  rw [l2, r2] at hy
  simp only [bind, Except.bind] at hx hy
  generalize (df.map (fun r => r.user)).dedup.length = n at *
  cases a1 : solveSide S (locLabels df left) pr (List.replicate n 0) with
  | error e => rw [a1] at hx; cases hx
  | ok a =>
    cases b1 : solveSide T (mirror M (locLabels df left)) (mirrorVal M pr) (List.replicate n 0) with
    | error e => rw [b1] at hy; cases hy
    | ok b =>
      rw [a1] at hx
      rw [b1] at hy
      simp only at hx hy
      cases a2 : solveSide S (locLabels df right) pl a.2 with
      | error e => rw [a2] at hx; cases hx
      | ok c =>
        cases b2 : solveSide T (mirror M (locLabels df right)) (mirrorVal M pl) b.2 with
        | error e => rw [b2] at hy; cases hy
        | ok d =>
          rw [a2] at hx
          rw [b2] at hy
          cases hx
          cases hy
          refine ⟨?_, _, _, _, _, _, _, rfl, rfl⟩
          simp only [TransactionManager.merge_trans, List.map_append]
          exact (solveSide_mirror_any hST r3 _ _ a1 b1).append (solveSide_mirror_any hST l3 _ _ a2 b2)

end PyMarket
