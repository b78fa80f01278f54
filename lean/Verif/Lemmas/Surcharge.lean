import Verif.Spec.Surcharge
import Verif.Lemmas.Reprice
import Verif.Lemmas.Huang
import Verif.Lemmas.ZeroGroups
import Verif.Props.Units

/-! # The mechanisms commute with a common surcharge -/

set_option autoImplicit false

namespace PyMarket

open Spec

theorem strictMono_plus (b : ℚ) : StrictMono (fun x : ℚ => x + b) := fun _ _ h => by
  show _ + b < _ + b
  linarith

theorem surcharge_eq (b : ℚ) (df : DF) : surcharge b df = df.map (reRow (· + b)) := rfl

theorem Spec.Surchargeable.nonNeg {b : ℚ} {df : DF} (h : Surchargeable b df) : NonNeg df :=
  fun r hr => ⟨(h r hr).1, (h r hr).2.1.le⟩

theorem Spec.Surchargeable.nonNeg' {b : ℚ} {df : DF} (h : Surchargeable b df) : NonNeg (surcharge b df) := by
  intro r hr
  obtain ⟨s, hs, rfl⟩ := List.mem_map.mp hr
  exact ⟨(h s hs).1, (h s hs).2.2.le⟩

/-- A strictly increasing function that fixes 0 and adds the surcharge to all prices. -/
theorem surcharge_exists {b : ℚ} {df : DF} (h : Surchargeable b df) :
    ∃ f : ℚ → ℚ, StrictMono f ∧ f 0 = 0 ∧ (∀ r ∈ df, f r.price = r.price + b) ∧
      surcharge b df = df.map (reRow f) := by
  obtain ⟨f, hf, h0, hg, e⟩ := sameOrder_exists (g := fun r => r.price + b) (df := df) (by
    refine ⟨fun r _ r' _ => (add_le_add_iff_right b).symm, fun r hr => ?_⟩
    obtain ⟨_, h1, h2⟩ := h r hr
    exact ⟨iff_of_true h1.le h2.le, iff_of_false (not_le.mpr h1) (not_le.mpr h2)⟩)
  exact ⟨f, hf, h0, fun r hr => (hg r hr).symm, e⟩

section

variable {S : Sorter} (hS : ComparisonSort S) {b : ℚ} {df : DF} (h : Surchargeable b df)

include hS h

/-- The curves cross at the same quantity, and the values there are those with the surcharge. -/
theorem crossing_plus {x : ℚ} (hc : Crossing S df x) :
    ∃ ps pb : ℚ, supplyAt S df x = (ps : Ext) ∧ demandAt S df x = (pb : Ext) ∧
      supplyAt S (surcharge b df) x = ((ps + b : ℚ) : Ext) ∧ demandAt S (surcharge b df) x = ((pb + b : ℚ) : Ext) := by
  obtain ⟨f, hf, h0, hg, e⟩ := surcharge_exists h
  obtain ⟨rb, hrb1, hrb2⟩ := hc.marginal_buy h.nonNeg
  obtain ⟨rs, hrs1, hrs2⟩ := hc.marginal_sell
  have hrb := (mem_buys.mp (mem_sortDesc.mp (List.mem_of_getElem? hrb1))).1
  have hrs := (mem_sells.mp (mem_sortAsc.mp (List.mem_of_getElem? hrs1))).1
  have hx : ((0 : ℚ) : Ext) ≤ (x : Ext) := WithTop.coe_le_coe.mpr hc.nonneg
  have hd : demandAt S (surcharge b df) x = repriceExt f (demandAt S df x) := by
    have g1 := getValue_stepCurve hx 0 (sortDesc S (buys (surcharge b df))) ((0 : ℚ) : Ext)
    rw [← demandCurve_eq, e, demandCurve_re hS hf h0, getValueStepwise_re, demandCurve_eq,
      getValue_stepCurve hx, Option.map_some, Option.some.injEq, ← e] at g1
    exact g1.symm
  have hs : supplyAt S (surcharge b df) x = repriceExt f (supplyAt S df x) := by
    have g1 := getValue_stepCurve hx 0 (sortAsc S (sells (surcharge b df))) ⊤
    rw [← supplyCurve_eq, e, supplyCurve_re hS hf, getValueStepwise_re, supplyCurve_eq,
      getValue_stepCurve hx, Option.map_some, Option.some.injEq, ← e] at g1
    exact g1.symm
  refine ⟨rs.price, rb.price, hrs2, hrb2, ?_, ?_⟩
  · rw [hs, hrs2, ← hg rs hrs]; rfl
  · rw [hd, hrb2, ← hg rb hrb]; rfl

/-- The intersection with the surcharge. -/
theorem intersect_plus : ∃ i j, intersectStepwise (demandCurve S df).1 (supplyCurve S df).1 = .ok i ∧
    intersectStepwise (demandCurve S (surcharge b df)).1 (supplyCurve S (surcharge b df)).1 = .ok j ∧
    j.x = i.x ∧ j.f = i.f ∧ j.g = i.g ∧ j.v = plusVal b i.v ∧
    ((∃ p, i.v = .fin p) ∨ i.v = .inf ∧ i.x = none ∧ i.f = none ∧ i.g = none) := by
  obtain ⟨f, hf, h0, hg, e⟩ := surcharge_exists h
  have hpl := intersectStepwise_re hf (demandCurve S df).1 (supplyCurve S df).1 (1 / 2)
  rw [← demandCurve_re hS hf h0, ← supplyCurve_re hS hf, ← e] at hpl
  have hfd : (demandCurve S (surcharge b df)).1.map Prod.fst = (demandCurve S df).1.map Prod.fst := by
    rw [e, demandCurve_re hS hf h0, reCurve_fst]
  have hfs : (supplyCurve S (surcharge b df)).1.map Prod.fst = (supplyCurve S df).1.map Prod.fst := by
    rw [e, supplyCurve_re hS hf, reCurve_fst]
  rcases intersect_cases S h.nonNeg (1 / 2) with ⟨x, hc, he⟩ | ⟨he, _⟩
  · rcases intersect_cases S h.nonNeg' (1 / 2) with ⟨x', hc', he'⟩ | ⟨he', _⟩
    swap
    · rw [he, he'] at hpl
      simp [Except.map, places] at hpl
    refine ⟨_, _, he, he', ?_⟩
    rw [he, he'] at hpl
    simp only [Except.map, places, Except.ok.injEq, Prod.mk.injEq] at hpl
    obtain ⟨p1, p2, p3⟩ := hpl
    refine ⟨p1, p2, p3, ?_⟩
    obtain rfl : x' = x := WithTop.coe_injective (Option.some.inj p1)
    obtain ⟨ps, pb, q1, q2, q3, q4⟩ := crossing_plus hS h hc
    have hmix : ∀ s d : ℚ, kMix (1 / 2) (s : Ext) (d : Ext) = .fin (1 / 2 * s + (1 - 1 / 2) * d) := fun s d => rfl
    unfold crossPrice
    rw [hfd, hfs, q1, q2, q3, q4, hmix, hmix]
    split
    · refine ⟨?_, Or.inl ⟨_, rfl⟩⟩
      show Val.fin _ = Val.fin _
      congr 1
      ring
    · split
      · exact ⟨rfl, Or.inl ⟨_, rfl⟩⟩
      · exact ⟨rfl, Or.inl ⟨_, rfl⟩⟩
  · rcases intersect_cases S h.nonNeg' (1 / 2) with ⟨x', hc', he'⟩ | ⟨he', _⟩
    · rw [he, he'] at hpl
      simp [Except.map, places] at hpl
    · have hinf : kMix (1 / 2) ⊤ ((0 : ℚ) : Ext) = .inf := by decide +kernel
      refine ⟨_, _, he, he', rfl, rfl, rfl, ?_, Or.inr ⟨hinf, rfl, rfl, rfl⟩⟩
      simp only [hinf]
      rfl

end

/-! ## Huang's auction -/

theorem huangAuction_plus {S : Sorter} (hS : ComparisonSort S) {b : ℚ} {df : DF} (h : Surchargeable b df) :
    huangAuction S (surcharge b df) = plusResult b (huangAuction S df) := by
  obtain ⟨f, hf, h0, hg, e⟩ := surcharge_exists h
  rw [e, huangAuction_re hS hf h0]
  have hcut : ∀ (rows : DF) (c p : ℚ), f p = p + b →
      (cutTrans rows c p).map (repriceTrans f) = (cutTrans rows c p).map (repriceTrans (· + b)) := by
    intro rows c p hp
    apply List.map_congr_left
    intro t ht
    have : t.price = p := by
      unfold cutTrans at ht
      obtain ⟨_, _, rfl⟩ := List.mem_map.mp ht
      rfl
    unfold repriceTrans
    rw [this, hp]
  rcases huang_cases S h.nonNeg with ⟨h1, _⟩ | ⟨x, ps, pb, hc, hps, hpb, _, hcase⟩
  · rw [h1]; rfl
  · obtain ⟨rb, hrb1, hrb2⟩ := hc.marginal_buy h.nonNeg
    obtain ⟨rs, hrs1, hrs2⟩ := hc.marginal_sell
    have hrb := (mem_buys.mp (mem_sortDesc.mp (List.mem_of_getElem? hrb1))).1
    have hrs := (mem_sells.mp (mem_sortAsc.mp (List.mem_of_getElem? hrs1))).1
    have e1 : f ps = ps + b := by
      rw [hps] at hrs2
      rw [WithTop.coe_injective hrs2]
      exact hg rs hrs
    have e2 : f pb = pb + b := by
      rw [hpb] at hrb2
      rw [WithTop.coe_injective hrb2]
      exact hg rb hrb
    have e1' : repriceExt f (ps : Ext) = repriceExt (· + b) (ps : Ext) := congrArg some e1
    have e2' : repriceExt f (pb : Ext) = repriceExt (· + b) (pb : Ext) := congrArg some e2
    rcases hcase with ⟨_, _, cs, cb, _, _, _, _, _, hrun⟩ | ⟨_, hrun⟩
    · rw [hrun]
      simp only [repriceHuang, plusResult, plusExtra, e1', e2', ← init_addAll_re, List.map_append, hcut _ _ _ e1,
        hcut _ _ _ e2]
    · rw [hrun]
      simp only [repriceHuang, plusResult, plusExtra, e1', e2']
      rfl

/-! ## MUDA -/

section

variable (b : ℚ)

theorem dupOnSide_plus (df : DF) : dupOnSide (df.map (reRow (· + b))) = dupOnSide df := by
  have hinj : Function.Injective (fun k : ℚ × ℤ => (k.1 + b, k.2)) := by
    rintro ⟨x, u⟩ ⟨y, v⟩ h
    simp only [Prod.mk.injEq, add_left_inj] at h
    rw [Prod.mk.injEq]
    exact h
  have hk : (df.map (reRow (· + b))).map (fun r => (r.price, r.user)) =
      (df.map (fun r => (r.price, r.user))).map (fun k : ℚ × ℤ => (k.1 + b, k.2)) := by
    rw [List.map_map, List.map_map]; rfl
  unfold dupOnSide
  simp only
  rw [hk, List.any_map]
  congr 1
  funext k
  simp only [Function.comp_apply]
  congr 2
  exact List.count_map_of_injective _ _ hinj k

theorem locLabels_re (f : ℚ → ℚ) (df : DF) (l : List ℕ) :
    locLabels (df.map (reRow f)) l = (locLabels df l).map (reRow f) := by
  unfold locLabels
  rw [List.map_filterMap]
  congr 1
  funext i
  rw [List.find?_map]
  rfl

theorem willingDemand_plus {S : Sorter} (hS : ComparisonSort S) (df : DF) (v : Val) :
    willingDemand S (df.map (reRow (· + b))) (plusVal b v) = (willingDemand S df v).map (reRow (· + b)) := by
  unfold willingDemand
  rw [buys_re, List.filter_map, sortDesc_re hS (strictMono_plus b)]
  congr 2
  apply List.filter_congr
  intro r _
  cases v with
  | fin q => simp only [plusVal, Val.leRat, Function.comp_apply, reRow, add_le_add_iff_right]
  | inf => rfl
  | ninf => rfl
  | nan => rfl

theorem willingSupply_plus {S : Sorter} (hS : ComparisonSort S) (df : DF) (v : Val) :
    willingSupply S (df.map (reRow (· + b))) (plusVal b v) = (willingSupply S df v).map (reRow (· + b)) := by
  unfold willingSupply
  rw [sells_re, List.filter_map, sortAsc_re hS (strictMono_plus b)]
  congr 2
  apply List.filter_congr
  intro r _
  cases v with
  | fin q => simp only [plusVal, Val.ratLe, Function.comp_apply, reRow, add_le_add_iff_right]
  | inf => rfl
  | ninf => rfl
  | nan => rfl

theorem getTradingBids_re (f : ℚ → ℚ) (df : DF) (q : ℚ) :
    getTradingBids (df.map (reRow f)) q = (getTradingBids df q).map (fun p => (p.1.map (reRow f), p.2)) := by
  unfold getTradingBids
  rw [quantities_re]
  by_cases h : df = [] ∧ q < 0
  · rw [if_pos h, if_pos ⟨by rw [h.1]; rfl, h.2⟩]
    rfl
  · rw [if_neg h, if_neg (by rw [List.map_eq_nil_iff]; exact h)]
    simp only [List.getElem?_map]
    cases df[lastIndex (df.map (fun r => r.quantity)) q]? with
    | none => rfl
    | some row =>
      have hq : (reRow f row).quantity = row.quantity := rfl
      simp only [Option.map_some, ← List.map_take, qsum_re, hq, ← List.map_drop]
      split
      · simp only [Except.map, List.map_append, List.map_cons]
        rfl
      · rfl

theorem tradingTrans_plus (rows : DF) (i : ℕ) (p : ℚ) :
    tradingTrans (rows.map (reRow (· + b))) i (p + b) = (tradingTrans rows i p).map (repriceTrans (· + b)) := by
  unfold tradingTrans
  rw [List.zipIdx_map, List.filter_map, List.map_map, List.map_map]
  rfl

theorem tradingUsers_re (f : ℚ → ℚ) (rows : DF) (i : ℕ) :
    tradingUsers (rows.map (reRow f)) i = tradingUsers rows i := by
  unfold tradingUsers
  rw [List.zipIdx_map, List.filter_map, List.map_map]
  rfl

theorem capLast_re (f : ℚ → ℚ) (d : ℚ) (l : List (Row × ℕ)) :
    capLast d (l.map (Prod.map (reRow f) id)) = (capLast d l).map (Prod.map (reRow f) id) := by
  induction l with
  | nil => rfl
  | cons x l ih =>
    cases l with
    | nil =>
      have hq : (reRow f x.1).quantity = x.1.quantity := rfl
      simp only [List.map_cons, List.map_nil, capLast, Prod.map_fst, hq]
      split <;> rfl
    | cons y l =>
      simp only [List.map_cons, capLast] at ih ⊢
      rw [ih]

theorem computeFee_plus (rows : DF) (i : ℕ) (u : ℤ) (q p : ℚ) :
    computeFee (rows.map (reRow (· + b))) i u q (p + b) = computeFee rows i u q p := by
  have hw : withoutUser (rows.map (reRow (· + b))) u = (withoutUser rows u).map (Prod.map (reRow (· + b)) id) := by
    unfold withoutUser
    rw [List.zipIdx_map, List.filter_map]
    rfl
  have hq : ∀ l : List (Row × ℕ), (l.map (Prod.map (reRow (· + b)) id)).map (fun p => p.1.quantity) =
      l.map (fun p => p.1.quantity) := by
    intro l
    rw [List.map_map]
    rfl
  unfold computeFee
  simp only [hw, List.map_eq_nil_iff, hq, ← List.map_take, ← List.map_dropLast, capLast_re]
  rw [List.filter_map, List.map_map]
  split
  · rfl
  · congr 2
    apply List.map_congr_left
    intro x _
    show (x.1.price + b - (p + b)) * x.1.quantity = (x.1.price - p) * x.1.quantity
    ring

theorem feeLoop_plus (rows : DF) (i : ℕ) (t p : ℚ) (us : List ℤ) (fees : List ℚ) :
    feeLoop (rows.map (reRow (· + b))) i t (p + b) us fees = feeLoop rows i t p us fees := by
  induction us generalizing fees with
  | nil => rfl
  | cons u us ih =>
    unfold feeLoop
    rw [computeFee_plus]
    cases npSet fees u (computeFee rows i u t p) with
    | error e => rfl
    | ok f => simp only [bind, Except.bind, ih]

theorem solveSide_inf {S : Sorter} {df : DF} (fees : List ℚ) :
    solveSide S df .inf fees = .ok (TransactionManager.init, fees) := by
  have hd : willingDemand S df .inf = [] := by
    unfold willingDemand
    have : (buys df).filter (fun r => Val.inf.leRat r.price) = [] := List.filter_eq_nil_iff.mpr (by
      intro r _; exact Bool.false_ne_true)
    rw [this]
    exact List.eq_nil_of_length_eq_zero ((sortDesc_perm S []).length_eq)
  unfold solveSide
  split
  · rfl
  split
  · rfl
  simp only [hd]
  rw [if_neg]
  have h0 : qsum ([] : DF) = 0 := rfl
  rw [h0]
  by_cases hs : 0 < qsum (willingSupply S df .inf)
  · simp [hs]
  · simp [hs]

theorem solveSide_plus {S : Sorter} (hS : ComparisonSort S) (df : DF) {v : Val} (hv : (∃ p, v = .fin p) ∨ v = .inf)
    (fees : List ℚ) :
    solveSide S (df.map (reRow (· + b))) (plusVal b v) fees =
      (solveSide S df v fees).map (fun r => (repriceLog (· + b) r.1, r.2)) := by
  rcases hv with ⟨p, rfl⟩ | rfl
  swap
  · show solveSide S _ .inf fees = _
    rw [solveSide_inf, solveSide_inf]
    rfl
  have hl : ∀ c : Bool, ∀ x y : DF, (if c then x.map (reRow (· + b)) else y.map (reRow (· + b))) =
      (if c then x else y).map (reRow (· + b)) := by
    intro c x y; cases c <;> rfl
  have hr : (plusVal b (.fin p)).toRat = (Val.fin p).toRat + b := rfl
  unfold solveSide
  simp only [buys_re, sells_re, List.length_map, willingDemand_plus b hS, willingSupply_plus b hS, qsum_re, hl,
    getTradingBids_re, hr]
  split
  · rfl
  split
  · rfl
  generalize (Val.fin p).toRat = w
  generalize (if decide (qsum (willingDemand S df (.fin p)) < qsum (willingSupply S df (.fin p)))
    then willingSupply S df (.fin p) else willingDemand S df (.fin p)) = long
  generalize (if decide (qsum (willingDemand S df (.fin p)) < qsum (willingSupply S df (.fin p)))
    then willingDemand S df (.fin p) else willingSupply S df (.fin p)) = short
  generalize (if decide (qsum (willingDemand S df (.fin p)) < qsum (willingSupply S df (.fin p)))
    then qsum (willingDemand S df (.fin p)) else qsum (willingSupply S df (.fin p))) = q
  split
  · cases getTradingBids long q with
    | error e => rfl
    | ok x =>
      cases getTradingBids short q with
      | error e => rfl
      | ok y =>
        simp only [Except.map, bind, Except.bind, tradingTrans_plus, tradingUsers_re, feeLoop_plus,
          ← List.map_append, init_addAll_re]
        cases feeLoop x.1 x.2 q w (tradingUsers x.1 x.2) fees with
        | error e => rfl
        | ok f => rfl
  · rfl

theorem merge_re (f : ℚ → ℚ) (x y : TransactionManager) :
    (repriceLog f x).merge (repriceLog f y) = repriceLog f (x.merge y) := by
  unfold TransactionManager.merge
  have h : ∀ (ts : List Transaction) (tm : TransactionManager),
      (repriceLog f tm).addAll (ts.map (repriceTrans f)) = repriceLog f (tm.addAll ts) := by
    intro ts
    induction ts with
    | nil => intro tm; rfl
    | cons t ts ih =>
      intro tm
      simp only [List.map_cons, TransactionManager.addAll]
      rw [← ih]
      congr 1
      simp [TransactionManager.addTransaction, repriceLog]
  show (TransactionManager.init.addAll (x.trans.map (repriceTrans f))).addAll
    (y.trans.map (repriceTrans f)) = _
  rw [init_addAll_re, h]

end

theorem findCompetitivePrice_plus {S : Sorter} (hS : ComparisonSort S) {b : ℚ} {df : DF} (h : Surchargeable b df) :
    ∃ v, findCompetitivePrice S df = .ok v ∧ findCompetitivePrice S (df.map (reRow (· + b))) = .ok (plusVal b v) ∧
      ((∃ p, v = .fin p) ∨ v = .inf) := by
  obtain ⟨i, j, e1, e2, _, _, _, e3, e4⟩ := intersect_plus hS h
  refine ⟨i.v, ?_, ?_, ?_⟩
  · unfold findCompetitivePrice; rw [e1]; rfl
  · rw [← surcharge_eq]
    unfold findCompetitivePrice; rw [e2, ← e3]; rfl
  · rcases e4 with e4 | e4
    · exact Or.inl e4
    · exact Or.inr e4.1

theorem Spec.Surchargeable.locLabels {b : ℚ} {df : DF} (h : Surchargeable b df) (l : List ℕ) :
    Surchargeable b (locLabels df l) := by
  intro r hr
  unfold PyMarket.locLabels at hr
  obtain ⟨i, _, hi⟩ := List.mem_filterMap.mp hr
  exact h r (List.mem_of_find?_eq_some hi)

theorem muda_plus {S : Sorter} (hS : ComparisonSort S) (coin : ℕ → Bool) {b : ℚ} {df : DF}
    (h : Surchargeable b df) : muda S coin (surcharge b df) = plusResult b (muda S coin df) := by
  rw [surcharge_eq]
  unfold muda checkEqualPriceRaises
  rw [buys_re, sells_re, dupOnSide_plus, dupOnSide_plus]
  split
  · rfl
  · unfold mudaBody
    simp only [labels_re, locLabels_re, users_re]
    generalize coinLeft coin (df.map (fun r => r.label)) = left
    generalize (df.map (fun r => r.label)).filter (fun i => decide (i ∉ left)) = right
    obtain ⟨pl, l1, l2, l3⟩ := findCompetitivePrice_plus hS (h.locLabels left)
    obtain ⟨pr, r1, r2, r3⟩ := findCompetitivePrice_plus hS (h.locLabels right)
    rw [l1, l2, r1, r2]
    simp only [bind, Except.bind]
    generalize (df.map (fun r => r.user)).dedup.length = n
    rw [solveSide_plus b hS _ r3]
    cases solveSide S (locLabels df left) pr (List.replicate n 0) with
    | error e => rfl
    | ok x =>
      simp only [Except.map]
      rw [solveSide_plus b hS _ l3]
      cases solveSide S (locLabels df right) pl x.2 with
      | error e => rfl
      | ok y =>
        simp only [Except.map, merge_re]
        rfl

/-! ## The classes -/

theorem mechRun_plus {b : ℚ} {algo : Algo} {df : DF}
    (h : algo (surcharge b df) = plusResult b (algo df)) :
    mechRun algo (surcharge b df) = plusResult b (mechRun algo df) := by
  unfold mechRun
  simp only
  rw [h]
  rw [surcharge_eq, buys_re, List.length_map, List.length_map]
  split <;> rfl

theorem fiveDecimals_add {x y : ℚ} (hx : FiveDecimals x) (hy : FiveDecimals y) : FiveDecimals (x + y) := by
  obtain ⟨m, rfl⟩ := hx
  obtain ⟨n, rfl⟩ := hy
  exact ⟨m + n, by push_cast; ring⟩

theorem mechanism_plus (smp : Sampler) {algo : Algo} {b : ℚ} {df : DF} (ht : IsTable df)
    (h : ∀ df, Surchargeable b df → algo (surcharge b df) = plusResult b (algo df))
    (hd : Surchargeable b df) (h5 : FiveDecimals b) (h5' : ∀ r ∈ df, FiveDecimals r.price) :
    mechanism smp true algo (surcharge b df) = plusResult b (mechanism smp true algo df) := by
  have hround : ∀ r ∈ df, npRound 5 r.price = r.price := fun r hr =>
    isRounded_unique (npRound_isRounded 5 _) (isRounded_self (h5' r hr))
  obtain ⟨nb, mp, e, hs⟩ := merge_spec0 smp ht (fun r hr => (hd r hr).1)
  have hnb : Surchargeable b nb := by
    intro row hrow
    obtain ⟨k, hk⟩ := List.mem_iff_getElem?.mp hrow
    have hlt : k < mp.length := by
      rw [hs.length]
      exact (List.getElem?_eq_some_iff.mp hk).1
    obtain ⟨g1, _, g3⟩ := hs.group k row _ hk (List.getElem?_eq_getElem hlt)
    obtain ⟨i, hi⟩ := List.exists_mem_of_ne_nil _ g1
    obtain ⟨r, hr, _, hp⟩ := g3 i hi
    have hm := List.mem_of_getElem? hr
    rw [hround r hm] at hp
    exact ⟨hs.qty row hrow, by rw [← hp]; exact (hd r hm).2.1, by rw [← hp]; exact (hd r hm).2.2⟩
  have hm : ∀ r ∈ df, npRound 5 (r.price + b) = npRound 5 r.price + b := fun r hr => by
    rw [hround r hr]
    exact isRounded_unique (npRound_isRounded 5 _) (isRounded_self (fiveDecimals_add (h5' r hr) h5))
  unfold mechanism
  rw [surcharge_eq]
  simp only [if_true, mergeSamePrice_re smp (strictMono_plus b) hm, e]
  simp only [Except.map, bind, Except.bind]
  rw [← surcharge_eq, mechRun_plus (h nb hnb)]
  cases mechRun algo nb with
  | error e => rfl
  | ok y =>
    obtain ⟨tm, ex⟩ := y
    simp only [plusResult, splitTransactions_re]
    cases splitTransactions tm df mp <;> rfl

/-! ## Peer to peer trading -/

section

variable {pr pr' : ℕ → ℚ} {k b : ℚ}

theorem tradeRound_plus (hk0 : 0 ≤ k) {ps : List (ℕ × ℕ)}
    (h : ∀ p ∈ ps, 0 < pr p.1 ∧ 0 < pr p.2 ∧ pr' p.1 = pr p.1 + b ∧ pr' p.2 = pr p.2 + b) (q : ℕ → ℚ) :
    (tradeRound pr' k q ps).1 = (tradeRound pr k q ps).1 ∧
      (tradeRound pr' k q ps).2 = (tradeRound pr k q ps).2.map (plusMeeting b) := by
  induction ps generalizing q with
  | nil => exact ⟨rfl, rfl⟩
  | cons p ps ih =>
    obtain ⟨a1, a2, a3, a4⟩ := h p (List.mem_cons_self ..)
    have h1 : (tradeOne pr' k q p).1 = (tradeOne pr k q p).1 ∧
        (tradeOne pr' k q p).2 = (tradeOne pr k q p).2.map (plusMeeting b) := by
      unfold tradeOne
      by_cases hc : pr p.2 ≤ pr p.1
      · have hpos : pr p.1 * k + (1 - k) * pr p.2 ≠ 0 := by
          have e1 := mul_le_mul_of_nonneg_right hc hk0
          have : 0 < pr p.1 * k + (1 - k) * pr p.2 := by nlinarith
          exact this.ne'
        have hsum : (pr p.1 + b) * k + (1 - k) * (pr p.2 + b) = pr p.1 * k + (1 - k) * pr p.2 + b := by ring
        simp only [a3, a4, add_le_add_iff_right, if_pos hc, List.map_cons, List.map_nil, plusMeeting, if_neg hpos,
          hsum, and_self]
      · simp only [a3, a4, add_le_add_iff_right, if_neg hc]
        exact ⟨trivial, rfl⟩
    have h2 := ih (fun p hp => h p (List.mem_cons_of_mem _ hp)) (tradeOne pr k q p).1
    unfold tradeRound
    simp only [List.map_append]
    rw [h1.1, h1.2, h2.1, h2.2]
    exact ⟨rfl, rfl⟩

theorem p2pLoop_plus (hk0 : 0 ≤ k) {df : DF} (choice : ℕ → ℕ) (n : ℕ) (q : ℕ → ℚ)
    (active : List (ℕ × ℕ)) (inactive : List ℕ)
    (h : ∀ p ∈ active, 0 < pr p.1 ∧ 0 < pr p.2 ∧ pr' p.1 = pr p.1 + b ∧ pr' p.2 = pr p.2 + b) :
    (p2pLoop (surcharge b df) pr' k choice n q active inactive) =
      ((p2pLoop df pr k choice n q active inactive).1,
        (p2pLoop df pr k choice n q active inactive).2.map (plusMeeting b)) := by
  have hl : ∀ q : ℕ → ℚ, (surcharge b df).map (fun r => q r.label) = df.map (fun r => q r.label) := by
    intro q
    rw [surcharge_eq, List.map_map]
    rfl
  have hx : ∀ q : ℕ → ℚ, exhausted (surcharge b df) q = exhausted df q := by
    intro q
    unfold exhausted
    rw [surcharge_eq, buys_re, sells_re, List.map_map, List.map_map]
    rfl
  fun_induction p2pLoop df pr k choice n q active inactive with
  | case1 n q active inactive tmp hc m t rest ih =>
    obtain ⟨m1, m2⟩ := meetLoop_mem choice n active tmp
    obtain ⟨t1, t2⟩ := tradeRound_plus (b := b) (pr := pr) (pr' := pr') hk0 (ps := m.2.2)
      (fun p hp => h p ((maskOut_sublist active inactive).subset (m2 hp))) q
    have i1 := ih (fun p hp => h p (m1 hp))
    rw [p2pLoop, dif_pos (by rw [hl]; exact hc)]
    simp only [hx, List.map_append]
    rw [t1, t2, i1]
  | case2 n q active inactive tmp hc =>
    rw [p2pLoop, dif_neg (by rw [hl]; exact hc)]
    rfl

end

theorem p2pRandom_plus {k : ℚ} (hk0 : 0 ≤ k) (choice : ℕ → ℕ) {b : ℚ} {df : DF} (ht : IsTable df)
    (h : ∀ r ∈ df, 0 < r.price) :
    p2pRandom k choice (surcharge b df) =
      (p2pRandom k choice df).map (fun r => ({ r.1 with trans := r.1.trans.map (plusMeeting b) }, r.2)) := by
  have e1 : allPairs (surcharge b df) = allPairs df := by
    unfold allPairs
    rw [surcharge_eq, buys_re, sells_re, List.flatMap_map]
    congr 1
    funext b
    rw [List.map_map]
    rfl
  have e2 : valueAt (surcharge b df) (fun r => r.quantity) = valueAt df (fun r => r.quantity) := by
    funext i
    unfold valueAt
    rw [surcharge_eq, List.getElem?_map]
    cases df[i]? <;> rfl
  have e3 : ∀ r ∈ df, valueAt (surcharge b df) (fun r => r.price) r.label = r.price + b ∧
      valueAt df (fun r => r.price) r.label = r.price := by
    intro r hr
    have := ht.get_label hr
    unfold valueAt
    rw [surcharge_eq, List.getElem?_map, this]
    exact ⟨rfl, rfl⟩
  have hadd : ∀ (ts : List Transaction) (tm : TransactionManager),
      { tm with trans := tm.trans.map (plusMeeting b) }.addAll (ts.map (plusMeeting b)) =
        { tm.addAll ts with trans := (tm.addAll ts).trans.map (plusMeeting b) } := by
    intro ts
    induction ts with
    | nil => intro tm; rfl
    | cons t ts ih =>
      intro tm
      simp only [List.map_cons, TransactionManager.addAll]
      rw [← ih]
      congr 1
      simp [TransactionManager.addTransaction]
  unfold p2pRandom
  simp only [Except.map]
  rw [e1, e2, p2pLoop_plus (b := b) (df := df) (pr := valueAt df (fun r => r.price))
    (pr' := valueAt (surcharge b df) (fun r => r.price)) hk0 choice 0
    (valueAt df (fun r => r.quantity)) (allPairs df) [] (by
      intro p hp
      unfold allPairs at hp
      obtain ⟨b, hb, hp⟩ := List.mem_flatMap.mp hp
      obtain ⟨s, hs, rfl⟩ := List.mem_map.mp hp
      have hb1 := (List.mem_filter.mp hb).1
      have hs1 := (List.mem_filter.mp hs).1
      simp only [(e3 b hb1).1, (e3 b hb1).2, (e3 s hs1).1, (e3 s hs1).2]
      exact ⟨h b hb1, h s hs1, trivial, trivial⟩)]
  simp only
  congr 2
  exact hadd _ TransactionManager.init

end PyMarket
