import Verif.Lemmas.Scale
import Mathlib.Data.List.Count

/-! # MUDA and P2P commute with a change of units -/

set_option autoImplicit false

namespace PyMarket

open Spec

/-! ## MUDA -/

theorem toRat_scale (c : ℚ) (v : Val) : (scaleVal c v).toRat = c * v.toRat := by
  cases v <;> simp [scaleVal, Val.toRat]

theorem dupOnSide_scale {a c : ℚ} (hc : 0 < c) (df : DF) :
    dupOnSide (df.map (scaleRow a c)) = dupOnSide df := by
  have hinj : Function.Injective (fun k : ℚ × ℤ => (c * k.1, k.2)) := by
    rintro ⟨x, u⟩ ⟨y, v⟩ h
    simp only [Prod.mk.injEq] at h
    rw [Prod.mk.injEq]
    exact ⟨mul_left_cancel₀ hc.ne' h.1, h.2⟩
  have hk : (df.map (scaleRow a c)).map (fun r => (r.price, r.user)) =
      (df.map (fun r => (r.price, r.user))).map (fun k : ℚ × ℤ => (c * k.1, k.2)) := by
    rw [List.map_map, List.map_map]; rfl
  unfold dupOnSide
  simp only
  rw [hk, List.any_map]
  congr 1
  funext k
  simp only [Function.comp_apply]
  congr 2
  exact List.count_map_of_injective _ _ hinj k

theorem locLabels_scale (a c : ℚ) (df : DF) (l : List ℕ) :
    locLabels (df.map (scaleRow a c)) l = (locLabels df l).map (scaleRow a c) := by
  unfold locLabels
  rw [List.map_filterMap]
  congr 1
  funext i
  rw [List.find?_map]
  rfl

theorem npSet_scale (k : ℚ) (fees : List ℚ) (u : ℤ) (v : ℚ) :
    npSet (fees.map (fun x => k * x)) u (k * v) =
      (npSet fees u v).map (List.map (fun x => k * x)) := by
  unfold npSet
  rw [List.length_map]
  split
  · simp only [Except.map, List.map_set]
  · split
    · simp only [Except.map, List.map_set]
    · rfl

section

variable {a c : ℚ} (ha : 0 < a) (hc : 0 < c)

include hc

theorem leRat_scale (v : Val) (x : ℚ) : (scaleVal c v).leRat (c * x) = v.leRat x := by
  cases v with
  | fin q => simp only [scaleVal, Val.leRat, mul_le_mul_iff_of_pos_left hc]
  | inf => rfl
  | ninf => rfl
  | nan => rfl

theorem ratLe_scale (v : Val) (x : ℚ) : Val.ratLe (c * x) (scaleVal c v) = Val.ratLe x v := by
  cases v with
  | fin q => simp only [scaleVal, Val.ratLe, mul_le_mul_iff_of_pos_left hc]
  | inf => rfl
  | ninf => rfl
  | nan => rfl

theorem willingDemand_scale {S : Sorter} (hS : Unaffected S c) (df : DF) (v : Val) :
    willingDemand S (df.map (scaleRow a c)) (scaleVal c v) =
      (willingDemand S df v).map (scaleRow a c) := by
  unfold willingDemand
  rw [buys_scale, List.filter_map, sortDesc_scale hS]
  congr 2
  apply List.filter_congr
  intro r _
  exact leRat_scale hc v r.price

theorem willingSupply_scale {S : Sorter} (hS : Unaffected S c) (df : DF) (v : Val) :
    willingSupply S (df.map (scaleRow a c)) (scaleVal c v) =
      (willingSupply S df v).map (scaleRow a c) := by
  unfold willingSupply
  rw [sells_scale, List.filter_map, sortAsc_scale hS]
  congr 2
  apply List.filter_congr
  intro r _
  exact ratLe_scale hc v r.price

omit hc

include ha

theorem lastIndex_scale (qs : List ℚ) (q : ℚ) :
    lastIndex (qs.map (fun x => a * x)) (a * q) = lastIndex qs q := by
  unfold lastIndex
  rw [sum_scale, cumsum_scale, List.map_map, List.length_map]
  simp only [mul_lt_mul_iff_of_pos_left ha, Function.comp_def, mul_le_mul_iff_of_pos_left ha]

theorem getTradingBids_scale (df : DF) (q : ℚ) :
    getTradingBids (df.map (scaleRow a c)) (a * q) =
      (getTradingBids df q).map (fun p => (p.1.map (scaleRow a c), p.2)) := by
  unfold getTradingBids
  rw [quantities_scale, lastIndex_scale ha]
  have hneg : a * q < 0 ↔ q < 0 := by
    rw [← mul_zero a, mul_lt_mul_iff_of_pos_left ha, mul_zero]
  by_cases h : df = [] ∧ q < 0
  · rw [if_pos h, if_pos ⟨by rw [h.1]; rfl, hneg.mpr h.2⟩]
    rfl
  · rw [if_neg h, if_neg (by rw [List.map_eq_nil_iff, hneg]; exact h)]
    simp only [List.getElem?_map]
    cases df[lastIndex (df.map (fun r => r.quantity)) q]? with
    | none => rfl
    | some row =>
      have hq : (scaleRow a c row).quantity = a * row.quantity := rfl
      simp only [Option.map_some, ← List.map_take, qsum_scale, ← mul_sub, hq,
        mul_lt_mul_iff_of_pos_left ha, ← List.map_drop]
      split
      · simp only [Except.map, List.map_append, List.map_cons]
        rfl
      · rfl

omit ha

theorem tradingTrans_scale (rows : DF) (i : ℕ) (p : ℚ) :
    tradingTrans (rows.map (scaleRow a c)) i (c * p) =
      (tradingTrans rows i p).map (scaleTrans a c) := by
  unfold tradingTrans
  rw [List.zipIdx_map, List.filter_map, List.map_map, List.map_map]
  rfl

theorem tradingUsers_scale (rows : DF) (i : ℕ) :
    tradingUsers (rows.map (scaleRow a c)) i = tradingUsers rows i := by
  unfold tradingUsers
  rw [List.zipIdx_map, List.filter_map, List.map_map]
  rfl

include ha

theorem capLast_scale (d : ℚ) (l : List (Row × ℕ)) :
    capLast (a * d) (l.map (Prod.map (scaleRow a c) id)) =
      (capLast d l).map (Prod.map (scaleRow a c) id) := by
  induction l with
  | nil => rfl
  | cons x l ih =>
    cases l with
    | nil =>
      have hq : (scaleRow a c x.1).quantity = a * x.1.quantity := rfl
      simp only [List.map_cons, List.map_nil, capLast, Prod.map_fst, hq,
        mul_lt_mul_iff_of_pos_left ha]
      split <;> rfl
    | cons y l =>
      simp only [List.map_cons, capLast] at ih ⊢
      rw [ih]

include hc

theorem computeFee_scale (rows : DF) (i : ℕ) (u : ℤ) (q p : ℚ) :
    computeFee (rows.map (scaleRow a c)) i u (a * q) (c * p) = a * c * computeFee rows i u q p := by
  have hw : withoutUser (rows.map (scaleRow a c)) u =
      (withoutUser rows u).map (Prod.map (scaleRow a c) id) := by
    unfold withoutUser
    rw [List.zipIdx_map, List.filter_map]
    rfl
  have hq : ∀ l : List (Row × ℕ), (l.map (Prod.map (scaleRow a c) id)).map (fun p => p.1.quantity) =
      (l.map (fun p => p.1.quantity)).map (fun x => a * x) := by
    intro l
    rw [List.map_map, List.map_map]
    rfl
  unfold computeFee
  simp only [hw, List.map_eq_nil_iff, hq, lastIndex_scale ha, ← List.map_take, ← List.map_dropLast,
    sum_scale, ← mul_sub, capLast_scale ha]
  rw [List.filter_map, List.map_map]
  split
  · rw [mul_zero]
  · have : ∀ l : List (Row × ℕ),
        (l.map ((fun x : Row × ℕ => (x.1.price - c * p) * x.1.quantity) ∘
          Prod.map (scaleRow a c) id)).sum =
        a * c * (l.map (fun x => (x.1.price - p) * x.1.quantity)).sum := by
      intro l
      rw [← sum_scale, List.map_map]
      congr 1
      apply List.map_congr_left
      intro x _
      show (c * x.1.price - c * p) * (a * x.1.quantity) = a * c * ((x.1.price - p) * x.1.quantity)
      ring
    rw [this, abs_mul, abs_of_pos (mul_pos ha hc)]
    rfl

theorem feeLoop_scale (rows : DF) (i : ℕ) (t p : ℚ) (us : List ℤ) (fees : List ℚ) :
    feeLoop (rows.map (scaleRow a c)) i (a * t) (c * p) us (fees.map (fun x => a * c * x)) =
      (feeLoop rows i t p us fees).map (List.map (fun x => a * c * x)) := by
  induction us generalizing fees with
  | nil => rfl
  | cons u us ih =>
    unfold feeLoop
    rw [computeFee_scale ha hc, npSet_scale]
    cases npSet fees u (computeFee rows i u t p) with
    | error e => rfl
    | ok f => simp only [Except.map, bind, Except.bind, ih]

/-- The result of one half in the new units. -/
def scaleSide (a c : ℚ) (r : TransactionManager × List ℚ) : TransactionManager × List ℚ :=
  (scaleLog a c r.1, r.2.map (fun x => a * c * x))

theorem solveSide_scale {S : Sorter} (hS : Unaffected S c) (df : DF) (v : Val) (fees : List ℚ) :
    solveSide S (df.map (scaleRow a c)) (scaleVal c v) (fees.map (fun x => a * c * x)) =
      (solveSide S df v fees).map (scaleSide a c) := by
  have hl : ∀ b : Bool, ∀ x y : DF, (if b then x.map (scaleRow a c) else y.map (scaleRow a c)) =
      (if b then x else y).map (scaleRow a c) := by
    intro b x y; cases b <;> rfl
  have hl' : ∀ b : Bool, ∀ x y : ℚ, (if b then a * x else a * y) = a * (if b then x else y) := by
    intro b x y; cases b <;> rfl
  unfold solveSide
  simp only [buys_scale, sells_scale, List.length_map, willingDemand_scale hc hS,
    willingSupply_scale hc hS, qsum_scale, mul_lt_mul_iff_of_pos_left ha, hl, hl',
    getTradingBids_scale ha, mul_pos_iff_of_pos_left ha, toRat_scale]
  split
  · rfl
  split
  · rfl
  generalize (if decide (qsum (willingDemand S df v) < qsum (willingSupply S df v))
    then willingSupply S df v else willingDemand S df v) = long
  generalize (if decide (qsum (willingDemand S df v) < qsum (willingSupply S df v))
    then willingDemand S df v else willingSupply S df v) = short
  generalize (if decide (qsum (willingDemand S df v) < qsum (willingSupply S df v))
    then qsum (willingDemand S df v) else qsum (willingSupply S df v)) = q
  split
  · cases getTradingBids long q with
    | error e => rfl
    | ok x =>
      cases getTradingBids short q with
      | error e => rfl
      | ok y =>
        simp only [Except.map, bind, Except.bind, tradingTrans_scale, tradingUsers_scale,
          feeLoop_scale ha hc, ← List.map_append, init_addAll_scale]
        cases feeLoop x.1 x.2 q v.toRat (tradingUsers x.1 x.2) fees with
        | error e => rfl
        | ok f => rfl
  · rfl

theorem findCompetitivePrice_scale {S : Sorter} (hS : Unaffected S c) (df : DF) :
    findCompetitivePrice S (df.map (scaleRow a c)) =
      (findCompetitivePrice S df).map (scaleVal c) := by
  unfold findCompetitivePrice
  rw [demandCurve_scale hS, supplyCurve_scale hS, intersectStepwise_scale ha hc]
  cases intersectStepwise (demandCurve S df).1 (supplyCurve S df).1 with
  | error e => rfl
  | ok i => rfl

omit ha hc in
theorem merge_scale (x y : TransactionManager) :
    (scaleLog a c x).merge (scaleLog a c y) = scaleLog a c (x.merge y) := by
  unfold TransactionManager.merge
  have h : ∀ (ts : List Transaction) (tm : TransactionManager),
      (scaleLog a c tm).addAll (ts.map (scaleTrans a c)) = scaleLog a c (tm.addAll ts) := by
    intro ts
    induction ts with
    | nil => intro tm; rfl
    | cons t ts ih =>
      intro tm
      simp only [List.map_cons, TransactionManager.addAll]
      rw [← ih]
      congr 1
      simp [TransactionManager.addTransaction, scaleLog]
  show (TransactionManager.init.addAll (x.trans.map (scaleTrans a c))).addAll
    (y.trans.map (scaleTrans a c)) = _
  rw [init_addAll_scale, h]

theorem muda_scale {S : Sorter} (hS : Unaffected S c) (coin : ℕ → Bool) (df : DF) :
    muda S coin (df.map (scaleRow a c)) = scaleResult a c (muda S coin df) := by
  unfold muda checkEqualPriceRaises
  rw [buys_scale, sells_scale, dupOnSide_scale hc, dupOnSide_scale hc]
  split
  · rfl
  · unfold mudaBody
    simp only [labels_scale, locLabels_scale, findCompetitivePrice_scale ha hc hS, users_scale]
    generalize coinLeft coin (df.map (fun r => r.label)) = left
    generalize (df.map (fun r => r.label)).filter (fun i => decide (i ∉ left)) = right
    cases findCompetitivePrice S (locLabels df left) with
    | error e => rfl
    | ok pl =>
      cases findCompetitivePrice S (locLabels df right) with
      | error e => rfl
      | ok pr =>
        simp only [Except.map, bind, Except.bind]
        generalize (df.map (fun r => r.user)).dedup.length = n
        have h0 : List.replicate n (0 : ℚ) = (List.replicate n (0 : ℚ)).map (fun x => a * c * x) := by
          rw [List.map_replicate, mul_zero]
        rw [h0, solveSide_scale ha hc hS, ← h0]
        cases solveSide S (locLabels df left) pr (List.replicate n 0) with
        | error e => rfl
        | ok x =>
          simp only [Except.map, scaleSide]
          rw [solveSide_scale ha hc hS]
          cases solveSide S (locLabels df right) pl x.2 with
          | error e => rfl
          | ok y =>
            simp only [Except.map, scaleSide, merge_scale]
            rfl

end

/-! ## P2P -/

section

variable {a c : ℚ} (ha : 0 < a) (hc : 0 < c)

include ha hc

theorem tradeOne_scale (prices : ℕ → ℚ) (k : ℚ) (q : ℕ → ℚ) (p : ℕ × ℕ) :
    tradeOne (fun i => c * prices i) k (fun i => a * q i) p =
      ((fun i => a * (tradeOne prices k q p).1 i),
        (tradeOne prices k q p).2.map (scaleTrans a c)) := by
  unfold tradeOne
  simp only [mul_le_mul_iff_of_pos_left hc, ← mul_min' ha, ← mul_sub, mul_pos_iff_of_pos_left ha]
  split
  · simp only [Prod.mk.injEq]
    constructor
    · funext j
      simp only [setQ]
      split
      · split
        · rw [← mul_sub]
        · rw [← mul_sub]
      · split <;> rfl
    · simp only [List.map_cons, List.map_nil, scaleTrans]
      have : c * prices p.1 * k + (1 - k) * (c * prices p.2) =
        c * (prices p.1 * k + (1 - k) * prices p.2) := by ring
      rw [this]
  · simp [scaleTrans]

theorem tradeRound_scale (prices : ℕ → ℚ) (k : ℚ) (q : ℕ → ℚ) (ps : List (ℕ × ℕ)) :
    tradeRound (fun i => c * prices i) k (fun i => a * q i) ps =
      ((fun i => a * (tradeRound prices k q ps).1 i),
        (tradeRound prices k q ps).2.map (scaleTrans a c)) := by
  induction ps generalizing q with
  | nil => rfl
  | cons p ps ih => simp only [tradeRound, tradeOne_scale ha hc, ih, List.map_append]

theorem p2pLoop_scale (df : DF) (prices : ℕ → ℚ) (k : ℚ) (choice : ℕ → ℕ) (n : ℕ)
    (q : ℕ → ℚ) (active : List (ℕ × ℕ)) (inactive : List ℕ) :
    p2pLoop (df.map (scaleRow a c)) (fun i => c * prices i) k choice n (fun i => a * q i) active
        inactive =
      ((p2pLoop df prices k choice n q active inactive).1,
        (p2pLoop df prices k choice n q active inactive).2.map (scaleTrans a c)) := by
  have hl : ∀ q : ℕ → ℚ, ((df.map (scaleRow a c)).map (fun r => a * q r.label)).sum =
      a * (df.map (fun r => q r.label)).sum := by
    intro q
    rw [← sum_scale, List.map_map, List.map_map]
    rfl
  have hx : ∀ q : ℕ → ℚ, exhausted (df.map (scaleRow a c)) (fun i => a * q i) =
      exhausted df q := by
    intro q
    unfold exhausted
    rw [buys_scale, sells_scale, labels_scale, labels_scale]
    simp only [mul_eq_zero, ha.ne', false_or]
  fun_induction p2pLoop df prices k choice n q active inactive with
  | case1 n q active inactive tmp hc' m t rest ih =>
    have ht := tradeRound_scale ha hc prices k q m.2.2
    rw [p2pLoop, dif_pos (by rw [hl, mul_pos_iff_of_pos_left ha]; exact hc')]
    simp only
    rw [ht]
    simp only
    rw [hx, ih, List.map_append]
  | case2 n q active inactive tmp hc' =>
    rw [p2pLoop, dif_neg (by rw [hl, mul_pos_iff_of_pos_left ha]; exact hc')]
    rfl

theorem p2pRandom_scale (k : ℚ) (choice : ℕ → ℕ) (df : DF) :
    p2pRandom k choice (df.map (scaleRow a c)) = scaleResult a c (p2pRandom k choice df) := by
  have e1 : valueAt (df.map (scaleRow a c)) (fun r => r.price) =
      fun i => c * valueAt df (fun r => r.price) i := by
    funext i
    unfold valueAt
    rw [List.getElem?_map]
    cases df[i]? with
    | none => simp
    | some r => rfl
  have e2 : valueAt (df.map (scaleRow a c)) (fun r => r.quantity) =
      fun i => a * valueAt df (fun r => r.quantity) i := by
    funext i
    unfold valueAt
    rw [List.getElem?_map]
    cases df[i]? with
    | none => simp
    | some r => rfl
  have e3 : allPairs (df.map (scaleRow a c)) = allPairs df := by
    unfold allPairs
    rw [buys_scale, sells_scale, List.flatMap_map]
    congr 1
    funext b
    rw [List.map_map]
    rfl
  unfold p2pRandom
  simp only
  rw [e1, e2, e3, p2pLoop_scale ha hc]
  simp only
  rw [init_addAll_scale]
  rfl

end

/-! ## Mechanisms -/

theorem mechRun_scale {a c : ℚ} {algo : Algo}
    (h : ∀ df, algo (df.map (scaleRow a c)) = scaleResult a c (algo df)) (df : DF) :
    mechRun algo (df.map (scaleRow a c)) = scaleResult a c (mechRun algo df) := by
  unfold mechRun
  simp only
  rw [buys_scale, List.length_map, List.length_map, h]
  split <;> rfl

/-! ### Merging, when rounding commutes with the change of the price unit -/

/-- Rounding the prices commutes with the change of unit. -/
def RoundsAlong (c : ℚ) (prec : ℕ) (df : DF) : Prop :=
  ∀ r ∈ df, npRound prec (c * r.price) = c * npRound prec r.price

theorem roundsAlong_one (prec : ℕ) (df : DF) : RoundsAlong 1 prec df := by
  intro r _
  rw [one_mul, one_mul]

/-- A bid in the new units. -/
def scaleBid (a c : ℚ) (b : Bid) : Bid := { b with quantity := a * b.quantity, price := c * b.price }

theorem groupRows_scale {a c : ℚ} (hc : 0 < c) {prec : ℕ} {df : DF} (h : RoundsAlong c prec df)
    (k : ℚ) :
    groupRows prec (df.map (scaleRow a c)) (c * k) = (groupRows prec df k).map (scaleRow a c) := by
  unfold groupRows
  rw [List.filter_map]
  congr 1
  apply List.filter_congr
  intro r hr
  have e : npRound prec (scaleRow a c r).price = c * npRound prec r.price := h r hr
  simp only [Function.comp_apply, e]
  rw [Bool.eq_iff_iff, beq_iff_eq, beq_iff_eq]
  exact mul_right_inj' hc.ne'

theorem groupKeys_scale {a c : ℚ} (hc : 0 < c) {prec : ℕ} {df : DF} (h : RoundsAlong c prec df) :
    groupKeys prec (df.map (scaleRow a c)) = (groupKeys prec df).map (fun x => c * x) := by
  unfold groupKeys
  have e : (df.map (scaleRow a c)).map (fun r => npRound prec r.price) =
      (df.map (fun r => npRound prec r.price)).map (fun x => c * x) := by
    rw [List.map_map, List.map_map]
    apply List.map_congr_left
    intro r hr
    exact h r hr
  rw [e, List.dedup_map_of_injective (fun x y hxy => mul_left_cancel₀ hc.ne' hxy),
    List.map_insertionSort _ (fun a b => a ≤ b) (fun x => c * x) _
      (fun x _ y _ => (mul_le_mul_iff_of_pos_left hc).symm)]

theorem aggGroup_scale (smp : Sampler) (side : Bool) (a c k : ℚ) (rows : DF) (i : ℤ) :
    aggGroup smp side (c * k) (rows.map (scaleRow a c)) i =
      (aggGroup smp side k rows i).map (fun x => ((scaleBid a c x.1.1, x.1.2), x.2)) := by
  have ht : (rows.map (scaleRow a c)).map (fun r => r.time) = rows.map (fun r => r.time) := by
    rw [List.map_map]; rfl
  have hd : (rows.map (scaleRow a c)).map (fun r => r.divisible) =
      rows.map (fun r => r.divisible) := by
    rw [List.map_map]; rfl
  unfold aggGroup
  rw [users_scale, qsum_scale, labels_scale, ht, hd]
  cases newId i (rows.map (fun r => r.user)) with
  | error e => rfl
  | ok x => rfl

theorem aggSide_scale (smp : Sampler) {prec : ℕ} (side : Bool) {a c : ℚ} (hc : 0 < c) {df : DF}
    (h : RoundsAlong c prec df) (ks : List ℚ) (i : ℤ) :
    aggSide smp prec side (df.map (scaleRow a c)) (ks.map (fun x => c * x)) i =
      (aggSide smp prec side df ks i).map (fun x =>
        (x.1.map (fun g => (scaleBid a c g.1, g.2)), x.2)) := by
  induction ks generalizing i with
  | nil => rfl
  | cons k ks ih =>
    rw [List.map_cons]
    unfold aggSide
    rw [groupRows_scale hc h, aggGroup_scale]
    cases aggGroup smp side k (groupRows prec df k) i with
    | error e => rfl
    | ok x =>
      simp only [Except.map, bind, Except.bind, ih]
      cases aggSide smp prec side df ks x.2 with
      | error e => rfl
      | ok y => rfl

theorem labelFrom_scale (a c : ℚ) (n : ℕ) (bs : List Bid) :
    labelFrom n (bs.map (scaleBid a c)) = (labelFrom n bs).map (scaleRow a c) := by
  induction bs generalizing n with
  | nil => rfl
  | cons b bs ih =>
    simp only [labelFrom, List.map_cons, ih]
    rfl

theorem mergeSamePrice_scale (smp : Sampler) {a c : ℚ} (hc : 0 < c) {df : DF} {prec : ℕ}
    (h : RoundsAlong c prec df) :
    mergeSamePrice smp (df.map (scaleRow a c)) prec =
      (mergeSamePrice smp df prec).map (fun x => (x.1.map (scaleRow a c), x.2)) := by
  have hmax : maxUserSucc (df.map (scaleRow a c)) = maxUserSucc df := by
    unfold maxUserSucc
    rw [users_scale]
  have hb : RoundsAlong c prec (buys df) := fun r hr => h r (List.mem_filter.mp hr).1
  have hs : RoundsAlong c prec (sells df) := fun r hr => h r (List.mem_filter.mp hr).1
  unfold mergeSamePrice
  simp only [buys_scale, sells_scale, groupKeys_scale hc hb, groupKeys_scale hc hs, hmax,
    aggSide_scale smp _ hc hb, aggSide_scale smp _ hc hs]
  cases aggSide smp prec true (buys df) (groupKeys prec (buys df)) (maxUserSucc df) with
  | error e => rfl
  | ok x =>
    simp only [Except.map, bind, Except.bind]
    cases aggSide smp prec false (sells df) (groupKeys prec (sells df)) x.2 with
    | error e => rfl
    | ok y =>
      simp only [← List.map_append]
      rw [← labelFrom_scale, List.map_map, List.map_map, List.map_map]
      rfl

theorem splitOne_scale {a c : ℚ} (ha : 0 < a) (df : DF) (mp : List (List ℕ)) (t : Transaction) :
    splitOne (df.map (scaleRow a c)) mp (scaleTrans a c t) =
      (splitOne df mp t).map (List.map (scaleTrans a c)) := by
  unfold splitOne
  have hb : (scaleTrans a c t).bid = t.bid := rfl
  rw [hb]
  split
  · rfl
  · rename_i rows _
    have hm : rows.filterMap (fun i => (df.map (scaleRow a c))[i]?) =
        (rows.filterMap (fun i => df[i]?)).map (scaleRow a c) := by
      rw [List.map_filterMap]
      simp only [List.getElem?_map]
    have hz : ∀ x : ℚ, a * x = 0 ↔ x = 0 := fun x => by
      rw [mul_eq_zero, or_iff_right ha.ne']
    simp only [hm, List.length_map, qsum_scale, List.zip_map_right, List.map_map, hz]
    split
    · rfl
    · split
      · rfl
      · simp only [Except.map, List.map_map]
        congr 1
        apply List.map_congr_left
        intro p _
        simp only [Function.comp_apply, Prod.map_fst, Prod.map_snd, id_eq, scaleTrans, scaleRow,
          mul_div_mul_left _ _ ha.ne', mul_assoc]

theorem splitTransactions_scale {a c : ℚ} (ha : 0 < a) (tm : TransactionManager) (df : DF)
    (mp : List (List ℕ)) :
    splitTransactions (scaleLog a c tm) (df.map (scaleRow a c)) mp =
      (splitTransactions tm df mp).map (scaleLog a c) := by
  have h : ∀ ts : List Transaction,
      splitAll (df.map (scaleRow a c)) mp (ts.map (scaleTrans a c)) =
        (splitAll df mp ts).map (List.map (scaleTrans a c)) := by
    intro ts
    induction ts with
    | nil => rfl
    | cons t ts ih =>
      simp only [List.map_cons, splitAll, splitOne_scale ha, ih]
      cases splitOne df mp t with
      | error e => rfl
      | ok x =>
        cases splitAll df mp ts with
        | error e => rfl
        | ok y => simp only [Except.map, bind, Except.bind, List.map_append]
  unfold splitTransactions TransactionManager.getDf
  show (do
    let ts ← splitAll (df.map (scaleRow a c)) mp (tm.trans.map (scaleTrans a c))
    Except.ok (TransactionManager.init.addAll ts)) = _
  rw [h]
  cases splitAll df mp tm.trans with
  | error e => rfl
  | ok ts => simp only [Except.map, bind, Except.bind, init_addAll_scale]

theorem mechanism_scale (smp : Sampler) (merge : Bool) {a c : ℚ} (ha : 0 < a) (hc : 0 < c)
    {algo : Algo} (h : ∀ df, algo (df.map (scaleRow a c)) = scaleResult a c (algo df)) (df : DF)
    (hm : merge = true → RoundsAlong c 5 df) :
    mechanism smp merge algo (df.map (scaleRow a c)) =
      scaleResult a c (mechanism smp merge algo df) := by
  unfold mechanism
  cases merge with
  | false => exact mechRun_scale h df
  | true =>
    simp only [if_true, mergeSamePrice_scale smp hc (hm rfl)]
    cases mergeSamePrice smp df with
    | error e => rfl
    | ok x =>
      simp only [Except.map, bind, Except.bind, mechRun_scale h]
      cases mechRun algo x.1 with
      | error e => rfl
      | ok y =>
        simp only [scaleResult, splitTransactions_scale ha]
        cases splitTransactions y.1 df x.2 with
        | error e => rfl
        | ok z => rfl

end PyMarket
