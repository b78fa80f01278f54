import Verif.Model.Mechanism
import Verif.Lemmas.Sort

/-! # The mechanisms do not look at `time` and `divisible` -/

set_option autoImplicit false

namespace PyMarket

/-- `e` keeps quantity, price, side and id of a bid. -/
structure Keeps (e : Row → Row) : Prop where
  quantity : ∀ r, (e r).quantity = r.quantity
  price : ∀ r, (e r).price = r.price
  buying : ∀ r, (e r).buying = r.buying
  label : ∀ r, (e r).label = r.label

section

variable {e : Row → Row} (h : Keeps e)

include h

theorem Keeps.buys_map (df : DF) : buys (df.map e) = (buys df).map e := by
  unfold buys
  rw [List.filter_map]
  congr 2
  funext r
  exact h.buying r

theorem Keeps.sells_map (df : DF) : sells (df.map e) = (sells df).map e := by
  unfold sells
  rw [List.filter_map]
  congr 2
  funext r
  simp only [Function.comp_apply, h.buying r]

theorem Keeps.prices (df : DF) : (df.map e).map (fun r => r.price) = df.map (fun r => r.price) := by
  rw [List.map_map]
  apply List.map_congr_left
  intro r _
  exact h.price r

theorem Keeps.quantities (df : DF) :
    (df.map e).map (fun r => r.quantity) = df.map (fun r => r.quantity) := by
  rw [List.map_map]
  apply List.map_congr_left
  intro r _
  exact h.quantity r

theorem Keeps.labels (df : DF) : (df.map e).map (fun r => r.label) = df.map (fun r => r.label) := by
  rw [List.map_map]
  apply List.map_congr_left
  intro r _
  exact h.label r

theorem Keeps.sortAsc_map (S : Sorter) (df : DF) : sortAsc S (df.map e) = (sortAsc S df).map e := by
  unfold sortAsc
  rw [takeIdx_map, h.prices]

theorem Keeps.sortDesc_map (S : Sorter) (df : DF) :
    sortDesc S (df.map e) = (sortDesc S df).map e := by
  unfold sortDesc
  rw [takeIdx_map, h.prices]

theorem Keeps.qsum_map (df : DF) : qsum (df.map e) = qsum df := by
  unfold qsum
  rw [h.quantities]

theorem Keeps.demandCurve_map (S : Sorter) (df : DF) :
    demandCurve S (df.map e) = demandCurve S df := by
  unfold demandCurve
  simp only
  rw [h.buys_map, h.sortDesc_map, h.quantities, h.prices, h.labels]

theorem Keeps.supplyCurve_map (S : Sorter) (df : DF) :
    supplyCurve S (df.map e) = supplyCurve S df := by
  unfold supplyCurve
  simp only
  rw [h.sells_map, h.sortAsc_map, h.quantities, h.prices, h.labels]

theorem Keeps.huangSideTrans_map (rows : DF) (qs : List ℚ) (p : ℚ) :
    huangSideTrans (rows.map e) qs p = huangSideTrans rows qs p := by
  unfold huangSideTrans
  rw [List.zip_map_left, List.map_map]
  apply List.map_congr_left
  intro x _
  simp only [Function.comp_apply, Prod.map_fst, Prod.map_snd, id_eq, h.label]

theorem Keeps.huangAuction_map (S : Sorter) (df : DF) :
    huangAuction S (df.map e) = huangAuction S df := by
  unfold huangAuction
  simp only [h.demandCurve_map, h.supplyCurve_map, h.buys_map, h.sells_map, h.sortDesc_map,
    h.sortAsc_map, ← List.map_take, h.quantities, h.huangSideTrans_map]

theorem Keeps.valueAt_price (df : DF) (i : ℕ) :
    valueAt (df.map e) (fun r => r.price) i = valueAt df (fun r => r.price) i := by
  unfold valueAt
  rw [List.getElem?_map, Option.map_map]
  congr 2
  funext r
  exact h.price r

theorem Keeps.valueAt_quantity (df : DF) (i : ℕ) :
    valueAt (df.map e) (fun r => r.quantity) i = valueAt df (fun r => r.quantity) i := by
  unfold valueAt
  rw [List.getElem?_map, Option.map_map]
  congr 2
  funext r
  exact h.quantity r

theorem Keeps.allPairs_map (df : DF) : allPairs (df.map e) = allPairs df := by
  unfold allPairs
  rw [h.buys_map, h.sells_map, List.flatMap_map]
  simp only [h.label, List.map_map]
  congr 1
  funext b
  apply List.map_congr_left
  intro s _
  simp only [Function.comp_apply, h.label]

theorem Keeps.exhausted_map (df : DF) (q : ℕ → ℚ) : exhausted (df.map e) q = exhausted df q := by
  unfold exhausted
  rw [h.buys_map, h.sells_map, h.labels, h.labels]

theorem Keeps.p2pLoop_map (df : DF) (prices : ℕ → ℚ) (c : ℚ) (choice : ℕ → ℕ) (n : ℕ)
    (q : ℕ → ℚ) (active : List (ℕ × ℕ)) (inactive : List ℕ) :
    p2pLoop (df.map e) prices c choice n q active inactive =
      p2pLoop df prices c choice n q active inactive := by
  have hl : ∀ q : ℕ → ℚ, (df.map e).map (fun r => q r.label) = df.map (fun r => q r.label) := by
    intro q
    rw [List.map_map]
    apply List.map_congr_left
    intro r _
    simp only [Function.comp_apply, h.label]
  fun_induction p2pLoop df prices c choice n q active inactive with
  | case1 n q active inactive tmp hc m t rest ih =>
    rw [p2pLoop, dif_pos (by rw [hl]; exact hc)]
    simp only [h.exhausted_map]
    rw [ih]
  | case2 n q active inactive tmp hc =>
    rw [p2pLoop, dif_neg (by rw [hl]; exact hc)]

theorem Keeps.p2pRandom_map (c : ℚ) (choice : ℕ → ℕ) (df : DF) :
    p2pRandom c choice (df.map e) = p2pRandom c choice df := by
  have e1 : valueAt (df.map e) (fun r => r.price) = valueAt df (fun r => r.price) :=
    funext (h.valueAt_price df)
  have e2 : valueAt (df.map e) (fun r => r.quantity) = valueAt df (fun r => r.quantity) :=
    funext (h.valueAt_quantity df)
  unfold p2pRandom
  simp only
  rw [e1, e2, h.allPairs_map, h.p2pLoop_map]

theorem Keeps.mechRun_map (algo : Algo) (ha : ∀ df, algo (df.map e) = algo df) (df : DF) :
    mechRun algo (df.map e) = mechRun algo df := by
  unfold mechRun
  simp only
  rw [h.buys_map, List.length_map, List.length_map, ha]

theorem Keeps.splitOne_map (df : DF) (mp : List (List ℕ)) (t : Transaction) :
    splitOne (df.map e) mp t = splitOne df mp t := by
  unfold splitOne
  split
  · rfl
  · rename_i rows _
    have hm : rows.filterMap (fun i => (df.map e)[i]?) =
        (rows.filterMap (fun i => df[i]?)).map e := by
      rw [List.map_filterMap]
      simp only [List.getElem?_map]
    simp only [hm, List.length_map, h.qsum_map, List.zip_map_right, List.map_map]
    split
    · rfl
    · split
      · rfl
      · congr 1
        apply List.map_congr_left
        intro p _
        simp only [Function.comp_apply, Prod.map_fst, Prod.map_snd, id_eq, h.quantity]

theorem Keeps.splitTransactions_map (tm : TransactionManager) (df : DF) (mp : List (List ℕ)) :
    splitTransactions tm (df.map e) mp = splitTransactions tm df mp := by
  have : ∀ ts, splitAll (df.map e) mp ts = splitAll df mp ts := by
    intro ts
    induction ts with
    | nil => rfl
    | cons t ts ih => simp only [splitAll, h.splitOne_map, ih]
  unfold splitTransactions
  rw [this]

end

/-! ## Erasing the two attributes -/

/-- Erase `time` and `divisible`. -/
def eraseBid (b : Bid) : Bid := { b with time := 0, divisible := true }

@[inherit_doc eraseBid]
def erase (r : Row) : Row := { r with time := 0, divisible := true }

theorem erase_keeps : Keeps erase := ⟨fun _ => rfl, fun _ => rfl, fun _ => rfl, fun _ => rfl⟩

theorem erase_users (df : DF) : (df.map erase).map (fun r => r.user) = df.map (fun r => r.user) := by
  rw [List.map_map]
  rfl

theorem dupOnSide_erase (df : DF) : dupOnSide (df.map erase) = dupOnSide df := by
  unfold dupOnSide
  simp only [List.map_map]
  rfl

theorem locLabels_erase (df : DF) (l : List ℕ) :
    locLabels (df.map erase) l = (locLabels df l).map erase := by
  unfold locLabels
  rw [List.map_filterMap]
  congr 1
  funext i
  rw [List.find?_map]
  rfl

theorem findCompetitivePrice_erase (S : Sorter) (df : DF) :
    findCompetitivePrice S (df.map erase) = findCompetitivePrice S df := by
  unfold findCompetitivePrice
  rw [erase_keeps.demandCurve_map, erase_keeps.supplyCurve_map]

theorem willingDemand_erase (S : Sorter) (df : DF) (v : Val) :
    willingDemand S (df.map erase) v = (willingDemand S df v).map erase := by
  unfold willingDemand
  rw [erase_keeps.buys_map, List.filter_map, erase_keeps.sortDesc_map]
  rfl

theorem willingSupply_erase (S : Sorter) (df : DF) (v : Val) :
    willingSupply S (df.map erase) v = (willingSupply S df v).map erase := by
  unfold willingSupply
  rw [erase_keeps.sells_map, List.filter_map, erase_keeps.sortAsc_map]
  rfl

theorem getTradingBids_erase (df : DF) (q : ℚ) :
    getTradingBids (df.map erase) q =
      (getTradingBids df q).map (fun p => (p.1.map erase, p.2)) := by
  unfold getTradingBids
  rw [erase_keeps.quantities]
  by_cases h : df = [] ∧ q < 0
  · rw [if_pos h, if_pos ⟨by rw [h.1]; rfl, h.2⟩]
    rfl
  · rw [if_neg h, if_neg (by rw [List.map_eq_nil_iff]; exact h)]
    simp only [List.getElem?_map]
    cases df[lastIndex (df.map (fun r => r.quantity)) q]? with
    | none => rfl
    | some row =>
      simp only [Option.map_some, ← List.map_take, erase_keeps.qsum_map, erase_keeps.quantity,
        ← List.map_drop]
      split
      · simp only [Except.map, List.map_append, List.map_cons]
        rfl
      · rfl

theorem tradingTrans_erase (rows : DF) (i : ℕ) (p : ℚ) :
    tradingTrans (rows.map erase) i p = tradingTrans rows i p := by
  unfold tradingTrans
  rw [List.zipIdx_map, List.filter_map, List.map_map]
  rfl

theorem tradingUsers_erase (rows : DF) (i : ℕ) :
    tradingUsers (rows.map erase) i = tradingUsers rows i := by
  unfold tradingUsers
  rw [List.zipIdx_map, List.filter_map, List.map_map]
  rfl

theorem capLast_erase (d : ℚ) (l : List (Row × ℕ)) :
    capLast d (l.map (Prod.map erase id)) = (capLast d l).map (Prod.map erase id) := by
  induction l with
  | nil => rfl
  | cons a l ih =>
    cases l with
    | nil =>
      simp only [List.map_cons, List.map_nil, capLast, Prod.map_fst, erase_keeps.quantity]
      split <;> rfl
    | cons b l =>
      simp only [List.map_cons, capLast] at ih ⊢
      rw [ih]

theorem computeFee_erase (rows : DF) (i : ℕ) (u : ℤ) (q p : ℚ) :
    computeFee (rows.map erase) i u q p = computeFee rows i u q p := by
  have hw : withoutUser (rows.map erase) u = (withoutUser rows u).map (Prod.map erase id) := by
    unfold withoutUser
    rw [List.zipIdx_map, List.filter_map]
    rfl
  have hq : ∀ l : List (Row × ℕ), (l.map (Prod.map erase id)).map (fun p => p.1.quantity) =
      l.map (fun p => p.1.quantity) := by
    intro l
    rw [List.map_map]
    rfl
  unfold computeFee
  simp only [hw, List.map_eq_nil_iff, hq, ← List.map_take, ← List.map_dropLast, capLast_erase,
    List.filter_map, List.map_map]
  rfl

theorem feeLoop_erase (rows : DF) (i : ℕ) (t p : ℚ) (us : List ℤ) (fees : List ℚ) :
    feeLoop (rows.map erase) i t p us fees = feeLoop rows i t p us fees := by
  induction us generalizing fees with
  | nil => rfl
  | cons u us ih =>
    unfold feeLoop
    rw [computeFee_erase]
    simp only [ih]

theorem solveSide_erase (S : Sorter) (df : DF) (v : Val) (fees : List ℚ) :
    solveSide S (df.map erase) v fees = solveSide S df v fees := by
  have hl : ∀ b : Bool, ∀ x y : DF, (if b then x.map erase else y.map erase) =
      (if b then x else y).map erase := by
    intro b x y; cases b <;> rfl
  unfold solveSide
  simp only [erase_keeps.buys_map, erase_keeps.sells_map, List.length_map, willingDemand_erase,
    willingSupply_erase, erase_keeps.qsum_map, hl, getTradingBids_erase]
  split
  · rfl
  split
  · rfl
  generalize (if decide (qsum (willingDemand S df v) < qsum (willingSupply S df v))
    then willingSupply S df v else willingDemand S df v) = long
  generalize (if decide (qsum (willingDemand S df v) < qsum (willingSupply S df v))
    then willingDemand S df v else willingSupply S df v) = short
  generalize (if decide (qsum (willingDemand S df v) < qsum (willingSupply S df v))
    then qsum (willingDemand S df v) else qsum (willingSupply S df v)) = q
  split
  · cases getTradingBids long q with
    | error e => rfl
    | ok a =>
      cases getTradingBids short q with
      | error e => rfl
      | ok b =>
        simp only [Except.map, bind, Except.bind, tradingTrans_erase, tradingUsers_erase,
          feeLoop_erase]
  · rfl

theorem muda_erase (S : Sorter) (coin : ℕ → Bool) (df : DF) :
    muda S coin (df.map erase) = muda S coin df := by
  unfold muda checkEqualPriceRaises mudaBody
  simp only [erase_keeps.buys_map, erase_keeps.sells_map, dupOnSide_erase, erase_keeps.labels,
    locLabels_erase, findCompetitivePrice_erase, solveSide_erase, erase_users]

/-! ## Merging -/

/-- Erase `time` and `divisible` in the result of the aggregation. -/
def eraseAgg (x : List (Bid × List ℕ) × ℤ) : List (Bid × List ℕ) × ℤ :=
  (x.1.map (fun g => (eraseBid g.1, g.2)), x.2)

theorem groupRows_erase (prec : ℕ) (df : DF) (k : ℚ) :
    groupRows prec (df.map erase) k = (groupRows prec df k).map erase := by
  unfold groupRows
  rw [List.filter_map]
  rfl

theorem groupKeys_erase (prec : ℕ) (df : DF) : groupKeys prec (df.map erase) = groupKeys prec df := by
  unfold groupKeys
  rw [List.map_map]
  rfl

theorem aggGroup_erase (smp smp' : Sampler) (side : Bool) (k : ℚ) (rows : DF) (i : ℤ) :
    (aggGroup smp side k (rows.map erase) i).map (fun x => ((eraseBid x.1.1, x.1.2), x.2)) =
      (aggGroup smp' side k rows i).map (fun x => ((eraseBid x.1.1, x.1.2), x.2)) := by
  unfold aggGroup
  rw [erase_users, erase_keeps.qsum_map, erase_keeps.labels]
  cases newId i (rows.map (fun r => r.user)) with
  | error e => rfl
  | ok a => rfl

theorem aggSide_erase (smp smp' : Sampler) (prec : ℕ) (side : Bool) (df : DF) (ks : List ℚ) (i : ℤ) :
    (aggSide smp prec side (df.map erase) ks i).map eraseAgg =
      (aggSide smp' prec side df ks i).map eraseAgg := by
  induction ks generalizing i with
  | nil => rfl
  | cons k ks ih =>
    unfold aggSide
    have hg := aggGroup_erase smp smp' side k (groupRows prec df k) i
    rw [groupRows_erase]
    cases h1 : aggGroup smp side k ((groupRows prec df k).map erase) i with
    | error e =>
      cases h2 : aggGroup smp' side k (groupRows prec df k) i with
      | error e' =>
        rw [h1, h2] at hg
        simpa [Except.map, bind, Except.bind] using hg
      | ok a => rw [h1, h2] at hg; simp [Except.map] at hg
    | ok a =>
      cases h2 : aggGroup smp' side k (groupRows prec df k) i with
      | error e' => rw [h1, h2] at hg; simp [Except.map] at hg
      | ok b =>
        rw [h1, h2] at hg
        simp only [Except.map, Except.ok.injEq, Prod.mk.injEq] at hg
        obtain ⟨⟨g1, g2⟩, g3⟩ := hg
        have hi := ih a.2
        rw [g3] at hi
        simp only [bind, Except.bind, g3]
        cases h3 : aggSide smp prec side (df.map erase) ks b.2 with
        | error e =>
          cases h4 : aggSide smp' prec side df ks b.2 with
          | error e' => rw [h3, h4] at hi; simpa [Except.map] using hi
          | ok b => rw [h3, h4] at hi; simp [Except.map] at hi
        | ok c =>
          cases h4 : aggSide smp' prec side df ks b.2 with
          | error e' => rw [h3, h4] at hi; simp [Except.map] at hi
          | ok d =>
            rw [h3, h4] at hi
            simp only [Except.map, Except.ok.injEq, eraseAgg, Prod.mk.injEq, List.map_cons,
              List.cons.injEq] at hi ⊢
            exact ⟨⟨⟨g1, g2⟩, hi.1⟩, hi.2⟩

theorem labelFrom_erase (n : ℕ) (bs : List Bid) :
    (labelFrom n bs).map erase = labelFrom n (bs.map eraseBid) := by
  induction bs generalizing n with
  | nil => rfl
  | cons b bs ih =>
    simp only [labelFrom, List.map_cons, ih]
    rfl

theorem mergeSamePrice_erase (smp smp' : Sampler) (df : DF) (prec : ℕ) :
    (mergeSamePrice smp (df.map erase) prec).map (fun x => (x.1.map erase, x.2)) =
      (mergeSamePrice smp' df prec).map (fun x => (x.1.map erase, x.2)) := by
  have hmax : maxUserSucc (df.map erase) = maxUserSucc df := by
    unfold maxUserSucc
    rw [erase_users]
  unfold mergeSamePrice
  simp only [erase_keeps.buys_map, erase_keeps.sells_map, groupKeys_erase, hmax]
  have hb := aggSide_erase smp smp' prec true (buys df) (groupKeys prec (buys df)) (maxUserSucc df)
  cases h1 : aggSide smp prec true ((buys df).map erase) (groupKeys prec (buys df))
      (maxUserSucc df) with
  | error e =>
    cases h2 : aggSide smp' prec true (buys df) (groupKeys prec (buys df)) (maxUserSucc df) with
    | error e' => rw [h1, h2] at hb; simpa [Except.map, bind, Except.bind] using hb
    | ok a => rw [h1, h2] at hb; simp [Except.map] at hb
  | ok a =>
    cases h2 : aggSide smp' prec true (buys df) (groupKeys prec (buys df)) (maxUserSucc df) with
    | error e' => rw [h1, h2] at hb; simp [Except.map] at hb
    | ok b =>
      rw [h1, h2] at hb
      simp only [Except.map, Except.ok.injEq, eraseAgg, Prod.mk.injEq] at hb
      simp only [bind, Except.bind, hb.2]
      have hs := aggSide_erase smp smp' prec false (sells df) (groupKeys prec (sells df)) b.2
      cases h3 : aggSide smp prec false ((sells df).map erase) (groupKeys prec (sells df)) b.2 with
      | error e =>
        cases h4 : aggSide smp' prec false (sells df) (groupKeys prec (sells df)) b.2 with
        | error e' => rw [h3, h4] at hs; simpa [Except.map] using hs
        | ok d => rw [h3, h4] at hs; simp [Except.map] at hs
      | ok c =>
        cases h4 : aggSide smp' prec false (sells df) (groupKeys prec (sells df)) b.2 with
        | error e' => rw [h3, h4] at hs; simp [Except.map] at hs
        | ok d =>
          rw [h3, h4] at hs
          simp only [Except.map, Except.ok.injEq, eraseAgg, Prod.mk.injEq] at hs
          have key : (a.1 ++ c.1).map (fun g => (eraseBid g.1, g.2)) =
              (b.1 ++ d.1).map (fun g => (eraseBid g.1, g.2)) := by
            rw [List.map_append, List.map_append, hb.1, hs.1]
          have k1 := congrArg (List.map (fun g => g.1)) key
          have k2 := congrArg (List.map (fun g => g.2)) key
          rw [List.map_map, List.map_map] at k1 k2
          simp only [Except.map, Except.ok.injEq, Prod.mk.injEq, labelFrom_erase, List.map_map]
          exact ⟨congrArg _ k1, k2⟩

theorem mechanism_erase (smp smp' : Sampler) (merge : Bool) (algo : Algo)
    (ha : ∀ df, algo (df.map erase) = algo df) (df : DF) :
    mechanism smp merge algo (df.map erase) = mechanism smp' merge algo df := by
  unfold mechanism
  cases merge with
  | false => exact erase_keeps.mechRun_map algo ha df
  | true =>
    simp only [if_true]
    have hm := mergeSamePrice_erase smp smp' df 5
    cases h1 : mergeSamePrice smp (df.map erase) with
    | error e =>
      cases h2 : mergeSamePrice smp' df with
      | error e' => rw [h1, h2] at hm; simpa [Except.map, bind, Except.bind] using hm
      | ok a => rw [h1, h2] at hm; simp [Except.map] at hm
    | ok a =>
      cases h2 : mergeSamePrice smp' df with
      | error e' => rw [h1, h2] at hm; simp [Except.map] at hm
      | ok b =>
        rw [h1, h2] at hm
        simp only [Except.map, Except.ok.injEq, Prod.mk.injEq] at hm
        have hr : mechRun algo a.1 = mechRun algo b.1 := by
          rw [← erase_keeps.mechRun_map algo ha a.1, hm.1, erase_keeps.mechRun_map algo ha b.1]
        simp only [bind, Except.bind, hr, hm.2, erase_keeps.splitTransactions_map]

end PyMarket
