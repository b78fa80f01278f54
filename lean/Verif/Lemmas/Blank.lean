import Verif.Lemmas.Erase

/-! # Huang's auction and P2P do not look at the users, MUDA only for the fees -/

set_option autoImplicit false

namespace PyMarket

/-- The offer of a bid: no user, time or divisibility. -/
def blankBid (b : Bid) : Bid := { b with user := 0, time := 0, divisible := true }

@[inherit_doc blankBid]
def blank (r : Row) : Row := { r with user := 0, time := 0, divisible := true }

theorem blank_keeps : Keeps blank := ⟨fun _ => rfl, fun _ => rfl, fun _ => rfl, fun _ => rfl⟩

/-! ## Merging -/

theorem groupRows_blank (prec : ℕ) (df : DF) (k : ℚ) :
    groupRows prec (df.map blank) k = (groupRows prec df k).map blank := by
  unfold groupRows
  rw [List.filter_map]
  rfl

theorem groupKeys_blank (prec : ℕ) (df : DF) : groupKeys prec (df.map blank) = groupKeys prec df := by
  unfold groupKeys
  rw [List.map_map]
  rfl

theorem aggGroup_blank (smp smp' : Sampler) (side : Bool) (k : ℚ) {rows rows' : DF}
    (h : rows.map blank = rows'.map blank) (i i' : ℤ) :
    (aggGroup smp side k rows i).map (fun x => (blankBid x.1.1, x.1.2)) =
      (aggGroup smp' side k rows' i').map (fun x => (blankBid x.1.1, x.1.2)) := by
  have hq : qsum rows = qsum rows' := by
    rw [← blank_keeps.qsum_map, h, blank_keeps.qsum_map]
  have hl : rows.map (fun r => r.label) = rows'.map (fun r => r.label) := by
    rw [← blank_keeps.labels, h, blank_keeps.labels]
  have hlen : rows.length = rows'.length := by
    have := congrArg List.length h
    simpa using this
  unfold aggGroup
  have hid : (∃ e, newId i (rows.map (fun r => r.user)) = .error e ∧
      newId i' (rows'.map (fun r => r.user)) = .error e) ∨
      ∃ a b, newId i (rows.map (fun r => r.user)) = .ok a ∧
        newId i' (rows'.map (fun r => r.user)) = .ok b := by
    unfold newId
    rw [List.length_map, List.length_map, hlen]
    split
    · exact Or.inr ⟨_, _, rfl, rfl⟩
    · cases rows with
      | nil =>
        cases rows' with
        | nil => exact Or.inl ⟨_, rfl, rfl⟩
        | cons b l => simp at hlen
      | cons a l =>
        cases rows' with
        | nil => simp at hlen
        | cons b l => exact Or.inr ⟨_, _, rfl, rfl⟩
  rcases hid with ⟨e, h1, h2⟩ | ⟨a, b, h1, h2⟩
  · rw [h1, h2]; rfl
  · simp only [h1, h2, bind, Except.bind, Except.map, hq, hl]
    rfl

theorem aggSide_blank (smp smp' : Sampler) (prec : ℕ) (side : Bool) {df df' : DF}
    (h : df.map blank = df'.map blank) (ks : List ℚ) (i i' : ℤ) :
    (aggSide smp prec side df ks i).map (fun x => x.1.map (fun g => (blankBid g.1, g.2))) =
      (aggSide smp' prec side df' ks i').map (fun x => x.1.map (fun g => (blankBid g.1, g.2))) := by
  induction ks generalizing i i' with
  | nil => rfl
  | cons k ks ih =>
    unfold aggSide
    have hr : (groupRows prec df k).map blank = (groupRows prec df' k).map blank := by
      rw [← groupRows_blank, h, groupRows_blank]
    have hg := aggGroup_blank smp smp' side k hr i i'
    cases h1 : aggGroup smp side k (groupRows prec df k) i with
    | error e =>
      cases h2 : aggGroup smp' side k (groupRows prec df' k) i' with
      | error e' =>
        rw [h1, h2] at hg
        simpa [Except.map, bind, Except.bind] using hg
      | ok a => rw [h1, h2] at hg; simp [Except.map] at hg
    | ok a =>
      cases h2 : aggGroup smp' side k (groupRows prec df' k) i' with
      | error e' => rw [h1, h2] at hg; simp [Except.map] at hg
      | ok b =>
        rw [h1, h2] at hg
        simp only [Except.map, Except.ok.injEq] at hg
        have hi := ih a.2 b.2
        simp only [bind, Except.bind]
        cases h3 : aggSide smp prec side df ks a.2 with
        | error e =>
          cases h4 : aggSide smp' prec side df' ks b.2 with
          | error e' => rw [h3, h4] at hi; simpa [Except.map] using hi
          | ok b => rw [h3, h4] at hi; simp [Except.map] at hi
        | ok c =>
          cases h4 : aggSide smp' prec side df' ks b.2 with
          | error e' => rw [h3, h4] at hi; simp [Except.map] at hi
          | ok d =>
            rw [h3, h4] at hi
            simp only [Except.map, Except.ok.injEq, List.map_cons, List.cons.injEq] at hi ⊢
            exact ⟨hg, hi⟩

theorem labelFrom_blank (n : ℕ) (bs : List Bid) :
    (labelFrom n bs).map blank = labelFrom n (bs.map blankBid) := by
  induction bs generalizing n with
  | nil => rfl
  | cons b bs ih =>
    simp only [labelFrom, List.map_cons, ih]
    rfl

theorem mergeSamePrice_blank (smp smp' : Sampler) {df df' : DF} (h : df.map blank = df'.map blank)
    (prec : ℕ) :
    (mergeSamePrice smp df prec).map (fun x => (x.1.map blank, x.2)) =
      (mergeSamePrice smp' df' prec).map (fun x => (x.1.map blank, x.2)) := by
  have hbu : (buys df).map blank = (buys df').map blank := by
    rw [← blank_keeps.buys_map, h, blank_keeps.buys_map]
  have hse : (sells df).map blank = (sells df').map blank := by
    rw [← blank_keeps.sells_map, h, blank_keeps.sells_map]
  have kb : groupKeys prec (buys df) = groupKeys prec (buys df') := by
    rw [← groupKeys_blank, hbu, groupKeys_blank]
  have ks : groupKeys prec (sells df) = groupKeys prec (sells df') := by
    rw [← groupKeys_blank, hse, groupKeys_blank]
  unfold mergeSamePrice
  simp only [kb, ks]
  have hb := aggSide_blank smp smp' prec true hbu (groupKeys prec (buys df')) (maxUserSucc df)
    (maxUserSucc df')
  cases h1 : aggSide smp prec true (buys df) (groupKeys prec (buys df')) (maxUserSucc df) with
  | error e =>
    cases h2 : aggSide smp' prec true (buys df') (groupKeys prec (buys df')) (maxUserSucc df') with
    | error e' => rw [h1, h2] at hb; simpa [Except.map, bind, Except.bind] using hb
    | ok a => rw [h1, h2] at hb; simp [Except.map] at hb
  | ok a =>
    cases h2 : aggSide smp' prec true (buys df') (groupKeys prec (buys df')) (maxUserSucc df') with
    | error e' => rw [h1, h2] at hb; simp [Except.map] at hb
    | ok b =>
      rw [h1, h2] at hb
      simp only [Except.map, Except.ok.injEq] at hb
      simp only [bind, Except.bind]
      have hs := aggSide_blank smp smp' prec false hse (groupKeys prec (sells df')) a.2 b.2
      cases h3 : aggSide smp prec false (sells df) (groupKeys prec (sells df')) a.2 with
      | error e =>
        cases h4 : aggSide smp' prec false (sells df') (groupKeys prec (sells df')) b.2 with
        | error e' => rw [h3, h4] at hs; simpa [Except.map] using hs
        | ok d => rw [h3, h4] at hs; simp [Except.map] at hs
      | ok c =>
        cases h4 : aggSide smp' prec false (sells df') (groupKeys prec (sells df')) b.2 with
        | error e' => rw [h3, h4] at hs; simp [Except.map] at hs
        | ok d =>
          rw [h3, h4] at hs
          simp only [Except.map, Except.ok.injEq] at hs
          have key : (a.1 ++ c.1).map (fun g => (blankBid g.1, g.2)) =
              (b.1 ++ d.1).map (fun g => (blankBid g.1, g.2)) := by
            rw [List.map_append, List.map_append, hb, hs]
          have k1 := congrArg (List.map (fun g => g.1)) key
          have k2 := congrArg (List.map (fun g => g.2)) key
          rw [List.map_map, List.map_map] at k1 k2
          simp only [Except.map, Except.ok.injEq, Prod.mk.injEq, labelFrom_blank, List.map_map]
          exact ⟨congrArg _ k1, k2⟩

/-- A mechanism whose algorithm does not look at the users does not look at them either. -/
theorem mechanism_blank (smp smp' : Sampler) (merge : Bool) (algo : Algo)
    (ha : ∀ df, algo (df.map blank) = algo df) {df df' : DF} (h : df.map blank = df'.map blank) :
    mechanism smp merge algo df = mechanism smp' merge algo df' := by
  unfold mechanism
  cases merge with
  | false =>
    simp only [Bool.false_eq_true, if_false]
    rw [← blank_keeps.mechRun_map algo ha df, h, blank_keeps.mechRun_map algo ha df']
  | true =>
    simp only [if_true]
    have hm := mergeSamePrice_blank smp smp' h 5
    cases h1 : mergeSamePrice smp df with
    | error e =>
      cases h2 : mergeSamePrice smp' df' with
      | error e' => rw [h1, h2] at hm; simpa [Except.map, bind, Except.bind] using hm
      | ok a => rw [h1, h2] at hm; simp [Except.map] at hm
    | ok a =>
      cases h2 : mergeSamePrice smp' df' with
      | error e' => rw [h1, h2] at hm; simp [Except.map] at hm
      | ok b =>
        rw [h1, h2] at hm
        simp only [Except.map, Except.ok.injEq, Prod.mk.injEq] at hm
        have hr : mechRun algo a.1 = mechRun algo b.1 := by
          rw [← blank_keeps.mechRun_map algo ha a.1, hm.1, blank_keeps.mechRun_map algo ha b.1]
        have hsp : ∀ tm mp, splitTransactions tm df mp = splitTransactions tm df' mp := by
          intro tm mp
          rw [← blank_keeps.splitTransactions_map, h, blank_keeps.splitTransactions_map]
        simp only [bind, Except.bind, hr, hm.2, hsp]

/-! ## MUDA -/

section

variable {e : Row → Row} (h : Keeps e)

include h

theorem Keeps.willingDemand_map (S : Sorter) (df : DF) (v : Val) :
    willingDemand S (df.map e) v = (willingDemand S df v).map e := by
  unfold willingDemand
  rw [h.buys_map, List.filter_map, h.sortDesc_map]
  congr 2
  apply List.filter_congr
  intro r _
  simp only [Function.comp_apply, h.price]

theorem Keeps.willingSupply_map (S : Sorter) (df : DF) (v : Val) :
    willingSupply S (df.map e) v = (willingSupply S df v).map e := by
  unfold willingSupply
  rw [h.sells_map, List.filter_map, h.sortAsc_map]
  congr 2
  apply List.filter_congr
  intro r _
  simp only [Function.comp_apply, h.price]

theorem Keeps.locLabels_map (df : DF) (l : List ℕ) :
    locLabels (df.map e) l = (locLabels df l).map e := by
  unfold locLabels
  rw [List.map_filterMap]
  congr 1
  funext i
  rw [List.find?_map]
  congr 2
  funext r
  simp only [Function.comp_apply, h.label]

theorem Keeps.findCompetitivePrice_map (S : Sorter) (df : DF) :
    findCompetitivePrice S (df.map e) = findCompetitivePrice S df := by
  unfold findCompetitivePrice
  rw [h.demandCurve_map, h.supplyCurve_map]

end

/-- The transactions of `getTradingBids`. -/
theorem getTradingBids_blank (df : DF) (q p : ℚ) :
    (getTradingBids (df.map blank) q).map (fun x => tradingTrans x.1 x.2 p) =
      (getTradingBids df q).map (fun x => tradingTrans x.1 x.2 p) := by
  have htr : ∀ (rows : DF) (i : ℕ), tradingTrans (rows.map blank) i p = tradingTrans rows i p := by
    intro rows i
    unfold tradingTrans
    rw [List.zipIdx_map, List.filter_map, List.map_map]
    rfl
  unfold getTradingBids
  rw [blank_keeps.quantities]
  by_cases h : df = [] ∧ q < 0
  · rw [if_pos h, if_pos ⟨by rw [h.1]; rfl, h.2⟩]
  · rw [if_neg h, if_neg (by rw [List.map_eq_nil_iff]; exact h)]
    simp only [List.getElem?_map]
    cases df[lastIndex (df.map (fun r => r.quantity)) q]? with
    | none => rfl
    | some row =>
      simp only [Option.map_some, ← List.map_take, blank_keeps.qsum_map, blank_keeps.quantity,
        ← List.map_drop]
      split
      · simp only [Except.map]
        conv_rhs => rw [← htr]
        simp only [List.map_append, List.map_cons]
        rfl
      · simp only [Except.map, htr]

/-- What the transactions of a half are made of, without the fees. -/
def sideTrans (S : Sorter) (bids : DF) (price : Val) : Except PyErr TransactionManager :=
  if (buys bids).length = 0 then .ok TransactionManager.init
  else if (sells bids).length = 0 then .ok TransactionManager.init
  else
    let demand := willingDemand S bids price
    let supply := willingSupply S bids price
    let supplyLong := decide (qsum demand < qsum supply)
    let total := if supplyLong then qsum demand else qsum supply
    if 0 < total then do
      let l ← (getTradingBids (if supplyLong then supply else demand) total).map
        (fun x => tradingTrans x.1 x.2 price.toRat)
      let s ← (getTradingBids (if supplyLong then demand else supply) total).map
        (fun x => tradingTrans x.1 x.2 price.toRat)
      .ok (TransactionManager.init.addAll (s ++ l))
    else .ok TransactionManager.init

theorem solveSide_sideTrans {S : Sorter} {bids : DF} {v : Val} {fees fees' : List ℚ}
    {tm : TransactionManager} (h : solveSide S bids v fees = .ok (tm, fees')) :
    sideTrans S bids v = .ok tm := by
  unfold solveSide at h
  unfold sideTrans
  split at h
  · rename_i hb; rw [if_pos hb]; cases h; rfl
  rename_i hb; rw [if_neg hb]
  split at h
  · rename_i hs; rw [if_pos hs]; cases h; rfl
  rename_i hs; rw [if_neg hs]
  simp only at h ⊢
  generalize (if decide (qsum (willingDemand S bids v) < qsum (willingSupply S bids v)) = true
    then willingSupply S bids v else willingDemand S bids v) = long at h ⊢
  generalize (if decide (qsum (willingDemand S bids v) < qsum (willingSupply S bids v)) = true
    then willingDemand S bids v else willingSupply S bids v) = short at h ⊢
  generalize (if decide (qsum (willingDemand S bids v) < qsum (willingSupply S bids v)) = true
    then qsum (willingDemand S bids v) else qsum (willingSupply S bids v)) = q at h ⊢
  by_cases ht : 0 < q
  · rw [if_pos ht] at h ⊢
    simp only [bind, Except.bind] at h ⊢
    cases h1 : getTradingBids long q with
    | error e => rw [h1] at h; cases h
    | ok a =>
      rw [h1] at h
      cases h2 : getTradingBids short q with
      | error e => rw [h2] at h; cases h
      | ok b =>
        rw [h2] at h
        simp only [Except.map] at h ⊢
        split at h
        · cases h
        · cases h; rfl
  · rw [if_neg ht] at h ⊢
    cases h; rfl

theorem sideTrans_blank (S : Sorter) (df : DF) (v : Val) :
    sideTrans S (df.map blank) v = sideTrans S df v := by
  have hl : ∀ b : Bool, ∀ x y : DF, (if b then x.map blank else y.map blank) =
      (if b then x else y).map blank := by
    intro b x y; cases b <;> rfl
  unfold sideTrans
  simp only [blank_keeps.buys_map, blank_keeps.sells_map, List.length_map,
    blank_keeps.willingDemand_map, blank_keeps.willingSupply_map, blank_keeps.qsum_map, hl,
    getTradingBids_blank]

end PyMarket
