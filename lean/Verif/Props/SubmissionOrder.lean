import Verif.Props.HuangNoTies
import Verif.Props.HuangQuantity
import Verif.Props.Muda
import Verif.Props.MudaPartition
import Verif.Props.P2PDistribution

/-! # C88: the order of submission in Huang's auction and MUDA -/

set_option autoImplicit false

namespace PyMarket

open Spec

/-- The same bid under another id. -/
def Spec.moved (σ : ℕ → ℕ) (r : Row) : Row := { r with label := σ r.label }

/-- The table `df'` has the bids of `df`, in another order: bid `i` has become bid `σ i`. -/
def Spec.Shuffled (σ : ℕ → ℕ) (df df' : DF) : Prop := df'.Perm (df.map (moved σ))

theorem moved_renames (σ : ℕ → ℕ) : Renames σ (moved σ) :=
  ⟨fun _ => rfl, fun _ => rfl, fun _ => rfl, fun _ => rfl⟩

/-! ## Sorting -/

section
variable {σ : ℕ → ℕ} {df df' : DF}

theorem distinct_buys (hn : df.Nodup) (hd : DistinctPrices df) : ((buys df).map (fun r => r.price)).Nodup := by
  unfold buys
  refine List.Nodup.map_on ?_ (hn.filter _)
  intro a ha b hb hab
  simp only [List.mem_filter] at ha hb
  exact hd a ha.1 b hb.1 (by rw [ha.2, hb.2]) hab

theorem distinct_sells (hn : df.Nodup) (hd : DistinctPrices df) : ((sells df).map (fun r => r.price)).Nodup := by
  unfold sells
  refine List.Nodup.map_on ?_ (hn.filter _)
  intro a ha b hb hab
  simp only [List.mem_filter, Bool.not_eq_true'] at ha hb
  exact hd a ha.1 b hb.1 (by rw [ha.2, hb.2]) hab

/-- The sides, sorted, of two tables with the same bids. -/
structure SameSorted (S : Sorter) (σ : ℕ → ℕ) (df df' : DF) : Prop where
  buys : (PyMarket.buys df').Perm ((PyMarket.buys df).map (moved σ))
  sells : (PyMarket.sells df').Perm ((PyMarket.sells df).map (moved σ))
  nb : ((PyMarket.buys df).map (fun r => r.price)).Nodup
  ns : ((PyMarket.sells df).map (fun r => r.price)).Nodup

theorem shuffled_sorted (S : Sorter) (h : Shuffled σ df df') (hn : df.Nodup) (hd : DistinctPrices df) :
    SameSorted S σ df df' := by
  refine ⟨?_, ?_, distinct_buys hn hd, distinct_sells hn hd⟩
  · rw [← (moved_renames σ).buys_map]; exact h.filter _
  · rw [← (moved_renames σ).sells_map]; exact h.filter _

theorem sortDesc_moved (S : Sorter) {l l' : DF} (h : l'.Perm (l.map (moved σ)))
    (hn : (l.map (fun r => r.price)).Nodup) : sortDesc S l' = (sortDesc S l).map (moved σ) := by
  rw [← (moved_renames σ).sortDesc_map]
  exact perm_prices_eq ((sortDesc_perm S _).trans h) (sortDesc_perm S _)
    (by rw [(moved_renames σ).prices]; exact hn)
    (fun a b => b ≤ a) (fun _ _ h1 h2 => le_antisymm h2 h1) (sortDesc_sorted S _) (sortDesc_sorted S _)

theorem sortAsc_moved (S : Sorter) {l l' : DF} (h : l'.Perm (l.map (moved σ)))
    (hn : (l.map (fun r => r.price)).Nodup) : sortAsc S l' = (sortAsc S l).map (moved σ) := by
  rw [← (moved_renames σ).sortAsc_map]
  exact perm_prices_eq ((sortAsc_perm S _).trans h) (sortAsc_perm S _)
    (by rw [(moved_renames σ).prices]; exact hn)
    (fun a b => a ≤ b) (fun _ _ h1 h2 => le_antisymm h1 h2) (sortAsc_sorted S _) (sortAsc_sorted S _)

theorem SameSorted.price {S : Sorter} (h : SameSorted S σ df df') :
    findCompetitivePrice S df' = findCompetitivePrice S df := by
  have e1 : (demandCurve S df').1 = (demandCurve S df).1 := by
    unfold demandCurve
    simp only
    rw [sortDesc_moved S h.buys h.nb, (moved_renames σ).quantities, (moved_renames σ).prices]
  have e2 : (supplyCurve S df').1 = (supplyCurve S df).1 := by
    unfold supplyCurve
    simp only
    rw [sortAsc_moved S h.sells h.ns, (moved_renames σ).quantities, (moved_renames σ).prices]
  unfold findCompetitivePrice
  rw [e1, e2]

theorem SameSorted.willingDemand {S : Sorter} (h : SameSorted S σ df df') (v : Val) :
    willingDemand S df' v = (willingDemand S df v).map (moved σ) := by
  unfold PyMarket.willingDemand
  refine sortDesc_moved S ?_ (h.nb.sublist (List.filter_sublist.map _))
  have := h.buys.filter (fun r => v.leRat r.price)
  rw [List.filter_map] at this
  exact this

theorem SameSorted.willingSupply {S : Sorter} (h : SameSorted S σ df df') (v : Val) :
    willingSupply S df' v = (willingSupply S df v).map (moved σ) := by
  unfold PyMarket.willingSupply
  refine sortAsc_moved S ?_ (h.ns.sublist (List.filter_sublist.map _))
  have := h.sells.filter (fun r => Val.ratLe r.price v)
  rw [List.filter_map] at this
  exact this

/-! ## One half of MUDA -/

theorem qsum_moved (l : DF) : qsum (l.map (moved σ)) = qsum l := by
  unfold qsum
  rw [(moved_renames σ).quantities]

theorem getTradingBids_moved (l : DF) (q : ℚ) :
    getTradingBids (l.map (moved σ)) q = (getTradingBids l q).map (fun x => (x.1.map (moved σ), x.2)) := by
  unfold getTradingBids
  rw [(moved_renames σ).quantities]
  by_cases h : l = [] ∧ q < 0
  · rw [if_pos h, if_pos ⟨by rw [h.1]; rfl, h.2⟩]; rfl
  · rw [if_neg h, if_neg (by rw [List.map_eq_nil_iff]; exact h)]
    simp only [List.getElem?_map]
    cases l[lastIndex (l.map (fun r => r.quantity)) q]? with
    | none => rfl
    | some row =>
      simp only [Option.map_some, ← List.map_take, qsum_moved, ← List.map_drop]
      have : (moved σ row).quantity = row.quantity := rfl
      rw [this]
      split
      · simp only [Except.map, List.map_append, List.map_cons]; rfl
      · rfl

theorem capLast_moved (d : ℚ) (l : List (Row × ℕ)) :
    capLast d (l.map (fun p => (moved σ p.1, p.2))) = (capLast d l).map (fun p => (moved σ p.1, p.2)) := by
  induction l with
  | nil => rfl
  | cons p l ih =>
    cases l with
    | nil =>
      simp only [List.map_cons, List.map_nil, capLast]
      have : (moved σ p.1).quantity = p.1.quantity := rfl
      rw [this]
      split <;> rfl
    | cons p' l =>
      simp only [List.map_cons, capLast] at ih ⊢
      rw [ih]

theorem computeFee_moved (rows : DF) (i : ℕ) (u : ℤ) (q p : ℚ) :
    computeFee (rows.map (moved σ)) i u q p = computeFee rows i u q p := by
  have hw : withoutUser (rows.map (moved σ)) u = (withoutUser rows u).map (fun p => (moved σ p.1, p.2)) := by
    unfold withoutUser
    rw [List.zipIdx_map, List.filter_map]
    rfl
  unfold computeFee
  rw [hw]
  simp only [List.map_eq_nil_iff, List.map_map]
  have hq : ∀ l : List (Row × ℕ), l.map ((fun p : Row × ℕ => p.1.quantity) ∘ fun p => (moved σ p.1, p.2)) =
      l.map (fun p => p.1.quantity) := fun l => rfl
  split
  · rfl
  rw [hq, ← List.map_take, ← List.map_dropLast, List.map_map, hq, capLast_moved, List.filter_map, List.map_map]
  rfl

theorem tradingTrans_moved (rows : DF) (i : ℕ) (p : ℚ) :
    tradingTrans (rows.map (moved σ)) i p = PyMarket.renameTrans σ (tradingTrans rows i p) := by
  unfold tradingTrans PyMarket.renameTrans
  rw [List.zipIdx_map, List.filter_map, List.map_map, List.map_map]
  rfl

theorem tradingUsers_moved (rows : DF) (i : ℕ) :
    tradingUsers (rows.map (moved σ)) i = tradingUsers rows i := by
  unfold tradingUsers
  rw [List.zipIdx_map, List.filter_map, List.map_map]
  rfl

theorem feeLoop_moved (rows : DF) (i : ℕ) (q p : ℚ) (us : List ℤ) (fees : List ℚ) :
    feeLoop (rows.map (moved σ)) i q p us fees = feeLoop rows i q p us fees := by
  induction us generalizing fees with
  | nil => rfl
  | cons u us ih =>
    simp only [feeLoop, computeFee_moved]
    congr 1
    funext f
    exact ih f

/-- The log with the bids renamed. -/
def renameLog (σ : ℕ → ℕ) (tm : TransactionManager) : TransactionManager :=
  TransactionManager.init.addAll (PyMarket.renameTrans σ tm.trans)

theorem renameLog_addAll (ts : List Transaction) :
    renameLog σ (TransactionManager.init.addAll ts) =
      TransactionManager.init.addAll (PyMarket.renameTrans σ ts) := by
  unfold renameLog
  rw [TransactionManager.init_addAll_trans]

theorem SameSorted.solveSide {S : Sorter} (h : SameSorted S σ df df') (v : Val) (fees : List ℚ) :
    solveSide S df' v fees = (solveSide S df v fees).map (fun x => (renameLog σ x.1, x.2)) := by
  have lb : (PyMarket.buys df').length = (PyMarket.buys df).length := by
    rw [h.buys.length_eq, List.length_map]
  have ls : (PyMarket.sells df').length = (PyMarket.sells df).length := by
    rw [h.sells.length_eq, List.length_map]
  have hl : ∀ b : Bool, ∀ x y : DF, (if b = true then x.map (moved σ) else y.map (moved σ)) =
      (if b = true then x else y).map (moved σ) := by
    intro b x y; cases b <;> rfl
  unfold PyMarket.solveSide
  rw [lb, ls]
  split
  · rfl
  split
  · rfl
  simp only [h.willingDemand, h.willingSupply, qsum_moved, hl]
  generalize (if decide (qsum (PyMarket.willingDemand S df v) < qsum (PyMarket.willingSupply S df v)) = true
    then PyMarket.willingSupply S df v else PyMarket.willingDemand S df v) = long
  generalize (if decide (qsum (PyMarket.willingDemand S df v) < qsum (PyMarket.willingSupply S df v)) = true
    then PyMarket.willingDemand S df v else PyMarket.willingSupply S df v) = short
  generalize (if decide (qsum (PyMarket.willingDemand S df v) < qsum (PyMarket.willingSupply S df v)) = true
    then qsum (PyMarket.willingDemand S df v) else qsum (PyMarket.willingSupply S df v)) = q
  by_cases ht : 0 < q
  · rw [if_pos ht, if_pos ht]
    simp only [bind, Except.bind, getTradingBids_moved]
    cases h1 : getTradingBids long q with
    | error e => rfl
    | ok a =>
      cases h2 : getTradingBids short q with
      | error e => rfl
      | ok b =>
        simp only [Except.map, feeLoop_moved, tradingUsers_moved, tradingTrans_moved]
        cases h3 : feeLoop a.1 a.2 q v.toRat (tradingUsers a.1 a.2) fees with
        | error e => rfl
        | ok f =>
          simp only [renameLog_addAll]
          unfold PyMarket.renameTrans
          rw [List.map_append]
  · rw [if_neg ht, if_neg ht]
    rfl

end

/-! ## The order of submission -/

theorem isTable_nodup {df : DF} (ht : IsTable df) : df.Nodup :=
  List.Nodup.of_map _ ht.nodup

/-- **C88, Huang's auction.** On a book without equal prices on a side, the order of submission only
renames the bids in the transactions. -/
theorem C88_huang_partial (S : Sorter) (σ : ℕ → ℕ) (df df' : DF) (ht : IsTable df) (h : Shuffled σ df df')
    (hd : DistinctPrices df) (tm : TransactionManager) (ex : Extra) (hr : huangAuction S df = .ok (tm, ex)) :
    ∃ tm', huangAuction S df' = .ok (tm', ex) ∧
      tm'.trans = tm.trans.map (fun t => { t with bid := σ t.bid }) := by
  obtain ⟨tm', h1, h2⟩ := (moved_renames σ).huangAuction_map S hr
  refine ⟨tm', ?_, h2⟩
  rw [← h1]
  symm
  have hs := shuffled_sorted S h (isTable_nodup ht) hd
  refine huangAuction_perm S h.symm ?_ ?_
  · rw [(moved_renames σ).buys_map, (moved_renames σ).prices]; exact hs.nb
  · rw [(moved_renames σ).sells_map, (moved_renames σ).prices]; exact hs.ns

theorem shuffled_half {σ : ℕ → ℕ} {df df' : DF} (ht : IsTable df) (ht' : IsTable df') (h : Shuffled σ df df')
    {P P' : ℕ → Bool} (hc : ∀ i < df.length, P' (σ i) = P i) :
    Shuffled σ (half df ((List.range df.length).filter P)) (half df' ((List.range df'.length).filter P')) := by
  unfold Shuffled
  rw [half_filter ht, half_filter ht']
  have := List.Perm.filter (fun r : Row => P' r.label) h
  rw [List.filter_map] at this
  refine this.trans ?_
  apply List.Perm.of_eq
  congr 1
  apply List.filter_congr
  intro r hr
  exact hc _ (ht.label_lt hr)

theorem shuffled_ids {σ : ℕ → ℕ} {df df' : DF} (ht : IsTable df) (ht' : IsTable df') (h : Shuffled σ df df')
    {P P' : ℕ → Bool} (hc : ∀ i < df.length, P' (σ i) = P i) :
    ((List.range df'.length).filter P').Perm (((List.range df.length).filter P).map σ) := by
  have h1 := (shuffled_half ht ht' h hc).map (fun r => r.label)
  rw [half_filter ht, half_filter ht', List.map_map] at h1
  have e : ∀ {df : DF} (_ : IsTable df) (Q : ℕ → Bool), (df.filter (fun r => Q r.label)).map (fun r => r.label) =
      (List.range df.length).filter Q := by
    intro df ht Q
    have ht : df.map (fun r => r.label) = _ := ht
    rw [← ht, List.filter_map]
    rfl
  rw [e ht'] at h1
  refine h1.trans (List.Perm.of_eq ?_)
  rw [← e ht, List.map_map]
  rfl

theorem distinct_noTwin {df : DF} (ht : IsTable df) (hd : DistinctPrices df) :
    checkEqualPriceRaises df = false := by
  have hside : ∀ l : DF, (l.map (fun r => r.price)).Nodup → dupOnSide l = false := by
    intro l hl
    unfold dupOnSide
    simp only
    rw [List.any_eq_false]
    intro k _
    simp only [decide_eq_true_eq, not_lt]
    apply List.nodup_iff_count_le_one.mp
    refine List.Nodup.of_map Prod.fst ?_
    rw [List.map_map]
    exact hl
  unfold checkEqualPriceRaises
  rw [hside _ (distinct_buys (isTable_nodup ht) hd), hside _ (distinct_sells (isTable_nodup ht) hd)]
  rfl

theorem distinct_shuffled {σ : ℕ → ℕ} {df df' : DF} (h : Shuffled σ df df')
    (hd : DistinctPrices df) : DistinctPrices df' := by
  intro a ha b hb hab hp
  obtain ⟨a0, ha0, rfl⟩ := List.mem_map.mp (h.mem_iff.mp ha)
  obtain ⟨b0, hb0, rfl⟩ := List.mem_map.mp (h.mem_iff.mp hb)
  rw [hd a0 ha0 b0 hb0 hab hp]

/-- **C88, MUDA.** On a book without equal prices on a side, submitting the bids in another order, with the
same bids in the left half, only renames the bids: the halves, the prices, the fees and the transactions are
the same. -/
theorem C88_muda_partial (S : Sorter) (σ : ℕ → ℕ) (coin coin' : ℕ → Bool) (df df' : DF) (ht : IsTable df)
    (ht' : IsTable df') (h : Shuffled σ df df') (hd : DistinctPrices df)
    (hc : ∀ i < df.length, coin' (σ i) = coin i) :
    (∀ e, muda S coin df = .error e → muda S coin' df' = .error e) ∧
    ∀ tm left right pl pr fees, muda S coin df = .ok (tm, .muda left right pl pr fees) →
      ∃ tm' left' right', muda S coin' df' = .ok (tm', .muda left' right' pl pr fees) ∧
        left'.Perm (left.map σ) ∧ right'.Perm (right.map σ) ∧
        tm'.trans = tm.trans.map (fun t => { t with bid := σ t.bid }) := by
  have hnd := isTable_nodup ht
  have hsub : ∀ ids, DistinctPrices (half df ids) := fun ids a ha b hb =>
    hd a (half_sub a ha) b (half_sub b hb)
  have hnd2 : ∀ ids, (half df ids).Nodup := fun ids => hnd.sublist List.filter_sublist
  have hl := shuffled_sorted S (shuffled_half ht ht' h hc) (hnd2 _) (hsub _)
  have hc2 : ∀ i < df.length, (fun i => !coin' i) (σ i) = (fun i => !coin i) i := by
    intro i hi; simp only [hc i hi]
  have hr := shuffled_sorted S (shuffled_half (P := fun i => !coin i) (P' := fun i => !coin' i) ht ht' h hc2) (hnd2 _) (hsub _)
  have hu : (df'.map (fun r => r.user)).dedup.length = (df.map (fun r => r.user)).dedup.length := by
    have h1 := (List.Perm.map (fun r : Row => r.user) h)
    rw [List.map_map] at h1
    exact (List.Perm.dedup h1).length_eq
  have i1 := shuffled_ids ht ht' h hc
  have i2 := shuffled_ids (P := fun i => !coin i) (P' := fun i => !coin' i) ht ht' h hc2
  unfold muda
  rw [distinct_noTwin ht hd, distinct_noTwin ht' (distinct_shuffled h hd), mudaBody_halves ht,
    mudaBody_halves ht']
  simp only [Bool.false_eq_true, if_false, hl.price, hr.price, hu, bind, Except.bind, hl.solveSide, hr.solveSide]
  cases e1 : findCompetitivePrice S (half df ((List.range df.length).filter coin)) with
  | error e0 => exact ⟨fun e he => he, fun _ _ _ _ _ _ he => by cases he⟩
  | ok pl =>
  cases e2 : findCompetitivePrice S (half df ((List.range df.length).filter (fun i => !coin i))) with
  | error e0 => exact ⟨fun e he => he, fun _ _ _ _ _ _ he => by cases he⟩
  | ok pr =>
  simp only
  cases e3 : solveSide S (half df ((List.range df.length).filter coin)) pr
      (List.replicate (df.map (fun r => r.user)).dedup.length 0) with
  | error e0 => exact ⟨fun e he => he, fun _ _ _ _ _ _ he => by cases he⟩
  | ok x =>
  simp only [Except.map]
  cases e4 : solveSide S (half df ((List.range df.length).filter (fun i => !coin i))) pl x.2 with
  | error e0 => exact ⟨fun e he => he, fun _ _ _ _ _ _ he => by cases he⟩
  | ok y =>
  simp only
  refine ⟨fun e he => (by cases he), ?_⟩
  intro tm left right pl' pr' fees he
  simp only [Except.ok.injEq, Prod.mk.injEq, Extra.muda.injEq] at he
  obtain ⟨rfl, rfl, rfl, rfl, rfl, rfl⟩ := he
  refine ⟨_, _, _, rfl, i1, i2, ?_⟩
  unfold renameLog
  rw [TransactionManager.merge_trans, TransactionManager.merge_trans, TransactionManager.init_addAll_trans,
    TransactionManager.init_addAll_trans, List.map_append]
  rfl

theorem shuffled_lt {σ : Equiv.Perm ℕ} {df df' : DF} (ht : IsTable df) (ht' : IsTable df')
    (h : Shuffled σ df df') (i : ℕ) : σ i < df'.length ↔ i < df.length := by
  have h1 := h.map (fun r => r.label)
  have e : df'.map (fun r => r.label) = List.range df'.length := ht'
  have e2 : (df.map (moved σ)).map (fun r => r.label) = (List.range df.length).map σ := by
    have ht : df.map (fun r => r.label) = List.range df.length := ht
    rw [← ht, List.map_map, List.map_map]
    rfl
  rw [e, e2] at h1
  rw [← List.mem_range, h1.mem_iff, List.mem_map]
  constructor
  · rintro ⟨j, hj, hji⟩
    rw [← σ.injective hji]
    exact List.mem_range.mp hj
  · intro hi
    exact ⟨i, List.mem_range.mpr hi, rfl⟩

theorem shuffled_symm {σ : Equiv.Perm ℕ} {df df' : DF} (h : Shuffled σ df df') : Shuffled σ.symm df' df := by
  have h1 := (List.Perm.map (moved σ.symm) h).symm
  rw [List.map_map] at h1
  have : (moved σ.symm ∘ moved σ) = id := by
    funext r
    simp [moved]
  rw [this, List.map_id] at h1
  exact h1

/-- **C88, distribution of MUDA.** On a book without equal prices on a side, the coins that lead to a
given outcome (prices, fees and transactions) are as many in every order of submission. With fair coins the
distribution of the outcomes does not depend on the order. -/
theorem C88_distribution_partial (S : Sorter) (σ : Equiv.Perm ℕ) (df df' : DF) (ht : IsTable df)
    (ht' : IsTable df') (h : Shuffled σ df df') (hd : DistinctPrices df) (ts : List Transaction) (pl pr : Val)
    (fees : List ℚ) :
    Nat.card {c : Fin df'.length → Bool // ∃ tm l r, muda S (coinsOf c) df' = .ok (tm, .muda l r pl pr fees) ∧
        tm.trans = ts.map (fun t => { t with bid := σ t.bid })} =
      Nat.card {c : Fin df.length → Bool // ∃ tm l r, muda S (coinsOf c) df = .ok (tm, .muda l r pl pr fees) ∧
        tm.trans = ts} := by
  let e : Fin df.length ≃ Fin df'.length :=
    ⟨fun i => ⟨σ i, (shuffled_lt ht ht' h i).mpr i.2⟩,
      fun j => ⟨σ.symm j, (shuffled_lt ht ht' h _).mp (by rw [Equiv.apply_symm_apply]; exact j.2)⟩,
      fun i => by simp, fun j => by simp⟩
  refine Nat.card_congr (Equiv.subtypeEquiv (Equiv.arrowCongr e.symm (Equiv.refl Bool)) ?_)
  intro c
  have hc : ∀ i < df.length, coinsOf c (σ i) = coinsOf ((Equiv.arrowCongr e.symm (Equiv.refl Bool)) c) i := by
    intro i hi
    have hi' := (shuffled_lt ht ht' h i).mpr hi
    unfold coinsOf
    rw [dif_pos hi, dif_pos hi']
    rfl
  generalize (Equiv.arrowCongr e.symm (Equiv.refl Bool)) c = c0 at hc
  constructor
  · rintro ⟨tm, l, r, h1, h2⟩
    have hc' : ∀ j < df'.length, coinsOf c0 (σ.symm j) = coinsOf c j := by
      intro j hj
      have := hc (σ.symm j) ((shuffled_lt ht ht' h _).mp (by rw [Equiv.apply_symm_apply]; exact hj))
      rw [Equiv.apply_symm_apply] at this
      exact this.symm
    obtain ⟨tm', l', r', h3, -, -, h4⟩ := (C88_muda_partial S σ.symm _ _ df' df ht' ht (shuffled_symm h)
      (distinct_shuffled h hd) hc').2 _ _ _ _ _ _ h1
    refine ⟨tm', l', r', h3, ?_⟩
    rw [h4, h2, List.map_map]
    have : ((fun t : Transaction => { t with bid := σ.symm t.bid }) ∘
        (fun t : Transaction => { t with bid := σ t.bid })) = id := by
      funext t
      simp
    rw [this, List.map_id]
  · rintro ⟨tm, l, r, h1, h2⟩
    obtain ⟨tm', l', r', h3, -, -, h4⟩ := (C88_muda_partial S σ _ _ df df' ht ht' h hd hc).2 _ _ _ _ _ _ h1
    exact ⟨tm', l', r', h3, by rw [h4, h2]⟩

/-- **C88, submission.** Submitting the same bids in another order shuffles the book. -/
theorem C88_submission (bs bs' : List Bid) (h : bs.Perm bs') :
    ∃ σ : Equiv.Perm ℕ, Shuffled σ (labelFrom 0 bs) (labelFrom 0 bs') := by
  obtain ⟨σ, hσ⟩ := exists_perm h
  refine ⟨σ, ?_⟩
  have key : ∀ (l : List Bid) (n i : ℕ), (labelFrom n l)[i]? = (l[i]?).map (fun b => (⟨b, n + i⟩ : Row)) := by
    intro l
    induction l with
    | nil => intro n i; rfl
    | cons b l ih =>
      intro n i
      cases i with
      | zero => rfl
      | succ i =>
        simp only [labelFrom, List.getElem?_cons_succ, ih]
        congr 1
        funext b
        congr 1
        omega
  have nd : ∀ (l : List Bid), (labelFrom 0 l).Nodup := fun l => isTable_nodup (isTable_labelFrom l)
  have inj : Function.Injective (moved σ) := by
    intro a b hab
    obtain ⟨a, la⟩ := a
    obtain ⟨b, lb⟩ := b
    unfold moved at hab
    injection hab with h1 h2
    subst h1
    have := σ.injective h2
    subst this
    rfl
  unfold Shuffled
  rw [List.perm_ext_iff_of_nodup (nd _) ((nd _).map inj)]
  intro r
  rw [List.mem_iff_getElem?, List.mem_map]
  constructor
  · rintro ⟨j, hj⟩
    rw [key, Option.map_eq_some_iff] at hj
    obtain ⟨b, hb, rfl⟩ := hj
    refine ⟨⟨b, σ.symm j⟩, List.mem_iff_getElem?.mpr ⟨σ.symm j, ?_⟩, ?_⟩
    · rw [key, ← hσ, Equiv.apply_symm_apply, hb, Option.map_some, Nat.zero_add]
    · simp [moved]
  · rintro ⟨r0, hr0, rfl⟩
    obtain ⟨i, hi⟩ := List.mem_iff_getElem?.mp hr0
    rw [key, Option.map_eq_some_iff] at hi
    obtain ⟨b, hb, rfl⟩ := hi
    refine ⟨σ i, ?_⟩
    rw [key, hσ, hb]
    simp [moved]

/-! ## Concrete cases -/

/-- Two buyers of different users at the same price, in both orders. -/
def tiedBook (first second : ℤ) : DF := labelFrom 0
  [⟨1, 10, first, true, 0, true⟩, ⟨1, 10, second, true, 0, true⟩, ⟨1, 1, 2, false, 0, true⟩,
   ⟨1, 6, 3, true, 0, true⟩, ⟨1, 4, 4, false, 0, true⟩]

theorem tied_shuffled : Shuffled (Equiv.swap 0 1) (tiedBook 0 1) (tiedBook 1 0) := by
  unfold Shuffled
  decide +kernel

/-- Likewise for Huang's auction. -/
def huangTied (first second : ℤ) : DF := labelFrom 0
  [⟨1, 10, first, true, 0, true⟩, ⟨1, 10, second, true, 0, true⟩, ⟨3/2, 1, 2, false, 0, true⟩,
   ⟨3, 4, 4, false, 0, true⟩]

theorem huangTied_shuffled : Shuffled (Equiv.swap 0 1) (huangTied 0 1) (huangTied 1 0) := by
  unfold Shuffled
  decide +kernel

/-- **C88, MUDA with equal prices.** The full statement, without `DistinctPrices`, is false: of two buyers of
different users at the same price, the one who submitted first trades. -/
theorem C88_muda_refuted :
    ¬ ∀ (S : Sorter) (σ : ℕ → ℕ) (coin coin' : ℕ → Bool) (df df' : DF), IsTable df → IsTable df' →
      Shuffled σ df df' → ¬ HasTwin df → (∀ i < df.length, coin' (σ i) = coin i) →
      ∀ tm left right pl pr fees, muda S coin df = .ok (tm, .muda left right pl pr fees) →
      ∃ tm' left' right' fees', muda S coin' df' = .ok (tm', .muda left' right' pl pr fees') ∧
        tm'.trans.Perm (tm.trans.map (fun t => { t with bid := σ t.bid })) := by
  intro h
  obtain ⟨tm', l, r, f, h1, h2⟩ := h stableSorter (Equiv.swap 0 1) (fun i => decide (i < 3))
    (fun i => decide (i < 3)) (tiedBook 0 1) (tiedBook 1 0) (isTable_labelFrom _) (isTable_labelFrom _)
    tied_shuffled (by rw [← checkEqualPrice_iff]; decide +kernel) (by decide +kernel)
    (TransactionManager.init.addAll [⟨2, 1, 5, -1, false⟩, ⟨0, 1, 5, -1, false⟩, ⟨4, 1, 11/2, -1, false⟩,
      ⟨3, 1, 11/2, -1, false⟩]) [0, 1, 2] [3, 4] (.fin (11/2)) (.fin 5) [5, 0, 0, 0, 0] (by decide +kernel)
  have h3 : (muda stableSorter (fun i => decide (i < 3)) (tiedBook 1 0)).map (fun x => x.1.trans) =
      .ok [⟨2, 1, 5, -1, false⟩, ⟨0, 1, 5, -1, false⟩, ⟨4, 1, 11/2, -1, false⟩, ⟨3, 1, 11/2, -1, false⟩] := by
    decide +kernel
  rw [h1] at h3
  injection h3 with h3
  simp only at h3
  rw [h3] at h2
  revert h2
  decide +kernel

/-- **C88, Huang's auction with equal prices.** Likewise. -/
theorem C88_huang_refuted :
    ¬ ∀ (S : Sorter) (σ : ℕ → ℕ) (df df' : DF), IsTable df → IsTable df' → Shuffled σ df df' →
      ¬ HasTwin df → ∀ tm ex, huangAuction S df = .ok (tm, ex) →
      ∃ tm', huangAuction S df' = .ok (tm', ex) ∧
        tm'.trans.Perm (tm.trans.map (fun t => { t with bid := σ t.bid })) := by
  intro h
  obtain ⟨tm', h1, h2⟩ := h stableSorter (Equiv.swap 0 1) (huangTied 0 1) (huangTied 1 0)
    (isTable_labelFrom _) (isTable_labelFrom _) huangTied_shuffled (by rw [← checkEqualPrice_iff]; decide +kernel)
    (TransactionManager.init.addAll [⟨2, 1, 4, -1, false⟩, ⟨0, 1, 10, -1, false⟩]) (.huang 4 10 1) (by decide +kernel)
  have h3 : (huangAuction stableSorter (huangTied 1 0)).map (fun x => x.1.trans) =
      .ok [⟨2, 1, 4, -1, false⟩, ⟨0, 1, 10, -1, false⟩] := by
    decide +kernel
  rw [h1] at h3
  injection h3 with h3
  simp only at h3
  rw [h3] at h2
  revert h2
  decide +kernel

/-- A book without equal prices, and the same book with two buyers exchanged. -/
def untied (a b : ℤ) (x y : ℚ) : DF := labelFrom 0
  [⟨1, x, a, true, 0, true⟩, ⟨1, y, b, true, 0, true⟩, ⟨1, 1, 2, false, 0, true⟩,
   ⟨1, 6, 3, true, 0, true⟩, ⟨1, 4, 4, false, 0, true⟩]

theorem untied_shuffled : Shuffled (Equiv.swap 0 1) (untied 0 1 10 11) (untied 1 0 11 10) := by
  unfold Shuffled
  decide +kernel

theorem untied_distinct : DistinctPrices (untied 0 1 10 11) := by
  unfold DistinctPrices
  decide +kernel

/-- The buyer of bid 1 trades, under id 1 in one order and id 0 in the other. -/
example : ∃ tm left right pl pr fees,
    muda stableSorter (fun i => decide (i < 3)) (untied 0 1 10 11) = .ok (tm, .muda left right pl pr fees) ∧
    (∃ t ∈ tm.trans, t.bid = 1) ∧
    ∃ tm' left' right', muda stableSorter (fun i => decide (i < 3)) (untied 1 0 11 10) =
      .ok (tm', .muda left' right' pl pr fees) ∧ ∃ t ∈ tm'.trans, t.bid = 0 := by
  have h0 : muda stableSorter (fun i => decide (i < 3)) (untied 0 1 10 11) =
      .ok (TransactionManager.init.addAll [⟨2, 1, 5, -1, false⟩, ⟨1, 1, 5, -1, false⟩, ⟨4, 1, 6, -1, false⟩,
        ⟨3, 1, 6, -1, false⟩], .muda [0, 1, 2] [3, 4] (.fin (6)) (.fin 5) [0, 5, 0, 0, 0]) := by decide +kernel
  refine ⟨_, _, _, _, _, _, h0, by decide +kernel, ?_⟩
  obtain ⟨tm', l, r, h1, -, -, h2⟩ := (C88_muda_partial stableSorter (Equiv.swap 0 1) (fun i => decide (i < 3))
    (fun i => decide (i < 3)) (untied 0 1 10 11) (untied 1 0 11 10) (isTable_labelFrom _) (isTable_labelFrom _)
    untied_shuffled untied_distinct (by decide +kernel)).2 _ _ _ _ _ _ h0
  refine ⟨tm', l, r, h1, ?_⟩
  rw [h2]
  decide +kernel

example := C88_distribution_partial stableSorter (Equiv.swap 0 1) (untied 0 1 10 11) (untied 1 0 11 10)
  (isTable_labelFrom _) (isTable_labelFrom _) untied_shuffled untied_distinct

example := C88_huang_partial stableSorter (Equiv.swap 0 1) (untied 0 1 10 11) (untied 1 0 11 10)
  (isTable_labelFrom _) untied_shuffled untied_distinct

example : ([1, 2, 3].map (fun p => (⟨1, p, 0, true, 0, true⟩ : Bid))).Perm
    ([3, 1, 2].map (fun p => (⟨1, p, 0, true, 0, true⟩ : Bid))) := by decide +kernel

end PyMarket
