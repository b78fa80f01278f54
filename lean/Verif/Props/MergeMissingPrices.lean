import Verif.Lemmas.MergeMissingPrices

/-! # C138 with merging: bids without a price are left out

`Market.run` always merges for Huang's auction and merges for the other mechanisms if asked to. -/

set_option autoImplicit false

namespace PyMarket

open Spec

variable {price : ℕ → Option ℚ} {df : DF}

theorem mechanism_mergeFrom (smp : Sampler) (algo : Algo) (df : DF) {nb : DF} {mp : List (List ℕ)}
    (h : mergeFrom smp df (maxUserSucc df) = .ok (nb, mp)) :
    mechanism smp true algo df =
      (mechRun algo nb).bind (fun o => (splitTransactions o.1 df mp).bind (fun tm => .ok (tm, o.2))) := by
  have e : mergeSamePrice smp df = mergeFrom smp df (maxUserSucc df) := rfl
  unfold mechanism
  rw [e, h]
  rfl

theorem mechanismP_mergeFrom (smp : Sampler) (algo : Algo) (price : ℕ → Option ℚ) (df : DF) {nb : DF}
    {mp : List (List ℕ)} (h : mergeFrom smp (bookWithout price df) (maxUserSucc df) = .ok (nb, mp)) :
    mechanismP smp price algo df = (mechRun algo nb).bind (fun o =>
      (splitTransactions o.1 df (mp.map (List.map (oldId price df)))).bind (fun tm => .ok (tm, o.2))) := by
  unfold mechanismP
  rw [mergeSamePriceP_eq, h]
  rfl

theorem outcome_withId (ht : IsTable df) (mp : List (List ℕ)) (o : TransactionManager × Extra) :
    ((splitTransactions o.1 df (mp.map (List.map (oldId price df)))).bind
        (fun tm => Except.ok (tm, o.2))).map (fun o => (o.1.trans, o.2)) =
      ((splitTransactions o.1 (bookWithout price df) mp).bind
        (fun tm => Except.ok (tm, o.2))).map (renameOutcome (oldId price df)) := by
  have h := run_withId (oldId_quantity (price := price) ht) mp o.1
  cases h1 : splitTransactions o.1 df (mp.map (List.map (oldId price df))) with
  | error e =>
    cases h2 : splitTransactions o.1 (bookWithout price df) mp with
    | error e' => rw [h1, h2] at h; simpa [Except.map, Except.bind] using h
    | ok b => rw [h1, h2] at h; simp [Except.map] at h
  | ok a =>
    cases h2 : splitTransactions o.1 (bookWithout price df) mp with
    | error e' => rw [h1, h2] at h; simp [Except.map] at h
    | ok b =>
      rw [h1, h2] at h
      simp only [Except.map, Except.ok.injEq] at h
      simp only [Except.bind, Except.map, renameOutcome, h]

/-- **C138 with merging:** for an algorithm that does not look at the user ids, the run with bids that lack a price is
the run of the book without them. -/
theorem C138_merged (smp : Sampler) (algo : Algo) (ha : UserBlind algo) (ht : IsTable df) :
    (mechanismP smp price algo df).map (fun o => (o.1.trans, o.2)) =
      (mechanism smp true algo (bookWithout price df)).map (renameOutcome (oldId price df)) := by
  obtain ⟨a, b, mp, h1, h2, h3⟩ :=
    mergeFrom_anon smp (bookWithout price df) (maxUserSucc df) (maxUserSucc (bookWithout price df))
  rw [mechanismP_mergeFrom smp algo price df h1, mechanism_mergeFrom smp algo _ h2]
  have hr : mechRun algo a = mechRun algo b := by
    rw [← anon_keeps.mechRun_map algo ha a, ← anon_keeps.mechRun_map algo ha b, h3]
  rw [hr]
  cases mechRun algo b with
  | error e => rfl
  | ok o => exact outcome_withId ht mp o

/-- **C138 in `Market.run(algo='huang')`:** bids without a price change nothing. -/
theorem C138_merged_huang (S : Sorter) (smp : Sampler) (ht : IsTable df) :
    (mechanismP smp price (huangAuction S) df).map (fun o => (o.1.trans, o.2)) =
      (runAlgo S smp .huang (bookWithout price df)).map (renameOutcome (oldId price df)) :=
  C138_merged smp _ (anon_keeps.huangAuction_map S) ht

/-- **C138 in `Market.run(algo='p2p', merge=True)`:** bids without a price change nothing. -/
theorem C138_merged_p2p (S : Sorter) (smp : Sampler) (c : ℚ) (choice : ℕ → ℕ) (ht : IsTable df) :
    (mechanismP smp price (p2pRandom c choice) df).map (fun o => (o.1.trans, o.2)) =
      (runAlgo S smp (.p2p true c choice) (bookWithout price df)).map (renameOutcome (oldId price df)) :=
  C138_merged smp _ (anon_keeps.p2pRandom_map c choice) ht

theorem foldl_userMax_le (l : List ℤ) (a M : ℤ) (ha : a ≤ M) (h : ∀ x ∈ l, x ≤ M) : l.foldl max a ≤ M := by
  induction l generalizing a with
  | nil => exact ha
  | cons x l ih =>
    exact ih _ (max_le ha (h x List.mem_cons_self)) (fun y hy => h y (List.mem_cons_of_mem _ hy))

theorem le_foldl_userMax (l : List ℤ) (a : ℤ) : a ≤ l.foldl max a ∧ ∀ x ∈ l, x ≤ l.foldl max a := by
  induction l generalizing a with
  | nil => simp
  | cons x l ih =>
    have h := ih (max a x)
    refine ⟨le_trans (le_max_left a x) h.1, ?_⟩
    intro y hy
    rcases List.mem_cons.mp hy with rfl | hy
    · exact le_trans (le_max_right a y) h.1
    · exact h.2 y hy

theorem maxUserSucc_of_max {l : DF} {u : ℤ} (hm : u ∈ l.map (fun r => r.user)) (h : ∀ x ∈ l.map (fun r => r.user), x ≤ u) :
    maxUserSucc l = u + 1 := by
  unfold maxUserSucc
  cases e : l.map (fun r => r.user) with
  | nil => rw [e] at hm; cases hm
  | cons a as =>
    rw [e] at hm h
    have h1 := foldl_userMax_le as a u (h a List.mem_cons_self) (fun x hx => h x (List.mem_cons_of_mem _ hx))
    have h2 := le_foldl_userMax as a
    have h3 : u ≤ as.foldl max a := by
      rcases List.mem_cons.mp hm with rfl | hm
      · exact h2.1
      · exact h2.2 u hm
    simp only
    omega

theorem users_bookWithout (price : ℕ → Option ℚ) (df : DF) :
    (bookWithout price df).map (fun r => r.user) =
      (df.filter (fun r => (price r.label).isSome)).map (fun r => r.user) := by
  have e : (bookWithout price df).map (fun r => r.user) = (pricedBids price df).map (fun p => p.1.user) := by
    have := congrArg (List.map Bid.user) (labelFrom_map_toBid 0 ((pricedBids price df).map Prod.fst))
    rw [List.map_map, List.map_map] at this
    exact this
  rw [e]
  clear e
  unfold pricedBids
  induction df with
  | nil => rfl
  | cons r l ih =>
    rw [List.filterMap_cons, List.filter_cons]
    cases hp : price r.label with
    | none => simpa [hp] using ih
    | some p => simpa [hp] using ih

/-- **C138 with merging, all algorithms:** if the user with the largest id has a bid with a price, bids that lack a
price change nothing, also in MUDA. -/
theorem C138_merged_any (smp : Sampler) (algo : Algo) (ht : IsTable df) (r : Row) (hr : r ∈ df)
    (hp : price r.label ≠ none) (hu : ∀ r' ∈ df, r'.user ≤ r.user) :
    (mechanismP smp price algo df).map (fun o => (o.1.trans, o.2)) =
      (mechanism smp true algo (bookWithout price df)).map (renameOutcome (oldId price df)) := by
  have h1 : maxUserSucc df = r.user + 1 := by
    apply maxUserSucc_of_max (List.mem_map_of_mem hr)
    intro x hx
    obtain ⟨r', hr', rfl⟩ := List.mem_map.mp hx
    exact hu r' hr'
  have h2 : maxUserSucc (bookWithout price df) = r.user + 1 := by
    apply maxUserSucc_of_max
    · rw [users_bookWithout]
      exact List.mem_map_of_mem (List.mem_filter.mpr ⟨hr, Option.isSome_iff_ne_none.mpr hp⟩)
    · intro x hx
      rw [users_bookWithout] at hx
      obtain ⟨r', hr', rfl⟩ := List.mem_map.mp hx
      exact hu r' (List.mem_filter.mp hr').1
  obtain ⟨a, _, mp, e1, _, _⟩ :=
    mergeFrom_anon smp (bookWithout price df) (maxUserSucc df) (maxUserSucc (bookWithout price df))
  have e2 := e1
  rw [h1, ← h2] at e2
  rw [mechanismP_mergeFrom smp algo price df e1, mechanism_mergeFrom smp algo _ e2]
  cases mechRun algo a with
  | error e => rfl
  | ok o => exact outcome_withId ht mp o

theorem filterMap_short {B : DF} {rows : List ℕ} {k : ℕ} (hk : k ∈ rows) (hc : B.length ≤ k) :
    (rows.filterMap (fun i => B[i]?)).length < rows.length := by
  induction rows with
  | nil => cases hk
  | cons x xs ih =>
    rw [List.filterMap_cons]
    rcases List.mem_cons.mp hk with e | e
    · rw [← e, List.getElem?_eq_none hc]
      exact Nat.lt_succ_of_le (List.length_filterMap_le _ _)
    · have := ih e
      cases B[x]? with
      | none => simp only [List.length_cons]; omega
      | some y => simp only [List.length_cons]; omega

theorem splitAll_inRange {B : DF} {mp : List (List ℕ)} (ts : List Transaction) {out : List Transaction}
    (h : splitAll B mp ts = .ok out) : ∀ t ∈ out, t.bid < B.length := by
  induction ts generalizing out with
  | nil =>
    cases h
    intro t ht
    cases ht
  | cons t ts ih =>
    simp only [splitAll, bind, Except.bind] at h
    cases h1 : splitOne B mp t with
    | error e => rw [h1] at h; cases h
    | ok a =>
      rw [h1] at h
      cases h2 : splitAll B mp ts with
      | error e => rw [h2] at h; cases h
      | ok b =>
        rw [h2] at h
        cases h
        intro u hu
        rcases List.mem_append.mp hu with hu | hu
        · unfold splitOne at h1
          cases hm : mp[t.bid]? with
          | none => rw [hm] at h1; cases h1
          | some rows =>
            simp only [hm] at h1
            split at h1
            · cases h1
            · rename_i hl
              split at h1
              · cases h1
              · cases h1
                obtain ⟨p, hp, rfl⟩ := List.mem_map.mp hu
                have hk : p.1 ∈ rows := (List.of_mem_zip hp).1
                by_contra hc
                have hlt := filterMap_short hk (not_lt.mp hc)
                simp only [ne_eq, not_not] at hl
                omega
        · exact ih h2 u hu

/-- **C138 with merging:** a bid without a price never trades, whatever the algorithm does. -/
theorem C138_merged_silent (smp : Sampler) (algo : Algo) (ht : IsTable df) (tm : TransactionManager) (e : Extra)
    (ho : mechanismP smp price algo df = .ok (tm, e)) : ∀ t ∈ tm.trans, price t.bid ≠ none := by
  obtain ⟨a, _, mp, e1, _, _⟩ :=
    mergeFrom_anon smp (bookWithout price df) (maxUserSucc df) (maxUserSucc (bookWithout price df))
  rw [mechanismP_mergeFrom smp algo price df e1] at ho
  cases hr : mechRun algo a with
  | error e => rw [hr] at ho; cases ho
  | ok o =>
    rw [hr] at ho
    simp only [Except.bind] at ho
    have hs := splitAll_withId (oldId_quantity (price := price) ht) mp o.1.getDf
    unfold splitTransactions at ho
    rw [hs] at ho
    cases h2 : splitAll (bookWithout price df) mp o.1.getDf with
    | error e => rw [h2] at ho; cases ho
    | ok ts =>
      rw [h2] at ho
      simp only [Except.map, bind, Except.bind, Except.ok.injEq, Prod.mk.injEq] at ho
      rw [← ho.1]
      intro t ht'
      rw [TransactionManager.init_addAll_trans] at ht'
      obtain ⟨s, hs', rfl⟩ := List.mem_map.mp ht'
      have hk := splitAll_inRange _ h2 s hs'
      unfold bookWithout at hk
      rw [labelFrom_length, List.length_map] at hk
      simp only [oldId, List.getElem?_eq_getElem hk, Option.map_some, Option.getD_some]
      obtain ⟨r, hr', e'⟩ := List.mem_filterMap.mp (List.getElem_mem hk)
      cases hp : price r.label with
      | none => rw [hp] at e'; cases e'
      | some q =>
        rw [hp] at e'
        simp only [Option.map_some, Option.some.injEq] at e'
        rw [← e']
        simp [hp]

/-- Two buyers @ 10, a buyer and a seller without a price, sellers @ 2 and @ 3. -/
def unpricedMergeBook : DF := labelFrom 0 [⟨1, 0, 7, true, 0, true⟩, ⟨1, 10, 0, true, 0, true⟩,
  ⟨3, 10, 1, true, 0, true⟩, ⟨2, 8, 2, true, 0, true⟩, ⟨2, 0, 6, false, 0, true⟩, ⟨4, 2, 3, false, 0, true⟩,
  ⟨5, 3, 4, false, 0, true⟩]

/-- Its prices. -/
def unpricedMergePrices : ℕ → Option ℚ := fun i =>
  [none, some 10, some 10, some 8, none, some 2, some 3].getD i none

/-- Always the first of a group. -/
def firstOfGroup : Sampler where
  time l := l.headD 0
  divisible l := l.headD true
  time_mem l h := by cases l with
    | nil => exact absurd rfl h
    | cons a l => simp
  divisible_mem l h := by cases l with
    | nil => exact absurd rfl h
    | cons a l => simp

example : IsTable unpricedMergeBook ∧
    (mechanismP firstOfGroup unpricedMergePrices (huangAuction stableSorter) unpricedMergeBook).toOption.map
      (fun o => o.1.trans.map (fun t => (t.bid, t.quantity, t.price))) =
      some [(5, 4, 3), (1, 1, 8), (2, 3, 8)] := by
  constructor <;> decide +kernel

example : (⟨⟨5, 3, 9, false, 0, true⟩, 6⟩ : Row) ∈ (unpricedMergeBook.take 6 ++ [⟨⟨5, 3, 9, false, 0, true⟩, 6⟩]) ∧
    unpricedMergePrices 6 ≠ none ∧
    (∀ r' ∈ (unpricedMergeBook.take 6 ++ [⟨⟨5, 3, 9, false, 0, true⟩, 6⟩]), r'.user ≤ 9) := by
  refine ⟨by simp, by decide, by decide⟩

/-- Users 0 to 4 have prices; user 5 asks for one unit without a price. -/
def lateUserBook : DF := labelFrom 0 [⟨1, 10, 0, true, 0, true⟩, ⟨1, 10, 1, true, 0, true⟩,
  ⟨1, 8, 2, true, 0, true⟩, ⟨1, 1, 3, false, 0, true⟩, ⟨1, 2, 4, false, 0, true⟩,
  ⟨1, 1 / 2, 0, true, 0, true⟩, ⟨1, 1 / 4, 1, true, 0, true⟩, ⟨1, 0, 5, true, 0, true⟩]

/-- Its prices. -/
def lateUserPrices : ℕ → Option ℚ := fun i =>
  [some 10, some 10, some 8, some 1, some 2, some (1 / 2), some (1 / 4), none].getD i none

/-- **C138 refuted for MUDA with merging.** Without the bid of user 5 three bids trade. With it, the merged bid gets the
user id 6 instead of 5, which is outside the list of fees, and MUDA raises `IndexError`. -/
theorem C138_merged_muda_refuted :
    IsTable lateUserBook ∧
    (mechanism firstOfGroup true (muda stableSorter (fun i => i == 2 || i == 4))
      (bookWithout lateUserPrices lateUserBook)).toOption.map
        (fun o => o.1.trans.map (fun t => (t.bid, t.quantity, t.price))) =
      some [(4, 1, 9 / 2), (0, 1 / 2, 9 / 2), (1, 1 / 2, 9 / 2)] ∧
    mechanismP firstOfGroup lateUserPrices (muda stableSorter (fun i => i == 2 || i == 4)) lateUserBook =
      .error .indexError := by
  refine ⟨?_, ?_, ?_⟩ <;> decide +kernel

end PyMarket
