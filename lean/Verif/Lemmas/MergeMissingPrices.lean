import Verif.Model.MergeMissingPrices
import Verif.Spec.MergeMissingPrices
import Verif.Lemmas.MissingPricesBook
import Verif.Lemmas.Merge
import Verif.Lemmas.Erase
import Verif.Lemmas.Managers
import Verif.Lemmas.Table

/-! # Merging with missing prices -/

set_option autoImplicit false

namespace PyMarket

open Spec

/-- Another id for a row. -/
def withId (f : ℕ → ℕ) (r : Row) : Row := { r with label := f r.label }

/-- Other ids for the members of a group. -/
def groupIds (f : ℕ → ℕ) (g : Bid × List ℕ) : Bid × List ℕ := (g.1, g.2.map f)

theorem buys_withId (f : ℕ → ℕ) (df : DF) : buys (df.map (withId f)) = (buys df).map (withId f) := by
  unfold buys
  rw [List.filter_map]
  rfl

theorem sells_withId (f : ℕ → ℕ) (df : DF) : sells (df.map (withId f)) = (sells df).map (withId f) := by
  unfold sells
  rw [List.filter_map]
  rfl

theorem groupRows_withId (f : ℕ → ℕ) (prec : ℕ) (df : DF) (k : ℚ) :
    groupRows prec (df.map (withId f)) k = (groupRows prec df k).map (withId f) := by
  unfold groupRows
  rw [List.filter_map]
  rfl

theorem groupKeys_withId (f : ℕ → ℕ) (prec : ℕ) (df : DF) :
    groupKeys prec (df.map (withId f)) = groupKeys prec df := by
  unfold groupKeys
  rw [List.map_map]
  rfl

theorem aggGroup_withId (f : ℕ → ℕ) (smp : Sampler) (side : Bool) (k : ℚ) (rows : DF) (i : ℤ) :
    aggGroup smp side k (rows.map (withId f)) i =
      (aggGroup smp side k rows i).map (fun o => (groupIds f o.1, o.2)) := by
  have e1 : (rows.map (withId f)).map (fun r => r.user) = rows.map (fun r => r.user) := by
    rw [List.map_map]; rfl
  have e2 : (rows.map (withId f)).map (fun r => r.time) = rows.map (fun r => r.time) := by
    rw [List.map_map]; rfl
  have e3 : (rows.map (withId f)).map (fun r => r.divisible) = rows.map (fun r => r.divisible) := by
    rw [List.map_map]; rfl
  have e4 : (rows.map (withId f)).map (fun r => r.label) = (rows.map (fun r => r.label)).map f := by
    rw [List.map_map, List.map_map]; rfl
  have e5 : qsum (rows.map (withId f)) = qsum rows := by
    unfold qsum
    rw [List.map_map]; rfl
  unfold aggGroup
  rw [e1, e2, e3, e4, e5]
  cases newId i (rows.map (fun r => r.user)) with
  | error e => rfl
  | ok a => rfl

theorem aggSide_withId (f : ℕ → ℕ) (smp : Sampler) (prec : ℕ) (side : Bool) (df : DF) (ks : List ℚ) (i : ℤ) :
    aggSide smp prec side (df.map (withId f)) ks i =
      (aggSide smp prec side df ks i).map (fun o => (o.1.map (groupIds f), o.2)) := by
  induction ks generalizing i with
  | nil => rfl
  | cons k ks ih =>
    unfold aggSide
    rw [groupRows_withId, aggGroup_withId]
    cases aggGroup smp side k (groupRows prec df k) i with
    | error e => rfl
    | ok a =>
      simp only [Except.map, bind, Except.bind, ih]
      cases aggSide smp prec side df ks a.2 with
      | error e => rfl
      | ok b => rfl

variable {price : ℕ → Option ℚ} {df : DF}

theorem pricedRows_eq (price : ℕ → Option ℚ) (df : DF) :
    pricedRows price df = (pricedBids price df).map (fun p => { toBid := p.1, label := p.2 }) := by
  unfold pricedRows pricedBids
  rw [List.map_filterMap]
  congr 1
  funext r
  cases price r.label with
  | none => rfl
  | some p => rfl

/-- The rows with prices are those of the smaller book, with their old ids. -/
theorem pricedRows_withId (price : ℕ → Option ℚ) (df : DF) :
    pricedRows price df = (bookWithout price df).map (withId (oldId price df)) := by
  rw [pricedRows_eq]
  apply List.ext_getElem?
  intro k
  unfold bookWithout oldId
  rw [List.getElem?_map, List.getElem?_map, labelFrom_getElem?, List.getElem?_map]
  cases h : (pricedBids price df)[k]? with
  | none => rfl
  | some p => simp [withId, h]

/-- The quantities are the same. -/
theorem oldId_quantity (ht : IsTable df) (k : ℕ) :
    (df[oldId price df k]?).map (fun r => r.quantity) = ((bookWithout price df)[k]?).map (fun r => r.quantity) := by
  unfold bookWithout oldId
  rw [labelFrom_getElem?, List.getElem?_map]
  cases h : (pricedBids price df)[k]? with
  | none => simp
  | some p =>
    obtain ⟨r, hr, e⟩ := List.mem_filterMap.mp (List.mem_of_getElem? h)
    cases hp : price r.label with
    | none => rw [hp] at e; cases e
    | some q =>
      rw [hp] at e
      cases e
      simp [ht.get_label hr]

theorem zip_shares (mp : List ℕ) (A B : DF) (f : ℕ → ℕ)
    (h : ∀ k, (A[f k]?).map (fun r => r.quantity) = (B[k]?).map (fun r => r.quantity)) :
    ((mp.map f).filterMap (fun i => A[i]?)).map (fun r => r.quantity) =
      (mp.filterMap (fun i => B[i]?)).map (fun r => r.quantity) := by
  induction mp with
  | nil => rfl
  | cons k mp ih =>
    have hk := h k
    rw [List.map_cons, List.filterMap_cons, List.filterMap_cons]
    cases h1 : A[f k]? with
    | none =>
      cases h2 : B[k]? with
      | none => exact ih
      | some b => rw [h1, h2] at hk; cases hk
    | some a =>
      cases h2 : B[k]? with
      | none => rw [h1, h2] at hk; cases hk
      | some b =>
        rw [h1, h2] at hk
        simp only [Option.map_some, Option.some.injEq] at hk
        simp only [List.map_cons, hk, ih]

theorem splitOne_withId {A B : DF} {f : ℕ → ℕ}
    (h : ∀ k, (A[f k]?).map (fun r => r.quantity) = (B[k]?).map (fun r => r.quantity)) (mp : List (List ℕ))
    (t : Transaction) :
    splitOne A (mp.map (List.map f)) t =
      (splitOne B mp t).map (List.map (fun t => { t with bid := f t.bid })) := by
  unfold splitOne
  rw [List.getElem?_map]
  cases hm : mp[t.bid]? with
  | none => rfl
  | some rows =>
    have hz := zip_shares rows A B f h
    have hl : ((rows.map f).filterMap (fun i => A[i]?)).length = (rows.filterMap (fun i => B[i]?)).length := by
      simpa using congrArg List.length hz
    have hq : qsum ((rows.map f).filterMap (fun i => A[i]?)) = qsum (rows.filterMap (fun i => B[i]?)) := by
      unfold qsum
      rw [hz]
    simp only [Option.map_some, hl, hq, List.length_map, ne_eq, List.map_eq_nil_iff]
    split
    · rfl
    · split
      · rfl
      · simp only [Except.map]
        congr 1
        have key : ∀ (as : List ℕ) (xs ys : DF), xs.map (fun r => r.quantity) = ys.map (fun r => r.quantity) →
            ∀ Q : ℚ, (List.zip (as.map f) xs).map
                (fun p => ({ t with bid := p.1, quantity := t.quantity * (p.2.quantity / Q) } : Transaction)) =
              ((List.zip as ys).map
                (fun p => ({ t with bid := p.1, quantity := t.quantity * (p.2.quantity / Q) } : Transaction))).map
                (fun t => { t with bid := f t.bid }) := by
          intro as
          induction as with
          | nil => intro xs ys _ Q; rfl
          | cons a as ih =>
            intro xs ys e Q
            cases xs with
            | nil =>
              cases ys with
              | nil => rfl
              | cons y ys => simp at e
            | cons x xs =>
              cases ys with
              | nil => simp at e
              | cons y ys =>
                simp only [List.map_cons, List.cons.injEq] at e
                simp only [List.map_cons, List.zip_cons_cons, ih xs ys e.2 Q, e.1]
        exact key rows _ _ hz _

theorem splitAll_withId {A B : DF} {f : ℕ → ℕ}
    (h : ∀ k, (A[f k]?).map (fun r => r.quantity) = (B[k]?).map (fun r => r.quantity)) (mp : List (List ℕ))
    (ts : List Transaction) :
    splitAll A (mp.map (List.map f)) ts =
      (splitAll B mp ts).map (List.map (fun t => { t with bid := f t.bid })) := by
  induction ts with
  | nil => rfl
  | cons t ts ih =>
    simp only [splitAll, splitOne_withId h, ih, bind, Except.bind]
    cases splitOne B mp t with
    | error e => rfl
    | ok a =>
      simp only [Except.map]
      cases splitAll B mp ts with
      | error e => rfl
      | ok b => simp

/-- Merging in two steps: the groups with a given first new id. -/
def mergeFrom (smp : Sampler) (df : DF) (index : ℤ) : Except PyErr (DF × List (List ℕ)) := do
  let (gb, i) ← aggSide smp 5 true (buys df) (groupKeys 5 (buys df)) index
  let (gs, _) ← aggSide smp 5 false (sells df) (groupKeys 5 (sells df)) i
  .ok (labelFrom 0 ((gb ++ gs).map (fun p => p.1)), (gb ++ gs).map (fun p => p.2))

theorem mergeSamePriceP_eq (smp : Sampler) (price : ℕ → Option ℚ) (df : DF) :
    mergeSamePriceP smp price df = (mergeFrom smp (bookWithout price df) (maxUserSucc df)).map
      (fun o => (o.1, o.2.map (List.map (oldId price df)))) := by
  unfold mergeSamePriceP mergeFrom
  rw [← buys_pricedRows, ← sells_pricedRows, pricedRows_withId, buys_withId, sells_withId]
  simp only [groupKeys_withId, aggSide_withId]
  cases aggSide smp 5 true (buys (bookWithout price df)) (groupKeys 5 (buys (bookWithout price df))) (maxUserSucc df) with
  | error e => rfl
  | ok a =>
    simp only [Except.map, bind, Except.bind]
    cases aggSide smp 5 false (sells (bookWithout price df)) (groupKeys 5 (sells (bookWithout price df))) a.2 with
    | error e => rfl
    | ok b =>
      simp only [List.map_append, List.map_map]
      rfl

/-- Replace the user. -/
def anon (r : Row) : Row := { r with user := 0 }

theorem anon_keeps : Keeps anon := ⟨fun _ => rfl, fun _ => rfl, fun _ => rfl, fun _ => rfl⟩

/-- The first new id only changes users. -/
theorem aggGroup_anon (smp : Sampler) (side : Bool) (k : ℚ) (rows : DF) (i j : ℤ) :
    (aggGroup smp side k rows i).map (fun o => (({ o.1.1 with user := 0 } : Bid), o.1.2)) =
      (aggGroup smp side k rows j).map (fun o => (({ o.1.1 with user := 0 } : Bid), o.1.2)) := by
  unfold aggGroup newId
  split
  · rfl
  · cases rows with
    | nil => rfl
    | cons r rs => rfl

theorem aggSide_anon (smp : Sampler) (prec : ℕ) (side : Bool) (df : DF) (ks : List ℚ) (i j : ℤ) :
    (aggSide smp prec side df ks i).map (fun o => o.1.map (fun g => (({ g.1 with user := 0 } : Bid), g.2))) =
      (aggSide smp prec side df ks j).map (fun o => o.1.map (fun g => (({ g.1 with user := 0 } : Bid), g.2))) := by
  induction ks generalizing i j with
  | nil => rfl
  | cons k ks ih =>
    unfold aggSide
    have hg := aggGroup_anon smp side k (groupRows prec df k) i j
    cases h1 : aggGroup smp side k (groupRows prec df k) i with
    | error e =>
      cases h2 : aggGroup smp side k (groupRows prec df k) j with
      | error e' => rw [h1, h2] at hg; simpa [Except.map, bind, Except.bind] using hg
      | ok b => rw [h1, h2] at hg; simp [Except.map] at hg
    | ok a =>
      cases h2 : aggGroup smp side k (groupRows prec df k) j with
      | error e' => rw [h1, h2] at hg; simp [Except.map] at hg
      | ok b =>
        rw [h1, h2] at hg
        simp only [Except.map, Except.ok.injEq] at hg
        have hi := ih a.2 b.2
        simp only [bind, Except.bind]
        cases h3 : aggSide smp prec side df ks a.2 with
        | error e =>
          cases h4 : aggSide smp prec side df ks b.2 with
          | error e' => rw [h3, h4] at hi; simpa [Except.map] using hi
          | ok d => rw [h3, h4] at hi; simp [Except.map] at hi
        | ok c =>
          cases h4 : aggSide smp prec side df ks b.2 with
          | error e' => rw [h3, h4] at hi; simp [Except.map] at hi
          | ok d =>
            rw [h3, h4] at hi
            simp only [Except.map, Except.ok.injEq] at hi
            simp only [Except.map, List.map_cons, hg, hi]

theorem labelFrom_anon (n : ℕ) (bs : List Bid) :
    (labelFrom n bs).map anon = labelFrom n (bs.map (fun b => { b with user := 0 })) := by
  induction bs generalizing n with
  | nil => rfl
  | cons b bs ih =>
    simp only [labelFrom, List.map_cons, ih]
    rfl

/-- The merged bids of `mergeFrom`, up to the users, do not depend on the first new id. -/
theorem mergeFrom_anon (smp : Sampler) (df : DF) (i j : ℤ) :
    ∃ a b mp, mergeFrom smp df i = .ok (a, mp) ∧ mergeFrom smp df j = .ok (b, mp) ∧ a.map anon = b.map anon := by
  have ok : ∀ (side : Bool) (l : DF) (n : ℤ), ∃ gs n', aggSide smp 5 side l (groupKeys 5 l) n = .ok (gs, n') := by
    intro side l n
    obtain ⟨gs, n', h, _⟩ := aggSide_ok smp 5 side l (groupKeys 5 l) n (fun k hk => groupRows_ne_nil hk)
    exact ⟨gs, n', h⟩
  obtain ⟨b1, i1, e1⟩ := ok true (buys df) i
  obtain ⟨s1, i2, e2⟩ := ok false (sells df) i1
  obtain ⟨b2, j1, e3⟩ := ok true (buys df) j
  obtain ⟨s2, j2, e4⟩ := ok false (sells df) j1
  have hb := aggSide_anon smp 5 true (buys df) (groupKeys 5 (buys df)) i j
  have hs := aggSide_anon smp 5 false (sells df) (groupKeys 5 (sells df)) i1 j1
  rw [e1, e3] at hb
  rw [e2, e4] at hs
  simp only [Except.map, Except.ok.injEq] at hb hs
  have hall : (b1 ++ s1).map (fun g => (({ g.1 with user := 0 } : Bid), g.2)) =
      (b2 ++ s2).map (fun g => (({ g.1 with user := 0 } : Bid), g.2)) := by
    rw [List.map_append, List.map_append, hb, hs]
  have h1 : (b1 ++ s1).map (fun p => p.2) = (b2 ++ s2).map (fun p => p.2) := by
    simpa [List.map_map, Function.comp_def] using congrArg (List.map Prod.snd) hall
  refine ⟨labelFrom 0 ((b1 ++ s1).map (fun p => p.1)), labelFrom 0 ((b2 ++ s2).map (fun p => p.1)),
    (b1 ++ s1).map (fun p => p.2), ?_, ?_, ?_⟩
  · unfold mergeFrom
    simp only [e1, e2, bind, Except.bind]
  · unfold mergeFrom
    simp only [e3, e4, bind, Except.bind, h1]
  · rw [labelFrom_anon, labelFrom_anon]
    congr 1
    simpa [List.map_map, Function.comp_def] using congrArg (List.map Prod.fst) hall

/-- The run from the merged bids on. -/
theorem run_withId {A B : DF} {f : ℕ → ℕ}
    (h : ∀ k, (A[f k]?).map (fun r => r.quantity) = (B[k]?).map (fun r => r.quantity)) (mp : List (List ℕ))
    (tm : TransactionManager) :
    (splitTransactions tm A (mp.map (List.map f))).map (fun m => m.trans) =
      (splitTransactions tm B mp).map (fun m => m.trans.map (fun t => { t with bid := f t.bid })) := by
  unfold splitTransactions
  rw [splitAll_withId h]
  cases splitAll B mp tm.getDf with
  | error e => rfl
  | ok ts => simp [Except.map, bind, Except.bind]

end PyMarket
