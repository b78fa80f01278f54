import Verif.Spec.MergeMissing
import Verif.Lemmas.Managers
import Verif.Lemmas.Table

/-! # Merging with missing quantities -/

set_option autoImplicit false

namespace PyMarket

open Spec

variable {qty : ℕ → Option ℚ}

/-- A transaction with NaN in the place of the quantity if the bid has none. -/
def overlay (qty : ℕ → Option ℚ) (t : Transaction) : TransQ :=
  { bid := t.bid, quantity := (qty t.bid).map (fun _ => t.quantity), price := t.price, source := t.source,
    active := t.active }

theorem zeroed_sum (qty : ℕ → Option ℚ) (rows : DF) :
    qsum (zeroed qty rows) = (rows.filterMap (fun r => qty r.label)).sum := by
  unfold qsum zeroed
  induction rows with
  | nil => rfl
  | cons r rows ih =>
    rw [List.filterMap_cons]
    simp only [List.map_cons, List.sum_cons] at ih ⊢
    cases h : qty r.label with
    | none => simpa [h] using ih
    | some q => simpa [h] using ih

theorem groupRows_zeroed (qty : ℕ → Option ℚ) (prec : ℕ) (df : DF) (k : ℚ) :
    groupRows prec (zeroed qty df) k = zeroed qty (groupRows prec df k) := by
  unfold groupRows zeroed
  rw [List.filter_map]
  rfl

theorem aggGroupQ_eq (smp : Sampler) (side : Bool) (k : ℚ) (rows : DF) (i : ℤ) :
    aggGroupQ smp qty side k rows i = aggGroup smp side k (zeroed qty rows) i := by
  unfold aggGroupQ aggGroup
  rw [zeroed_sum]
  unfold zeroed
  simp only [List.map_map, Function.comp_def]

theorem aggSideQ_eq (smp : Sampler) (prec : ℕ) (side : Bool) (df : DF) (ks : List ℚ) (i : ℤ) :
    aggSideQ smp qty prec side df ks i = aggSide smp prec side (zeroed qty df) ks i := by
  induction ks generalizing i with
  | nil => rfl
  | cons k ks ih =>
    unfold aggSideQ aggSide
    rw [aggGroupQ_eq, groupRows_zeroed]
    simp only [ih]

theorem mergeSamePriceQ_eq (smp : Sampler) (qty : ℕ → Option ℚ) (df : DF) :
    mergeSamePriceQ smp qty df = mergeSamePrice smp (zeroed qty df) := by
  have hb : buys (zeroed qty df) = zeroed qty (buys df) := by
    unfold buys zeroed
    rw [List.filter_map]
    rfl
  have hs : sells (zeroed qty df) = zeroed qty (sells df) := by
    unfold sells zeroed
    rw [List.filter_map]
    rfl
  have hk : ∀ l : DF, groupKeys 5 (zeroed qty l) = groupKeys 5 l := by
    intro l
    unfold groupKeys zeroed
    rw [List.map_map]
    rfl
  have hu : maxUserSucc (zeroed qty df) = maxUserSucc df := by
    unfold maxUserSucc zeroed
    rw [List.map_map]
    rfl
  unfold mergeSamePriceQ mergeSamePrice
  simp only [hb, hs, hk, hu, aggSideQ_eq]

theorem zip_overlay (t : Transaction) (M : DF) (Q : ℚ) :
    (List.zip (M.map (fun r => r.label)) M).map (fun p =>
        ({ bid := p.1, quantity := (qty p.2.label).map (fun q => t.quantity * (q / Q)), price := t.price,
           source := t.source, active := t.active } : TransQ)) =
      ((List.zip (M.map (fun r => r.label)) (zeroed qty M)).map (fun p =>
        ({ t with bid := p.1, quantity := t.quantity * (p.2.quantity / Q) } : Transaction))).map (overlay qty) := by
  unfold zeroed
  induction M with
  | nil => rfl
  | cons r M ih =>
    simp only [List.map_cons, List.zip_cons_cons, ih]
    congr 1
    unfold overlay
    cases h : qty r.label with
    | none => simp [h]
    | some q => simp [h]

theorem splitOneQ_eq {df : DF} (ht : IsTable df) (mp : List (List ℕ)) (t : Transaction) :
    splitOneQ qty df mp t = (splitOne (zeroed qty df) mp t).map (List.map (overlay qty)) := by
  unfold splitOneQ splitOne
  cases hm : mp[t.bid]? with
  | none => rfl
  | some rows =>
    have hmem : rows.filterMap (fun i => (zeroed qty df)[i]?) = zeroed qty (rows.filterMap (fun i => df[i]?)) := by
      unfold zeroed
      rw [List.map_filterMap]
      simp only [List.getElem?_map]
    have hl : (zeroed qty (rows.filterMap (fun i => df[i]?))).length = (rows.filterMap (fun i => df[i]?)).length := by
      unfold zeroed
      rw [List.length_map]
    simp only [hmem, hl, zeroed_sum]
    split
    · rfl
    · rename_i hlen
      split
      · rfl
      · simp only [Except.map]
        congr 1
        have hlab : ∀ (as : List ℕ), (as.filterMap (fun i => df[i]?)).length = as.length →
            (as.filterMap (fun i => df[i]?)).map (fun r => r.label) = as := by
          intro as
          induction as with
          | nil => intro _; rfl
          | cons a as ih =>
            intro h
            rw [List.filterMap_cons] at h ⊢
            cases ha : df[a]? with
            | none =>
              rw [ha] at h
              have := List.length_filterMap_le (fun i => df[i]?) as
              simp only [List.length_cons] at h
              omega
            | some r =>
              rw [ha] at h
              simp only [List.length_cons, Nat.add_right_cancel_iff] at h
              have hr : r.label = a := by
                have := congrArg (fun l => l[a]?) ht
                simp only [List.getElem?_map, ha, Option.map_some] at this
                rw [List.getElem?_range (List.getElem?_eq_some_iff.mp ha).1] at this
                exact Option.some.inj this
              simp only [List.map_cons, ih h, hr]
        simp only [ne_eq, not_not] at hlen
        have h1 := hlab rows hlen
        have h2 := zip_overlay (qty := qty) t (rows.filterMap (fun i => df[i]?))
          ((rows.filterMap (fun i => df[i]?)).filterMap (fun r => qty r.label)).sum
        rw [h1] at h2
        exact h2

theorem splitAllQ_eq {df : DF} (ht : IsTable df) (mp : List (List ℕ)) (ts : List Transaction) :
    splitAllQ qty df mp ts = (splitAll (zeroed qty df) mp ts).map (List.map (overlay qty)) := by
  induction ts with
  | nil => rfl
  | cons t ts ih =>
    simp only [splitAllQ, splitAll, splitOneQ_eq ht, ih, bind, Except.bind]
    cases splitOne (zeroed qty df) mp t with
    | error e => rfl
    | ok a =>
      simp only [Except.map]
      cases splitAll (zeroed qty df) mp ts with
      | error e => rfl
      | ok b => simp

/-- The run is that of the book with zeros, with NaN in the transactions of the bids without a quantity. -/
theorem mechanismQ_eq (smp : Sampler) (algo : Algo) {df : DF} (ht : IsTable df) :
    mechanismQ smp qty algo df =
      (mechanism smp true algo (zeroed qty df)).map (fun o => (o.1.trans.map (overlay qty), o.2)) := by
  unfold mechanismQ mechanism
  rw [mergeSamePriceQ_eq, if_pos rfl]
  cases mergeSamePrice smp (zeroed qty df) with
  | error e => rfl
  | ok a =>
    simp only [bind, Except.bind]
    cases mechRun algo a.1 with
    | error e => rfl
    | ok o =>
      simp only [splitAllQ_eq ht, splitTransactions, bind, Except.bind]
      cases splitAll (zeroed qty df) a.2 o.1.getDf with
      | error e => rfl
      | ok ts => simp [Except.map]

end PyMarket
