import Verif.Lemmas.MudaIndex
import Verif.Props.Muda

/-! # C32, exactly: when MUDA raises `IndexError` -/

set_option autoImplicit false

namespace PyMarket

open Spec

/-- The same book with a user of its own for every bid, numbered like the bid. -/
def Spec.byBid (df : DF) : DF := df.map (fun r => { r with user := r.label })

/-- The ids of all users that trade on the long side of a half are positions of an array with one
entry per user; as usual in Python negative positions count from the end. -/
def Spec.Addressable (df : DF) (left right : List ℕ) (pl pr : Val) (ts : List Transaction) : Prop :=
  ∀ u : ℤ, ((∃ p, pr = .fin p ∧ TradesLong (half df left) p (tradesIn left ts) u) ∨
      (∃ p, pl = .fin p ∧ TradesLong (half df right) p (tradesIn right ts) u)) →
    -((df.map (fun r => r.user)).dedup.length : ℤ) ≤ u ∧
      u < ((df.map (fun r => r.user)).dedup.length : ℤ)

theorem tradesIn_append_left {left : List ℕ} {tl tr : List Transaction}
    (hl : ∀ t ∈ tl, t.bid ∈ left) (hr : ∀ t ∈ tr, t.bid ∉ left) : tradesIn left (tl ++ tr) = tl := by
  unfold tradesIn
  have hnil : tr.filter (fun t => decide (t.bid ∈ left)) = [] :=
    List.filter_eq_nil_iff.mpr (fun t ht => by simpa using hr t ht)
  rw [List.filter_append, List.filter_eq_self.mpr (fun t ht => decide_eq_true (hl t ht)), hnil,
    List.append_nil]

theorem tradesIn_append_right {right : List ℕ} {tl tr : List Transaction}
    (hl : ∀ t ∈ tl, t.bid ∉ right) (hr : ∀ t ∈ tr, t.bid ∈ right) :
    tradesIn right (tl ++ tr) = tr := by
  unfold tradesIn
  have hnil : tl.filter (fun t => decide (t.bid ∈ right)) = [] :=
    List.filter_eq_nil_iff.mpr (fun t ht => by simpa using hl t ht)
  rw [List.filter_append, List.filter_eq_self.mpr (fun t ht => decide_eq_true (hr t ht)), hnil,
    List.nil_append]

theorem solveSide_bids {S : Sorter} {df : DF} (ht : IsTable df) (hq : ∀ r ∈ df, 0 ≤ r.quantity)
    {ids : List ℕ} {v : Val} {fees f : List ℚ} {tm : TransactionManager}
    (h : solveSide S (half df ids) v fees = .ok (tm, f)) : ∀ t ∈ tm.trans, t.bid ∈ ids := by
  rcases solveSide_trades S (half_nodup ht ids) (fun r h => hq r (half_sub r h)) h with
    ⟨e, _⟩ | ⟨p, _, e⟩
  · rw [e]; intro t h; cases h
  · intro t h
    obtain ⟨r, h1, h2, _⟩ := e.mem t h
    rw [h2]; exact half_label h1

theorem byBid_table {df : DF} (ht : IsTable df) : IsTable (byBid df) := by
  unfold IsTable byBid at *
  rw [List.map_map, List.length_map]
  exact ht

theorem byBid_users {df : DF} (ht : IsTable df) :
    ((byBid df).map (fun r => r.user)).dedup.length = df.length := by
  have : ((byBid df).map (fun r => r.user)) = (df.map (fun r => r.label)).map (fun n : ℕ => (n : ℤ)) := by
    unfold byBid
    rw [List.map_map, List.map_map]
    rfl
  rw [this, List.Nodup.dedup (ht.nodup.map (fun a b h => by simpa using h)), List.length_map, List.length_map]

theorem byBid_noTwin {df : DF} (ht : IsTable df) : ¬ HasTwin (byBid df) := by
  rintro ⟨i, j, ri, rj, hij, hi, hj, hu, _, _⟩
  unfold byBid at hi hj
  rw [List.getElem?_map, Option.map_eq_some_iff] at hi hj
  obtain ⟨r, hr, rfl⟩ := hi
  obtain ⟨r', hr', rfl⟩ := hj
  have h1 := ht.label hr
  have h2 := ht.label hr'
  have h3 : (r.label : ℤ) = (r'.label : ℤ) := hu
  omega

theorem muda_error {S : Sorter} {coin : ℕ → Bool} {df : DF} (ht : IsTable df)
    (hc : checkEqualPriceRaises df = false) {pl pr : Val} {e : PyErr}
    (hpl : findCompetitivePrice S (half df ((List.range df.length).filter coin)) = .ok pl)
    (hpr : findCompetitivePrice S (half df ((List.range df.length).filter (fun i => !coin i))) = .ok pr)
    (h : solveSide S (half df ((List.range df.length).filter coin)) pr
        (List.replicate (df.map (fun r => r.user)).dedup.length (0 : ℚ)) = .error e ∨
      ∃ tl f1, solveSide S (half df ((List.range df.length).filter coin)) pr
        (List.replicate (df.map (fun r => r.user)).dedup.length (0 : ℚ)) = .ok (tl, f1) ∧
        solveSide S (half df ((List.range df.length).filter (fun i => !coin i))) pl f1 = .error e) :
    muda S coin df = .error e := by
  unfold muda
  rw [hc, if_neg (by simp), mudaBody_halves ht]
  rcases h with h | ⟨tl, f1, h1, h2⟩
  · simp only [bind, Except.bind, hpl, hpr, h]
  · simp only [bind, Except.bind, hpl, hpr, h1, h2]

/-- **C32, exactly.** `muda` always returns a result when every bid has a user of its own, numbered
like the bid. For any other user ids, provided the book is not rejected, it makes the same trades in
the same halves at the same prices if all users trading on the long side have ids that are positions
of the fee array, and raises `IndexError` otherwise. So `C32_total_partial` is not far from the best
possible: ids outside the array are only harmless when they never trade on the long side. -/
theorem C32_exact (S : Sorter) (coin : ℕ → Bool) (df : DF) (ht : IsTable df)
    (hq : ∀ r ∈ df, 0 ≤ r.quantity) (htwin : ¬ HasTwin df) :
    ∃ tm left right pl pr fees₀, muda S coin (byBid df) = .ok (tm, .muda left right pl pr fees₀) ∧
      (Addressable df left right pl pr tm.trans → ∃ fees,
        muda S coin df = .ok (tm, .muda left right pl pr fees) ∧
        fees.length = (df.map (fun r => r.user)).dedup.length) ∧
      (¬ Addressable df left right pl pr tm.trans → muda S coin df = .error .indexError) := by
  have hc : ∀ d : DF, ¬ HasTwin d → checkEqualPriceRaises d = false := by
    intro d hd
    rw [← Bool.not_eq_true]
    exact fun h => hd ((checkEqualPrice_iff d).mp h)
  have hh : ∀ ids, ∃ v, findCompetitivePrice S (half df ids) = .ok v := by
    intro ids
    obtain ⟨i, hi⟩ := intersect_total S (df := half df ids) (fun r h => hq r (half_sub r h)) (1 / 2)
    exact ⟨i.v, by unfold findCompetitivePrice; rw [hi]; rfl⟩
  obtain ⟨pl, hpl⟩ := hh ((List.range df.length).filter coin)
  obtain ⟨pr, hpr⟩ := hh ((List.range df.length).filter (fun i => !coin i))
  have hlen : (byBid df).length = df.length := List.length_map _
  have ht0 := byBid_table ht
  have hq0 : ∀ r ∈ byBid df, 0 ≤ r.quantity := by
    intro r hr
    obtain ⟨r', hr', rfl⟩ := List.mem_map.mp hr
    exact hq r' hr'
  have hu0 : ∀ r ∈ byBid df, 0 ≤ r.user ∧ r.user < (df.length : ℤ) := by
    intro r hr
    obtain ⟨r', hr', rfl⟩ := List.mem_map.mp hr
    have := ht.label_lt hr'
    exact ⟨Int.natCast_nonneg _, Int.ofNat_lt.mpr this⟩
  have hpl0 : findCompetitivePrice S (half (byBid df) ((List.range (byBid df).length).filter coin)) =
      .ok pl := by
    rw [hlen]
    exact (congrArg _ (half_own df _)).trans ((findCompetitivePrice_own S _).trans hpl)
  have hpr0 : findCompetitivePrice S
      (half (byBid df) ((List.range (byBid df).length).filter (fun i => !coin i))) = .ok pr := by
    rw [hlen]
    exact (congrArg _ (half_own df _)).trans ((findCompetitivePrice_own S _).trans hpr)
  obtain ⟨tl, f1, hl, f1'⟩ := solveSide_fees S
    (half_nodup ht0 ((List.range (byBid df).length).filter coin))
    (fun r h => hq0 r (half_sub r h)) pr
    (fees := List.replicate ((byBid df).map (fun r => r.user)).dedup.length (0 : ℚ))
    (by rw [List.length_replicate, byBid_users ht]; exact fun r h => hu0 r (half_sub r h))
  obtain ⟨tr, f2, hr, _⟩ := solveSide_fees S
    (half_nodup ht0 ((List.range (byBid df).length).filter (fun i => !coin i)))
    (fun r h => hq0 r (half_sub r h)) pl (fees := f1)
    (by rw [f1'.length, List.length_replicate, byBid_users ht]
        exact fun r h => hu0 r (half_sub r h))
  have hrun := muda_ok ht0 (hc _ (byBid_noTwin ht)) hpl0 hpr0 hl hr
  have hbl := solveSide_bids ht0 hq0 hl
  have hbr := solveSide_bids ht0 hq0 hr
  rw [hlen] at hl hr hrun hbl hbr
  refine ⟨_, _, _, _, _, _, hrun, ?_⟩
  have hl' : solveSide S ((half df ((List.range df.length).filter coin)).map ownRow) pr
      (List.replicate ((byBid df).map (fun r => r.user)).dedup.length (0 : ℚ)) = .ok (tl, f1) := by
    rw [← half_own]; exact hl
  have hr' : solveSide S ((half df ((List.range df.length).filter (fun i => !coin i))).map ownRow) pl
      f1 = .ok (tr, f2) := by
    rw [← half_own]; exact hr
  have xl : tradesIn ((List.range df.length).filter coin) (tl.merge tr).trans = tl.trans := by
    rw [TransactionManager.merge_trans]
    refine tradesIn_append_left hbl ?_
    intro t h h'
    have := (List.mem_filter.mp (hbr t h)).2
    rw [(List.mem_filter.mp h').2] at this
    cases this
  have xr : tradesIn ((List.range df.length).filter (fun i => !coin i)) (tl.merge tr).trans =
      tr.trans := by
    rw [TransactionManager.merge_trans]
    refine tradesIn_append_right ?_ hbr
    intro t h h'
    have := (List.mem_filter.mp h').2
    rw [(List.mem_filter.mp (hbl t h)).2] at this
    cases this
  unfold Addressable
  rw [xl, xr]
  generalize hn : (df.map (fun r => r.user)).dedup.length = n
  obtain ⟨l1, l2⟩ := solveSide_exact (half_nodup ht _) (fun r h => hq r (half_sub r h)) hl'
    (List.replicate n 0)
  rw [List.length_replicate] at l1 l2
  constructor
  · intro hA
    obtain ⟨f, ef, hf⟩ := l1 (fun p hp u htl => hA u (Or.inl ⟨p, hp, htl⟩))
    obtain ⟨f', ef', hf'⟩ := (solveSide_exact (half_nodup ht _) (fun r h => hq r (half_sub r h)) hr'
      f).1 (by rw [hf]; exact fun p hp u htl => hA u (Or.inr ⟨p, hp, htl⟩))
    exact ⟨f', muda_ok ht (hc df htwin) hpl hpr (by rw [hn]; exact ef) ef', hf'.trans hf⟩
  · intro hA
    apply muda_error ht (hc df htwin) hpl hpr
    rw [hn]
    by_cases hL : ∀ p, pr = .fin p → ∀ u,
        TradesLong (half df ((List.range df.length).filter coin)) p tl.trans u → -(n : ℤ) ≤ u ∧ u < n
    · right
      obtain ⟨f, ef, hf⟩ := l1 hL
      refine ⟨tl, f, ef, ?_⟩
      push Not at hA
      obtain ⟨u, hu, hbad⟩ := hA
      have hbad' : ¬ (-(n : ℤ) ≤ u ∧ u < n) := fun hh => absurd hh.2 (not_lt.mpr (hbad hh.1))
      rcases hu with ⟨p, hp, htl⟩ | ⟨p, hp, htl⟩
      · exact absurd (hL p hp u htl) hbad'
      · exact (solveSide_exact (half_nodup ht _) (fun r h => hq r (half_sub r h)) hr' f).2 p u hp htl
          (by rw [hf]; exact hbad')
    · left
      push Not at hL
      obtain ⟨p, hp, u, htl, hbad⟩ := hL
      exact l2 p u hp htl (fun hh => absurd hh.2 (not_lt.mpr (hbad hh.1)))

/-- `gapBook` is a case of the second kind, and one of the first kind is the same book with the user
renamed to `-1` instead of 7: a position of the array, although not one of `0..n-1`. -/
example : IsTable gapBook ∧ NonNeg gapBook ∧
    muda stableSorter (fun i => decide (i < 3)) gapBook = .error .indexError := by
  decide +kernel
example : ∃ o, muda stableSorter (fun i => decide (i < 3))
    (twiceBook.map (fun r => if r.user = 0 then { r with user := -1 } else r)) = .ok o :=
  ⟨(⟨4, twiceTrans⟩, .muda [0, 1, 2] [3, 4, 5] (.fin (11 / 2)) (.fin 7) [0, 0, 0, 5 / 2]), by
    decide +kernel⟩

end PyMarket
