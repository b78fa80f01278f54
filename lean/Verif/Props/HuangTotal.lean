import Verif.Props.Huang
import Verif.Props.Datasets

/-! # C48: Huang's auction returns numbers on every valid book -/

set_option autoImplicit false

namespace PyMarket

open Spec

theorem splitAll_error {bids : DF} {mp : List (List ℕ)} {ts : List Transaction} {e : PyErr}
    (h : ∀ t ∈ ts, ∃ ids, mp[t.bid]? = some ids ∧ ∀ i ∈ ids, i < bids.length)
    (he : splitAll bids mp ts = .error e) : e = .nanQuantity := by
  induction ts with
  | nil => cases he
  | cons t ts ih =>
    obtain ⟨ids, hm, hin⟩ := h t List.mem_cons_self
    unfold splitAll at he
    cases h1 : splitOne bids mp t with
    | error e' =>
      have : e' = .nanQuantity := by
        unfold splitOne at h1
        rw [hm] at h1
        simp only [members_length bids ids hin, ne_eq, not_true_eq_false, if_false] at h1
        split at h1
        · cases h1; rfl
        · cases h1
      simp only [h1, bind, Except.bind, Except.error.injEq] at he
      rw [← he, this]
    | ok r =>
      cases h2 : splitAll bids mp ts with
      | error e' =>
        simp only [h1, h2, bind, Except.bind, Except.error.injEq] at he
        exact ih (fun t' ht' => h t' (List.mem_cons_of_mem _ ht')) (by rw [h2, he])
      | ok rs => simp only [h1, h2, bind, Except.bind] at he; cases he

/-- **C48**, the part about exceptions: on a book with non-negative quantities and prices
`Market.run('huang')` never raises. (`nanQuantity` is the model's mark for a `NaN` in a
transaction; the real run goes on.) -/
theorem C48_no_exception (S : Sorter) (smp : Sampler) (df : DF) (ht : IsTable df) (h : NonNeg df)
    (e : PyErr) (he : runAlgo S smp .huang df = .error e) : e = .nanQuantity := by
  obtain ⟨nb, mp, h1, h2, h3, h4, h5, -⟩ := C34_merge_partition smp df 5 ht
  have hnb : NonNeg nb := by
    intro row hrow
    obtain ⟨k, hk⟩ := List.getElem?_of_mem hrow
    have hkl : k < mp.length := by
      rw [h3]; exact (List.getElem?_eq_some_iff.mp hk).1
    obtain ⟨g1, g2, g3⟩ := h5 k row _ hk (List.getElem?_eq_getElem hkl)
    constructor
    · rw [g2]
      apply List.sum_nonneg
      intro q hq
      obtain ⟨i, hi, rfl⟩ := List.mem_map.mp hq
      obtain ⟨r, hr, _⟩ := g3 i hi
      rw [qtyOf_some hr]
      exact (h r (List.mem_of_getElem? hr)).1
    · obtain ⟨i, hi⟩ := List.exists_mem_of_ne_nil _ g1
      obtain ⟨r, hr, _, hround⟩ := g3 i hi
      rw [← isRounded_unique (npRound_isRounded 5 _) hround]
      exact npRound_nonneg 5 (h r (List.mem_of_getElem? hr)).2
  have hsplit : ∀ tm : TransactionManager, (∀ t ∈ tm.trans, t.bid < nb.length) → ∀ e,
      splitTransactions tm df mp = .error e → e = .nanQuantity := by
    intro tm htm e he
    unfold splitTransactions at he
    cases hs : splitAll df mp tm.getDf with
    | ok r => simp only [hs, bind, Except.bind] at he; cases he
    | error e' =>
      simp only [hs, bind, Except.bind, Except.error.injEq] at he
      rw [← he]
      apply splitAll_error _ hs
      intro t ht'
      have hk := htm t ht'
      have hkl : t.bid < mp.length := by rw [h3]; exact hk
      refine ⟨_, List.getElem?_eq_getElem hkl, ?_⟩
      intro i hi
      obtain ⟨r, hr, _⟩ := (h5 t.bid _ _ (List.getElem?_eq_getElem hk)
        (List.getElem?_eq_getElem hkl)).2.2 i hi
      exact (List.getElem?_eq_some_iff.mp hr).1
  have hrun : ∃ tm ex, mechRun (huangAuction S) nb = .ok (tm, ex) ∧
      ∀ t ∈ tm.trans, t.bid < nb.length := by
    unfold mechRun
    simp only
    split
    · rcases huang_direct S h2 hnb with h' | ⟨tm, ps, pb, q, h', hO, -⟩
      · exact ⟨_, _, h', by intro t ht; cases ht⟩
      · exact ⟨_, _, h', fun t ht => (hO.trade t ht).id_lt⟩
    · exact ⟨_, _, rfl, by intro t ht; cases ht⟩
  obtain ⟨tm, ex, hr, htm⟩ := hrun
  simp only [runAlgo, mechanism, if_true, h1, hr, bind, Except.bind] at he
  cases hs : splitTransactions tm df mp with
  | ok r => rw [hs] at he; cases he
  | error e' =>
    rw [hs] at he
    simp only [Except.error.injEq] at he
    rw [← he]
    exact hsplit tm htm e' hs

/-- **C48** (partial). On a book with non-negative quantities and prices in which every bid of
quantity 0 has a companion of positive quantity in its price group, `Market.run('huang')` returns
and all its numbers are proper. Missing: books with a price group of total quantity 0
(`C48_refuted`). -/
theorem C48_total_partial (S : Sorter) (smp : Sampler) (df : DF) (ht : IsTable df)
    (h : GroupPos df) : ∃ tm ex, runAlgo S smp .huang df = .ok (tm, ex) := by
  rcases huang_market S smp ht h with ⟨tm, h1, -⟩ | ⟨tm, ps, pb, q, h1, -⟩
  · exact ⟨_, _, h1⟩
  · exact ⟨_, _, h1⟩

example : IsTable huangBook ∧ GroupPos huangBook ∧
    (runAlgo stableSorter headSampler .huang huangBook).toOption.isSome :=
  ⟨by decide +kernel, Pos.groupPos (by decide +kernel), by decide +kernel⟩

/-- A book with a bid of quantity 0 that still meets the hypothesis: bid 0 shares its price with
bid 1. -/
def zeroShareBook : DF := labelFrom 0
  [⟨0, 10, 0, true, 0, true⟩, ⟨2, 10, 1, true, 0, true⟩, ⟨2, 7, 2, true, 0, true⟩,
   ⟨1, 2, 3, false, 0, true⟩, ⟨3, 3, 4, false, 0, true⟩]

example : GroupPos zeroShareBook := by
  refine ⟨by decide +kernel, ?_⟩
  have pick : ∀ r r' : Row, r'.buying = r.buying → r'.price = r.price → 0 < r'.quantity →
      r' ∈ zeroShareBook → ∃ r' ∈ zeroShareBook, r'.buying = r.buying ∧
        (∃ y, IsRounded 5 r.price y ∧ IsRounded 5 r'.price y) ∧ 0 < r'.quantity := by
    intro r r' h1 h2 h3 h4
    exact ⟨r', h4, h1, ⟨_, npRound_isRounded 5 r.price, by rw [h2]; exact npRound_isRounded 5 _⟩, h3⟩
  intro r hr
  rcases List.mem_cons.mp hr with rfl | hr'
  · exact pick _ ⟨⟨2, 10, 1, true, 0, true⟩, 1⟩ rfl rfl (by norm_num)
      (List.mem_cons_of_mem _ List.mem_cons_self)
  · have : ∀ r ∈ zeroShareBook.tail, 0 < r.quantity := by decide +kernel
    exact pick r r rfl rfl (this r hr') hr

example : runAlgo stableSorter headSampler .huang zeroShareBook = .ok
    (⟨3, [⟨3, 1, 3, -1, false⟩, ⟨0, 0, 7, -1, false⟩, ⟨1, 1, 7, -1, false⟩]⟩,
      .huang ((3 : ℚ) : Ext) ((7 : ℚ) : Ext) 1) := by decide +kernel

/-- A book produced by the bundled generator (3 buyers, 3 sellers): the cheapest seller offers the
quantity 0. -/
def generatedBook : DF :=
  labelFrom 0 (((generate firstChooser 3 3 0 1 (1 / 4)).toOption).getD [])

example : (generate firstChooser 3 3 0 1 (1 / 4)).toOption.isSome ∧ IsTable generatedBook ∧
    NonNeg generatedBook := by decide +kernel

/-- **C48**, refuted for books with bids of quantity 0, even for generated ones: the merged seller of
quantity 0 is in the transaction log and splitting its transaction divides 0 by 0. -/
theorem C48_refuted : ¬ ∀ (S : Sorter) (smp : Sampler) (df : DF), IsTable df → NonNeg df →
    ∃ tm ex, runAlgo S smp .huang df = .ok (tm, ex) := by
  intro h
  obtain ⟨tm, ex, he⟩ := h stableSorter headSampler generatedBook (by decide +kernel)
    (by decide +kernel)
  have : runAlgo stableSorter headSampler .huang generatedBook = .error .nanQuantity := by
    decide +kernel
  rw [this] at he
  cases he

end PyMarket
