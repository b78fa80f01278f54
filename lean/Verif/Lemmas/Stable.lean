import Verif.Lemmas.HuangClear

/-! # Stable sorting, and the winners of Huang's auction under it -/

set_option autoImplicit false

namespace PyMarket

/-- The sort leaves rows with equal prices in the order of the table. (pymarket calls
`sort_values('price', …)` without `kind`, `/repo/pymarket/bids/demand_curves.py:71,145` and `/repo/pymarket/mechanisms/huang_auction.py:154-157`, which numpy
documents as not stable; it is stable where numpy falls back to insertion sort.) -/
def Spec.Stable (S : Sorter) : Prop := ∀ l : List ℚ,
  (S.asc l).Pairwise (fun i j => l.getD i 0 = l.getD j 0 → i < j) ∧
  (S.desc l).Pairwise (fun i j => l.getD i 0 = l.getD j 0 → i < j)

open Spec

private theorem insertionSort_stable {key : ℕ → ℚ} {le : ℕ → ℕ → Prop} [DecidableRel le]
    (hle : ∀ i j, key i = key j → le i j) :
    ∀ l : List ℕ, l.Pairwise (· < ·) →
      (l.insertionSort le).Pairwise (fun i j => key i = key j → i < j) := by
  have ins : ∀ (a : ℕ) (l : List ℕ), (∀ b ∈ l, a < b) →
      l.Pairwise (fun i j => key i = key j → i < j) →
      (l.orderedInsert le a).Pairwise (fun i j => key i = key j → i < j) := by
    intro a l
    induction l with
    | nil => intro _ _; simp
    | cons b l ih =>
      intro ha hl
      rw [List.orderedInsert_cons]
      split
      · rw [List.pairwise_cons]
        exact ⟨fun x hx _ => ha x hx, hl⟩
      · rename_i hn
        rw [List.pairwise_cons] at hl ⊢
        refine ⟨?_, ih (fun x hx => ha x (List.mem_cons_of_mem _ hx)) hl.2⟩
        intro x hx he
        rw [List.mem_orderedInsert] at hx
        rcases hx with rfl | hx
        · exact absurd (hle _ _ he.symm) hn
        · exact hl.1 x hx he
  intro l
  induction l with
  | nil => intro _; simp
  | cons a l ih =>
    intro hl
    rw [List.pairwise_cons] at hl
    rw [List.insertionSort_cons]
    apply ins a _ _ (ih hl.2)
    intro b hb
    exact hl.1 b ((List.perm_insertionSort le l).mem_iff.mp hb)

theorem stableSorter_stable : Stable stableSorter := by
  intro l
  constructor
  · exact insertionSort_stable (key := fun i => l.getD i 0) (fun i j h => h.le) _
      List.pairwise_lt_range
  · exact insertionSort_stable (key := fun i => l.getD i 0) (fun i j h => h.ge) _
      List.pairwise_lt_range

theorem takeIdx_pairwise {df : DF} {P : Row → Row → Prop} {is : List ℕ}
    (h : is.Pairwise (fun i j => ∀ a b, df[i]? = some a → df[j]? = some b → P a b)) :
    (takeIdx df is).Pairwise P := by
  unfold takeIdx
  induction is with
  | nil => simp
  | cons i is ih =>
    rw [List.pairwise_cons] at h
    rw [List.filterMap_cons]
    cases hi : df[i]? with
    | none => exact ih h.2
    | some v =>
      simp only [List.pairwise_cons]
      refine ⟨?_, ih h.2⟩
      intro w hw
      rw [List.mem_filterMap] at hw
      obtain ⟨j, hj, hjw⟩ := hw
      exact h.1 j hj v w hi hjw

private theorem takeIdx_ties {l : DF} (hl : l.Pairwise (fun a b => a.label < b.label)) {is : List ℕ}
    (h : is.Pairwise (fun i j => (l.map (fun r => r.price)).getD i 0 =
      (l.map (fun r => r.price)).getD j 0 → i < j)) :
    (takeIdx l is).Pairwise (fun a b => a.price = b.price → a.label < b.label) := by
  apply takeIdx_pairwise
  apply h.imp
  intro i j hij a b ha hb he
  obtain ⟨h1, h2⟩ := List.getElem?_eq_some_iff.mp ha
  obtain ⟨h3, h4⟩ := List.getElem?_eq_some_iff.mp hb
  have : i < j := by
    apply hij
    simp [List.getD_eq_getElem?_getD, ha, hb, he]
  have := List.pairwise_iff_getElem.mp hl i j h1 h3 this
  rwa [h2, h4] at this

theorem table_pairwise {df : DF} (ht : IsTable df) : df.Pairwise (fun a b => a.label < b.label) := by
  rw [← List.pairwise_map (f := fun r : Row => r.label) (R := (· < ·))]
  rw [show df.map (fun r => r.label) = List.range df.length from ht]
  exact List.pairwise_lt_range

/-- Better price first, and the earlier bid first among equal prices. -/
def BuyBefore (a b : Row) : Prop := b.price ≤ a.price ∧ (a.price = b.price → a.label < b.label)

def SellBefore (a b : Row) : Prop := a.price ≤ b.price ∧ (a.price = b.price → a.label < b.label)

theorem sortDesc_stable {S : Sorter} (hS : Stable S) {df : DF} (ht : IsTable df) :
    (sortDesc S (buys df)).Pairwise BuyBefore :=
  (sortDesc_sorted S (buys df)).and
    (takeIdx_ties ((table_pairwise ht).sublist (buys_sublist df)) (hS _).2)

theorem sortAsc_stable {S : Sorter} (hS : Stable S) {df : DF} (ht : IsTable df) :
    (sortAsc S (sells df)).Pairwise SellBefore :=
  (sortAsc_sorted S (sells df)).and
    (takeIdx_ties ((table_pairwise ht).sublist (sells_sublist df)) (hS _).1)

/-- Without bid `i`, both books are sorted alike. -/
theorem sortDesc_others {S : Sorter} (hS : Stable S) {df df' : DF} {i : ℕ} {p : ℚ}
    (hR : Repriced i p df df') :
    (sortDesc S (buys df)).filter (fun a => a.label != i) =
      (sortDesc S (buys df')).filter (fun a => a.label != i) := by
  have hp : ((sortDesc S (buys df)).filter (fun a => a.label != i)).Perm
      ((sortDesc S (buys df')).filter (fun a => a.label != i)) := by
    refine ((sortDesc_perm S _).filter _).trans (List.Perm.trans ?_ ((sortDesc_perm S _).filter _).symm)
    apply List.Perm.of_eq
    unfold buys
    rw [List.filter_filter, List.filter_filter, hR.eq]
    refine (filter_map_fix ?_).symm
    intro a _
    by_cases he : a.label = i
    · right; simp [he]
    · left; simp [he]
  refine List.Perm.eq_of_pairwise ?_ ((sortDesc_stable hS hR.table).filter _)
    ((sortDesc_stable hS hR.table').filter _) hp
  intro a b _ _ h1 h2
  have he := le_antisymm h2.1 h1.1
  exact absurd (h1.2 he) (not_lt.mpr (h2.2 he.symm).le)

theorem sortAsc_others {S : Sorter} (hS : Stable S) {df df' : DF} {i : ℕ} {p : ℚ}
    (hR : Repriced i p df df') :
    (sortAsc S (sells df)).filter (fun a => a.label != i) =
      (sortAsc S (sells df')).filter (fun a => a.label != i) := by
  have hp : ((sortAsc S (sells df)).filter (fun a => a.label != i)).Perm
      ((sortAsc S (sells df')).filter (fun a => a.label != i)) := by
    refine ((sortAsc_perm S _).filter _).trans (List.Perm.trans ?_ ((sortAsc_perm S _).filter _).symm)
    apply List.Perm.of_eq
    unfold sells
    rw [List.filter_filter, List.filter_filter, hR.eq]
    refine (filter_map_fix ?_).symm
    intro a _
    by_cases he : a.label = i
    · right; simp [he]
    · left; simp [he]
  refine List.Perm.eq_of_pairwise ?_ ((sortAsc_stable hS hR.table).filter _)
    ((sortAsc_stable hS hR.table').filter _) hp
  intro a b _ _ h1 h2
  have he := le_antisymm h1.1 h2.1
  exact absurd (h1.2 he) (not_lt.mpr (h2.2 he.symm).le)

theorem qsum_without {l : DF} (hl : (l.map (fun r => r.label)).Nodup) {r : Row} (hr : r ∈ l) :
    qsum l = r.quantity + qsum (l.filter (fun a => a.label != r.label)) := by
  induction l with
  | nil => cases hr
  | cons a l ih =>
    rw [List.map_cons, List.nodup_cons] at hl
    rcases List.mem_cons.mp hr with rfl | hr
    · rw [List.filter_cons_of_neg (by simp), List.filter_eq_self.mpr, qsum_cons]
      intro b hb
      simp only [bne_iff_ne, ne_eq]
      intro he
      exact hl.1 (List.mem_map.mpr ⟨b, hb, he⟩)
    · have hne : a.label ≠ r.label := fun he => hl.1 (List.mem_map.mpr ⟨r, hr, he.symm⟩)
      rw [List.filter_cons_of_pos (by simpa using hne), qsum_cons, qsum_cons, ih hl.2 hr]
      ring

/-- Two lists that differ in one row only, which is in front of both cuts: the other rows in front of the
first cut are in front of the second one. -/
theorem take_kept {L L' : DF} {k k' : ℕ} {x : ℚ} {r r' m : Row}
    (he : L.filter (fun a => a.label != r.label) = L'.filter (fun a => a.label != r.label))
    (hl : (L.map (fun r => r.label)).Nodup) (hl' : (L'.map (fun r => r.label)).Nodup)
    (hq : ∀ a ∈ L, 0 ≤ a.quantity)
    (hr : r ∈ L.take k) (hr' : r' ∈ L'.take k') (hlab : r'.label = r.label)
    (hqr : r'.quantity = r.quantity) (hm : L'[k']? = some m)
    (hlt : qsum (L.take k) < x) (hcov : x ≤ qsum (L'.take k') + m.quantity) :
    ∀ a ∈ L.take k, a.label ≠ r.label → a ∈ L'.take k' := by
  intro a ha hne
  have haf : a ∈ (L.take k).filter (fun a => a.label != r.label) :=
    List.mem_filter.mpr ⟨ha, by simpa using hne⟩
  obtain ⟨hk, hmk⟩ := List.getElem?_eq_some_iff.mp hm
  have hdrop : L'.drop k' = m :: L'.drop (k' + 1) := by
    rw [List.drop_eq_getElem_cons hk, hmk]
  have hmr : m.label ≠ r.label := by
    intro h
    have hn := hl'
    rw [← List.take_append_drop k' L', List.map_append, List.nodup_append] at hn
    refine hn.2.2 r'.label (List.mem_map.mpr ⟨r', hr', rfl⟩) m.label
      (List.mem_map.mpr ⟨m, by rw [hdrop]; exact List.mem_cons_self, rfl⟩) ?_
    rw [hlab, h]
  rw [← List.take_append_drop k L, ← List.take_append_drop k' L', List.filter_append,
    List.filter_append, hdrop, List.filter_cons_of_pos (by simpa using hmr)] at he
  rcases List.append_eq_append_iff.mp he with ⟨as, h1, _⟩ | ⟨as, h1, h2⟩
  · have : a ∈ (L'.take k').filter (fun a => a.label != r.label) := by
      rw [h1]; exact List.mem_append_left _ haf
    exact (List.mem_filter.mp this).1
  · cases as with
    | nil =>
      rw [List.append_nil] at h1
      rw [h1] at haf
      exact (List.mem_filter.mp haf).1
    | cons b as =>
      exfalso
      rw [List.cons_append, List.cons.injEq] at h2
      obtain ⟨rfl, _⟩ := h2
      have e1 := qsum_without (hl.sublist ((List.take_sublist k L).map _)) hr
      have e2 := qsum_without (hl'.sublist ((List.take_sublist k' L').map _)) hr'
      rw [hlab] at e2
      rw [h1, qsum_append, qsum_cons] at e1
      have hpos : 0 ≤ qsum as := by
        apply qsum_nonneg
        intro c hc
        have : c ∈ (L.take k).filter (fun a => a.label != r.label) := by
          rw [h1]; exact List.mem_append_right _ (List.mem_cons_of_mem _ hc)
        exact hq c (List.mem_of_mem_take (List.mem_filter.mp this).1)
      linarith

private theorem side_nodup {df l : DF} (ht : IsTable df) (h : ∃ l', l'.Sublist df ∧ l.Perm l') :
    (l.map (fun r => r.label)).Nodup := by
  obtain ⟨l', h1, h2⟩ := h
  exact (h2.map _).nodup_iff.mpr (ht.nodup.sublist (h1.map _))

/-- With a stable sort, a buyer who wins with two reports at the same crossing wins beside the same
buyers. -/
theorem huangB_kept_stable {S : Sorter} (hS : Stable S) {df df' : DF} {i : ℕ} {p x : ℚ}
    (hR : Repriced i p df df') (hn : NonNeg df) (hn' : NonNeg df') (hc' : Crossing S df' x)
    {r r' : Row} (hr : r ∈ huangB S df x) (hr' : r' ∈ huangB S df' x) (hl : r.label = i)
    (hl' : r'.label = i) (hq : r'.quantity = r.quantity) :
    ∀ a ∈ huangB S df x, a.label ≠ i → a ∈ huangB S df' x := by
  obtain ⟨m, hm, _⟩ := hc'.marginal_buy hn'
  have hcov := stepIdx_cover x 0 _ hm
  rw [zero_add] at hcov
  subst hl
  exact take_kept (sortDesc_others hS hR)
    (side_nodup hR.table ⟨_, buys_sublist df, sortDesc_perm S _⟩)
    (side_nodup hR.table' ⟨_, buys_sublist df', sortDesc_perm S _⟩)
    (fun a ha => (hn a (mem_buys.mp (mem_sortDesc.mp ha)).1).1)
    hr hr' hl' hq hm (qsum_huangB_lt hn (List.ne_nil_of_mem hr)) hcov

/-- The same for the sellers. -/
theorem huangA_kept_stable {S : Sorter} (hS : Stable S) {df df' : DF} {i : ℕ} {p x : ℚ}
    (hR : Repriced i p df df') (hn : NonNeg df) (hc' : Crossing S df' x)
    {r r' : Row} (hr : r ∈ huangA S df x) (hr' : r' ∈ huangA S df' x) (hl : r.label = i)
    (hl' : r'.label = i) (hq : r'.quantity = r.quantity) :
    ∀ a ∈ huangA S df x, a.label ≠ i → a ∈ huangA S df' x := by
  obtain ⟨m, hm, _⟩ := hc'.marginal_sell
  have hcov := stepIdx_cover x 0 _ hm
  rw [zero_add] at hcov
  subst hl
  exact take_kept (sortAsc_others hS hR)
    (side_nodup hR.table ⟨_, sells_sublist df, sortAsc_perm S _⟩)
    (side_nodup hR.table' ⟨_, sells_sublist df', sortAsc_perm S _⟩)
    (fun a ha => (hn a (mem_sells.mp (mem_sortAsc.mp ha)).1).1)
    hr hr' hl' hq hm (qsum_huangA_lt hn (List.ne_nil_of_mem hr)) hcov

end PyMarket
