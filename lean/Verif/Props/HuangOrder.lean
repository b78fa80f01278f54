import Verif.Lemmas.HuangOutcome
import Verif.Lemmas.Erase
import Verif.Props.Huang

/-! # C47: the order of submission does not matter to Huang's auction -/

set_option autoImplicit false

namespace PyMarket

/-- `df'` is the book `df` submitted in another order: bid `i` of `df` is bid `σ i` of `df'`, with the
same quantity, price and side. -/
structure Spec.Reordered (σ : ℕ → ℕ) (df df' : DF) : Prop where
  length : df'.length = df.length
  inj : ∀ i j, i < df.length → j < df.length → σ i = σ j → i = j
  terms : ∀ i < df.length, ∃ r r', df[i]? = some r ∧ df'[σ i]? = some r' ∧
    r.quantity = r'.quantity ∧ r.price = r'.price ∧ r.buying = r'.buying

open Spec

/-- Quantity, price and side of a bid. -/
def rowTerms (r : Row) : ℚ × ℚ × Bool := (r.quantity, r.price, r.buying)

theorem Spec.Reordered.perm {σ : ℕ → ℕ} {df df' : DF} (h : Reordered σ df df') :
    (df.map rowTerms).Perm (df'.map rowTerms) := by
  have hlt : ∀ i < df.length, σ i < df.length := by
    intro i hi
    obtain ⟨r, r', _, h2, _⟩ := h.terms i hi
    rw [← h.length]
    exact (List.getElem?_eq_some_iff.mp h2).1
  have hnd : ((List.range df.length).map σ).Nodup := by
    rw [List.nodup_map_iff_inj_on List.nodup_range]
    intro i hi j hj hij
    exact h.inj i j (List.mem_range.mp hi) (List.mem_range.mp hj) hij
  have hp : ((List.range df.length).map σ).Perm (List.range df.length) := by
    apply List.Subperm.perm_of_length_le
    · apply List.subperm_of_subset hnd
      intro k hk
      obtain ⟨i, hi, rfl⟩ := List.mem_map.mp hk
      exact List.mem_range.mpr (hlt i (List.mem_range.mp hi))
    · simp
  have e1 : ∀ l : DF, l.map rowTerms =
      (List.range l.length).map (fun i => ((l[i]?).map rowTerms).getD (0, 0, true)) := by
    intro l
    apply List.ext_getElem
    · simp
    · intro i h1 h2
      simp only [List.length_map] at h1
      simp [List.getElem?_eq_getElem h1]
  rw [e1 df, e1 df', h.length]
  have e2 : (List.range df.length).map (fun i => ((df[i]?).map rowTerms).getD (0, 0, true)) =
      ((List.range df.length).map σ).map (fun i => ((df'[i]?).map rowTerms).getD (0, 0, true)) := by
    rw [List.map_map]
    apply List.map_congr_left
    intro i hi
    obtain ⟨r, r', h1, h2, h3, h4, h5⟩ := h.terms i (List.mem_range.mp hi)
    simp only [Function.comp_apply, h1, h2, Option.map_some, Option.getD_some, rowTerms, h3, h4, h5]
  rw [e2]
  exact hp.map _

/-! ## The merged books coincide -/

theorem groupKeys_eq {prec : ℕ} {l l' : DF} (h : (l.map rowTerms).Perm (l'.map rowTerms)) :
    groupKeys prec l = groupKeys prec l' := by
  have hp : (l.map (fun r => npRound prec r.price)).Perm (l'.map (fun r => npRound prec r.price)) := by
    have := h.map (fun x => npRound prec x.2.1)
    rwa [List.map_map, List.map_map] at this
  apply List.Perm.eq_of_pairwise (le := fun a b : ℚ => a < b)
  · intro a b _ _ h1 h2
    exact absurd h1 (lt_asymm h2)
  · exact groupKeys_sorted prec l
  · exact groupKeys_sorted prec l'
  · unfold groupKeys
    exact (List.perm_insertionSort _ _).trans
      ((hp.dedup).trans (List.perm_insertionSort _ _).symm)

theorem qsum_groupRows {prec : ℕ} {l l' : DF} (h : (l.map rowTerms).Perm (l'.map rowTerms)) (k : ℚ) :
    qsum (groupRows prec l k) = qsum (groupRows prec l' k) := by
  have := (h.filter (fun x => npRound prec x.2.1 == k)).map (fun x => x.1)
  rw [List.filter_map, List.filter_map, List.map_map, List.map_map] at this
  exact this.sum_eq

/-- Forget everything but quantity, price, side and id. -/
def strip (r : Row) : Row := ⟨⟨r.quantity, r.price, 0, r.buying, 0, true⟩, r.label⟩

theorem strip_keeps : Keeps strip := ⟨fun _ => rfl, fun _ => rfl, fun _ => rfl, fun _ => rfl⟩

theorem labelFrom_strip (n : ℕ) {bs bs' : List Bid}
    (h : bs.map (fun b => (b.quantity, b.price, b.buying)) =
      bs'.map (fun b => (b.quantity, b.price, b.buying))) :
    (labelFrom n bs).map strip = (labelFrom n bs').map strip := by
  induction bs generalizing n bs' with
  | nil =>
    cases bs' with
    | nil => rfl
    | cons b bs' => simp at h
  | cons b bs ih =>
    cases bs' with
    | nil => simp at h
    | cons b' bs' =>
      simp only [List.map_cons, List.cons.injEq, Prod.mk.injEq] at h
      obtain ⟨⟨h1, h2, h3⟩, h4⟩ := h
      simp only [labelFrom, List.map_cons, ih (n + 1) h4, strip, h1, h2, h3]

theorem agg_terms {smp smp' : Sampler} {prec : ℕ} {side : Bool} {l l' : DF} {i i₁ j j₁ : ℤ}
    {gs gs' : List (Bid × List ℕ)} (h : (l.map rowTerms).Perm (l'.map rowTerms))
    (ha : AggSpec smp prec side l (groupKeys prec l) i gs i₁)
    (ha' : AggSpec smp' prec side l' (groupKeys prec l') j gs' j₁) :
    gs.map (fun g => (g.1.quantity, g.1.price, g.1.buying)) =
      gs'.map (fun g => (g.1.quantity, g.1.price, g.1.buying)) := by
  have hq := ha.quantity
  have hq' := ha'.quantity
  have hp := ha.price
  have hp' := ha'.price
  rw [← groupKeys_eq h] at hq' hp'
  have e : (groupKeys prec l).map (fun k => qsum (groupRows prec l k)) =
      (groupKeys prec l).map (fun k => qsum (groupRows prec l' k)) :=
    List.map_congr_left (fun k _ => qsum_groupRows h k)
  rw [e, ← hq'] at hq
  rw [← hp'] at hp
  have hlen : gs.length = gs'.length := by simpa using congrArg List.length hp
  apply List.ext_getElem
  · simpa using hlen
  · intro n h1 h2
    simp only [List.length_map] at h1 h2
    have q1 := congrArg (fun l => l[n]?) hq
    have p1 := congrArg (fun l => l[n]?) hp
    simp only [List.getElem?_map, List.getElem?_eq_getElem h1, List.getElem?_eq_getElem h2,
      Option.map_some, Option.some.injEq] at q1 p1
    simp only [List.getElem_map, q1, p1, ha.side_eq _ (List.getElem_mem h1),
      ha'.side_eq _ (List.getElem_mem h2)]

theorem buys_terms {l l' : DF} (h : (l.map rowTerms).Perm (l'.map rowTerms)) :
    ((buys l).map rowTerms).Perm ((buys l').map rowTerms) := by
  have := h.filter (fun x => x.2.2)
  rw [List.filter_map, List.filter_map] at this
  exact this

theorem sells_terms {l l' : DF} (h : (l.map rowTerms).Perm (l'.map rowTerms)) :
    ((sells l).map rowTerms).Perm ((sells l').map rowTerms) := by
  have := h.filter (fun x => !x.2.2)
  rw [List.filter_map, List.filter_map] at this
  exact this

theorem merge_reordered {smp smp' : Sampler} {df df' nb nb' : DF} {mp mp' : List (List ℕ)}
    (h : (df.map rowTerms).Perm (df'.map rowTerms)) (hm : mergeSamePrice smp df = .ok (nb, mp))
    (hm' : mergeSamePrice smp' df' = .ok (nb', mp')) : nb.map strip = nb'.map strip := by
  obtain ⟨gb, i₁, gs, i₂, hb, hs, he⟩ := mergeSamePrice_ok smp df 5
  obtain ⟨gb', j₁, gs', j₂, hb', hs', he'⟩ := mergeSamePrice_ok smp' df' 5
  rw [he] at hm
  rw [he'] at hm'
  cases hm
  cases hm'
  apply labelFrom_strip
  rw [List.map_map, List.map_map, List.map_append, List.map_append]
  have e1 := agg_terms (buys_terms h) hb hb'
  have e2 := agg_terms (sells_terms h) hs hs'
  exact congrArg₂ (· ++ ·) e1 e2

/-! ## Sorting distinct prices -/

theorem perm_prices_eq {l l₁ l₂ : DF} (h1 : l₁.Perm l) (h2 : l₂.Perm l)
    (hn : (l.map (fun r => r.price)).Nodup) (le : ℚ → ℚ → Prop)
    (ha : ∀ a b, le a b → le b a → a = b)
    (s1 : l₁.Pairwise (fun r r' => le r.price r'.price))
    (s2 : l₂.Pairwise (fun r r' => le r.price r'.price)) : l₁ = l₂ := by
  apply List.Perm.eq_of_pairwise (le := fun r r' : Row => le r.price r'.price) _ s1 s2
    (h1.trans h2.symm)
  intro a b hma hmb hab hba
  exact List.inj_on_of_nodup_map hn (h1.mem_iff.mp hma) (h2.mem_iff.mp hmb) (ha _ _ hab hba)

theorem sortDesc_any (S S' : Sorter) {l : DF} (hn : (l.map (fun r => r.price)).Nodup) :
    sortDesc S l = sortDesc S' l :=
  perm_prices_eq (sortDesc_perm S l) (sortDesc_perm S' l) hn (fun a b => b ≤ a)
    (fun _ _ h1 h2 => le_antisymm h2 h1) (sortDesc_sorted S l) (sortDesc_sorted S' l)

theorem sortAsc_any (S S' : Sorter) {l : DF} (hn : (l.map (fun r => r.price)).Nodup) :
    sortAsc S l = sortAsc S' l :=
  perm_prices_eq (sortAsc_perm S l) (sortAsc_perm S' l) hn (fun a b => a ≤ b)
    (fun _ _ h1 h2 => le_antisymm h1 h2) (sortAsc_sorted S l) (sortAsc_sorted S' l)

theorem huangAuction_any (S S' : Sorter) {df : DF}
    (hb : ((buys df).map (fun r => r.price)).Nodup)
    (hs : ((sells df).map (fun r => r.price)).Nodup) :
    huangAuction S df = huangAuction S' df := by
  have e1 := sortDesc_any S S' hb
  have e2 := sortAsc_any S S' hs
  have d1 : demandCurve S df = demandCurve S' df := by unfold demandCurve; rw [e1]
  have d2 : supplyCurve S df = supplyCurve S' df := by unfold supplyCurve; rw [e2]
  unfold huangAuction
  rw [d1, d2, e1, e2]

/-! ## The property -/

theorem MergeSpec.row_unique {df nb : DF} {mp : List (List ℕ)} (h : MergeSpec df nb mp) {k k' : ℕ}
    {row row' : Row} (hk : nb[k]? = some row) (hk' : nb[k']? = some row')
    (hb : row.buying = row'.buying) (hp : row.price = row'.price) : k = k' := by
  have hm := List.mem_of_getElem? hk
  have hm' := List.mem_of_getElem? hk'
  have : row = row' := by
    cases hside : row.buying with
    | true =>
      exact List.inj_on_of_nodup_map h.buyPrices (List.mem_filter.mpr ⟨hm, hside⟩)
        (List.mem_filter.mpr ⟨hm', by rw [← hb]; exact hside⟩) hp
    | false =>
      exact List.inj_on_of_nodup_map h.sellPrices (List.mem_filter.mpr ⟨hm, by rw [hside]; rfl⟩)
        (List.mem_filter.mpr ⟨hm', by rw [← hb, hside]; rfl⟩) hp
  rw [← h.table.label hk, ← h.table.label hk', this]

/-- Corresponding bids are in corresponding groups. -/
theorem group_reordered {σ : ℕ → ℕ} {df df' nb nb' : DF} {mp mp' : List (List ℕ)}
    (h : Reordered σ df df') (hM : MergeSpec df nb mp) (hM' : MergeSpec df' nb' mp')
    (hnb : nb.map strip = nb'.map strip) {k i : ℕ} {ids ids' : List ℕ} (hi : i < df.length)
    (hk : mp[k]? = some ids) (hk' : mp'[k]? = some ids') : i ∈ ids ↔ σ i ∈ ids' := by
  obtain ⟨r, r', h1, h2, _, h4, h5⟩ := h.terms i hi
  obtain ⟨k₀, ids₀, l0, g0, m0⟩ := hM.exists_group hi
  obtain ⟨k₁, ids₁, l1, g1, m1⟩ := hM'.exists_group (List.getElem?_eq_some_iff.mp h2).1
  have hlen : nb.length = nb'.length := by simpa using congrArg List.length hnb
  obtain ⟨_, _, q3⟩ := hM.group k₀ _ _ (List.getElem?_eq_getElem l0) g0
  obtain ⟨_, _, q3'⟩ := hM'.group k₁ _ _ (List.getElem?_eq_getElem l1) g1
  obtain ⟨s, e1, e2, e3⟩ := q3 i m0
  obtain ⟨s', e1', e2', e3'⟩ := q3' (σ i) m1
  rw [h1] at e1
  rw [h2] at e1'
  cases e1
  cases e1'
  have hrow := congrArg (fun l => l[k₀]?) hnb
  have l0' : k₀ < nb'.length := hlen ▸ l0
  simp only [List.getElem?_map, List.getElem?_eq_getElem l0, List.getElem?_eq_getElem l0',
    Option.map_some, Option.some.injEq, strip, Row.mk.injEq, Bid.mk.injEq] at hrow
  have hkk : k₀ = k₁ := by
    apply hM'.row_unique (List.getElem?_eq_getElem l0') (List.getElem?_eq_getElem l1)
    · rw [← hrow.1.2.2.2.1, ← e2, h5, e2']
    · rw [← hrow.1.2.1, ← e3, h4, e3']
  subst hkk
  constructor
  · intro hm
    rw [← hM.group_unique hk g0 hm m0, hk'] at g1
    cases g1
    exact m1
  · intro hm
    rw [← hM'.group_unique hk' g1 hm m1, hk] at g0
    cases g0
    exact m0

theorem Spec.Reordered.surj {σ : ℕ → ℕ} {df df' : DF} (h : Reordered σ df df') {j : ℕ}
    (hj : j < df'.length) : ∃ i < df.length, σ i = j := by
  have hnd : ((List.range df.length).map σ).Nodup := by
    rw [List.nodup_map_iff_inj_on List.nodup_range]
    intro i hi j hj hij
    exact h.inj i j (List.mem_range.mp hi) (List.mem_range.mp hj) hij
  have hp : ((List.range df.length).map σ).Perm (List.range df.length) := by
    apply List.Subperm.perm_of_length_le
    · apply List.subperm_of_subset hnd
      intro k hk
      obtain ⟨i, hi, rfl⟩ := List.mem_map.mp hk
      obtain ⟨r, r', _, h2, _⟩ := h.terms i (List.mem_range.mp hi)
      rw [List.mem_range, ← h.length]
      exact (List.getElem?_eq_some_iff.mp h2).1
    · simp
  rw [h.length] at hj
  obtain ⟨i, hi, rfl⟩ := List.mem_map.mp (hp.mem_iff.mpr (List.mem_range.mpr hj))
  exact ⟨i, List.mem_range.mp hi, rfl⟩

/-- **C47.** Submitting the same bids in another order leaves the extra information of
`Market.run('huang')` (both prices and the quantity traded) unchanged, and the transactions too, up
to their order and the new bid ids; in particular every bid trades the same quantity. Neither the
tie-breaking of the sort nor the users, times and divisibility flags matter. -/
theorem C47_order (S S' : Sorter) (smp smp' : Sampler) (σ : ℕ → ℕ) (df df' : DF) (ht : IsTable df)
    (ht' : IsTable df') (hp : GroupPos df) (h : Reordered σ df df') :
    ∃ tm tm' ex, runAlgo S smp .huang df = .ok (tm, ex) ∧
      runAlgo S' smp' .huang df' = .ok (tm', ex) ∧
      (tm.trans.map (fun t => { t with bid := σ t.bid })).Perm tm'.trans ∧
      ∀ i < df.length, tradedBy tm'.trans (σ i) = tradedBy tm.trans i := by
  have hp' : GroupPos df' := by
    have look : ∀ r' ∈ df', ∃ r ∈ df, r.quantity = r'.quantity ∧ r.price = r'.price ∧
        r.buying = r'.buying := by
      intro r' hr'
      obtain ⟨j, hj⟩ := List.getElem?_of_mem hr'
      obtain ⟨i, hi, rfl⟩ := h.surj (List.getElem?_eq_some_iff.mp hj).1
      obtain ⟨r, r'', h1, h2, h3⟩ := h.terms i hi
      rw [hj] at h2
      cases h2
      exact ⟨r, List.mem_of_getElem? h1, h3⟩
    have look' : ∀ r ∈ df, ∃ r' ∈ df', r.quantity = r'.quantity ∧ r.price = r'.price ∧
        r.buying = r'.buying := by
      intro r hr
      obtain ⟨i, hi⟩ := List.getElem?_of_mem hr
      obtain ⟨r'', r', h1, h2, h3⟩ := h.terms i (List.getElem?_eq_some_iff.mp hi).1
      rw [hi] at h1
      cases h1
      exact ⟨r', List.mem_of_getElem? h2, h3⟩
    refine ⟨?_, ?_⟩
    · intro r' hr'
      obtain ⟨r, hr, e1, e2, _⟩ := look r' hr'
      rw [← e1, ← e2]
      exact hp.1 r hr
    · intro r' hr'
      obtain ⟨r, hr, e1, e2, e3⟩ := look r' hr'
      obtain ⟨s, hs, f1, f2, f3⟩ := hp.2 r hr
      obtain ⟨s', hs', g1, g2, g3⟩ := look' s hs
      exact ⟨s', hs', by rw [← g3, f1, e3], by rw [← e2, ← g2]; exact f2, by rw [← g1]; exact f3⟩
  obtain ⟨nb, mp, hm, hM⟩ := merge_spec smp ht hp
  obtain ⟨nb', mp', hm', hM'⟩ := merge_spec smp' ht' hp'
  have hnb := merge_reordered h.perm hm hm'
  have hlen : nb.length = nb'.length := by simpa using congrArg List.length hnb
  have hrun : mechRun (huangAuction S) nb = mechRun (huangAuction S') nb' := by
    rw [← strip_keeps.mechRun_map _ (strip_keeps.huangAuction_map S) nb, hnb,
      strip_keeps.mechRun_map _ (strip_keeps.huangAuction_map S) nb']
    unfold mechRun
    simp only
    rw [huangAuction_any S S' hM'.buyPrices hM'.sellPrices]
  have hok : ∃ tm ex, mechRun (huangAuction S) nb = .ok (tm, ex) ∧
      (tm.trans.map (fun t => t.bid)).Nodup ∧ ∀ t ∈ tm.trans, t.bid < nb.length := by
    unfold mechRun
    simp only
    split
    · rcases huang_direct S hM.table (hM.pos hp.1).nonNeg with h' | ⟨tm, ps, pb, q, h', hO, -⟩
      · exact ⟨_, _, h', List.nodup_nil, by intro t ht; cases ht⟩
      · exact ⟨_, _, h', hO.nodup, fun t ht => (hO.trade t ht).id_lt⟩
    · exact ⟨_, _, rfl, List.nodup_nil, by intro t ht; cases ht⟩
  obtain ⟨tm₀, ex, hr, hnd, hlt⟩ := hok
  have hlt' : ∀ t ∈ tm₀.trans, t.bid < nb'.length := fun t ht => hlen ▸ hlt t ht
  obtain ⟨tm, e1, e2⟩ := mechanism_merge smp (huangAuction S) hm hM hr hlt
  obtain ⟨tm', e1', e2'⟩ := mechanism_merge smp' (huangAuction S') hm' hM' (hrun ▸ hr) hlt'
  have hbid : ∀ t ∈ tm.trans, t.bid < df.length := by
    intro t htm
    rw [e2] at htm
    obtain ⟨_, _, _, r, _, g2, _⟩ := hM.mem_lift hlt htm
    exact (List.getElem?_eq_some_iff.mp g2).1
  -- one bid, seen in both books
  have hshare : ∀ t ∈ tm₀.trans, ∀ ids ids', mp[t.bid]? = some ids → mp'[t.bid]? = some ids' →
      ∀ i < df.length,
      qtyOf df i / (ids.map (qtyOf df)).sum = qtyOf df' (σ i) / (ids'.map (qtyOf df')).sum := by
    intro t htm ids ids' g g' i hi
    obtain ⟨r, r', h1, h2, h3, _⟩ := h.terms i hi
    have l1 := hlt t htm
    have l2 := hlt' t htm
    have q := (hM.group t.bid _ _ (List.getElem?_eq_getElem l1) g).2.1
    have q' := (hM'.group t.bid _ _ (List.getElem?_eq_getElem l2) g').2.1
    have hrow := congrArg (fun l => l[t.bid]?) hnb
    simp only [List.getElem?_map, List.getElem?_eq_getElem l1, List.getElem?_eq_getElem l2,
      Option.map_some, Option.some.injEq, strip, Row.mk.injEq, Bid.mk.injEq] at hrow
    rw [← q, ← q', qtyOf_some h1, qtyOf_some h2, h3, hrow.1.1]
  have hperm : (tm.trans.map (fun t => { t with bid := σ t.bid })).Perm tm'.trans := by
    have n1 : (tm.trans.map (fun t => { t with bid := σ t.bid })).Nodup := by
      have := hM.nodup_lift hlt hnd
      rw [← e2] at this
      rw [List.nodup_map_iff_inj_on this.of_map]
      intro t htm t' htm' he
      have hb := congrArg (fun t : Transaction => t.bid) he
      exact List.inj_on_of_nodup_map this htm htm' (h.inj _ _ (hbid t htm) (hbid t' htm') hb)
    have n2 : tm'.trans.Nodup := by
      have := hM'.nodup_lift hlt' hnd
      rw [← e2'] at this
      exact this.of_map
    rw [List.perm_ext_iff_of_nodup n1 n2]
    intro u
    rw [e2, e2']
    constructor
    · intro hu
      obtain ⟨t', ht', rfl⟩ := List.mem_map.mp hu
      obtain ⟨t, htm, hs⟩ := List.mem_flatMap.mp ht'
      refine List.mem_flatMap.mpr ⟨t, htm, ?_⟩
      obtain ⟨row, ids, _, g2, _, _, _, g6⟩ := hM.get (hlt t htm)
      obtain ⟨row', ids', _, g2', _⟩ := hM'.get (hlt' t htm)
      unfold splitT at hs ⊢
      rw [g2, Option.getD_some] at hs
      rw [g2', Option.getD_some]
      obtain ⟨i, hi, rfl⟩ := List.mem_map.mp hs
      obtain ⟨r, hri, _⟩ := g6 i hi
      have hil := (List.getElem?_eq_some_iff.mp hri).1
      refine List.mem_map.mpr ⟨σ i, (group_reordered h hM hM' hnb hil g2 g2').mp hi, ?_⟩
      simp only [hshare t htm ids ids' g2 g2' i hil]
    · intro hu
      obtain ⟨t, htm, hs⟩ := List.mem_flatMap.mp hu
      obtain ⟨row, ids, _, g2, _⟩ := hM.get (hlt t htm)
      obtain ⟨row', ids', _, g2', _, _, _, g6'⟩ := hM'.get (hlt' t htm)
      unfold splitT at hs
      rw [g2', Option.getD_some] at hs
      obtain ⟨j, hj, rfl⟩ := List.mem_map.mp hs
      obtain ⟨r, hrj, _⟩ := g6' j hj
      obtain ⟨i, hil, rfl⟩ := h.surj (List.getElem?_eq_some_iff.mp hrj).1
      have hi := (group_reordered h hM hM' hnb hil g2 g2').mpr hj
      refine List.mem_map.mpr ⟨⟨i, t.quantity * (qtyOf df i / (ids.map (qtyOf df)).sum), t.price,
        t.source, t.active⟩, List.mem_flatMap.mpr ⟨t, htm, ?_⟩, ?_⟩
      · unfold splitT
        rw [g2, Option.getD_some]
        exact List.mem_map.mpr ⟨i, hi, rfl⟩
      · simp only [hshare t htm ids ids' g2 g2' i hil]
  refine ⟨tm, tm', ex, e1, e1', hperm, ?_⟩
  intro i hi
  unfold tradedBy
  rw [← ((hperm.filter (fun t => t.bid == σ i)).map (fun t => t.quantity)).sum_eq, List.filter_map,
    List.map_map]
  congr 1
  have : tm.trans.filter ((fun t : Transaction => t.bid == σ i) ∘
      fun t => { t with bid := σ t.bid }) = tm.trans.filter (fun t => t.bid == i) := by
    apply List.filter_congr
    intro t htm
    simp only [Function.comp_apply]
    by_cases e : t.bid = i
    · simp [e]
    · have : σ t.bid ≠ σ i := fun hσ => e (h.inj _ _ (hbid t htm) hi hσ)
      simp [e, this]
  rw [this]
  rfl

/-- The bids of `huangBook`, submitted in the opposite order. -/
def huangBookReversed : DF := labelFrom 0
  [⟨10, 5, 6, false, 0, true⟩, ⟨1, 3, 5, false, 0, true⟩, ⟨1, 2, 4, false, 0, true⟩,
   ⟨2, 6, 3, true, 0, true⟩, ⟨1, 8, 2, true, 0, true⟩, ⟨3, 10, 1, true, 0, true⟩,
   ⟨1, 10, 0, true, 0, true⟩]

example : IsTable huangBook ∧ IsTable huangBookReversed ∧ GroupPos huangBook ∧
    Reordered (fun i => 6 - i) huangBook huangBookReversed := by
  refine ⟨by decide +kernel, by decide +kernel, Pos.groupPos (by decide +kernel), rfl, ?_, ?_⟩
  · intro i j hi hj hij
    have h7 : huangBook.length = 7 := rfl
    omega
  · have key : ∀ i < huangBook.length, (huangBook[i]?).map rowTerms =
        (huangBookReversed[6 - i]?).map rowTerms := by decide +kernel
    intro i hi
    have hk := key i hi
    rw [List.getElem?_eq_getElem hi] at hk
    cases hr : huangBookReversed[6 - i]? with
    | none => rw [hr] at hk; simp at hk
    | some r' =>
      rw [hr] at hk
      simp only [Option.map_some, Option.some.injEq, rowTerms, Prod.mk.injEq] at hk
      exact ⟨_, r', List.getElem?_eq_getElem hi, rfl, hk⟩

/-- Both runs give the same prices and volume; bid 6 of the second run is bid 0 of the first. -/
example : runAlgo stableSorter headSampler .huang huangBookReversed = .ok
    (⟨5, [⟨2, 1, 5, -1, false⟩, ⟨1, 1, 5, -1, false⟩, ⟨5, 3/2, 6, -1, false⟩, ⟨6, 1/2, 6, -1, false⟩,
      ⟨4, 0, 6, -1, false⟩]⟩, .huang ((5 : ℚ) : Ext) ((6 : ℚ) : Ext) 2) := by decide +kernel

end PyMarket
