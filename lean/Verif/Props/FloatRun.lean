import Verif.Props.FloatMerge
import Verif.Props.MergedRuns

/-! # C82: Huang's auction as the library runs it, in floating point arithmetic

C78 is about the function `huang_auction`. The library runs it through its class, which merges the bids
first and splits the log afterwards (C81). -/

set_option autoImplicit false

namespace PyMarket

open Spec

section

variable {F : Fmt} {prec : ℕ} {df nb : DF} {mp : List (List ℕ)}

/-- A transaction of the final log comes from one about the group of its bid. -/
theorem MergeSpecF.mem_lift (h : MergeSpecF F prec df nb mp) {s : Summer F} {ts : List Transaction}
    (hts : ∀ t ∈ ts, t.bid < nb.length) {u : Transaction} (hu : u ∈ ts.flatMap (splitTF F s df mp)) :
    ∃ t ∈ ts, ∃ row ids r, nb[t.bid]? = some row ∧ mp[t.bid]? = some ids ∧ u.bid ∈ ids ∧
      df[u.bid]? = some r ∧ r.buying = row.buying ∧ npRoundF F prec r.price = row.price ∧
      u.price = t.price ∧ u.quantity =
        F.rnd (t.quantity * F.rnd (qtyOf df u.bid / s.sum (ids.map (qtyOf df)))) := by
  obtain ⟨t, ht, hm⟩ := List.mem_flatMap.mp hu
  obtain ⟨row, ids, hr, hi⟩ := h.get (hts t ht)
  unfold splitTF at hm
  rw [hi] at hm
  obtain ⟨i, hii, rfl⟩ := List.mem_map.mp hm
  obtain ⟨_, _, g3⟩ := h.group _ row ids hr hi
  obtain ⟨r, r1, r2, r3⟩ := (g3 i).mp hii
  exact ⟨t, ht, row, ids, r, hr, hi, hii, r1, r2, r3, rfl, rfl⟩

theorem MergeSpecF.ids_inj (h : MergeSpecF F prec df nb mp) {k k' : ℕ} {ids ids' : List ℕ} {i : ℕ}
    (hk : mp[k]? = some ids) (hk' : mp[k']? = some ids') (hi : i ∈ ids) (hi' : i ∈ ids') : k = k' := by
  have hnd : mp.flatten.Nodup := h.perm.nodup_iff.mpr List.nodup_range
  obtain ⟨hlt, he⟩ := List.getElem?_eq_some_iff.mp hk
  obtain ⟨hlt', he'⟩ := List.getElem?_eq_some_iff.mp hk'
  by_contra hne
  have hd := List.pairwise_iff_getElem.mp (List.nodup_flatten.mp hnd).2
  rcases Nat.lt_or_gt_of_ne hne with hl | hl
  · exact hd k k' hlt hlt' hl (he ▸ hi) (he' ▸ hi')
  · exact hd k' k hlt' hlt hl (he' ▸ hi') (he ▸ hi)

/-- If every group is traded at most once, so is every bid. -/
theorem MergeSpecF.nodup_lift (h : MergeSpecF F prec df nb mp) {s : Summer F} {ts : List Transaction}
    (hn : (ts.map (fun t => t.bid)).Nodup) (hts : ∀ t ∈ ts, t.bid < nb.length) :
    ((ts.flatMap (splitTF F s df mp)).map (fun t => t.bid)).Nodup := by
  have hnd : mp.flatten.Nodup := h.perm.nodup_iff.mpr List.nodup_range
  have hbids : ∀ t ∈ ts, ∃ ids, mp[t.bid]? = some ids ∧ (splitTF F s df mp t).map (fun u => u.bid) = ids := by
    intro t ht
    obtain ⟨row, ids, _, hi⟩ := h.get (hts t ht)
    refine ⟨ids, hi, ?_⟩
    unfold splitTF
    rw [hi, List.map_map]
    exact List.map_id _
  rw [List.map_flatMap]
  rw [List.flatMap_def, List.nodup_flatten]
  constructor
  · intro l hl
    obtain ⟨t, ht, rfl⟩ := List.mem_map.mp hl
    obtain ⟨ids, hi, he⟩ := hbids t ht
    rw [he]
    exact (List.nodup_flatten.mp hnd).1 ids (List.mem_of_getElem? hi)
  · rw [List.pairwise_map]
    rw [List.nodup_iff_pairwise_ne, List.pairwise_map] at hn
    refine hn.imp_of_mem ?_
    intro t t' ht ht' hne i hi hi'
    obtain ⟨ids, h1, he⟩ := hbids t ht
    obtain ⟨ids', h1', he'⟩ := hbids t' ht'
    rw [he] at hi
    rw [he'] at hi'
    exact hne (h.ids_inj h1 h1' hi hi')

/-- The split of one transaction, by side. -/
theorem MergeSpecF.side_split (h : MergeSpecF F prec df nb mp) (hq : ∀ i, 0 ≤ qtyOf df i) {s : Summer F} {t : Transaction}
    (ht : t.bid < nb.length) (hz : s.sum (((mp[t.bid]?).getD []).map (qtyOf df)) ≠ 0) (h0 : 0 ≤ t.quantity) :
    |boughtQty df (splitTF F s df mp t) - boughtQty nb [t]| ≤
      (spread F (df.length + 1) - 1) * boughtQty nb [t] ∧
    |soldQty df (splitTF F s df mp t) - soldQty nb [t]| ≤
      (spread F (df.length + 1) - 1) * soldQty nb [t] := by
  obtain ⟨row, ids, hr, hi⟩ := h.get ht
  rw [hi, Option.getD_some] at hz
  obtain ⟨hne, _, g3⟩ := h.group _ row ids hr hi
  have hl' : ∀ x ∈ ids.map (qtyOf df), 0 ≤ x := by
    intro x hx; obtain ⟨i, _, rfl⟩ := List.mem_map.mp hx; exact hq i
  have hT : 0 < s.sum (ids.map (qtyOf df)) :=
    lt_of_le_of_ne ((s.isSum _).nonneg hl') (Ne.symm hz)
  have hps := parts_sum (F := F) (s := s) (df := df) (ids := ids) (fun i _ => hq i) hT h0 (h.ids_length hi) hne
  have hsplit : splitTF F s df mp t = ids.map (fun i =>
      (⟨i, F.rnd (t.quantity * F.rnd (qtyOf df i / s.sum (ids.map (qtyOf df)))), t.price, t.source, t.active⟩
        : Transaction)) := by
    unfold splitTF; rw [hi, Option.getD_some]
  have hbuy : ∀ i ∈ ids, isBuy df i = row.buying ∧ isSell df i = !row.buying := by
    intro i hii
    obtain ⟨r, r1, r2, _⟩ := (g3 i).mp hii
    simp [isBuy, isSell, r1, r2]
  have hall : ∀ u ∈ splitTF F s df mp t, isBuy df u.bid = row.buying ∧ isSell df u.bid = !row.buying := by
    intro u hu
    rw [hsplit] at hu
    obtain ⟨i, hii, rfl⟩ := List.mem_map.mp hu
    exact hbuy i hii
  have hsum : ((splitTF F s df mp t).map (fun u => u.quantity)).sum =
      (ids.map (fun i => F.rnd (t.quantity * F.rnd (qtyOf df i / s.sum (ids.map (qtyOf df)))))).sum := by
    rw [hsplit, List.map_map]; rfl
  have hbn : isBuy nb t.bid = row.buying ∧ isSell nb t.bid = !row.buying := by simp [isBuy, isSell, hr]
  unfold boughtQty soldQty
  cases hb : row.buying with
  | true =>
    rw [hb] at hall hbn
    have e1 : (splitTF F s df mp t).filter (fun u => isBuy df u.bid) = splitTF F s df mp t :=
      List.filter_eq_self.mpr (fun u hu => (hall u hu).1)
    have e2 : (splitTF F s df mp t).filter (fun u => isSell df u.bid) = [] :=
      List.filter_eq_nil_iff.mpr (fun u hu => by simp [(hall u hu).2])
    rw [e1, e2, hsum]
    simp only [List.filter_cons, hbn.1, hbn.2]
    simpa using hps
  | false =>
    rw [hb] at hall hbn
    have e1 : (splitTF F s df mp t).filter (fun u => isSell df u.bid) = splitTF F s df mp t :=
      List.filter_eq_self.mpr (fun u hu => by simp [(hall u hu).2])
    have e2 : (splitTF F s df mp t).filter (fun u => isBuy df u.bid) = [] :=
      List.filter_eq_nil_iff.mpr (fun u hu => by simp [(hall u hu).1])
    rw [e1, e2, hsum]
    simp only [List.filter_cons, hbn.1, hbn.2]
    simpa using hps

/-- The bought and the sold quantity hardly change when the log is split. -/
theorem MergeSpecF.side_lift (h : MergeSpecF F prec df nb mp) (hq : ∀ i, 0 ≤ qtyOf df i) {s : Summer F}
    {ts : List Transaction} (hts : ∀ t ∈ ts, t.bid < nb.length ∧
      s.sum (((mp[t.bid]?).getD []).map (qtyOf df)) ≠ 0 ∧ 0 ≤ t.quantity) :
    |boughtQty df (ts.flatMap (splitTF F s df mp)) - boughtQty nb ts| ≤
      (spread F (df.length + 1) - 1) * boughtQty nb ts ∧
    |soldQty df (ts.flatMap (splitTF F s df mp)) - soldQty nb ts| ≤
      (spread F (df.length + 1) - 1) * soldQty nb ts := by
  induction ts with
  | nil => simp
  | cons t ts ih =>
    obtain ⟨h1, h2, h3⟩ := hts t List.mem_cons_self
    obtain ⟨a1, a2⟩ := h.side_split hq h1 h2 h3
    obtain ⟨b1, b2⟩ := ih (fun t ht => hts t (List.mem_cons_of_mem _ ht))
    have e1 : boughtQty nb (t :: ts) = boughtQty nb [t] + boughtQty nb ts := boughtQty_append nb [t] ts
    have e2 : soldQty nb (t :: ts) = soldQty nb [t] + soldQty nb ts := soldQty_append nb [t] ts
    rw [List.flatMap_cons, boughtQty_append, soldQty_append, e1, e2]
    rw [abs_le] at a1 a2 b1 b2 ⊢
    rw [abs_le]
    constructor <;> constructor <;> linarith [a1.1, a1.2, a2.1, a2.2, b1.1, b1.2, b2.1, b2.2]

/-- Adding up what the groups offer. -/
theorem MergeSpecF.total_le (h : MergeSpecF F prec df nb mp) (hq : ∀ i, 0 ≤ qtyOf df i) :
    totalQty nb ≤ spread F df.length * totalQty df := by
  have e0 := F.eps_nonneg
  have h1 : nb.map (fun r => r.quantity) = (List.range nb.length).map (qtyOf nb) := by
    apply List.ext_getElem
    · simp
    · intro k h1 h2
      simp only [List.length_map] at h1
      simp [qtyOf, List.getElem?_eq_getElem h1]
  have h2 : df.map (fun r => r.quantity) = (List.range df.length).map (qtyOf df) := by
    apply List.ext_getElem
    · simp
    · intro k h1 h2
      simp only [List.length_map] at h1
      simp [qtyOf, List.getElem?_eq_getElem h1]
  have h3 : totalQty df = (mp.map (fun ids => (ids.map (qtyOf df)).sum)).sum := by
    unfold totalQty
    rw [h2, ← (h.perm.map (qtyOf df)).sum_eq, List.map_flatten, List.sum_flatten, List.map_map]
    rfl
  have h4 : totalQty nb = (nb.map (fun r => r.quantity)).sum := rfl
  rw [h3, h4, ← List.sum_map_mul_left]
  apply List.Forall₂.sum_le_sum
  rw [List.forall₂_iff_get]
  refine ⟨by simp [h.length], ?_⟩
  intro k hk hk'
  simp only [List.length_map] at hk hk'
  simp only [List.get_eq_getElem, List.getElem_map]
  obtain ⟨hne, g2, _⟩ := h.group k _ _ (List.getElem?_eq_getElem hk) (List.getElem?_eq_getElem hk')
  have hl' : ∀ x ∈ mp[k].map (qtyOf df), 0 ≤ x := by
    intro x hx; obtain ⟨i, _, rfl⟩ := List.mem_map.mp hx; exact hq i
  refine (g2.bounds hl').2.trans ?_
  apply mul_le_mul_of_nonneg_right _ (List.sum_nonneg hl')
  apply pow_up_le_spread
  rw [List.length_map]
  have := h.ids_length (List.getElem?_eq_getElem hk')
  omega

end

/-- Trading every bid at most once and no more than its quantity, one trades at most the total. -/
theorem traded_le_total {df : DF} {ts : List Transaction} (hq : ∀ r ∈ df, 0 ≤ r.quantity)
    (hn : (ts.map (fun t => t.bid)).Nodup)
    (h : ∀ t ∈ ts, t.bid < df.length ∧ t.quantity ≤ qtyOf df t.bid) :
    boughtQty df ts + soldQty df ts ≤ totalQty df := by
  have hqty : ∀ i, 0 ≤ qtyOf df i := by
    intro i
    unfold qtyOf
    cases hi : df[i]? with
    | none => exact le_refl _
    | some r => exact hq r (List.mem_of_getElem? hi)
  have h1 : boughtQty df ts + soldQty df ts = (ts.map (fun t => t.quantity)).sum := by
    clear hn
    induction ts with
    | nil => simp
    | cons t ts ih =>
      have e1 : boughtQty df (t :: ts) = boughtQty df [t] + boughtQty df ts := boughtQty_append df [t] ts
      have e2 : soldQty df (t :: ts) = soldQty df [t] + soldQty df ts := soldQty_append df [t] ts
      have e3 : boughtQty df [t] + soldQty df [t] = t.quantity := by
        have hlt := (h t List.mem_cons_self).1
        unfold boughtQty soldQty isBuy isSell
        cases hb : (df[t.bid]).buying <;>
          simp [List.getElem?_eq_getElem hlt, hb]
      have := ih (fun t ht => h t (List.mem_cons_of_mem _ ht))
      rw [List.map_cons, List.sum_cons]
      linarith
  have h2 : (ts.map (fun t => t.quantity)).sum ≤ ((ts.map (fun t => t.bid)).map (qtyOf df)).sum := by
    rw [List.map_map]
    exact List.sum_le_sum (fun t ht => (h t ht).2)
  have h3 : totalQty df = ((List.range df.length).map (qtyOf df)).sum := by
    unfold totalQty
    congr 1
    apply List.ext_getElem
    · simp
    · intro k h1 h2
      simp only [List.length_map] at h1
      simp [qtyOf, List.getElem?_eq_getElem h1]
  have h4 : (ts.map (fun t => t.bid)).Subperm (List.range df.length) := by
    apply List.subperm_of_subset hn
    intro i hi
    obtain ⟨t, ht, rfl⟩ := List.mem_map.mp hi
    exact List.mem_range.mpr (h t ht).1
  obtain ⟨l, hl1, hl2⟩ := h4
  have h5 : ((ts.map (fun t => t.bid)).map (qtyOf df)).sum ≤ ((List.range df.length).map (qtyOf df)).sum := by
    rw [← (hl1.map (qtyOf df)).sum_eq]
    apply List.Sublist.sum_le_sum (hl2.map _)
    intro x hx
    obtain ⟨i, _, rfl⟩ := List.mem_map.mp hx
    exact hqty i
  linarith

/-- A run of the class, seen from the merged table. -/
theorem huangRunF_inv {F : Fmt} {s g o : Summer F} {S : Sorter} {smp : Sampler} {df : DF} (ht : IsTable df)
    (hq : NonNeg df) (hr : RepBook F df) {tm : TransactionManager} {ex : Extra}
    (h : runAlgoF F s g o S smp .huang df = .ok (tm, ex)) :
    ∃ nb mp tm₀, MergeSpecF F 5 df nb mp ∧
      (∀ t ∈ tm₀.trans, t.bid < nb.length ∧ s.sum (((mp[t.bid]?).getD []).map (qtyOf df)) ≠ 0) ∧
      tm.trans = tm₀.trans.flatMap (splitTF F s df mp) ∧
      ((tm₀.trans = [] ∧ ex = .empty) ∨ (IsTable nb ∧ NonNeg nb ∧ RepBook F nb ∧
        huangAuctionF F s S nb = .ok (tm₀, ex))) := by
  obtain ⟨nb, mp, tm₀, _, hM, hrun, hk, htr⟩ := mechanismF_inv ht h
  refine ⟨nb, mp, tm₀, hM, hk, htr, ?_⟩
  unfold mechRun at hrun
  simp only at hrun
  split at hrun
  · exact Or.inr ⟨hM.table, hM.nonNeg hq, hM.repBook hr, hrun⟩
  · cases hrun
    exact Or.inl ⟨rfl, rfl⟩

/-- **C82 (rationality).** Whenever the auction of the library returns in floating point arithmetic, all
buyers pay the same price, all sellers receive the same lower price, and nobody trades at a price worse
than their own by more than the rounding of a price to five decimals. -/
theorem C82_rational (F : Fmt) (s g o : Summer F) (S : Sorter) (smp : Sampler) (df : DF) (ht : IsTable df)
    (hq : NonNeg df) (hr : RepBook F df) (tm : TransactionManager) (ex : Extra)
    (h : runAlgoF F s g o S smp .huang df = .ok (tm, ex)) :
    (tm.trans = [] ∧ ex = .empty) ∨
      ∃ ps pb q : ℚ, ex = .huang (ps : Ext) (pb : Ext) q ∧ ps < pb ∧
        ∀ t ∈ tm.trans, ∃ r, df[t.bid]? = some r ∧
          ((r.buying = true ∧ t.price = pb ∧ pb ≤ r.price + tick F r.price) ∨
           (r.buying = false ∧ t.price = ps ∧ r.price - tick F r.price ≤ ps)) := by
  obtain ⟨nb, mp, tm₀, hM, hk, htr, hcase⟩ := huangRunF_inv ht hq hr h
  rcases hcase with ⟨h1, h2⟩ | ⟨h1, h2, h3, hrun⟩
  · left
    rw [htr, h1]
    exact ⟨rfl, h2⟩
  rcases C78_rational F s S nb h1 h2 h3 tm₀ ex hrun with ⟨a, b⟩ | ⟨ps, pb, q, he, hlt, hall⟩
  · left
    rw [htr, a]
    exact ⟨rfl, b⟩
  · right
    refine ⟨ps, pb, q, he, hlt, ?_⟩
    intro u hu
    rw [htr] at hu
    obtain ⟨t, htm, row, ids, r, c1, c2, c3, c4, c5, c6, c7, c8⟩ := hM.mem_lift (fun t ht => (hk t ht).1) hu
    obtain ⟨row', d1, d2⟩ := hall t htm
    rw [c1] at d1
    cases d1
    have hnear := abs_le.mp (npRoundF_near F 5 r.price)
    rw [c6] at hnear
    refine ⟨r, c4, ?_⟩
    rcases d2 with ⟨d2, d3, d4⟩ | ⟨d2, d3, d4⟩
    · exact Or.inl ⟨c5.trans d2, c7.trans d3, by unfold tick; linarith [hnear.2]⟩
    · exact Or.inr ⟨c5.trans d2, c7.trans d3, by unfold tick; linarith [hnear.1]⟩

/-- **C82 (rationality, five decimals).** If the prices have at most five decimals, nobody trades at a
price worse than their own, whatever the rounding. -/
theorem C82_rational_decimals (F : Fmt) (s g o : Summer F) (S : Sorter) (smp : Sampler) (df : DF)
    (ht : IsTable df) (hq : NonNeg df) (hr : RepBook F df) (h5 : FiveDecimalsF F df)
    (tm : TransactionManager) (ex : Extra) (h : runAlgoF F s g o S smp .huang df = .ok (tm, ex)) :
    (tm.trans = [] ∧ ex = .empty) ∨
      ∃ ps pb q : ℚ, ex = .huang (ps : Ext) (pb : Ext) q ∧ RationalAt df ps pb tm.trans := by
  obtain ⟨nb, mp, tm₀, hM, hk, htr, hcase⟩ := huangRunF_inv ht hq hr h
  rcases hcase with ⟨h1, h2⟩ | ⟨h1, h2, h3, hrun⟩
  · left
    rw [htr, h1]
    exact ⟨rfl, h2⟩
  rcases C78_rational F s S nb h1 h2 h3 tm₀ ex hrun with ⟨a, b⟩ | ⟨ps, pb, q, he, hlt, hall⟩
  · left
    rw [htr, a]
    exact ⟨rfl, b⟩
  · right
    refine ⟨ps, pb, q, he, hlt, ?_⟩
    intro u hu
    rw [htr] at hu
    obtain ⟨t, htm, row, ids, r, c1, c2, c3, c4, c5, c6, c7, c8⟩ := hM.mem_lift (fun t ht => (hk t ht).1) hu
    obtain ⟨row', d1, d2⟩ := hall t htm
    rw [c1] at d1
    cases d1
    rw [npRoundF_five h5 (List.mem_of_getElem? c4)] at c6
    refine ⟨r, c4, ?_⟩
    rw [c6]
    rcases d2 with ⟨d2, d3, d4⟩ | ⟨d2, d3, d4⟩
    · exact Or.inl ⟨c5.trans d2, c7.trans d3, d4⟩
    · exact Or.inr ⟨c5.trans d2, c7.trans d3, d4⟩

/-- **C82 (quantities), partial.** Full statement: every bid trades at most once, a non-negative
quantity, no more than its own, and as much is bought as sold. With rounding the last two hold up to
about `2n` units in the last place of the quantity of the bid and about `6n` units in the last place of
the total quantity. -/
theorem C82_quantities_partial (F : Fmt) (s g o : Summer F) (S : Sorter) (smp : Sampler) (df : DF)
    (ht : IsTable df) (hq : NonNeg df) (hr : RepBook F df) (tm : TransactionManager) (ex : Extra)
    (h : runAlgoF F s g o S smp .huang df = .ok (tm, ex)) :
    (tm.trans.map (fun t => t.bid)).Nodup ∧
    (∀ t ∈ tm.trans, 0 ≤ t.quantity ∧ t.quantity ≤ spread F (df.length + 1) * qtyOf df t.bid ∧
      F.Rep t.quantity) ∧
    |boughtQty df tm.trans - soldQty df tm.trans| ≤
      (slack F df.length + (spread F (df.length + 1) - 1)) * (spread F df.length * totalQty df) := by
  have e0 := F.eps_nonneg
  obtain ⟨nb, mp, tm₀, hM, hk, htr, hcase⟩ := huangRunF_inv ht hq hr h
  have hqty : ∀ i, 0 ≤ qtyOf df i := qtyOf_nonneg hq.qty
  have hT0 : 0 ≤ totalQty df := totalQty_nonneg (fun r hr => (hq r hr).1)
  have hS1 := one_le_spread F (df.length + 1)
  have hS2 := one_le_spread F df.length
  have hslack0 : 0 ≤ slack F df.length := by
    unfold slack
    have : 1 ≤ (1 + F.eps) ^ df.length := one_le_pow₀ (by linarith)
    have : 0 ≤ ((df.length : ℚ) + 1) * (F.eps * (1 + F.eps) ^ df.length) := by positivity
    linarith
  have hB0 : 0 ≤ (slack F df.length + (spread F (df.length + 1) - 1)) * (spread F df.length * totalQty df) := by
    apply mul_nonneg (by linarith) (mul_nonneg (by linarith) hT0)
  rcases hcase with ⟨h1, h2⟩ | ⟨h1, h2, h3, hrun⟩
  · rw [htr, h1]
    simpa using hB0
  obtain ⟨q1, q2, _⟩ := C78_quantities F s S nb h1 h2 h3 tm₀ ex hrun
  obtain ⟨q3, _⟩ := C78_balance_partial F s S nb h1 h2 h3 tm₀ ex hrun
  refine ⟨?_, ?_, ?_⟩
  · rw [htr]
    exact hM.nodup_lift q1 (fun t ht => (hk t ht).1)
  · intro u hu
    rw [htr] at hu
    obtain ⟨t, htm, row, ids, r, c1, c2, c3, c4, c5, c6, c7, c8⟩ := hM.mem_lift (fun t ht => (hk t ht).1) hu
    obtain ⟨hne, g2, _⟩ := hM.group _ row ids c1 c2
    have hl' : ∀ x ∈ ids.map (qtyOf df), 0 ≤ x := by
      intro x hx; obtain ⟨i, _, rfl⟩ := List.mem_map.mp hx; exact hqty i
    have hz := (hk t htm).2
    rw [c2, Option.getD_some] at hz
    have hT : 0 < s.sum (ids.map (qtyOf df)) := lt_of_le_of_ne ((s.isSum _).nonneg hl') (Ne.symm hz)
    obtain ⟨p1, _, _, p4⟩ := part_bounds (s.isSum (ids.map (qtyOf df))) hl' hT (hqty u.bid) (q2 t htm).1
      (n := df.length) (by rw [List.length_map]; exact hM.ids_length c2) (by simpa using hne)
    rw [c8]
    refine ⟨p1, p4 row.quantity g2 ?_, F.rep_rnd _⟩
    have := (q2 t htm).2.1
    rwa [qtyOf_some c1] at this
  · obtain ⟨l1, l2⟩ := hM.side_lift hqty (s := s) (ts := tm₀.trans)
      (fun t ht => ⟨(hk t ht).1, (hk t ht).2, (q2 t ht).1⟩)
    rw [← htr] at l1 l2
    have htot := traded_le_total (df := nb) (ts := tm₀.trans) (fun r hr => (h2 r hr).1) q1
      (fun t ht => ⟨(hk t ht).1, (q2 t ht).2.1⟩)
    have hmt := hM.total_le hqty
    have hnb0 : 0 ≤ totalQty nb := totalQty_nonneg (fun r hr => (h2 r hr).1)
    have hsl : slack F nb.length ≤ slack F df.length := by
      have hle := hM.length_le
      unfold slack
      have p1 : (1 + F.eps) ^ nb.length ≤ (1 + F.eps) ^ df.length := pow_le_pow_right₀ (by linarith) hle
      have p2 : (nb.length : ℚ) + 1 ≤ (df.length : ℚ) + 1 := by exact_mod_cast Nat.succ_le_succ hle
      have p3 : F.eps * (1 + F.eps) ^ nb.length ≤ F.eps * (1 + F.eps) ^ df.length :=
        mul_le_mul_of_nonneg_left p1 e0
      have p4 := mul_le_mul p2 p3 (by positivity) (by positivity)
      linarith
    have a1 := mul_le_mul_of_nonneg_right hsl hnb0
    have a2 : (spread F (df.length + 1) - 1) * (boughtQty nb tm₀.trans + soldQty nb tm₀.trans) ≤
        (spread F (df.length + 1) - 1) * totalQty nb := mul_le_mul_of_nonneg_left htot (by linarith)
    have a3 : (slack F df.length + (spread F (df.length + 1) - 1)) * totalQty nb ≤
        (slack F df.length + (spread F (df.length + 1) - 1)) * (spread F df.length * totalQty df) :=
      mul_le_mul_of_nonneg_left hmt (by linarith)
    rw [abs_le] at l1 l2 q3 ⊢
    constructor <;> nlinarith [l1.1, l1.2, l2.1, l2.2, q3.1, q3.2]

/-- Non-vacuity of C82: in float64 the run on `centBook` returns with three transactions. -/
example : ∃ tm ex, runAlgoF float64 (pairSummer float64) (seqSummer float64) (seqSummer float64)
      stableSorter headSampler .huang centBook = .ok (tm, ex) ∧ tm.trans.length = 3 := by
  have h : (runAlgoF float64 (pairSummer float64) (seqSummer float64) (seqSummer float64)
      stableSorter headSampler .huang centBook).toOption.any (fun r =>
      decide (r.1.trans.length = 3)) = true := by decide +kernel
  cases hr : runAlgoF float64 (pairSummer float64) (seqSummer float64) (seqSummer float64)
      stableSorter headSampler .huang centBook with
  | error e => rw [hr] at h; cases h
  | ok r => rw [hr] at h; exact ⟨r.1, r.2, rfl, of_decide_eq_true h⟩

/-- **C82, refuted part.** In float64 a bid may trade more than its quantity: the two buyers of
`centBook` at the price 5.01 are merged and get everything they ask for, 0.1 + 0.7 = 0.7999999999999999,
but the share of the buyer of 0.1 is 0.10000000000000002. -/
theorem C82_capacity_refuted :
    IsTable centBook ∧ NonNeg centBook ∧ RepBook float64 centBook ∧
    ∃ tm ex, runAlgoF float64 (pairSummer float64) (seqSummer float64) (seqSummer float64)
        stableSorter headSampler .huang centBook = .ok (tm, ex) ∧
      ∃ t ∈ tm.trans, qtyOf centBook t.bid < t.quantity := by
  refine ⟨by decide +kernel, by decide +kernel, ?_, ?_⟩
  · unfold RepBook Fmt.Rep
    decide +kernel
  have h : (runAlgoF float64 (pairSummer float64) (seqSummer float64) (seqSummer float64)
      stableSorter headSampler .huang centBook).toOption.any (fun r =>
      decide (∃ t ∈ r.1.trans, qtyOf centBook t.bid < t.quantity)) = true := by decide +kernel
  cases hr : runAlgoF float64 (pairSummer float64) (seqSummer float64) (seqSummer float64)
      stableSorter headSampler .huang centBook with
  | error e => rw [hr] at h; cases h
  | ok r => rw [hr] at h; exact ⟨r.1, r.2, rfl, of_decide_eq_true h⟩

end PyMarket
