import Verif.Model.Nan
import Verif.Props.MergedRuns

/-! # Splitting the transactions of merged bids when some merged bids have total quantity 0 -/

set_option autoImplicit false

namespace PyMarket

open Spec

/-- The entries of a log with a finite quantity, as transactions. -/
def Spec.proper (l : List TransV) : List Transaction :=
  l.filterMap (fun e => match e.quantity with
    | .fin q => some ⟨e.bid, q, e.price, e.source, e.active⟩
    | _ => none)

/-- The rows that replace `t`. -/
def splitV (df : DF) (mp : List (List ℕ)) (t : Transaction) : List TransV :=
  ((mp[t.bid]?).getD []).map (fun i =>
    ⟨i, (Val.quot (qtyOf df i) (((mp[t.bid]?).getD []).map (qtyOf df)).sum).times t.quantity,
      t.price, t.source, t.active⟩)

theorem splitOneV_ok {bids : DF} {mp : List (List ℕ)} {t : Transaction} {ids : List ℕ}
    (hm : mp[t.bid]? = some ids) (hin : ∀ i ∈ ids, i < bids.length) :
    splitOneV bids mp t = .ok (splitV bids mp t) := by
  unfold splitOneV splitV
  rw [hm]
  simp only [members_length bids ids hin, qsum_members bids ids hin, ne_eq, not_true_eq_false,
    if_false, Option.getD_some]
  congr 1
  exact zip_members bids ids hin (fun i q => (⟨i, (Val.quot q (ids.map (qtyOf bids)).sum).times t.quantity,
    t.price, t.source, t.active⟩ : TransV))

theorem splitAllV_ok {bids : DF} {mp : List (List ℕ)} {ts : List Transaction}
    (h : ∀ t ∈ ts, ∃ ids, mp[t.bid]? = some ids ∧ ∀ i ∈ ids, i < bids.length) :
    splitAllV bids mp ts = .ok (ts.flatMap (splitV bids mp)) := by
  induction ts with
  | nil => rfl
  | cons t ts ih =>
    obtain ⟨ids, hm, hin⟩ := h t List.mem_cons_self
    unfold splitAllV
    rw [splitOneV_ok hm hin, ih (fun t' ht' => h t' (List.mem_cons_of_mem _ ht'))]
    rfl

/-- The total of the group that `t` refers to. -/
def groupTotal (df : DF) (mp : List (List ℕ)) (t : Transaction) : ℚ :=
  (((mp[t.bid]?).getD []).map (qtyOf df)).sum

theorem proper_append (l l' : List TransV) : proper (l ++ l') = proper l ++ proper l' := by
  simp [proper, List.filterMap_append]

theorem proper_toV (l : List Transaction) : proper (l.map Transaction.toV) = l := by
  induction l with
  | nil => rfl
  | cons t l ih => simpa [proper, Transaction.toV] using ih

theorem quot_zero_times (a k : ℚ) : ∀ q, (Val.quot a 0).times k ≠ .fin q := by
  intro q
  unfold Val.quot
  simp only [ne_eq, not_true_eq_false, if_false]
  split_ifs <;> simp only [Val.times] <;> (try split_ifs) <;> simp

theorem proper_splitV (df : DF) (mp : List (List ℕ)) (t : Transaction) :
    proper (splitV df mp t) = if groupTotal df mp t = 0 then [] else splitT df mp t := by
  unfold splitV splitT groupTotal
  generalize (mp[t.bid]?).getD [] = ids
  generalize hT : (ids.map (qtyOf df)).sum = T
  clear hT
  split_ifs with h0
  · subst h0
    unfold proper
    rw [List.filterMap_eq_nil_iff]
    intro e he
    obtain ⟨i, _, rfl⟩ := List.mem_map.mp he
    have := quot_zero_times (qtyOf df i) t.quantity
    simp only
  · unfold proper
    induction ids with
    | nil => rfl
    | cons i ids ih =>
      rw [List.map_cons, List.map_cons, List.filterMap_cons, ih]
      simp [Val.quot, h0, Val.times]

theorem proper_flatMap (df : DF) (mp : List (List ℕ)) (ts : List Transaction) :
    proper (ts.flatMap (splitV df mp)) =
      (ts.filter (fun t => decide (groupTotal df mp t ≠ 0))).flatMap (splitT df mp) := by
  induction ts with
  | nil => rfl
  | cons t ts ih =>
    rw [List.flatMap_cons, proper_append, ih, proper_splitV, List.filter_cons]
    by_cases h : groupTotal df mp t = 0 <;> simp [h]

/-- `MergeSpec` for books in which a group may have total quantity 0. -/
structure MergeSpec0 (df nb : DF) (mp : List (List ℕ)) : Prop where
  table : IsTable nb
  qty : ∀ r ∈ nb, 0 ≤ r.quantity
  length : mp.length = nb.length
  perm : mp.flatten.Perm (List.range df.length)
  group : ∀ (k : ℕ) (row : Row) (ids : List ℕ), nb[k]? = some row → mp[k]? = some ids →
    ids ≠ [] ∧ row.quantity = (ids.map (qtyOf df)).sum ∧
      ∀ i ∈ ids, ∃ r, df[i]? = some r ∧ r.buying = row.buying ∧ npRound 5 r.price = row.price
  same : ∀ r ∈ df, ∀ r' ∈ df, (∃ ids ∈ mp, r.label ∈ ids ∧ r'.label ∈ ids) ↔
    r.buying = r'.buying ∧ npRound 5 r.price = npRound 5 r'.price
  buyPrices : ((nb.filter (fun r => r.buying)).map (fun r => r.price)).Nodup
  sellPrices : ((nb.filter (fun r => !r.buying)).map (fun r => r.price)).Nodup

theorem merge_spec0 (smp : Sampler) {df : DF} (ht : IsTable df) (hq : ∀ r ∈ df, 0 ≤ r.quantity) :
    ∃ nb mp, mergeSamePrice smp df = .ok (nb, mp) ∧ MergeSpec0 df nb mp := by
  obtain ⟨nb, mp, h1, h2, h3, h4, h5, h6, nbuy, nsell, h7, h8, h9, h10, h11⟩ :=
    C34_merge_partition smp df 5 ht
  have hgrp : ∀ (k : ℕ) (row : Row) (ids : List ℕ), nb[k]? = some row → mp[k]? = some ids →
    ids ≠ [] ∧ row.quantity = (ids.map (qtyOf df)).sum ∧
      ∀ i ∈ ids, ∃ r, df[i]? = some r ∧ r.buying = row.buying ∧ npRound 5 r.price = row.price := by
    intro k row ids hr hi
    obtain ⟨g1, g2, g3⟩ := h5 k row ids hr hi
    refine ⟨g1, g2, ?_⟩
    intro i hi
    obtain ⟨r, hr, hb, hround⟩ := g3 i hi
    exact ⟨r, hr, hb, isRounded_unique (npRound_isRounded 5 _) hround⟩
  refine ⟨nb, mp, h1, h2, ?_, h3, h4, hgrp, ?_, ?_, ?_⟩
  · intro row hrow
    obtain ⟨k, hk⟩ := List.getElem?_of_mem hrow
    have hkl : k < mp.length := by
      rw [h3]; exact (List.getElem?_eq_some_iff.mp hk).1
    obtain ⟨g1, g2, g3⟩ := hgrp k row _ hk (List.getElem?_eq_getElem hkl)
    rw [g2]
    apply List.sum_nonneg
    intro q hq'
    obtain ⟨i, hi, rfl⟩ := List.mem_map.mp hq'
    obtain ⟨r, hr, _⟩ := g3 i hi
    rw [qtyOf_some hr]
    exact hq r (List.mem_of_getElem? hr)
  · intro r hr r' hr'
    rw [h6 r hr r' hr']
    refine and_congr_right (fun _ => ⟨?_, ?_⟩)
    · rintro ⟨y, hy, hy'⟩
      rw [isRounded_unique (npRound_isRounded 5 _) hy, isRounded_unique (npRound_isRounded 5 _) hy']
    · intro e
      exact ⟨_, npRound_isRounded 5 _, by rw [e]; exact npRound_isRounded 5 _⟩
  · have e1 : nb.filter (fun r => r.buying) = nbuy := by
      rw [h7, List.filter_append, List.filter_eq_self.mpr h8, List.filter_eq_nil_iff.mpr,
        List.append_nil]
      intro r hr; simp [h9 r hr]
    rw [e1]
    exact (List.pairwise_map.mpr h10).imp (fun h => ne_of_lt h)
  · have e1 : nb.filter (fun r => !r.buying) = nsell := by
      have f1 : nbuy.filter (fun r => !r.buying) = [] := by
        rw [List.filter_eq_nil_iff]; intro r hr; simp [h8 r hr]
      have f2 : nsell.filter (fun r => !r.buying) = nsell := by
        rw [List.filter_eq_self]; intro r hr; simp [h9 r hr]
      rw [h7, List.filter_append, f1, f2, List.nil_append]
    rw [e1]
    exact (List.pairwise_map.mpr h11).imp (fun h => ne_of_lt h)

namespace MergeSpec0

variable {df nb : DF} {mp : List (List ℕ)}

theorem get (h : MergeSpec0 df nb mp) {k : ℕ} (hk : k < nb.length) : ∃ row ids, nb[k]? = some row ∧
    mp[k]? = some ids ∧ ids ≠ [] ∧ row.quantity = (ids.map (qtyOf df)).sum ∧ 0 ≤ row.quantity ∧
      ∀ i ∈ ids, ∃ r, df[i]? = some r ∧ r.buying = row.buying ∧ npRound 5 r.price = row.price := by
  have hk' : k < mp.length := by rw [h.length]; exact hk
  obtain ⟨g1, g2, g3⟩ := h.group k _ _ (List.getElem?_eq_getElem hk) (List.getElem?_eq_getElem hk')
  exact ⟨_, _, List.getElem?_eq_getElem hk, List.getElem?_eq_getElem hk', g1, g2,
    h.qty _ (List.getElem_mem hk), g3⟩

theorem total (h : MergeSpec0 df nb mp) {t : Transaction} (ht : t.bid < nb.length) :
    groupTotal df mp t = qtyOf nb t.bid := by
  obtain ⟨row, ids, g1, g2, _, g4, _⟩ := h.get ht
  unfold groupTotal
  rw [g2, Option.getD_some, qtyOf_some g1, g4]

theorem nonNeg (h : MergeSpec0 df nb mp) (hn : NonNeg df) : NonNeg nb := by
  intro row hrow
  refine ⟨h.qty row hrow, ?_⟩
  obtain ⟨row', ids, g1, g2, g3, _, _, g6⟩ := h.get (h.table.label_lt hrow)
  rw [h.table.get_label hrow] at g1
  cases g1
  obtain ⟨i, hi⟩ := List.exists_mem_of_ne_nil _ g3
  obtain ⟨r, hr, _, hround⟩ := g6 i hi
  rw [← hround]
  exact npRound_nonneg 5 (hn r (List.mem_of_getElem? hr)).2

/-- Every original bid is in exactly one group. -/
theorem exists_group (h : MergeSpec0 df nb mp) {i : ℕ} (hi : i < df.length) :
    ∃ (k : ℕ) (ids : List ℕ), k < nb.length ∧ mp[k]? = some ids ∧ i ∈ ids := by
  have : i ∈ mp.flatten := h.perm.mem_iff.mpr (List.mem_range.mpr hi)
  obtain ⟨ids, hids, hm⟩ := List.mem_flatten.mp this
  obtain ⟨k, hk⟩ := List.getElem?_of_mem hids
  refine ⟨k, ids, ?_, hk, hm⟩
  rw [← h.length]; exact (List.getElem?_eq_some_iff.mp hk).1

theorem flatten_nodup (h : MergeSpec0 df nb mp) : mp.flatten.Nodup :=
  h.perm.nodup_iff.mpr List.nodup_range

theorem group_unique (h : MergeSpec0 df nb mp) {k k' : ℕ} {ids ids' : List ℕ} {i : ℕ}
    (hk : mp[k]? = some ids) (hk' : mp[k']? = some ids') (hi : i ∈ ids) (hi' : i ∈ ids') :
    k = k' := by
  have hn := h.flatten_nodup
  rw [List.nodup_flatten] at hn
  have hd := List.pairwise_iff_getElem.mp hn.2
  obtain ⟨hl, e⟩ := List.getElem?_eq_some_iff.mp hk
  obtain ⟨hl', e'⟩ := List.getElem?_eq_some_iff.mp hk'
  rcases lt_trichotomy k k' with hlt | heq | hlt
  · have := hd k k' hl hl' hlt
    rw [e, e'] at this
    exact absurd hi' (this hi)
  · exact heq
  · have := hd k' k hl' hl hlt
    rw [e, e'] at this
    exact absurd hi (this hi')

theorem ids_nodup (h : MergeSpec0 df nb mp) {k : ℕ} {ids : List ℕ} (hk : mp[k]? = some ids) :
    ids.Nodup := by
  have hn := h.flatten_nodup
  rw [List.nodup_flatten] at hn
  exact hn.1 ids (List.mem_of_getElem? hk)

/-- A row of the log comes from a transaction of a merged bid. -/
theorem mem_rows (h : MergeSpec0 df nb mp) {ts : List Transaction}
    (hts : ∀ t ∈ ts, t.bid < nb.length) {e : TransV} (he : e ∈ ts.flatMap (splitV df mp)) :
    ∃ t ∈ ts, ∃ row r, nb[t.bid]? = some row ∧ df[e.bid]? = some r ∧ r.buying = row.buying ∧
      npRound 5 r.price = row.price ∧ e.price = t.price ∧ e.source = t.source ∧ e.active = t.active ∧
      e.quantity = (Val.quot r.quantity row.quantity).times t.quantity ∧
      ∃ ids, mp[t.bid]? = some ids ∧ e.bid ∈ ids := by
  obtain ⟨t, ht, hs⟩ := List.mem_flatMap.mp he
  obtain ⟨row, ids, h1, h2, h3, h4, h5, h6⟩ := h.get (hts t ht)
  unfold splitV at hs
  rw [h2, Option.getD_some] at hs
  obtain ⟨i, hi, rfl⟩ := List.mem_map.mp hs
  obtain ⟨r, hr, hb, hp⟩ := h6 i hi
  exact ⟨t, ht, row, r, h1, hr, hb, hp, rfl, rfl, rfl, by simp only [h4, qtyOf_some hr], ids, h2, hi⟩

/-- Every member of a merged bid with a transaction has its row. -/
theorem rows_mem {ts : List Transaction} {t : Transaction} (ht : t ∈ ts) {ids : List ℕ}
    (hids : mp[t.bid]? = some ids) {i : ℕ} (hi : i ∈ ids) :
    ∃ e ∈ ts.flatMap (splitV df mp), e.bid = i ∧
      e.quantity = (Val.quot (qtyOf df i) (ids.map (qtyOf df)).sum).times t.quantity := by
  refine ⟨⟨i, _, t.price, t.source, t.active⟩, List.mem_flatMap.mpr ⟨t, ht, ?_⟩, rfl, rfl⟩
  unfold splitV
  rw [hids, Option.getD_some]
  exact List.mem_map.mpr ⟨i, hi, rfl⟩

theorem rows_bids (h : MergeSpec0 df nb mp) {t : Transaction} (ht : t.bid < nb.length) :
    ∃ ids, mp[t.bid]? = some ids ∧ (splitV df mp t).map (fun e => e.bid) = ids := by
  obtain ⟨row, ids, h1, h2, _⟩ := h.get ht
  refine ⟨ids, h2, ?_⟩
  unfold splitV
  rw [h2, Option.getD_some, List.map_map]
  exact List.map_id ids

/-- At most one transaction per merged bid gives at most one row per original bid. -/
theorem rows_nodup (h : MergeSpec0 df nb mp) {ts : List Transaction}
    (hts : ∀ t ∈ ts, t.bid < nb.length) (hn : (ts.map (fun t => t.bid)).Nodup) :
    ((ts.flatMap (splitV df mp)).map (fun e => e.bid)).Nodup := by
  induction ts with
  | nil => simp
  | cons t ts ih =>
    have hts' : ∀ t ∈ ts, t.bid < nb.length := fun t' ht' => hts t' (List.mem_cons_of_mem _ ht')
    rw [List.map_cons, List.nodup_cons] at hn
    rw [List.flatMap_cons, List.map_append, List.nodup_append]
    obtain ⟨ids, h2, e⟩ := h.rows_bids (hts t List.mem_cons_self)
    rw [e]
    refine ⟨h.ids_nodup h2, ih hts' hn.2, ?_⟩
    intro a ha b hb hab
    subst hab
    obtain ⟨t', ht', hta⟩ := List.mem_map.mp hb
    obtain ⟨t₂, ht₂, _, _, _, _, _, _, _, _, _, _, ids₂, hids₂, hmem⟩ := h.mem_rows hts' ht'
    rw [hta] at hmem
    have := h.group_unique h2 hids₂ ha hmem
    apply hn.1
    rw [this]
    exact List.mem_map_of_mem ht₂

theorem split_sums (h : MergeSpec0 df nb mp) {t : Transaction} (ht : t.bid < nb.length)
    (h0 : groupTotal df mp t ≠ 0) :
    boughtQty df (splitT df mp t) = (if isBuy nb t.bid then t.quantity else 0) ∧
    soldQty df (splitT df mp t) = if isSell nb t.bid then t.quantity else 0 := by
  obtain ⟨row, ids, h1, h2, h3, h4, h5, h6⟩ := h.get ht
  have hpos : 0 < (ids.map (qtyOf df)).sum := by
    rw [← h4]
    rw [h.total ht, qtyOf_some h1] at h0
    exact lt_of_le_of_ne h5 (Ne.symm h0)
  have hside : ∀ i ∈ ids, isBuy df i = row.buying ∧ isSell df i = !row.buying := by
    intro i hi
    obtain ⟨r, hr, hb, _⟩ := h6 i hi
    rw [isBuy_some hr, isSell_some hr, hb]; exact ⟨rfl, rfl⟩
  have hsum := (C36_split_conserves df ids t.quantity hpos).1
  unfold boughtQty soldQty splitT
  rw [isBuy_some h1, isSell_some h1, h2, Option.getD_some, List.filter_map, List.filter_map]
  cases hb : row.buying with
  | true =>
    constructor
    · rw [List.filter_eq_self.mpr, List.map_map]
      · exact hsum
      · intro i hi; simp [(hside i hi).1, hb]
    · rw [List.filter_eq_nil_iff.mpr]
      · simp
      · intro i hi; simp [(hside i hi).2, hb]
  | false =>
    constructor
    · rw [List.filter_eq_nil_iff.mpr]
      · simp
      · intro i hi; simp [(hside i hi).1, hb]
    · rw [List.filter_eq_self.mpr, List.map_map]
      · exact hsum
      · intro i hi; simp [(hside i hi).2, hb]

/-- The proper entries trade what the transactions of the merged bids trade, if those of the empty
merged bids trade nothing. -/
theorem proper_sums (h : MergeSpec0 df nb mp) {ts : List Transaction}
    (hts : ∀ t ∈ ts, t.bid < nb.length) (hz : ∀ t ∈ ts, qtyOf nb t.bid = 0 → t.quantity = 0) :
    boughtQty df (proper (ts.flatMap (splitV df mp))) = boughtQty nb ts ∧
    soldQty df (proper (ts.flatMap (splitV df mp))) = soldQty nb ts := by
  induction ts with
  | nil => exact ⟨rfl, rfl⟩
  | cons t ts ih =>
    obtain ⟨i1, i2⟩ := ih (fun t' ht' => hts t' (List.mem_cons_of_mem _ ht'))
      (fun t' ht' => hz t' (List.mem_cons_of_mem _ ht'))
    have hlt := hts t List.mem_cons_self
    have e1 : boughtQty nb (t :: ts) = (if isBuy nb t.bid then t.quantity else 0) + boughtQty nb ts := by
      unfold boughtQty; rw [List.filter_cons]; split_ifs <;> simp
    have e2 : soldQty nb (t :: ts) = (if isSell nb t.bid then t.quantity else 0) + soldQty nb ts := by
      unfold soldQty; rw [List.filter_cons]; split_ifs <;> simp
    rw [List.flatMap_cons, proper_append, boughtQty_append, soldQty_append, i1, i2, e1, e2, proper_splitV]
    by_cases h0 : groupTotal df mp t = 0
    · have hq := hz t List.mem_cons_self (by rw [← h.total hlt]; exact h0)
      rw [if_pos h0, hq]
      simp
    · obtain ⟨s1, s2⟩ := h.split_sums hlt h0
      rw [if_neg h0, s1, s2]
      exact ⟨rfl, rfl⟩

/-- A proper entry comes from a transaction of a merged bid of positive quantity. -/
theorem mem_proper (h : MergeSpec0 df nb mp) {ts : List Transaction}
    (hts : ∀ t ∈ ts, t.bid < nb.length) {t' : Transaction}
    (ht' : t' ∈ proper (ts.flatMap (splitV df mp))) :
    ∃ t ∈ ts, ∃ row r, nb[t.bid]? = some row ∧ df[t'.bid]? = some r ∧ r.buying = row.buying ∧
      npRound 5 r.price = row.price ∧ t'.price = t.price ∧ t'.source = t.source ∧
      t'.active = t.active ∧ t'.quantity = t.quantity * (r.quantity / row.quantity) ∧
      0 < row.quantity := by
  rw [proper_flatMap] at ht'
  obtain ⟨t, ht, hs⟩ := List.mem_flatMap.mp ht'
  obtain ⟨htm, h0⟩ := List.mem_filter.mp ht
  obtain ⟨row, ids, h1, h2, h3, h4, h5, h6⟩ := h.get (hts t htm)
  rw [decide_eq_true_eq, h.total (hts t htm), qtyOf_some h1] at h0
  unfold splitT at hs
  rw [h2, Option.getD_some] at hs
  obtain ⟨i, hi, rfl⟩ := List.mem_map.mp hs
  obtain ⟨r, hr, hb, hp⟩ := h6 i hi
  refine ⟨t, htm, row, r, h1, hr, hb, hp, rfl, rfl, rfl, ?_, lt_of_le_of_ne h5 (Ne.symm h0)⟩
  simp only [h4, qtyOf_some hr]

/-- The quantity that the proper entries of an original bid trade. -/
theorem tradedBy_proper (h : MergeSpec0 df nb mp) {ts : List Transaction}
    (hts : ∀ t ∈ ts, t.bid < nb.length) {k i : ℕ} {ids : List ℕ} {row r : Row}
    (hk : mp[k]? = some ids) (hrow : nb[k]? = some row) (hi : i ∈ ids) (hr : df[i]? = some r) :
    tradedBy (proper (ts.flatMap (splitV df mp))) i = tradedBy ts k * (r.quantity / row.quantity) := by
  induction ts with
  | nil => simp [tradedBy, proper]
  | cons t ts ih =>
    have hts' : ∀ t ∈ ts, t.bid < nb.length := fun t' ht' => hts t' (List.mem_cons_of_mem _ ht')
    rw [List.flatMap_cons, proper_append, tradedBy_append, ih hts', proper_splitV]
    have hq : row.quantity = (ids.map (qtyOf df)).sum := (h.group k row ids hrow hk).2.1
    have hone : tradedBy (if groupTotal df mp t = 0 then [] else splitT df mp t) i =
        if t.bid = k then t.quantity * (r.quantity / row.quantity) else 0 := by
      obtain ⟨row', ids', h1, h2, _⟩ := h.get (hts t List.mem_cons_self)
      by_cases hbk : t.bid = k
      · rw [if_pos hbk]
        by_cases h0 : groupTotal df mp t = 0
        · rw [h.total (hts t List.mem_cons_self), hbk, qtyOf_some hrow] at h0
          rw [h.total (hts t List.mem_cons_self), hbk, qtyOf_some hrow, if_pos h0, h0]
          simp [tradedBy]
        · rw [if_neg h0]
          unfold tradedBy splitT
          rw [hbk, hk] at h2
          cases h2
          rw [hbk, hk, Option.getD_some, List.filter_map, List.map_map]
          have hf : ids.filter ((fun t : Transaction => t.bid == i) ∘ fun i =>
              (⟨i, t.quantity * (qtyOf df i / (ids.map (qtyOf df)).sum), t.price, t.source,
                t.active⟩ : Transaction)) = [i] := by
            have : ids.filter (fun j => j == i) = [i] := by
              rw [List.filter_beq, List.count_eq_one_of_mem (h.ids_nodup hk) hi]; rfl
            exact this
          rw [hf]
          simp [qtyOf, hr, hq]
      · rw [if_neg hbk]
        have : tradedBy (splitT df mp t) i = 0 := by
          unfold tradedBy splitT
          rw [h2, Option.getD_some, List.filter_map, List.map_map]
          have hf : ids'.filter ((fun t : Transaction => t.bid == i) ∘ fun i =>
              (⟨i, t.quantity * (qtyOf df i / (ids'.map (qtyOf df)).sum), t.price, t.source,
                t.active⟩ : Transaction)) = [] := by
            rw [List.filter_eq_nil_iff]
            intro j hj hji
            simp only [Function.comp, beq_iff_eq] at hji
            rw [hji] at hj
            exact hbk (h.group_unique h2 hk hj hi)
          rw [hf]; rfl
        split_ifs
        · simp [tradedBy]
        · exact this
    rw [hone]
    unfold tradedBy
    rw [List.filter_cons]
    by_cases hbk : t.bid = k
    · simp only [hbk, beq_self_eq_true, if_true, List.map_cons, List.sum_cons]; ring
    · have : (t.bid == k) = false := by simpa using hbk
      simp [hbk, this]

end MergeSpec0

/-- In a log that conserves quantities, the entries of an empty bid are empty. -/
theorem Spec.Conserves.le {df : DF} {ts : List Transaction} (h : Conserves df ts) {t : Transaction}
    (ht : t ∈ ts) : t.quantity ≤ qtyOf df t.bid := by
  refine le_trans ?_ (h.bounded t.bid)
  unfold tradedBy
  apply List.single_le_sum
  · intro q hq
    obtain ⟨t', ht', rfl⟩ := List.mem_map.mp hq
    exact (h.entries t' (List.mem_of_mem_filter ht')).2
  · exact List.mem_map_of_mem (List.mem_filter.mpr ⟨ht, by simp⟩)

theorem MergeSpec0.conserves {df nb : DF} {mp : List (List ℕ)} (hM : MergeSpec0 df nb mp)
    (hq : ∀ r ∈ df, 0 ≤ r.quantity) {ts : List Transaction} (h : Conserves nb ts) :
    Conserves df (proper (ts.flatMap (splitV df mp))) := by
  have hlt : ∀ t ∈ ts, t.bid < nb.length := fun t ht => (h.entries t ht).1
  have hz : ∀ t ∈ ts, qtyOf nb t.bid = 0 → t.quantity = 0 := fun t ht h0 =>
    le_antisymm (h0 ▸ h.le ht) (h.entries t ht).2
  have hent : ∀ t ∈ proper (ts.flatMap (splitV df mp)), t.bid < df.length ∧ 0 ≤ t.quantity := by
    intro t' ht'
    obtain ⟨t, htm, row, r, g1, g2, g3, g4, g5, g6, g7, g8, g9⟩ := hM.mem_proper hlt ht'
    refine ⟨(List.getElem?_eq_some_iff.mp g2).1, ?_⟩
    rw [g8]
    exact mul_nonneg (h.entries t htm).2
      (div_nonneg (hq r (List.mem_of_getElem? g2)) g9.le)
  refine ⟨hent, ?_, ?_⟩
  · intro i
    by_cases hi : i < df.length
    · obtain ⟨k, ids, hk, hids, hmem⟩ := hM.exists_group hi
      obtain ⟨row, ids', h1, h2, _, h4, h5, h6⟩ := hM.get hk
      rw [hids] at h2
      cases h2
      obtain ⟨r, hr, _⟩ := h6 i hmem
      rw [hM.tradedBy_proper hlt hids h1 hmem hr, qtyOf_some hr]
      have hb := h.bounded k
      rw [qtyOf_some h1] at hb
      have hr0 := hq r (List.mem_of_getElem? hr)
      rcases h5.lt_or_eq with h5 | h5
      · calc tradedBy ts k * (r.quantity / row.quantity)
            ≤ row.quantity * (r.quantity / row.quantity) :=
              mul_le_mul_of_nonneg_right hb (div_nonneg hr0 h5.le)
          _ = r.quantity := by rw [mul_div_cancel₀ _ h5.ne']
      · rw [← h5]; simpa using hr0
    · have h0 : tradedBy (proper (ts.flatMap (splitV df mp))) i = 0 := by
        unfold tradedBy
        rw [List.filter_eq_nil_iff.mpr]
        · rfl
        · intro t ht hti
          rw [beq_iff_eq] at hti
          exact hi (hti ▸ (hent t ht).1)
      have h1 : qtyOf df i = 0 := by
        simp [qtyOf, List.getElem?_eq_none (not_lt.mp hi)]
      rw [h0, h1]
  · obtain ⟨e1, e2⟩ := hM.proper_sums hlt hz
    rw [e1, e2]
    exact h.balanced

/-- Running an algorithm with merging. -/
theorem mechanismV_merge (smp : Sampler) (algo : Algo) {df nb : DF} {mp : List (List ℕ)}
    (hm : mergeSamePrice smp df = .ok (nb, mp)) (h : MergeSpec0 df nb mp)
    {tm : TransactionManager} {ex : Extra} (hrun : mechRun algo nb = .ok (tm, ex))
    (hts : ∀ t ∈ tm.trans, t.bid < nb.length) :
    mechanismV smp true algo df = .ok (tm.trans.flatMap (splitV df mp), ex) := by
  unfold mechanismV
  have : splitAllV df mp tm.getDf = .ok (tm.trans.flatMap (splitV df mp)) := by
    apply splitAllV_ok
    intro t ht
    obtain ⟨row, ids, _, h2, _, _, _, h6⟩ := h.get (hts t ht)
    refine ⟨ids, h2, fun i hi => ?_⟩
    obtain ⟨r, hr, _⟩ := h6 i hi
    exact (List.getElem?_eq_some_iff.mp hr).1
  simp only [if_true, hm, bind, Except.bind, hrun, this]

end PyMarket
