import Verif.Props.Merge
import Verif.Spec.Outcome
import Verif.Model.Mechanism

/-! # Lemmas transferring an outcome through merging and splitting -/

set_option autoImplicit false

namespace PyMarket

open Spec

@[simp] theorem boughtQty_nil (df : DF) : boughtQty df [] = 0 := rfl
@[simp] theorem soldQty_nil (df : DF) : soldQty df [] = 0 := rfl

theorem boughtQty_append (df : DF) (l l' : List Transaction) :
    boughtQty df (l ++ l') = boughtQty df l + boughtQty df l' := by simp [boughtQty]

theorem soldQty_append (df : DF) (l l' : List Transaction) :
    soldQty df (l ++ l') = soldQty df l + soldQty df l' := by simp [soldQty]

theorem paid_append (df : DF) (l l' : List Transaction) :
    paid df (l ++ l') = paid df l + paid df l' := by simp [paid]

theorem received_append (df : DF) (l l' : List Transaction) :
    received df (l ++ l') = received df l + received df l' := by simp [received]

theorem tradedBy_append (l l' : List Transaction) (i : ℕ) :
    tradedBy (l ++ l') i = tradedBy l i + tradedBy l' i := by simp [tradedBy]

/-- What the merged table `nb` and the mapping `mp` of the table `df` look like. -/
structure MergeSpec (df nb : DF) (mp : List (List ℕ)) : Prop where
  table : IsTable nb
  qty : ∀ r ∈ nb, 0 < r.quantity
  length : mp.length = nb.length
  perm : mp.flatten.Perm (List.range df.length)
  group : ∀ (k : ℕ) (row : Row) (ids : List ℕ), nb[k]? = some row → mp[k]? = some ids →
    ids ≠ [] ∧ row.quantity = (ids.map (qtyOf df)).sum ∧
      ∀ i ∈ ids, ∃ r, df[i]? = some r ∧ r.buying = row.buying ∧ npRound 5 r.price = row.price
  buyPrices : ((nb.filter (fun r => r.buying)).map (fun r => r.price)).Nodup
  sellPrices : ((nb.filter (fun r => !r.buying)).map (fun r => r.price)).Nodup

theorem Spec.Pos.groupPos {df : DF} (h : Pos df) : GroupPos df :=
  ⟨h.nonNeg, fun r hr => ⟨r, hr, rfl, ⟨_, npRound_isRounded 5 _, npRound_isRounded 5 _⟩, (h r hr).1⟩⟩

/-- Positive quantities suffice. -/
theorem groupQty_of_pos {df : DF} (h : ∀ r ∈ df, 0 < r.quantity) : GroupQty df :=
  ⟨fun r hr => (h r hr).le, fun r hr =>
    ⟨r, hr, rfl, ⟨_, npRound_isRounded 5 _, npRound_isRounded 5 _⟩, h r hr⟩⟩

theorem flatten_nodup_inj {α : Type*} {l : List (List α)} (h : l.flatten.Nodup) {a b : List α}
    (ha : a ∈ l) (hb : b ∈ l) {x : α} (hxa : x ∈ a) (hxb : x ∈ b) : a = b := by
  have hd := List.pairwise_iff_getElem.mp (List.nodup_flatten.mp h).2
  obtain ⟨i, hi, rfl⟩ := List.getElem_of_mem ha
  obtain ⟨j, hj, rfl⟩ := List.getElem_of_mem hb
  rcases lt_trichotomy i j with hlt | rfl | hlt
  · exact absurd hxb (hd i j hi hj hlt hxa)
  · rfl
  · exact absurd hxa (hd j i hj hi hlt hxb)

theorem merge_spec_qty (smp : Sampler) {df : DF} (ht : IsTable df) (hp : GroupQty df) :
    ∃ nb mp, mergeSamePrice smp df = .ok (nb, mp) ∧ MergeSpec df nb mp := by
  obtain ⟨nb, mp, h1, h2, h3, h4, h5, h6, nbuy, nsell, h7, h8, h9, h10, h11⟩ :=
    C34_merge_partition smp df 5 ht
  have hgrp : ∀ (k : ℕ) (row : Row) (ids : List ℕ), nb[k]? = some row → mp[k]? = some ids →
    ids ≠ [] ∧ row.quantity = (ids.map (qtyOf df)).sum ∧
      ∀ i ∈ ids, ∃ r, df[i]? = some r ∧ r.buying = row.buying ∧ npRound 5 r.price = row.price := by
    intro k row ids hr hi
    obtain ⟨g1, g2, g3⟩ := h5 k row ids hr hi
    refine ⟨g1, g2, ?_⟩
    intro i hi
    obtain ⟨r, hr, hb, hround⟩ := g3 i hi
    exact ⟨r, hr, hb, isRounded_unique (npRound_isRounded 5 _) hround⟩
  refine ⟨nb, mp, h1, h2, ?_, h3, h4, hgrp, ?_, ?_⟩
  · intro row hrow
    obtain ⟨k, hk⟩ := List.getElem?_of_mem hrow
    have hkl : k < mp.length := by
      rw [h3]; exact (List.getElem?_eq_some_iff.mp hk).1
    obtain ⟨g1, g2, g3⟩ := hgrp k row _ hk (List.getElem?_eq_getElem hkl)
    have hpos : ∀ i ∈ mp[k], 0 ≤ qtyOf df i := by
      intro i hi
      obtain ⟨r, hr, _⟩ := g3 i hi
      simp only [qtyOf, hr, Option.map_some, Option.getD_some]
      exact hp.1 r (List.mem_of_getElem? hr)
    · obtain ⟨i, hi⟩ := List.exists_mem_of_ne_nil _ g1
      obtain ⟨r, hr, _⟩ := g3 i hi
      have hrm := List.mem_of_getElem? hr
      obtain ⟨r', hr', hb', ⟨y, hy, hy'⟩, hq'⟩ := hp.2 r hrm
      obtain ⟨ids, hids, hm, hm'⟩ := (h6 r hrm r' hr').mpr ⟨hb'.symm, y, hy, hy'⟩
      rw [ht.label hr] at hm
      have hnd : mp.flatten.Nodup := h4.nodup_iff.mpr List.nodup_range
      rw [flatten_nodup_inj hnd hids (List.getElem_mem hkl) hm hi] at hm'
      rw [g2]
      refine lt_of_lt_of_le ?_ (List.single_le_sum ?_ _ (List.mem_map_of_mem hm'))
      · rw [ht.qty_eq hr']; exact hq'
      · intro q hq
        obtain ⟨i, hi, rfl⟩ := List.mem_map.mp hq
        exact hpos i hi
  · have e1 : nb.filter (fun r => r.buying) = nbuy := by
      rw [h7, List.filter_append, List.filter_eq_self.mpr h8, List.filter_eq_nil_iff.mpr,
        List.append_nil]
      intro r hr; simp [h9 r hr]
    rw [e1]
    exact (List.pairwise_map.mpr h10).imp (fun h => ne_of_lt h)
  · have e1 : nb.filter (fun r => !r.buying) = nsell := by
      have f1 : nbuy.filter (fun r => !r.buying) = [] := by
        rw [List.filter_eq_nil_iff]; intro r hr; simp [h8 r hr]
      have f2 : nsell.filter (fun r => !r.buying) = nsell := by
        rw [List.filter_eq_self]; intro r hr; simp [h9 r hr]
      rw [h7, List.filter_append, f1, f2, List.nil_append]
    rw [e1]
    exact (List.pairwise_map.mpr h11).imp (fun h => ne_of_lt h)

theorem merge_spec (smp : Sampler) {df : DF} (ht : IsTable df) (hp : GroupPos df) :
    ∃ nb mp, mergeSamePrice smp df = .ok (nb, mp) ∧ MergeSpec df nb mp :=
  merge_spec_qty smp ht hp.groupQty

/-- The transactions that replace `t`. -/
def splitT (df : DF) (mp : List (List ℕ)) (t : Transaction) : List Transaction :=
  ((mp[t.bid]?).getD []).map (fun i =>
    ⟨i, t.quantity * (qtyOf df i / (((mp[t.bid]?).getD []).map (qtyOf df)).sum),
      t.price, t.source, t.active⟩)

namespace MergeSpec

variable {df nb : DF} {mp : List (List ℕ)}

theorem get (h : MergeSpec df nb mp) {k : ℕ} (hk : k < nb.length) : ∃ row ids, nb[k]? = some row ∧
    mp[k]? = some ids ∧ ids ≠ [] ∧ row.quantity = (ids.map (qtyOf df)).sum ∧ 0 < row.quantity ∧
      ∀ i ∈ ids, ∃ r, df[i]? = some r ∧ r.buying = row.buying ∧ npRound 5 r.price = row.price := by
  have hk' : k < mp.length := by rw [h.length]; exact hk
  obtain ⟨g1, g2, g3⟩ := h.group k _ _ (List.getElem?_eq_getElem hk) (List.getElem?_eq_getElem hk')
  exact ⟨_, _, List.getElem?_eq_getElem hk, List.getElem?_eq_getElem hk', g1, g2,
    h.qty _ (List.getElem_mem hk), g3⟩

theorem pos (h : MergeSpec df nb mp) (hn : NonNeg df) : Pos nb := by
  intro row hrow
  refine ⟨h.qty row hrow, ?_⟩
  obtain ⟨row', ids, g1, g2, g3, _, _, g6⟩ := h.get (h.table.label_lt hrow)
  rw [h.table.get_label hrow] at g1
  cases g1
  obtain ⟨i, hi⟩ := List.exists_mem_of_ne_nil _ g3
  obtain ⟨r, hr, _, hround⟩ := g6 i hi
  rw [← hround]
  exact npRound_nonneg 5 (hn r (List.mem_of_getElem? hr)).2

theorem splittable (h : MergeSpec df nb mp) {ts : List Transaction}
    (hts : ∀ t ∈ ts, t.bid < nb.length) : Splittable df mp ts := by
  intro t ht
  obtain ⟨row, ids, _, h2, _, h4, h5, h6⟩ := h.get (hts t ht)
  refine ⟨ids, h2, ?_, by rw [← h4]; exact h5⟩
  intro i hi
  obtain ⟨r, hr, _⟩ := h6 i hi
  exact (List.getElem?_eq_some_iff.mp hr).1

theorem boughtQty_split (h : MergeSpec df nb mp) {t : Transaction} (ht : t.bid < nb.length) :
    boughtQty df (splitT df mp t) = if isBuy nb t.bid then t.quantity else 0 := by
  obtain ⟨row, ids, h1, h2, h3, h4, h5, h6⟩ := h.get ht
  have hside : ∀ i ∈ ids, isBuy df i = row.buying := by
    intro i hi
    obtain ⟨r, hr, hb, _⟩ := h6 i hi
    simp [isBuy, hr, hb]
  have e : isBuy nb t.bid = row.buying := by simp [isBuy, h1]
  have hsum := (C36_split_conserves df ids t.quantity (by rw [← h4]; exact h5)).1
  unfold boughtQty splitT
  rw [e, h2, Option.getD_some, List.filter_map]
  cases hb : row.buying with
  | true =>
    rw [List.filter_eq_self.mpr, List.map_map]
    · exact hsum
    · intro i hi; simp [hside i hi, hb]
  | false =>
    rw [List.filter_eq_nil_iff.mpr]
    · simp
    · intro i hi; simp [hside i hi, hb]

theorem soldQty_split (h : MergeSpec df nb mp) {t : Transaction} (ht : t.bid < nb.length) :
    soldQty df (splitT df mp t) = if isSell nb t.bid then t.quantity else 0 := by
  obtain ⟨row, ids, h1, h2, h3, h4, h5, h6⟩ := h.get ht
  have hside : ∀ i ∈ ids, isSell df i = !row.buying := by
    intro i hi
    obtain ⟨r, hr, hb, _⟩ := h6 i hi
    simp [isSell, hr, hb]
  have e : isSell nb t.bid = !row.buying := by simp [isSell, h1]
  have hsum := (C36_split_conserves df ids t.quantity (by rw [← h4]; exact h5)).1
  unfold soldQty splitT
  rw [e, h2, Option.getD_some, List.filter_map]
  cases hb : row.buying with
  | false =>
    rw [List.filter_eq_self.mpr, List.map_map]
    · exact hsum
    · intro i hi; simp [hside i hi, hb]
  | true =>
    rw [List.filter_eq_nil_iff.mpr]
    · simp
    · intro i hi; simp [hside i hi, hb]

theorem boughtQty_lift (h : MergeSpec df nb mp) {ts : List Transaction}
    (hts : ∀ t ∈ ts, t.bid < nb.length) :
    boughtQty df (ts.flatMap (splitT df mp)) = boughtQty nb ts := by
  induction ts with
  | nil => rfl
  | cons t ts ih =>
    rw [List.flatMap_cons, boughtQty_append, ih (fun t' ht' => hts t' (List.mem_cons_of_mem _ ht')),
      h.boughtQty_split (hts t List.mem_cons_self)]
    unfold boughtQty
    rw [List.filter_cons]
    split_ifs <;> simp

theorem soldQty_lift (h : MergeSpec df nb mp) {ts : List Transaction}
    (hts : ∀ t ∈ ts, t.bid < nb.length) :
    soldQty df (ts.flatMap (splitT df mp)) = soldQty nb ts := by
  induction ts with
  | nil => rfl
  | cons t ts ih =>
    rw [List.flatMap_cons, soldQty_append, ih (fun t' ht' => hts t' (List.mem_cons_of_mem _ ht')),
      h.soldQty_split (hts t List.mem_cons_self)]
    unfold soldQty
    rw [List.filter_cons]
    split_ifs <;> simp

/-- A transaction of the split outcome comes from a transaction of a merged bid. -/
theorem mem_lift (h : MergeSpec df nb mp) {ts : List Transaction}
    (hts : ∀ t ∈ ts, t.bid < nb.length) {t' : Transaction}
    (ht' : t' ∈ ts.flatMap (splitT df mp)) :
    ∃ t ∈ ts, ∃ row r, nb[t.bid]? = some row ∧ df[t'.bid]? = some r ∧ r.buying = row.buying ∧
      npRound 5 r.price = row.price ∧ t'.price = t.price ∧ t'.source = t.source ∧
      t'.active = t.active ∧ t'.quantity = t.quantity * (r.quantity / row.quantity) ∧
      0 < row.quantity ∧ ∃ ids, mp[t.bid]? = some ids ∧ t'.bid ∈ ids := by
  obtain ⟨t, ht, hs⟩ := List.mem_flatMap.mp ht'
  obtain ⟨row, ids, h1, h2, h3, h4, h5, h6⟩ := h.get (hts t ht)
  unfold splitT at hs
  rw [h2, Option.getD_some] at hs
  obtain ⟨i, hi, rfl⟩ := List.mem_map.mp hs
  obtain ⟨r, hr, hb, hp⟩ := h6 i hi
  refine ⟨t, ht, row, r, h1, hr, hb, hp, rfl, rfl, rfl, ?_, h5, ids, h2, hi⟩
  simp only [h4, qtyOf, hr, Option.map_some, Option.getD_some]

/-- Conversely every member of a traded merged bid has its transaction. -/
theorem lift_mem (_h : MergeSpec df nb mp) {ts : List Transaction} {t : Transaction} (ht : t ∈ ts)
    {ids : List ℕ} (hids : mp[t.bid]? = some ids) {i : ℕ} (hi : i ∈ ids) :
    ∃ t' ∈ ts.flatMap (splitT df mp), t'.bid = i ∧ t'.price = t.price := by
  refine ⟨⟨i, t.quantity * (qtyOf df i / (ids.map (qtyOf df)).sum), t.price, t.source, t.active⟩,
    List.mem_flatMap.mpr ⟨t, ht, ?_⟩, rfl, rfl⟩
  unfold splitT
  rw [hids, Option.getD_some]
  exact List.mem_map.mpr ⟨i, hi, rfl⟩

/-- Every original bid is in exactly one group. -/
theorem exists_group (h : MergeSpec df nb mp) {i : ℕ} (hi : i < df.length) :
    ∃ (k : ℕ) (ids : List ℕ), k < nb.length ∧ mp[k]? = some ids ∧ i ∈ ids := by
  have : i ∈ mp.flatten := h.perm.mem_iff.mpr (List.mem_range.mpr hi)
  obtain ⟨ids, hids, hm⟩ := List.mem_flatten.mp this
  obtain ⟨k, hk⟩ := List.getElem?_of_mem hids
  refine ⟨k, ids, ?_, hk, hm⟩
  rw [← h.length]; exact (List.getElem?_eq_some_iff.mp hk).1

theorem flatten_nodup (h : MergeSpec df nb mp) : mp.flatten.Nodup :=
  h.perm.nodup_iff.mpr List.nodup_range

theorem group_unique (h : MergeSpec df nb mp) {k k' : ℕ} {ids ids' : List ℕ} {i : ℕ}
    (hk : mp[k]? = some ids) (hk' : mp[k']? = some ids') (hi : i ∈ ids) (hi' : i ∈ ids') :
    k = k' := by
  have hn := h.flatten_nodup
  rw [List.nodup_flatten] at hn
  have hd := List.pairwise_iff_getElem.mp hn.2
  obtain ⟨hl, e⟩ := List.getElem?_eq_some_iff.mp hk
  obtain ⟨hl', e'⟩ := List.getElem?_eq_some_iff.mp hk'
  rcases lt_trichotomy k k' with hlt | heq | hlt
  · have := hd k k' hl hl' hlt
    rw [e, e'] at this
    exact absurd hi' (this hi)
  · exact heq
  · have := hd k' k hl' hl hlt
    rw [e, e'] at this
    exact absurd hi (this hi')

theorem ids_nodup (h : MergeSpec df nb mp) {k : ℕ} {ids : List ℕ} (hk : mp[k]? = some ids) :
    ids.Nodup := by
  have hn := h.flatten_nodup
  rw [List.nodup_flatten] at hn
  exact hn.1 ids (List.mem_of_getElem? hk)

/-- At most one transaction per merged bid gives at most one per original bid. -/
theorem nodup_lift (h : MergeSpec df nb mp) {ts : List Transaction}
    (hts : ∀ t ∈ ts, t.bid < nb.length) (hn : (ts.map (fun t => t.bid)).Nodup) :
    ((ts.flatMap (splitT df mp)).map (fun t => t.bid)).Nodup := by
  induction ts with
  | nil => simp
  | cons t ts ih =>
    have hts' : ∀ t ∈ ts, t.bid < nb.length := fun t' ht' => hts t' (List.mem_cons_of_mem _ ht')
    rw [List.map_cons, List.nodup_cons] at hn
    rw [List.flatMap_cons, List.map_append, List.nodup_append]
    obtain ⟨row, ids, h1, h2, _⟩ := h.get (hts t List.mem_cons_self)
    have e : (splitT df mp t).map (fun t => t.bid) = ids := by
      unfold splitT
      rw [h2, Option.getD_some, List.map_map]
      exact List.map_id ids
    rw [e]
    refine ⟨h.ids_nodup h2, ih hts' hn.2, ?_⟩
    intro a ha b hb hab
    subst hab
    obtain ⟨t', ht', hta⟩ := List.mem_map.mp hb
    obtain ⟨t₂, ht₂, _, _, _, _, _, _, _, _, _, _, _, ids₂, hids₂, hmem⟩ := h.mem_lift hts' ht'
    rw [hta] at hmem
    have := h.group_unique h2 hids₂ ha hmem
    apply hn.1
    rw [this]
    exact List.mem_map_of_mem ht₂

/-- The traded quantity of a merged bid is distributed proportionally. -/
theorem tradedBy_lift (h : MergeSpec df nb mp) {ts : List Transaction}
    (hts : ∀ t ∈ ts, t.bid < nb.length) {k i : ℕ} {ids : List ℕ} {row r : Row}
    (hk : mp[k]? = some ids) (hrow : nb[k]? = some row) (hi : i ∈ ids) (hr : df[i]? = some r) :
    tradedBy (ts.flatMap (splitT df mp)) i = tradedBy ts k * (r.quantity / row.quantity) := by
  induction ts with
  | nil => simp [tradedBy]
  | cons t ts ih =>
    have hts' : ∀ t ∈ ts, t.bid < nb.length := fun t' ht' => hts t' (List.mem_cons_of_mem _ ht')
    rw [List.flatMap_cons, tradedBy_append, ih hts']
    have hq : row.quantity = (ids.map (qtyOf df)).sum := (h.group k row ids hrow hk).2.1
    have hone : tradedBy (splitT df mp t) i =
        if t.bid = k then t.quantity * (r.quantity / row.quantity) else 0 := by
      obtain ⟨row', ids', h1, h2, _⟩ := h.get (hts t List.mem_cons_self)
      unfold tradedBy splitT
      rw [h2, Option.getD_some, List.filter_map, List.map_map]
      split_ifs with hbk
      · rw [hbk, hk] at h2
        cases h2
        have hf : ids.filter ((fun t : Transaction => t.bid == i) ∘ fun i =>
            (⟨i, t.quantity * (qtyOf df i / (ids.map (qtyOf df)).sum), t.price, t.source,
              t.active⟩ : Transaction)) = [i] := by
          have hnd := h.ids_nodup hk
          have : ids.filter (fun j => j == i) = [i] := by
            rw [List.filter_beq, List.count_eq_one_of_mem hnd hi]; rfl
          exact this
        rw [hf]
        simp [qtyOf, hr, hq]
      · have hf : ids'.filter ((fun t : Transaction => t.bid == i) ∘ fun i =>
            (⟨i, t.quantity * (qtyOf df i / (ids'.map (qtyOf df)).sum), t.price, t.source,
              t.active⟩ : Transaction)) = [] := by
          rw [List.filter_eq_nil_iff]
          intro j hj hji
          simp only [Function.comp, beq_iff_eq] at hji
          rw [hji] at hj
          exact hbk (h.group_unique h2 hk hj hi)
        rw [hf]; rfl
    rw [hone]
    unfold tradedBy
    rw [List.filter_cons]
    by_cases hbk : t.bid = k
    · simp only [hbk, beq_self_eq_true, if_true, List.map_cons, List.sum_cons]; ring
    · have : (t.bid == k) = false := by simpa using hbk
      simp [hbk, this]

end MergeSpec

/-- Running an algorithm with merging. -/
theorem mechanism_merge (smp : Sampler) (algo : Algo) {df nb : DF} {mp : List (List ℕ)}
    (hm : mergeSamePrice smp df = .ok (nb, mp)) (h : MergeSpec df nb mp)
    {tm : TransactionManager} {ex : Extra} (hrun : mechRun algo nb = .ok (tm, ex))
    (hts : ∀ t ∈ tm.trans, t.bid < nb.length) :
    ∃ tm', mechanism smp true algo df = .ok (tm', ex) ∧
      tm'.trans = tm.trans.flatMap (splitT df mp) := by
  obtain ⟨tm', h1, h2⟩ := C36_split df mp tm (h.splittable hts)
  refine ⟨tm', ?_, h2⟩
  unfold mechanism
  simp only [if_true, hm, bind, Except.bind, hrun, h1]

end PyMarket
