import Verif.Props.HuangOrder
import Verif.Props.HuangTruthful

/-! # C69: merging is harmless when no prices coincide -/

set_option autoImplicit false

namespace PyMarket

/-- All prices have at most five decimals, and the prices of a side are pairwise different. -/
structure Spec.NoTies (df : DF) : Prop where
  round : ∀ r ∈ df, npRound 5 r.price = r.price
  buys : ((df.filter (fun r => r.buying)).map (fun r => r.price)).Nodup
  sells : ((df.filter (fun r => !r.buying)).map (fun r => r.price)).Nodup

open Spec

/-! ## New ids -/

/-- `e` keeps quantity, price and side, and renames the id. -/
structure Renames (τ : ℕ → ℕ) (e : Row → Row) : Prop where
  quantity : ∀ r, (e r).quantity = r.quantity
  price : ∀ r, (e r).price = r.price
  buying : ∀ r, (e r).buying = r.buying
  label : ∀ r, (e r).label = τ r.label

/-- The same transactions with other ids. -/
def renameTrans (τ : ℕ → ℕ) (ts : List Transaction) : List Transaction :=
  ts.map (fun t => { t with bid := τ t.bid })

section

variable {τ : ℕ → ℕ} {e : Row → Row} (h : Renames τ e)

include h

theorem Renames.buys_map (df : DF) : buys (df.map e) = (buys df).map e := by
  unfold buys
  rw [List.filter_map]
  congr 2
  funext r
  exact h.buying r

theorem Renames.sells_map (df : DF) : sells (df.map e) = (sells df).map e := by
  unfold sells
  rw [List.filter_map]
  congr 2
  funext r
  simp only [Function.comp_apply, h.buying r]

theorem Renames.prices (df : DF) : (df.map e).map (fun r => r.price) = df.map (fun r => r.price) := by
  rw [List.map_map]
  exact List.map_congr_left (fun r _ => h.price r)

theorem Renames.quantities (df : DF) :
    (df.map e).map (fun r => r.quantity) = df.map (fun r => r.quantity) := by
  rw [List.map_map]
  exact List.map_congr_left (fun r _ => h.quantity r)

theorem Renames.sortAsc_map (S : Sorter) (df : DF) : sortAsc S (df.map e) = (sortAsc S df).map e := by
  unfold sortAsc
  rw [takeIdx_map, h.prices]

theorem Renames.sortDesc_map (S : Sorter) (df : DF) :
    sortDesc S (df.map e) = (sortDesc S df).map e := by
  unfold sortDesc
  rw [takeIdx_map, h.prices]

theorem Renames.demandCurve_map (S : Sorter) (df : DF) :
    (demandCurve S (df.map e)).1 = (demandCurve S df).1 := by
  unfold demandCurve
  simp only
  rw [h.buys_map, h.sortDesc_map, h.quantities, h.prices]

theorem Renames.supplyCurve_map (S : Sorter) (df : DF) :
    (supplyCurve S (df.map e)).1 = (supplyCurve S df).1 := by
  unfold supplyCurve
  simp only
  rw [h.sells_map, h.sortAsc_map, h.quantities, h.prices]

theorem Renames.huangSideTrans_map (rows : DF) (qs : List ℚ) (p : ℚ) :
    huangSideTrans (rows.map e) qs p = renameTrans τ (huangSideTrans rows qs p) := by
  unfold huangSideTrans renameTrans
  rw [List.zip_map_left, List.map_map, List.map_map]
  apply List.map_congr_left
  intro x _
  simp only [Function.comp_apply, Prod.map_fst, Prod.map_snd, id_eq, h.label]

theorem Renames.huangAuction_map (S : Sorter) {df : DF} {tm : TransactionManager} {ex : Extra}
    (hr : huangAuction S df = .ok (tm, ex)) :
    ∃ tm', huangAuction S (df.map e) = .ok (tm', ex) ∧ tm'.trans = renameTrans τ tm.trans := by
  unfold huangAuction at hr ⊢
  simp only [h.demandCurve_map, h.supplyCurve_map, h.buys_map, h.sells_map, h.sortDesc_map,
    h.sortAsc_map, ← List.map_take, h.quantities, h.huangSideTrans_map, bind, Except.bind]
  simp only [bind, Except.bind] at hr
  split at hr
  · cases hr
  rename_i i hi
  split at hr
  · split at hr
    · split at hr
      · rename_i hpos
        simp only [hpos, and_self, if_true]
        split at hr
        · rename_i hgap
          simp only [hgap, if_true]
          split at hr
          · cases hr
          · cases hr
            refine ⟨_, rfl, ?_⟩
            rw [TransactionManager.init_addAll_trans, TransactionManager.init_addAll_trans]
            unfold renameTrans
            rw [List.map_append]
        · rename_i hgap
          simp only [hgap, if_false]
          split at hr
          · cases hr
          · cases hr
            refine ⟨_, rfl, ?_⟩
            rw [TransactionManager.init_addAll_trans, TransactionManager.init_addAll_trans]
            unfold renameTrans
            rw [List.map_append]
      · rename_i hpos
        simp only [hpos, if_false]
        cases hr
        exact ⟨_, rfl, rfl⟩
    · cases hr
  · cases hr
    exact ⟨_, rfl, rfl⟩

end

/-- With different prices on each side the order of the rows does not matter. -/
theorem huangAuction_perm (S : Sorter) {df df' : DF} (hp : df.Perm df')
    (hb : ((buys df).map (fun r => r.price)).Nodup)
    (hs : ((sells df).map (fun r => r.price)).Nodup) : huangAuction S df = huangAuction S df' := by
  have e1 : sortDesc S (buys df) = sortDesc S (buys df') :=
    perm_prices_eq (sortDesc_perm S _) ((sortDesc_perm S _).trans (hp.filter _).symm) hb
      (fun a b => b ≤ a) (fun _ _ h1 h2 => le_antisymm h2 h1) (sortDesc_sorted S _)
      (sortDesc_sorted S _)
  have e2 : sortAsc S (sells df) = sortAsc S (sells df') :=
    perm_prices_eq (sortAsc_perm S _) ((sortAsc_perm S _).trans (hp.filter _).symm) hs
      (fun a b => a ≤ b) (fun _ _ h1 h2 => le_antisymm h1 h2) (sortAsc_sorted S _)
      (sortAsc_sorted S _)
  have d1 : demandCurve S df = demandCurve S df' := by unfold demandCurve; rw [e1]
  have d2 : supplyCurve S df = supplyCurve S df' := by unfold supplyCurve; rw [e2]
  unfold huangAuction
  rw [d1, d2, e1, e2]

/-- Without ties every group has one member. -/
theorem MergeSpec.singleton {df nb : DF} {mp : List (List ℕ)} (h : MergeSpec df nb mp)
    (ht : IsTable df) (hn : NoTies df) {k : ℕ} {row : Row} (hk : nb[k]? = some row) :
    ∃ i r, mp[k]? = some [i] ∧ df[i]? = some r ∧ r.buying = row.buying ∧ r.price = row.price ∧
      r.quantity = row.quantity := by
  have hlt := (List.getElem?_eq_some_iff.mp hk).1
  obtain ⟨row', ids, h1, h2, h3, h4, h5, h6⟩ := h.get hlt
  rw [hk] at h1
  cases h1
  have hnd : ids.Nodup := (List.nodup_flatten.mp h.flatten_nodup).1 _ (List.mem_of_getElem? h2)
  have hone : ∀ i ∈ ids, ∀ j ∈ ids, i = j := by
    intro i hi j hj
    obtain ⟨r, hr, hb, hround⟩ := h6 i hi
    obtain ⟨r', hr', hb', hround'⟩ := h6 j hj
    have hm := List.mem_of_getElem? hr
    have hm' := List.mem_of_getElem? hr'
    have hpp : r.price = r'.price := by
      rw [← hn.round r hm, ← hn.round r' hm', hround, hround']
    have : r = r' := by
      cases hside : row.buying with
      | true =>
        exact List.inj_on_of_nodup_map hn.buys (List.mem_filter.mpr ⟨hm, by rw [hb, hside]⟩)
          (List.mem_filter.mpr ⟨hm', by rw [hb', hside]⟩) hpp
      | false =>
        exact List.inj_on_of_nodup_map hn.sells (List.mem_filter.mpr ⟨hm, by rw [hb, hside]; rfl⟩)
          (List.mem_filter.mpr ⟨hm', by rw [hb', hside]; rfl⟩) hpp
    rw [← ht.label hr, ← ht.label hr', this]
  cases ids with
  | nil => exact absurd rfl h3
  | cons i ids =>
    cases ids with
    | cons j ids =>
      exfalso
      have := hone i (by simp) j (by simp)
      subst this
      simp at hnd
    | nil =>
      obtain ⟨r, hr, hb, hround⟩ := h6 i (by simp)
      refine ⟨i, r, h2, hr, hb, ?_, ?_⟩
      · rw [← hround, hn.round r (List.mem_of_getElem? hr)]
      · rw [h4]; simp [qtyOf_some hr]

/-- The id that a merged bid came from. -/
def groupHead (mp : List (List ℕ)) (k : ℕ) : ℕ := ((mp[k]?).getD []).headD 0

/-- **C69.** On a book without ties, `HuangAuction` with its merging of equal prices and splitting of
the transactions does what `huang_auction` does on the submitted book: the same extra information and the
same list of transactions. -/
theorem C69_no_ties (S : Sorter) (smp : Sampler) (df : DF) (ht : IsTable df) (hp : Pos df)
    (hn : NoTies df) : ∃ tm tm' ex, huangAuction S df = .ok (tm, ex) ∧
      runAlgo S smp .huang df = .ok (tm', ex) ∧ tm'.trans = tm.trans := by
  obtain ⟨nb, mp, hm, hM⟩ := merge_spec smp ht hp.groupPos
  have hex : ∀ {D : DF}, IsTable D → NonNeg D → ∃ tm ex, huangAuction S D = .ok (tm, ex) ∧
      ∀ t ∈ tm.trans, t.bid < D.length := by
    intro D h1 h2
    rcases huang_direct S h1 h2 with h' | ⟨tm, ps, pb, q, h', hO, -⟩
    · exact ⟨_, _, h', by intro t ht; cases ht⟩
    · exact ⟨_, _, h', fun t ht => (hO.trade t ht).id_lt⟩
  obtain ⟨tm₀, ex₀, hr₀, hlt₀⟩ := hex hM.table (hM.pos hp.nonNeg).nonNeg
  -- the merged book is the submitted one, in another order and with other ids
  have hlen : nb.length = df.length := by
    have h1 := hM.perm.length_eq
    rw [List.length_range, List.length_flatten] at h1
    rw [← h1, ← hM.length]
    have : ∀ l ∈ mp, l.length = 1 := by
      intro l hl
      obtain ⟨k, hk⟩ := List.getElem?_of_mem hl
      have hkl : k < nb.length := by
        rw [← hM.length]; exact (List.getElem?_eq_some_iff.mp hk).1
      obtain ⟨i, r, g1, _⟩ := hM.singleton ht hn (List.getElem?_eq_getElem hkl)
      rw [hk] at g1
      cases g1
      rfl
    rw [List.map_congr_left this]
    simp
  let e : Row → Row := fun r =>
    ⟨⟨r.quantity, r.price, 0, r.buying, 0, true⟩, groupHead mp r.label⟩
  have he : Renames (groupHead mp) e := ⟨fun _ => rfl, fun _ => rfl, fun _ => rfl, fun _ => rfl⟩
  have hperm : (nb.map e).Perm (df.map strip) := by
    have hsub : ∀ a ∈ nb.map e, a ∈ df.map strip := by
      intro a ha
      obtain ⟨row, hrow, rfl⟩ := List.mem_map.mp ha
      obtain ⟨i, r, g1, g2, g3, g4, g5⟩ := hM.singleton ht hn (hM.table.get_label hrow)
      refine List.mem_map.mpr ⟨r, List.mem_of_getElem? g2, ?_⟩
      simp only [strip, e, groupHead, g1, Option.getD_some, List.headD_cons, g3, g4, g5,
        ht.label g2]
    have hnd : (nb.map e).Nodup := by
      apply List.Nodup.of_map (fun r => r.label)
      rw [List.map_map, List.nodup_map_iff_inj_on hM.table.nodup.of_map]
      intro a ha b hb hab
      obtain ⟨i, r, g1, -⟩ := hM.singleton ht hn (hM.table.get_label ha)
      obtain ⟨j, r', g1', -⟩ := hM.singleton ht hn (hM.table.get_label hb)
      simp only [Function.comp_apply, e, groupHead, g1, g1', Option.getD_some,
        List.headD_cons] at hab
      subst hab
      exact hM.table.inj ha hb (hM.group_unique (i := i) g1 g1' (by simp) (by simp))
    apply List.Subperm.perm_of_length_le (List.subperm_of_subset hnd hsub)
    simp [hlen]
  obtain ⟨tm, hr, htr⟩ := he.huangAuction_map S hr₀
  have hdirect : huangAuction S df = .ok (tm, ex₀) := by
    rw [← strip_keeps.huangAuction_map S df, ← hr]
    refine (huangAuction_perm S hperm ?_ ?_).symm
    · rw [he.buys_map, he.prices]; exact hM.buyPrices
    · rw [he.sells_map, he.prices]; exact hM.sellPrices
  -- the split transactions
  have hsplit : tm₀.trans.flatMap (splitT df mp) = tm.trans := by
    rw [htr]
    unfold renameTrans
    rw [← List.flatMap_singleton' (tm₀.trans.map _), List.flatMap_map]
    apply List.flatMap_congr
    intro t htm
    have hl := hlt₀ t htm
    obtain ⟨i, r, g1, g2, _, _, g5⟩ := hM.singleton ht hn (List.getElem?_eq_getElem hl)
    have hpos := (hp r (List.mem_of_getElem? g2)).1
    unfold splitT groupHead
    simp only [g1, Option.getD_some, List.map_cons, List.map_nil, List.sum_cons, List.sum_nil,
      add_zero, List.headD_cons, qtyOf_some g2, div_self hpos.ne', mul_one]
  by_cases hside : (buys nb).length ≠ 0 ∧ (buys nb).length ≠ nb.length
  · have hrun : mechRun (huangAuction S) nb = .ok (tm₀, ex₀) := by
      unfold mechRun; simp only; rw [if_pos hside]; exact hr₀
    obtain ⟨tm', e1, e2⟩ := mechanism_merge smp (huangAuction S) hm hM hrun hlt₀
    exact ⟨tm, tm', ex₀, hdirect, e1, by rw [e2, hsplit]⟩
  · -- one side is missing
    have hrun : mechRun (huangAuction S) nb = .ok (TransactionManager.init, .empty) := by
      unfold mechRun; simp only; rw [if_neg hside]
    obtain ⟨tm', e1, e2⟩ := mechanism_merge smp (huangAuction S) hm hM hrun (by intro t h; cases h)
    have hempty : huangAuction S nb = .ok (TransactionManager.init, .empty) := by
      rcases huang_cases S (hM.pos hp.nonNeg).nonNeg with ⟨h', _⟩ | ⟨x, ps, pb, hc, _⟩
      · exact h'
      exfalso
      obtain ⟨mb, hb1, _⟩ := hc.marginal_buy (hM.pos hp.nonNeg).nonNeg
      obtain ⟨ms, hs1, _⟩ := hc.marginal_sell
      have hmb := mem_sortDesc.mp (List.mem_of_getElem? hb1)
      have hms := mem_sells.mp (mem_sortAsc.mp (List.mem_of_getElem? hs1))
      apply hside
      constructor
      · intro h0
        rw [List.length_eq_zero_iff.mp h0] at hmb
        cases hmb
      · intro h0
        have : ∀ a ∈ nb, a.buying = true := by
          unfold buys at h0
          exact List.length_filter_eq_length_iff.mp h0
        rw [this ms hms.1] at hms
        cases hms.2
    rw [hempty] at hr₀
    cases hr₀
    exact ⟨tm, tm', _, hdirect, e1, by rw [e2, ← hsplit]⟩

/-- **C69, reports.** For the class `HuangAuction` too, a user with one bid gains nothing by reporting
another price, as long as the book has no ties with either report. So the only way to gain
(`C59_refuted`) is to report somebody else's price. -/
theorem C69_truthful (S : Sorter) (smp : Sampler) (df : DF) (ht : IsTable df) (hp : Pos df)
    (hn : NoTies df) (i : ℕ) (r : Row) (hi : df[i]? = some r)
    (hs : ∀ a ∈ df, a.user = r.user → a = r) (w : ℚ) (hw : 0 ≤ w)
    (hn' : NoTies (df.set i { r with price := w })) (tm tm' : TransactionManager) (ex ex' : Extra)
    (h : runAlgo S smp .huang df = .ok (tm, ex))
    (h' : runAlgo S smp .huang (df.set i { r with price := w }) = .ok (tm', ex')) :
    surplusOf df (priceOf df) r.user tm'.trans ≤ surplusOf df (priceOf df) r.user tm.trans := by
  have hR := repriced_set ht hi w
  have hp' : Pos (df.set i { r with price := w }) := by
    intro a ha
    rcases List.mem_or_eq_of_mem_set ha with ha | rfl
    · exact hp a ha
    · exact ⟨(hp r (List.mem_of_getElem? hi)).1, hw⟩
  obtain ⟨t₁, t₂, e₁, a1, a2, a3⟩ := C69_no_ties S smp df ht hp hn
  obtain ⟨t₁', t₂', e₁', b1, b2, b3⟩ := C69_no_ties S smp _ hR.table' hp' hn'
  rw [h] at a2
  rw [h'] at b2
  cases a2
  cases b2
  rw [a3, b3]
  refine C59_truthful_partial S df ht hp.nonNeg i r.user r hi rfl hs ?_ w hw t₁ t₁' _ _ a1 b1
  cases hb : r.buying with
  | true =>
    have e : df.filter (fun a => a.buying == true) = df.filter (fun a => a.buying) := by
      apply List.filter_congr; intro a _; simp
    rw [e]; exact hn.buys
  | false =>
    have e : df.filter (fun a => a.buying == false) = df.filter (fun a => !a.buying) := by
      apply List.filter_congr; intro a _; simp
    rw [e]; exact hn.sells

/-- A case that meets the hypotheses: `curtailBook`, where bid 2 reports 17/2 instead of 8; the outcome is
the same for the class and for the function. -/
example : IsTable curtailBook ∧ Pos curtailBook ∧ NoTies curtailBook ∧
    NoTies (curtailBook.set 2 ⟨⟨2, 17 / 2, 2, true, 0, true⟩, 2⟩) ∧
    (∀ a ∈ curtailBook, a.user = 2 → a = ⟨⟨2, 8, 2, true, 0, true⟩, 2⟩) ∧
    (runAlgo stableSorter headSampler .huang curtailBook).toOption.map (fun o => o.1.trans) =
      some [⟨4, 3, 2, -1, false⟩, ⟨0, 1, 6, -1, false⟩, ⟨1, 1, 6, -1, false⟩,
        ⟨2, 1, 6, -1, false⟩] ∧
    (huangAuction stableSorter curtailBook).toOption.map (fun o => o.1.trans) =
      some [⟨4, 3, 2, -1, false⟩, ⟨0, 1, 6, -1, false⟩, ⟨1, 1, 6, -1, false⟩,
        ⟨2, 1, 6, -1, false⟩] := by
  refine ⟨by decide +kernel, by decide +kernel, ⟨?_, ?_, ?_⟩, ⟨?_, ?_, ?_⟩, ?_, ?_, ?_⟩ <;>
    decide +kernel

/-- Ties matter. With two buyers at the same price the class curtails them together: they
get 5/4 units each and the third buyer 1/2, where the function gives 1 unit to each. -/
theorem C69_ties_matter :
    (runAlgo stableSorter headSampler .huang
      (curtailBook.set 2 ⟨⟨2, 9, 2, true, 0, true⟩, 2⟩)).toOption.map
        (fun o => [0, 1, 2].map (tradedBy o.1.trans)) = some [1 / 2, 5 / 4, 5 / 4] ∧
    (huangAuction stableSorter
      (curtailBook.set 2 ⟨⟨2, 9, 2, true, 0, true⟩, 2⟩)).toOption.map
        (fun o => [0, 1, 2].map (tradedBy o.1.trans)) = some [1, 1, 1] := by
  decide +kernel

end PyMarket
