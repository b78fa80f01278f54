import Verif.Lemmas.HuangReport

/-! # C59: reporting the true price to Huang's auction -/

set_option autoImplicit false

namespace PyMarket

open Spec

/-- What a bid in front of the marginal one trades. -/
structure HuangWin (S : Sorter) (df : DF) (r : Row) (x ps pb cs cb : ℚ) : Prop where
  cross : Crossing S df x
  supply : supplyAt S df x = (ps : Ext)
  demand : demandAt S df x = (pb : Ext)
  sellers : huangA S df x ≠ []
  buyers : huangB S df x ≠ []
  cs_nonneg : 0 ≤ cs
  cb_nonneg : 0 ≤ cb
  either : cs = 0 ∨ cb = 0
  sumA : (cut cs ((huangA S df x).map (fun r => r.quantity))).sum =
    min (qsum (huangA S df x)) (qsum (huangB S df x))
  sumB : (cut cb ((huangB S df x).map (fun r => r.quantity))).sum =
    min (qsum (huangA S df x)) (qsum (huangB S df x))
  mem : r ∈ huangA S df x ∨ r ∈ huangB S df x

theorem huang_bid (S : Sorter) {df : DF} (ht : IsTable df) (hn : NonNeg df) {tm : TransactionManager}
    {ex : Extra} (h : huangAuction S df = .ok (tm, ex)) {i : ℕ} {r : Row} (hi : df[i]? = some r) :
    (∀ t ∈ tm.trans, t.bid ≠ i) ∨ ∃ x ps pb cs cb, HuangWin S df r x ps pb cs cb ∧
      (r.buying = true → r ∈ huangB S df x ∧ tradedBy tm.trans i = max (r.quantity - cb) 0 ∧
        ∀ t ∈ tm.trans, t.bid = i → t.price = pb) ∧
      (r.buying = false → r ∈ huangA S df x ∧ tradedBy tm.trans i = max (r.quantity - cs) 0 ∧
        ∀ t ∈ tm.trans, t.bid = i → t.price = ps) := by
  by_cases hex : ∃ t ∈ tm.trans, t.bid = i
  swap
  · left; push Not at hex; exact hex
  right
  obtain ⟨t₀, ht₀, hb₀⟩ := hex
  have hnd : (tm.trans.map (fun t => t.bid)).Nodup := by
    rcases huang_direct S ht hn with h' | ⟨tm', ps, pb, q, h', hO, -⟩
    · rw [h] at h'; cases h'; exact List.nodup_nil
    · rw [h] at h'; cases h'; exact hO.nodup
  have htr := tradedBy_nodup hnd ht₀
  rw [hb₀] at htr
  have huniq : ∀ t ∈ tm.trans, t.bid = i → t = t₀ := fun t htm hb =>
    List.inj_on_of_nodup_map hnd htm ht₀ (by rw [hb, hb₀])
  rcases huang_cases S hn with ⟨h', _⟩ | ⟨x, ps, pb, hc, hps, hpb, hlt, hcase⟩
  · rw [h] at h'; cases h'; cases ht₀
  rcases hcase with ⟨hB, hA, cs, cb, hcs, hcb, hor, hsA, hsB, heq⟩ | ⟨hor, heq⟩
  swap
  · rw [h] at heq; cases heq; cases ht₀
  rw [h] at heq
  cases heq
  have sB := huangB_spec hn hc hpb
  have sA := huangA_spec hc hps
  have hlab := ht.label hi
  have hrm := List.mem_of_getElem? hi
  have ht₀' := ht₀
  rw [TransactionManager.init_addAll_trans] at ht₀'
  rcases List.mem_append.mp ht₀' with h' | h'
  · obtain ⟨a, ha, rfl⟩ := List.mem_map.mp h'
    have : a = r := ht.inj (sA.1 a ha).1 hrm (by rw [hlab]; exact hb₀)
    subst this
    have hs := (sA.1 a ha).2.1
    refine ⟨x, ps, pb, cs, cb, ⟨hc, hps, hpb, hA, hB, hcs, hcb, hor, hsA, hsB, Or.inl ha⟩, ?_, ?_⟩
    · intro hb; rw [hs] at hb; cases hb
    · intro _
      exact ⟨ha, htr, fun t htm hb => by rw [huniq t htm hb]⟩
  · obtain ⟨a, ha, rfl⟩ := List.mem_map.mp h'
    have : a = r := ht.inj (sB.1 a ha).1 hrm (by rw [hlab]; exact hb₀)
    subst this
    have hs := (sB.1 a ha).2.1
    refine ⟨x, ps, pb, cs, cb, ⟨hc, hps, hpb, hA, hB, hcs, hcb, hor, hsA, hsB, Or.inr ha⟩, ?_, ?_⟩
    · intro _
      exact ⟨ha, htr, fun t htm hb => by rw [huniq t htm hb]⟩
    · intro hb; rw [hs] at hb; cases hb

/-- A bid in front of the marginal one trades, once there are such bids on both sides. -/
theorem huang_wins (S : Sorter) {df : DF} (hn : NonNeg df) {tm : TransactionManager}
    {ex : Extra} (h : huangAuction S df = .ok (tm, ex)) {x : ℚ} (hc : Crossing S df x)
    (hA : huangA S df x ≠ []) (hB : huangB S df x ≠ []) {r : Row}
    (hr : r ∈ huangA S df x ∨ r ∈ huangB S df x) : ∃ t ∈ tm.trans, t.bid = r.label := by
  rcases huang_cases S hn with ⟨h', hno⟩ | ⟨y, ps, pb, hc', hps, hpb, hlt, hcase⟩
  · exfalso
    apply hno
    exact ⟨⟨x, WithTop.coe_le_coe.mpr hc.nonneg, hc.at_x⟩, fun z _ => hc.no_tie hn z⟩
  have : y = x := hc'.unique hc
  subst this
  rcases hcase with ⟨_, _, cs, cb, _, _, _, _, _, heq⟩ | ⟨hor, heq⟩
  · rw [h] at heq
    cases heq
    rw [TransactionManager.init_addAll_trans]
    rcases hr with hr | hr
    · exact ⟨_, List.mem_append_left _ (List.mem_map_of_mem hr), rfl⟩
    · exact ⟨_, List.mem_append_right _ (List.mem_map_of_mem hr), rfl⟩
  · rcases hor with h' | h'
    · exact absurd h' hB
    · exact absurd h' hA

/-- Equal totals cut every quantity alike. -/
theorem cut_pointwise {l : List ℚ} {c c' : ℚ} (hcc : c' ≤ c) (h : (cut c' l).sum ≤ (cut c l).sum)
    {q : ℚ} (hq : q ∈ l) : max (q - c') 0 ≤ max (q - c) 0 := by
  induction l with
  | nil => cases hq
  | cons a l ih =>
    have h1 : max (a - c) 0 ≤ max (a - c') 0 := max_le_max (by linarith) (le_refl _)
    have h2 := cut_sum_antitone l hcc
    simp only [cut, List.map_cons, List.sum_cons] at h h2 ih
    rcases List.mem_cons.mp hq with rfl | hq
    · linarith
    · exact ih (by linarith) hq

/-- More competitors on the long side never help: the two ways of cutting compared. -/
theorem cut_compare {l l' : List ℚ} {c c' m : ℚ} (hc' : 0 ≤ c') (hq : ∀ q ∈ l, 0 ≤ q)
    (hs : (cut c l).sum = min m l.sum) (hs' : (cut c' l').sum = min m l'.sum)
    (hsub : ∀ k : ℚ, (cut k l).sum ≤ (cut k l').sum) (hsum : l.sum ≤ l'.sum) {q : ℚ} (hql : q ∈ l) :
    max (q - c') 0 ≤ max (q - c) 0 := by
  by_cases hcc : c ≤ c'
  · exact max_le_max (by linarith) (le_refl _)
  have hlt := not_le.mp hcc
  by_cases hm : m ≤ l.sum
  · apply cut_pointwise hlt.le _ hql
    refine (hsub c').trans ?_
    rw [hs', hs, min_eq_left hm, min_eq_left (hm.trans hsum)]
  · have h0 : (cut 0 l).sum = l.sum := by rw [cut_zero hq]
    rw [min_eq_right (not_le.mp hm).le] at hs
    have := cut_pointwise (hc'.trans hlt.le) (by rw [h0, hs]) hql
    exact le_trans (max_le_max (by linarith) (le_refl _)) this

theorem cut_sum_eq_qsum (l : DF) (c : ℚ) :
    (cut c (l.map (fun r => r.quantity))).sum = (l.map (fun r => max (r.quantity - c) 0)).sum := by
  unfold cut
  rw [List.map_map]
  rfl

/-- If the user wins with both reports and gains from trade, the true report trades at least as
much. -/
theorem huang_buy_quantity {S : Sorter} {df df' : DF} {i : ℕ} {p : ℚ} (h : Repriced i p df df')
    (hn : NonNeg df) (hn' : NonNeg df') {r r' : Row} (hri : r.label = i) (hri' : r'.label = i) (hb : r.buying = true)
    {x ps pb cs cb ps' cs' cb' : ℚ} (hw : HuangWin S df r x ps pb cs cb)
    (hkeep : ∀ a ∈ huangB S df x, a.label ≠ i → a ∈ huangB S df' x) (hr : r ∈ huangB S df x)
    (hw' : HuangWin S df' r' x ps' pb cs' cb') (hr' : r' ∈ huangB S df' x) :
    max (r.quantity - cb') 0 ≤ max (r.quantity - cb) 0 := by
  have sB := huangB_spec hn hw.cross hw.demand
  have sB' := huangB_spec hn' hw'.cross hw'.demand
  have hrm := (sB.1 r hr).1
  have hA : huangA S df' x = huangA S df x := by
    unfold huangA supplyIdx
    rw [h.sells hrm hri hb]
  have hlab : ∀ a ∈ huangB S df x, ∃ a' ∈ huangB S df' x, a'.label = a.label := by
    intro a ha
    by_cases he : a.label = i
    · exact ⟨r', hr', by rw [hri', he]⟩
    · exact ⟨a, hkeep a ha he, rfl⟩
  have hle : ∀ f : ℚ → ℚ, (∀ q, 0 ≤ q → 0 ≤ f q) →
      ((huangB S df x).map (fun r => f r.quantity)).sum ≤
        ((huangB S df' x).map (fun r => f r.quantity)).sum := by
    intro f hf
    refine qsum_le_of_labels h.table' (fun r hr => (hn' r hr).1) ?_ (fun a ha => (sB'.1 a ha).1)
      (huangB_labels_nodup h.table.nodup x) hlab f hf
    intro a ha
    obtain ⟨a', ha', e1, e2, _⟩ := h.mem (sB.1 a ha).1
    rw [← e1, h.table'.qty_eq ha', e2]
  refine cut_compare (l := (huangB S df x).map (fun r => r.quantity))
    (l' := (huangB S df' x).map (fun r => r.quantity)) (m := qsum (huangA S df x)) hw'.cb_nonneg ?_
    hw.sumB ?_ ?_ ?_ (List.mem_map_of_mem hr)
  · intro q hq
    obtain ⟨a, ha, rfl⟩ := List.mem_map.mp hq
    exact (hn a (sB.1 a ha).1).1
  · have := hw'.sumB
    rw [hA] at this
    exact this
  · intro k
    rw [cut_sum_eq_qsum, cut_sum_eq_qsum]
    exact hle (fun q => max (q - k) 0) (fun q _ => le_max_right _ _)
  · exact hle (fun q => q) (fun q hq => hq)

theorem huang_sell_quantity {S : Sorter} {df df' : DF} {i : ℕ} {p : ℚ} (h : Repriced i p df df')
    (hn : NonNeg df) (hn' : NonNeg df') {r r' : Row} (hri : r.label = i) (hri' : r'.label = i) (hb : r.buying = false)
    {x ps pb cs cb pb' cs' cb' : ℚ} (hw : HuangWin S df r x ps pb cs cb)
    (hkeep : ∀ a ∈ huangA S df x, a.label ≠ i → a ∈ huangA S df' x) (hr : r ∈ huangA S df x)
    (hw' : HuangWin S df' r' x ps pb' cs' cb') (hr' : r' ∈ huangA S df' x) :
    max (r.quantity - cs') 0 ≤ max (r.quantity - cs) 0 := by
  have sA := huangA_spec hw.cross hw.supply
  have sA' := huangA_spec hw'.cross hw'.supply
  have hrm := (sA.1 r hr).1
  have hB : huangB S df' x = huangB S df x := by
    unfold huangB demandIdx
    rw [h.buys hrm hri hb]
  have hlab : ∀ a ∈ huangA S df x, ∃ a' ∈ huangA S df' x, a'.label = a.label := by
    intro a ha
    by_cases he : a.label = i
    · exact ⟨r', hr', by rw [hri', he]⟩
    · exact ⟨a, hkeep a ha he, rfl⟩
  have hle : ∀ f : ℚ → ℚ, (∀ q, 0 ≤ q → 0 ≤ f q) →
      ((huangA S df x).map (fun r => f r.quantity)).sum ≤
        ((huangA S df' x).map (fun r => f r.quantity)).sum := by
    intro f hf
    refine qsum_le_of_labels h.table' (fun r hr => (hn' r hr).1) ?_ (fun a ha => (sA'.1 a ha).1)
      (huangA_labels_nodup h.table.nodup x) hlab f hf
    intro a ha
    obtain ⟨a', ha', e1, e2, _⟩ := h.mem (sA.1 a ha).1
    rw [← e1, h.table'.qty_eq ha', e2]
  refine cut_compare (l := (huangA S df x).map (fun r => r.quantity))
    (l' := (huangA S df' x).map (fun r => r.quantity)) (m := qsum (huangB S df x)) hw'.cs_nonneg ?_
    ?_ ?_ ?_ ?_ (List.mem_map_of_mem hr)
  · intro q hq
    obtain ⟨a, ha, rfl⟩ := List.mem_map.mp hq
    exact (hn a (sA.1 a ha).1).1
  · rw [min_comm]; exact hw.sumA
  · have := hw'.sumA
    rw [hB, min_comm] at this
    exact this
  · intro k
    rw [cut_sum_eq_qsum, cut_sum_eq_qsum]
    exact hle (fun q => max (q - k) 0) (fun q _ => le_max_right _ _)
  · exact hle (fun q => q) (fun q hq => hq)

/-- Winning buyers strictly above the cut still win when somebody else changes the report, the crossing being
the same. -/
theorem huangB_kept {S : Sorter} {df df' : DF} {i : ℕ} {p x pb : ℚ} (hR : Repriced i p df df')
    (hn : NonNeg df) (hn' : NonNeg df') (hc : Crossing S df x) (hc' : Crossing S df' x)
    (hdem : demandAt S df x = (pb : Ext)) (hdem' : demandAt S df' x = (pb : Ext))
    (hstrict : ∀ a ∈ huangB S df x, pb < a.price) :
    ∀ a ∈ huangB S df x, a.label ≠ i → a ∈ huangB S df' x := by
  intro a ha he
  obtain ⟨h1, h2, _⟩ := (huangB_spec hn hc hdem).1 a ha
  obtain ⟨a', ha', _, _, _, _, _, e2⟩ := hR.mem h1
  rw [e2 he] at ha'
  exact (huangB_spec hn' hc' hdem').2 a ha' h2 (hstrict a ha)

/-- The same for the sellers. -/
theorem huangA_kept {S : Sorter} {df df' : DF} {i : ℕ} {p x ps : ℚ} (hR : Repriced i p df df')
    (hc : Crossing S df x) (hc' : Crossing S df' x)
    (hsup : supplyAt S df x = (ps : Ext)) (hsup' : supplyAt S df' x = (ps : Ext))
    (hstrict : ∀ a ∈ huangA S df x, a.price < ps) :
    ∀ a ∈ huangA S df x, a.label ≠ i → a ∈ huangA S df' x := by
  intro a ha he
  obtain ⟨h1, h2, _⟩ := (huangA_spec hc hsup).1 a ha
  obtain ⟨a', ha', _, _, _, _, _, e2⟩ := hR.mem h1
  rw [e2 he] at ha'
  exact (huangA_spec hc' hsup').2 a ha' h2 (hstrict a ha)

/-- The core of C59: nobody gains by another report that keeps the other winners of the side. -/
theorem huang_truthful_kept (S : Sorter) (df : DF) (ht : IsTable df) (hn : NonNeg df)
    (i : ℕ) (u : ℤ) (r : Row) (hi : df[i]? = some r) (hru : r.user = u)
    (hs : ∀ a ∈ df, a.user = u → a = r)
    (w : ℚ) (hw0 : 0 ≤ w)
    (hkB : r.buying = true → ∀ x pb : ℚ, Crossing S df x → Crossing S (df.set i { r with price := w }) x →
      demandAt S df x = (pb : Ext) → demandAt S (df.set i { r with price := w }) x = (pb : Ext) →
      r ∈ huangB S df x → { r with price := w } ∈ huangB S (df.set i { r with price := w }) x →
      ∀ a ∈ huangB S df x, a.label ≠ i → a ∈ huangB S (df.set i { r with price := w }) x)
    (hkA : r.buying = false → ∀ x ps : ℚ, Crossing S df x → Crossing S (df.set i { r with price := w }) x →
      supplyAt S df x = (ps : Ext) → supplyAt S (df.set i { r with price := w }) x = (ps : Ext) →
      r ∈ huangA S df x → { r with price := w } ∈ huangA S (df.set i { r with price := w }) x →
      ∀ a ∈ huangA S df x, a.label ≠ i → a ∈ huangA S (df.set i { r with price := w }) x)
    (tm tm' : TransactionManager) (ex ex' : Extra)
    (h : huangAuction S df = .ok (tm, ex))
    (h' : huangAuction S (df.set i { r with price := w }) = .ok (tm', ex')) :
    surplusOf df (priceOf df) u tm'.trans ≤ surplusOf df (priceOf df) u tm.trans := by
  have hR := repriced_set ht hi w
  have hlab := ht.label hi
  have hrm := List.mem_of_getElem? hi
  have hn' := hR.nonNeg hn hw0
  have ht' := hR.table'
  have hi' : (df.set i { r with price := w })[i]? = some { r with price := w } := by
    rw [List.getElem?_set_self (List.getElem?_eq_some_iff.mp hi).1]
  have hzero : ∀ ts : List Transaction, (∀ t ∈ ts, t.bid ≠ i) →
      surplusOf df (priceOf df) u ts = 0 := by
    intro ts hts
    rw [surplus_single hi hru hs ht (p := 0) (fun t htt hb => absurd hb (hts t htt)),
      tradedBy_not_mem hts, mul_zero]
  have hsym := hR.symm hrm hlab
  cases hb : r.buying with
  | true =>
    rcases huang_bid S ht' hn' h' hi' with hno' | ⟨x', ps', pb', cs', cb', hw', hbuy', -⟩
    · -- the report does not trade
      rw [hzero _ hno']
      rcases huang_bid S ht hn h hi with hno | ⟨x, ps, pb, cs, cb, hw, hbuy, -⟩
      · rw [hzero _ hno]
      · obtain ⟨h1, h2, h3⟩ := hbuy hb
        rw [surplus_single hi hru hs ht h3, h2]
        have := (huangB_spec hn hw.cross hw.demand).1 r h1
        apply mul_nonneg
        · unfold unitGain; rw [hb]; simp; exact this.2.2
        · exact le_max_right _ _
    · obtain ⟨h1', h2', h3'⟩ := hbuy' hb
      rw [surplus_single hi hru hs ht h3', h2']
      have hg : ∀ p, unitGain p r = r.price - p := by
        intro p; unfold unitGain; rw [hb]; rfl
      rw [hg]
      have hnonneg : 0 ≤ surplusOf df (priceOf df) u tm.trans := by
        rcases huang_bid S ht hn h hi with hno | ⟨x, ps, pb, cs, cb, hw, hbuy, -⟩
        · rw [hzero _ hno]
        · obtain ⟨h1, h2, h3⟩ := hbuy hb
          rw [surplus_single hi hru hs ht h3, h2, hg]
          have := (huangB_spec hn hw.cross hw.demand).1 r h1
          exact mul_nonneg (by linarith [this.2.2]) (le_max_right _ _)
      by_cases hv : pb' < r.price
      · obtain ⟨hc, hdem, hsup⟩ := crossing_reprice_buy hsym hn' hw'.cross hw'.demand h1' hlab hv.le
        have hrB : r ∈ huangB S df x' := (huangB_spec hn hc hdem).2 r hrm hb hv
        have hA : huangA S df x' ≠ [] := by
          have e : huangA S df x' = huangA S (df.set i { r with price := w }) x' := by
            unfold huangA supplyIdx
            rw [hR.sells hrm hlab hb]
          rw [e]; exact hw'.sellers
        obtain ⟨t, htm, htb⟩ := huang_wins S hn h hc hA (List.ne_nil_of_mem hrB) (Or.inr hrB)
        rcases huang_bid S ht hn h hi with hno | ⟨x, ps, pb, cs, cb, hw, hbuy, -⟩
        · exact absurd (htb.trans hlab) (hno t htm)
        · obtain ⟨h1, h2, h3⟩ := hbuy hb
          have hxx : x = x' := hw.cross.unique hc
          subst hxx
          have hpp : pb = pb' := by
            have := hw.demand
            rw [hdem] at this
            exact (WithTop.coe_injective this).symm
          subst hpp
          rw [surplus_single hi hru hs ht h3, h2, hg]
          apply mul_le_mul_of_nonneg_left _ (by linarith)
          exact huang_buy_quantity (r' := { r with price := w }) hR hn hn' hlab hlab hb hw
            (hkB hb x pb hw.cross hw'.cross hw.demand hw'.demand h1 h1') h1 hw' h1'
      · refine le_trans ?_ hnonneg
        exact mul_nonpos_of_nonpos_of_nonneg (by linarith) (le_max_right _ _)
  | false =>
    have hg : ∀ p, unitGain p r = p - r.price := by
      intro p; unfold unitGain; rw [hb]; rfl
    have hnonneg : 0 ≤ surplusOf df (priceOf df) u tm.trans := by
      rcases huang_bid S ht hn h hi with hno | ⟨x, ps, pb, cs, cb, hw, -, hsell⟩
      · rw [hzero _ hno]
      · obtain ⟨h1, h2, h3⟩ := hsell hb
        rw [surplus_single hi hru hs ht h3, h2, hg]
        have := (huangA_spec hw.cross hw.supply).1 r h1
        exact mul_nonneg (by linarith [this.2.2]) (le_max_right _ _)
    rcases huang_bid S ht' hn' h' hi' with hno' | ⟨x', ps', pb', cs', cb', hw', -, hsell'⟩
    · rw [hzero _ hno']; exact hnonneg
    · obtain ⟨h1', h2', h3'⟩ := hsell' hb
      rw [surplus_single hi hru hs ht h3', h2', hg]
      by_cases hv : r.price < ps'
      · obtain ⟨hc, hsup, hdem⟩ := crossing_reprice_sell hsym hn' (hn r hrm).2 hw'.cross hw'.supply h1'
          hlab hv.le
        have hrA : r ∈ huangA S df x' := (huangA_spec hc hsup).2 r hrm hb hv
        have hB : huangB S df x' ≠ [] := by
          have e : huangB S df x' = huangB S (df.set i { r with price := w }) x' := by
            unfold huangB demandIdx
            rw [hR.buys hrm hlab hb]
          rw [e]; exact hw'.buyers
        obtain ⟨t, htm, htb⟩ := huang_wins S hn h hc (List.ne_nil_of_mem hrA) hB (Or.inl hrA)
        rcases huang_bid S ht hn h hi with hno | ⟨x, ps, pb, cs, cb, hw, -, hsell⟩
        · exact absurd (htb.trans hlab) (hno t htm)
        · obtain ⟨h1, h2, h3⟩ := hsell hb
          have hxx : x = x' := hw.cross.unique hc
          subst hxx
          have hpp : ps = ps' := by
            have := hw.supply
            rw [hsup] at this
            exact (WithTop.coe_injective this).symm
          subst hpp
          rw [surplus_single hi hru hs ht h3, h2, hg]
          apply mul_le_mul_of_nonneg_left _ (by linarith)
          exact huang_sell_quantity (r' := { r with price := w }) hR hn hn' hlab hlab hb hw
            (hkA hb x ps hw.cross hw'.cross hw.supply hw'.supply h1 h1') h1 hw' h1'
      · refine le_trans ?_ hnonneg
        exact mul_nonpos_of_nonpos_of_nonneg (by linarith) (le_max_right _ _)

/-- **C59 (partial).** In Huang's auction itself (no merging of equal prices), a user whose only bid is
`r`, on a book in which the prices on that side are pairwise different, gets at least the surplus of
any other price report `w` (whether or not it coincides with somebody else's price).

Missing to the full statement: the class `HuangAuction` merges bids with equal prices first, and then the
statement fails, see `C59_refuted`; also equal prices in the true book are excluded, since
which of them is marginal depends on the sort. -/
theorem C59_truthful_partial (S : Sorter) (df : DF) (ht : IsTable df) (hn : NonNeg df)
    (i : ℕ) (u : ℤ) (r : Row) (hi : df[i]? = some r) (hru : r.user = u)
    (hs : ∀ a ∈ df, a.user = u → a = r)
    (hd : ((df.filter (fun a => a.buying == r.buying)).map (fun a => a.price)).Nodup)
    (w : ℚ) (hw0 : 0 ≤ w) (tm tm' : TransactionManager) (ex ex' : Extra)
    (h : huangAuction S df = .ok (tm, ex))
    (h' : huangAuction S (df.set i { r with price := w }) = .ok (tm', ex')) :
    surplusOf df (priceOf df) u tm'.trans ≤ surplusOf df (priceOf df) u tm.trans := by
  have hR := repriced_set ht hi w
  have hn' := hR.nonNeg hn hw0
  refine huang_truthful_kept S df ht hn i u r hi hru hs w hw0 ?_ ?_ tm tm' ex ex' h h'
  · intro hb x pb hc hc' hdem hdem' _ _ a ha he
    have hd' : ((buys df).map (fun r => r.price)).Nodup := by
      have e : df.filter (fun a => a.buying == r.buying) = buys df := by
        unfold buys; rw [hb]; apply List.filter_congr; intro a _; simp
      rwa [e] at hd
    exact huangB_kept hR hn hn' hc hc' hdem hdem' (huangB_strict hn hc hdem hd') a ha he
  · intro hb x ps hc hc' hsup hsup' _ _ a ha he
    have hd' : ((sells df).map (fun r => r.price)).Nodup := by
      have e : df.filter (fun a => a.buying == r.buying) = sells df := by
        unfold sells; rw [hb]; apply List.filter_congr; intro a _; simp
      rwa [e] at hd
    exact huangA_kept hR hc hc' hsup hsup' (huangA_strict hc hsup hd') a ha he

/-- **C59, the price.** On any book, whatever ties it has: if a bid trades both with the price it
reports and with another report, it does so at the same price. -/
theorem C59_price_independent (S : Sorter) (df : DF) (ht : IsTable df) (hn : NonNeg df)
    (i : ℕ) (r : Row) (hi : df[i]? = some r) (w : ℚ) (hw0 : 0 ≤ w)
    (tm tm' : TransactionManager) (ex ex' : Extra) (h : huangAuction S df = .ok (tm, ex))
    (h' : huangAuction S (df.set i { r with price := w }) = .ok (tm', ex'))
    (t t' : Transaction) (htm : t ∈ tm.trans) (htm' : t' ∈ tm'.trans) (hb : t.bid = i)
    (hb' : t'.bid = i) : t.price = t'.price := by
  have hR := repriced_set ht hi w
  have hlab := ht.label hi
  have hrm := List.mem_of_getElem? hi
  have hn' := hR.nonNeg hn hw0
  have ht' := hR.table'
  have hi' : (df.set i { r with price := w })[i]? = some { r with price := w } := by
    rw [List.getElem?_set_self (List.getElem?_eq_some_iff.mp hi).1]
  have hsym := hR.symm hrm hlab
  rcases huang_bid S ht hn h hi with hno | ⟨x, ps, pb, cs, cb, hw, hbuy, hsell⟩
  · exact absurd hb (hno t htm)
  rcases huang_bid S ht' hn' h' hi' with hno | ⟨x', ps', pb', cs', cb', hw', hbuy', hsell'⟩
  · exact absurd hb' (hno t' htm')
  cases hside : r.buying with
  | true =>
    obtain ⟨h1, _, h3⟩ := hbuy hside
    obtain ⟨h1', _, h3'⟩ := hbuy' hside
    rw [h3 t htm hb, h3' t' htm' hb']
    have hp := ((huangB_spec hn hw.cross hw.demand).1 r h1).2.2
    have hp' : pb' ≤ w := ((huangB_spec hn' hw'.cross hw'.demand).1 _ h1').2.2
    rcases le_or_gt pb w with hle | hlt
    · obtain ⟨hc, hdem, _⟩ := crossing_reprice_buy hR hn hw.cross hw.demand h1 hlab hle
      have hxx : x' = x := hw'.cross.unique hc
      subst hxx
      have := hw'.demand
      rw [hdem] at this
      exact WithTop.coe_injective this
    · obtain ⟨hc, hdem, _⟩ := crossing_reprice_buy hsym hn' hw'.cross hw'.demand h1' hlab
        (by linarith)
      have hxx : x = x' := hw.cross.unique hc
      subst hxx
      have := hw.demand
      rw [hdem] at this
      exact (WithTop.coe_injective this).symm
  | false =>
    obtain ⟨h1, _, h3⟩ := hsell hside
    obtain ⟨h1', _, h3'⟩ := hsell' hside
    rw [h3 t htm hb, h3' t' htm' hb']
    have hp := ((huangA_spec hw.cross hw.supply).1 r h1).2.2
    have hp' : w ≤ ps' := ((huangA_spec hw'.cross hw'.supply).1 _ h1').2.2
    rcases le_or_gt w ps with hle | hlt
    · obtain ⟨hc, hsup, _⟩ := crossing_reprice_sell hR hn hw0 hw.cross hw.supply h1 hlab hle
      have hxx : x' = x := hw'.cross.unique hc
      subst hxx
      have := hw'.supply
      rw [hsup] at this
      exact WithTop.coe_injective this
    · obtain ⟨hc, hsup, _⟩ := crossing_reprice_sell hsym hn' (hn r hrm).2 hw'.cross hw'.supply h1' hlab
        (by linarith)
      have hxx : x = x' := hw.cross.unique hc
      subst hxx
      have := hw.supply
      rw [hsup] at this
      exact (WithTop.coe_injective this).symm

/-- Three buyers before the marginal one, each curtailed to 1 unit. -/
def curtailBook : DF := labelFrom 0
  [⟨2, 10, 0, true, 0, true⟩, ⟨2, 9, 1, true, 0, true⟩, ⟨2, 8, 2, true, 0, true⟩,
   ⟨5, 6, 3, true, 0, true⟩, ⟨3, 1, 4, false, 0, true⟩, ⟨10, 2, 5, false, 0, true⟩]

/-- A case that meets the hypotheses: user 2 with the bid 2, and the reports 9 (the price of bid 1) and
5 (below the marginal price), with the surpluses 2, 2 and 0. -/
example : IsTable curtailBook ∧ NonNeg curtailBook ∧
    (∀ a ∈ curtailBook, a.user = 2 → a = ⟨⟨2, 8, 2, true, 0, true⟩, 2⟩) ∧
    ((curtailBook.filter (fun a => a.buying == true)).map (fun a => a.price)).Nodup ∧
    (huangAuction stableSorter curtailBook).toOption.map
      (fun o => surplusOf curtailBook (priceOf curtailBook) 2 o.1.trans) = some 2 ∧
    (huangAuction stableSorter (curtailBook.set 2 ⟨⟨2, 9, 2, true, 0, true⟩, 2⟩)).toOption.map
      (fun o => surplusOf curtailBook (priceOf curtailBook) 2 o.1.trans) = some 2 ∧
    (huangAuction stableSorter (curtailBook.set 2 ⟨⟨2, 5, 2, true, 0, true⟩, 2⟩)).toOption.map
      (fun o => surplusOf curtailBook (priceOf curtailBook) 2 o.1.trans) = some 0 := by
  decide +kernel

/-- Bid 2 trades at 6 with the report 8 and with the report 9. -/
example : (huangAuction stableSorter curtailBook).toOption.map
      (fun o => (o.1.trans.filter (fun t => t.bid == 2)).map (fun t => t.price)) = some [6] ∧
    (huangAuction stableSorter (curtailBook.set 2 ⟨⟨2, 9, 2, true, 0, true⟩, 2⟩)).toOption.map
      (fun o => (o.1.trans.filter (fun t => t.bid == 2)).map (fun t => t.price)) = some [6] := by
  decide +kernel

/-- The full statement: for the class `HuangAuction`, as run by the market, no user with one bid gains
by reporting another price. -/
def Spec.HuangTruthful (S : Sorter) (smp : Sampler) (df : DF) : Prop :=
  ∀ (i : ℕ) (r : Row) (w : ℚ), df[i]? = some r → (∀ a ∈ df, a.user = r.user → a = r) → 0 ≤ w →
    ∀ tm tm' ex ex', runAlgo S smp .huang df = .ok (tm, ex) →
      runAlgo S smp .huang (df.set i { r with price := w }) = .ok (tm', ex') →
      surplusOf df (priceOf df) r.user tm'.trans ≤ surplusOf df (priceOf df) r.user tm.trans

/-- **C59 refuted.** Reporting the price of another winner gets the two bids merged; a merged group is
curtailed once, and both keep more. In the book above user 2 gets 5/4 units instead of 1. -/
theorem C59_refuted : ¬ HuangTruthful stableSorter headSampler curtailBook := by
  intro h
  have key := h 2 ⟨⟨2, 8, 2, true, 0, true⟩, 2⟩ 9 (by decide +kernel) (by decide +kernel) (by norm_num)
    ⟨4, [⟨4, 3, 2, -1, false⟩, ⟨0, 1, 6, -1, false⟩, ⟨1, 1, 6, -1, false⟩, ⟨2, 1, 6, -1, false⟩]⟩
    ⟨4, [⟨4, 3, 2, -1, false⟩, ⟨0, 1 / 2, 6, -1, false⟩, ⟨1, 5 / 4, 6, -1, false⟩,
      ⟨2, 5 / 4, 6, -1, false⟩]⟩
    (.huang ((2 : ℚ) : Ext) ((6 : ℚ) : Ext) 3) (.huang ((2 : ℚ) : Ext) ((6 : ℚ) : Ext) 3)
    (by decide +kernel) (by decide +kernel)
  revert key
  decide +kernel

/-- **C59, the quantity.** The statement is about the price only: with the quantity it fails also
without merging and with different prices. Who reports 3 units instead of 2 is curtailed to 5/3 units
instead of 1, and all of them are of value. -/
theorem C59_quantity_refuted :
    ¬ ∀ (i : ℕ) (r : Row) (q : ℚ), curtailBook[i]? = some r → 0 ≤ q →
      ∀ tm tm' ex ex', huangAuction stableSorter curtailBook = .ok (tm, ex) →
        huangAuction stableSorter (curtailBook.set i { r with quantity := q }) = .ok (tm', ex') →
        tradedBy tm'.trans i ≤ r.quantity →
        surplusOf curtailBook (priceOf curtailBook) r.user tm'.trans ≤
          surplusOf curtailBook (priceOf curtailBook) r.user tm.trans := by
  intro h
  have key := h 2 ⟨⟨2, 8, 2, true, 0, true⟩, 2⟩ 3 (by decide +kernel) (by norm_num)
    ⟨4, [⟨4, 3, 2, -1, false⟩, ⟨0, 1, 6, -1, false⟩, ⟨1, 1, 6, -1, false⟩, ⟨2, 1, 6, -1, false⟩]⟩
    ⟨4, [⟨4, 3, 2, -1, false⟩, ⟨0, 2 / 3, 6, -1, false⟩, ⟨1, 2 / 3, 6, -1, false⟩,
      ⟨2, 5 / 3, 6, -1, false⟩]⟩
    (.huang ((2 : ℚ) : Ext) ((6 : ℚ) : Ext) 3) (.huang ((2 : ℚ) : Ext) ((6 : ℚ) : Ext) 3)
    (by decide +kernel) (by decide +kernel) (by decide +kernel)
  revert key
  decide +kernel

end PyMarket
