import Verif.Spec.Remainder
import Verif.Props.MarketPrice
import Verif.Props.SubmissionOrder
import Verif.Props.UniformMerged

/-! # What is left after a run -/

set_option autoImplicit false

namespace PyMarket

open Spec

section

variable {df : DF} {ts : List Transaction}

theorem leftBook_table (df : DF) (ts : List Transaction) : IsTable (leftBook df ts) := isTable_labelFrom _

/-- Every row of the book that is left comes from a row of the book. -/
theorem leftBook_mem {r' : Row} (h : r' ∈ leftBook df ts) :
    ∃ r ∈ df, 0 < leftOf ts r ∧ r'.buying = r.buying ∧ r'.price = r.price ∧ r'.quantity = leftOf ts r := by
  have h1 : r'.toBid ∈ (leftBook df ts).map (fun r => r.toBid) := List.mem_map_of_mem h
  unfold leftBook at h1
  rw [labelFrom_map_toBid] at h1
  obtain ⟨r, hr, he⟩ := List.mem_map.mp h1
  obtain ⟨h2, h3⟩ := List.mem_filter.mp hr
  refine ⟨r, h2, of_decide_eq_true h3, ?_, ?_, ?_⟩ <;> rw [← he]

/-- Every row with something left is in the book that is left. -/
theorem mem_leftBook {r : Row} (h : r ∈ df) (hl : 0 < leftOf ts r) :
    ∃ r' ∈ leftBook df ts, r'.buying = r.buying ∧ r'.price = r.price ∧ r'.quantity = leftOf ts r := by
  have h1 : ({ r.toBid with quantity := leftOf ts r } : Bid) ∈ (leftBook df ts).map (fun r => r.toBid) := by
    unfold leftBook
    rw [labelFrom_map_toBid]
    exact List.mem_map.mpr ⟨r, List.mem_filter.mpr ⟨h, decide_eq_true hl⟩, rfl⟩
  obtain ⟨r', hr', he⟩ := List.mem_map.mp h1
  refine ⟨r', hr', ?_, ?_, ?_⟩ <;> rw [he]

theorem leftBook_pos (hp : ∀ r ∈ df, 0 ≤ r.price) : Pos (leftBook df ts) := by
  intro r' hr'
  obtain ⟨r, h1, h2, _, h4, h5⟩ := leftBook_mem hr'
  rw [h4, h5]
  exact ⟨h2, hp r h1⟩

/-- A book from which nothing was traded is left as it is. -/
theorem leftBook_nil (ht : IsTable df) (h : Pos df) : leftBook df [] = df := by
  have e : leftBids df [] = df.map (fun r => r.toBid) := by
    unfold leftBids
    have h0 : ∀ r : Row, leftOf [] r = r.quantity := fun r => by simp [leftOf, tradedBy]
    rw [List.filter_eq_self.mpr (fun r hr => by rw [h0]; exact decide_eq_true (h r hr).1)]
    apply List.map_congr_left
    intro r _
    rw [h0]
  have hl : (leftBook df []).length = df.length := by
    unfold leftBook
    rw [labelFrom_length, e, List.length_map]
  apply List.ext_getElem? 
  intro k
  unfold leftBook
  rw [labelFrom_getElem?, e, List.getElem?_map]
  cases hk : df[k]? with
  | none => rfl
  | some r =>
    have := ht.label hk
    simp only [Option.map_some, Nat.zero_add, ← this]

/-- Sums over the book that is left. -/
theorem leftBook_sum (f : Bool → ℚ → Bool) (hle : ∀ r ∈ df, 0 ≤ leftOf ts r) :
    (((leftBook df ts).filter (fun r => f r.buying r.price)).map (fun r => r.quantity)).sum =
      ((df.filter (fun r => f r.buying r.price)).map (leftOf ts)).sum := by
  have e1 : ((leftBook df ts).filter (fun r => f r.buying r.price)).map (fun r => r.quantity) =
      (((leftBook df ts).map (fun r => r.toBid)).filter (fun b => f b.buying b.price)).map (fun b => b.quantity) := by
    rw [List.filter_map, List.map_map]
    rfl
  rw [e1]
  unfold leftBook
  rw [labelFrom_map_toBid]
  unfold leftBids
  rw [List.filter_map, List.map_map]
  have e2 : ((df.filter (fun r => decide (0 < leftOf ts r))).filter
      ((fun b : Bid => f b.buying b.price) ∘ fun r : Row => { r.toBid with quantity := leftOf ts r })) =
      (df.filter (fun r => f r.buying r.price)).filter (fun r => decide (0 < leftOf ts r)) := by
    rw [List.filter_filter, List.filter_filter]
    apply List.filter_congr
    intro r _
    simp only [Function.comp]
    rw [Bool.and_comm]
  rw [e2]
  have hle' : ∀ r ∈ df.filter (fun r => f r.buying r.price), 0 ≤ leftOf ts r :=
    fun r hr => hle r (List.mem_filter.mp hr).1
  generalize df.filter (fun r => f r.buying r.price) = l at hle'
  clear e1 e2
  induction l with
  | nil => rfl
  | cons a l ih =>
    have ih := ih (fun r hr => hle' r (List.mem_cons_of_mem _ hr))
    have ha := hle' a List.mem_cons_self
    rw [List.filter_cons]
    by_cases h0 : 0 < leftOf ts a
    · simp only [h0, decide_true, if_true, List.map_cons, List.sum_cons, Function.comp] at ih ⊢
      rw [ih]
    · have : leftOf ts a = 0 := le_antisymm (not_lt.mp h0) ha
      simp only [List.map_cons, List.sum_cons, this, zero_add, lt_irrefl, decide_false, Bool.false_eq_true, if_false]
      exact ih

/-- Prices of a side stay distinct. -/
theorem leftBook_nodup (f : Bool → Bool) (h : ((df.filter (fun r => f r.buying)).map (fun r => r.price)).Nodup) :
    (((leftBook df ts).filter (fun r => f r.buying)).map (fun r => r.price)).Nodup := by
  have e1 : ((leftBook df ts).filter (fun r => f r.buying)).map (fun r => r.price) =
      (((leftBook df ts).map (fun r => r.toBid)).filter (fun b => f b.buying)).map (fun b => b.price) := by
    rw [List.filter_map, List.map_map]
    rfl
  rw [e1]
  unfold leftBook
  rw [labelFrom_map_toBid]
  unfold leftBids
  rw [List.filter_map, List.map_map]
  refine h.sublist ?_
  refine List.Sublist.map (fun r : Row => r.price) (l₁ := List.filter _ _) ?_
  exact (List.filter_sublist.filter (fun r : Row => f r.buying))

end

/-! ## Huang's auction -/

section

variable {S : Sorter} {df : DF}

/-- What a bid trades when a side is cut. -/
theorem tradedBy_cutTrans {rows : DF} (hn : (rows.map (fun r => r.label)).Nodup) {r : Row} (hr : r ∈ rows)
    (c p : ℚ) : tradedBy (cutTrans rows c p) r.label = max (r.quantity - c) 0 := by
  have h1 : ((cutTrans rows c p).map (fun t => t.bid)).Nodup := by
    unfold cutTrans
    rw [List.map_map]
    exact hn
  exact tradedBy_nodup h1 (t := ⟨r.label, max (r.quantity - c) 0, p, -1, false⟩)
    (List.mem_map.mpr ⟨r, hr, rfl⟩)

theorem tradedBy_cutTrans_zero {rows : DF} {i : ℕ} (h : ∀ r ∈ rows, r.label ≠ i) (c p : ℚ) :
    tradedBy (cutTrans rows c p) i = 0 := by
  unfold tradedBy cutTrans
  rw [List.filter_eq_nil_iff.mpr]
  · rfl
  · intro t ht
    obtain ⟨r, hr, rfl⟩ := List.mem_map.mp ht
    simpa using h r hr

theorem sum_filter_le {l : DF} (hq : ∀ r ∈ l, 0 ≤ r.quantity) {P Q : Row → Bool} (h : ∀ r, P r = true → Q r = true) :
    ((l.filter P).map (fun r => r.quantity)).sum ≤ ((l.filter Q).map (fun r => r.quantity)).sum := by
  rw [sum_filter_map, sum_filter_map]
  apply List.sum_le_sum
  intro r hr
  by_cases hP : P r = true
  · rw [if_pos hP, if_pos (h r hP)]
  · rw [if_neg hP]
    split
    · exact hq r hr
    · exact le_rfl

/-- What a run of Huang's auction that trades looks like. -/
structure CutRun (S : Sorter) (df : DF) (x ps pb cs cb : ℚ) (ts : List Transaction) : Prop where
  cross : Crossing S df x
  supply : supplyAt S df x = (ps : Ext)
  demand : demandAt S df x = (pb : Ext)
  lt : ps < pb
  cs_nonneg : 0 ≤ cs
  cb_nonneg : 0 ≤ cb
  short : cs = 0 ∨ cb = 0
  sold : (cut cs ((huangA S df x).map (fun r => r.quantity))).sum =
    min (qsum (huangA S df x)) (qsum (huangB S df x))
  bought : (cut cb ((huangB S df x).map (fun r => r.quantity))).sum =
    min (qsum (huangA S df x)) (qsum (huangB S df x))
  trans : ts = cutTrans (huangA S df x) cs ps ++ cutTrans (huangB S df x) cb pb

theorem huang_cutRun (S : Sorter) {df : DF} (h : NonNeg df) {tm : TransactionManager} {ex : Extra}
    (hrun : huangAuction S df = .ok (tm, ex)) :
    tm.trans = [] ∨ ∃ x ps pb cs cb q, CutRun S df x ps pb cs cb tm.trans ∧ ex = .huang (ps : Ext) (pb : Ext) q := by
  rcases huang_cases S h with ⟨he, _⟩ | ⟨x, ps, pb, hc, hps, hpb, hlt, hcase⟩
  · rw [he] at hrun; cases hrun; exact .inl rfl
  · rcases hcase with ⟨_, _, cs, cb, h1, h2, h3, h4, h5, he⟩ | ⟨_, he⟩
    · rw [he] at hrun
      cases hrun
      exact .inr ⟨x, ps, pb, cs, cb, _, ⟨hc, hps, hpb, hlt, h1, h2, h3, h4, h5,
        TransactionManager.init_addAll_trans _⟩, rfl⟩
    · rw [he] at hrun; cases hrun; exact .inl rfl

namespace CutRun

variable {x ps pb cs cb : ℚ} {ts : List Transaction}

theorem permA (w : CutRun S df x ps pb cs cb ts) (ht : IsTable df) (hd : DistinctPrices df) :
    (huangA S df x).Perm (df.filter (frontSell ps)) :=
  huangA_perm ht w.cross w.supply
    (huangA_strict w.cross w.supply (distinct_sells (List.Nodup.of_map _ ht.nodup) hd))

theorem permB (w : CutRun S df x ps pb cs cb ts) (ht : IsTable df) (h : NonNeg df) (hd : DistinctPrices df) :
    (huangB S df x).Perm (df.filter (frontBuy pb)) :=
  huangB_perm ht h w.cross w.demand
    (huangB_strict h w.cross w.demand (distinct_buys (List.Nodup.of_map _ ht.nodup) hd))

/-- What each bid trades. -/
theorem traded (w : CutRun S df x ps pb cs cb ts) (ht : IsTable df) (h : NonNeg df) (hd : DistinctPrices df)
    {r : Row} (hr : r ∈ df) : tradedBy ts r.label =
      if frontBuy pb r then max (r.quantity - cb) 0 else if frontSell ps r then max (r.quantity - cs) 0 else 0 := by
  have hA : r ∈ huangA S df x ↔ frontSell ps r = true := by
    rw [(w.permA ht hd).mem_iff, List.mem_filter]; simp [hr]
  have hB : r ∈ huangB S df x ↔ frontBuy pb r = true := by
    rw [(w.permB ht h hd).mem_iff, List.mem_filter]; simp [hr]
  have nA : r ∉ huangA S df x → ∀ a ∈ huangA S df x, a.label ≠ r.label := by
    intro hn a ha he
    rw [ht.inj ((huangA_spec w.cross w.supply).1 a ha).1 hr he] at ha
    exact hn ha
  have nB : r ∉ huangB S df x → ∀ a ∈ huangB S df x, a.label ≠ r.label := by
    intro hn a ha he
    rw [ht.inj ((huangB_spec h w.cross w.demand).1 a ha).1 hr he] at ha
    exact hn ha
  rw [w.trans, tradedBy_append]
  by_cases hb : frontBuy pb r = true
  · have hs : ¬ frontSell ps r = true := by
      intro hs
      unfold frontBuy at hb
      unfold frontSell at hs
      simp only [Bool.and_eq_true, Bool.not_eq_true'] at hb hs
      rw [hb.1] at hs
      exact absurd hs.1 (by decide)
    rw [if_pos hb, tradedBy_cutTrans (huangB_labels_nodup ht.nodup x) (hB.mpr hb),
      tradedBy_cutTrans_zero (nA (fun h' => hs (hA.mp h'))), zero_add]
  · rw [if_neg hb, tradedBy_cutTrans_zero (nB (fun h' => hb (hB.mp h'))), add_zero]
    by_cases hs : frontSell ps r = true
    · rw [if_pos hs, tradedBy_cutTrans (huangA_labels_nodup ht.nodup x) (hA.mpr hs)]
    · rw [if_neg hs, tradedBy_cutTrans_zero (nA (fun h' => hs (hA.mp h')))]

theorem left_nonneg (w : CutRun S df x ps pb cs cb ts) (ht : IsTable df) (h : NonNeg df)
    (hd : DistinctPrices df) : ∀ r ∈ df, 0 ≤ leftOf ts r := by
  intro r hr
  have hq := (h r hr).1
  have h1 := w.cs_nonneg
  have h2 := w.cb_nonneg
  unfold leftOf
  rw [w.traded ht h hd hr, sub_nonneg]
  split
  · exact max_le (by linarith) hq
  · split
    · exact max_le (by linarith) hq
    · exact hq

/-- The buyers with high prices trade the whole volume. -/
theorem left_buy (w : CutRun S df x ps pb cs cb ts) (ht : IsTable df) (h : NonNeg df)
    (hd : DistinctPrices df) (f : Bool → ℚ → Bool) (hf : ∀ p, f false p = false)
    (hf' : ∀ p, pb < p → f true p = true) :
    (((leftBook df ts).filter (fun r => f r.buying r.price)).map (fun r => r.quantity)).sum =
      ((df.filter (fun r => f r.buying r.price)).map (fun r => r.quantity)).sum -
        min (qsum (huangA S df x)) (qsum (huangB S df x)) := by
  rw [leftBook_sum f (w.left_nonneg ht h hd), ← w.bought]
  unfold cut
  rw [List.map_map, ((w.permB ht h hd).map _).sum_eq, sum_filter_map, sum_filter_map, sum_filter_map,
    eq_sub_iff_add_eq, ← List.sum_map_add]
  congr 1
  apply List.map_congr_left
  intro r hr
  unfold leftOf
  rw [w.traded ht h hd hr]
  unfold frontBuy frontSell
  cases hb : r.buying
  · simp [hf]
  · by_cases hp : pb < r.price
    · simp [hp, hf' _ hp]
    · simp [hp]

/-- The sellers with low prices trade the whole volume. -/
theorem left_sell (w : CutRun S df x ps pb cs cb ts) (ht : IsTable df) (h : NonNeg df)
    (hd : DistinctPrices df) (f : Bool → ℚ → Bool) (hf : ∀ p, f true p = false)
    (hf' : ∀ p, p < ps → f false p = true) :
    (((leftBook df ts).filter (fun r => f r.buying r.price)).map (fun r => r.quantity)).sum =
      ((df.filter (fun r => f r.buying r.price)).map (fun r => r.quantity)).sum -
        min (qsum (huangA S df x)) (qsum (huangB S df x)) := by
  rw [leftBook_sum f (w.left_nonneg ht h hd), ← w.sold]
  unfold cut
  rw [List.map_map, ((w.permA ht hd).map _).sum_eq, sum_filter_map, sum_filter_map, sum_filter_map,
    eq_sub_iff_add_eq, ← List.sum_map_add]
  congr 1
  apply List.map_congr_left
  intro r hr
  unfold leftOf
  rw [w.traded ht h hd hr]
  unfold frontBuy frontSell
  cases hb : r.buying
  · by_cases hp : r.price < ps
    · simp [hp, hf' _ hp]
    · simp [hp]
  · simp [hf]

/-- The last pair stays the last pair. -/
theorem left_pair (w : CutRun S df x ps pb cs cb ts) (ht : IsTable df) (h : Pos df)
    (hd : DistinctPrices df) : ∃ b a, b.price = pb ∧ a.price = ps ∧
      MarginalPair (leftBook df ts) (x - min (qsum (huangA S df x)) (qsum (huangB S df x))) b a := by
  obtain ⟨b, a, m⟩ := (crossing_iff_pair h x).mp w.cross
  obtain ⟨e1, e2⟩ := pair_prices (S := S) h m
  have hbp : b.price = pb := WithTop.coe_injective (e1.symm.trans w.demand)
  have hap : a.price = ps := WithTop.coe_injective (e2.symm.trans w.supply)
  have lb : leftOf ts b = b.quantity := by
    unfold leftOf
    rw [w.traded ht h.nonNeg hd m.buyer.1]
    simp [frontBuy, frontSell, m.buyer.2, hbp]
  have la : leftOf ts a = a.quantity := by
    unfold leftOf
    rw [w.traded ht h.nonNeg hd m.seller.1]
    simp [frontBuy, frontSell, m.seller.2, hap]
  obtain ⟨b', b1, b2, b3, _⟩ := mem_leftBook (ts := ts) m.buyer.1 (by rw [lb]; exact (h b m.buyer.1).1)
  obtain ⟨a', a1, a2, a3, _⟩ := mem_leftBook (ts := ts) m.seller.1 (by rw [la]; exact (h a m.seller.1).1)
  have m1 := m.last_buyer
  have m2 := m.last_seller
  have m3 := m.no_more
  have m4 := m.free
  rw [hbp] at m1
  rw [hap] at m2
  have hpos := leftBook_pos (ts := ts) (fun r hr => (h r hr).2)
  have hq' : ∀ r ∈ leftBook df ts, 0 ≤ r.quantity := fun r hr => (hpos r hr).1.le
  generalize hT : min (qsum (huangA S df x)) (qsum (huangB S df x)) = T
  have dLe : ∀ p, p ≤ pb → demandQty (leftBook df ts) p = demandQty df p - T := by
    intro p hp
    rw [← hT]
    exact w.left_buy ht h.nonNeg hd (fun b q => b && decide (p ≤ q)) (fun _ => rfl)
      (fun q hq => by simpa using (hp.trans hq.le))
  have dAb : demandQtyAbove (leftBook df ts) pb = demandQtyAbove df pb - T := by
    rw [← hT]
    exact w.left_buy ht h.nonNeg hd (fun b q => b && decide (pb < q)) (fun _ => rfl)
      (fun q hq => by simpa using hq)
  have sLe : ∀ p, ps ≤ p → supplyQty (leftBook df ts) p = supplyQty df p - T := by
    intro p hp
    rw [← hT]
    exact w.left_sell ht h.nonNeg hd (fun b q => !b && decide (q ≤ p)) (fun _ => rfl)
      (fun q hq => by simpa using (hq.le.trans hp))
  have sAb : supplyQtyBelow (leftBook df ts) ps = supplyQtyBelow df ps - T := by
    rw [← hT]
    exact w.left_sell ht h.nonNeg hd (fun b q => !b && decide (q < ps)) (fun _ => rfl)
      (fun q hq => by simpa using hq)
  have dMono : ∀ p, pb < p → demandQty (leftBook df ts) p ≤ demandQtyAbove (leftBook df ts) pb := by
    intro p hp
    exact sum_filter_le hq' (fun r h' => by
      simp only [Bool.and_eq_true, decide_eq_true_eq] at h' ⊢
      exact ⟨h'.1, lt_of_lt_of_le hp h'.2⟩)
  have sMono : ∀ p, p < ps → supplyQty (leftBook df ts) p ≤ supplyQtyBelow (leftBook df ts) ps := by
    intro p hp
    exact sum_filter_le hq' (fun r h' => by
      simp only [Bool.and_eq_true, decide_eq_true_eq] at h' ⊢
      exact ⟨h'.1, lt_of_le_of_lt h'.2 hp⟩)
  have hTle : 0 < x - T := by
    have : 0 ≤ supplyQtyBelow (leftBook df ts) ps :=
      List.sum_nonneg (fun q hq => by
        obtain ⟨r, hr, rfl⟩ := List.mem_map.mp hq
        exact hq' r (List.mem_filter.mp hr).1)
    linarith [m2.1]
  refine ⟨b', a', b3.trans hbp, a3.trans hap, hTle, ⟨b1, b2.trans m.buyer.2⟩, ⟨a1, a2.trans m.seller.2⟩, ?_, ?_, ?_,
    ?_, ?_⟩
  · rw [a3, b3]; exact m.lt
  · rw [b3, hbp, dAb, dLe _ le_rfl]
    exact ⟨by linarith [m1.1], by linarith [m1.2]⟩
  · rw [a3, hap, sAb, sLe _ le_rfl]
    exact ⟨by linarith [m2.1], by linarith [m2.2]⟩
  · intro c' hc' d' hd' hcb hdb hle
    obtain ⟨c, c1, _, c3, c4, _⟩ := leftBook_mem hc'
    obtain ⟨d, d1, _, d3, d4, _⟩ := leftBook_mem hd'
    rcases lt_or_ge pb c'.price with hcp | hcp
    · refine (min_le_left _ _).trans ((dMono _ hcp).trans ?_)
      rw [dAb]
      linarith [m1.1]
    rcases lt_or_ge d'.price ps with hdp | hdp
    · refine (min_le_right _ _).trans ((sMono _ hdp).trans ?_)
      rw [sAb]
      linarith [m2.1]
    rw [dLe _ hcp, sLe _ hdp]
    have := m3 c c1 d d1 (c3.symm.trans hcb) (d3.symm.trans hdb) (by rw [← c4, ← d4]; exact hle)
    rw [← c4, ← d4, min_le_iff] at this
    rw [min_le_iff]
    exact this.imp (fun h => by linarith) (fun h => by linarith)
  · rcases lt_or_ge 0 ps with h0 | h0
    · refine (sMono _ h0).trans ?_
      rw [sAb]
      linarith [m2.1]
    · rw [sLe _ h0]
      linarith

/-- Nobody on the short side is left before the last pair. -/
theorem left_front (w : CutRun S df x ps pb cs cb ts) (ht : IsTable df) (h : Pos df) (hd : DistinctPrices df) :
    (∀ r ∈ leftBook df ts, r.buying = true → r.price ≤ pb) ∨
      (∀ r ∈ leftBook df ts, r.buying = false → ps ≤ r.price) := by
  rcases w.short with rfl | rfl
  · right
    intro r' hr' hb
    by_contra hlt
    obtain ⟨r, r1, r2, r3, r4, _⟩ := leftBook_mem hr'
    unfold leftOf at r2
    rw [w.traded ht h.nonNeg hd r1] at r2
    rw [r4, not_le] at hlt
    simp [frontBuy, frontSell, ← r3, hb, hlt, (h r r1).1.le] at r2
  · left
    intro r' hr' hb
    by_contra hlt
    obtain ⟨r, r1, r2, r3, r4, _⟩ := leftBook_mem hr'
    unfold leftOf at r2
    rw [w.traded ht h.nonNeg hd r1] at r2
    rw [r4, not_le] at hlt
    simp [frontBuy, ← r3, hb, hlt, (h r r1).1.le] at r2

end CutRun

/-- There is no last pair with better bids on both sides. -/
def Idle (df : DF) : Prop := ∀ x b a, MarginalPair df x b a →
  (∀ r ∈ df, r.buying = true → r.price ≤ b.price) ∨ (∀ r ∈ df, r.buying = false → a.price ≤ r.price)

/-- In an idle book nothing is traded. -/
theorem idle_run (S : Sorter) (h : Pos df) (hb : ((df.filter (fun r => r.buying)).map (fun r => r.price)).Nodup)
    (hs : ((df.filter (fun r => !r.buying)).map (fun r => r.price)).Nodup) (hi : Idle df) :
    ∃ tm ex, huangAuction S df = .ok (tm, ex) ∧ tm.trans = [] := by
  rcases huang_cases S h.nonNeg with ⟨he, _⟩ | ⟨x, ps, pb, hc, hps, hpb, _, hcase⟩
  · exact ⟨_, _, he, rfl⟩
  rcases hcase with ⟨hB, hA, _⟩ | ⟨_, he⟩
  · exfalso
    obtain ⟨b, a, m⟩ := (crossing_iff_pair h x).mp hc
    obtain ⟨e1, e2⟩ := pair_prices (S := S) h m
    have hbp : b.price = pb := WithTop.coe_injective (e1.symm.trans hpb)
    have hap : a.price = ps := WithTop.coe_injective (e2.symm.trans hps)
    rcases hi x b a m with hi | hi
    · obtain ⟨r, hr⟩ := List.exists_mem_of_ne_nil _ hB
      have hlt := huangB_strict h.nonNeg hc hpb hb r hr
      obtain ⟨m1, m2, _⟩ := (huangB_spec h.nonNeg hc hpb).1 r hr
      have := hi r m1 m2
      rw [hbp] at this
      exact absurd hlt (not_lt.mpr this)
    · obtain ⟨r, hr⟩ := List.exists_mem_of_ne_nil _ hA
      have hlt := huangA_strict hc hps hs r hr
      obtain ⟨m1, m2, _⟩ := (huangA_spec hc hps).1 r hr
      have := hi r m1 m2
      rw [hap] at this
      exact absurd hlt (not_lt.mpr this)
  · exact ⟨_, _, he, rfl⟩

/-- A book in which nothing is traded is idle. -/
theorem run_idle (S : Sorter) (h : Pos df) {tm : TransactionManager} {ex : Extra}
    (hrun : huangAuction S df = .ok (tm, ex)) (he : tm.trans = []) : Idle df := by
  intro x b a m
  have hc := (crossing_iff_pair (S := S) h x).mpr ⟨b, a, m⟩
  obtain ⟨e1, e2⟩ := pair_prices (S := S) h m
  rcases huang_cases S h.nonNeg with ⟨_, hno⟩ | ⟨x', ps, pb, hc', hps, hpb, _, hcase⟩
  · exact absurd ⟨⟨_, WithTop.coe_le_coe.mpr hc.nonneg, hc.at_x⟩, fun z _ => hc.no_tie h.nonNeg z⟩ hno
  obtain rfl := hc'.unique hc
  have hbp : b.price = pb := WithTop.coe_injective (e1.symm.trans hpb)
  have hap : a.price = ps := WithTop.coe_injective (e2.symm.trans hps)
  rcases hcase with ⟨hB, hA, cs, cb, _, _, _, _, _, hr⟩ | ⟨hB | hA, _⟩
  · exfalso
    rw [hr] at hrun
    cases hrun
    rw [TransactionManager.init_addAll_trans] at he
    obtain ⟨h1, _⟩ := List.append_eq_nil_iff.mp he
    unfold cutTrans at h1
    exact hA (List.map_eq_nil_iff.mp h1)
  · left
    intro r hr hb
    by_contra hlt
    have := (huangB_spec h.nonNeg hc' hpb).2 r hr hb (by rw [← hbp]; exact not_le.mp hlt)
    rw [hB] at this
    cases this
  · right
    intro r hr hb
    by_contra hlt
    have := (huangA_spec hc' hps).2 r hr hb (by rw [← hap]; exact not_le.mp hlt)
    rw [hA] at this
    cases this

/-- What is left after a run is idle, and its last pair has the same prices. -/
theorem left_idle (ht : IsTable df) (h : Pos df) (hd : DistinctPrices df) {tm : TransactionManager} {ex : Extra}
    (hrun : huangAuction S df = .ok (tm, ex)) : Idle (leftBook df tm.trans) ∧
      (ex = .empty → ¬ ∃ x b a, MarginalPair (leftBook df tm.trans) x b a) ∧
      ∀ ps pb q, ex = .huang ps pb q → ∃ x b a, MarginalPair (leftBook df tm.trans) x b a ∧
        ps = ((a.price : ℚ) : Ext) ∧ pb = ((b.price : ℚ) : Ext) := by
  have hpos := leftBook_pos (ts := tm.trans) (fun r hr => (h r hr).2)
  rcases huang_cutRun S h.nonNeg hrun with h0 | ⟨x, ps, pb, cs, cb, q, w, rfl⟩
  · have hex := C119_huang S df h tm ex hrun
    rw [h0, leftBook_nil ht h]
    refine ⟨run_idle S h hrun h0, ?_, ?_⟩
    · rintro rfl ⟨x, b, a, m⟩
      obtain ⟨q, hq⟩ := hex.1 x b a m
      cases hq
    · rintro ps pb q rfl
      by_cases hm : ∃ x b a, MarginalPair df x b a
      · obtain ⟨x, b, a, m⟩ := hm
        obtain ⟨q', hq⟩ := hex.1 x b a m
        cases hq
        exact ⟨x, b, a, m, rfl, rfl⟩
      · have := (hex.2 hm).1
        cases this
  · obtain ⟨b, a, hbp, hap, m⟩ := w.left_pair ht h hd
    refine ⟨?_, fun h => (by cases h), ?_⟩
    · intro x' b' a' m'
      obtain ⟨_, e1, e2⟩ := C119_unique _ hpos _ _ _ _ _ _ m m'
      rw [← e1, ← e2, hbp, hap]
      exact w.left_front ht h hd
    · intro ps' pb' q' he
      cases he
      exact ⟨_, b, a, m, by rw [hap], by rw [hbp]⟩

/-! ## Books with the same offers -/

/-- Side, price and quantity of a bid. -/
def offerKey (r : Row) : Bool × ℚ × ℚ := (r.buying, r.price, r.quantity)

theorem offerKey_mem {D D' : DF} (h : (D.map offerKey).Perm (D'.map offerKey)) {r : Row} (hr : r ∈ D) :
    ∃ r' ∈ D', r'.buying = r.buying ∧ r'.price = r.price ∧ r'.quantity = r.quantity := by
  have := h.mem_iff.mp (List.mem_map_of_mem (f := offerKey) hr)
  obtain ⟨r', h1, h2⟩ := List.mem_map.mp this
  unfold offerKey at h2
  simp only [Prod.mk.injEq] at h2
  exact ⟨r', h1, h2.1, h2.2.1, h2.2.2⟩

theorem offerKey_sum {D D' : DF} (h : (D.map offerKey).Perm (D'.map offerKey)) (f : Bool → ℚ → Bool) :
    ((D.filter (fun r => f r.buying r.price)).map (fun r => r.quantity)).sum =
      ((D'.filter (fun r => f r.buying r.price)).map (fun r => r.quantity)).sum := by
  have e : ∀ l : DF, (l.filter (fun r => f r.buying r.price)).map (fun r => r.quantity) =
      ((l.map offerKey).filter (fun k => f k.1 k.2.1)).map (fun k => k.2.2) := by
    intro l
    rw [List.filter_map, List.map_map]
    rfl
  rw [e, e]
  exact ((h.filter _).map _).sum_eq

theorem pair_offerKey {D D' : DF} (h : (D.map offerKey).Perm (D'.map offerKey)) {x : ℚ} {b a : Row}
    (m : MarginalPair D x b a) :
    ∃ b' a', MarginalPair D' x b' a' ∧ b'.price = b.price ∧ a'.price = a.price := by
  obtain ⟨b', b1, b2, b3, _⟩ := offerKey_mem h m.buyer.1
  obtain ⟨a', a1, a2, a3, _⟩ := offerKey_mem h m.seller.1
  have e1 : ∀ p, demandQty D' p = demandQty D p := fun p =>
    offerKey_sum h.symm (fun b q => b && decide (p ≤ q))
  have e2 : ∀ p, demandQtyAbove D' p = demandQtyAbove D p := fun p =>
    offerKey_sum h.symm (fun b q => b && decide (p < q))
  have e3 : ∀ p, supplyQty D' p = supplyQty D p := fun p =>
    offerKey_sum h.symm (fun b q => !b && decide (q ≤ p))
  have e4 : ∀ p, supplyQtyBelow D' p = supplyQtyBelow D p := fun p =>
    offerKey_sum h.symm (fun b q => !b && decide (q < p))
  refine ⟨b', a', ⟨m.pos, ⟨b1, b2.trans m.buyer.2⟩, ⟨a1, a2.trans m.seller.2⟩, ?_, ?_, ?_, ?_, ?_⟩, b3, a3⟩
  · rw [a3, b3]; exact m.lt
  · rw [b3, e1, e2]; exact m.last_buyer
  · rw [a3, e3, e4]; exact m.last_seller
  · intro c' hc' d' hd' hcb hdb hle
    obtain ⟨c, c1, c2, c3, _⟩ := offerKey_mem h.symm hc'
    obtain ⟨d, d1, d2, d3, _⟩ := offerKey_mem h.symm hd'
    rw [e1, e3, ← c3, ← d3]
    exact m.no_more c c1 d d1 (c2.trans hcb) (d2.trans hdb) (by rw [c3, d3]; exact hle)
  · rw [e3]; exact m.free

theorem idle_offerKey {D D' : DF} (h : (D.map offerKey).Perm (D'.map offerKey)) (hi : Idle D) : Idle D' := by
  intro x b' a' m'
  obtain ⟨b, a, m, e1, e2⟩ := pair_offerKey h.symm m'
  refine (hi x b a m).imp ?_ ?_
  · intro hx r' hr' hb
    obtain ⟨r, r1, r2, r3, _⟩ := offerKey_mem h.symm hr'
    rw [← r3, ← e1]
    exact hx r r1 (r2.trans hb)
  · intro hx r' hr' hb
    obtain ⟨r, r1, r2, r3, _⟩ := offerKey_mem h.symm hr'
    rw [← r3, ← e2]
    exact hx r r1 (r2.trans hb)

/-! ## Merging -/

section

variable {nb nb' : DF} {mp mp' : List (List ℕ)} {ts : List Transaction}

/-- What a bid has left is its share of what its group has left. -/
theorem MergeSpec.left_row (hM : MergeSpec df nb mp) (ht : IsTable df) (hts : ∀ t ∈ ts, t.bid < nb.length) {r : Row}
    (hr : r ∈ df) : ∃ row ∈ nb, row.buying = r.buying ∧ row.price = npRound 5 r.price ∧ 
      leftOf (ts.flatMap (splitT df mp)) r = r.quantity * (leftOf ts row / row.quantity) := by
  obtain ⟨k, ids, hk, hids, hmem⟩ := hM.exists_group (ht.label_lt hr)
  obtain ⟨row, ids', a1, a2, _, _, a5, a6⟩ := hM.get hk
  rw [hids] at a2; cases a2
  obtain ⟨s, s1, s2, s3⟩ := a6 _ hmem
  rw [ht.get_label hr] at s1; cases s1
  refine ⟨row, List.mem_of_getElem? a1, s2.symm, s3.symm, ?_⟩
  have hl := hM.table.label a1
  unfold leftOf
  rw [hM.tradedBy_lift hts hids a1 hmem (ht.get_label hr), hl]
  field_simp

/-- The groups of what is left are what is left of the groups. -/
theorem MergeSpec.left_sum (hM : MergeSpec df nb mp) (ht : IsTable df) (hts : ∀ t ∈ ts, t.bid < nb.length) {row : Row}
    (hrow : row ∈ nb) :
    ((df.filter (fun r => r.buying == row.buying && npRound 5 r.price == row.price)).map
      (leftOf (ts.flatMap (splitT df mp)))).sum = leftOf ts row := by
  have h1 := hM.offered_row hrow
  rw [← hM.offered_eq] at h1
  have h2 : (df.filter (fun r => r.buying == row.buying && npRound 5 r.price == row.price)).map
      (leftOf (ts.flatMap (splitT df mp))) =
      (df.filter (fun r => r.buying == row.buying && npRound 5 r.price == row.price)).map
        (fun r => r.quantity * (leftOf ts row / row.quantity)) := by
    apply List.map_congr_left
    intro r hr
    simp only [List.mem_filter, Bool.and_eq_true, beq_iff_eq] at hr
    obtain ⟨row', h3, h4, h5, h6⟩ := hM.left_row ht hts hr.1
    rw [hM.distinct row' h3 row hrow (h4.trans hr.2.1) (h5.trans hr.2.2)] at h6
    exact h6
  rw [h2, List.sum_map_mul_right]
  unfold offered at h1
  rw [h1]
  have := hM.qty row hrow
  field_simp

/-- Merging what is left gives what is left of the merged book. -/
theorem merge_left (hM : MergeSpec df nb mp) (ht : IsTable df) (h : Pos df) (hts : ∀ t ∈ ts, t.bid < nb.length)
    (hle : ∀ row ∈ nb, 0 ≤ leftOf ts row)
    (hM' : MergeSpec (leftBook df (ts.flatMap (splitT df mp))) nb' mp') :
    (nb'.map offerKey).Perm ((leftBook nb ts).map offerKey) := by
  have ht' := leftBook_table df (ts.flatMap (splitT df mp))
  have hl : ∀ r ∈ df, 0 ≤ leftOf (ts.flatMap (splitT df mp)) r := by
    intro r hr
    obtain ⟨row, h1, _, _, h4⟩ := hM.left_row ht hts hr
    rw [h4]
    exact mul_nonneg (h r hr).1.le (div_nonneg (hle row h1) (hM.qty row h1).le)
  have hqty : ∀ row' ∈ nb', ∀ row ∈ nb, row'.buying = row.buying → row'.price = row.price →
      row'.quantity = leftOf ts row := by
    intro row' h1 row h2 h3 h4
    rw [← hM'.offered_row h1, ← hM'.offered_eq, h3, h4, ← hM.left_sum ht hts h2]
    exact leftBook_sum (fun b p => b == row.buying && npRound 5 p == row.price) hl
  have nd : ∀ {D : DF}, D.Nodup → DistinctPrices D → (D.map offerKey).Nodup := by
    intro D h1 h2
    refine List.Nodup.map_on ?_ h1
    intro a ha b hb hab
    unfold offerKey at hab
    simp only [Prod.mk.injEq] at hab
    exact h2 a ha b hb hab.1 hab.2.1
  have nd2 : ((leftBook nb ts).map offerKey).Nodup := by
    have hn : nb.Nodup := List.Nodup.of_map _ hM.table.nodup
    have e : (leftBook nb ts).map offerKey =
        (nb.filter (fun r => decide (0 < leftOf ts r))).map (fun r => (r.buying, r.price, leftOf ts r)) := by
      have e1 : (leftBook nb ts).map offerKey =
          ((leftBook nb ts).map (fun r => r.toBid)).map (fun b => (b.buying, b.price, b.quantity)) := by
        rw [List.map_map]; rfl
      rw [e1]
      unfold leftBook
      rw [labelFrom_map_toBid]
      unfold leftBids
      rw [List.map_map]
      rfl
    rw [e]
    refine List.Nodup.map_on ?_ (hn.filter _)
    intro a ha b hb hab
    simp only [Prod.mk.injEq] at hab
    exact hM.distinct a (List.mem_filter.mp ha).1 b (List.mem_filter.mp hb).1 hab.1 hab.2.1
  rw [List.perm_ext_iff_of_nodup (nd (List.Nodup.of_map _ hM'.table.nodup) hM'.distinct) nd2]
  intro k
  constructor
  · intro hk
    obtain ⟨row', h1, rfl⟩ := List.mem_map.mp hk
    obtain ⟨j, hj⟩ := List.getElem?_of_mem h1
    obtain ⟨row'', ids, a1, _, a3, _, _, a6⟩ := hM'.get (List.getElem?_eq_some_iff.mp hj).1
    rw [hj] at a1; cases a1
    obtain ⟨i, hi⟩ := List.exists_mem_of_ne_nil _ a3
    obtain ⟨r', s1, s2, s3⟩ := a6 i hi
    obtain ⟨r, r1, r2, r3, r4, _⟩ := leftBook_mem (List.mem_of_getElem? s1)
    obtain ⟨row, b1, b2, b3, b4⟩ := hM.left_row ht hts r1
    have hs : row'.buying = row.buying := by rw [← s2, r3, b2]
    have hp : row'.price = row.price := by rw [← s3, r4, b3]
    have hq := hqty row' h1 row b1 hs hp
    have hpos : 0 < leftOf ts row := by rw [← hq]; exact hM'.qty row' h1
    obtain ⟨d, d1, d2, d3, d4⟩ := mem_leftBook b1 hpos
    refine List.mem_map.mpr ⟨d, d1, ?_⟩
    unfold offerKey
    rw [d2, d3, d4, hs, hp, hq]
  · intro hk
    obtain ⟨d, d1, rfl⟩ := List.mem_map.mp hk
    obtain ⟨row, b1, b2, b3, b4, b5⟩ := leftBook_mem d1
    obtain ⟨j, hj⟩ := List.getElem?_of_mem b1
    obtain ⟨row'', ids, a1, _, a3, _, _, a6⟩ := hM.get (List.getElem?_eq_some_iff.mp hj).1
    rw [hj] at a1; cases a1
    obtain ⟨i, hi⟩ := List.exists_mem_of_ne_nil _ a3
    obtain ⟨r, s1, s2, s3⟩ := a6 i hi
    have hr := List.mem_of_getElem? s1
    have hlr : 0 < leftOf (ts.flatMap (splitT df mp)) r := by
      obtain ⟨row2, c1, c2, c3, c4⟩ := hM.left_row ht hts hr
      rw [hM.distinct row2 c1 row b1 (c2.trans s2) (c3.trans s3)] at c4
      rw [c4]
      exact mul_pos (h r hr).1 (div_pos b2 (hM.qty row b1))
    obtain ⟨r', r1, r2, r3, _⟩ := mem_leftBook hr hlr
    obtain ⟨k', ids', hk', hids', hmem'⟩ := hM'.exists_group (ht'.label_lt r1)
    obtain ⟨row', _, e1, e2, _, _, _, e6⟩ := hM'.get hk'
    rw [hids'] at e2; cases e2
    obtain ⟨s, t1, t2, t3⟩ := e6 _ hmem'
    rw [ht'.get_label r1] at t1; cases t1
    have hs : row'.buying = row.buying := by rw [← t2, r2, s2]
    have hp : row'.price = row.price := by rw [← t3, r3, s3]
    have hm := List.mem_of_getElem? e1
    refine List.mem_map.mpr ⟨row', hm, ?_⟩
    unfold offerKey
    rw [hqty row' hm row b1 hs hp, hs, hp, b3, b4, b5]

end

end

end PyMarket
