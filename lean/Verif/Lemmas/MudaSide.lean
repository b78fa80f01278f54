import Verif.Lemmas.TradingBids
import Verif.Lemmas.Lift
import Verif.Lemmas.Sort

/-! # One side of a MUDA half: the transactions and the fees -/

set_option autoImplicit false

namespace PyMarket

open Spec

/-- The transactions MUDA writes for trading rows. -/
def mkTrans (p : ℚ) (rows : DF) : List Transaction :=
  rows.map (fun r => ⟨r.label, r.quantity, p, -1, false⟩)

theorem zipIdx_filter_le {α : Type*} (l : List α) (k : ℕ) :
    ((l.zipIdx.filter (fun p => decide (p.2 ≤ k))).map Prod.fst) = l.take (k + 1) := by
  have aux : ∀ (l : List α) (n k : ℕ), n ≤ k + 1 →
      (((l.zipIdx n).filter (fun p => decide (p.2 ≤ k))).map Prod.fst) = l.take (k + 1 - n) := by
    intro l
    induction l with
    | nil => intro n k _; simp
    | cons x l ih =>
      intro n k hn
      rw [List.zipIdx_cons]
      by_cases h : n ≤ k
      · rw [List.filter_cons_of_pos (by simpa using h), List.map_cons, ih (n + 1) k (by omega)]
        have : k + 1 - n = (k + 1 - (n + 1)) + 1 := by omega
        rw [this, List.take_succ_cons]
      · rw [List.filter_cons_of_neg (by simpa using h)]
        have : k + 1 - n = 0 := by omega
        rw [this, List.take_zero]
        have hf : (l.zipIdx (n + 1)).filter (fun p => decide (p.2 ≤ k)) = [] := by
          rw [List.filter_eq_nil_iff]
          intro p hp
          have := List.mem_zipIdx hp
          simp; omega
        rw [hf]; rfl
  simpa using aux l 0 k (by omega)

theorem tradingTrans_eq (rows : DF) (k : ℕ) (p : ℚ) :
    tradingTrans rows k p = mkTrans p (rows.take (k + 1)) := by
  unfold tradingTrans mkTrans
  rw [← zipIdx_filter_le, List.map_map]
  rfl

theorem mem_tradingUsers {rows : DF} {k : ℕ} {u : ℤ} :
    u ∈ tradingUsers rows k ↔ ∃ r ∈ rows.take (k + 1), r.user = u := by
  unfold tradingUsers
  rw [List.mem_eraseDups]
  have : (rows.zipIdx.filter (fun p => decide (p.2 ≤ k))).map (fun p => p.1.user) =
      (rows.take (k + 1)).map (fun r => r.user) := by
    rw [← zipIdx_filter_le, List.map_map]; rfl
  rw [this, List.mem_map]

theorem tradedBy_mkTrans_cons (p : ℚ) (r : Row) (rows : DF) (i : ℕ) :
    tradedBy (mkTrans p (r :: rows)) i =
      (if r.label = i then r.quantity else 0) + tradedBy (mkTrans p rows) i := by
  unfold tradedBy mkTrans
  rw [List.map_cons]
  by_cases h : r.label = i
  · rw [List.filter_cons_of_pos (by simpa using h), List.map_cons, List.sum_cons, if_pos h]
  · rw [List.filter_cons_of_neg (by simpa using h), if_neg h, zero_add]

theorem tradedBy_not_mem {ts : List Transaction} {i : ℕ} (h : ∀ t ∈ ts, t.bid ≠ i) :
    tradedBy ts i = 0 := by
  unfold tradedBy
  rw [List.filter_eq_nil_iff.mpr]
  · rfl
  · intro t ht; simpa using h t ht

theorem tradedBy_nodup {ts : List Transaction} (hn : (ts.map (fun t => t.bid)).Nodup)
    {t : Transaction} (ht : t ∈ ts) : tradedBy ts t.bid = t.quantity := by
  induction ts with
  | nil => cases ht
  | cons a ts ih =>
    rw [List.map_cons, List.nodup_cons] at hn
    have hcons : tradedBy (a :: ts) t.bid = tradedBy [a] t.bid + tradedBy ts t.bid :=
      tradedBy_append [a] ts _
    rcases List.mem_cons.mp ht with rfl | h
    · rw [hcons, tradedBy_not_mem (ts := ts)]
      · simp [tradedBy]
      · intro t' ht' he
        exact hn.1 (he ▸ List.mem_map_of_mem ht')
    · rw [hcons, ih hn.2 h]
      have : a.bid ≠ t.bid := by
        intro he
        exact hn.1 (he ▸ List.mem_map_of_mem h)
      simp [tradedBy, this]

theorem tradedBy_zero_rows {p : ℚ} {Z : DF} (hz : ∀ r ∈ Z, r.quantity = 0) (i : ℕ) :
    tradedBy (mkTrans p Z) i = 0 := by
  induction Z with
  | nil => rfl
  | cons r rs ih =>
    rw [tradedBy_mkTrans_cons, ih (fun r' hr' => hz r' (List.mem_cons_of_mem _ hr')),
      hz r List.mem_cons_self]
    simp

theorem mkTrans_append (p : ℚ) (A B : DF) : mkTrans p (A ++ B) = mkTrans p A ++ mkTrans p B := by
  simp [mkTrans]

theorem fillRows_labels (Q : ℚ) (rows : DF) :
    (fillRows Q rows).map (fun r => r.label) = rows.map (fun r => r.label) :=
  fillRows_map _ (fun _ _ => rfl) Q rows

theorem tradedBy_mkTrans_not_mem {p : ℚ} {rows : DF} {i : ℕ}
    (h : i ∉ rows.map (fun r => r.label)) : tradedBy (mkTrans p rows) i = 0 := by
  apply tradedBy_not_mem
  intro t ht he
  obtain ⟨r, hr, rfl⟩ := List.mem_map.mp ht
  exact h (he ▸ List.mem_map_of_mem hr)

/-- Amounts per row of a filled side. -/
theorem fill_map {p : ℚ} (f : Row → ℚ → ℚ) (hf : ∀ (r : Row) (x y : ℚ), f { r with quantity := x } y = f r y)
    (Q : ℚ) {rows : DF} (hn : (rows.map (fun r => r.label)).Nodup) :
    (fillRows Q rows).map (fun r => f r r.quantity) =
      rows.map (fun r => f r (tradedBy (mkTrans p (fillRows Q rows)) r.label)) := by
  induction rows generalizing Q with
  | nil => rfl
  | cons r rs ih =>
    rw [List.map_cons, List.nodup_cons] at hn
    rw [fillRows, List.map_cons, List.map_cons, tradedBy_mkTrans_cons, if_pos rfl,
      tradedBy_mkTrans_not_mem (by rw [fillRows_labels]; exact hn.1), add_zero, hf, ih _ hn.2]
    congr 1
    apply List.map_congr_left
    intro r' hr'
    rw [tradedBy_mkTrans_cons, if_neg, zero_add]
    intro he
    exact hn.1 (he ▸ List.mem_map_of_mem hr')

theorem fill_filter_map {p : ℚ} (f : Row → ℚ → ℚ)
    (hf : ∀ (r : Row) (x y : ℚ), f { r with quantity := x } y = f r y)
    (P : Row → Bool) (hP : ∀ (r : Row) (x : ℚ), P { r with quantity := x } = P r)
    (Q : ℚ) {rows : DF} (hn : (rows.map (fun r => r.label)).Nodup) :
    ((fillRows Q rows).filter P).map (fun r => f r r.quantity) =
      (rows.filter P).map (fun r => f r (tradedBy (mkTrans p (fillRows Q rows)) r.label)) := by
  induction rows generalizing Q with
  | nil => rfl
  | cons r rs ih =>
    rw [List.map_cons, List.nodup_cons] at hn
    have hrest : ∀ r' ∈ rs.filter P, f r' (tradedBy (mkTrans p (fillRows Q (r :: rs))) r'.label) =
        f r' (tradedBy (mkTrans p (fillRows (Q - min r.quantity Q) rs)) r'.label) := by
      intro r' hr'
      rw [fillRows, tradedBy_mkTrans_cons, if_neg, zero_add]
      intro he
      exact hn.1 (he ▸ List.mem_map_of_mem (List.mem_filter.mp hr').1)
    by_cases h : P r = true
    · rw [List.filter_cons_of_pos h, List.map_cons, List.map_congr_left hrest, ← ih _ hn.2]
      conv_lhs => rw [fillRows]
      rw [List.filter_cons_of_pos (by rw [hP]; exact h), List.map_cons, hf]
      congr 2
      rw [fillRows, tradedBy_mkTrans_cons, if_pos rfl,
        tradedBy_mkTrans_not_mem (by rw [fillRows_labels]; exact hn.1), add_zero]
    · rw [List.filter_cons_of_neg h, List.map_congr_left hrest, ← ih _ hn.2]
      conv_lhs => rw [fillRows]
      rw [List.filter_cons_of_neg (by rw [hP]; exact h)]

/-- What one side of a half trades. `w` is the gain per unit of a bid. -/
structure SideOut (rows : DF) (w : Row → ℚ) (p Q : ℚ) (ts : List Transaction) : Prop where
  mem : ∀ t ∈ ts, ∃ r ∈ rows, t.bid = r.label ∧ 0 ≤ t.quantity ∧ t.quantity ≤ r.quantity ∧
    t.price = p ∧ t.source = -1 ∧ t.active = false
  nodup : (ts.map (fun t => t.bid)).Nodup
  sum : (ts.map (fun t => t.quantity)).sum = Q
  bound : ∀ r ∈ rows, 0 ≤ tradedBy ts r.label ∧ tradedBy ts r.label ≤ r.quantity
  total : (rows.map (fun r => tradedBy ts r.label)).sum = Q
  best : ∀ r ∈ rows, ∀ r' ∈ rows, w r < w r' → 0 < tradedBy ts r.label →
    tradedBy ts r'.label = r'.quantity
  full : Q = qsum rows → ∀ r ∈ rows, tradedBy ts r.label = r.quantity
  greedy : (rows.map (fun r => w r * tradedBy ts r.label)).sum =
    PyMarket.greedy (fun r => r.quantity) w Q rows

/-- The rows sorted by gain, `σ` the sign relating gains and prices. -/
structure Side (rows : DF) (w : Row → ℚ) (p σ : ℚ) : Prop where
  nodup : (rows.map (fun r => r.label)).Nodup
  nonneg : ∀ r ∈ rows, 0 ≤ r.quantity
  sorted : rows.Pairwise (fun a b => w b ≤ w a)
  gain : ∀ r ∈ rows, 0 ≤ w r
  sign : σ = 1 ∨ σ = -1
  weight : ∀ r : Row, r.price - p = σ * w r

theorem Side.const {rows : DF} {w : Row → ℚ} {p σ : ℚ} (h : Side rows w p σ) (r : Row) (x : ℚ) :
    w { r with quantity := x } = w r := by
  have h1 := h.weight r
  have h2 := h.weight { r with quantity := x }
  have h3 : σ * w { r with quantity := x } = σ * w r := by rw [← h1, ← h2]
  rcases h.sign with rfl | rfl
  · simpa using h3
  · simpa using h3

theorem fill_best {w : Row → ℚ} {Q : ℚ} (hQ : 0 ≤ Q) {rows : DF}
    (hq : ∀ r ∈ rows, 0 ≤ r.quantity) (hs : rows.Pairwise (fun a b => w b ≤ w a))
    (hn : (rows.map (fun r => r.label)).Nodup) (p : ℚ) :
    ∀ r ∈ rows, ∀ r' ∈ rows, w r < w r' → 0 < tradedBy (mkTrans p (fillRows Q rows)) r.label →
      tradedBy (mkTrans p (fillRows Q rows)) r'.label = r'.quantity := by
  induction rows generalizing Q with
  | nil => intro r hr; cases hr
  | cons a rows ih =>
    rw [List.pairwise_cons] at hs
    rw [List.map_cons, List.nodup_cons] at hn
    have hq' := fun r hr => hq r (List.mem_cons_of_mem _ hr)
    have hQ' : 0 ≤ Q - min a.quantity Q := by linarith [min_le_right a.quantity Q]
    have htail : ∀ r ∈ rows, tradedBy (mkTrans p (fillRows Q (a :: rows))) r.label =
        tradedBy (mkTrans p (fillRows (Q - min a.quantity Q) rows)) r.label := by
      intro r hr
      rw [fillRows, tradedBy_mkTrans_cons, if_neg, zero_add]
      intro he
      exact hn.1 (he ▸ List.mem_map_of_mem hr)
    have hhead : tradedBy (mkTrans p (fillRows Q (a :: rows))) a.label = min a.quantity Q := by
      rw [fillRows, tradedBy_mkTrans_cons, if_pos rfl,
        tradedBy_mkTrans_not_mem (by rw [fillRows_labels]; exact hn.1), add_zero]
    intro r hr r' hr' hlt hpos
    rcases List.mem_cons.mp hr with rfl | hr
    · rcases List.mem_cons.mp hr' with rfl | hr'
      · exact absurd hlt (lt_irrefl _)
      · exact absurd hlt (not_lt.mpr (hs.1 r' hr'))
    · rw [htail r hr] at hpos
      rcases List.mem_cons.mp hr' with rfl | hr'
      · rw [hhead]
        apply min_eq_left
        by_contra hc
        push Not at hc
        rw [min_eq_right hc.le, sub_self] at hpos
        have : ∀ r ∈ fillRows 0 rows, r.quantity = 0 := fillRows_zero hq'
        rw [tradedBy_zero_rows this] at hpos
        exact lt_irrefl _ hpos
      · rw [htail r' hr']
        exact ih hQ' hq' hs.2 hn.2 r hr r' hr' hlt hpos

theorem TradeCut.sideOut {rows out : DF} {w : Row → ℚ} {p σ Q : ℚ} {k : ℕ}
    (hs : Side rows w p σ) (hQ : 0 ≤ Q) (hle : Q ≤ qsum rows) (h : TradeCut rows Q out k) :
    SideOut rows w p Q (tradingTrans out k p) := by
  obtain ⟨Z, hfill, hZ⟩ := h.trading hs.nonneg
  rw [tradingTrans_eq]
  have htb : ∀ i, tradedBy (mkTrans p (out.take (k + 1))) i =
      tradedBy (mkTrans p (fillRows Q rows)) i := by
    intro i
    rw [hfill, mkTrans_append, tradedBy_append, tradedBy_zero_rows hZ, add_zero]
  have hfillm := fillRows_mem hQ hs.nonneg
  have hnd : ((fillRows Q rows).map (fun r => r.label)).Nodup := by
    rw [fillRows_labels]; exact hs.nodup
  have hsum : (rows.map (fun r => tradedBy (mkTrans p (out.take (k + 1))) r.label)).sum = Q := by
    simp only [htb]
    have := fill_map (p := p) (fun _ y => y) (fun _ _ _ => rfl) Q hs.nodup
    rw [← this]
    have h2 := fillRows_qsum hQ hs.nonneg
    rw [min_eq_left hle] at h2
    exact h2
  have hb : ∀ r ∈ rows, 0 ≤ tradedBy (mkTrans p (fillRows Q rows)) r.label ∧
      tradedBy (mkTrans p (fillRows Q rows)) r.label ≤ r.quantity := by
    intro r hr
    obtain ⟨r', hr', hl'⟩ : ∃ r' ∈ fillRows Q rows, r'.label = r.label := by
      have : r.label ∈ (fillRows Q rows).map (fun r => r.label) := by
        rw [fillRows_labels]; exact List.mem_map_of_mem hr
      obtain ⟨r', h1, h2⟩ := List.mem_map.mp this
      exact ⟨r', h1, h2⟩
    have ht : tradedBy (mkTrans p (fillRows Q rows)) r.label = r'.quantity := by
      have hmem : (⟨r'.label, r'.quantity, p, -1, false⟩ : Transaction) ∈
          mkTrans p (fillRows Q rows) := by
        unfold mkTrans
        exact List.mem_map.mpr ⟨r', hr', rfl⟩
      have := tradedBy_nodup (ts := mkTrans p (fillRows Q rows))
        (by unfold mkTrans; rw [List.map_map]; exact hnd) hmem
      rw [hl'] at this
      exact this
    obtain ⟨r₀, h0, h1, _, _, _, h5, h6⟩ := hfillm r' hr'
    have : r₀ = r := by
      have := List.inj_on_of_nodup_map hs.nodup h0 hr
      exact this (by rw [← h1]; exact hl')
    subst this
    rw [ht]
    exact ⟨h5, h6⟩
  refine ⟨?_, ?_, ?_, ?_, hsum, ?_, ?_, ?_⟩
  · intro t ht
    obtain ⟨r', hr', rfl⟩ := List.mem_map.mp ht
    have : r' ∈ fillRows Q rows := by rw [hfill]; simp [hr']
    obtain ⟨r, h0, h1, _, _, _, h5, h6⟩ := hfillm r' this
    exact ⟨r, h0, h1, h5, h6, rfl, rfl, rfl⟩
  · unfold mkTrans
    rw [List.map_map]
    rw [hfill, List.map_append] at hnd
    exact (List.nodup_append.mp hnd).1
  · have h2 := fillRows_qsum hQ hs.nonneg
    rw [min_eq_left hle, hfill] at h2
    have hz : qsum Z = 0 := by
      apply List.sum_eq_zero
      intro v hv
      obtain ⟨r, hr, rfl⟩ := List.mem_map.mp hv
      exact hZ r hr
    have h3 : qsum (out.take (k + 1) ++ Z) = qsum (out.take (k + 1)) + qsum Z := by
      simp [qsum]
    rw [h3, hz, add_zero] at h2
    unfold mkTrans
    rw [List.map_map]
    exact h2
  · intro r hr; rw [htb]; exact hb r hr
  · intro r hr r' hr' hlt hpos
    rw [htb] at hpos ⊢
    exact fill_best hQ hs.nonneg hs.sorted hs.nodup p r hr r' hr' hlt hpos
  · intro hfull r hr
    rw [htb, fillRows_all hs.nonneg hfull.ge]
    have hmem : (⟨r.label, r.quantity, p, -1, false⟩ : Transaction) ∈ mkTrans p rows := by
      unfold mkTrans
      exact List.mem_map.mpr ⟨r, hr, rfl⟩
    exact tradedBy_nodup (ts := mkTrans p rows)
      (by unfold mkTrans; rw [List.map_map]; exact hs.nodup) hmem
  · simp only [htb]
    have := fill_map (p := p) (fun r y => w r * y) (fun r x y => by rw [hs.const]) Q hs.nodup
    rw [← this, ← fillRows_value (fun r x => hs.const r x)]
    rfl

/-- The fee charged to `u`, in terms of the side and its transactions. -/
theorem TradeCut.fee {rows out : DF} {w : Row → ℚ} {p σ Q : ℚ} {k : ℕ}
    (hs : Side rows w p σ) (hQ : 0 ≤ Q) (hle : Q ≤ qsum rows) (h : TradeCut rows Q out k) (u : ℤ) :
    computeFee out k u Q p =
      greedy (fun r => r.quantity) w Q (rows.filter (fun r => decide (r.user ≠ u))) -
        ((rows.filter (fun r => decide (r.user ≠ u))).map
          (fun r => w r * tradedBy (tradingTrans out k p) r.label)).sum := by
  obtain ⟨Z, hfill, hZ⟩ := h.trading hs.nonneg
  have htb : ∀ i, tradedBy (tradingTrans out k p) i =
      tradedBy (mkTrans p (fillRows Q rows)) i := by
    intro i
    rw [tradingTrans_eq, hfill, mkTrans_append, tradedBy_append, tradedBy_zero_rows hZ, add_zero]
  have hlen : (out.take (k + 1)).length = k + 1 := by
    rw [List.length_take]; exact min_eq_left h.lt.2
  have hout : out.take (k + 1) ++ out.drop (k + 1) = out := List.take_append_drop _ _
  have hqs := fillRows_qsum hQ hs.nonneg
  rw [min_eq_left hle, hfill] at hqs
  have hle' : qsum ((out.take (k + 1)).filter (fun r => decide (r.user ≠ u))) ≤ Q := by
    rw [← hqs]
    have h3 : qsum (out.take (k + 1) ++ Z) = qsum (out.take (k + 1)) + qsum Z := by simp [qsum]
    have hz : qsum Z = 0 := by
      apply List.sum_eq_zero
      intro v hv
      obtain ⟨r, hr, rfl⟩ := List.mem_map.mp hv
      exact hZ r hr
    rw [h3, hz, add_zero]
    apply List.Sublist.sum_le_sum (List.filter_sublist.map _)
    intro v hv
    obtain ⟨r, hr, rfl⟩ := List.mem_map.mp hv
    exact h.nonneg hs.nonneg r (List.mem_of_mem_take hr)
  have hw0 : ∀ r ∈ out, 0 ≤ w r := by
    intro r hr
    obtain ⟨r₀, h0, _, h1, _⟩ := h.attr r hr
    have e1 := hs.weight r
    have e2 := hs.weight r₀
    rw [h1, e2] at e1
    have := hs.gain r₀ h0
    rcases hs.sign with rfl | rfl
    · linarith
    · linarith
  have key := computeFee_eq (T := out.take (k + 1)) (E := out.drop (k + 1)) (index := k) (u := u)
    (Q := Q) (p := p) (σ := σ) (w := w) hlen hQ (by rw [hout]; exact h.nonneg hs.nonneg) hs.sign
    (fun r _ => hs.weight r) (by rw [hout]; exact hw0) hle'
  rw [hout, h.greedy_others hs.nonneg hQ (fun r x => hs.const r x) u] at key
  rw [key]
  congr 1
  simp only [htb]
  have e := fill_filter_map (p := p) (fun r y => w r * y) (fun r x y => by rw [hs.const])
    (fun r => decide (r.user ≠ u)) (fun _ _ => rfl) Q hs.nodup
  rw [← e, hfill, List.filter_append, List.map_append, List.sum_append]
  have hz : ((Z.filter (fun r => decide (r.user ≠ u))).map (fun r => w r * r.quantity)).sum = 0 := by
    apply List.sum_eq_zero
    intro v hv
    obtain ⟨r, hr, rfl⟩ := List.mem_map.mp hv
    rw [hZ r (List.mem_filter.mp hr).1, mul_zero]
  rw [hz, add_zero]
  rfl

theorem TradeCut.users {rows out : DF} {Q p : ℚ} {k : ℕ} (hn : (rows.map (fun r => r.label)).Nodup)
    (h : TradeCut rows Q out k) (u : ℤ) :
    u ∈ tradingUsers out k ↔ ∃ t ∈ tradingTrans out k p, ∃ r ∈ rows, r.label = t.bid ∧ r.user = u := by
  rw [mem_tradingUsers, tradingTrans_eq]
  constructor
  · rintro ⟨r', hr', rfl⟩
    obtain ⟨r, h0, h1, _, h3, _⟩ := h.attr r' (List.mem_of_mem_take hr')
    exact ⟨_, List.mem_map.mpr ⟨r', hr', rfl⟩, r, h0, h1.symm, h3.symm⟩
  · rintro ⟨t, ht, r, hr, hl, rfl⟩
    obtain ⟨r', hr', rfl⟩ := List.mem_map.mp ht
    obtain ⟨r₀, h0, h1, _, h3, _⟩ := h.attr r' (List.mem_of_mem_take hr')
    have : r₀ = r := List.inj_on_of_nodup_map hn h0 hr (by rw [← h1]; exact hl.symm)
    subst this
    exact ⟨r', hr', h3⟩

/-! ## The fee loop -/

/-- The position of user `u` in an array of `n` fees (Python index). -/
theorem feeLoop_ok {long : DF} {k : ℕ} {Q p : ℚ} {us : List ℤ} {fees : List ℚ}
    (hu : ∀ u ∈ us, 0 ≤ u ∧ u < fees.length) :
    ∃ fees', feeLoop long k Q p us fees = .ok fees' ∧ fees'.length = fees.length ∧
      ∀ (v : ℕ), v < fees.length →
        fees'[v]? = if (v : ℤ) ∈ us then some (computeFee long k v Q p) else fees[v]? := by
  induction us generalizing fees with
  | nil => exact ⟨fees, rfl, rfl, by simp⟩
  | cons u us ih =>
    obtain ⟨h0, h1⟩ := hu u List.mem_cons_self
    have hset : npSet fees u (computeFee long k u Q p) =
        .ok (fees.set u.toNat (computeFee long k u Q p)) := by
      unfold npSet; rw [if_pos ⟨h0, h1⟩]
    obtain ⟨fees', e1, e2, e3⟩ := ih (fees := fees.set u.toNat (computeFee long k u Q p))
      (by rw [List.length_set]; exact fun u' hu' => hu u' (List.mem_cons_of_mem _ hu'))
    refine ⟨fees', ?_, by rw [e2, List.length_set], ?_⟩
    · rw [feeLoop, hset]; exact e1
    · intro v hv
      rw [e3 v (by rw [List.length_set]; exact hv)]
      by_cases hm : (v : ℤ) ∈ us
      · rw [if_pos hm, if_pos (List.mem_cons_of_mem _ hm)]
      · rw [if_neg hm]
        by_cases hvu : (v : ℤ) = u
        · have : u.toNat = v := by omega
          rw [this, if_pos (by rw [hvu]; exact List.mem_cons_self), List.getElem?_set_self hv, hvu]
        · have : u.toNat ≠ v := by omega
          rw [List.getElem?_set_ne this, if_neg]
          intro hc
          rcases List.mem_cons.mp hc with h | h
          · exact hvu h
          · exact hm h

end PyMarket
