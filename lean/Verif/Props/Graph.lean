import Verif.Lemmas.Graph
import Verif.Spec.Graph

/-! # C52 – C54: the graph of P2P trades -/

set_option autoImplicit false

namespace PyMarket

open Spec

/-- The rows behind the drawing: one entry per meeting, with its users and quantity. -/
def meetRows (df : DF) (c : ℚ) (M : List (ℕ × ℕ)) : List ((Option ℤ × Option ℤ) × ℚ) :=
  (meetQty (priceOf df) c (qtyOf df) M).map (fun m => ((userOf df m.1.1, userOf df m.1.2), m.2))

theorem meetRows_mirror {df : DF} (ht : IsTable df) {c : ℚ} {M : List (ℕ × ℕ)}
    {ts : List Transaction} (h : ts = (tradeRound (priceOf df) c (qtyOf df) M).2) :
    ts.map (fun t => ((userAt df (t.bid : ℤ), userAt df t.source), t.quantity)) =
      mirror (meetRows df c M) := by
  have e := congrArg (List.map (fun x : ℕ × ℤ × ℚ =>
    ((userAt df (x.1 : ℤ), userAt df x.2.1), x.2.2)))
    (tradeRound_log (priceOf df) c (qtyOf df) M)
  rw [List.map_map, ← h] at e
  refine Eq.trans e ?_
  unfold mirror meetRows
  rw [List.map_flatMap, List.flatMap_map]
  simp only [List.map_cons, List.map_nil, userAt_eq ht]
  rfl

theorem figure_edges {df : DF} (ht : IsTable df) {c : ℚ} {M : List (ℕ × ℕ)}
    {tm : TransactionManager} (h : tm.trans = (tradeRound (priceOf df) c (qtyOf df) M).2) :
    (tradesFigure df tm).edges = (mirror (meetRows df c M)).map Prod.fst := by
  rw [← meetRows_mirror ht h, List.map_map]
  rfl

theorem figure_labels {df : DF} (ht : IsTable df) {c : ℚ} {M : List (ℕ × ℕ)}
    {tm : TransactionManager} (h : tm.trans = (tradeRound (priceOf df) c (qtyOf df) M).2) :
    (tradesFigure df tm).labels = uniqueLabels (toDict (mirror (meetRows df c M))) := by
  rw [← meetRows_mirror ht h]
  rfl

theorem mem_mirror_keys {df : DF} {c : ℚ} {M : List (ℕ × ℕ)} {k : Option ℤ × Option ℤ} :
    k ∈ (mirror (meetRows df c M)).map Prod.fst ↔
      ∃ p ∈ M, k = (userOf df p.1, userOf df p.2) ∨ k = (userOf df p.2, userOf df p.1) := by
  unfold mirror meetRows
  rw [List.flatMap_map, List.map_flatMap, List.mem_flatMap]
  constructor
  · rintro ⟨m, hm, hk⟩
    have hm1 := List.mem_map_of_mem (f := Prod.fst) hm
    rw [meetQty_fst] at hm1
    refine ⟨m.1, hm1, ?_⟩
    simpa using hk
  · rintro ⟨p, hp, hk⟩
    rw [← meetQty_fst (priceOf df) c (qtyOf df) M] at hp
    obtain ⟨m, hm, rfl⟩ := List.mem_map.mp hp
    exact ⟨m, hm, by simpa using hk⟩

theorem joined_iff {df : DF} (ht : IsTable df) {c : ℚ} {M : List (ℕ × ℕ)}
    {tm : TransactionManager} (h : tm.trans = (tradeRound (priceOf df) c (qtyOf df) M).2) (u v : ℤ) :
    Joined (tradesFigure df tm) u v ↔ ∃ p ∈ M, Meets df p u v := by
  unfold Joined Meets
  rw [figure_edges ht h, mem_mirror_keys, mem_mirror_keys]
  simp only [Prod.mk.injEq]
  constructor
  · rintro (⟨p, hp, h | h⟩ | ⟨p, hp, h | h⟩)
    · exact ⟨p, hp, Or.inl ⟨h.1.symm, h.2.symm⟩⟩
    · exact ⟨p, hp, Or.inr ⟨h.2.symm, h.1.symm⟩⟩
    · exact ⟨p, hp, Or.inr ⟨h.1.symm, h.2.symm⟩⟩
    · exact ⟨p, hp, Or.inl ⟨h.2.symm, h.1.symm⟩⟩
  · rintro ⟨p, hp, h | h⟩
    · exact Or.inl ⟨p, hp, Or.inl ⟨h.1.symm, h.2.symm⟩⟩
    · exact Or.inl ⟨p, hp, Or.inr ⟨h.2.symm, h.1.symm⟩⟩

theorem meets_swap {df : DF} {a b : ℕ} {u v : ℤ} : Meets df (a, b) u v ↔ Meets df (b, a) u v := by
  unfold Meets; tauto

/-- The logged transactions, meeting by meeting. -/
theorem mem_log {df : DF} {c : ℚ} {M : List (ℕ × ℕ)} {ts : List Transaction}
    (h : ts = (tradeRound (priceOf df) c (qtyOf df) M).2) (u v : ℤ) (Q : ℚ → Prop) :
    (∃ t ∈ ts, Q t.quantity ∧ Between df t u v) ↔
      ∃ m ∈ meetQty (priceOf df) c (qtyOf df) M, Q m.2 ∧ Meets df m.1 u v := by
  have hl := tradeRound_log (priceOf df) c (qtyOf df) M
  rw [← h] at hl
  constructor
  · rintro ⟨t, htm, hq, h0, hb⟩
    have hm := List.mem_map_of_mem (f := fun t : Transaction => (t.bid, t.source, t.quantity)) htm
    rw [hl, List.mem_flatMap] at hm
    obtain ⟨m, hm, he⟩ := hm
    simp only [List.mem_cons, List.not_mem_nil, or_false, Prod.mk.injEq] at he
    refine ⟨m, hm, ?_⟩
    rcases he with ⟨h1, h2, h3⟩ | ⟨h1, h2, h3⟩
    · rw [h1, h2, Int.toNat_natCast] at hb
      exact ⟨h3 ▸ hq, hb⟩
    · rw [h1, h2, Int.toNat_natCast] at hb
      exact ⟨h3 ▸ hq, meets_swap.mp hb⟩
  · rintro ⟨m, hm, hq, hb⟩
    have he : (m.1.1, (m.1.2 : ℤ), m.2) ∈ ts.map (fun t => (t.bid, t.source, t.quantity)) := by
      rw [hl, List.mem_flatMap]
      exact ⟨m, hm, by simp⟩
    obtain ⟨t, htm, he⟩ := List.mem_map.mp he
    simp only [Prod.mk.injEq] at he
    obtain ⟨h1, h2, h3⟩ := he
    refine ⟨t, htm, h3 ▸ hq, by rw [h2]; exact Int.natCast_nonneg _, ?_⟩
    rw [h1, h2, Int.toNat_natCast]
    exact hb

/-- C52 at full strength: two users are joined by an edge exactly if the log contains a trade of
positive quantity between them. -/
def Spec.EdgesAreTrades (c : ℚ) (choice : ℕ → ℕ) (df : DF) : Prop :=
  ∀ tm ex, p2pRandom c choice df = .ok (tm, ex) → ∀ u v,
    Joined (tradesFigure df tm) u v ↔ ∃ t ∈ tm.trans, 0 < t.quantity ∧ Between df t u v

/-- **C52 (refuted).** In the book of the P2P file the users 1 and 3 meet, do not trade because their
prices are incompatible, and are nevertheless joined by an edge. -/
theorem C52_refuted : ¬ ∀ c choice df, IsTable df → Pos df → EdgesAreTrades c choice df := by
  intro h
  have h1 := h (1/2) (fun _ => 0) p2pBook (by decide +kernel) (by decide +kernel) _ _ rfl 1 3
  have h2 := h1.mp (Or.inl (by decide +kernel))
  obtain ⟨t, ht, hq, hb⟩ := h2
  revert ht hq hb
  have : ∀ t ∈ (p2pRandom (1/2) (fun _ => 0) p2pBook).toOption.elim [] (fun r => r.1.trans),
      ¬ (0 < t.quantity ∧ Between p2pBook t 1 3) := by decide +kernel
  intro ht hq hb
  exact this t ht ⟨hq, hb⟩

/-- **C52 (what holds).** For every book and schedule, two users are joined exactly if bids of theirs
met, and they traded a positive quantity exactly if bids of theirs met at compatible prices. So every
trade is drawn, and the superfluous edges are those between users that met only at incompatible
prices. Missing for C52: such edges are drawn too. -/
theorem C52_edges_partial (c : ℚ) (choice : ℕ → ℕ) (df : DF) (ht : IsTable df) (hq : ∀ r ∈ df, 0 < r.quantity) :
    ∃ tm R, p2pRandom c choice df = .ok (tm, .p2p R) ∧ ∀ u v,
      (Joined (tradesFigure df tm) u v ↔ ∃ p ∈ R.flatten, Meets df p u v) ∧
      ((∃ t ∈ tm.trans, 0 < t.quantity ∧ Between df t u v) ↔
        ∃ p ∈ R.flatten, Meets df p u v ∧ priceOf df p.2 ≤ priceOf df p.1) := by
  obtain ⟨tm, R, h, hR⟩ := p2p_run c choice df ht
  refine ⟨tm, R, h, fun u v => ⟨joined_iff ht hR.loop.trans u v, ?_⟩⟩
  rw [mem_log hR.loop.trans u v (fun q => 0 < q)]
  have hpos := hR.meetQty_pos ht hq
  constructor
  · rintro ⟨m, hm, h0, hb⟩
    have hm1 := List.mem_map_of_mem (f := Prod.fst) hm
    rw [meetQty_fst] at hm1
    exact ⟨m.1, hm1, hb, (hpos m hm).2.mp h0⟩
  · rintro ⟨p, hp, hb, hc⟩
    rw [← meetQty_fst (priceOf df) c (qtyOf df) R.flatten] at hp
    obtain ⟨m, hm, rfl⟩ := List.mem_map.mp hp
    exact ⟨m, hm, (hpos m hm).2.mpr hc, hb⟩

/-- **C52 (compatible books).** If every buyer's price is at least every seller's, the edges are
exactly the trades. -/
theorem C52_compatible_partial (c : ℚ) (choice : ℕ → ℕ) (df : DF) (ht : IsTable df) (hq : ∀ r ∈ df, 0 < r.quantity)
    (hc : ∀ b ∈ df, ∀ s ∈ df, b.buying = true → s.buying = false → s.price ≤ b.price) :
    EdgesAreTrades c choice df := by
  intro tm ex hrun u v
  obtain ⟨tm', R, h, hE⟩ := C52_edges_partial c choice df ht hq
  obtain ⟨tm'', R', h', hpair, _⟩ := C19_rounds c choice df ht (fun r hr => (hq r hr).le)
  rw [hrun] at h h'
  cases h
  cases h'
  rw [(hE u v).1, (hE u v).2]
  constructor
  · rintro ⟨p, hp, hb⟩
    refine ⟨p, hp, hb, ?_⟩
    obtain ⟨h1, h2⟩ := hpair p hp
    unfold isBuy at h1
    unfold isSell at h2
    cases e1 : df[p.1]? with
    | none => rw [e1] at h1; cases h1
    | some rb =>
      cases e2 : df[p.2]? with
      | none => rw [e2] at h2; cases h2
      | some rs =>
        rw [e1] at h1
        rw [e2] at h2
        simp only [Option.map_some, Option.getD_some, Bool.not_eq_true'] at h1 h2
        simp only [priceOf, e1, e2, Option.map_some, Option.getD_some]
        exact hc rb (List.mem_of_getElem? e1) rs (List.mem_of_getElem? e2) h1 h2
  · rintro ⟨p, hp, hb, _⟩
    exact ⟨p, hp, hb⟩

/-- A book for this file: user 7 buys with two bids, user 5 sells with two bids; all prices are
compatible. -/
def graphBook : DF := labelFrom 0
  [⟨2, 3, 7, true, 0, true⟩, ⟨3, 4, 7, true, 0, true⟩, ⟨1, 1, 5, false, 0, true⟩,
   ⟨5, 2, 5, false, 0, true⟩]

/-- Non-vacuity of `C52_compatible_partial`, with the figure of one run. -/
example : IsTable graphBook ∧ Pos graphBook ∧
    (∀ b ∈ graphBook, ∀ s ∈ graphBook, b.buying = true → s.buying = false → s.price ≤ b.price) ∧
    (p2pRandom (1/2) (fun _ => 0) graphBook).toOption.map (fun r => tradesFigure graphBook r.1) =
      some ⟨[(some 7, some 5), (some 5, some 7), (some 7, some 5), (some 5, some 7),
        (some 7, some 5), (some 5, some 7)], [((some 7, some 5), 1)], [0, 1]⟩ := by decide +kernel

/-! ### C53 -/

/-- C53 at full strength: the nodes in the first row are exactly the buyers. -/
def Spec.TopRowIsBuyers (c : ℚ) (choice : ℕ → ℕ) (df : DF) : Prop :=
  ∀ tm ex, p2pRandom c choice df = .ok (tm, ex) → ∀ u v, Joined (tradesFigure df tm) u v →
    (InTopRow (tradesFigure df tm) u ↔ IsBuyer df u)

/-- **C53 (refuted).** The buyer of `graphBook` is user 7, who is not in the first row, because the
first row holds the bid ids 0 and 1. -/
theorem C53_refuted : ¬ ∀ c choice df, IsTable df → Pos df → TopRowIsBuyers c choice df := by
  intro h
  have h1 := h (1/2) (fun _ => 0) graphBook (by decide +kernel) (by decide +kernel) _ _ rfl 7 5
    (Or.inl (by decide +kernel))
  obtain ⟨i, hi, he⟩ := h1.mpr (by unfold IsBuyer; decide +kernel)
  have hi' : i ∈ [0, 1] := hi
  revert he
  revert i
  decide

theorem userOf_label {df : DF} (hu : ∀ r ∈ df, r.user = (r.label : ℤ)) (ht : IsTable df) {i : ℕ}
    {u : ℤ} (h : userOf df i = some u) : (i : ℤ) = u := by
  unfold userOf at h
  cases hr : df[i]? with
  | none => rw [hr] at h; cases h
  | some r =>
    rw [hr, Option.map_some, Option.some.injEq] at h
    rw [← h, hu r (List.mem_of_getElem? hr), ht.label hr]

/-- **C53 (what holds).** If the users are numbered like their bids, the first row is exactly the
buyers, and every edge has one end in the first row and the other in the second. Missing for C53: the
code takes bid ids for user ids. -/
theorem C53_rows_partial (c : ℚ) (choice : ℕ → ℕ) (df : DF) (ht : IsTable df)
    (hu : ∀ r ∈ df, r.user = (r.label : ℤ)) :
    TopRowIsBuyers c choice df ∧ ∀ tm ex, p2pRandom c choice df = .ok (tm, ex) → ∀ u v,
      Joined (tradesFigure df tm) u v →
        (InTopRow (tradesFigure df tm) u ↔ ¬ InTopRow (tradesFigure df tm) v) := by
  have htop : ∀ tm u, InTopRow (tradesFigure df tm) u ↔ IsBuyer df u := by
    intro tm u
    unfold InTopRow IsBuyer tradesFigure buys
    simp only [List.mem_map, List.mem_filter]
    constructor
    · rintro ⟨i, ⟨r, ⟨hr, hb⟩, rfl⟩, rfl⟩
      exact ⟨r, hr, hb, hu r hr⟩
    · rintro ⟨r, hr, hb, rfl⟩
      exact ⟨r.label, ⟨r, ⟨hr, hb⟩, rfl⟩, (hu r hr).symm⟩
  refine ⟨fun tm ex _ u v _ => htop tm u, ?_⟩
  intro tm ex hrun u v hj
  obtain ⟨tm', R, h, hR⟩ := p2p_run c choice df ht
  rw [hrun] at h
  cases h
  rw [joined_iff ht hR.loop.trans] at hj
  obtain ⟨p, hp, hm⟩ := hj
  rw [htop, htop]
  have hside : ∀ (i : ℕ) (w : ℤ), (i : ℤ) = w → (isBuy df i = true ↔ IsBuyer df w) := by
    intro i w hw
    constructor
    · intro hb
      unfold isBuy at hb
      cases hr : df[i]? with
      | none => rw [hr] at hb; cases hb
      | some r =>
        rw [hr, Option.map_some, Option.getD_some] at hb
        have hmem := List.mem_of_getElem? hr
        exact ⟨r, hmem, hb, by rw [hu r hmem, ht.label hr, hw]⟩
    · rintro ⟨r, hr, hb, hru⟩
      have : r.label = i := by
        have := hu r hr
        rw [hru, ← hw] at this
        exact_mod_cast this.symm
      rw [← this, ht.isBuy_eq hr]; exact hb
  obtain ⟨hpb, hps⟩ := hR.pair p hp
  have hns : isBuy df p.2 ≠ true := by
    unfold isSell at hps
    unfold isBuy
    cases hr : df[p.2]? with
    | none => rw [hr] at hps; cases hps
    | some r => rw [hr] at hps; simpa using hps
  rcases hm with ⟨h1, h2⟩ | ⟨h1, h2⟩
  · rw [← hside p.1 u (userOf_label hu ht h1), ← hside p.2 v (userOf_label hu ht h2)]
    exact ⟨fun _ => hns, fun _ => hpb⟩
  · rw [← hside p.2 u (userOf_label hu ht h2), ← hside p.1 v (userOf_label hu ht h1)]
    exact ⟨fun h => absurd h hns, fun h => absurd hpb h⟩

/-- Non-vacuity: in the P2P book the users are numbered like their bids. -/
example : (∀ r ∈ p2pBook, r.user = (r.label : ℤ)) ∧
    (p2pRandom (1/2) (fun _ => 0) p2pBook).toOption.map (fun r => tradesFigure p2pBook r.1) =
      some ⟨[(some 0, some 2), (some 2, some 0), (some 1, some 3), (some 3, some 1),
        (some 0, some 3), (some 3, some 0)],
        [((some 0, some 2), 1), ((some 1, some 3), 0), ((some 0, some 3), 1)], [0, 1]⟩ := by
  decide +kernel

/-! ### C54 -/

/-- C54 at full strength: an edge has exactly one label, the total quantity exchanged. -/
def Spec.LabelsAreQuantities (c : ℚ) (choice : ℕ → ℕ) (df : DF) : Prop :=
  ∀ tm ex, p2pRandom c choice df = .ok (tm, ex) → ∀ u v, Joined (tradesFigure df tm) u v →
    ∀ x, Labelled (tradesFigure df tm) u v x ↔ x = exchanged df tm.trans u v

/-- **C54 (refuted).** The users 7 and 5 of `graphBook` exchange 5 units in three meetings, but the
edge is labelled 1, the quantity of the last one. -/
theorem C54_refuted : ¬ ∀ c choice df, IsTable df → Pos df → LabelsAreQuantities c choice df := by
  intro h
  have h1 := h (1/2) (fun _ => 0) graphBook (by decide +kernel) (by decide +kernel) _ _ rfl 7 5
    (Or.inl (by decide +kernel)) 1
  have h2 := h1.mp (Or.inl (by decide +kernel))
  revert h2
  decide +kernel

theorem exchanged_append (df : DF) (l l' : List Transaction) (u v : ℤ) :
    exchanged df (l ++ l') u v = exchanged df l u v + exchanged df l' u v := by
  simp [exchanged]

theorem exchanged_log {df : DF} {c : ℚ} {q : ℕ → ℚ} {M : List (ℕ × ℕ)}
    (hM : ∀ p ∈ M, IsPair df p.1 p.2) (u v : ℤ) :
    exchanged df (tradeRound (priceOf df) c q M).2 u v =
      (((meetQty (priceOf df) c q M).filter (fun m => decide (Meets df m.1 u v))).map
        Prod.snd).sum := by
  induction M generalizing q with
  | nil => rfl
  | cons p M ih =>
    have hp := hM p List.mem_cons_self
    have hns : isBuy df p.2 = false := by
      have := hp.2
      unfold isSell at this
      unfold isBuy
      cases hr : df[p.2]? with
      | none => rw [hr] at this; cases this
      | some r => rw [hr] at this; simpa using this
    simp only [tradeRound]
    rw [exchanged_append, ih (fun p' hp' => hM p' (List.mem_cons_of_mem _ hp')), meetQty,
      List.filter_cons]
    have e : exchanged df (tradeOne (priceOf df) c q p).2 u v = if Meets df p u v then
        (if priceOf df p.2 ≤ priceOf df p.1 then min (q p.1) (q p.2) else 0) else 0 := by
      have hbt : ∀ (a : ℚ) (b : ℚ) (d : Bool), Between df ⟨p.1, a, b, (p.2 : ℤ), d⟩ u v ↔
          Meets df p u v := by
        intro a b d
        simp [Between]
      rw [tradeOne_entries]
      unfold exchanged
      by_cases hm : Meets df p u v <;> by_cases hc : priceOf df p.2 ≤ priceOf df p.1 <;>
        simp [hp.1, hns, hbt, hm, hc]
    rw [e]
    by_cases hm : Meets df p u v
    · rw [if_pos hm, if_pos (decide_eq_true hm)]; rfl
    · rw [if_neg hm, if_neg (by simpa using hm), zero_add]

/-- **C54 (what holds).** Every edge has exactly one label, namely the quantity of the last meeting
between the two users; it never exceeds the quantity they exchange, and equals it exactly if they
traded nothing in their earlier meetings. Labels belong to edges. Missing for C54: earlier trades
between the same users are not added up. -/
theorem C54_label_partial (c : ℚ) (choice : ℕ → ℕ) (df : DF) (ht : IsTable df) (hq : ∀ r ∈ df, 0 < r.quantity) :
    ∃ tm R, p2pRandom c choice df = .ok (tm, .p2p R) ∧ ∀ u v,
      (∀ x, Labelled (tradesFigure df tm) u v x → Joined (tradesFigure df tm) u v) ∧
      (Joined (tradesFigure df tm) u v → ∃ A p B t,
        R.flatten = A ++ p :: B ∧ Meets df p u v ∧ (∀ p' ∈ B, ¬ Meets df p' u v) ∧
        tm.trans[2 * A.length]? = some t ∧
        (∀ x, Labelled (tradesFigure df tm) u v x ↔ x = t.quantity) ∧
        t.quantity ≤ exchanged df tm.trans u v ∧
        (t.quantity = exchanged df tm.trans u v ↔
          ∀ p' ∈ A, Meets df p' u v → priceOf df p'.1 < priceOf df p'.2)) := by
  obtain ⟨tm, R, h, hR⟩ := p2p_run c choice df ht
  refine ⟨tm, R, h, fun u v => ?_⟩
  have hlab := figure_labels ht hR.loop.trans
  have hedge := figure_edges ht hR.loop.trans
  have hkey : ∀ (a b : Option ℤ) (x : ℚ), ((a, b), x) ∈ (tradesFigure df tm).labels →
      (a, b) ∈ (tradesFigure df tm).edges := by
    intro a b x hx
    rw [hlab] at hx
    have := List.mem_map_of_mem (f := Prod.fst) (uniqueLabels_subset _ _ hx)
    rw [toDict_keys] at this
    rw [hedge]; exact this
  have hsub : ∀ x, Labelled (tradesFigure df tm) u v x → Joined (tradesFigure df tm) u v := by
    rintro x (hx | hx)
    · exact Or.inl (hkey _ _ _ hx)
    · exact Or.inr (hkey _ _ _ hx)
  refine ⟨hsub, ?_⟩
  intro hj
  -- a label exists
  have hex : ∃ x, Labelled (tradesFigure df tm) u v x := by
    have hcov := uniqueLabels_cover (toDict (mirror (meetRows df c R.flatten)))
    rw [← hlab] at hcov
    have hk : ∀ k : Option ℤ × Option ℤ, k ∈ (tradesFigure df tm).edges →
        k ∈ (tradesFigure df tm).labels.map Prod.fst ∨
        k.swap ∈ (tradesFigure df tm).labels.map Prod.fst := by
      intro k hk
      rw [hedge, ← toDict_keys] at hk
      obtain ⟨y, hy, rfl⟩ := List.mem_map.mp hk
      exact hcov y hy
    have fin : ∀ a b : Option ℤ, (a, b) ∈ (tradesFigure df tm).labels.map Prod.fst →
        ∃ x, ((a, b), x) ∈ (tradesFigure df tm).labels := by
      intro a b hab
      obtain ⟨y, hy, hyk⟩ := List.mem_map.mp hab
      exact ⟨y.2, by rw [← hyk]; exact hy⟩
    rcases hj with hj | hj
    · rcases hk _ hj with h' | h'
      · obtain ⟨x, hx⟩ := fin _ _ h'
        exact ⟨x, Or.inl hx⟩
      · obtain ⟨x, hx⟩ := fin _ _ h'
        exact ⟨x, Or.inr hx⟩
    · rcases hk _ hj with h' | h'
      · obtain ⟨x, hx⟩ := fin _ _ h'
        exact ⟨x, Or.inr hx⟩
      · obtain ⟨x, hx⟩ := fin _ _ h'
        exact ⟨x, Or.inl hx⟩
  obtain ⟨x, hx⟩ := hex
  -- it is unique
  have huniq : ∀ y, Labelled (tradesFigure df tm) u v y → y = x := by
    have hU := uniqueLabels_unique (toDict (mirror (meetRows df c R.flatten)))
    rw [← hlab] at hU
    intro y hy
    rcases hx with hx | hx <;> rcases hy with hy | hy
    · exact (congrArg Prod.snd (hU _ hy _ hx (Or.inl rfl)))
    · exact (congrArg Prod.snd (hU _ hy _ hx (Or.inr rfl)))
    · exact (congrArg Prod.snd (hU _ hy _ hx (Or.inr rfl)))
    · exact (congrArg Prod.snd (hU _ hy _ hx (Or.inl rfl)))
  -- it is the last meeting
  have hlast : LastAt (meetRows df c R.flatten) (some u, some v) x := by
    rcases hx with hx | hx
    · rw [hlab] at hx
      exact toDict_mirror _ _ _ (uniqueLabels_subset _ _ hx)
    · rw [hlab] at hx
      obtain ⟨A, e, B, h1, h2, h3, h4⟩ := toDict_mirror _ _ _ (uniqueLabels_subset _ _ hx)
      exact ⟨A, e, B, h1, h2.symm, h3, fun e' he' => (h4 e' he').symm⟩
  obtain ⟨A0, e, B0, hE, he, hev, hB0⟩ := hlast
  unfold meetRows at hE
  obtain ⟨A1, B1', hms, hA1, hB1'⟩ := List.map_eq_append_iff.mp hE
  obtain ⟨m, B1, rfl, rfl, hB1⟩ := List.map_eq_cons_iff.mp hB1'
  have hfst := congrArg (List.map Prod.fst) hms
  rw [meetQty_fst, List.map_append, List.map_cons] at hfst
  have hmeets : ∀ m' : (ℕ × ℕ) × ℚ, Meets df m'.1 u v ↔
      ((userOf df m'.1.1, userOf df m'.1.2) = (some u, some v) ∨
        (userOf df m'.1.1, userOf df m'.1.2) = (some u, some v).swap) := by
    intro m'
    simp only [Meets, Prod.swap_prod_mk, Prod.mk.injEq]
  have hmB : ∀ m' ∈ B1, ¬ Meets df m'.1 u v := by
    intro m' hm'
    rw [hmeets]
    have := hB0 _ (hB1 ▸ List.mem_map_of_mem (f := fun m : (ℕ × ℕ) × ℚ =>
      ((userOf df m.1.1, userOf df m.1.2), m.2)) hm')
    rintro (h' | h')
    · exact this.1 h'
    · exact this.2 h'
  have hmm : Meets df m.1 u v := (hmeets m).mpr he
  have hlen : (A1.map Prod.fst).length = A1.length := List.length_map _
  -- the log entry
  have hlog := tradeRound_log (priceOf df) c (qtyOf df) R.flatten
  rw [← hR.loop.trans, hms, List.flatMap_append, List.flatMap_cons] at hlog
  have hgl : (A1.flatMap (fun m : (ℕ × ℕ) × ℚ =>
      [(m.1.1, (m.1.2 : ℤ), m.2), (m.1.2, (m.1.1 : ℤ), m.2)])).length = 2 * A1.length := by
    rw [List.length_flatMap]
    simp [Nat.mul_comm]
  have hget := congrArg (fun l => l[2 * A1.length]?) hlog
  rw [List.getElem?_append_right (by rw [hgl]), hgl, Nat.sub_self, List.getElem?_map] at hget
  simp only [List.cons_append, List.getElem?_cons_zero, Option.map_eq_some_iff] at hget
  obtain ⟨t, htt, hteq⟩ := hget
  simp only [Prod.mk.injEq] at hteq
  obtain ⟨_, _, htq⟩ := hteq
  have hxq : t.quantity = x := by rw [htq]; exact hev
  have hpos := hR.meetQty_pos ht hq
  rw [hms] at hpos
  -- the quantity exchanged
  have hexch : exchanged df tm.trans u v =
      ((A1.filter (fun m => decide (Meets df m.1 u v))).map Prod.snd).sum + x := by
    have hnil : B1.filter (fun m => decide (Meets df m.1 u v)) = [] := by
      rw [List.filter_eq_nil_iff]
      intro m' hm'
      simpa using hmB m' hm'
    rw [hR.loop.trans, exchanged_log hR.pair, hms, List.filter_append, List.filter_cons,
      if_pos (decide_eq_true hmm), hnil]
    rw [List.map_append, List.sum_append, List.map_cons, List.map_nil, List.sum_cons, List.sum_nil,
      add_zero, ← hev]
  have hnn : ∀ y ∈ (A1.filter (fun m => decide (Meets df m.1 u v))).map Prod.snd, (0 : ℚ) ≤ y := by
    intro y hy
    obtain ⟨m', hm', rfl⟩ := List.mem_map.mp hy
    exact (hpos m' (List.mem_append_left _ (List.mem_filter.mp hm').1)).1
  refine ⟨A1.map Prod.fst, m.1, B1.map Prod.fst, t, hfst, hmm, ?_, ?_, ?_, ?_, ?_⟩
  · intro p' hp'
    obtain ⟨m', hm', rfl⟩ := List.mem_map.mp hp'
    exact hmB m' hm'
  · rw [hlen]; exact htt
  · intro y
    rw [hxq]
    constructor
    · exact huniq y
    · rintro rfl; exact hx
  · rw [hxq, hexch]
    have := List.sum_nonneg hnn
    linarith
  · rw [hxq, hexch]
    constructor
    · intro h0 p' hp' hm'
      obtain ⟨m', hmA, rfl⟩ := List.mem_map.mp hp'
      by_contra hc
      have h1 := (hpos m' (List.mem_append_left _ hmA)).2.mpr (not_lt.mp hc)
      have h2 := List.single_le_sum hnn m'.2 (List.mem_map_of_mem
        (List.mem_filter.mpr ⟨hmA, by simpa using hm'⟩))
      linarith
    · intro hA
      have : ((A1.filter (fun m => decide (Meets df m.1 u v))).map Prod.snd).sum = 0 := by
        apply List.sum_eq_zero
        intro y hy
        obtain ⟨m', hm', rfl⟩ := List.mem_map.mp hy
        obtain ⟨hmA, hmu⟩ := List.mem_filter.mp hm'
        have h1 := hpos m' (List.mem_append_left _ hmA)
        have h2 := hA m'.1 (List.mem_map_of_mem hmA) (by simpa using hmu)
        rcases lt_or_eq_of_le h1.1 with h3 | h3
        · exact absurd (h1.2.mp h3) (not_le.mpr h2)
        · exact h3.symm
      rw [this, zero_add]

/-- **C54 (one bid per user).** If no user submitted two bids, the labels are the quantities
exchanged. -/
theorem C54_single_bids_partial (c : ℚ) (choice : ℕ → ℕ) (df : DF) (ht : IsTable df) (hq : ∀ r ∈ df, 0 < r.quantity)
    (hu : (df.map (fun r => r.user)).Nodup) : LabelsAreQuantities c choice df := by
  intro tm ex hrun u v hj x
  obtain ⟨tm', R, h, hL⟩ := C54_label_partial c choice df ht hq
  obtain ⟨tm'', R', h', hpair, hnd, _⟩ := C19_rounds c choice df ht (fun r hr => (hq r hr).le)
  rw [hrun] at h h'
  cases h
  cases h'
  obtain ⟨A, p, B, t, h1, h2, h3, h4, h5, h6, h7⟩ := (hL u v).2 hj
  rw [h5 x]
  have hinj : ∀ i j w, userOf df i = some w → userOf df j = some w → i = j := by
    intro i j w hi hj
    unfold userOf at hi hj
    rw [← List.getElem?_map] at hi hj
    obtain ⟨hil, hie⟩ := List.getElem?_eq_some_iff.mp hi
    obtain ⟨hjl, hje⟩ := List.getElem?_eq_some_iff.mp hj
    exact (hu.getElem_inj_iff).mp (hie.trans hje.symm)
  have hside : ∀ i, isBuy df i = true → isSell df i = true → False := by
    intro i hb hs
    exact isPair_ne (df := df) ⟨hb, hs⟩ rfl
  have : t.quantity = exchanged df tm.trans u v := by
    rw [h7]
    intro p' hp' hm'
    exfalso
    have hpp : p' = p := by
      have hb' := hpair p' (by rw [h1]; exact List.mem_append_left _ hp')
      have hb := hpair p (by rw [h1]; simp)
      rcases h2 with ⟨a1, a2⟩ | ⟨a1, a2⟩ <;> rcases hm' with ⟨b1, b2⟩ | ⟨b1, b2⟩
      · exact Prod.ext (hinj _ _ _ b1 a1) (hinj _ _ _ b2 a2)
      · exact absurd hb.2 (fun hs => hside p.2 ((hinj _ _ _ b1 a2) ▸ hb'.1) hs)
      · exact absurd hb.2 (fun hs => hside p.2 ((hinj _ _ _ b1 a2) ▸ hb'.1) hs)
      · exact Prod.ext (hinj _ _ _ b1 a1) (hinj _ _ _ b2 a2)
    rw [h1, List.nodup_append] at hnd
    exact hnd.2.2 p' hp' p List.mem_cons_self hpp
  rw [this]

/-- Non-vacuity: the P2P book has one bid per user; `graphBook`, with several meetings of the same
users, is a case of `C54_label_partial` with a strict inequality. -/
example : IsTable p2pBook ∧ Pos p2pBook ∧ (p2pBook.map (fun r => r.user)).Nodup ∧
    (p2pRandom (1/2) (fun _ => 0) graphBook).toOption.map (fun r => exchanged graphBook r.1.trans 7 5)
      = some 5 := by decide +kernel

end PyMarket
