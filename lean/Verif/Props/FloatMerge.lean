import Verif.Lemmas.FloatSplit

/-! # C81: merging and splitting in floating point arithmetic

C34 – C36 are about exact numbers. Here the rounding to decimals, the sums of the groups and the shares
of the members are computed with rounded operations. -/

set_option autoImplicit false

namespace PyMarket

open Spec

/-- **C81 (exact arithmetic).** Without rounding errors the floating point model is the exact model of
`Mechanism.run`, whatever the order of summation. -/
theorem C81_exact (s g o : Summer exactFmt) (S : Sorter) (smp : Sampler) (call : AlgoCall) (df : DF) :
    runAlgoF exactFmt s g o S smp call df = runAlgo S smp call df :=
  runAlgoF_exact s g o S smp call df

theorem npRoundF_decimalF (F : Fmt) (prec : ℕ) (x : ℚ) : DecimalF F prec x (npRoundF F prec x) := by
  refine ⟨rint (F.rnd (x * 10 ^ prec)), ?_, rfl⟩
  have := npRound_isRounded 0 (F.rnd (x * 10 ^ prec))
  unfold npRound at this
  simpa using this

theorem decimalF_unique {F : Fmt} {prec : ℕ} {x y y' : ℚ} (h : DecimalF F prec x y)
    (h' : DecimalF F prec x y') : y = y' := by
  obtain ⟨z, hz, rfl⟩ := h
  obtain ⟨z', hz', rfl⟩ := h'
  have := isRounded_unique hz hz'
  rw [this]

/-- **C81 (merging).** For every format and order of summation, `merge_same_price` succeeds; the mapping
is a partition of the original ids; a merged bid has the side of its members, a price of the format
which is the price of every member rounded to `prec` decimals, and a quantity of the format which is the
sum of those of the members up to rounding. Two bids share a group exactly when they are on the same side
and their prices are rounded to the same number of the format; the order of the prices of one side is
never reversed. -/
theorem C81_merge (F : Fmt) (g : Summer F) (smp : Sampler) (df : DF) (prec : ℕ) (ht : IsTable df)
    (hq : ∀ r ∈ df, 0 ≤ r.quantity) (hr : RepBook F df) :
    ∃ nb mp, mergeSamePriceF F g smp df prec = .ok (nb, mp) ∧
      IsTable nb ∧ RepBook F nb ∧ mp.length = nb.length ∧
      mp.flatten.Perm (List.range df.length) ∧
      (∀ (k : ℕ) (row : Row) (ids : List ℕ), nb[k]? = some row → mp[k]? = some ids →
        ids ≠ [] ∧
        |row.quantity - (ids.map (qtyOf df)).sum| ≤
          ((1 + F.eps) ^ (ids.length - 1) - 1) * (ids.map (qtyOf df)).sum ∧
        ∀ i ∈ ids, ∃ r, df[i]? = some r ∧ r.buying = row.buying ∧ DecimalF F prec r.price row.price ∧
          |row.price - r.price| ≤
            (1 + F.eps) * (1 / (2 * 10 ^ prec)) + (2 * F.eps + F.eps ^ 2) * |r.price|) ∧
      (∀ r ∈ df, ∀ r' ∈ df, (∃ ids ∈ mp, r.label ∈ ids ∧ r'.label ∈ ids) ↔
        (r.buying = r'.buying ∧ ∃ y, DecimalF F prec r.price y ∧ DecimalF F prec r'.price y)) ∧
      (∀ (k k' : ℕ) (row row' : Row) (ids ids' : List ℕ), nb[k]? = some row → nb[k']? = some row' →
        mp[k]? = some ids → mp[k']? = some ids' → ∀ i ∈ ids, ∀ i' ∈ ids',
        priceOf df i ≤ priceOf df i' → row.price ≤ row'.price) ∧
      (∃ nbuy nsell, nb = nbuy ++ nsell ∧ (∀ r ∈ nbuy, r.buying = true) ∧
        (∀ r ∈ nsell, r.buying = false) ∧ nbuy.Pairwise (fun a b => a.price < b.price) ∧
        nsell.Pairwise (fun a b => a.price < b.price)) := by
  obtain ⟨nb, mp, hm, hM⟩ := mergeF_spec F g smp prec ht
  refine ⟨nb, mp, hm, hM.table, hM.repBook hr, hM.length, hM.perm, ?_, ?_, ?_, hM.sides⟩
  · intro k row ids hrow hids
    obtain ⟨g1, g2, g3⟩ := hM.group k row ids hrow hids
    refine ⟨g1, ?_, ?_⟩
    · have := g2.err (by
        intro x hx
        obtain ⟨i, hi, rfl⟩ := List.mem_map.mp hx
        obtain ⟨r, hr', _⟩ := (g3 i).mp hi
        rw [qtyOf_some hr']
        exact hq r (List.mem_of_getElem? hr'))
      rwa [List.length_map] at this
    · intro i hi
      obtain ⟨r, h1, h2, h3⟩ := (g3 i).mp hi
      refine ⟨r, h1, h2, h3 ▸ npRoundF_decimalF F prec r.price, ?_⟩
      rw [← h3]
      exact npRoundF_near F prec r.price
  · intro r hrd r' hrd'
    constructor
    · rintro ⟨ids, hids, h1, h2⟩
      obtain ⟨k, hk⟩ := List.getElem?_of_mem hids
      obtain ⟨row, hrow⟩ := hM.row hk
      obtain ⟨_, _, g3⟩ := hM.group k row ids hrow hk
      obtain ⟨a, a1, a2, a3⟩ := (g3 _).mp h1
      obtain ⟨b, b1, b2, b3⟩ := (g3 _).mp h2
      rw [ht.get_label hrd] at a1
      rw [ht.get_label hrd'] at b1
      cases a1; cases b1
      exact ⟨a2.trans b2.symm, row.price, a3 ▸ npRoundF_decimalF F prec _, b3 ▸ npRoundF_decimalF F prec _⟩
    · rintro ⟨hs, y, hy, hy'⟩
      have e1 := decimalF_unique hy (npRoundF_decimalF F prec _)
      have e2 := decimalF_unique hy' (npRoundF_decimalF F prec _)
      have hmem : r.label ∈ mp.flatten := hM.perm.symm.subset (List.mem_range.mpr (ht.label_lt hrd))
      obtain ⟨ids, hids, h1⟩ := List.mem_flatten.mp hmem
      refine ⟨ids, hids, h1, ?_⟩
      obtain ⟨k, hk⟩ := List.getElem?_of_mem hids
      obtain ⟨row, hrow⟩ := hM.row hk
      obtain ⟨_, _, g3⟩ := hM.group k row ids hrow hk
      obtain ⟨a, a1, a2, a3⟩ := (g3 _).mp h1
      rw [ht.get_label hrd] at a1
      cases a1
      exact (g3 _).mpr ⟨r', ht.get_label hrd', hs.symm.trans a2, by rw [← e2, e1, a3]⟩
  · intro k k' row row' ids ids' h1 h2 h3 h4 i hi i' hi' hle
    obtain ⟨_, _, g3⟩ := hM.group k row ids h1 h3
    obtain ⟨_, _, g3'⟩ := hM.group k' row' ids' h2 h4
    obtain ⟨a, a1, _, a3⟩ := (g3 _).mp hi
    obtain ⟨b, b1, _, b3⟩ := (g3' _).mp hi'
    rw [priceOf_some a1, priceOf_some b1] at hle
    rw [← a3, ← b3]
    exact npRoundF_mono F prec hle

theorem npRoundF_five {F : Fmt} {df : DF} (h : FiveDecimalsF F df) {r : Row} (hr : r ∈ df) :
    npRoundF F 5 r.price = r.price := by
  obtain ⟨z, hz, hb⟩ := h r hr
  rw [hz]
  exact npRoundF_decimal F 5 z hb

/-- **C81 (prices with five decimals).** If all prices are decimals with at most five digits after the
point, as far as the format can represent them, merging does not change any price, and two bids share a
group exactly when they are on the same side and have the same price. -/
theorem C81_decimals (F : Fmt) (g : Summer F) (smp : Sampler) (df : DF) (ht : IsTable df)
    (h5 : FiveDecimalsF F df) :
    ∃ nb mp, mergeSamePriceF F g smp df = .ok (nb, mp) ∧
      (∀ (k : ℕ) (row : Row) (ids : List ℕ), nb[k]? = some row → mp[k]? = some ids →
        ∀ i ∈ ids, priceOf df i = row.price) ∧
      (∀ r ∈ df, ∀ r' ∈ df, (∃ ids ∈ mp, r.label ∈ ids ∧ r'.label ∈ ids) ↔
        (r.buying = r'.buying ∧ r.price = r'.price)) := by
  obtain ⟨nb, mp, hm, hM⟩ := mergeF_spec F g smp 5 ht
  refine ⟨nb, mp, hm, ?_, ?_⟩
  · intro k row ids hrow hids i hi
    obtain ⟨_, _, g3⟩ := hM.group k row ids hrow hids
    obtain ⟨r, h1, _, h3⟩ := (g3 i).mp hi
    rw [priceOf_some h1, ← h3, npRoundF_five h5 (List.mem_of_getElem? h1)]
  · intro r hrd r' hrd'
    constructor
    · rintro ⟨ids, hids, h1, h2⟩
      obtain ⟨k, hk⟩ := List.getElem?_of_mem hids
      obtain ⟨row, hrow⟩ := hM.row hk
      obtain ⟨_, _, g3⟩ := hM.group k row ids hrow hk
      obtain ⟨a, a1, a2, a3⟩ := (g3 _).mp h1
      obtain ⟨b, b1, b2, b3⟩ := (g3 _).mp h2
      rw [ht.get_label hrd] at a1
      rw [ht.get_label hrd'] at b1
      cases a1; cases b1
      refine ⟨a2.trans b2.symm, ?_⟩
      rw [← npRoundF_five h5 hrd, ← npRoundF_five h5 hrd', a3, b3]
    · rintro ⟨hs, he⟩
      have hmem : r.label ∈ mp.flatten := hM.perm.symm.subset (List.mem_range.mpr (ht.label_lt hrd))
      obtain ⟨ids, hids, h1⟩ := List.mem_flatten.mp hmem
      refine ⟨ids, hids, h1, ?_⟩
      obtain ⟨k, hk⟩ := List.getElem?_of_mem hids
      obtain ⟨row, hrow⟩ := hM.row hk
      obtain ⟨_, _, g3⟩ := hM.group k row ids hrow hk
      obtain ⟨a, a1, a2, a3⟩ := (g3 _).mp h1
      rw [ht.get_label hrd] at a1
      cases a1
      exact (g3 _).mpr ⟨r', ht.get_label hrd', hs.symm.trans a2, by rw [← he, a3]⟩

/-- The parts of a split transaction add up to it, up to rounding. -/
theorem parts_sum {F : Fmt} {s : Summer F} {df : DF} {ids : List ℕ} (hl : ∀ i ∈ ids, 0 ≤ qtyOf df i)
    (hT : 0 < s.sum (ids.map (qtyOf df))) {q : ℚ} (hq : 0 ≤ q) {n : ℕ} (hn : ids.length ≤ n) (hne : ids ≠ []) :
    |(ids.map (fun i => F.rnd (q * F.rnd (qtyOf df i / s.sum (ids.map (qtyOf df)))))).sum - q| ≤
      (spread F (n + 1) - 1) * q := by
  have hl' : ∀ x ∈ ids.map (qtyOf df), 0 ≤ x := by
    intro x hx; obtain ⟨i, hi, rfl⟩ := List.mem_map.mp hx; exact hl i hi
  have hsum := s.isSum (ids.map (qtyOf df))
  have hA0 : 0 ≤ (ids.map (qtyOf df)).sum := List.sum_nonneg hl'
  have hApos : 0 < (ids.map (qtyOf df)).sum := by
    rcases hA0.lt_or_eq with h | h
    · exact h
    · have := (hsum.bounds hl').2
      rw [← h, mul_zero] at this
      linarith
  have hpb : ∀ i ∈ ids, _ := fun i hi => part_bounds hsum hl' hT (hl i hi) hq (n := n)
    (by rw [List.length_map]; exact hn) (by simpa using hne)
  set T := s.sum (ids.map (qtyOf df))
  set A := (ids.map (qtyOf df)).sum with hA
  set p := fun i => F.rnd (q * F.rnd (qtyOf df i / T)) with hp
  have hS := one_le_spread F (n + 1)
  have key : ∀ l : List ℕ, (∀ i ∈ l, i ∈ ids) →
      q * (l.map (qtyOf df)).sum ≤ spread F (n + 1) * ((l.map p).sum * A) ∧
      (l.map p).sum * A ≤ spread F (n + 1) * (q * (l.map (qtyOf df)).sum) := by
    intro l
    induction l with
    | nil => simp
    | cons i l ih =>
      intro h
      obtain ⟨i1, i2⟩ := ih (fun j hj => h j (List.mem_cons_of_mem _ hj))
      obtain ⟨_, h2, h3, _⟩ := hpb i (h i List.mem_cons_self)
      simp only [List.map_cons, List.sum_cons]
      change q * qtyOf df i ≤ spread F (n + 1) * (p i * A) at h2
      change p i * A ≤ spread F (n + 1) * (q * qtyOf df i) at h3
      constructor <;> nlinarith
  obtain ⟨k1, k2⟩ := key ids (fun i h => h)
  rw [← hA] at k1 k2
  set P := (ids.map p).sum
  have b1 : q ≤ spread F (n + 1) * P := by
    have : q * A ≤ (spread F (n + 1) * P) * A := by linarith
    exact le_of_mul_le_mul_right this hApos
  have b2 : P ≤ spread F (n + 1) * q := by
    have : P * A ≤ (spread F (n + 1) * q) * A := by linarith
    exact le_of_mul_le_mul_right this hApos
  rw [abs_le]
  constructor
  · -- `P ≥ q / S ≥ q (2 - S)`
    by_contra hc
    push Not at hc
    have h1 : P < q * (2 - spread F (n + 1)) := by linarith
    have h2 : spread F (n + 1) * P < spread F (n + 1) * (q * (2 - spread F (n + 1))) :=
      mul_lt_mul_of_pos_left h1 (by linarith)
    have h3 : 0 ≤ q * (spread F (n + 1) - 1) ^ 2 := by positivity
    nlinarith
  · linarith

/-- **C81 (splitting).** A log about the merged table is split exactly when no group in it has a total
quantity of zero. Every transaction is replaced by one per member of its group, with the same price,
source and flag; the quantity of each part is the transaction's quantity times the member's share up to
rounding, and the parts add up to the quantity of the transaction up to rounding. -/
theorem C81_split (F : Fmt) (s g : Summer F) (smp : Sampler) (df nb : DF) (mp : List (List ℕ)) (ht : IsTable df)
    (hq : ∀ r ∈ df, 0 ≤ r.quantity) (hm : mergeSamePriceF F g smp df = .ok (nb, mp)) (tm : TransactionManager)
    (hk : ∀ t ∈ tm.trans, t.bid < nb.length ∧ 0 ≤ t.quantity) :
    ((∃ t ∈ tm.trans, ∀ ids, mp[t.bid]? = some ids → ∀ i ∈ ids, qtyOf df i = 0) →
      splitTransactionsF F s tm df mp = .error .nanQuantity) ∧
    ((∀ t ∈ tm.trans, ∃ ids, mp[t.bid]? = some ids ∧ ∃ i ∈ ids, 0 < qtyOf df i) →
      ∃ tm' parts, splitTransactionsF F s tm df mp = .ok tm' ∧ tm'.trans = parts.flatten ∧
        List.Forall₂ (fun t part => ∃ ids, mp[t.bid]? = some ids ∧
          part.map (fun u => u.bid) = ids ∧
          (∀ u ∈ part, u.price = t.price ∧ u.source = t.source ∧ u.active = t.active ∧ F.Rep u.quantity ∧
            t.quantity * qtyOf df u.bid ≤
              spread F (df.length + 1) * (u.quantity * (ids.map (qtyOf df)).sum) ∧
            u.quantity * (ids.map (qtyOf df)).sum ≤
              spread F (df.length + 1) * (t.quantity * qtyOf df u.bid)) ∧
          |(part.map (fun u => u.quantity)).sum - t.quantity| ≤
            (spread F (df.length + 1) - 1) * t.quantity) tm.trans parts) := by
  obtain ⟨nb', mp', hm', hM⟩ := mergeF_spec F g smp 5 ht
  rw [hm] at hm'
  cases hm'
  have hqty : ∀ i, 0 ≤ qtyOf df i := by
    intro i
    unfold qtyOf
    cases hi : df[i]? with
    | none => exact le_refl _
    | some r => exact hq r (List.mem_of_getElem? hi)
  have hl : ∀ ids : List ℕ, ∀ x ∈ ids.map (qtyOf df), 0 ≤ x := by
    intro ids x hx; obtain ⟨i, _, rfl⟩ := List.mem_map.mp hx; exact hqty i
  have hs := splitTransactionsF_eq s hM (fun t h => (hk t h).1)
  have hz : ∀ ids : List ℕ, s.sum (ids.map (qtyOf df)) = 0 ↔ ∀ i ∈ ids, qtyOf df i = 0 := by
    intro ids
    have h1 := (s.isSum (ids.map (qtyOf df))).pos_iff (hl ids)
    have h2 := (s.isSum (ids.map (qtyOf df))).nonneg (hl ids)
    constructor
    · intro h0 i hi
      by_contra hc
      have : 0 < s.sum (ids.map (qtyOf df)) :=
        h1.mpr ⟨_, List.mem_map_of_mem hi, lt_of_le_of_ne (hqty i) (Ne.symm hc)⟩
      linarith
    · intro h0
      by_contra hc
      obtain ⟨x, hx, hpos⟩ := h1.mp (lt_of_le_of_ne h2 (Ne.symm hc))
      obtain ⟨i, hi, rfl⟩ := List.mem_map.mp hx
      rw [h0 i hi] at hpos
      exact lt_irrefl _ hpos
  constructor
  · rintro ⟨t, htm, h0⟩
    rw [hs, if_pos]
    refine ⟨t, htm, ?_⟩
    obtain ⟨row, ids, _, hi⟩ := hM.get (hk t htm).1
    rw [hi]
    exact (hz ids).mpr (h0 ids hi)
  · intro hpos
    have hno : ¬ ∃ t ∈ tm.trans, s.sum (((mp[t.bid]?).getD []).map (qtyOf df)) = 0 := by
      rintro ⟨t, htm, h0⟩
      obtain ⟨ids, hi, i, hii, hp⟩ := hpos t htm
      rw [hi] at h0
      have := (hz ids).mp h0 i hii
      linarith
    rw [hs, if_neg hno]
    refine ⟨_, tm.trans.map (splitTF F s df mp), rfl, ?_, ?_⟩
    · rw [TransactionManager.init_addAll_trans, List.flatMap_def]
    · rw [List.forall₂_map_right_iff, List.forall₂_same]
      intro t htm
      obtain ⟨row, ids, hrow, hi⟩ := hM.get (hk t htm).1
      obtain ⟨hne, _, _⟩ := hM.group _ row ids hrow hi
      obtain ⟨ids', hi', i₀, hi₀, hp₀⟩ := hpos t htm
      rw [hi] at hi'
      cases hi'
      have hT : 0 < s.sum (ids.map (qtyOf df)) :=
        ((s.isSum (ids.map (qtyOf df))).pos_iff (hl ids)).mpr ⟨_, List.mem_map_of_mem hi₀, hp₀⟩
      refine ⟨ids, hi, ?_, ?_, ?_⟩
      · unfold splitTF
        rw [hi, List.map_map]
        exact List.map_id _
      · intro u hu
        unfold splitTF at hu
        rw [hi] at hu
        obtain ⟨i, _, rfl⟩ := List.mem_map.mp hu
        obtain ⟨_, h2, h3, _⟩ := part_bounds (s.isSum (ids.map (qtyOf df))) (hl ids) hT (hqty i) (hk t htm).2
          (n := df.length) (by rw [List.length_map]; exact hM.ids_length hi) (by simpa using hne)
        exact ⟨rfl, rfl, rfl, F.rep_rnd _, h2, h3⟩
      · unfold splitTF
        rw [hi, List.map_map]
        exact parts_sum (fun i _ => hqty i) hT (hk t htm).2 (hM.ids_length hi) hne

/-! ## Witnesses in float64 -/

/-- Two buyers whose prices 5.000075 (slightly less in float64) and 5.00007 have the same five decimals,
and a seller. -/
def halfTick : DF := labelFrom 0
  [⟨1, f64 (5000075 / 1000000), 0, true, 0, true⟩, ⟨2, f64 (500007 / 100000), 1, true, 0, true⟩,
   ⟨1, 1, 2, false, 0, true⟩]

/-- Non-vacuity: representable and non-negative; two of the prices are decimals. -/
example : IsTable halfTick ∧ NonNeg halfTick ∧ RepBook float64 halfTick := by
  refine ⟨by decide +kernel, by decide +kernel, ?_⟩
  unfold RepBook Fmt.Rep
  decide +kernel

/-- **C81, refuted part.** C34 says that two bids of the same side are merged exactly when their prices
round to the same five decimals. With float64 arithmetic they need not be: `5.000075` is slightly less
than its decimal, so both prices of the buyers of `halfTick` round to 5.00007, but the product with
`10^5` is rounded up to the tie and the bid is moved to 5.00008. -/
theorem C81_same_decimals_refuted :
    (∃ y, IsRounded 5 (priceOf halfTick 0) y ∧ IsRounded 5 (priceOf halfTick 1) y) ∧
    isBuy halfTick 0 = true ∧ isBuy halfTick 1 = true ∧
    ∃ nb, mergeSamePriceF float64 (pairSummer float64) headSampler halfTick = .ok (nb, [[1], [0], [2]]) := by
  refine ⟨⟨500007 / 100000, ?_, ?_⟩, by decide +kernel, by decide +kernel, ?_⟩
  · refine ⟨500007, by norm_num, by decide +kernel, ?_⟩
    intro h
    exact absurd h (by decide +kernel)
  · refine ⟨500007, by norm_num, by decide +kernel, ?_⟩
    intro h
    exact absurd h (by decide +kernel)
  · have h : (mergeSamePriceF float64 (pairSummer float64) headSampler halfTick).toOption.any
        (fun r => decide (r.2 = [[1], [0], [2]])) = true := by decide +kernel
    cases hr : mergeSamePriceF float64 (pairSummer float64) headSampler halfTick with
    | error e => rw [hr] at h; cases h
    | ok r =>
      rw [hr] at h
      have h2 : r.2 = [[1], [0], [2]] := of_decide_eq_true h
      exact ⟨r.1, by rw [← h2]⟩

/-- A book with two decimals; the prices of the two buyers are the same number. -/
def centBook : DF := labelFrom 0
  [⟨f64 (1 / 10), f64 (501 / 100), 0, true, 0, true⟩, ⟨f64 (7 / 10), f64 (501 / 100), 1, true, 0, true⟩,
   ⟨1, 4, 2, true, 0, true⟩, ⟨1, f64 (11 / 10), 3, false, 0, true⟩, ⟨1, 3, 4, false, 0, true⟩]

/-- Non-vacuity of C81 (prices with five decimals). -/
example : IsTable centBook ∧ NonNeg centBook ∧ RepBook float64 centBook ∧ FiveDecimalsF float64 centBook := by
  refine ⟨by decide +kernel, by decide +kernel, ?_, ?_⟩
  · unfold RepBook Fmt.Rep
    decide +kernel
  · intro r hr
    have : ∀ r ∈ centBook, ∃ z ∈ [(501000 : ℤ), 400000, 110000, 300000],
        r.price = float64.rnd ((z : ℚ) / 10 ^ 5) ∧ (2 * float64.eps + float64.eps ^ 2) * |(z : ℚ)| < 1 / 2 := by
      decide +kernel
    obtain ⟨z, _, h⟩ := this r hr
    exact ⟨z, h⟩

/-- Non-vacuity of C81 (splitting): 0.1 + 0.7 is 0.7999999999999999 in float64, and half of it is split
into 0.05 and 0.35, rounded. -/
example : ∃ nb mp, mergeSamePriceF float64 (pairSummer float64) headSampler centBook = .ok (nb, mp) ∧
    mp = [[2], [0, 1], [3], [4]] := by
  have h : (mergeSamePriceF float64 (pairSummer float64) headSampler centBook).toOption.any
      (fun r => decide (r.2 = [[2], [0, 1], [3], [4]])) = true := by decide +kernel
  cases hr : mergeSamePriceF float64 (pairSummer float64) headSampler centBook with
  | error e => rw [hr] at h; cases h
  | ok r => rw [hr] at h; exact ⟨r.1, r.2, rfl, of_decide_eq_true h⟩

end PyMarket
