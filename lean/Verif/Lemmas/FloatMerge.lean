import Verif.Model.FloatProcessing
import Verif.Lemmas.FloatMuda
import Verif.Lemmas.FloatP2P
import Verif.Lemmas.Lift

/-! # Lemmas about merging and splitting in floating point arithmetic -/

set_option autoImplicit false

namespace PyMarket

open Spec

/-! ## Without rounding it is the exact model -/

theorem npRoundF_exact (prec : ℕ) (x : ℚ) : npRoundF exactFmt prec x = npRound prec x := rfl

theorem aggSideF_exact (g : Summer exactFmt) (smp : Sampler) (prec : ℕ) (side : Bool) (df : DF)
    (keys : List ℚ) (index : ℤ) :
    aggSideF exactFmt g smp prec side df keys index = aggSide smp prec side df keys index := by
  induction keys generalizing index with
  | nil => rfl
  | cons key keys ih =>
    have h1 : aggGroupF exactFmt g smp side key (groupRowsF exactFmt prec df key) index =
        aggGroup smp side key (groupRows prec df key) index := by
      unfold aggGroupF aggGroup
      simp only [Summer.exact]
      rfl
    simp only [aggSideF, aggSide, h1, ih]

theorem mergeSamePriceF_exact (g : Summer exactFmt) (smp : Sampler) (df : DF) (prec : ℕ) :
    mergeSamePriceF exactFmt g smp df prec = mergeSamePrice smp df prec := by
  unfold mergeSamePriceF mergeSamePrice
  simp only [aggSideF_exact]
  rfl

theorem splitOneF_exact (s : Summer exactFmt) (bids : DF) (mp : List (List ℕ)) (t : Transaction) :
    splitOneF exactFmt s bids mp t = splitOne bids mp t := by
  unfold splitOneF splitOne
  simp only [Summer.exact]
  rfl

theorem splitTransactionsF_exact (s : Summer exactFmt) (tm : TransactionManager) (bids : DF)
    (mp : List (List ℕ)) : splitTransactionsF exactFmt s tm bids mp = splitTransactions tm bids mp := by
  have : ∀ ts, splitAllF exactFmt s bids mp ts = splitAll bids mp ts := by
    intro ts
    induction ts with
    | nil => rfl
    | cons t ts ih => simp only [splitAllF, splitAll, splitOneF_exact, ih]
  unfold splitTransactionsF splitTransactions
  rw [this]

theorem mechanismF_exact (s g : Summer exactFmt) (smp : Sampler) (merge : Bool) (algo : Algo) (df : DF) :
    mechanismF exactFmt s g smp merge algo df = mechanism smp merge algo df := by
  unfold mechanismF mechanism
  simp only [mergeSamePriceF_exact, splitTransactionsF_exact]

theorem runAlgoF_exact (s g o : Summer exactFmt) (S : Sorter) (smp : Sampler) (call : AlgoCall) (df : DF) :
    runAlgoF exactFmt s g o S smp call df = runAlgo S smp call df := by
  have h1 : huangAuctionF exactFmt s S = huangAuction S := funext (huangAuctionF_exact s S)
  have h2 : ∀ coin, mudaF exactFmt s o S coin = muda S coin := fun coin => funext (mudaF_exact s o S coin)
  have h3 : ∀ c choice, p2pRandomF exactFmt s c choice = p2pRandom c choice :=
    fun c choice => funext (p2pRandomF_exact s c choice)
  cases call <;> simp only [runAlgoF, runAlgo, mechanismF_exact, h1, h2, h3]

/-! ## Rounding to decimals -/

theorem npRoundF_mono (F : Fmt) (prec : ℕ) {x y : ℚ} (h : x ≤ y) : npRoundF F prec x ≤ npRoundF F prec y := by
  have hp : (0 : ℚ) < 10 ^ prec := by positivity
  unfold npRoundF
  apply F.mono
  apply div_le_div_of_nonneg_right _ hp.le
  exact_mod_cast rint_mono (F.mono _ _ (mul_le_mul_of_nonneg_right h hp.le))

theorem npRoundF_nonneg (F : Fmt) (prec : ℕ) {x : ℚ} (h : 0 ≤ x) : 0 ≤ npRoundF F prec x := by
  have := npRoundF_mono F prec h
  have h0 : npRoundF F prec 0 = 0 := by simp [npRoundF, rint, F.rnd_zero]
  rwa [h0] at this

theorem npRoundF_rep (F : Fmt) (prec : ℕ) (x : ℚ) : F.Rep (npRoundF F prec x) := F.rep_rnd _

theorem npRoundF_near (F : Fmt) (prec : ℕ) (x : ℚ) :
    |npRoundF F prec x - x| ≤ (1 + F.eps) * (1 / (2 * 10 ^ prec)) + (2 * F.eps + F.eps ^ 2) * |x| := by
  have e0 := F.eps_nonneg
  have hp : (0 : ℚ) < 10 ^ prec := by positivity
  have h1 := F.err (x * 10 ^ prec)
  set y := F.rnd (x * 10 ^ prec)
  have h2 := rint_near y
  set z : ℚ := (rint y : ℚ)
  have h3 := F.err (z / 10 ^ prec)
  rw [abs_mul, abs_of_pos hp] at h1
  -- the distance of `z / 10^prec` from `x`
  have h4 : |z / 10 ^ prec - x| ≤ 1 / (2 * 10 ^ prec) + F.eps * |x| := by
    have e1 : z / 10 ^ prec - x = ((z - y) + (y - x * 10 ^ prec)) / 10 ^ prec := by
      field_simp; ring
    rw [e1, abs_div, abs_of_pos hp, div_le_iff₀ hp]
    have : (1 / (2 * 10 ^ prec) + F.eps * |x|) * 10 ^ prec = 1 / 2 + F.eps * (|x| * 10 ^ prec) := by
      field_simp
    rw [this]
    exact (abs_add_le _ _).trans (add_le_add h2 h1)
  have h5 : |z / 10 ^ prec| ≤ |x| + (1 / (2 * 10 ^ prec) + F.eps * |x|) := by
    have := abs_add_le (z / 10 ^ prec - x) x
    rw [sub_add_cancel] at this
    linarith
  have h6 : |npRoundF F prec x - x| ≤ |npRoundF F prec x - z / 10 ^ prec| + |z / 10 ^ prec - x| :=
    abs_sub_le _ _ _
  have h7 : |npRoundF F prec x - z / 10 ^ prec| ≤ F.eps * |z / 10 ^ prec| := h3
  have h8 := mul_le_mul_of_nonneg_left h5 e0
  nlinarith [h4, h6, h7, h8]

/-- A number with at most `prec` decimals (rounded to the format) is not changed, as long as it is not
too large for the format. -/
theorem npRoundF_decimal (F : Fmt) (prec : ℕ) (z : ℤ)
    (hz : (2 * F.eps + F.eps ^ 2) * |(z : ℚ)| < 1 / 2) :
    npRoundF F prec (F.rnd ((z : ℚ) / 10 ^ prec)) = F.rnd ((z : ℚ) / 10 ^ prec) := by
  have e0 := F.eps_nonneg
  have hp : (0 : ℚ) < 10 ^ prec := by positivity
  have h1 := F.err ((z : ℚ) / 10 ^ prec)
  set x := F.rnd ((z : ℚ) / 10 ^ prec)
  have h2 := F.err (x * 10 ^ prec)
  set y := F.rnd (x * 10 ^ prec)
  rw [abs_div, abs_of_pos hp] at h1
  have h3 : |x * 10 ^ prec - z| ≤ F.eps * |(z : ℚ)| := by
    have : x * 10 ^ prec - z = (x - z / 10 ^ prec) * 10 ^ prec := by field_simp
    rw [this, abs_mul, abs_of_pos hp]
    calc |x - z / 10 ^ prec| * 10 ^ prec ≤ F.eps * (|(z : ℚ)| / 10 ^ prec) * 10 ^ prec :=
          mul_le_mul_of_nonneg_right h1 hp.le
      _ = F.eps * |(z : ℚ)| := by field_simp
  have h4 : |x * 10 ^ prec| ≤ |(z : ℚ)| + F.eps * |(z : ℚ)| := by
    have := abs_add_le (x * 10 ^ prec - z) (z : ℚ)
    rw [sub_add_cancel] at this
    linarith
  have h5 : |y - z| ≤ (2 * F.eps + F.eps ^ 2) * |(z : ℚ)| := by
    have a1 := abs_sub_le y (x * 10 ^ prec) (z : ℚ)
    have a2 := mul_le_mul_of_nonneg_left h4 e0
    nlinarith
  have h6 : rint y = z := by
    apply rint_unique
    · rw [abs_sub_comm]; linarith
    · intro h
      rw [abs_sub_comm] at h
      linarith
  unfold npRoundF
  change F.rnd ((rint y : ℚ) / 10 ^ prec) = x
  rw [h6]

/-! ## Groups -/

section groups

variable (F : Fmt) (prec : ℕ)

theorem mem_groupKeysF {df : DF} {k : ℚ} :
    k ∈ groupKeysF F prec df ↔ ∃ r ∈ df, npRoundF F prec r.price = k := by
  simp [groupKeysF]

theorem groupKeysF_sorted (df : DF) : (groupKeysF F prec df).Pairwise (· < ·) := by
  have h1 : (groupKeysF F prec df).Pairwise (· ≤ ·) := List.pairwise_insertionSort _ _
  have h2 : (groupKeysF F prec df).Nodup :=
    (List.perm_insertionSort _ _).nodup_iff.mpr (List.nodup_dedup _)
  exact (h1.and h2).imp (fun h => lt_of_le_of_ne h.1 h.2)

theorem groupRowsF_ne_nil {df : DF} {k : ℚ} (h : k ∈ groupKeysF F prec df) :
    groupRowsF F prec df k ≠ [] := by
  obtain ⟨r, hr, hk⟩ := (mem_groupKeysF F prec).mp h
  exact List.ne_nil_of_mem (by simp [groupRowsF, hr, hk] : r ∈ groupRowsF F prec df k)

theorem groupsF_perm (df : DF) :
    ((groupKeysF F prec df).flatMap (fun k => groupRowsF F prec df k)).Perm df := by
  apply flatMap_filter_perm
  · exact (groupKeysF_sorted F prec df).imp (fun h => ne_of_lt h)
  · intro r hr
    exact (mem_groupKeysF F prec).mpr ⟨r, hr, rfl⟩

/-- The aggregated rows of one side. -/
theorem aggSideF_ok (g : Summer F) (smp : Sampler) (side : Bool) (df : DF) (keys : List ℚ) (index : ℤ)
    (hne : ∀ k ∈ keys, groupRowsF F prec df k ≠ []) :
    ∃ gs index', aggSideF F g smp prec side df keys index = .ok (gs, index') ∧
      List.Forall₂ (fun k x => x.2 = (groupRowsF F prec df k).map (fun r => r.label) ∧
        x.1.quantity = g.sum ((groupRowsF F prec df k).map (fun r => r.quantity)) ∧
        x.1.price = k ∧ x.1.buying = side) keys gs := by
  induction keys generalizing index with
  | nil => exact ⟨[], index, rfl, List.Forall₂.nil⟩
  | cons key keys ih =>
    have hk := hne key List.mem_cons_self
    obtain ⟨u, index₁, hnew⟩ : ∃ u index₁,
        newId index ((groupRowsF F prec df key).map (fun r => r.user)) = .ok (u, index₁) := by
      unfold newId
      split
      · exact ⟨_, _, rfl⟩
      · cases hg : groupRowsF F prec df key with
        | nil => exact absurd hg hk
        | cons r rs => exact ⟨_, _, rfl⟩
    obtain ⟨gs, index', hgs, spec⟩ := ih index₁ (fun k h => hne k (List.mem_cons_of_mem _ h))
    refine ⟨(⟨g.sum ((groupRowsF F prec df key).map (fun r => r.quantity)), key, u, side,
        smp.time ((groupRowsF F prec df key).map (fun r => r.time)),
        smp.divisible ((groupRowsF F prec df key).map (fun r => r.divisible))⟩,
        (groupRowsF F prec df key).map (fun r => r.label)) :: gs, index', ?_, List.Forall₂.cons ?_ spec⟩
    · unfold aggSideF aggGroupF
      rw [hnew]
      simp only [Except.bind, bind, hgs]
    · exact ⟨rfl, rfl, rfl, rfl⟩

end groups

/-- What the merged table `nb` and the mapping `mp` of the table `df` look like. -/
structure MergeSpecF (F : Fmt) (prec : ℕ) (df nb : DF) (mp : List (List ℕ)) : Prop where
  table : IsTable nb
  length : mp.length = nb.length
  perm : mp.flatten.Perm (List.range df.length)
  group : ∀ (k : ℕ) (row : Row) (ids : List ℕ), nb[k]? = some row → mp[k]? = some ids →
    ids ≠ [] ∧ IsFSum F (ids.map (qtyOf df)) row.quantity ∧
      ∀ i, i ∈ ids ↔ ∃ r, df[i]? = some r ∧ r.buying = row.buying ∧ npRoundF F prec r.price = row.price
  sides : ∃ nbuy nsell, nb = nbuy ++ nsell ∧ (∀ r ∈ nbuy, r.buying = true) ∧
        (∀ r ∈ nsell, r.buying = false) ∧ nbuy.Pairwise (fun a b => a.price < b.price) ∧
        nsell.Pairwise (fun a b => a.price < b.price)

theorem groupRowsF_side (F : Fmt) (prec : ℕ) (df : DF) (k : ℚ) (side : Bool) :
    groupRowsF F prec (df.filter (fun r => r.buying == side)) k =
      df.filter (fun r => decide (r.buying = side ∧ npRoundF F prec r.price = k)) := by
  unfold groupRowsF
  rw [List.filter_filter]
  apply List.filter_congr
  intro r _
  by_cases h1 : r.buying = side <;> by_cases h2 : npRoundF F prec r.price = k <;> simp [h1, h2]

theorem labelFrom_sorted (n : ℕ) (l : List (Bid × List ℕ)) (hl : (l.map (fun g => g.1.price)).Pairwise (· < ·)) :
    (labelFrom n (l.map (fun p => p.1))).Pairwise (fun a b => a.price < b.price) := by
  have : (labelFrom n (l.map (fun p => p.1))).map (fun r => r.price) = l.map (fun g => g.1.price) := by
    induction l generalizing n with
    | nil => rfl
    | cons g l ih =>
      simp only [List.map_cons, labelFrom]
      rw [ih (n + 1) (List.pairwise_cons.mp hl).2]
  rw [← List.pairwise_map (f := fun r : Row => r.price) (R := (· < ·)), this]
  exact hl

theorem labelFrom_side (n : ℕ) (l : List (Bid × List ℕ)) (s : Bool) (hl : ∀ g ∈ l, g.1.buying = s) :
    ∀ r ∈ labelFrom n (l.map (fun p => p.1)), r.buying = s := by
  intro r hr
  have : r.toBid ∈ (labelFrom n (l.map (fun p => p.1))).map (fun r => r.toBid) :=
    List.mem_map_of_mem hr
  rw [labelFrom_map_toBid, List.mem_map] at this
  obtain ⟨g, hg, hgr⟩ := this
  rw [← hgr]; exact hl g hg

theorem mergeF_spec (F : Fmt) (g : Summer F) (smp : Sampler) (prec : ℕ) {df : DF} (ht : IsTable df) :
    ∃ nb mp, mergeSamePriceF F g smp df prec = .ok (nb, mp) ∧ MergeSpecF F prec df nb mp := by
  obtain ⟨gb, i₁, h1, s1⟩ := aggSideF_ok F prec g smp true (buys df) (groupKeysF F prec (buys df))
    (maxUserSucc df) (fun k hk => groupRowsF_ne_nil F prec hk)
  obtain ⟨gs, i₂, h2, s2⟩ := aggSideF_ok F prec g smp false (sells df) (groupKeysF F prec (sells df))
    i₁ (fun k hk => groupRowsF_ne_nil F prec hk)
  have entry : ∀ x ∈ gb ++ gs,
      x.2 = (df.filter (fun r => decide (r.buying = x.1.buying ∧
        npRoundF F prec r.price = x.1.price))).map (fun r => r.label) ∧
      x.1.quantity = g.sum ((df.filter (fun r => decide (r.buying = x.1.buying ∧
        npRoundF F prec r.price = x.1.price))).map (fun r => r.quantity)) ∧
      ∃ r ∈ df, r.buying = x.1.buying ∧ npRoundF F prec r.price = x.1.price := by
    intro x hx
    rcases List.mem_append.mp hx with h | h
    · obtain ⟨i, hi⟩ := List.getElem?_of_mem h
      have hi' := (List.getElem?_eq_some_iff.mp hi)
      obtain ⟨hlt, he⟩ := hi'
      have hk : i < (groupKeysF F prec (buys df)).length := by rw [s1.length_eq]; exact hlt
      have := s1.get hk hlt
      simp only [List.get_eq_getElem, he] at this
      obtain ⟨a1, a2, a3, a4⟩ := this
      obtain ⟨r, hr, hp⟩ := (mem_groupKeysF F prec).mp (List.getElem_mem hk)
      rw [← a3] at a1 a2 hp
      rw [buys_eq_filter, groupRowsF_side] at a1 a2
      rw [a4]
      exact ⟨a1, a2, r, (mem_buys.mp hr).1, (mem_buys.mp hr).2, hp⟩
    · obtain ⟨i, hi⟩ := List.getElem?_of_mem h
      obtain ⟨hlt, he⟩ := (List.getElem?_eq_some_iff.mp hi)
      have hk : i < (groupKeysF F prec (sells df)).length := by rw [s2.length_eq]; exact hlt
      have := s2.get hk hlt
      simp only [List.get_eq_getElem, he] at this
      obtain ⟨a1, a2, a3, a4⟩ := this
      obtain ⟨r, hr, hp⟩ := (mem_groupKeysF F prec).mp (List.getElem_mem hk)
      rw [← a3] at a1 a2 hp
      rw [sells_eq_filter, groupRowsF_side] at a1 a2
      rw [a4]
      exact ⟨a1, a2, r, (mem_sells.mp hr).1, (mem_sells.mp hr).2, hp⟩
  have hlab : ∀ {side : Bool} {df' : DF} {l : List (Bid × List ℕ)},
      List.Forall₂ (fun k x => x.2 = (groupRowsF F prec df' k).map (fun r => r.label) ∧
        x.1.quantity = g.sum ((groupRowsF F prec df' k).map (fun r => r.quantity)) ∧
        x.1.price = k ∧ x.1.buying = side) (groupKeysF F prec df') l →
      ((l.map (fun p => p.2)).flatten).Perm (df'.map (fun r => r.label)) ∧
      l.map (fun p => p.1.price) = groupKeysF F prec df' ∧ ∀ x ∈ l, x.1.buying = side := by
    intro side df' l h
    have e1 : l.map (fun p => p.2) = (groupKeysF F prec df').map
        (fun k => (groupRowsF F prec df' k).map (fun r => r.label)) := by
      generalize groupKeysF F prec df' = ks at h
      induction h with
      | nil => rfl
      | cons h _ ih => rw [List.map_cons, List.map_cons, ih, h.1]
    have e2 : l.map (fun p => p.1.price) = groupKeysF F prec df' := by
      clear e1
      generalize groupKeysF F prec df' = ks at h
      induction h with
      | nil => rfl
      | cons h _ ih => rw [List.map_cons, ih, h.2.2.1]
    have e3 : ∀ x ∈ l, x.1.buying = side := by
      clear e1 e2
      generalize groupKeysF F prec df' = ks at h
      induction h with
      | nil => simp
      | cons h _ ih =>
        intro x hx
        rcases List.mem_cons.mp hx with rfl | hx
        · exact h.2.2.2
        · exact ih x hx
    refine ⟨?_, e2, e3⟩
    rw [e1]
    have := (groupsF_perm F prec df').map (fun r => r.label)
    rw [List.map_flatMap] at this
    rwa [List.flatMap_def] at this
  obtain ⟨pb, kb, sb⟩ := hlab s1
  obtain ⟨ps, ks, ss⟩ := hlab s2
  have hperm : (((gb ++ gs).map (fun p => p.2)).flatten).Perm (df.map (fun r => r.label)) := by
    rw [List.map_append, List.flatten_append]
    refine (pb.append ps).trans ?_
    rw [← List.map_append]
    exact (buys_sells_perm df).map _
  refine ⟨labelFrom 0 ((gb ++ gs).map (fun p => p.1)), (gb ++ gs).map (fun p => p.2), ?_,
    isTable_labelFrom _, by simp [labelFrom_length], ?_, ?_, ?_⟩
  · unfold mergeSamePriceF
    simp only [h1, h2, bind, Except.bind]
  · rw [ht] at hperm; exact hperm
  · intro k row ids hr hi
    obtain ⟨x, hx, -, hrow, rfl⟩ := getElem?_zipped hr hi
    obtain ⟨a1, a2, r₀, hr₀, hs₀, hp₀⟩ := entry x hx
    have hq : row.quantity = x.1.quantity := by rw [← hrow]
    have hp : row.price = x.1.price := by rw [← hrow]
    have hb : row.buying = x.1.buying := by rw [← hrow]
    refine ⟨?_, ?_, ?_⟩
    · rw [a1]
      intro h
      rw [List.map_eq_nil_iff, List.filter_eq_nil_iff] at h
      exact h r₀ hr₀ (by simp [hs₀, hp₀])
    · have : (x.2.map (qtyOf df)) = (df.filter (fun r => decide (r.buying = x.1.buying ∧
          npRoundF F prec r.price = x.1.price))).map (fun r => r.quantity) := by
        rw [a1, List.map_map]
        apply List.map_congr_left
        intro r hr
        exact IsTable.qty_eq ht (List.mem_filter.mp hr).1
      rw [this, hq, a2]
      exact g.isSum _
    · intro i
      rw [a1, List.mem_map]
      constructor
      · rintro ⟨r, hr, rfl⟩
        obtain ⟨hrdf, hcond⟩ := List.mem_filter.mp hr
        simp only [decide_eq_true_eq] at hcond
        exact ⟨r, IsTable.get_label ht hrdf, hcond.1.trans hb.symm, hcond.2.trans hp.symm⟩
      · rintro ⟨r, hr, h3, h4⟩
        refine ⟨r, List.mem_filter.mpr ⟨List.mem_of_getElem? hr, ?_⟩, ht.label hr⟩
        simp only [decide_eq_true_eq]
        exact ⟨h3.trans hb, h4.trans hp⟩
  · refine ⟨labelFrom 0 (gb.map (fun p => p.1)), labelFrom gb.length (gs.map (fun p => p.1)),
      ?_, labelFrom_side _ _ _ sb, labelFrom_side _ _ _ ss, labelFrom_sorted _ _ ?_, labelFrom_sorted _ _ ?_⟩
    · simp [labelFrom_eq_zipIdx, List.zipIdx_append]
    · rw [kb]; exact groupKeysF_sorted F prec _
    · rw [ks]; exact groupKeysF_sorted F prec _

/-! ## Splitting -/

/-- The transactions that replace `t`. -/
def splitTF (F : Fmt) (s : Summer F) (df : DF) (mp : List (List ℕ)) (t : Transaction) : List Transaction :=
  ((mp[t.bid]?).getD []).map (fun i =>
    ⟨i, F.rnd (t.quantity * F.rnd (qtyOf df i / s.sum (((mp[t.bid]?).getD []).map (qtyOf df)))),
      t.price, t.source, t.active⟩)

theorem members_qty (bids : DF) (ids : List ℕ) (h : ∀ i ∈ ids, i < bids.length) :
    (ids.filterMap (fun i => bids[i]?)).map (fun r => r.quantity) = ids.map (qtyOf bids) := by
  induction ids with
  | nil => rfl
  | cons i ids ih =>
    have hi := h i List.mem_cons_self
    simp [qtyOf, List.getElem?_eq_getElem hi, ih (fun j hj => h j (List.mem_cons_of_mem _ hj))]

theorem splitOneF_eq (F : Fmt) (s : Summer F) (bids : DF) (mp : List (List ℕ)) (t : Transaction) {ids : List ℕ}
    (hm : mp[t.bid]? = some ids) (hin : ∀ i ∈ ids, i < bids.length) (hne : ids ≠ []) :
    splitOneF F s bids mp t =
      if s.sum (ids.map (qtyOf bids)) = 0 then .error .nanQuantity else .ok (splitTF F s bids mp t) := by
  unfold splitOneF splitTF
  rw [hm]
  simp only [members_length bids ids hin, members_qty bids ids hin, ne_eq, not_true_eq_false, if_false,
    hne, not_false_eq_true, and_true, Option.getD_some]
  split
  · rfl
  · congr 1
    exact zip_members bids ids hin (fun i q => ({ t with
      bid := i
      quantity := F.rnd (t.quantity * F.rnd (q / s.sum (ids.map (qtyOf bids)))) } : Transaction))

theorem splitAllF_ok (F : Fmt) (s : Summer F) (bids : DF) (mp : List (List ℕ)) (ts : List Transaction)
    (h : ∀ t ∈ ts, ∃ ids, mp[t.bid]? = some ids ∧ (∀ i ∈ ids, i < bids.length) ∧ ids ≠ []) :
    splitAllF F s bids mp ts =
      if ∃ t ∈ ts, s.sum (((mp[t.bid]?).getD []).map (qtyOf bids)) = 0 then .error .nanQuantity
      else .ok (ts.flatMap (splitTF F s bids mp)) := by
  induction ts with
  | nil => simp [splitAllF]
  | cons t ts ih =>
    obtain ⟨ids, hm, hin, hne⟩ := h t List.mem_cons_self
    unfold splitAllF
    rw [splitOneF_eq F s bids mp t hm hin hne, ih (fun t' ht' => h t' (List.mem_cons_of_mem _ ht'))]
    by_cases h0 : s.sum (ids.map (qtyOf bids)) = 0
    · have hx : ∃ t' ∈ t :: ts, s.sum (((mp[t'.bid]?).getD []).map (qtyOf bids)) = 0 :=
        ⟨t, List.mem_cons_self, by rw [hm]; exact h0⟩
      rw [if_pos h0, if_pos hx]
      rfl
    · rw [if_neg h0]
      by_cases h1 : ∃ t ∈ ts, s.sum (((mp[t.bid]?).getD []).map (qtyOf bids)) = 0
      · obtain ⟨t', ht', h2⟩ := h1
        have hx : ∃ t' ∈ t :: ts, s.sum (((mp[t'.bid]?).getD []).map (qtyOf bids)) = 0 :=
          ⟨t', List.mem_cons_of_mem _ ht', h2⟩
        rw [if_pos ⟨t', ht', h2⟩, if_pos hx]
        rfl
      · rw [if_neg h1, if_neg]
        · rfl
        · rintro ⟨t', ht', h2⟩
          rcases List.mem_cons.mp ht' with rfl | ht'
          · rw [hm] at h2; exact h0 h2
          · exact h1 ⟨t', ht', h2⟩

end PyMarket
