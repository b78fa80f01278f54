import Verif.Lemmas.Split
import Verif.Lemmas.Table
import Verif.Lemmas.Sort

/-! # C34, C35, C36: merging equal prices and splitting the results -/

set_option autoImplicit false

namespace PyMarket

open Spec

theorem groupRows_side_eq (prec : ℕ) (df : DF) (k : ℚ) (side : Bool) :
    groupRows prec (df.filter (fun r => r.buying == side)) k =
      df.filter (fun r => decide (r.buying = side ∧ npRound prec r.price = k)) := by
  unfold groupRows
  rw [List.filter_filter]
  apply List.filter_congr
  intro r _
  by_cases h1 : r.buying = side <;> by_cases h2 : npRound prec r.price = k <;> simp [h1, h2]

theorem buys_eq_filter (df : DF) : buys df = df.filter (fun r => r.buying == true) := by
  unfold buys; congr 1; funext r; simp

theorem sells_eq_filter (df : DF) : sells df = df.filter (fun r => r.buying == false) := by
  unfold sells; congr 1; funext r; simp

/-- The facts about one merged bid used by C34. -/
theorem merged_entry {smp : Sampler} {prec : ℕ} {df : DF} {gb gs : List (Bid × List ℕ)}
    {i₀ i₁ i₂ : ℤ}
    (hb : AggSpec smp prec true (buys df) (groupKeys prec (buys df)) i₀ gb i₁)
    (hs : AggSpec smp prec false (sells df) (groupKeys prec (sells df)) i₁ gs i₂)
    {g : Bid × List ℕ} (hg : g ∈ gb ++ gs) :
    g.2 = (df.filter (fun r => decide (r.buying = g.1.buying ∧
      npRound prec r.price = g.1.price))).map (fun r => r.label) ∧
    g.1.quantity = ((df.filter (fun r => decide (r.buying = g.1.buying ∧
      npRound prec r.price = g.1.price))).map (fun r => r.quantity)).sum ∧
    ∃ r ∈ df, r.buying = g.1.buying ∧ npRound prec r.price = g.1.price := by
  rcases List.mem_append.mp hg with h | h
  · obtain ⟨i, hi⟩ := List.getElem?_of_mem h
    obtain ⟨hk, h2, h3, h4⟩ := hb.get hi
    rw [buys_eq_filter, groupRows_side_eq] at h2 h3
    refine ⟨by rw [h4]; exact h2, by rw [h4]; exact h3, ?_⟩
    obtain ⟨r, hr, hp⟩ := mem_groupKeys.mp (List.mem_of_getElem? hk)
    exact ⟨r, (mem_buys.mp hr).1, by rw [h4]; exact (mem_buys.mp hr).2, hp⟩
  · obtain ⟨i, hi⟩ := List.getElem?_of_mem h
    obtain ⟨hk, h2, h3, h4⟩ := hs.get hi
    rw [sells_eq_filter, groupRows_side_eq] at h2 h3
    refine ⟨by rw [h4]; exact h2, by rw [h4]; exact h3, ?_⟩
    obtain ⟨r, hr, hp⟩ := mem_groupKeys.mp (List.mem_of_getElem? hk)
    exact ⟨r, (mem_sells.mp hr).1, by rw [h4]; exact (mem_sells.mp hr).2, hp⟩

theorem getElem?_zipped {gb gs : List (Bid × List ℕ)} {k : ℕ} {row : Row} {ids : List ℕ}
    (hr : (labelFrom 0 ((gb ++ gs).map (fun p => p.1)))[k]? = some row)
    (hi : ((gb ++ gs).map (fun p => p.2))[k]? = some ids) :
    ∃ g ∈ gb ++ gs, (gb ++ gs)[k]? = some g ∧ row.toBid = g.1 ∧ ids = g.2 := by
  rw [labelFrom_getElem?, List.getElem?_map] at hr
  rw [List.getElem?_map] at hi
  cases hg : (gb ++ gs)[k]? with
  | none => rw [hg] at hi; cases hi
  | some g =>
    rw [hg] at hr hi
    simp only [Option.map_some, Option.some.injEq] at hr hi
    exact ⟨g, List.mem_of_getElem? hg, rfl, by rw [← hr], hi.symm⟩

theorem flatten_perm {smp : Sampler} {prec : ℕ} {df : DF} {gb gs : List (Bid × List ℕ)}
    {i₀ i₁ i₂ : ℤ}
    (hb : AggSpec smp prec true (buys df) (groupKeys prec (buys df)) i₀ gb i₁)
    (hs : AggSpec smp prec false (sells df) (groupKeys prec (sells df)) i₁ gs i₂) :
    (((gb ++ gs).map (fun p => p.2)).flatten).Perm (df.map (fun r => r.label)) := by
  rw [List.map_append, hb.labels, hs.labels, List.flatten_append]
  have key : ∀ df' : DF,
      (((groupKeys prec df').map
        (fun k => (groupRows prec df' k).map (fun r => r.label))).flatten).Perm
      (df'.map (fun r => r.label)) := by
    intro df'
    have := (groups_perm prec df').map (fun r => r.label)
    rw [List.map_flatMap] at this
    rwa [List.flatMap_def] at this
  refine ((key _).append (key _)).trans ?_
  rw [← List.map_append]
  exact (buys_sells_perm df).map _

/-- **C34.** `merge_same_price` succeeds on every bid table; the new table has ids `0,1,…`; the
mapping is a partition of the original ids; each new bid aggregates exactly the bids of its side
that round to its price; two bids share a group iff they are on the same side and round to the same
value; on each side the merged prices are strictly increasing, and buyers come first. -/
theorem C34_merge_partition (smp : Sampler) (df : DF) (prec : ℕ) (ht : IsTable df) :
    ∃ nb mp, mergeSamePrice smp df prec = .ok (nb, mp) ∧
      IsTable nb ∧ mp.length = nb.length ∧
      mp.flatten.Perm (List.range df.length) ∧
      (∀ (k : ℕ) (row : Row) (ids : List ℕ), nb[k]? = some row → mp[k]? = some ids →
        ids ≠ [] ∧ row.quantity = (ids.map (qtyOf df)).sum ∧
        ∀ i ∈ ids, ∃ r, df[i]? = some r ∧ r.buying = row.buying ∧
          IsRounded prec r.price row.price) ∧
      (∀ r ∈ df, ∀ r' ∈ df, (∃ ids ∈ mp, r.label ∈ ids ∧ r'.label ∈ ids) ↔
        (r.buying = r'.buying ∧ ∃ y, IsRounded prec r.price y ∧ IsRounded prec r'.price y)) ∧
      (∃ nbuy nsell, nb = nbuy ++ nsell ∧ (∀ r ∈ nbuy, r.buying = true) ∧
        (∀ r ∈ nsell, r.buying = false) ∧ nbuy.Pairwise (fun a b => a.price < b.price) ∧
        nsell.Pairwise (fun a b => a.price < b.price)) := by
  obtain ⟨gb, i₁, gs, i₂, hb, hs, heq⟩ := mergeSamePrice_ok smp df prec
  have hperm := flatten_perm hb hs
  refine ⟨_, _, heq, isTable_labelFrom _, by simp [labelFrom_length], ?_, ?_, ?_, ?_⟩
  · rw [ht] at hperm; exact hperm
  · intro k row ids hr hi
    obtain ⟨g, hg, -, hrow, rfl⟩ := getElem?_zipped hr hi
    obtain ⟨h1, h2, h3⟩ := merged_entry hb hs hg
    obtain ⟨r₀, hr₀, hs₀, hp₀⟩ := h3
    refine ⟨?_, ?_, ?_⟩
    · rw [h1]
      intro h
      rw [List.map_eq_nil_iff, List.filter_eq_nil_iff] at h
      exact h r₀ hr₀ (by simp [hs₀, hp₀])
    · have : row.quantity = g.1.quantity := by rw [← hrow]
      rw [this, h2, h1, List.map_map]
      congr 1
      apply List.map_congr_left
      intro r hr
      exact (IsTable.qty_eq ht (List.mem_filter.mp hr).1).symm
    · intro i hi
      rw [h1, List.mem_map] at hi
      obtain ⟨r, hr, rfl⟩ := hi
      obtain ⟨hrdf, hcond⟩ := List.mem_filter.mp hr
      simp only [decide_eq_true_eq] at hcond
      refine ⟨r, IsTable.get_label ht hrdf, ?_, ?_⟩
      · rw [hcond.1, ← hrow]
      · have : row.price = g.1.price := by rw [← hrow]
        rw [this, ← hcond.2]
        exact npRound_isRounded prec r.price
  · intro r hr r' hr'
    constructor
    · rintro ⟨ids, hids, hri, hri'⟩
      rw [List.mem_map] at hids
      obtain ⟨g, hg, rfl⟩ := hids
      obtain ⟨h1, -, -⟩ := merged_entry hb hs hg
      have conv : ∀ r ∈ df, r.label ∈ g.2 → r.buying = g.1.buying ∧
          npRound prec r.price = g.1.price := by
        intro r hr hrl
        rw [h1, List.mem_map] at hrl
        obtain ⟨r₂, hr₂, hl⟩ := hrl
        obtain ⟨hrdf, hcond⟩ := List.mem_filter.mp hr₂
        have : r₂ = r := IsTable.inj ht hrdf hr hl
        rw [this] at hcond
        simpa using hcond
      have a := conv r hr hri
      have b := conv r' hr' hri'
      refine ⟨a.1.trans b.1.symm, g.1.price, ?_, ?_⟩
      · rw [← a.2]; exact npRound_isRounded prec _
      · rw [← b.2]; exact npRound_isRounded prec _
    · rintro ⟨hside, y, hy, hy'⟩
      have e : npRound prec r.price = y := isRounded_unique (npRound_isRounded prec _) hy
      have e' : npRound prec r'.price = y := isRounded_unique (npRound_isRounded prec _) hy'
      have hmem : r.label ∈ ((gb ++ gs).map (fun p => p.2)).flatten :=
        hperm.symm.subset (List.mem_map_of_mem hr)
      rw [List.mem_flatten] at hmem
      obtain ⟨ids, hids, hri⟩ := hmem
      refine ⟨ids, hids, hri, ?_⟩
      rw [List.mem_map] at hids
      obtain ⟨g, hg, rfl⟩ := hids
      obtain ⟨h1, -, -⟩ := merged_entry hb hs hg
      have hc : r.buying = g.1.buying ∧ npRound prec r.price = g.1.price := by
        rw [h1, List.mem_map] at hri
        obtain ⟨r₂, hr₂, hl⟩ := hri
        obtain ⟨hrdf, hcond⟩ := List.mem_filter.mp hr₂
        have : r₂ = r := IsTable.inj ht hrdf hr hl
        rw [this] at hcond
        simpa using hcond
      rw [h1, List.mem_map]
      refine ⟨r', List.mem_filter.mpr ⟨hr', ?_⟩, rfl⟩
      simp only [decide_eq_true_eq]
      exact ⟨hside.symm.trans hc.1, by rw [e', ← e]; exact hc.2⟩
  · have keysort : ∀ (n : ℕ) (l : List (Bid × List ℕ)), (l.map (fun g => g.1.price)).Pairwise (· < ·) →
        (labelFrom n (l.map (fun p => p.1))).Pairwise (fun a b => a.price < b.price) := by
      intro n l hl
      have : (labelFrom n (l.map (fun p => p.1))).map (fun r => r.price) =
          l.map (fun g => g.1.price) := by
        induction l generalizing n with
        | nil => rfl
        | cons g l ih =>
          simp only [List.map_cons, labelFrom]
          rw [ih (n + 1) (List.pairwise_cons.mp hl).2]
      rw [← List.pairwise_map (f := fun r : Row => r.price) (R := (· < ·)), this]
      exact hl
    have keyside : ∀ (n : ℕ) (l : List (Bid × List ℕ)) (s : Bool), (∀ g ∈ l, g.1.buying = s) →
        ∀ r ∈ labelFrom n (l.map (fun p => p.1)), r.buying = s := by
      intro n l s hl r hr
      have : r.toBid ∈ (labelFrom n (l.map (fun p => p.1))).map (fun r => r.toBid) :=
        List.mem_map_of_mem hr
      rw [labelFrom_map_toBid, List.mem_map] at this
      obtain ⟨g, hg, hgr⟩ := this
      rw [← hgr]; exact hl g hg
    refine ⟨labelFrom 0 (gb.map (fun p => p.1)), labelFrom gb.length (gs.map (fun p => p.1)),
      ?_, keyside _ _ _ hb.side_eq, keyside _ _ _ hs.side_eq, keysort _ _ ?_, keysort _ _ ?_⟩
    · simp [labelFrom_eq_zipIdx, List.zipIdx_append]
    · rw [hb.price]; exact groupKeys_sorted _ _
    · rw [hs.price]; exact groupKeys_sorted _ _

/-- The book of the docstring of `merge_same_price`. -/
def mergeBook : DF := labelFrom 0
  [⟨3/10, 1, 0, true, 0, true⟩, ⟨7/10, 1, 1, true, 0, true⟩, ⟨2, 1, 2, false, 0, true⟩,
   ⟨1, 2444446/1000000, 3, false, 0, true⟩, ⟨3, 2444447/1000000, 4, false, 0, true⟩]

/-- Non-vacuity: on the docstring's book the mapping is the documented one and the merged users are
the fresh ids 5 and 6. -/
example : mergeSamePrice headSampler mergeBook = .ok
    (labelFrom 0 [⟨1, 1, 5, true, 0, true⟩, ⟨2, 1, 2, false, 0, true⟩,
      ⟨4, 244445/100000, 6, false, 0, true⟩], [[0, 1], [2], [3, 4]]) := by decide +kernel

theorem foldl_max_ge (l : List ℤ) (a : ℤ) : a ≤ l.foldl max a ∧ ∀ x ∈ l, x ≤ l.foldl max a := by
  induction l generalizing a with
  | nil => simp
  | cons y l ih =>
    have h := ih (max a y)
    simp only [List.foldl_cons]
    refine ⟨le_trans (le_max_left _ _) h.1, ?_⟩
    intro x hx
    rcases List.mem_cons.mp hx with rfl | hx
    · exact le_trans (le_max_right _ _) h.1
    · exact h.2 x hx

theorem maxUserSucc_gt {df : DF} {r : Row} (hr : r ∈ df) : r.user < maxUserSucc df := by
  unfold maxUserSucc
  have hm : r.user ∈ df.map (fun r => r.user) := List.mem_map_of_mem hr
  cases hd : df.map (fun r => r.user) with
  | nil => rw [hd] at hm; cases hm
  | cons u us =>
    rw [hd] at hm
    have := foldl_max_ge us u
    simp only
    rcases List.mem_cons.mp hm with h | h
    · rw [h]; omega
    · have := this.2 _ h; omega

/-- **C35.** A singleton group keeps its member's user id; a larger group gets an id above every
original user id; different larger groups get different ids (so merged ids never collide with
anything). -/
theorem C35_fresh_ids (smp : Sampler) (df : DF) (prec : ℕ) (ht : IsTable df) :
    ∃ nb mp, mergeSamePrice smp df prec = .ok (nb, mp) ∧
      (∀ (k i : ℕ) (row r : Row), nb[k]? = some row → mp[k]? = some [i] → df[i]? = some r →
        row.user = r.user) ∧
      (∀ (k : ℕ) (row : Row) (ids : List ℕ), nb[k]? = some row → mp[k]? = some ids →
        1 < ids.length → ∀ r ∈ df, r.user < row.user) ∧
      (∀ (k k' : ℕ) (row row' : Row) (ids ids' : List ℕ), k < k' → nb[k]? = some row →
        nb[k']? = some row' → mp[k]? = some ids → mp[k']? = some ids' →
        1 < ids.length → 1 < ids'.length → row.user < row'.user) := by
  obtain ⟨gb, i₁, gs, i₂, hb, hs, heq⟩ := mergeSamePrice_ok smp df prec
  have big : ∀ g ∈ gb ++ gs, 1 < g.2.length → maxUserSucc df ≤ g.1.user := by
    intro g hg hl
    rcases List.mem_append.mp hg with h | h
    · exact (hb.big g h hl).1
    · exact le_trans hb.index_le (hs.big g h hl).1
  have pw : (gb ++ gs).Pairwise
      (fun g g' => 1 < g.2.length → 1 < g'.2.length → g.1.user < g'.1.user) := by
    rw [List.pairwise_append]
    refine ⟨hb.distinct, hs.distinct, ?_⟩
    intro g hg g' hg' h1 h2
    exact lt_of_lt_of_le (hb.big g hg h1).2 (hs.big g' hg' h2).1
  refine ⟨_, _, heq, ?_, ?_, ?_⟩
  · intro k i row r hr hi hri
    obtain ⟨g, hg, -, hrow, hids⟩ := getElem?_zipped hr hi
    have hu : row.user = g.1.user := by rw [← hrow]
    have single : ∀ r', r' ∈ df → [r'.label] = g.2 → r' = r := by
      intro r' hr' hl
      rw [← hids] at hl
      have : r'.label = i := by simpa using hl
      have h2 := IsTable.get_label ht hr'
      rw [this, hri] at h2
      exact (Option.some.inj h2).symm
    rw [hu]
    rcases List.mem_append.mp hg with h | h
    · obtain ⟨j, hj⟩ := List.getElem?_of_mem h
      obtain ⟨hk, h2, -, -⟩ := hb.get hj
      have hlen : (groupRows prec (buys df) g.1.price).length = 1 := by
        have := congrArg List.length h2
        rw [← hids] at this
        simpa using this.symm
      obtain ⟨r', hr'⟩ := List.length_eq_one_iff.mp hlen
      rw [hb.single j g _ hj hk r' hr']
      rw [hr'] at h2
      have hm : r' ∈ groupRows prec (buys df) g.1.price := by rw [hr']; simp
      have := single r' (mem_buys.mp (mem_groupRows.mp hm).1).1 (by rw [h2]; rfl)
      rw [this]
    · obtain ⟨j, hj⟩ := List.getElem?_of_mem h
      obtain ⟨hk, h2, -, -⟩ := hs.get hj
      have hlen : (groupRows prec (sells df) g.1.price).length = 1 := by
        have := congrArg List.length h2
        rw [← hids] at this
        simpa using this.symm
      obtain ⟨r', hr'⟩ := List.length_eq_one_iff.mp hlen
      rw [hs.single j g _ hj hk r' hr']
      rw [hr'] at h2
      have hm : r' ∈ groupRows prec (sells df) g.1.price := by rw [hr']; simp
      have := single r' (mem_sells.mp (mem_groupRows.mp hm).1).1 (by rw [h2]; rfl)
      rw [this]
  · intro k row ids hr hi hl r hrdf
    obtain ⟨g, hg, -, hrow, rfl⟩ := getElem?_zipped hr hi
    have hu : row.user = g.1.user := by rw [← hrow]
    rw [hu]
    exact lt_of_lt_of_le (maxUserSucc_gt hrdf) (big g hg hl)
  · intro k k' row row' ids ids' hlt hr hr' hi hi' hl hl'
    obtain ⟨g, hg, hgk, hrow, rfl⟩ := getElem?_zipped hr hi
    obtain ⟨g', hg', hgk', hrow', rfl⟩ := getElem?_zipped hr' hi'
    have hu : row.user = g.1.user := by rw [← hrow]
    have hu' : row'.user = g'.1.user := by rw [← hrow']
    rw [hu, hu']
    obtain ⟨hk1, e1⟩ := List.getElem?_eq_some_iff.mp hgk
    obtain ⟨hk2, e2⟩ := List.getElem?_eq_some_iff.mp hgk'
    have := List.pairwise_iff_getElem.mp pw k k' hk1 hk2 hlt
    rw [e1, e2] at this
    exact this hl hl'

/-- Non-vacuity of C35: groups of sizes 2, 1, 2. -/
example : ((mergeSamePrice headSampler mergeBook).map
    (fun r => r.1.map (fun x => x.user))) = .ok [5, 2, 6] := by decide +kernel

/-- How many of the first `k` groups have several members. -/
def bigBefore (mp : List (List ℕ)) (k : ℕ) : ℕ := (mp.take k).countP (fun ids => decide (1 < ids.length))

theorem aggGroup_index {smp : Sampler} {side : Bool} {key : ℚ} {rows : DF} {index i' : ℤ} {g : Bid × List ℕ}
    (h : aggGroup smp side key rows index = .ok (g, i')) :
    (1 < g.2.length → g.1.user = index ∧ i' = index + 1) ∧ (¬ 1 < g.2.length → i' = index) := by
  unfold aggGroup newId at h
  by_cases hl : 1 < rows.length
  · simp only [List.length_map, hl, if_true, bind, Except.bind, Except.ok.injEq, Prod.mk.injEq] at h
    obtain ⟨rfl, rfl⟩ := h
    simp [hl]
  · cases rows with
    | nil => simp [bind, Except.bind] at h
    | cons r rs =>
      have hl' : ¬ 1 < (r.user :: rs.map (fun r => r.user)).length := by simpa using hl
      simp only [List.map_cons, hl', if_false, bind, Except.bind, Except.ok.injEq, Prod.mk.injEq] at h
      obtain ⟨rfl, rfl⟩ := h
      have hl2 : ¬ 1 < (r.label :: rs.map (fun r => r.label)).length := by simpa using hl
      exact ⟨fun h => absurd h hl2, fun _ => rfl⟩

theorem aggSide_index {smp : Sampler} {prec : ℕ} {side : Bool} {df : DF} :
    ∀ {keys : List ℚ} {index i' : ℤ} {gs : List (Bid × List ℕ)},
    aggSide smp prec side df keys index = .ok (gs, i') →
    i' = index + bigBefore (gs.map (fun g => g.2)) gs.length ∧
    ∀ k g, gs[k]? = some g → 1 < g.2.length → g.1.user = index + bigBefore (gs.map (fun g => g.2)) k := by
  intro keys
  induction keys with
  | nil =>
    intro index i' gs h
    simp only [aggSide, Except.ok.injEq, Prod.mk.injEq] at h
    obtain ⟨rfl, rfl⟩ := h
    simp [bigBefore]
  | cons key keys ih =>
    intro index i' gs h
    unfold aggSide at h
    cases h1 : aggGroup smp side key (groupRows prec df key) index with
    | error e => simp [h1, bind, Except.bind] at h
    | ok p =>
      obtain ⟨g, i1⟩ := p
      cases h2 : aggSide smp prec side df keys i1 with
      | error e => simp [h1, h2, bind, Except.bind] at h
      | ok q =>
        obtain ⟨gs', i2⟩ := q
        simp only [h1, h2, bind, Except.bind, Except.ok.injEq, Prod.mk.injEq] at h
        obtain ⟨rfl, rfl⟩ := h
        obtain ⟨e1, e2⟩ := ih h2
        obtain ⟨f1, f2⟩ := aggGroup_index h1
        have hb : ∀ k, i1 + bigBefore (gs'.map (fun g => g.2)) k =
            index + bigBefore ((g :: gs').map (fun g => g.2)) (k + 1) := by
          intro k
          simp only [bigBefore, List.map_cons, List.take_succ_cons, List.countP_cons]
          by_cases hg : 1 < g.2.length
          · simp only [hg, decide_true, if_true]; rw [(f1 hg).2]; push_cast; ring
          · simp only [hg, decide_false]; rw [f2 hg]; simp
        refine ⟨by rw [e1]; exact hb _, ?_⟩
        intro k g' hk hl
        cases k with
        | zero =>
          simp only [List.getElem?_cons_zero, Option.some.injEq] at hk
          subst hk
          rw [(f1 hl).1]; simp [bigBefore]
        | succ k =>
          simp only [List.getElem?_cons_succ] at hk
          rw [e2 k g' hk hl]; exact hb k

/-- **C35** (which ids) The new ids are the next free ones: with `u` the largest user id of the table, the groups with
several members get `u + 1`, `u + 2`, … in the order of the merged table. -/
theorem C35_consecutive (smp : Sampler) (df : DF) (prec : ℕ) :
    ∃ nb mp, mergeSamePrice smp df prec = .ok (nb, mp) ∧
      ∀ u : ℤ, (∃ r ∈ df, r.user = u) → (∀ r ∈ df, r.user ≤ u) →
        ∀ (k : ℕ) (row : Row) (ids : List ℕ), nb[k]? = some row → mp[k]? = some ids → 1 < ids.length →
          row.user = u + 1 + ((mp.take k).filter (fun ids => decide (1 < ids.length))).length := by
  obtain ⟨gb, i₁, h1, s1⟩ := aggSide_ok smp prec true (buys df) (groupKeys prec (buys df))
    (maxUserSucc df) (fun k hk => groupRows_ne_nil hk)
  obtain ⟨gs, i₂, h2, s2⟩ := aggSide_ok smp prec false (sells df) (groupKeys prec (sells df))
    i₁ (fun k hk => groupRows_ne_nil hk)
  refine ⟨labelFrom 0 ((gb ++ gs).map (fun p => p.1)), (gb ++ gs).map (fun p => p.2), ?_, ?_⟩
  · unfold mergeSamePrice
    simp only [h1, h2, bind, Except.bind]
  · rintro u ⟨r, hr, hru⟩ hu k row ids hrow hids hl
    obtain ⟨g, hg, hgk, e1, rfl⟩ := getElem?_zipped hrow hids
    have hM : maxUserSucc df = u + 1 := by
      have h1 : u < maxUserSucc df := hru ▸ maxUserSucc_gt hr
      have h2 : maxUserSucc df ≤ u + 1 := by
        unfold maxUserSucc
        cases hd : df.map (fun r => r.user) with
        | nil => simp at hd; subst hd; simp at hr
        | cons a as =>
          have : ∀ (as : List ℤ) (a : ℤ), a ≤ u → (∀ x ∈ as, x ≤ u) → as.foldl max a ≤ u := by
            intro as
            induction as with
            | nil => intro a ha _; exact ha
            | cons b as ih => intro a ha hb; exact ih _ (max_le ha (hb b (by simp))) (fun x hx => hb x (by simp [hx]))
          have hall : ∀ x ∈ a :: as, x ≤ u := by
            intro x hx
            rw [← hd] at hx
            obtain ⟨r, hr, rfl⟩ := List.mem_map.1 hx
            exact hu r hr
          have := this as a (hall a (by simp)) (fun x hx => hall x (by simp [hx]))
          simpa using this
      omega
    rw [← List.countP_eq_length_filter]
    have hu : row.user = g.1.user := by rw [← e1]
    rw [hu, ← hM]
    obtain ⟨a1, a2⟩ := aggSide_index h1
    obtain ⟨b1, b2⟩ := aggSide_index h2
    by_cases hk : k < gb.length
    · rw [List.getElem?_append_left hk] at hgk
      rw [a2 k g hgk hl, List.map_append, List.take_append_of_le_length (by simp; omega)]
      rfl
    · rw [List.getElem?_append_right (by omega)] at hgk
      rw [b2 _ g hgk hl, a1, List.map_append, List.take_append, List.countP_append]
      simp only [bigBefore, List.length_map]
      rw [List.take_of_length_le (l := gb.map _) (by simp), List.take_of_length_le (l := gb.map _) (by simp; omega)]
      push_cast; ring

/-- The table of `mergeBook` has largest user 4; its two groups of two get 5 and 6. -/
example : (∃ r ∈ mergeBook, r.user = 4) ∧ (∀ r ∈ mergeBook, r.user ≤ 4) := by decide +kernel

/-- A transaction log and a mapping that can be split: every transaction's group exists, refers to
existing bids and has a positive total quantity. -/
def Splittable (bids : DF) (mp : List (List ℕ)) (ts : List Transaction) : Prop :=
  ∀ t ∈ ts, ∃ ids, mp[t.bid]? = some ids ∧ (∀ i ∈ ids, i < bids.length) ∧
    0 < (ids.map (qtyOf bids)).sum

/-- **C36.** Splitting replaces each transaction by one per member of its group, in order, with the
same price, source and active flag; member `i` receives the fraction `q_i / Σ q` of the quantity. -/
theorem C36_split (bids : DF) (mp : List (List ℕ)) (tm : TransactionManager)
    (h : Splittable bids mp tm.trans) :
    ∃ tm', splitTransactions tm bids mp = .ok tm' ∧
      tm'.trans = tm.trans.flatMap (fun t =>
        let ids := (mp[t.bid]?).getD []
        ids.map (fun i => ⟨i, t.quantity * (qtyOf bids i / (ids.map (qtyOf bids)).sum),
          t.price, t.source, t.active⟩)) := by
  refine ⟨TransactionManager.init.addAll _, ?_, TransactionManager.init_addAll_trans _⟩
  unfold splitTransactions
  rw [TransactionManager.getDf, splitAll_ok bids mp tm.trans]
  · rfl
  · intro t ht
    obtain ⟨ids, h1, h2, h3⟩ := h t ht
    exact ⟨ids, h1, h2, fun _ => ne_of_gt h3⟩

/-- **C36, conservation.** The parts of one transaction add up to it, a singleton group's
transaction is only relabelled, parts of a non-negative transaction are non-negative, and no member
exceeds its bid when the transaction does not exceed the group's total. -/
theorem C36_split_conserves (bids : DF) (ids : List ℕ) (q : ℚ)
    (hpos : 0 < (ids.map (qtyOf bids)).sum) :
    (ids.map (fun i => q * (qtyOf bids i / (ids.map (qtyOf bids)).sum))).sum = q ∧
    (∀ i, ids = [i] → q * (qtyOf bids i / (ids.map (qtyOf bids)).sum) = q) ∧
    (0 ≤ q → q ≤ (ids.map (qtyOf bids)).sum → ∀ i ∈ ids, 0 ≤ qtyOf bids i →
      0 ≤ q * (qtyOf bids i / (ids.map (qtyOf bids)).sum) ∧
      q * (qtyOf bids i / (ids.map (qtyOf bids)).sum) ≤ qtyOf bids i) := by
  refine ⟨?_, ?_, ?_⟩
  · have := sum_sharePart bids ids ⟨0, q, 0, 0, false⟩ (ne_of_gt hpos)
    rw [List.map_map] at this
    exact this
  · rintro i rfl
    have : qtyOf bids i ≠ 0 := by simpa using ne_of_gt hpos
    simp [div_self this]
  · intro hq hle i _ hi
    refine ⟨by positivity, ?_⟩
    rw [← mul_div_assoc, div_le_iff₀ hpos]
    nlinarith

/-- Non-vacuity: the docstring's example, bids of quantity 1 and 2 sharing a transaction of 1. -/
example : splitTransactions ⟨1, [⟨0, 1, 1, -1, false⟩]⟩
    (labelFrom 0 [⟨1, 1, 0, true, 0, true⟩, ⟨2, 1, 1, true, 0, true⟩]) [[0, 1]] =
    .ok ⟨2, [⟨0, 1/3, 1, -1, false⟩, ⟨1, 2/3, 1, -1, false⟩]⟩ := by decide +kernel

example : Splittable (labelFrom 0 [⟨1, 1, 0, true, 0, true⟩, ⟨2, 1, 1, true, 0, true⟩]) [[0, 1]]
    [⟨0, 1, 1, -1, false⟩] := by
  intro t ht
  simp only [List.mem_singleton] at ht
  subst ht
  exact ⟨[0, 1], rfl, by decide, by decide +kernel⟩

end PyMarket
