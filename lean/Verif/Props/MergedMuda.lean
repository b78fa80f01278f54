import Verif.Props.MudaIndex
import Verif.Props.MergedRuns

/-! # C56: MUDA with `merge=True` -/

set_option autoImplicit false

namespace PyMarket

open Spec

/-- Merging leaves no two bids of one side with the same price. -/
theorem merged_noTwin {smp : Sampler} {df nb : DF} {mp : List (List ℕ)} (ht : IsTable df)
    (hm : mergeSamePrice smp df = .ok (nb, mp)) : IsTable nb ∧ ¬ HasTwin nb := by
  obtain ⟨nb', mp', h1, h2, _, _, _, _, nbuy, nsell, h7, h8, h9, h10, h11⟩ :=
    C34_merge_partition smp df 5 ht
  rw [hm] at h1
  cases h1
  refine ⟨h2, ?_⟩
  have hpw : nb.Pairwise (fun a b => ¬ (a.price = b.price ∧ a.buying = b.buying)) := by
    rw [h7, List.pairwise_append]
    refine ⟨h10.imp (fun h e => absurd e.1 (ne_of_lt h)),
      h11.imp (fun h e => absurd e.1 (ne_of_lt h)), ?_⟩
    intro a ha b hb e
    have := e.2
    rw [h8 a ha, h9 b hb] at this
    cases this
  rintro ⟨i, j, ri, rj, hij, hi, hj, _, hp, hs⟩
  obtain ⟨hi1, rfl⟩ := List.getElem?_eq_some_iff.mp hi
  obtain ⟨hj1, rfl⟩ := List.getElem?_eq_some_iff.mp hj
  rcases lt_or_gt_of_ne hij with h | h
  · exact List.pairwise_iff_getElem.mp hpw i j hi1 hj1 h ⟨hp, hs⟩
  · exact List.pairwise_iff_getElem.mp hpw j i hj1 hi1 h ⟨hp.symm, hs.symm⟩

theorem splitAll_notRejected (df : DF) (mp : List (List ℕ)) (ts : List Transaction) :
    splitAll df mp ts ≠ .error .notImplementedError := by
  induction ts with
  | nil => intro h; cases h
  | cons t ts ih =>
    intro h
    unfold splitAll at h
    have h1 : splitOne df mp t ≠ .error .notImplementedError := by
      unfold splitOne
      split
      · intro h; cases h
      · simp only
        split
        · intro h; cases h
        · split <;> (intro h; cases h)
    cases hs : splitOne df mp t with
    | error e =>
      rw [hs] at h h1
      simp only [bind, Except.bind] at h
      cases h
      exact h1 rfl
    | ok r =>
      rw [hs] at h
      simp only [bind, Except.bind] at h
      cases hr : splitAll df mp ts with
      | error e =>
        rw [hr] at h ih
        cases h
        exact ih rfl
      | ok rs => rw [hr] at h; cases h

/-- **C56, first half.** With `merge=True` MUDA never raises `NotImplementedError`, whatever prices
the users submit (compare C31). -/
theorem C56_accepts (S : Sorter) (smp : Sampler) (coin : ℕ → Bool) (df : DF) (ht : IsTable df) :
    runAlgo S smp (.muda true coin) df ≠ .error .notImplementedError := by
  obtain ⟨nb, mp, hm, _⟩ := C34_merge_partition smp df 5 ht
  obtain ⟨_, htw⟩ := merged_noTwin ht hm
  have hmu : ∀ e, mechRun (muda S coin) nb = .error e → e ≠ .notImplementedError := by
    rintro e he rfl
    rcases mechRun_two_sided (muda S coin) nb with h | h
    · rw [h] at he
      exact htw ((C31_rejects S coin nb).mp he)
    · rw [h] at he; cases he
  intro h
  have hrun : mechanism smp true (muda S coin) df = .error .notImplementedError := h
  unfold mechanism at hrun
  simp only [if_true, hm, bind, Except.bind] at hrun
  cases hr : mechRun (muda S coin) nb with
  | error e =>
    rw [hr] at hrun
    cases hrun
    exact hmu _ hr rfl
  | ok o =>
    rw [hr] at hrun
    simp only at hrun
    unfold splitTransactions at hrun
    cases hs : splitAll df mp o.1.getDf with
    | error e =>
      simp only [hs, bind, Except.bind] at hrun
      cases hrun
      exact splitAll_notRejected _ _ _ hs
    | ok ts => simp only [hs, bind, Except.bind] at hrun; cases hrun

/-- A book with two equal bids of one user: rejected without merging. -/
def twinBook : DF := labelFrom 0 [⟨1, 10, 0, true, 0, true⟩, ⟨1, 10, 0, true, 0, true⟩,
  ⟨1, 8, 1, true, 0, true⟩, ⟨1, 1, 2, false, 0, true⟩, ⟨1, 2, 3, false, 0, true⟩]

example : IsTable twinBook ∧ HasTwin twinBook ∧
    runAlgo stableSorter headSampler (.muda false (fun _ => true)) twinBook =
      .error .notImplementedError := by
  refine ⟨by decide +kernel, ?_, by decide +kernel⟩
  rw [← checkEqualPrice_iff]; decide +kernel

/-- **C56, exactly.** On a book with a buyer and a seller, MUDA with `merge=True` returns a result if
all merged users that trade on the long side are positions of the fee array of the merged table, and
raises `IndexError` otherwise; the trades in question are those of the merged table with a user per
bid, which always exist. -/
theorem C56_exact (S : Sorter) (smp : Sampler) (coin : ℕ → Bool) (df : DF) (ht : IsTable df)
    (hp : GroupQty df) (hb : ∃ r ∈ df, r.buying = true) (hs : ∃ r ∈ df, r.buying = false) :
    ∃ nb mp, mergeSamePrice smp df = .ok (nb, mp) ∧
      ∃ tm left right pl pr fees₀, muda S coin (byBid nb) = .ok (tm, .muda left right pl pr fees₀) ∧
      (Addressable nb left right pl pr tm.trans → ∃ tm' fees,
        runAlgo S smp (.muda true coin) df = .ok (tm', .muda left right pl pr fees) ∧
        tm'.trans = tm.trans.flatMap (splitT df mp)) ∧
      (¬ Addressable nb left right pl pr tm.trans →
        runAlgo S smp (.muda true coin) df = .error .indexError) := by
  obtain ⟨nb, mp, hm, hM⟩ := merge_spec_qty smp ht hp
  obtain ⟨htn, htw⟩ := merged_noTwin ht hm
  have hqn : ∀ r ∈ nb, 0 ≤ r.quantity := fun r hr => (hM.qty r hr).le
  have hside : ∀ s : Bool, (∃ r ∈ df, r.buying = s) → ∃ r ∈ nb, r.buying = s := by
    rintro s ⟨r, hr, rfl⟩
    obtain ⟨k, ids, hk, hids, hmem⟩ := hM.exists_group (ht.label_lt hr)
    obtain ⟨row, ids', h1, h2, _, _, _, h6⟩ := hM.get hk
    rw [hids] at h2
    cases h2
    obtain ⟨r', hr', hb', _⟩ := h6 _ hmem
    rw [ht.get_label hr] at hr'
    cases hr'
    exact ⟨row, List.mem_of_getElem? h1, hb'.symm⟩
  have hmech : mechRun (muda S coin) nb = muda S coin nb := by
    obtain ⟨rb, hrb, hrb'⟩ := hside true hb
    obtain ⟨rs, hrs, hrs'⟩ := hside false hs
    unfold mechRun
    simp only
    rw [if_pos]
    constructor
    · intro h
      have := mem_buys.mpr ⟨hrb, hrb'⟩
      rw [List.length_eq_zero_iff.mp h] at this
      cases this
    · intro h
      have := List.filter_eq_self.mp (List.Sublist.eq_of_length
        (List.filter_sublist (p := fun r : Row => r.buying) (l := nb)) h) rs hrs
      rw [hrs'] at this
      cases this
  refine ⟨nb, mp, hm, ?_⟩
  obtain ⟨tm, left, right, pl, pr, fees₀, e0, e1, e2⟩ := C32_exact S coin nb htn hqn htw
  refine ⟨tm, left, right, pl, pr, fees₀, e0, ?_, ?_⟩
  · intro hA
    obtain ⟨fees, ef, _⟩ := e1 hA
    have hrun : mechRun (muda S coin) nb = .ok (tm, .muda left right pl pr fees) := hmech.trans ef
    obtain ⟨hC, _⟩ := muda_mechRun htn hqn hrun
    obtain ⟨tm', x1, x2⟩ := mechanism_merge smp (muda S coin) hm hM hrun
      (fun t htt => (hC.entries t htt).1)
    exact ⟨tm', fees, x1, x2⟩
  · intro hA
    have hrun : mechRun (muda S coin) nb = .error .indexError := hmech.trans (e2 hA)
    change mechanism smp true (muda S coin) df = _
    unfold mechanism
    simp only [if_true, hm, bind, Except.bind, hrun]

/-- Users `0..4`, one bid each; the two best buyers have the same price. -/
def freshBook : DF := labelFrom 0 [⟨1, 10, 0, true, 0, true⟩, ⟨1, 10, 1, true, 0, true⟩,
  ⟨1, 8, 2, true, 0, true⟩, ⟨1, 1, 3, false, 0, true⟩, ⟨1, 2, 4, false, 0, true⟩]

/-- **C56 fails.** In `freshBook` the merged bid of users 0 and 1 gets the user id 5, wins on the long
side, and `fees[5] = …` is out of range for the four users of the merged table. Without merging the
same book is accepted. -/
theorem C56_refuted : ¬ ∀ S smp coin df, IsTable df → Pos df → UsersInRange df →
    ∃ o, runAlgo S smp (.muda true coin) df = .ok o := by
  intro h
  obtain ⟨o, ho⟩ := h stableSorter headSampler (fun i => decide (i = 1 ∨ i = 2)) freshBook
    (by decide +kernel) (by decide +kernel) (by decide +kernel)
  have : runAlgo stableSorter headSampler (.muda true (fun i => decide (i = 1 ∨ i = 2))) freshBook =
      .error .indexError := by decide +kernel
  rw [this] at ho
  cases ho

/-! ## A sufficient condition -/

/-- `r` is the only bid of its side that rounds to its price. -/
def Spec.Alone (df : DF) (r : Row) : Prop :=
  ∀ r' ∈ df, r'.buying = r.buying → (∃ y, IsRounded 5 r.price y ∧ IsRounded 5 r'.price y) → r' = r

theorem maxUserSucc_le {df : DF} {n : ℕ} (h : ∀ r ∈ df, r.user < n) : maxUserSucc df ≤ n := by
  unfold maxUserSucc
  have hm : ∀ u ∈ df.map (fun r => r.user), u < (n : ℤ) := by
    intro u hu
    obtain ⟨r, hr, rfl⟩ := List.mem_map.mp hu
    exact h r hr
  cases hl : df.map (fun r => r.user) with
  | nil => exact Int.natCast_nonneg n
  | cons u us =>
    rw [hl] at hm
    have : ∀ (us : List ℤ) (u : ℤ), u < n → (∀ w ∈ us, w < (n : ℤ)) → us.foldl max u < n := by
      intro us
      induction us with
      | nil => intro u hu _; exact hu
      | cons w us ih =>
        intro u hu hall
        exact ih (max u w) (max_lt hu (hall w List.mem_cons_self))
          (fun x hx => hall x (List.mem_cons_of_mem _ hx))
    have := this us u (hm u List.mem_cons_self) (fun w hw => hm w (List.mem_cons_of_mem _ hw))
    simp only
    omega

/-- If every user keeps an unmerged bid, the ids of the merged table are again `0..n-1`. -/
theorem merged_usersInRange {smp : Sampler} {df nb : DF} {mp : List (List ℕ)} (ht : IsTable df)
    (hm : mergeSamePrice smp df = .ok (nb, mp)) (hu : UsersInRange df)
    (hal : ∀ r ∈ df, ∃ r' ∈ df, r'.user = r.user ∧ Alone df r') : UsersInRange nb := by
  obtain ⟨nb', mp', hm', c1, c2, c3⟩ := C35_fresh_ids smp df 5 ht
  rw [hm] at hm'
  cases hm'
  obtain ⟨nb', mp', hm', _, hlen, hperm, hgrp, hsame, _⟩ := C34_merge_partition smp df 5 ht
  rw [hm] at hm'
  cases hm'
  obtain ⟨gb, i₁, gs, i₂, hb, hs, heq⟩ := mergeSamePrice_ok smp df 5
  rw [hm] at heq
  obtain ⟨rfl, rfl⟩ := Prod.mk.inj (Except.ok.inj heq)
  -- users of the merged table
  have husers : (labelFrom 0 ((gb ++ gs).map (fun p => p.1))).map (fun r => r.user) =
      (gb ++ gs).map (fun g => g.1.user) := by
    have h1 := labelFrom_map_toBid 0 ((gb ++ gs).map (fun p => p.1))
    have h2 := congrArg (List.map (fun b : Bid => b.user)) h1
    rw [List.map_map, List.map_map] at h2
    exact h2
  -- every old user is still there
  have hold : ∀ r ∈ df, r.user ∈ (gb ++ gs).map (fun g => g.1.user) := by
    intro r hr
    obtain ⟨r', hr', hru, hal'⟩ := hal r hr
    have hmem : r'.label ∈ ((gb ++ gs).map (fun p => p.2)).flatten :=
      hperm.mem_iff.mpr (List.mem_range.mpr (ht.label_lt hr'))
    obtain ⟨ids, hids, hin⟩ := List.mem_flatten.mp hmem
    obtain ⟨k, hk⟩ := List.getElem?_of_mem hids
    have hkl : k < (labelFrom 0 ((gb ++ gs).map (fun p => p.1))).length := by
      rw [← hlen]; exact (List.getElem?_eq_some_iff.mp hk).1
    have hrow := List.getElem?_eq_getElem hkl
    have hnd : (((gb ++ gs).map (fun p => p.2)).flatten).Nodup :=
      hperm.nodup_iff.mpr List.nodup_range
    have hnd' : ids.Nodup := (List.nodup_flatten.mp hnd).1 ids hids
    have hone : ids = [r'.label] := by
      have hall : ∀ i ∈ ids, i = r'.label := by
        intro i hi
        obtain ⟨_, _, g3⟩ := hgrp k _ ids hrow hk
        obtain ⟨ri, hri, _⟩ := g3 i hi
        have hrim := List.mem_of_getElem? hri
        have hli := ht.label hri
        obtain ⟨e1, y, hy, hy'⟩ := (hsame ri hrim r' hr').mp ⟨ids, hids, by rw [hli]; exact hi, hin⟩
        have := hal' ri hrim e1 ⟨y, hy', hy⟩
        rw [← hli, this]
      cases ids with
      | nil => cases hin
      | cons a l =>
        have ha := hall a List.mem_cons_self
        cases l with
        | nil => rw [ha]
        | cons b l =>
          have hb' := hall b (by simp)
          rw [ha, hb'] at hnd'
          simp at hnd'
    rw [hone] at hk
    have := c1 k r'.label _ r' hrow hk (ht.get_label hr')
    rw [← husers, ← hru, ← this]
    exact List.mem_map_of_mem (List.getElem_mem hkl)
  -- the new ids
  set n := (df.map (fun r => r.user)).dedup.length with hn
  have hmax : maxUserSucc df ≤ n := maxUserSucc_le (fun r hr => (hu r hr).2)
  set big := (gb ++ gs).filter (fun g => decide (1 < g.2.length)) with hbig
  have hcount : i₂ = maxUserSucc df + (big.length : ℤ) := by
    rw [hs.count, hb.count, hbig, List.filter_append, List.length_append]
    push_cast
    ring
  have hbigid : ∀ g ∈ gb ++ gs, 1 < g.2.length → maxUserSucc df ≤ g.1.user ∧ g.1.user < i₂ := by
    intro g hg hl
    rcases List.mem_append.mp hg with h | h
    · have := hb.big g h hl
      exact ⟨this.1, lt_of_lt_of_le this.2 hs.index_le⟩
    · have := hs.big g h hl
      exact ⟨le_trans hb.index_le this.1, this.2⟩
  have hpw : (big.map (fun g => g.1.user)).Nodup := by
    rw [List.Nodup, List.pairwise_map, hbig, List.pairwise_filter]
    have pw : (gb ++ gs).Pairwise
        (fun g g' => 1 < g.2.length → 1 < g'.2.length → g.1.user < g'.1.user) := by
      rw [List.pairwise_append]
      refine ⟨hb.distinct, hs.distinct, ?_⟩
      intro g hg g' hg' h1 h2
      exact lt_of_lt_of_le (hb.big g hg h1).2 (hs.big g' hg' h2).1
    exact pw.imp (fun h a b => ne_of_lt (h (by simpa using a) (by simpa using b)))
  have hge : n + big.length ≤ ((gb ++ gs).map (fun g => g.1.user)).dedup.length := by
    have hdis : Disjoint (df.map (fun r => r.user)).toFinset
        (big.map (fun g => g.1.user)).toFinset := by
      rw [Finset.disjoint_left]
      intro u h1 h2
      obtain ⟨r, hr, rfl⟩ := List.mem_map.mp (List.mem_toFinset.mp h1)
      obtain ⟨g, hg, e⟩ := List.mem_map.mp (List.mem_toFinset.mp h2)
      obtain ⟨hg1, hg2⟩ := List.mem_filter.mp hg
      have := hbigid g hg1 (by simpa using hg2)
      have := maxUserSucc_gt hr
      omega
    have hsub : (df.map (fun r => r.user)).toFinset ∪ (big.map (fun g => g.1.user)).toFinset ⊆
        ((gb ++ gs).map (fun g => g.1.user)).toFinset := by
      intro u h
      rw [List.mem_toFinset]
      rcases Finset.mem_union.mp h with h | h
      · obtain ⟨r, hr, rfl⟩ := List.mem_map.mp (List.mem_toFinset.mp h)
        exact hold r hr
      · obtain ⟨g, hg, rfl⟩ := List.mem_map.mp (List.mem_toFinset.mp h)
        exact List.mem_map_of_mem (List.mem_filter.mp hg).1
    have := Finset.card_le_card hsub
    rw [Finset.card_union_of_disjoint hdis, List.card_toFinset, List.card_toFinset,
      List.card_toFinset, hpw.dedup, List.length_map] at this
    exact this
  intro row hrow
  rw [husers]
  obtain ⟨k, hk⟩ := List.getElem?_of_mem hrow
  have hkl : k < ((gb ++ gs).map (fun p => p.2)).length := by
    rw [hlen]; exact (List.getElem?_eq_some_iff.mp hk).1
  obtain ⟨ids, hids⟩ : ∃ ids, ((gb ++ gs).map (fun p => p.2))[k]? = some ids :=
    ⟨_, List.getElem?_eq_getElem hkl⟩
  obtain ⟨g, hg, _, hrow', hids'⟩ := getElem?_zipped hk hids
  obtain ⟨g1, _, g3⟩ := hgrp k row _ hk hids
  have hru : row.user = g.1.user := by rw [← hrow']
  by_cases hl : 1 < g.2.length
  · have h1 := hbigid g hg hl
    obtain ⟨i, hi⟩ := List.exists_mem_of_ne_nil _ g1
    obtain ⟨r, hr, _⟩ := g3 i hi
    have h2 := hu r (List.mem_of_getElem? hr)
    have h3 := maxUserSucc_gt (List.mem_of_getElem? hr)
    rw [hru]
    constructor
    · omega
    · have : ((n + big.length : ℕ) : ℤ) ≤ (((gb ++ gs).map (fun g => g.1.user)).dedup.length : ℤ) :=
        Int.ofNat_le.mpr hge
      push_cast at this
      omega
  · have hl1 : ids.length = 1 := by
      have := List.length_pos_iff.mpr g1
      rw [hids'] at this ⊢
      omega
    obtain ⟨i, hi⟩ := List.length_eq_one_iff.mp hl1
    rw [hi] at hids g3
    obtain ⟨r, hr, _⟩ := g3 i (by simp)
    have := c1 k i row r hk hids hr
    have h2 := hu r (List.mem_of_getElem? hr)
    rw [this]
    constructor
    · exact h2.1
    · have : ((n + big.length : ℕ) : ℤ) ≤ (((gb ++ gs).map (fun g => g.1.user)).dedup.length : ℤ) :=
        Int.ofNat_le.mpr hge
      push_cast at this
      omega

/-- **C56, partial.** With `merge=True` MUDA returns a result when the user ids are `0..n-1` and every
user has a bid that is not merged with another one. Missing: users all of whose bids are merged; there
the outcome is as in `C56_exact`, and `C56_refuted` shows that it can be an exception. -/
theorem C56_total_partial (S : Sorter) (smp : Sampler) (coin : ℕ → Bool) (df : DF) (ht : IsTable df)
    (hp : GroupQty df) (hu : UsersInRange df)
    (hal : ∀ r ∈ df, ∃ r' ∈ df, r'.user = r.user ∧ Alone df r') :
    ∃ tm ex, runAlgo S smp (.muda true coin) df = .ok (tm, ex) := by
  obtain ⟨nb, mp, hm, hM⟩ := merge_spec_qty smp ht hp
  obtain ⟨htn, htw⟩ := merged_noTwin ht hm
  have hqn : ∀ r ∈ nb, 0 ≤ r.quantity := fun r hr => (hM.qty r hr).le
  obtain ⟨tm, left, right, pl, pr, fees, h⟩ :=
    C32_total_partial S coin nb htn hqn (merged_usersInRange ht hm hu hal) htw
  have hrun : ∃ tm ex, mechRun (muda S coin) nb = .ok (tm, ex) := by
    rcases mechRun_two_sided (muda S coin) nb with h' | h'
    · exact ⟨_, _, h'.trans h⟩
    · exact ⟨_, _, h'⟩
  obtain ⟨tm0, ex, hrun⟩ := hrun
  obtain ⟨hC, _⟩ := muda_mechRun htn hqn hrun
  obtain ⟨tm', x1, _⟩ := mechanism_merge smp (muda S coin) hm hM hrun
    (fun t htt => (hC.entries t htt).1)
  exact ⟨tm', ex, x1⟩

/-- `freshBook` with a second, low bid for the users 0 and 1: the merged bid gets the id 5 and the
merged table has six users. -/
def keptBook : DF := labelFrom 0 [⟨1, 10, 0, true, 0, true⟩, ⟨1, 10, 1, true, 0, true⟩,
  ⟨1, 8, 2, true, 0, true⟩, ⟨1, 1, 3, false, 0, true⟩, ⟨1, 2, 4, false, 0, true⟩,
  ⟨1, 1 / 2, 0, true, 0, true⟩, ⟨1, 1 / 4, 1, true, 0, true⟩]

example : IsTable keptBook ∧ Pos keptBook ∧ UsersInRange keptBook ∧
    (mergeSamePrice headSampler keptBook).map (fun x => x.1.map (fun r => r.user)) =
      .ok [1, 0, 2, 5, 3, 4] := by decide +kernel

theorem alone_of {df : DF} {r : Row} (h : ∀ r' ∈ df, r'.buying = r.buying →
    npRound 5 r'.price = npRound 5 r.price → r' = r) : Alone df r := by
  rintro r' hr' hb ⟨y, hy, hy'⟩
  exact h r' hr' hb ((isRounded_unique (npRound_isRounded 5 _) hy').trans
    (isRounded_unique (npRound_isRounded 5 _) hy).symm)

example : ∀ r ∈ keptBook, ∃ r' ∈ keptBook, r'.user = r.user ∧ Alone keptBook r' := by
  have h : ∀ r ∈ keptBook, ∃ r' ∈ keptBook, r'.user = r.user ∧
      ∀ r'' ∈ keptBook, r''.buying = r'.buying →
        npRound 5 r''.price = npRound 5 r'.price → r'' = r' := by decide +kernel
  intro r hr
  obtain ⟨r', h1, h2, h3⟩ := h r hr
  exact ⟨r', h1, h2, alone_of h3⟩

end PyMarket
