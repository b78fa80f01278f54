import Verif.Model.Datasets
import Verif.Spec.Datasets
import Verif.Props.Muda

/-! # C44, C45: the bid generator -/

set_option autoImplicit false

namespace PyMarket

open Spec

theorem takeIdx_nodup {α : Type*} {l : List α} (hl : l.Nodup) {is : List ℕ} (hi : is.Nodup) :
    (takeIdx l is).Nodup := by
  unfold takeIdx
  apply List.Nodup.filterMap _ hi
  intro i j a h1 h2
  simp only [Option.mem_def] at h1 h2
  obtain ⟨h1', e1⟩ := List.getElem?_eq_some_iff.mp h1
  obtain ⟨h2', e2⟩ := List.getElem?_eq_some_iff.mp h2
  exact (List.Nodup.getElem_inj_iff hl).mp (e1.trans e2.symm)

theorem takeIdx_length {α : Type*} {l : List α} {is : List ℕ} (h : ∀ i ∈ is, i < l.length) :
    (takeIdx l is).length = is.length := by
  induction is with
  | nil => rfl
  | cons i is ih =>
    unfold takeIdx at ih ⊢
    rw [List.filterMap_cons, List.getElem?_eq_getElem (h i List.mem_cons_self)]
    simp only [List.length_cons]
    rw [ih (fun i hi => h i (List.mem_cons_of_mem _ hi))]

theorem takeIdx_mem {α : Type*} {l : List α} {is : List ℕ} {a : α} (h : a ∈ takeIdx l is) :
    a ∈ l := by
  unfold takeIdx at h
  obtain ⟨i, _, hi⟩ := List.mem_filterMap.mp h
  exact List.mem_of_getElem? hi

theorem arange01_length (eps : ℚ) : (arange01 eps).length = ⌈1 / eps⌉₊ := by
  simp [arange01]

theorem arange01_mem {eps : ℚ} (he : 0 < eps) {x : ℚ} (h : x ∈ arange01 eps) :
    0 ≤ x ∧ x < 1 ∧ ∃ n : ℕ, x = n * eps := by
  obtain ⟨k, hk, rfl⟩ := List.mem_map.mp h
  rw [List.mem_range] at hk
  refine ⟨by positivity, ?_, k, rfl⟩
  have := Nat.lt_ceil.mp hk
  rwa [lt_div_iff₀ he] at this

theorem arange01_nodup {eps : ℚ} (he : 0 < eps) : (arange01 eps).Nodup := by
  apply List.Nodup.map _ List.nodup_range
  intro a b h
  simp only [mul_eq_mul_right_iff, Nat.cast_inj] at h
  rcases h with h | h
  · exact h
  · exact absurd h he.ne'

theorem chooseFrom_ok (ch : Chooser) (call : ℕ) {l : List ℚ} (hl : l.Nodup) {q : ℕ}
    (hq : q ≤ l.length) : ∃ xs, chooseFrom ch call l q = .ok xs ∧ xs.length = q ∧ xs.Nodup ∧
      ∀ x ∈ xs, x ∈ l := by
  refine ⟨takeIdx l (ch.pick call l.length q), if_pos hq, ?_, takeIdx_nodup hl (ch.nodup _ _ _ hq),
    fun x hx => takeIdx_mem hx⟩
  rw [takeIdx_length (ch.lt _ _ _ hq), ch.length_eq _ _ _ hq]

theorem adjustEps_ok (nb ns : ℕ) {eps : ℚ} (he : 0 < eps ∨ eps < 0 ∧ 0 < max nb ns) :
    adjustEps nb ns eps = .ok (gridStep nb ns eps) ∧ 0 < gridStep nb ns eps ∧
      max nb ns ≤ (arange01 (gridStep nb ns eps)).length := by
  unfold adjustEps gridStep
  rw [if_neg (by rcases he with h | h; exacts [h.ne', h.1.ne]), arange01_length]
  by_cases h : 1 / eps < ((max nb ns : ℕ) : ℚ)
  · have hpos : (0 : ℚ) < ((max nb ns : ℕ) : ℚ) := by
      rcases he with he | he
      · exact lt_trans (by positivity) h
      · exact_mod_cast he.2
    have h0 : max nb ns ≠ 0 := by
      intro h0; rw [h0] at hpos; simp at hpos
    rw [if_pos h, if_neg h0, if_neg (not_le.mpr h)]
    refine ⟨?_, by positivity, ?_⟩
    · congr 1
      rw [div_div, mul_comm]
    · rw [one_div_one_div]
      apply Nat.cast_le (α := ℚ).mp
      refine le_trans ?_ (Nat.le_ceil _)
      linarith
  · have he : 0 < eps := by
      rcases he with he | he
      · exact he
      · exact absurd (lt_of_lt_of_le (one_div_neg.mpr he.1) (Nat.cast_nonneg _)) h
    rw [if_neg h, if_pos (not_lt.mp h)]
    refine ⟨rfl, he, ?_⟩
    apply Nat.cast_le (α := ℚ).mp
    exact le_trans (not_lt.mp h) (Nat.le_ceil _)

theorem sideBids_length (side : Bool) (u : ℤ) {qs vs : List ℚ} (h : qs.length = vs.length) :
    (sideBids side u qs vs).length = qs.length := by
  induction qs generalizing u vs with
  | nil => cases vs <;> rfl
  | cons q qs ih =>
    cases vs with
    | nil => cases h
    | cons v vs => simp only [sideBids, List.length_cons]; rw [ih _ (by simpa using h)]

theorem sideBids_get (side : Bool) (u : ℤ) {qs vs : List ℚ} {k : ℕ} {b : Bid}
    (h : (sideBids side u qs vs)[k]? = some b) :
    b.user = u + k ∧ b.buying = side ∧ b.time = 0 ∧ b.divisible = true ∧
      qs[k]? = some b.quantity ∧ vs[k]? = some b.price := by
  induction qs generalizing u vs k with
  | nil => cases vs <;> simp [sideBids] at h
  | cons q qs ih =>
    cases vs with
    | nil => simp [sideBids] at h
    | cons v vs =>
      cases k with
      | zero =>
        simp only [sideBids, List.getElem?_cons_zero, Option.some.injEq] at h
        subst h
        simp
      | succ k =>
        simp only [sideBids, List.getElem?_cons_succ] at h
        obtain ⟨h1, h2, h3, h4, h5, h6⟩ := ih (u := u + 1) h
        refine ⟨?_, h2, h3, h4, h5, h6⟩
        rw [h1]; push_cast; ring

theorem nodup_get_ne {α : Type*} {l : List α} (h : l.Nodup) {i j : ℕ} {a b : α} (hij : i ≠ j)
    (ha : l[i]? = some a) (hb : l[j]? = some b) : a ≠ b := by
  rintro rfl
  obtain ⟨h1, e1⟩ := List.getElem?_eq_some_iff.mp ha
  obtain ⟨h2, e2⟩ := List.getElem?_eq_some_iff.mp hb
  exact hij ((List.Nodup.getElem_inj_iff h).mp (e1.trans e2.symm))

/-- **C44 (zero).** `eps = 0`, and a negative `eps` without any players, divide by zero. -/
theorem C44_zero (ch : Chooser) (nb ns : ℕ) (offSell offBuy eps : ℚ) (he : ¬ (0 < eps ∨ eps < 0 ∧ 0 < max nb ns)) :
    generate ch nb ns offSell offBuy eps = .error .zeroDivisionError := by
  have h : adjustEps nb ns eps = .error .zeroDivisionError := by
    unfold adjustEps
    rcases eq_or_ne eps 0 with h0 | h0
    · rw [if_pos h0]
    · push Not at he
      have hneg := lt_of_le_of_ne he.1 h0
      have hm : max nb ns = 0 := Nat.le_zero.mp (he.2 hneg)
      rw [if_neg h0, hm, if_pos (by simpa using one_div_neg.mpr hneg), if_pos rfl]
  unfold generate
  rw [h]; rfl

/-- **C44.** With `eps > 0` (or `eps < 0` and some players, which selects the default step),
`generate` returns for every random stream, and the bids are well formed:
`cant_buyers` buying bids followed by `cant_sellers` selling bids of the users 0, 1, 2, …, quantities
in `[0, 1)`, prices in `[offset, offset + 1)`, all on the grid, and pairwise different prices and
quantities on each side. -/
theorem C44_well_formed (ch : Chooser) (nb ns : ℕ) (offSell offBuy eps : ℚ)
    (he : 0 < eps ∨ eps < 0 ∧ 0 < max nb ns) :
    ∃ bids, generate ch nb ns offSell offBuy eps = .ok bids ∧
      WellFormed nb ns offBuy offSell (gridStep nb ns eps) bids := by
  obtain ⟨e1, e2, e3⟩ := adjustEps_ok nb ns he
  have hnd := arange01_nodup e2
  have hmap : ∀ o : ℚ, ((arange01 (gridStep nb ns eps)).map (fun x => x + o)).Nodup := by
    intro o
    exact hnd.map (add_left_injective o)
  obtain ⟨qb, a1, a2, a3, a4⟩ := chooseFrom_ok ch 0 hnd (le_trans (le_max_left nb ns) e3)
  obtain ⟨vb, b1, b2, b3, b4⟩ := chooseFrom_ok ch 1 (hmap offBuy) (q := nb)
    (by rw [List.length_map]; exact le_trans (le_max_left nb ns) e3)
  obtain ⟨qs, c1, c2, c3, c4⟩ := chooseFrom_ok ch 2 hnd (le_trans (le_max_right nb ns) e3)
  obtain ⟨vs, d1, d2, d3, d4⟩ := chooseFrom_ok ch 3 (hmap offSell) (q := ns)
    (by rw [List.length_map]; exact le_trans (le_max_right nb ns) e3)
  have hlb : (sideBids true 0 qb vb).length = nb := by
    rw [sideBids_length _ _ (a2.trans b2.symm), a2]
  have hls : (sideBids false nb qs vs).length = ns := by
    rw [sideBids_length _ _ (c2.trans d2.symm), c2]
  have hget : ∀ (k : ℕ) (b : Bid), (sideBids true 0 qb vb ++ sideBids false nb qs vs)[k]? = some b →
      (k < nb ∧ (sideBids true 0 qb vb)[k]? = some b) ∨
      (nb ≤ k ∧ (sideBids false nb qs vs)[k - nb]? = some b) := by
    intro k b h
    rcases lt_or_ge k nb with hk | hk
    · rw [List.getElem?_append_left (by rw [hlb]; exact hk)] at h
      exact Or.inl ⟨hk, h⟩
    · rw [List.getElem?_append_right (by rw [hlb]; exact hk), hlb] at h
      exact Or.inr ⟨hk, h⟩
  have hprice : ∀ {o x : ℚ} {vs : List ℚ}, (∀ x ∈ vs,
      x ∈ (arange01 (gridStep nb ns eps)).map (fun x => x + o)) → x ∈ vs →
      o ≤ x ∧ x < o + 1 ∧ ∃ n : ℕ, x = n * gridStep nb ns eps + o := by
    intro o x vs h hx
    obtain ⟨y, hy, rfl⟩ := List.mem_map.mp (h x hx)
    obtain ⟨h1, h2, n, rfl⟩ := arange01_mem e2 hy
    exact ⟨by linarith, by linarith, n, rfl⟩
  refine ⟨sideBids true 0 qb vb ++ sideBids false nb qs vs, ?_, ?_, ?_, ?_, ?_, ?_, ?_, ?_, ?_⟩
  · unfold generate
    simp only [e1, a1, b1, c1, d1, bind, Except.bind]
  · rw [List.length_append, hlb, hls]
  · intro k b h
    rcases hget k b h with ⟨hk, h⟩ | ⟨hk, h⟩
    · rw [(sideBids_get _ _ h).1]; simp
    · rw [(sideBids_get _ _ h).1]; omega
  · intro k b h
    rcases hget k b h with ⟨hk, h⟩ | ⟨hk, h⟩
    · rw [(sideBids_get _ _ h).2.1]; simp [hk]
    · rw [(sideBids_get _ _ h).2.1]; simp [hk]
  · intro b hb
    obtain ⟨k, h⟩ := List.mem_iff_getElem?.mp hb
    rcases hget k b h with ⟨hk, h⟩ | ⟨hk, h⟩
    · exact arange01_mem e2 (a4 _ (List.mem_of_getElem? (sideBids_get _ _ h).2.2.2.2.1))
    · exact arange01_mem e2 (c4 _ (List.mem_of_getElem? (sideBids_get _ _ h).2.2.2.2.1))
  · intro b hb hs
    obtain ⟨k, h⟩ := List.mem_iff_getElem?.mp hb
    rcases hget k b h with ⟨hk, h⟩ | ⟨hk, h⟩
    · exact hprice b4 (List.mem_of_getElem? (sideBids_get _ _ h).2.2.2.2.2)
    · rw [(sideBids_get _ _ h).2.1] at hs; cases hs
  · intro b hb hs
    obtain ⟨k, h⟩ := List.mem_iff_getElem?.mp hb
    rcases hget k b h with ⟨hk, h⟩ | ⟨hk, h⟩
    · rw [(sideBids_get _ _ h).2.1] at hs; cases hs
    · exact hprice d4 (List.mem_of_getElem? (sideBids_get _ _ h).2.2.2.2.2)
  · intro b hb
    obtain ⟨k, h⟩ := List.mem_iff_getElem?.mp hb
    rcases hget k b h with ⟨hk, h⟩ | ⟨hk, h⟩ <;>
      exact ⟨(sideBids_get _ _ h).2.2.1, (sideBids_get _ _ h).2.2.2.1⟩
  · intro i j a b hij ha hb hs
    rcases hget i a ha with ⟨hi, ha⟩ | ⟨hi, ha⟩ <;> rcases hget j b hb with ⟨hj, hb⟩ | ⟨hj, hb⟩
    · exact ⟨nodup_get_ne b3 hij (sideBids_get _ _ ha).2.2.2.2.2 (sideBids_get _ _ hb).2.2.2.2.2,
        nodup_get_ne a3 hij (sideBids_get _ _ ha).2.2.2.2.1 (sideBids_get _ _ hb).2.2.2.2.1⟩
    · rw [(sideBids_get _ _ ha).2.1, (sideBids_get _ _ hb).2.1] at hs; cases hs
    · rw [(sideBids_get _ _ ha).2.1, (sideBids_get _ _ hb).2.1] at hs; cases hs
    · have hij' : i - nb ≠ j - nb := by omega
      exact ⟨nodup_get_ne d3 hij' (sideBids_get _ _ ha).2.2.2.2.2 (sideBids_get _ _ hb).2.2.2.2.2,
        nodup_get_ne c3 hij' (sideBids_get _ _ ha).2.2.2.2.1 (sideBids_get _ _ hb).2.2.2.2.1⟩

/-- The random stream that always draws the first values of the grid. -/
def firstChooser : Chooser where
  pick := fun _ _ q => List.range q
  length_eq := by intro _ _ q _; simp
  nodup := by intro _ _ q _; exact List.nodup_range
  lt := by intro _ n q h i hi; exact lt_of_lt_of_le (List.mem_range.mp hi) h

/-- Non-vacuity: 3 buyers and 2 sellers with a grid that is too coarse (`1/2`) and is refined to
`1/6`. -/
example : generate firstChooser 3 2 0 1 (1 / 2) = .ok
    [⟨0, 1, 0, true, 0, true⟩, ⟨1 / 6, 7 / 6, 1, true, 0, true⟩, ⟨1 / 3, 4 / 3, 2, true, 0, true⟩,
     ⟨0, 0, 3, false, 0, true⟩, ⟨1 / 6, 1 / 6, 4, false, 0, true⟩] := by
  decide +kernel

/-- Non-vacuity: a negative step is replaced. -/
example : generate firstChooser 1 1 0 1 (-1 / 2) = .ok
    [⟨0, 1, 0, true, 0, true⟩, ⟨0, 0, 1, false, 0, true⟩] := by
  decide +kernel

/-! ## C45 -/

theorem acceptAll_bids (bids : List Bid) (m : Market) :
    (acceptAll m bids).bm.bids = m.bm.bids ++ bids := by
  induction bids generalizing m with
  | nil => simp [acceptAll]
  | cons b bids ih =>
    have : acceptAll m (b :: bids) = acceptAll
      (m.acceptBid b.quantity b.price b.user b.buying b.time b.divisible).1 bids := rfl
    rw [this, ih]
    simp [Market.acceptBid, BidManager.addBid]

theorem acceptAll_df (bids : List Bid) :
    (acceptAll Market.init bids).bm.getDf = labelFrom 0 bids := by
  unfold BidManager.getDf
  rw [acceptAll_bids]
  simp [Market.init, BidManager.init]

theorem labelFrom_get (n : ℕ) (bids : List Bid) (k : ℕ) :
    (labelFrom n bids)[k]? = (bids[k]?).map (fun b => { toBid := b, label := n + k }) := by
  induction bids generalizing n k with
  | nil => simp [labelFrom]
  | cons b bids ih =>
    cases k with
    | zero => simp [labelFrom]
    | succ k =>
      simp only [labelFrom, List.getElem?_cons_succ]
      rw [ih]
      congr 1
      funext b
      congr 1
      omega

/-- A table with one bid per user, users numbered from 0. -/
theorem users_labelFrom {n : ℕ} {bids : List Bid} (hn : bids.length = n)
    (h : ∀ (k : ℕ) (b : Bid), bids[k]? = some b → b.user = (k : ℤ)) :
    (labelFrom 0 bids).map (fun r => r.user) = (List.range n).map (fun k : ℕ => (k : ℤ)) := by
  apply List.ext_getElem?
  intro k
  rw [List.getElem?_map, labelFrom_get, List.getElem?_map]
  rcases lt_or_ge k n with hk | hk
  · have hk' : k < bids.length := by rw [hn]; exact hk
    have := h k bids[k] (List.getElem?_eq_getElem hk')
    rw [List.getElem?_eq_getElem hk', List.getElem?_range hk]
    simp [this]
  · have hk' : bids.length ≤ k := by rw [hn]; exact hk
    rw [List.getElem?_eq_none hk', List.getElem?_eq_none (by simpa using hk)]
    rfl

theorem usersInRange_labelFrom {n : ℕ} {bids : List Bid}
    (h : (labelFrom 0 bids).map (fun r => r.user) = (List.range n).map (fun k : ℕ => (k : ℤ))) :
    UsersInRange (labelFrom 0 bids) := by
  intro r hr
  rw [h]
  have hn : ((List.range n).map (fun k : ℕ => (k : ℤ))).Nodup :=
    List.nodup_range.map (fun a b h => by simpa using h)
  rw [hn.dedup, List.length_map, List.length_range]
  have : r.user ∈ (labelFrom 0 bids).map (fun r => r.user) := List.mem_map.mpr ⟨r, hr, rfl⟩
  rw [h] at this
  obtain ⟨k, hk, e⟩ := List.mem_map.mp this
  rw [List.mem_range] at hk
  rw [← e]
  omega

theorem not_hasTwin_labelFrom {bids : List Bid} (h : ∀ (k : ℕ) (b : Bid), bids[k]? = some b → b.user = (k : ℤ)) :
    ¬ HasTwin (labelFrom 0 bids) := by
  rintro ⟨i, j, ri, rj, hij, hi, hj, hu, _⟩
  rw [labelFrom_get] at hi hj
  obtain ⟨a, ha, rfl⟩ := Option.map_eq_some_iff.mp hi
  obtain ⟨b, hb, rfl⟩ := Option.map_eq_some_iff.mp hj
  rw [h i a ha, h j b hb] at hu
  omega

/-- The table of well formed bids: one bid per user, users numbered from 0. -/
theorem Spec.WellFormed.users {nb ns : ℕ} {ob os step : ℚ} {bids : List Bid}
    (h : WellFormed nb ns ob os step bids) :
    (labelFrom 0 bids).map (fun r => r.user) = (List.range (nb + ns)).map (fun k : ℕ => (k : ℤ)) :=
  users_labelFrom h.length h.user

theorem Spec.WellFormed.usersInRange {nb ns : ℕ} {ob os step : ℚ} {bids : List Bid}
    (h : WellFormed nb ns ob os step bids) : UsersInRange (labelFrom 0 bids) :=
  usersInRange_labelFrom h.users

theorem Spec.WellFormed.not_hasTwin {nb ns : ℕ} {ob os step : ℚ} {bids : List Bid}
    (h : WellFormed nb ns ob os step bids) : ¬ HasTwin (labelFrom 0 bids) :=
  not_hasTwin_labelFrom h.user

theorem Spec.WellFormed.quantities {nb ns : ℕ} {ob os step : ℚ} {bids : List Bid}
    (h : WellFormed nb ns ob os step bids) : ∀ r ∈ labelFrom 0 bids, 0 ≤ r.quantity := by
  intro r hr
  obtain ⟨k, hk⟩ := List.mem_iff_getElem?.mp hr
  rw [labelFrom_get] at hk
  obtain ⟨b, hb, rfl⟩ := Option.map_eq_some_iff.mp hk
  exact (h.quantity b (List.mem_of_getElem? hb)).1

/-- **C45.** Submitting the generated bids to a new market and running MUDA returns a result, for all
numbers of players, offsets, `eps` for which `generate` returns, and all random streams of the generator and of the
mechanism. -/
theorem C45_muda_accepts (ch : Chooser) (nb ns : ℕ) (offSell offBuy eps : ℚ)
    (he : 0 < eps ∨ eps < 0 ∧ 0 < max nb ns)
    (S : Sorter) (smp : Sampler) (coin : ℕ → Bool) :
    ∃ bids o, generate ch nb ns offSell offBuy eps = .ok bids ∧
      ((acceptAll Market.init bids).run S smp (.muda false coin)).2 = .ok o := by
  obtain ⟨bids, hg, hw⟩ := C44_well_formed ch nb ns offSell offBuy eps he
  have hrun : ∃ o, runAlgo S smp (.muda false coin) (labelFrom 0 bids) = .ok o := by
    show ∃ o, mechRun (muda S coin) (labelFrom 0 bids) = .ok o
    unfold mechRun
    simp only
    split
    · obtain ⟨tm, l, r, pl, pr, fees, h⟩ := C32_total_partial S coin _ (isTable_labelFrom bids)
        hw.quantities hw.usersInRange hw.not_hasTwin
      exact ⟨_, h⟩
    · exact ⟨_, rfl⟩
  obtain ⟨⟨tm, ex⟩, ho⟩ := hrun
  refine ⟨bids, (tm, ex), hg, ?_⟩
  unfold Market.run
  rw [acceptAll_df, ho]

/-- Non-vacuity: a generated market in which MUDA trades in both halves. -/
example : (generate firstChooser 8 8 0 (1 / 4) (1 / 10)).toOption.map (fun bids =>
    ((acceptAll Market.init bids).run stableSorter headSampler
      (.muda false (fun i => decide (i % 2 = 0)))).2.toOption.map
        (fun o => o.1.trans.map (fun t => t.bid))) = some (some [6, 8, 10, 12, 9, 11, 13, 7, 5]) := by
  decide +kernel

end PyMarket
