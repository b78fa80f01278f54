import Verif.Lemmas.FloatDatasets
import Verif.Props.FloatMuda
import Verif.Model.FloatProcessing

/-! # C103: the bid generator in floating point arithmetic -/

set_option autoImplicit false

namespace PyMarket

open Spec

/-- **C103 (exact).** Without rounding this is the generator of C44. -/
theorem C103_exact (ch : Chooser) (nb ns : ℕ) (offSell offBuy eps : ℚ) :
    generateF exactFmt.toArith ch nb ns offSell offBuy eps = generate ch nb ns offSell offBuy eps := by
  have h1 : adjustEpsF exactFmt.toArith nb ns eps = adjustEps nb ns eps := rfl
  have h2 : ∀ e, arange01F exactFmt.toArith e = arange01 e := fun _ => rfl
  unfold generateF generate
  simp only [h1, h2, exactFmt_rnd]

/-- Everything about a generated list of bids. -/
theorem generateF_all (F : Fmt) (hF : F.eps ≤ 1 / 8) (ch : Chooser) (nb ns : ℕ) (offSell offBuy eps : ℚ)
    (he : 0 < eps ∨ eps < 0 ∧ 0 < max nb ns) : ∃ bids, generateF F ch nb ns offSell offBuy eps = .ok bids ∧
      WellFormedF F nb ns offBuy offSell (gridStepF F nb ns eps) bids ∧
      ∀ (i j : ℕ) (a b : Bid), i ≠ j → bids[i]? = some a → bids[j]? = some b → a.buying = b.buying →
        ((arange01F F (gridStepF F nb ns eps)).Nodup → a.quantity ≠ b.quantity) ∧
        (((arange01F F (gridStepF F nb ns eps)).map
          (fun x => F.rnd (x + if a.buying then offBuy else offSell))).Nodup → a.price ≠ b.price) := by
  obtain ⟨e1, e2, e3⟩ := adjustEpsF_ok F hF nb ns he
  rw [← arange01F_length] at e3
  obtain ⟨qb, a1, a2, a4, a3⟩ := chooseFrom_some ch 0 (le_trans (le_max_left nb ns) e3)
  obtain ⟨vb, b1, b2, b4, b3⟩ := chooseFrom_some ch 1 (q := nb)
    (l := (arange01F F (gridStepF F nb ns eps)).map (fun x => F.rnd (x + offBuy)))
    (by rw [List.length_map]; exact le_trans (le_max_left nb ns) e3)
  obtain ⟨qs, c1, c2, c4, c3⟩ := chooseFrom_some ch 2 (le_trans (le_max_right nb ns) e3)
  obtain ⟨vs, d1, d2, d4, d3⟩ := chooseFrom_some ch 3 (q := ns)
    (l := (arange01F F (gridStepF F nb ns eps)).map (fun x => F.rnd (x + offSell)))
    (by rw [List.length_map]; exact le_trans (le_max_right nb ns) e3)
  have hlb : (sideBids true 0 qb vb).length = nb := by
    rw [sideBids_length _ _ (a2.trans b2.symm), a2]
  have hls : (sideBids false nb qs vs).length = ns := by
    rw [sideBids_length _ _ (c2.trans d2.symm), c2]
  have hget : ∀ (k : ℕ) (b : Bid), (sideBids true 0 qb vb ++ sideBids false nb qs vs)[k]? = some b →
      (k < nb ∧ (sideBids true 0 qb vb)[k]? = some b) ∨
      (nb ≤ k ∧ (sideBids false nb qs vs)[k - nb]? = some b) := by
    intro k b h
    rcases lt_or_ge k nb with hk | hk
    · rw [List.getElem?_append_left (by rw [hlb]; exact hk)] at h
      exact Or.inl ⟨hk, h⟩
    · rw [List.getElem?_append_right (by rw [hlb]; exact hk), hlb] at h
      exact Or.inr ⟨hk, h⟩
  refine ⟨sideBids true 0 qb vb ++ sideBids false nb qs vs, ?_, ⟨?_, ?_, ?_, ?_, ?_, ?_⟩, ?_⟩
  · unfold generateF
    simp only [e1, a1, b1, c1, d1, bind, Except.bind]
  · rw [List.length_append, hlb, hls]
  · intro k b h
    rcases hget k b h with ⟨hk, h⟩ | ⟨hk, h⟩
    · rw [(sideBids_get _ _ h).1]; simp
    · rw [(sideBids_get _ _ h).1]; omega
  · intro k b h
    rcases hget k b h with ⟨hk, h⟩ | ⟨hk, h⟩
    · rw [(sideBids_get _ _ h).2.1]; simp [hk]
    · rw [(sideBids_get _ _ h).2.1]; simp [hk]
  · intro b hb
    obtain ⟨k, h⟩ := List.mem_iff_getElem?.mp hb
    rcases hget k b h with ⟨hk, h⟩ | ⟨hk, h⟩
    · exact mem_arange01F.1 (a4 _ (List.mem_of_getElem? (sideBids_get _ _ h).2.2.2.2.1))
    · exact mem_arange01F.1 (c4 _ (List.mem_of_getElem? (sideBids_get _ _ h).2.2.2.2.1))
  · intro b hb
    obtain ⟨k, h⟩ := List.mem_iff_getElem?.mp hb
    rcases hget k b h with ⟨hk, h⟩ | ⟨hk, h⟩
    · obtain ⟨x, hx, e⟩ := List.mem_map.mp (b4 _ (List.mem_of_getElem? (sideBids_get _ _ h).2.2.2.2.2))
      exact ⟨x, mem_arange01F.1 hx, by rw [(sideBids_get _ _ h).2.1, ← e]; rfl⟩
    · obtain ⟨x, hx, e⟩ := List.mem_map.mp (d4 _ (List.mem_of_getElem? (sideBids_get _ _ h).2.2.2.2.2))
      exact ⟨x, mem_arange01F.1 hx, by rw [(sideBids_get _ _ h).2.1, ← e]; rfl⟩
  · intro b hb
    obtain ⟨k, h⟩ := List.mem_iff_getElem?.mp hb
    rcases hget k b h with ⟨hk, h⟩ | ⟨hk, h⟩ <;>
      exact ⟨(sideBids_get _ _ h).2.2.1, (sideBids_get _ _ h).2.2.2.1⟩
  · intro i j a b hij ha hb hs
    rcases hget i a ha with ⟨hi, ha⟩ | ⟨hi, ha⟩ <;> rcases hget j b hb with ⟨hj, hb⟩ | ⟨hj, hb⟩
    · refine ⟨fun h => nodup_get_ne (a3 h) hij (sideBids_get _ _ ha).2.2.2.2.1 (sideBids_get _ _ hb).2.2.2.2.1,
        fun h => nodup_get_ne (b3 ?_) hij (sideBids_get _ _ ha).2.2.2.2.2 (sideBids_get _ _ hb).2.2.2.2.2⟩
      rw [(sideBids_get _ _ ha).2.1] at h
      exact h
    · rw [(sideBids_get _ _ ha).2.1, (sideBids_get _ _ hb).2.1] at hs; cases hs
    · rw [(sideBids_get _ _ ha).2.1, (sideBids_get _ _ hb).2.1] at hs; cases hs
    · have hij' : i - nb ≠ j - nb := by omega
      refine ⟨fun h => nodup_get_ne (c3 h) hij' (sideBids_get _ _ ha).2.2.2.2.1 (sideBids_get _ _ hb).2.2.2.2.1,
        fun h => nodup_get_ne (d3 ?_) hij' (sideBids_get _ _ ha).2.2.2.2.2 (sideBids_get _ _ hb).2.2.2.2.2⟩
      rw [(sideBids_get _ _ ha).2.1] at h
      exact h

/-- **C103 (zero).** `eps = 0`, and a negative `eps` without any players, divide by zero. -/
theorem C103_zero (F : Fmt) (ch : Chooser) (nb ns : ℕ) (offSell offBuy eps : ℚ)
    (he : ¬ (0 < eps ∨ eps < 0 ∧ 0 < max nb ns)) :
    generateF F ch nb ns offSell offBuy eps = .error .zeroDivisionError := by
  have h : adjustEpsF F nb ns eps = .error .zeroDivisionError := by
    unfold adjustEpsF
    rcases eq_or_ne eps 0 with h0 | h0
    · rw [if_pos h0]
    · push Not at he
      have hneg := lt_of_le_of_ne he.1 h0
      have hm : max nb ns = 0 := Nat.le_zero.mp (he.2 hneg)
      have hlt : F.rnd (1 / eps) < 0 := by
        have := F.rnd_pos (x := 1 / -eps) (one_div_pos.mpr (by linarith))
        rw [one_div_neg_eq_neg_one_div, F.neg] at this
        linarith
      rw [if_neg h0, hm, if_pos (by simpa using hlt), if_pos rfl]
  unfold generateF
  rw [h]; rfl

/-- **C103 (returns).** With rounding, too, `generate` returns for all numbers of players and all other `eps`: the grid is
never too small. The bids are those of the users `0, 1, 2, …`, buyers first, with quantities on the rounded grid and
prices on the shifted one. -/
theorem C103_returns (F : Fmt) (hF : F.eps ≤ 1 / 8) (ch : Chooser) (nb ns : ℕ) (offSell offBuy eps : ℚ)
    (he : 0 < eps ∨ eps < 0 ∧ 0 < max nb ns) : ∃ bids, generateF F ch nb ns offSell offBuy eps = .ok bids ∧
      WellFormedF F nb ns offBuy offSell (gridStepF F nb ns eps) bids := by
  obtain ⟨bids, h1, h2, _⟩ := generateF_all F hF ch nb ns offSell offBuy eps he
  exact ⟨bids, h1, h2⟩

/-- **C103 (quantities).** In float64 the generated quantities are in `[0, 1)`, although `np.arange` may have one entry
more than in exact arithmetic. -/
theorem C103_quantities (ch : Chooser) (nb ns : ℕ) (offSell offBuy eps : ℚ) (he : 0 < eps ∨ eps < 0 ∧ 0 < max nb ns)
    (hs : 1 / 2 ^ 52 ≤ gridStepF float64 nb ns eps) (bids : List Bid)
    (h : generateF float64 ch nb ns offSell offBuy eps = .ok bids) : ∀ b ∈ bids, 0 ≤ b.quantity ∧ b.quantity < 1 := by
  obtain ⟨bids', h1, h2⟩ := C103_returns float64 (by show (1 / 2 ^ 53 : ℚ) ≤ 1 / 8; norm_num) ch nb ns offSell offBuy eps he
  rw [h] at h1
  cases h1
  exact fun b hb => float64_grid_lt_one hs (h2.quantity b hb)

/-- **C103 (prices).** In float64 the generated prices lie between the offset and the rounded `offset + 1`. -/
theorem C103_prices (ch : Chooser) (nb ns : ℕ) (offSell offBuy eps : ℚ) (he : 0 < eps ∨ eps < 0 ∧ 0 < max nb ns)
    (hs : 1 / 2 ^ 52 ≤ gridStepF float64 nb ns eps) (hS : float64.Rep offSell) (hB : float64.Rep offBuy)
    (bids : List Bid) (h : generateF float64 ch nb ns offSell offBuy eps = .ok bids) :
    ∀ b ∈ bids, (b.buying = true → offBuy ≤ b.price ∧ b.price ≤ float64.rnd (offBuy + 1)) ∧
      (b.buying = false → offSell ≤ b.price ∧ b.price ≤ float64.rnd (offSell + 1)) := by
  obtain ⟨bids', h1, h2⟩ := C103_returns float64 (by show (1 / 2 ^ 53 : ℚ) ≤ 1 / 8; norm_num) ch nb ns offSell offBuy eps he
  rw [h] at h1
  cases h1
  intro b hb
  obtain ⟨x, hx, hp⟩ := h2.price b hb
  obtain ⟨x0, x1⟩ := float64_grid_lt_one hs hx
  have key : ∀ o : ℚ, float64.Rep o → o ≤ float64.rnd (x + o) ∧ float64.rnd (x + o) ≤ float64.rnd (o + 1) :=
    fun o ho => ⟨float64.le_rnd ho (by linarith), float64.mono _ _ (by linarith)⟩
  refine ⟨fun hb => ?_, fun hb => ?_⟩ <;> rw [hp, hb]
  · exact key _ hB
  · exact key _ hS

/-- **C103, partial (all players of a side differ).** Two bids of a side have different quantities if the grid is coarser
than the rounding, and different prices if the rounding at the offset is finer than the grid. Missing: offsets so large
that neighbouring prices are rounded to the same number (`C103_refuted`). -/
theorem C103_distinct_partial (F : Fmt) (hF : F.eps ≤ 1 / 8) (ch : Chooser) (nb ns : ℕ) (offSell offBuy eps : ℚ)
    (he : 0 < eps ∨ eps < 0 ∧ 0 < max nb ns) (bids : List Bid) (h : generateF F ch nb ns offSell offBuy eps = .ok bids)
    (i j : ℕ) (a b : Bid) (hij : i ≠ j) (ha : bids[i]? = some a) (hb : bids[j]? = some b) (hab : a.buying = b.buying) :
    (4 * F.eps ≤ gridStepF F nb ns eps → a.quantity ≠ b.quantity) ∧
    (F.eps * (2 * |if a.buying then offBuy else offSell| + 5) < gridStepF F nb ns eps → a.price ≠ b.price) := by
  obtain ⟨bids', h1, _, h3⟩ := generateF_all F hF ch nb ns offSell offBuy eps he
  rw [h] at h1
  cases h1
  obtain ⟨hq, hp⟩ := h3 i j a b hij ha hb hab
  obtain ⟨_, hpos, _⟩ := adjustEpsF_ok F hF nb ns he
  refine ⟨fun hs => hq (arange01F_nodup F hs hpos), fun hs => hp ?_⟩
  unfold arange01F
  rw [List.map_map, List.Nodup, List.pairwise_map]
  apply List.Pairwise.imp_of_mem _ List.pairwise_lt_range
  intro j k _ hk hjk
  exact (shifted_lt F hF hs hjk (Nat.lt_ceil.1 (List.mem_range.1 hk))).ne

/-- The docstring of `generate` for float64: all players of a side have different values. -/
def FloatPlayersDiffer : Prop :=
  ∀ (ch : Chooser) (nb ns : ℕ) (offSell offBuy eps : ℚ), 0 < eps → float64.Rep eps → float64.Rep offSell →
    float64.Rep offBuy → ∀ bids, generateF float64 ch nb ns offSell offBuy eps = .ok bids →
      ∀ (i j : ℕ) (a b : Bid), i ≠ j → bids[i]? = some a → bids[j]? = some b → a.buying = b.buying → a.price ≠ b.price

/-- **C103, refuted (all players of a side differ).** With an offset of `2^53` and steps of `1/4` the two buyers have the
same price. -/
theorem C103_refuted : ¬ FloatPlayersDiffer := by
  intro h
  have hg : generateF float64 firstChooser 2 1 0 (2 ^ 53) (1 / 4) = .ok
      [⟨0, 2 ^ 53, 0, true, 0, true⟩, ⟨1 / 4, 2 ^ 53, 1, true, 0, true⟩, ⟨0, 0, 2, false, 0, true⟩] := by
    decide +kernel
  exact h firstChooser 2 1 0 (2 ^ 53) (1 / 4) (by norm_num) (by unfold Fmt.Rep; decide +kernel) float64.rep_zero
    (by unfold Fmt.Rep; decide +kernel) _ hg 0 1 _ _ (by norm_num) rfl rfl rfl rfl

/-- The random stream that always draws the last values of the grid. -/
def lastChooser : Chooser where
  pick := fun _ n q => (List.range q).map (fun i => n - 1 - i)
  length_eq := by intro _ _ q _; simp
  nodup := by
    intro _ n q h
    apply List.Nodup.map_on _ List.nodup_range
    intro a ha b hb hab
    rw [List.mem_range] at ha hb
    omega
  lt := by
    intro _ n q h i hi
    obtain ⟨a, ha, rfl⟩ := List.mem_map.mp hi
    rw [List.mem_range] at ha
    omega

/-- In exact arithmetic prices are below `offset + 1` (C44). -/
def FloatPricesBelow : Prop :=
  ∀ (ch : Chooser) (nb ns : ℕ) (offSell offBuy eps : ℚ), 0 < eps → float64.Rep eps → float64.Rep offSell →
    float64.Rep offBuy → ∀ bids, generateF float64 ch nb ns offSell offBuy eps = .ok bids →
      ∀ b ∈ bids, b.buying = true → b.price < offBuy + 1

/-- **C103, refuted (prices below `offset + 1`).** With `eps = 1/49` in float64, `np.arange` has 50 entries instead of 49,
the last one is `1 - 2^-53`, and shifted by 1 it is rounded to 2. -/
theorem C103_below_refuted : ¬ FloatPricesBelow := by
  intro h
  have hg : generateF float64 lastChooser 1 0 0 1 (float64.rnd (1 / 49)) = .ok
      [⟨1 - 1 / 2 ^ 53, 2, 0, true, 0, true⟩] := by
    decide +kernel
  have := h lastChooser 1 0 0 1 (float64.rnd (1 / 49)) (float64.rnd_pos (by norm_num)) (float64.idem _)
    float64.rep_zero float64.rep_one _ hg _ List.mem_cons_self rfl
  norm_num at this

/-- **C103 (MUDA).** The bids generated with rounding are accepted by MUDA computed with rounding, for all numbers of
players, offsets, `eps` for which `generate` returns, orders of summation, coins and random streams. -/
theorem C103_muda (F : Fmt) (hF : F.eps ≤ 1 / 8) (ch : Chooser) (nb ns : ℕ) (offSell offBuy eps : ℚ) (he : 0 < eps ∨ eps < 0 ∧ 0 < max nb ns)
    (s g o : Summer F) (S : Sorter) (smp : Sampler) (coin : ℕ → Bool) :
    ∃ bids r, generateF F ch nb ns offSell offBuy eps = .ok bids ∧
      runAlgoF F s g o S smp (.muda false coin) (labelFrom 0 bids) = .ok r := by
  obtain ⟨bids, h1, hw⟩ := C103_returns F hF ch nb ns offSell offBuy eps he
  have hu : ∀ (k : ℕ) (b : Bid), bids[k]? = some b → b.user = (k : ℤ) := hw.user
  have hq : ∀ r ∈ labelFrom 0 bids, 0 ≤ r.quantity := by
    intro r hr
    obtain ⟨k, hk⟩ := List.mem_iff_getElem?.mp hr
    rw [labelFrom_get] at hk
    obtain ⟨b, hb, rfl⟩ := Option.map_eq_some_iff.mp hk
    obtain ⟨n, _, e⟩ := hw.quantity b (List.mem_of_getElem? hb)
    show 0 ≤ b.quantity
    rw [e]
    exact F.rnd_nonneg (mul_nonneg (Nat.cast_nonneg n) (adjustEpsF_ok F hF nb ns he).2.1.le)
  have husers := users_labelFrom (n := nb + ns) hw.length hu
  have hrange := usersInRange_labelFrom husers
  have htwin : ¬ HasTwin (labelFrom 0 bids) := not_hasTwin_labelFrom hu
  have hrun : ∃ r, mechRun (mudaF F s o S coin) (labelFrom 0 bids) = .ok r := by
    unfold mechRun
    simp only
    split
    · obtain ⟨tm, l, r, pl, pr, fees, h⟩ := (C79_returns F s o S coin _ (isTable_labelFrom bids) hq hrange).2 htwin
      exact ⟨_, h⟩
    · exact ⟨_, rfl⟩
  obtain ⟨r, hr⟩ := hrun
  exact ⟨bids, r, h1, hr⟩

/-- Non-vacuity: the example of the docstring (`eps = 0.1`, offsets 2 and 1) meets all hypotheses; the grid contains
`0.7000000000000001`, the float after `0.7`. -/
example : float64.eps ≤ 1 / 8 ∧ (0 : ℚ) < float64.rnd (1 / 10) ∧
    1 / 2 ^ 52 ≤ gridStepF float64 2 3 (float64.rnd (1 / 10)) ∧ float64.Rep 1 ∧ float64.Rep 2 ∧
    4 * float64.eps ≤ gridStepF float64 2 3 (float64.rnd (1 / 10)) ∧
    float64.eps * (2 * |2| + 5) < gridStepF float64 2 3 (float64.rnd (1 / 10)) ∧
    float64.rnd (7 * float64.rnd (1 / 10)) = float64.rnd (7 / 10) + 1 / 2 ^ 53 ∧
    (generateF float64 firstChooser 2 3 1 2 (float64.rnd (1 / 10))).toOption.map (fun l => l.map (fun b => b.price)) =
      some [2, float64.rnd (21 / 10), 1, float64.rnd (11 / 10), float64.rnd (12 / 10)] := by
  unfold Fmt.Rep
  decide +kernel

end PyMarket
