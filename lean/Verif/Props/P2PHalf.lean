import Verif.Props.Statistics
import Verif.Props.MergedRuns

/-! # C70: P2P trading reaches at least half of the maximal volume -/

set_option autoImplicit false

namespace PyMarket

open Spec

/-- A plan that is blocked everywhere by a saturated bid has at most twice the volume traded. -/
theorem plan_le_twice {df : DF} (ht : IsTable df) {ts : List Transaction}
    (hk : ∀ t ∈ ts, t.bid < df.length) (hn : ∀ t ∈ ts, 0 ≤ t.quantity)
    (hsat : ∀ b s, isBuy df b = true → isSell df s = true → priceOf df s ≤ priceOf df b →
      tradedBy ts b = qtyOf df b ∨ tradedBy ts s = qtyOf df s)
    {q : ℕ → ℕ → ℚ} (h : TradePlan df q) (hc : Compatible df q) :
    planVolume df q ≤ boughtQty df ts + soldQty df ts := by
  classical
  set B : ℕ → Bool := fun i => isBuy df i && decide (tradedBy ts i = qtyOf df i) with hB
  set f : ℕ → ℕ → ℚ := fun i j => if B i then q i j else 0 with hf
  set C : ℕ → Bool := fun j => isSell df j && decide (tradedBy ts j = qtyOf df j) with hC
  set g : ℕ → ℕ → ℚ := fun i j => if C j then q i j else 0 with hg
  have h1 : planVolume df q ≤ sum2 df.length f + sum2 df.length g := by
    unfold planVolume sum2
    rw [← sum_add_map]
    apply List.sum_le_sum
    intro i _
    rw [← sum_add_map]
    apply List.sum_le_sum
    intro j _
    by_cases h0 : q i j = 0
    · simp [hf, hg, h0]
    · obtain ⟨hb, hs⟩ := h.pair i j h0
      have hq := h.nonneg i j
      rcases hsat i j hb hs (hc i j h0) with he | he
      · have : B i = true := by simp [hB, hb, he]
        simp only [hf, hg, this, if_true]
        split <;> linarith
      · have : C j = true := by simp [hC, hs, he]
        simp only [hf, hg, this, if_true]
        split <;> linarith
  refine le_trans h1 (add_le_add ?_ ?_)
  · rw [← bought_eq ht hk]
    unfold sum2
    apply List.sum_le_sum
    intro i _
    by_cases hb : B i = true
    · obtain ⟨hb1, hb2⟩ := Bool.and_eq_true_iff.mp hb
      simp only [hf, hb, if_true]
      rw [if_pos hb1, of_decide_eq_true hb2]
      exact h.buyer i
    · have : ((List.range df.length).map (fun j => f i j)).sum = 0 := by
        apply List.sum_eq_zero
        intro y hy
        obtain ⟨j, _, rfl⟩ := List.mem_map.mp hy
        simp [hf, hb]
      rw [this]
      split
      · exact tradedBy_nonneg hn i
      · exact le_refl _
  · rw [← sold_eq ht hk, sum2_swap]
    unfold sum2
    apply List.sum_le_sum
    intro j _
    by_cases hb : C j = true
    · obtain ⟨hb1, hb2⟩ := Bool.and_eq_true_iff.mp hb
      simp only [hg, hb, if_true]
      rw [if_pos hb1, of_decide_eq_true hb2]
      exact h.seller j
    · have : ((List.range df.length).map (fun i => g i j)).sum = 0 := by
        apply List.sum_eq_zero
        intro y hy
        obtain ⟨i, _, rfl⟩ := List.mem_map.mp hy
        simp [hg, hb]
      rw [this]
      split
      · exact tradedBy_nonneg hn j
      · exact le_refl _

/-- The book is exhausted: of a buyer and a seller with compatible prices one traded everything. -/
def Spec.Exhausted (df : DF) (ts : List Transaction) : Prop :=
  ∀ b s, IsPair df b s → priceOf df s ≤ priceOf df b →
    tradedBy ts b = qtyOf df b ∨ tradedBy ts s = qtyOf df s

theorem two_sided_of_pair {df : DF} {b s : ℕ} (h : IsPair df b s) (algo : Algo) :
    mechRun algo df = algo df := by
  obtain ⟨hb, hs⟩ := h
  unfold mechRun
  simp only
  rw [if_pos]
  constructor
  · intro h0
    unfold isBuy at hb
    cases hr : df[b]? with
    | none => simp [hr] at hb
    | some r =>
      have : r ∈ buys df := List.mem_filter.mpr ⟨List.mem_of_getElem? hr, by simpa [hr] using hb⟩
      rw [List.length_eq_zero_iff.mp h0] at this
      cases this
  · intro h0
    have hall : ∀ r ∈ df, r.buying = true := by
      have := List.length_filter_eq_length_iff.mp h0
      exact this
    unfold isSell at hs
    cases hr : df[s]? with
    | none => simp [hr] at hs
    | some r =>
      have := hall r (List.mem_of_getElem? hr)
      simp [hr, this] at hs

theorem p2p_exhausted (c : ℚ) (choice : ℕ → ℕ) {df : DF} (ht : IsTable df) (hq : ∀ r ∈ df, 0 ≤ r.quantity)
    {tm : TransactionManager} {ex : Extra} (h : mechRun (p2pRandom c choice) df = .ok (tm, ex)) :
    Exhausted df tm.trans := by
  intro b s hbs hle
  rw [two_sided_of_pair hbs] at h
  obtain ⟨tm', R, h', _, hsat⟩ := C22_complete c choice df ht hq
  rw [h] at h'
  cases h'
  exact hsat b s hbs hle

/-- Exhaustion survives splitting merged bids. -/
theorem MergeSpec.exhausted {df nb : DF} {mp : List (List ℕ)} (hM : MergeSpec df nb mp)
    {ts : List Transaction} (hlt : ∀ t ∈ ts, t.bid < nb.length) (h : Exhausted nb ts) :
    Exhausted df (ts.flatMap (splitT df mp)) := by
  intro b s hbs hle
  obtain ⟨hb, hs⟩ := isPair_lt hbs
  obtain ⟨kb, idb, hkb, hidb, hmb⟩ := hM.exists_group hb
  obtain ⟨rowb, idb', b1, b2, _, _, b5, b6⟩ := hM.get hkb
  rw [hidb] at b2
  cases b2
  obtain ⟨rb, hrb, hbb, hpb⟩ := b6 b hmb
  obtain ⟨ks, ids, hks, hids, hms⟩ := hM.exists_group hs
  obtain ⟨rows, ids', s1, s2, _, _, s5, s6⟩ := hM.get hks
  rw [hids] at s2
  cases s2
  obtain ⟨rs, hrs, hbs', hps⟩ := s6 s hms
  rw [priceOf_some hrb, priceOf_some hrs] at hle
  have hpair : IsPair nb kb ks := by
    obtain ⟨p1, p2⟩ := hbs
    rw [isBuy_some hrb] at p1
    rw [isSell_some hrs] at p2
    refine ⟨?_, ?_⟩
    · rw [isBuy_some b1, ← hbb]; exact p1
    · rw [isSell_some s1, ← hbs']; exact p2
  have hle' : priceOf nb ks ≤ priceOf nb kb := by
    rw [priceOf_some s1, priceOf_some b1, ← hps, ← hpb]
    exact npRound_mono 5 hle
  rcases h kb ks hpair hle' with he | he
  · left
    rw [hM.tradedBy_lift hlt hidb b1 hmb hrb, he, qtyOf_some b1, qtyOf_some hrb,
      mul_div_cancel₀ _ b5.ne']
  · right
    rw [hM.tradedBy_lift hlt hids s1 hms hrs, he, qtyOf_some s1, qtyOf_some hrs,
      mul_div_cancel₀ _ s5.ne']

/-- **C70, exhaustion.** Every run of P2P, with or without merging, conserves quantities and leaves no
buyer and seller with compatible prices who both have quantity left. -/
theorem C70_exhausted (S : Sorter) (smp : Sampler) (merge : Bool) (c : ℚ) (choice : ℕ → ℕ) (df : DF)
    (ht : IsTable df) (hp : GroupQty df) :
    ∃ tm ex, runAlgo S smp (.p2p merge c choice) df = .ok (tm, ex) ∧ Conserves df tm.trans ∧
      Exhausted df tm.trans := by
  cases merge with
  | false =>
    obtain ⟨tm, ex, hrun, hC, _⟩ := p2p_conserves c choice ht hp.1
    exact ⟨tm, ex, hrun, hC, p2p_exhausted c choice ht hp.1 hrun⟩
  | true =>
    obtain ⟨nb, mp, hm, hM⟩ := merge_spec_qty smp ht hp
    obtain ⟨tm, ex, hrun, hC, _⟩ := p2p_conserves c choice hM.table (fun r hr => (hM.qty r hr).le)
    have hlt := fun t htt => (hC.entries t htt).1
    obtain ⟨tm', e1, e2⟩ := mechanism_merge smp (p2pRandom c choice) hm hM hrun hlt
    exact ⟨tm', ex, e1, by rw [e2]; exact hM.conserves hp.1 hC,
      by rw [e2]; exact hM.exhausted hlt (p2p_exhausted c choice hM.table (fun r hr => (hM.qty r hr).le) hrun)⟩

/-- **C70, volume.** Whatever the random choices, P2P trading reaches at least half of the optimal value
of the program of `maximum_traded_volume`, with and without merging. -/
theorem C70_half_volume (S : Sorter) (smp : Sampler) (merge : Bool) (c : ℚ) (choice : ℕ → ℕ) (df : DF)
    (ht : IsTable df) (hp : GroupQty df) (tm : TransactionManager) (ex : Extra)
    (h : runAlgo S smp (.p2p merge c choice) df = .ok (tm, ex)) (best : ℚ)
    (hb : IsOptimum (volumeLP df) best) : best / 2 ≤ boughtQty df tm.trans := by
  obtain ⟨tm', ex', h', hC, hE⟩ := C70_exhausted S smp merge c choice df ht hp
  rw [h] at h'
  obtain ⟨rfl, rfl⟩ := Prod.mk.inj (Except.ok.inj h')
  obtain ⟨⟨q, h1, h2, rfl⟩, _⟩ := ((C39_volume df ht hp.1).2 best hb).2
  have := plan_le_twice ht (fun t htt => (hC.entries t htt).1) (fun t htt => (hC.entries t htt).2)
    (fun b s hb hs => hE b s ⟨hb, hs⟩) h1 h2
  rw [← hC.balanced] at this
  linarith

/-- **C70, statistic.** `percentage_traded` of a P2P run is `None` (nothing could be traded) or at
least one half, if the solver returns the optimal value of the program it is given. -/
theorem C70_percentage (S : Sorter) (smp : Sampler) (merge : Bool) (c : ℚ) (choice : ℕ → ℕ) (df : DF)
    (ht : IsTable df) (hp : GroupQty df) (tm : TransactionManager) (ex : Extra)
    (h : runAlgo S smp (.p2p merge c choice) df = .ok (tm, ex)) (solve : Solver)
    (hs : IsOptimum (volumeLP df) (solve (volumeLP df))) (x : ℚ)
    (hx : percentageTraded solve df tm.trans = some x) : 1 / 2 ≤ x := by
  obtain ⟨tm', ex', h', hC, _⟩ := C70_exhausted S smp merge c choice df ht hp
  have hbest := C70_half_volume S smp merge c choice df ht hp tm ex h _ hs
  rw [h] at h'
  obtain ⟨rfl, rfl⟩ := Prod.mk.inj (Except.ok.inj h')
  obtain ⟨best, hB, hsh⟩ := C37_value df ht hp.1 tm.trans
    (fun t htt => (hC.entries t htt).1) hC.balanced solve hs
  have heq : best = solve (volumeLP df) := hB.unique ((C39_volume df ht hp.1).2 _ hs).2
  rw [← heq] at hbest
  rcases le_or_gt best 0 with h0 | h0
  · rw [hsh.1 h0] at hx; cases hx
  · rw [hsh.2 h0] at hx
    rw [← Option.some.inj hx, le_div_iff₀ h0]
    linarith

/-- Buyers 1 @ 5 and 1 @ 3, sellers 1 @ 1 and 1 @ 4. -/
def halfBook : DF := labelFrom 0
  [⟨1, 5, 0, true, 0, true⟩, ⟨1, 3, 1, true, 0, true⟩, ⟨1, 1, 2, false, 0, true⟩,
   ⟨1, 4, 3, false, 0, true⟩]

/-- The hypotheses hold for `halfBook`. Two units can be traded (the first buyer at 4, the second at
1); the schedule in which the first buyer meets the seller at 1 first trades one unit: the bound one
half is attained. -/
example : IsTable halfBook ∧ GroupPos halfBook ∧
    (∃ tm ex, runAlgo stableSorter headSampler (.p2p false (1 / 2) (fun _ => 0)) halfBook =
      .ok (tm, ex) ∧ boughtQty halfBook tm.trans = 1) ∧
    (∃ q, TradePlan halfBook q ∧ Compatible halfBook q ∧ planVolume halfBook q = 2) := by
  have hp : Pos halfBook := by decide +kernel
  refine ⟨by decide +kernel, hp.groupPos, ⟨_, _, rfl, by decide +kernel⟩,
    fun i j => if (i, j) = (0, 3) ∨ (i, j) = (1, 2) then 1 else 0, ?_, ?_, by decide +kernel⟩
  · refine ⟨?_, ?_, ?_, ?_⟩
    · intro i j; split <;> norm_num
    · intro i j h
      have : (i, j) = (0, 3) ∨ (i, j) = (1, 2) := by
        by_contra hc; exact h (if_neg hc)
      rcases this with h | h <;> cases h <;> decide +kernel
    · intro i
      rcases lt_or_ge i 4 with h | h
      · revert i; decide +kernel
      · have h1 : i ≠ 0 := by omega
        have h2 : i ≠ 1 := by omega
        simp [h1, h2, qtyOf_nonneg' hp.nonNeg.qty]
    · intro j
      rcases lt_or_ge j 4 with h | h
      · revert j; decide +kernel
      · have h1 : j ≠ 3 := by omega
        have h2 : j ≠ 2 := by omega
        simp [h1, h2, qtyOf_nonneg' hp.nonNeg.qty]
  · intro i j h
    have : (i, j) = (0, 3) ∨ (i, j) = (1, 2) := by
      by_contra hc; exact h (if_neg hc)
    rcases this with h | h <;> cases h <;> decide +kernel

end PyMarket
