import Verif.Props.ClosedForm
import Verif.Props.Muda
import Verif.Props.HuangReport
import Verif.Props.HuangVolume
import Verif.Props.P2PHalf
import Verif.Props.Comparative
import Verif.Props.MergedRuns

/-! # C98: how the volumes of the mechanisms compare -/

set_option autoImplicit false

namespace PyMarket

open Spec

theorem sum_filter_halves (df : DF) (ht : IsTable df) (left right : List ℕ)
    (hp : (left ++ right).Perm (List.range df.length)) (f : Row → Bool) :
    ((df.filter f).map (fun r => r.quantity)).sum =
      (((half df left).filter f).map (fun r => r.quantity)).sum +
        (((half df right).filter f).map (fun r => r.quantity)).sum := by
  have hdis : ∀ i, i ∈ left → i ∉ right := by
    have := (hp.nodup_iff.mpr List.nodup_range)
    exact fun i h1 h2 => (List.nodup_append.mp this).2.2 i h1 i h2 rfl
  have hmem : ∀ r ∈ df, (r.label ∈ right ↔ r.label ∉ left) := by
    intro r hr
    have h1 : r.label ∈ left ++ right := hp.mem_iff.mpr (List.mem_range.mpr (ht.label_lt hr))
    rcases List.mem_append.mp h1 with h | h
    · exact ⟨fun h' => absurd h' (hdis _ h), fun h' => absurd h h'⟩
    · exact ⟨fun _ h' => hdis _ h' h, fun _ => h⟩
  have e : half df right = df.filter (fun r => decide (r.label ∉ left)) := by
    unfold half
    apply List.filter_congr
    intro r hr
    rw [decide_eq_decide]
    exact hmem r hr
  rw [e]
  unfold half
  clear e hmem hdis hp ht
  induction df with
  | nil => simp
  | cons r df ih =>
    by_cases hl : r.label ∈ left <;> cases hf : f r <;> simp [hl, hf, ih] <;> ring

theorem demandQty_halves {df : DF} (ht : IsTable df) {left right : List ℕ}
    (hp : (left ++ right).Perm (List.range df.length)) (p : ℚ) :
    demandQty df p = demandQty (half df left) p + demandQty (half df right) p :=
  sum_filter_halves df ht left right hp _

theorem supplyQty_halves {df : DF} (ht : IsTable df) {left right : List ℕ}
    (hp : (left ++ right).Perm (List.range df.length)) (p : ℚ) :
    supplyQty df p = supplyQty (half df left) p + supplyQty (half df right) p :=
  sum_filter_halves df ht left right hp _

/-- A finite competitive price comes from a crossing; at that price both sides are willing to trade as much
as can be traded at any other price. -/
theorem competitive_greatest {S : Sorter} {H : DF} (h : NonNeg H) {p : ℚ}
    (hp : findCompetitivePrice S H = .ok (.fin p)) :
    ∀ p', volumeAt H p' ≤ demandQty H p ∧ volumeAt H p' ≤ supplyQty H p := by
  rcases intersect_cases S h (1 / 2) with ⟨x, hc, he⟩ | ⟨he, _⟩
  · have hv : crossPrice S H (1 / 2) x = .fin p := by
      unfold findCompetitivePrice at hp
      simp only [he, bind, Except.bind, Except.ok.injEq] at hp
      exact hp
    obtain ⟨p0, h1, h2, h3⟩ := crossPrice_between (by norm_num) (by norm_num) hc (k := 1 / 2)
    obtain rfl : p0 = p := by rw [h1] at hv; cases hv; rfl
    have hmax := (C08_max_volume S H h (1 / 2) _ x he rfl).2
    intro p'
    have : volumeAt H p' ≤ x := hmax ⟨p', rfl⟩
    exact ⟨this.trans (crossing_le_demandQty h hc h3), this.trans (crossing_le_supplyQty h hc h2)⟩
  · exfalso
    unfold findCompetitivePrice at hp
    simp only [he, bind, Except.bind, Except.ok.injEq] at hp
    have e : kMix (1 / 2) ⊤ ((0 : ℚ) : Ext) = .inf := by decide +kernel
    rw [e] at hp
    cases hp

/-- **C98, MUDA.** What MUDA trades in the two halves together could be traded in the whole market at one of
its two prices. -/
theorem C98_muda (S : Sorter) (coin : ℕ → Bool) (df : DF) (ht : IsTable df) (h : NonNeg df)
    (tm : TransactionManager) (left right : List ℕ) (pl pr : Val) (fees : List ℚ)
    (hrun : muda S coin df = .ok (tm, .muda left right pl pr fees)) :
    boughtQty df tm.trans = 0 ∨
      ∃ p, (pl = .fin p ∨ pr = .fin p) ∧ boughtQty df tm.trans ≤ volumeAt df p := by
  have hq : ∀ r ∈ df, 0 ≤ r.quantity := fun r hr => (h r hr).1
  obtain ⟨hperm, _, _, hpl, hpr, hside⟩ := C24_halves S coin df ht hq tm left right pl pr fees hrun
  have hr := muda_run' ht hrun
  obtain ⟨hsplit, hl, hrr⟩ := hr.halves ht hq
  have hL := C26_efficient S coin df ht hq tm left right pl pr fees hrun left pr (Or.inl ⟨rfl, rfl⟩)
  have hR := C26_efficient S coin df ht hq tm left right pl pr fees hrun right pl (Or.inr ⟨rfl, rfl⟩)
  have hsum : boughtQty df tm.trans =
      boughtQty df (tradesIn left tm.trans) + boughtQty df (tradesIn right tm.trans) := by
    conv_lhs => rw [hsplit]
    rw [boughtQty_append]
  have hvol : ∀ ids p, 0 ≤ demandQty (half df ids) p ∧ 0 ≤ supplyQty (half df ids) p := fun ids p =>
    ⟨demandQty_nonneg (half_nonNeg h ids) p, supplyQty_nonneg (half_nonNeg h ids) p⟩
  have hle : ∀ ids p, volumeAt (half df ids) p ≤ demandQty (half df ids) p ∧
      volumeAt (half df ids) p ≤ supplyQty (half df ids) p := fun ids p => ⟨min_le_left _ _, min_le_right _ _⟩
  have hz : boughtQty df [] = 0 := rfl
  rcases (em (∃ p, pr = .fin p)) with ⟨p, rfl⟩ | hnr
  · right
    refine ⟨p, Or.inr rfl, ?_⟩
    rw [hsum, (hL.2 p rfl).1]
    have hR' : boughtQty df (tradesIn right tm.trans) ≤ demandQty (half df right) p ∧
        boughtQty df (tradesIn right tm.trans) ≤ supplyQty (half df right) p := by
      rcases (em (∃ p, pl = .fin p)) with ⟨p', rfl⟩ | hnl
      · rw [(hR.2 p' rfl).1]
        exact competitive_greatest (half_nonNeg h right) hpr p'
      · rw [hR.1 (fun p' h' => hnl ⟨p', h'⟩), hz]
        exact hvol right p
    refine le_min ?_ ?_
    · exact (add_le_add (hle left p).1 hR'.1).trans (demandQty_halves ht hperm p).ge
    · exact (add_le_add (hle left p).2 hR'.2).trans (supplyQty_halves ht hperm p).ge
  · rw [hsum, hL.1 (fun p' h' => hnr ⟨p', h'⟩), hz, zero_add]
    rcases (em (∃ p, pl = .fin p)) with ⟨p, rfl⟩ | hnl
    · right
      refine ⟨p, Or.inl rfl, ?_⟩
      rw [(hR.2 p rfl).1]
      refine le_min ?_ ?_
      · exact ((hle right p).1.trans (le_add_of_nonneg_left (hvol left p).1)).trans
          (demandQty_halves ht hperm p).ge
      · exact ((hle right p).2.trans (le_add_of_nonneg_left (hvol left p).2)).trans
          (supplyQty_halves ht hperm p).ge
    · left
      rw [hR.1 (fun p' h' => hnl ⟨p', h'⟩), hz]

/-- Buyers at 10, 9, 8, 4 and sellers at 1, 2, 3, 7, one unit each: three units are the competitive
quantity. -/
def volumeBook : DF := labelFrom 0
  [⟨1, 10, 0, true, 0, true⟩, ⟨1, 9, 1, true, 0, true⟩, ⟨1, 8, 2, true, 0, true⟩, ⟨1, 4, 3, true, 0, true⟩,
   ⟨1, 1, 4, false, 0, true⟩, ⟨1, 2, 5, false, 0, true⟩, ⟨1, 7, 6, false, 0, true⟩, ⟨1, 3, 7, false, 0, true⟩]

theorem volumeBook_run : muda stableSorter (fun k => k % 2 == 0) volumeBook = .ok
    (⟨4, [⟨4, 1, 7 / 2, -1, false⟩, ⟨0, 1, 7 / 2, -1, false⟩, ⟨1, 1, 15 / 2, -1, false⟩,
      ⟨5, 1, 15 / 2, -1, false⟩]⟩,
    .muda [0, 2, 4, 6] [1, 3, 5, 7] (.fin (15 / 2)) (.fin (7 / 2)) [9 / 2, 0, 0, 0, 0, 9 / 2, 0, 0]) := by
  decide +kernel

theorem volumeBook_curves : intersectStepwise (demandCurve stableSorter volumeBook).1
    (supplyCurve stableSorter volumeBook).1 = .ok ⟨some ((3 : ℚ) : Ext), some 2, some 2, .fin (11 / 2)⟩ := by
  decide +kernel

/-- The hypotheses are met and two units are traded, at two prices. -/
example : IsTable volumeBook ∧ NonNeg volumeBook ∧ boughtQty volumeBook
    [⟨4, 1, 7 / 2, -1, false⟩, ⟨0, 1, 7 / 2, -1, false⟩, ⟨1, 1, 15 / 2, -1, false⟩,
      ⟨5, 1, 15 / 2, -1, false⟩] = 2 ∧ volumeAt volumeBook (7 / 2) = 3 := by
  decide +kernel

/-- **C98, competitive quantity.** When the curves cross at `x`, MUDA trades at most `x`. -/
theorem C98_muda_quantity (S S' : Sorter) (coin : ℕ → Bool) (df : DF) (ht : IsTable df) (h : NonNeg df)
    (k : ℚ) (i : Intersection) (x : ℚ)
    (hi : intersectStepwise (demandCurve S' df).1 (supplyCurve S' df).1 k = .ok i)
    (hx : i.x = some (x : Ext)) (tm : TransactionManager) (ex : Extra)
    (hrun : muda S coin df = .ok (tm, ex)) : boughtQty df tm.trans ≤ x := by
  have hmax := C08_max_volume S' df h k i x hi hx
  obtain ⟨left, right, pl, pr, fees, rfl⟩ : ∃ left right pl pr fees, ex = .muda left right pl pr fees := by
    obtain ⟨left, right, pl, pr, fees, he, _⟩ := muda_run ht hrun
    exact ⟨left, right, pl, pr, fees, he⟩
  rcases C98_muda S coin df ht h tm left right pl pr fees hrun with h0 | ⟨p, _, hp⟩
  · rw [h0]
    obtain ⟨p, hp⟩ := hmax.1
    rw [hp]
    exact le_min (demandQty_nonneg h p) (supplyQty_nonneg h p)
  · exact hp.trans (hmax.2 ⟨p, rfl⟩)

/-- **C98, all mechanisms.** When the curves cross at `x`, Huang's auction trades less than `x` (unless `x`
is 0), MUDA at most `x`, and peer to peer trading between `x / 2` and `2 * x`. What is missing from the claim is
`x` in place of `2 * x` for peer to peer trading, which is false (`C98_p2p_refuted`). -/
theorem C98_volumes_partial (S : Sorter) (smp : Sampler) (df : DF) (ht : IsTable df) (h : Pos df) (k : ℚ)
    (i : Intersection) (x : ℚ)
    (hi : intersectStepwise (demandCurve S df).1 (supplyCurve S df).1 k = .ok i)
    (hx : i.x = some (x : Ext)) (tm : TransactionManager) (ex : Extra) :
    (huangAuction S df = .ok (tm, ex) → boughtQty df tm.trans < x) ∧
    (∀ coin, runAlgo S smp (.muda false coin) df = .ok (tm, ex) → boughtQty df tm.trans ≤ x) ∧
    (∀ c choice, runAlgo S smp (.p2p false c choice) df = .ok (tm, ex) →
      x / 2 ≤ boughtQty df tm.trans ∧ boughtQty df tm.trans ≤ 2 * x) := by
  have hq : ∀ r ∈ df, 0 ≤ r.quantity := fun r hr => (h r hr).1.le
  have hN := h.nonNeg
  obtain ⟨q, he, hc, -⟩ := intersect_some hN hi hx
  obtain rfl := WithTop.coe_injective he
  have h0 : 0 < x := crossing_pos h hc
  obtain ⟨solve, hs, _⟩ := exists_solver df ht hq
  have hhalf := C84_equilibrium_half S df ht hN k i x hi hx _ hs
  refine ⟨fun hrun => ?_, fun coin hrun => ?_, fun c choice hrun => ⟨?_, ?_⟩⟩
  · obtain ⟨_, _, _, _, _, _, _, _, _, _, _, h'⟩ := C64_deficit S df ht hN k i x hi hx tm ex hrun
    exact h' h0
  · have e : runAlgo S smp (.muda false coin) df = mechRun (muda S coin) df := rfl
    rw [e] at hrun
    rcases mechRun_two_sided (muda S coin) df with h' | h'
    · rw [h'] at hrun
      exact C98_muda_quantity S S coin df ht hN k i x hi hx tm ex hrun
    · rw [h'] at hrun
      cases hrun
      exact h0.le
  · have := C70_half_volume S smp false c choice df ht h.groupPos.groupQty tm ex hrun _ hs
    linarith [hhalf.1]
  · have hset := (run_settled ht h.groupPos.groupQty (h.nonNeg.signs _) (call := .p2p false c choice) rfl hrun).1
    obtain ⟨q, h1, h2, h3, _⟩ := hset.plan ht hq
    have := ((C39_volume df ht hq).2 _ hs).2.2 ⟨q, h1, h2, rfl⟩
    rw [h3] at this
    linarith [hhalf.2]

/-- `volumeBook` meets the hypotheses with `x = 3`, see `volumeBook_curves`. -/
example : IsTable volumeBook ∧ Pos volumeBook := by decide +kernel

/-- The book with its prices rounded by `rd`. -/
def Spec.roundedBook (rd : ℚ → ℚ) (df : DF) : DF := df.map (fun r => { r with price := rd r.price })

/-- **C98, MUDA with merging.** With `merge=True` the same holds for the book with prices rounded to five
decimals, whenever MUDA returns. -/
theorem C98_muda_merged (S : Sorter) (smp : Sampler) (coin : ℕ → Bool) (df : DF) (ht : IsTable df)
    (hp : GroupPos df) (rd : ℚ → ℚ) (hrd : ∀ p, IsRounded 5 p (rd p)) (tm : TransactionManager) (ex : Extra)
    (h : runAlgo S smp (.muda true coin) df = .ok (tm, ex)) :
    boughtQty df tm.trans = 0 ∨ ∃ p, boughtQty df tm.trans ≤ volumeAt (roundedBook rd df) p := by
  obtain rfl : rd = npRound 5 := funext (fun p => isRounded_unique (hrd p) (npRound_isRounded 5 p))
  obtain ⟨nb, mp, hm, hM⟩ := merge_spec smp ht hp
  obtain ⟨tm0, hrun⟩ := mechanism_merge_inv smp (muda S coin) hm h
  obtain ⟨hC, _⟩ := muda_mechRun hM.table (fun r hr => (hM.qty r hr).le) hrun
  obtain ⟨tm', e1, e2⟩ := mechanism_merge smp (muda S coin) hm hM hrun
    (fun t htt => (hC.entries t htt).1)
  have : runAlgo S smp (.muda true coin) df = mechanism smp true (muda S coin) df := rfl
  rw [this, e1] at h
  cases h
  rw [e2, hM.boughtQty_lift (fun t htt => (hC.entries t htt).1)]
  have key : ∀ f : Bool → ℚ → Bool, ((nb.filter (fun r => f r.buying r.price)).map (fun r => r.quantity)).sum =
      (((roundedBook (npRound 5) df).filter (fun r => f r.buying r.price)).map (fun r => r.quantity)).sum := by
    intro f
    rw [hM.sum_lift f]
    unfold roundedBook
    rw [List.filter_map, List.map_map]
    rfl
  have hvol : ∀ p, volumeAt nb p = volumeAt (roundedBook (npRound 5) df) p := fun p => by
    unfold volumeAt willingBuyers willingSellers
    rw [key (fun b y => b && decide (p ≤ y)), key (fun b y => !b && decide (y ≤ p))]
  rcases mechRun_two_sided (muda S coin) nb with h' | h'
  · rw [h'] at hrun
    obtain ⟨left, right, pl, pr, fees, rfl⟩ : ∃ left right pl pr fees, ex = .muda left right pl pr fees := by
      obtain ⟨left, right, pl, pr, fees, he, _⟩ := muda_run hM.table hrun
      exact ⟨left, right, pl, pr, fees, he⟩
    rcases C98_muda S coin nb hM.table (hM.pos hp.1).nonNeg tm0 left right pl pr fees hrun with h0 | ⟨p, _, hp⟩
    · exact Or.inl h0
    · exact Or.inr ⟨p, by rw [← hvol]; exact hp⟩
  · rw [h'] at hrun
    cases hrun
    exact Or.inl rfl

/-- With merging, too, two units are traded in `volumeBook`. -/
example : GroupPos volumeBook ∧ boughtQty volumeBook
    (match runAlgo stableSorter headSampler (.muda true (fun k => k % 2 == 0)) volumeBook with
      | .ok r => r.1.trans
      | .error _ => []) = 2 :=
  ⟨Spec.Pos.groupPos (by decide +kernel), by decide +kernel⟩

/-- C98 as claimed for peer to peer trading: no more than the competitive quantity. -/
def Spec.P2PAtMostCompetitive : Prop :=
  ∀ (S : Sorter) (smp : Sampler) (df : DF) (c : ℚ) (choice : ℕ → ℕ), IsTable df → Pos df →
    ∀ (i : Intersection) (x : ℚ),
      intersectStepwise (demandCurve S df).1 (supplyCurve S df).1 = .ok i → i.x = some (x : Ext) →
      ∀ tm ex, runAlgo S smp (.p2p false c choice) df = .ok (tm, ex) → boughtQty df tm.trans ≤ x

/-- Buyers at 10 and 4, sellers at 9 and 1. -/
def excessBook : DF := labelFrom 0
  [⟨1, 10, 0, true, 0, true⟩, ⟨1, 4, 1, true, 0, true⟩, ⟨1, 9, 2, false, 0, true⟩, ⟨1, 1, 3, false, 0, true⟩]

/-- **C98, refuted.** The buyer at 10 meets the seller at 9 and the buyer at 4 the seller at 1: two units,
although the competitive quantity is one. The bound `2 * x` is attained. -/
theorem C98_p2p_refuted : ¬ P2PAtMostCompetitive := by
  intro h
  have hrun : runAlgo stableSorter headSampler (.p2p false (1 / 2) (fun _ => 0)) excessBook = .ok
      (⟨4, [⟨0, 1, 19 / 2, 2, false⟩, ⟨2, 1, 19 / 2, 0, false⟩, ⟨1, 1, 5 / 2, 3, false⟩,
        ⟨3, 1, 5 / 2, 1, false⟩]⟩, .p2p [[(0, 2), (1, 3)]]) := by
    decide +kernel
  have h1 := h stableSorter headSampler excessBook (1 / 2) (fun _ => 0) (by decide +kernel) (by decide +kernel)
    ⟨some ((1 : ℚ) : Ext), some 0, some 0, .fin (11 / 2)⟩ 1 (by decide +kernel) rfl _ _ hrun
  revert h1
  decide +kernel

end PyMarket
