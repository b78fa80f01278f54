import Verif.Props.MarketPrice
import Verif.Props.HuangVolume

/-! # C122: what a new buyer or seller can do to the others -/

set_option autoImplicit false

namespace PyMarket

open Spec

/-- With more demand the price of the supply curve at the crossing does not fall. -/
theorem supplyAt_crossing_of_moreDemand {S S' : Sorter} {df df' : DF} (h : Pos df) (h' : Pos df')
    (hm : MoreDemand df df') {x x' : ℚ} (hc : Crossing S df x) (hc' : Crossing S' df' x') :
    supplyAt S df x ≤ supplyAt S' df' x' := by
  have hx := crossing_pos h hc
  have hxx := crossing_le_of_more h h'.nonNeg hm.1 (fun p => (hm.2 p).le) hc hc'
  exact le_trans (supplyAt_monotone S df (WithTop.coe_le_coe.mpr hxx))
    (supplyAt_le_of_qty S' S h'.nonNeg h.nonNeg (fun p => (hm.2 p).ge) (lt_of_lt_of_le hx hxx))

/-- With more supply the price of the demand curve at the crossing does not rise. -/
theorem demandAt_crossing_of_moreSupply {S S' : Sorter} {df df' : DF} (h : Pos df) (h' : Pos df')
    (hm : MoreSupply df df') {x x' : ℚ} (hc : Crossing S df x) (hc' : Crossing S' df' x') :
    demandAt S' df' x' ≤ demandAt S df x := by
  have hx := crossing_pos h hc
  have hxx := crossing_le_of_more h h'.nonNeg (fun p => (hm.2 p).le) hm.1 hc hc'
  exact le_trans
    (demandAt_le_of_qty S' S h'.nonNeg h.nonNeg (fun p => (hm.2 p).ge) (lt_of_lt_of_le hx hxx))
    (demandAt_antitone S (fun r hr => (h r hr).2) (WithTop.coe_le_coe.mpr hxx))

/-- A run of Huang's auction that reports prices comes from a crossing. -/
theorem huang_prices_crossing {S : Sorter} {df : DF} (h : NonNeg df) {tm : TransactionManager}
    {ps pb : Ext} {q : ℚ} (hrun : huangAuction S df = .ok (tm, .huang ps pb q)) :
    ∃ x : ℚ, Crossing S df x ∧ supplyAt S df x = ps ∧ demandAt S df x = pb := by
  rcases huang_cases S h with ⟨heq, _⟩ | ⟨x, ps', pb', hc, hps, hpb, _, hcase⟩
  · rw [hrun] at heq
    cases heq
  · rcases hcase with ⟨_, _, cs, cb, _, _, _, _, _, heq⟩ | ⟨_, heq⟩ <;>
    · rw [hrun] at heq
      cases heq
      exact ⟨x, hc, hps, hpb⟩

/-- **C122, prices of Huang's auction.** With more demand the price the sellers receive does not fall; with more
supply the price the buyers pay does not rise. -/
theorem C122_huang (S S' : Sorter) (df df' : DF) (h : Pos df) (h' : Pos df')
    (tm tm' : TransactionManager) (ps pb ps' pb' : Ext) (q q' : ℚ)
    (hrun : huangAuction S df = .ok (tm, .huang ps pb q))
    (hrun' : huangAuction S' df' = .ok (tm', .huang ps' pb' q')) :
    (MoreDemand df df' → ps ≤ ps') ∧ (MoreSupply df df' → pb' ≤ pb) := by
  obtain ⟨x, hc, rfl, rfl⟩ := huang_prices_crossing h.nonNeg hrun
  obtain ⟨x', hc', rfl, rfl⟩ := huang_prices_crossing h'.nonNeg hrun'
  exact ⟨fun hm => supplyAt_crossing_of_moreDemand h h' hm hc hc',
    fun hm => demandAt_crossing_of_moreSupply h h' hm hc hc'⟩

/-- **C122, competitive price.** The competitive price moves the wrong way (C71) at most to the price of the
other bid of the marginal pair: with more demand it does not fall below the price of the marginal seller, with
more supply it does not rise above that of the marginal buyer. -/
theorem C122_competitive (S : Sorter) (df df' : DF) (h : Pos df) (h' : Pos df') (x : ℚ) (b a : Row)
    (hp : MarginalPair df x b a) (p' : ℚ) (hv : findCompetitivePrice S df' = .ok (.fin p')) :
    (MoreDemand df df' → a.price ≤ p') ∧ (MoreSupply df df' → p' ≤ b.price) := by
  have hc := (crossing_iff_pair (S := S) h x).mpr ⟨b, a, hp⟩
  obtain ⟨hD, hS⟩ := pair_prices (S := S) h hp
  rcases intersect_cases S h'.nonNeg (1 / 2) with ⟨x', hc', he⟩ | ⟨he, _⟩
  · obtain ⟨p, hpv, h1, h2⟩ := crossPrice_between (k := 1 / 2) (by norm_num) (by norm_num) hc'
    have : p = p' := by
      have e := hv
      unfold findCompetitivePrice at e
      rw [he] at e
      change Except.ok (crossPrice S df' (1 / 2) x') = Except.ok (Val.fin p') at e
      rw [hpv] at e
      cases e
      rfl
    subst this
    constructor
    · intro hm
      have := supplyAt_crossing_of_moreDemand h h' hm hc hc'
      rw [hS] at this
      exact WithTop.coe_le_coe.mp (le_trans this h1)
    · intro hm
      have := demandAt_crossing_of_moreSupply h h' hm hc hc'
      rw [hD] at this
      exact WithTop.coe_le_coe.mp (le_trans h2 this)
  · exfalso
    unfold findCompetitivePrice at hv
    rw [he] at hv
    change Except.ok (kMix (1 / 2) ⊤ ((0 : ℚ) : Ext)) = Except.ok (Val.fin p') at hv
    have : kMix (1 / 2) ⊤ ((0 : ℚ) : Ext) = .inf := by decide +kernel
    rw [this] at hv
    cases hv

/-- C122 as hoped for: with more demand or supply no less is traded. -/
def Spec.NoLessTraded (S : Sorter) (df df' : DF) : Prop :=
  ∀ tm tm' : TransactionManager, ∀ ex ex' : Extra, huangAuction S df = .ok (tm, ex) →
    huangAuction S df' = .ok (tm', ex') → boughtQty df tm.trans ≤ boughtQty df' tm'.trans

/-- **C122, volume of Huang's auction.** The part that holds: with more of neither side less, and as long as a
marginal pair remains, the loss of volume is less than the largest bid of the new book. -/
theorem C122_volume_partial (S S' : Sorter) (df df' : DF) (ht : IsTable df) (ht' : IsTable df') (h : Pos df)
    (h' : Pos df') (hD : ∀ p, demandQty df p ≤ demandQty df' p)
    (hS : ∀ p, supplyQty df p ≤ supplyQty df' p) (x' : ℚ) (b' a' : Row) (hp' : MarginalPair df' x' b' a')
    (Q : ℚ) (hQ : ∀ r ∈ df', r.quantity ≤ Q)
    (tm tm' : TransactionManager) (ex ex' : Extra) (hrun : huangAuction S df = .ok (tm, ex))
    (hrun' : huangAuction S' df' = .ok (tm', ex')) :
    boughtQty df tm.trans - Q < boughtQty df' tm'.trans := by
  have key : ∀ (T : Sorter) (d : DF) (y : ℚ), IsTable d → Pos d → Crossing T d y →
      ∀ t e, huangAuction T d = .ok (t, e) →
      ∃ mb ∈ d, ∃ ms ∈ d, y - max mb.quantity ms.quantity ≤ boughtQty d t.trans ∧ boughtQty d t.trans < y := by
    intro T d y hd hpd hcd t e hr
    rcases intersect_cases T hpd.nonNeg (1 / 2) with ⟨y', hc', he⟩ | ⟨_, hno⟩
    · obtain rfl := hc'.unique hcd
      obtain ⟨mb, hb, ms, hs, _, _, _, _, h1, _, _, h2⟩ :=
        C64_deficit T d hd hpd.nonNeg (1 / 2) _ y' he rfl t e hr
      exact ⟨mb, hb, ms, hs, h1, h2 (crossing_pos hpd hcd)⟩
    · exact absurd ⟨⟨y, WithTop.coe_le_coe.mpr hcd.nonneg, hcd.at_x⟩,
        fun z _ => hcd.no_tie hpd.nonNeg z⟩ hno
  have hc' := (crossing_iff_pair (S := S') h' x').mpr ⟨b', a', hp'⟩
  obtain ⟨mb, hb, ms, hs, h1, h2⟩ := key S' df' x' ht' h' hc' tm' ex' hrun'
  have hmax := max_le (hQ mb hb) (hQ ms hs)
  by_cases hex : ∃ x : ℚ, Crossing S df x
  · obtain ⟨x, hc⟩ := hex
    obtain ⟨_, _, _, _, _, h3⟩ := key S df x ht h hc tm ex hrun
    have := crossing_le_of_more h h'.nonNeg hD hS hc hc'
    linarith
  · rcases huang_cases S h.nonNeg with ⟨heq, _⟩ | ⟨x, _, _, hc, _⟩
    · rw [hrun] at heq
      cases heq
      have h0 : boughtQty df TransactionManager.init.trans = 0 := rfl
      have hQ0 : 0 < Q := lt_of_lt_of_le (h' mb hb).1 (hQ mb hb)
      rcases huang_cases S' h'.nonNeg with ⟨heq, _⟩ | ⟨y, ps, pb, hcy, _, _, _, hcase⟩
      · rw [hrun'] at heq
        cases heq
        rw [h0]
        show 0 - Q < (0 : ℚ)
        linarith
      · have := crossing_pos h' hc'
        rw [h0]
        linarith
    · exact absurd ⟨x, hc⟩ hex

/-! ## Refutation and examples -/

/-- Two buyers and two sellers of one unit each. -/
def calmBook : DF := labelFrom 0
  [⟨1, 10, 0, true, 0, true⟩, ⟨1, 9, 1, true, 0, true⟩, ⟨1, 1, 2, false, 0, true⟩, ⟨1, 2, 3, false, 0, true⟩]

/-- The same with a buyer of ten units at a higher price. -/
def bigBuyerBook : DF := calmBook ++ [⟨⟨10, 20, 4, true, 0, true⟩, 4⟩]

/-- The same with a buyer and a seller of one unit each at equal prices. -/
def equalEntryBook : DF := calmBook ++ [⟨⟨1, 5, 4, true, 0, true⟩, 4⟩, ⟨⟨1, 5, 5, false, 0, true⟩, 5⟩]

/-- C122 is violated by the code. One unit is traded among two buyers and two sellers; after a buyer of ten
units entered, or after a buyer and a seller with equal prices entered, nothing is. -/
theorem C122_refuted :
    (Pos calmBook ∧ Pos bigBuyerBook ∧ Pos equalEntryBook) ∧ MoreDemand calmBook bigBuyerBook ∧
    (∃ tm ex, huangAuction stableSorter calmBook = .ok (tm, ex) ∧ boughtQty calmBook tm.trans = 1) ∧
    (∃ tm ex, huangAuction stableSorter bigBuyerBook = .ok (tm, ex) ∧ tm.trans = [] ∧
      ex = .huang 2 20 0) ∧
    (∃ tm ex, huangAuction stableSorter equalEntryBook = .ok (tm, ex) ∧ tm.trans = [] ∧ ex = .empty) ∧
    ¬ NoLessTraded stableSorter calmBook bigBuyerBook ∧ ¬ NoLessTraded stableSorter calmBook equalEntryBook := by
  have e1 : ∃ tm ex, huangAuction stableSorter calmBook = .ok (tm, ex) ∧ boughtQty calmBook tm.trans = 1 :=
    ⟨TransactionManager.init.addAll [⟨2, 1, 2, -1, false⟩, ⟨0, 1, 9, -1, false⟩], .huang 2 9 1,
      by decide +kernel, by decide +kernel⟩
  have e2 : huangAuction stableSorter bigBuyerBook = .ok (TransactionManager.init, .huang 2 20 0) := by
    decide +kernel
  have e3 : huangAuction stableSorter equalEntryBook = .ok (TransactionManager.init, .empty) := by decide +kernel
  have hno : ∀ df' ex', huangAuction stableSorter df' = .ok (TransactionManager.init, ex') →
      ¬ NoLessTraded stableSorter calmBook df' := by
    intro df' ex' e h
    obtain ⟨tm, ex, hr, hb⟩ := e1
    have := h tm _ ex ex' hr e
    rw [hb] at this
    have h0 : boughtQty df' TransactionManager.init.trans = 0 := rfl
    rw [h0] at this
    norm_num at this
  refine ⟨⟨by decide +kernel, by decide +kernel, by decide +kernel⟩, (C71_entry calmBook _ (by decide +kernel)).1 rfl, e1,
    ⟨_, _, e2, rfl, rfl⟩, ⟨_, _, e3, rfl, rfl⟩, hno _ _ e2, hno _ _ e3⟩

/-- The hypotheses of C122 can be met: the sellers of `calmBook` receive 2; with one more buyer of half a unit at
12 they receive 2 again, and the volume is at least 1 - 1. -/
example : ∃ df' : DF, MoreDemand calmBook df' ∧ Pos df' ∧ IsTable df' ∧ (∃ b a, MarginalPair df' 2 b a) ∧
    (∃ tm q, huangAuction stableSorter calmBook = .ok (tm, .huang 2 9 q)) ∧
    ∃ tm q, huangAuction stableSorter df' = .ok (tm, .huang 2 9 q) := by
  refine ⟨calmBook ++ [⟨⟨1/2, 12, 4, true, 0, true⟩, 4⟩], (C71_entry calmBook _ (by decide +kernel)).1 rfl,
    by decide +kernel, by decide +kernel, ?_, ?_, ?_⟩
  · have hp : Pos (calmBook ++ [⟨⟨1/2, 12, 4, true, 0, true⟩, 4⟩]) := by decide +kernel
    rw [← C119_intersection stableSorter _ hp (1 / 2) ⟨some ((2 : ℚ) : Ext), some 2, some 1, .fin 9⟩ (by decide +kernel)]
  · exact ⟨TransactionManager.init.addAll [⟨2, 1, 2, -1, false⟩, ⟨0, 1, 9, -1, false⟩], 1, by decide +kernel⟩
  · exact ⟨TransactionManager.init.addAll [⟨2, 1, 2, -1, false⟩, ⟨4, 1/4, 9, -1, false⟩, ⟨0, 3/4, 9, -1, false⟩], 1,
      by decide +kernel⟩

end PyMarket
