import Verif.Lemmas.HuangClear
import Verif.Props.Huang

/-! # C64: how much Huang's auction gives up -/

set_option autoImplicit false

namespace PyMarket

open Spec

/-- **C64.** When the curves cross at `x`, there are a buying and a selling bid that quote the two
prices of the auction, the quantity bought is less than `x` (equal only when `x = 0`), and at most the larger of the quantities of
these two bids is given up. -/
theorem C64_deficit (S : Sorter) (df : DF) (ht : IsTable df) (h : NonNeg df) (k : ℚ)
    (i : Intersection) (x : ℚ)
    (hi : intersectStepwise (demandCurve S df).1 (supplyCurve S df).1 k = .ok i)
    (hx : i.x = some (x : Ext)) (tm : TransactionManager) (ex : Extra)
    (hrun : huangAuction S df = .ok (tm, ex)) :
    ∃ mb ∈ df, ∃ ms ∈ df, ∃ q, mb.buying = true ∧ ms.buying = false ∧
      ex = .huang (ms.price : Ext) (mb.price : Ext) q ∧
      x - max mb.quantity ms.quantity ≤ boughtQty df tm.trans ∧
      boughtQty df tm.trans = soldQty df tm.trans ∧ boughtQty df tm.trans ≤ x ∧
      (0 < x → boughtQty df tm.trans < x) := by
  obtain ⟨x', he, hc, rfl⟩ := intersect_some h hi hx
  obtain rfl := WithTop.coe_injective he
  rcases huang_cases S h with ⟨_, hno⟩ | ⟨y, ps, pb, hc', hps, hpb, hlt, hcase⟩
  · exfalso
    apply hno
    exact ⟨⟨x, WithTop.coe_le_coe.mpr hc.nonneg, hc.at_x⟩, fun z _ => hc.no_tie h z⟩
  obtain rfl : y = x := hc'.unique hc
  obtain ⟨mb, b1, b2, b3, b4⟩ := hc.marginal_buy_cover h hpb
  obtain ⟨ms, s1, s2, s3, s4⟩ := hc.marginal_sell_cover hps
  have sB := huangB_spec h hc hpb
  have sA := huangA_spec hc hps
  have hB := qsum_huangB_le h hc
  have hA := qsum_huangA_le h hc
  have m1 := le_max_left mb.quantity ms.quantity
  have m2 := le_max_right mb.quantity ms.quantity
  rcases hcase with ⟨_, hAne, cs, cb, _, _, _, hsA, hsB, heq⟩ | ⟨hor, heq⟩
  · rw [hrun] at heq
    cases heq
    refine ⟨mb, b1, ms, s1, _, b2, s2, by rw [b3, s3], ?_⟩
    have bB := cutTrans_buys ht (fun r hr => ⟨(sB.1 r hr).1, (sB.1 r hr).2.1⟩) cb pb
    have bA := cutTrans_sells ht (fun r hr => ⟨(sA.1 r hr).1, (sA.1 r hr).2.1⟩) cs ps
    rw [TransactionManager.init_addAll_trans, boughtQty_append, soldQty_append, bB.1, bB.2.1,
      bA.1, bA.2.1, hsA, hsB, zero_add, add_zero]
    refine ⟨le_min (by linarith) (by linarith), rfl, (min_le_left _ _).trans hA, fun _ => ?_⟩
    exact lt_of_le_of_lt (min_le_left _ _) (qsum_huangA_lt h hAne)
  · rw [hrun] at heq
    cases heq
    refine ⟨mb, b1, ms, s1, _, b2, s2, by rw [b3, s3], ?_, rfl, hc.nonneg, fun hx => hx⟩
    show _ ≤ (0 : ℚ)
    rcases hor with h' | h'
    · rw [h'] at b4
      have : qsum ([] : DF) = 0 := rfl
      linarith
    · rw [h'] at s4
      have : qsum ([] : DF) = 0 := rfl
      linarith

/-- Bids 1 and 3 set the prices. -/
def deficitBook : DF := labelFrom 0
  [⟨5, 10, 0, true, 0, true⟩, ⟨2, 8, 1, true, 0, true⟩, ⟨5, 1, 2, false, 0, true⟩,
   ⟨2, 3, 3, false, 0, true⟩]

/-- A case that meets the hypotheses, in which the bound is attained: the curves cross at 7, the price
setters have 2 units each, and 5 units are traded. -/
example : IsTable deficitBook ∧ NonNeg deficitBook ∧
    (intersectStepwise (demandCurve stableSorter deficitBook).1
      (supplyCurve stableSorter deficitBook).1).toOption.map (fun i => i.x) =
        some (some ((7 : ℚ) : Ext)) ∧
    huangAuction stableSorter deficitBook =
      .ok (⟨2, [⟨2, 5, 3, -1, false⟩, ⟨0, 5, 8, -1, false⟩]⟩,
        .huang ((3 : ℚ) : Ext) ((8 : ℚ) : Ext) 5) ∧
    boughtQty deficitBook [⟨2, 5, 3, -1, false⟩, ⟨0, 5, 8, -1, false⟩] = 7 - max 2 2 := by
  decide +kernel

end PyMarket
