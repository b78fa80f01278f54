import Verif.Lemmas.ScaleMuda
import Verif.Lemmas.Split
import Verif.Props.Attributes
import Verif.Lemmas.Sort

/-! # C60: the units of price and quantity do not matter -/

set_option autoImplicit false

namespace PyMarket

open Spec

/-- The mechanism merges bids of equal price: Huang's auction always, the others on request. -/
def Spec.Merges : AlgoCall → Prop
  | .huang => True
  | .muda merge _ => merge = true
  | .p2p merge _ _ => merge = true
  | .other _ => False

/-- C60 for one book, one call and one change of units: running on the book in the new units gives
the old result in the new units — the same bids trade, quantities are multiplied by `a`, prices by
`c`, fees by `a * c`, and the same exceptions are raised. -/
def Spec.UnitFree (S : Sorter) (smp : Sampler) (call : AlgoCall) (a c : ℚ) (df : DF) : Prop :=
  runAlgo S smp call (df.map (scaleRow a c)) = scaleResult a c (runAlgo S smp call df)

/-- The rounded prices of a book change with the unit like the prices themselves. -/
def Spec.RoundedAlike (c : ℚ) (df : DF) : Prop :=
  ∀ r ∈ df, ∀ y, IsRounded 5 r.price y → IsRounded 5 (c * r.price) (c * y)

theorem unitFree_of {S : Sorter} {smp : Sampler} {call : AlgoCall} {a c : ℚ} {df : DF} (ha : 0 < a)
    (hc : 0 < c) (hS : Unaffected S c) (hm : Merges call → RoundsAlong c 5 df) :
    UnitFree S smp call a c df := by
  unfold UnitFree
  cases call with
  | huang =>
    exact mechanism_scale smp true ha hc (huangAuction_scale ha hc hS) df (fun _ => hm trivial)
  | muda merge coin => exact mechanism_scale smp merge ha hc (muda_scale ha hc hS coin) df hm
  | p2p merge k choice =>
    exact mechanism_scale smp merge ha hc (p2pRandom_scale ha hc k choice) df hm
  | other n => rfl

/-- **C60, the unit of quantity.** For every mechanism, with and without merging, every book, sorter,
sampler and random choice. -/
theorem C60_quantity_unit (S : Sorter) (smp : Sampler) (call : AlgoCall) (a : ℚ) (ha : 0 < a)
    (df : DF) : UnitFree S smp call a 1 df :=
  unitFree_of ha one_pos (unaffected_one S) (fun _ => roundsAlong_one 5 df)

/-- **C60, both units, partial.** For sorting algorithms that only compare. Without merging there is no
further condition. With merging, rounding to five decimals must commute with the change of the price
unit for every price of the book. Missing: merged runs on other books, where the claim is false
(`C60_refuted`). -/
theorem C60_units_partial (S : Sorter) (hS : ComparisonSort S) (smp : Sampler) (call : AlgoCall)
    (a c : ℚ) (ha : 0 < a) (hc : 0 < c) (df : DF) (h : Merges call → RoundedAlike c df) :
    UnitFree S smp call a c df := by
  apply unitFree_of ha hc (hS.unaffected hc)
  intro hm r hr
  have h1 := h hm r hr _ (npRound_isRounded 5 r.price)
  exact (isRounded_unique h1 (npRound_isRounded 5 (c * r.price))).symm

/-- **C60**, for Huang's auction below the merging. -/
theorem C60_huang_direct (S : Sorter) (hS : ComparisonSort S) (a c : ℚ) (ha : 0 < a) (hc : 0 < c)
    (df : DF) : huangAuction S (df.map (scaleRow a c)) = scaleResult a c (huangAuction S df) :=
  huangAuction_scale ha hc (hS.unaffected hc) df

/-- Stable insertion sort only compares. -/
theorem comparisonSort_stable : ComparisonSort stableSorter := by
  intro l l' hlen h
  have key : ∀ i ∈ List.range l.length, ∀ j ∈ List.range l.length,
      (l.getD i 0 ≤ l.getD j 0 ↔ l'.getD i 0 ≤ l'.getD j 0) := by
    intro i hi j hj
    rw [List.mem_range] at hi hj
    have hi' := hlen ▸ hi
    have hj' := hlen ▸ hj
    have := h i j _ _ _ _ (List.getElem?_eq_getElem hi) (List.getElem?_eq_getElem hj)
      (List.getElem?_eq_getElem hi') (List.getElem?_eq_getElem hj')
    simpa only [List.getD_eq_getElem?_getD, List.getElem?_eq_getElem hi,
      List.getElem?_eq_getElem hj, List.getElem?_eq_getElem hi', List.getElem?_eq_getElem hj',
      Option.getD_some] using this
  constructor
  · have := List.map_insertionSort (fun i j : ℕ => l.getD i 0 ≤ l.getD j 0)
      (fun i j : ℕ => l'.getD i 0 ≤ l'.getD j 0) id (List.range l.length) key
    rw [List.map_id, List.map_id] at this
    show (List.range l.length).insertionSort _ = (List.range l'.length).insertionSort _
    rw [this, hlen]
  · have := List.map_insertionSort (fun i j : ℕ => l.getD j 0 ≤ l.getD i 0)
      (fun i j : ℕ => l'.getD j 0 ≤ l'.getD i 0) id (List.range l.length)
      (fun i hi j hj => key j hj i hi)
    rw [List.map_id, List.map_id] at this
    show (List.range l.length).insertionSort _ = (List.range l'.length).insertionSort _
    rw [this, hlen]

/-- Two buyers and two sellers whose prices are a few millionths. -/
def tinyBook : DF := labelFrom 0
  [⟨1, 5 / 1000000, 0, true, 0, true⟩, ⟨1, 3 / 1000000, 1, true, 0, true⟩,
   ⟨1, 1 / 1000000, 2, false, 0, true⟩, ⟨1, 2 / 1000000, 3, false, 0, true⟩]

/-- **C60 fails with merging.** The prices of `tinyBook` all round to 0, so Huang's auction does
nothing; in units of a millionth the first bids of each side trade. -/
theorem C60_refuted : ¬ ∀ (S : Sorter) (smp : Sampler) (call : AlgoCall) (a c : ℚ) (df : DF),
    ComparisonSort S → 0 < a → 0 < c → IsTable df → Pos df → UnitFree S smp call a c df := by
  intro hall
  have h := hall stableSorter headSampler .huang 1 1000000 tinyBook comparisonSort_stable
    (by norm_num) (by norm_num) (by decide +kernel) (by decide +kernel)
  revert h
  unfold UnitFree
  decide +kernel

/-- A number with at most five decimals. -/
def Spec.FiveDecimals (x : ℚ) : Prop := ∃ z : ℤ, x = (z : ℚ) / 10 ^ 5

theorem isRounded_self {x : ℚ} (h : FiveDecimals x) : IsRounded 5 x x := by
  obtain ⟨z, hz⟩ := h
  refine ⟨z, hz, ?_, ?_⟩
  · rw [sub_self, abs_zero]
    norm_num
  · intro h
    rw [sub_self, abs_zero] at h
    norm_num at h

/-- The condition of `C60_units_partial` for merged runs holds when the prices have at most five
decimals in both units. -/
theorem roundedAlike_of_decimals {c : ℚ} {df : DF}
    (h : ∀ r ∈ df, FiveDecimals r.price ∧ FiveDecimals (c * r.price)) : RoundedAlike c df := by
  intro r hr y hy
  obtain ⟨h1, h2⟩ := h r hr
  rw [isRounded_unique hy (isRounded_self h1)]
  exact isRounded_self h2

/-- The conditions hold with merging for the prices 10, 10, 6, 2 and 5 of `defaultBook` doubled, and
the run has three transactions. -/
example : ComparisonSort stableSorter ∧ RoundedAlike 2 defaultBook ∧
    (runAlgo stableSorter headSampler .huang defaultBook).toOption.map
      (fun r => r.1.trans.length) = some 3 := by
  refine ⟨comparisonSort_stable, roundedAlike_of_decimals ?_, by decide +kernel⟩
  have h : ∀ r ∈ defaultBook, ∃ n ∈ [(2 : ℤ), 5, 6, 10], r.price = n := by decide +kernel
  intro r hr
  obtain ⟨n, -, hn⟩ := h r hr
  rw [hn]
  exact ⟨⟨n * 10 ^ 5, by push_cast; ring⟩, ⟨2 * n * 10 ^ 5, by push_cast; ring⟩⟩

end PyMarket
