import Verif.Lemmas.UniformSides

/-! # C94, C95, C96: the uniform price mechanism of the documentation -/

set_option autoImplicit false

namespace PyMarket

open Spec

/-- Buyers 1 @ 10, 2 @ 8, 2 @ 3, sellers 1 @ 1, 4 @ 4: three units trade, the second seller only in part. -/
def uniformBook : DF := labelFrom 0
  [⟨1, 10, 0, true, 0, true⟩, ⟨2, 8, 1, true, 0, true⟩, ⟨2, 3, 2, true, 0, true⟩,
   ⟨1, 1, 3, false, 0, true⟩, ⟨4, 4, 4, false, 0, true⟩]

/-! ## C94 -/

/-- **C94, when it returns.** The mechanism returns exactly when demand exceeds supply somewhere and the
two prices never coincide; otherwise it raises `TypeError`. -/
theorem C94_returns (S : Sorter) (df : DF) (h : NonNeg df) :
    ((∃ r, uniformPrice S df = .ok r) ↔
      (∃ z d s, PricesAt S df z d s ∧ s < d) ∧ (∀ z d s, PricesAt S df z d s → d ≠ s)) ∧
    ∀ e, uniformPrice S df = .error e → e = .typeError := by
  have key := C09_intersection_found_partial S df h (1 / 2)
  rcases intersect_cases S h (1 / 2) with ⟨y, hc, he⟩ | ⟨he, _⟩
  · obtain ⟨mb, ms, p, _, _, _, _, _, _, _, _, _, _, _, hr⟩ := uniform_eval S h hc
    refine ⟨⟨fun _ => key.mp ⟨_, _, he, rfl⟩, fun _ => ⟨_, hr⟩⟩, fun e h' => ?_⟩
    rw [hr] at h'
    cases h'
  · have hr : uniformPrice S df = .error .typeError := by
      unfold uniformPrice
      simp only [he, bind, Except.bind]
    refine ⟨⟨?_, fun h' => ?_⟩, fun e h' => ?_⟩
    · rintro ⟨r, h'⟩
      rw [hr] at h'
      cases h'
    · obtain ⟨i, x, hi, hx⟩ := key.mpr h'
      rw [he] at hi
      cases hi
      cases hx
    · rw [hr] at h'
      cases h'
      rfl

/-- **C94, outcome.** What is returned is a balanced market with a single price that serves better bids
first; the reported quantity is where demand stops exceeding supply. -/
theorem C94_outcome (S : Sorter) (df : DF) (ht : IsTable df) (h : NonNeg df) (tm : TransactionManager)
    (x : Option Ext) (v : Val) (hrun : uniformPrice S df = .ok (tm, x, v)) :
    ∃ q p : ℚ, x = some (q : Ext) ∧ v = .fin p ∧ 0 ≤ q ∧ UniformOutcome df tm.trans q p ∧
      ∀ z d s, PricesAt S df z d s → (z ≤ (q : Ext) → s < d ∧ s ≤ (p : Ext) ∧ (p : Ext) ≤ d) ∧
        ((q : Ext) < z → d < s) := by
  obtain ⟨q, p, mb, ms, rfl, rfl, u⟩ := uniform_sides S h hrun
  refine ⟨q, p, rfl, rfl, u.cross.nonneg, u.outcome ht h, ?_⟩
  intro z d s hp
  obtain ⟨hz, rfl, rfl⟩ := pricesAt_iff.mp hp
  refine ⟨fun hzq => ?_, fun hzq => u.cross.above z hzq⟩
  have h1 := supplyAt_monotone S df hzq
  have h2 := demandAt_antitone S (fun r hr => (h r hr).2) hzq
  have h3 : supplyAt S df q ≤ (p : Ext) := by rw [u.supply]; exact WithTop.coe_le_coe.mpr u.ge
  have h4 : (p : Ext) ≤ demandAt S df q := by rw [u.demand]; exact WithTop.coe_le_coe.mpr u.le
  exact ⟨lt_of_le_of_lt h1 (lt_of_lt_of_le u.cross.at_x h2), h1.trans h3, h4.trans h2⟩

/-- **C94, in a market.** A book without buyers or without sellers has no trade. On any other one the
class does what the function does, and a `TypeError` leaves the market as it was. -/
theorem C94_market (S : Sorter) (smp : Sampler) (m : Market) :
    ((∀ r ∈ m.bm.getDf, r.buying = true) ∨ (∀ r ∈ m.bm.getDf, r.buying = false) →
      m.runUniform S smp false = ({ m with transactions := TransactionManager.init, extra := .empty },
        .ok (TransactionManager.init, .empty))) ∧
    ((∃ r ∈ m.bm.getDf, r.buying = true) → (∃ r ∈ m.bm.getDf, r.buying = false) →
      (∀ tm x v, uniformPrice S m.bm.getDf = .ok (tm, x, v) →
        m.runUniform S smp false = ({ m with transactions := tm, extra := .empty }, .ok (tm, .empty))) ∧
      (∀ e, uniformPrice S m.bm.getDf = .error e → m.runUniform S smp false = (m, .error e))) := by
  set df := m.bm.getDf with hdf
  have hlen : (buys df).length = df.length ↔ ∀ r ∈ df, r.buying = true := by
    unfold buys
    rw [List.length_filter_eq_length_iff]
  have hzero : (buys df).length = 0 ↔ ∀ r ∈ df, r.buying = false := by
    unfold buys
    rw [List.length_eq_zero_iff, List.filter_eq_nil_iff]
    simp
  constructor
  · intro hone
    have hm : mechanism smp false (uniformAlgo S) df = .ok (TransactionManager.init, .empty) := by
      unfold mechanism mechRun
      simp only [Bool.false_eq_true, if_false, ne_eq]
      rw [if_neg]
      rintro ⟨h1, h2⟩
      rcases hone with h' | h'
      · exact h2 (hlen.mpr h')
      · exact h1 (hzero.mpr h')
    unfold Market.runUniform
    rw [← hdf, hm]
  · rintro ⟨r, hr, hb⟩ ⟨r', hr', hb'⟩
    have hm : mechanism smp false (uniformAlgo S) df = uniformAlgo S df := by
      unfold mechanism mechRun
      simp only [Bool.false_eq_true, if_false, ne_eq]
      rw [if_pos]
      refine ⟨fun h' => ?_, fun h' => ?_⟩
      · rw [hzero.mp h' r hr] at hb
        cases hb
      · rw [hlen.mp h' r' hr'] at hb'
        cases hb'
    unfold Market.runUniform
    rw [← hdf, hm]
    refine ⟨fun tm x v hrun => ?_, fun e hrun => ?_⟩
    · simp [uniformAlgo, hrun, Except.map]
    · simp [uniformAlgo, hrun, Except.map]

/-- The book above, its outcome, and a book on which the mechanism fails. -/
example : IsTable uniformBook ∧ NonNeg uniformBook ∧
    uniformPrice stableSorter uniformBook = .ok
      (⟨4, [⟨0, 1, 4, -1, false⟩, ⟨1, 2, 4, -1, false⟩, ⟨3, 1, 4, -1, false⟩, ⟨4, 2, 4, -1, false⟩]⟩,
        some ((3 : ℚ) : Ext), .fin 4) ∧
    NonNeg tieBook ∧ uniformPrice stableSorter tieBook = .error .typeError := by
  decide +kernel

/-! ## C95 -/

/-- **C95.** What the traders gain together is the optimal value of the program of
`maximum_aggregated_utility`. -/
theorem C95_efficient (S : Sorter) (df : DF) (ht : IsTable df) (h : NonNeg df) (tm : TransactionManager)
    (x : Option Ext) (v : Val) (hrun : uniformPrice S df = .ok (tm, x, v)) :
    BestWelfare df (priceOf df) (gains df (priceOf df) tm.trans) ∧
      IsOptimum (utilityLP df (fun _ => none)) (gains df (priceOf df) tm.trans) := by
  obtain ⟨q, p, mb, ms, rfl, rfl, u⟩ := uniform_sides S h hrun
  have hq : ∀ r ∈ df, 0 ≤ r.quantity := fun r hr => (h r hr).1
  obtain ⟨c, _, _, _, hc⟩ := u.cross.clears_between h
  have hb := best_of_clears ht hq hc
  rw [← (u.outcome ht h).gains_eq ht hq hc] at hb
  exact ⟨hb, isOptimum_of_best ht hq hb⟩

/-- **C95, statistics.** `percentage_welfare` is 1 whenever something can be gained, and
`percentage_traded` is at least 1/2. -/
theorem C95_statistics (S : Sorter) (df : DF) (ht : IsTable df) (h : NonNeg df) (tm : TransactionManager)
    (x : Option Ext) (v : Val) (hrun : uniformPrice S df = .ok (tm, x, v)) (solve : Solver)
    (hv : IsOptimum (volumeLP df) (solve (volumeLP df)))
    (hu : IsOptimum (utilityLP df (fun _ => none)) (solve (utilityLP df (fun _ => none))))
    (res : Option ResPrices) :
    percentageWelfare solve df tm.trans res =
      (if 0 < gains df (priceOf df) tm.trans then some 1 else none) ∧
    (percentageTraded solve df tm.trans = none ↔ x = some ((0 : ℚ) : Ext)) ∧
    ∀ y, percentageTraded solve df tm.trans = some y → 1 / 2 ≤ y ∧ y ≤ 1 := by
  have hq : ∀ r ∈ df, 0 ≤ r.quantity := fun r hr => (h r hr).1
  have hb := (C95_efficient S df ht h tm x v hrun).1
  obtain ⟨q, p, mb, ms, rfl, rfl, u⟩ := uniform_sides S h hrun
  have o := u.outcome ht h
  constructor
  · obtain ⟨best, hbest, s1, s2⟩ := C38_value df ht hq tm.trans res solve hu
    rw [← IsGreatest.unique hb hbest] at s1 s2
    split_ifs with hpos
    · rw [s2 hpos, div_self hpos.ne']
    · exact s1 (not_lt.mp hpos)
  · have hhalf : q ≤ solve (volumeLP df) ∧ solve (volumeLP df) ≤ 2 * q := by
      rcases intersect_cases S h (1 / 2) with ⟨y, hc, he⟩ | ⟨_, hn⟩
      · obtain rfl : y = q := hc.unique u.cross
        exact C84_equilibrium_half S df ht h _ _ y he rfl _ hv
      · exact absurd ⟨⟨q, WithTop.coe_le_coe.mpr u.cross.nonneg, u.cross.at_x⟩,
          fun z _ => u.cross.no_tie h z⟩ hn
    have hval : percentageTraded solve df tm.trans =
        if 0 < solve (volumeLP df) then some (q / solve (volumeLP df)) else none := by
      unfold percentageTraded
      simp only
      rw [sum_all_quantities (fun t h' => (o.trans t h').1), o.bought, o.sold]
      congr 3
      ring
    rw [hval]
    have h0 := u.cross.nonneg
    constructor
    · constructor
      · intro hn
        split_ifs at hn with hpos
        have : q = 0 := by linarith
        rw [this]
      · intro he
        have : q = 0 := WithTop.coe_injective (Option.some.inj he)
        rw [if_neg]
        linarith
    · intro y hy
      split_ifs at hy with hpos
      cases hy
      rw [div_le_one hpos, le_div_iff₀ hpos]
      constructor <;> linarith

/-- In the book above 6 + 2 * 4 + 3 = 17 is gained. -/
example : gains uniformBook (priceOf uniformBook)
    [⟨0, 1, 4, -1, false⟩, ⟨1, 2, 4, -1, false⟩, ⟨3, 1, 4, -1, false⟩, ⟨4, 2, 4, -1, false⟩] = 17 := by
  decide +kernel

/-! ## C96 -/

/-- C96 as claimed: bids that would gain at the clearing price trade everything. -/
def Spec.ServesWilling (df : DF) (ts : List Transaction) (p : ℚ) : Prop :=
  (∀ i, isBuy df i = true → p < priceOf df i → tradedBy ts i = qtyOf df i) ∧
    (∀ i, isSell df i = true → priceOf df i < p → tradedBy ts i = qtyOf df i)

/-- **C96, the part that holds.** When only one of the curves steps at the clearing quantity, every bid that
would gain at the clearing price trades everything. The full claim drops this condition and is refuted
below. -/
theorem C96_serves_partial (S : Sorter) (df : DF) (ht : IsTable df) (h : NonNeg df) (tm : TransactionManager)
    (q p : ℚ) (hrun : uniformPrice S df = .ok (tm, some (q : Ext), .fin p))
    (hone : ¬ ((q : Ext) ∈ (demandCurve S df).1.map Prod.fst ∧
      (q : Ext) ∈ (supplyCurve S df).1.map Prod.fst)) : ServesWilling df tm.trans p := by
  obtain ⟨q', p', mb, ms, hx, hv, u⟩ := uniform_sides S h hrun
  obtain rfl : q = q' := WithTop.coe_injective (Option.some.inj hx)
  obtain rfl : p = p' := by cases hv; rfl
  have hc : Clears df p q := by
    rcases intersect_cases S h (1 / 2) with ⟨y, hc, he⟩ | ⟨_, hn⟩
    · obtain rfl : y = q := hc.unique u.cross
      exact C11_price_clears_partial S df h _ _ y p he rfl u.price hone
    · exact absurd ⟨⟨q, WithTop.coe_le_coe.mpr u.cross.nonneg, u.cross.at_x⟩,
        fun z _ => u.cross.no_tie h z⟩ hn
  have hq : ∀ r ∈ df, 0 ≤ r.quantity := fun r hr => (h r hr).1
  have o := u.outcome ht h
  exact ⟨(o.buyers_cleared ht hq hc).1, (o.sellers_cleared ht hq hc).1⟩

/-- The book above: only the demand curve steps at 3. -/
example : ¬ (((3 : ℚ) : Ext) ∈ (demandCurve stableSorter uniformBook).1.map Prod.fst ∧
    ((3 : ℚ) : Ext) ∈ (supplyCurve stableSorter uniformBook).1.map Prod.fst) := by
  decide +kernel

/-- **C96, exactly.** Every bid that would gain at the clearing price trades everything iff no more than the
clearing quantity is asked for above the price and no more is offered below it. -/
theorem C96_exact (S : Sorter) (df : DF) (ht : IsTable df) (h : NonNeg df) (tm : TransactionManager)
    (q p : ℚ) (hrun : uniformPrice S df = .ok (tm, some (q : Ext), .fin p)) :
    ServesWilling df tm.trans p ↔ demandQtyAbove df p ≤ q ∧ supplyQtyBelow df p ≤ q := by
  obtain ⟨q', p', mb, ms, hx, hv, u⟩ := uniform_sides S h hrun
  obtain rfl : q = q' := WithTop.coe_injective (Option.some.inj hx)
  obtain rfl : p = p' := by cases hv; rfl
  have hq : ∀ r ∈ df, 0 ≤ r.quantity := fun r hr => (h r hr).1
  have o := u.outcome ht h
  have hk : ∀ t ∈ tm.trans, t.bid < df.length := fun t h => (o.trans t h).1
  constructor
  · rintro ⟨h1, h2⟩
    have e1 : demandQtyAbove df p = _ := qty_range ht (fun r => r.buying && decide (p < r.price))
      (fun i => isBuy df i = true ∧ p < priceOf df i)
      (fun r hr => by rw [ht.isBuy_eq hr, ht.price_eq hr]; simp)
    have e2 : supplyQtyBelow df p = _ := qty_range ht (fun r => !r.buying && decide (r.price < p))
      (fun i => isSell df i = true ∧ priceOf df i < p)
      (fun r hr => by rw [ht.isSell_eq hr, ht.price_eq hr]; simp)
    have b1 := (bought_eq ht hk).trans o.bought
    have b2 := (sold_eq ht hk).trans o.sold
    constructor
    · rw [e1, ← b1]
      apply List.sum_le_sum
      intro i _
      by_cases hi : isBuy df i = true
      · by_cases hp : p < priceOf df i
        · simp [hi, hp, h1 i hi hp]
        · simpa [hi, hp] using o.traded_nonneg i
      · simp [hi]
    · rw [e2, ← b2]
      apply List.sum_le_sum
      intro i _
      by_cases hi : isSell df i = true
      · by_cases hp : priceOf df i < p
        · simp [hi, hp, h2 i hi hp]
        · simpa [hi, hp] using o.traded_nonneg i
      · simp [hi]
  · rintro ⟨h1, h2⟩
    have hp0 : 0 ≤ p := by
      have h3 : supplyAt S df q ≤ (p : Ext) := by rw [u.supply]; exact WithTop.coe_le_coe.mpr u.ge
      exact WithTop.coe_le_coe.mp (le_trans (supplyAt_nonneg S (fun r hr => (h r hr).2) (q : Ext)) h3)
    have hc : Clears df p q := by
      rcases intersect_cases S h (1 / 2) with ⟨y, hc, he⟩ | ⟨_, hn⟩
      · obtain rfl : y = q := hc.unique u.cross
        refine (C11_exact S df h _ (by norm_num) (by norm_num) _ y p he rfl u.price).mpr ?_
        intro z d s hz hpr
        obtain ⟨_, rfl, rfl⟩ := pricesAt_iff.mp hpr
        induction z using WithTop.recTopCoe with
        | top =>
          rw [demandAt_top, supplyAt_top]
          exact ⟨WithTop.coe_le_coe.mpr hp0, le_top⟩
        | coe z =>
          have hz' : y < z := WithTop.coe_lt_coe.mp hz
          have hz0 : 0 < z := lt_of_le_of_lt hc.nonneg hz'
          constructor
          · rw [← not_lt, demandAt_galois_lt S hq hz0 hp0]
            linarith
          · rw [← not_lt, supplyAt_galois_lt S hq hz0]
            linarith
      · exact absurd ⟨⟨q, WithTop.coe_le_coe.mpr u.cross.nonneg, u.cross.at_x⟩,
          fun z _ => u.cross.no_tie h z⟩ hn
    exact ⟨(o.buyers_cleared ht hq hc).1, (o.sellers_cleared ht hq hc).1⟩

/-- In the book above 3 units are asked for above 4, and 1 is offered below; in that of `C96_refuted` 2 units are
asked for above 11/2 although only 1 is traded. -/
example : demandQtyAbove uniformBook 4 = 3 ∧ supplyQtyBelow uniformBook 4 = 1 ∧
    demandQtyAbove alignedBook (11 / 2) = 2 := by decide +kernel

/-- **C96, in general.** Some price between the marginal ones always supports the outcome; the code need not
find it. -/
theorem C96_some_price_serves (S : Sorter) (df : DF) (ht : IsTable df) (h : NonNeg df)
    (tm : TransactionManager) (x : Option Ext) (v : Val) (hrun : uniformPrice S df = .ok (tm, x, v)) :
    ∃ c : ℚ, ServesWilling df tm.trans c ∧
      (∀ i, isBuy df i = true → priceOf df i < c → tradedBy tm.trans i = 0) ∧
      (∀ i, isSell df i = true → c < priceOf df i → tradedBy tm.trans i = 0) := by
  obtain ⟨q, p, mb, ms, rfl, rfl, u⟩ := uniform_sides S h hrun
  have hq : ∀ r ∈ df, 0 ≤ r.quantity := fun r hr => (h r hr).1
  obtain ⟨c, _, _, _, hc⟩ := u.cross.clears_between h
  have o := u.outcome ht h
  exact ⟨c, ⟨(o.buyers_cleared ht hq hc).1, (o.sellers_cleared ht hq hc).1⟩,
    (o.buyers_cleared ht hq hc).2, (o.sellers_cleared ht hq hc).2⟩

/-- **C96 refuted.** Buyers 1 @ 10 and 1 @ 9, sellers 1 @ 1 and 1 @ 19/2: one unit is traded at 11/2 and the
second buyer, who would pay 9, gets nothing. -/
theorem C96_refuted : IsTable alignedBook ∧ NonNeg alignedBook ∧ ∃ tm q,
    uniformPrice stableSorter alignedBook = .ok (tm, some q, .fin (11 / 2)) ∧
      ¬ ServesWilling alignedBook tm.trans (11 / 2) := by
  refine ⟨by decide +kernel, by decide +kernel,
    ⟨2, [⟨0, 1, 11 / 2, -1, false⟩, ⟨2, 1, 11 / 2, -1, false⟩]⟩, ((1 : ℚ) : Ext), by decide +kernel, ?_⟩
  intro hs
  have := hs.1 1 (by decide +kernel) (by decide +kernel)
  revert this
  decide +kernel

end PyMarket
