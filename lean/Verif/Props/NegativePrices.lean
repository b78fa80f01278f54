import Verif.Props.MergedStatistics

/-! # C100: negative prices

`Market.accept_bid` takes any number as a price. The demand curve ends with the price 0 at infinity
(`pymarket/bids/demand_curves.py:74`), as if somebody bought any amount for nothing. With negative
asking prices the curves therefore cross where there is no buyer. -/

set_option autoImplicit false

namespace PyMarket

open Spec

/-- C100 as claimed for the prices: nobody pays more than the bid or gets less than the ask. -/
def Spec.AnySignsPrices : Prop :=
  ∀ (S : Sorter) (smp : Sampler) (call : AlgoCall) (df : DF), IsTable df →
    (∀ r ∈ df, 0 < r.quantity) → Unmerged call → CoefOk call →
      ∀ tm ex, runAlgo S smp call df = .ok (tm, ex) → PricesWithin 0 df tm.trans

/-- C100 as claimed for `percentage_traded`. -/
def Spec.AnySignsTraded : Prop :=
  ∀ (S : Sorter) (smp : Sampler) (call : AlgoCall) (df : DF), IsTable df →
    (∀ r ∈ df, 0 < r.quantity) → Unmerged call → CoefOk call →
      ∀ tm ex, runAlgo S smp call df = .ok (tm, ex) → ∀ solve : Solver,
        IsOptimum (volumeLP df) (solve (volumeLP df)) →
          ∀ x, percentageTraded solve df tm.trans = some x → 0 ≤ x ∧ x ≤ 1

/-- C100 as claimed for `percentage_welfare`. -/
def Spec.AnySignsWelfare : Prop :=
  ∀ (S : Sorter) (smp : Sampler) (call : AlgoCall) (df : DF), IsTable df →
    (∀ r ∈ df, 0 < r.quantity) → Unmerged call → CoefOk call →
      ∀ tm ex, runAlgo S smp call df = .ok (tm, ex) → ∀ solve : Solver,
        IsOptimum (utilityLP df (fun _ => none)) (solve (utilityLP df (fun _ => none))) →
          ∀ x, percentageWelfare solve df tm.trans none = some x → 0 ≤ x ∧ x ≤ 1

/-- **C100, partial.** With prices of any sign for P2P and MUDA, and with non-negative buying prices for
Huang's auction: the outcome conserves quantities, every price is respected, the market maker does not
pay, and both percentages are between 0 and 1.

Missing: negative buying prices in Huang's auction, for which the three refutations below give
counterexamples; what remains true of it is `C100_huang_partial`. -/
theorem C100_run_partial (S : Sorter) (smp : Sampler) (call : AlgoCall) (df : DF) (ht : IsTable df)
    (hp : GroupQty df) (hsg : SignsOk call df) (hu : Unmerged call) (hc : CoefOk call)
    (tm : TransactionManager) (ex : Extra) (h : runAlgo S smp call df = .ok (tm, ex)) :
    Conserves df tm.trans ∧ PricesWithin 0 df tm.trans ∧ received df tm.trans ≤ paid df tm.trans ∧
    (∀ solve : Solver, IsOptimum (volumeLP df) (solve (volumeLP df)) →
      ∀ x, percentageTraded solve df tm.trans = some x → 0 ≤ x ∧ x ≤ 1) ∧
    (∀ solve : Solver, IsOptimum (utilityLP df (fun _ => none)) (solve (utilityLP df (fun _ => none))) →
      ∀ res x, percentageWelfare solve df tm.trans res = some x → 0 ≤ x ∧ x ≤ 1) := by
  have hs := (run_settled ht hp hsg hu h).2 hc
  obtain ⟨k1, k2, k3⟩ := hs.toSettled.known
  refine ⟨⟨fun t htt => ⟨k1 t htt, k2 t htt⟩, hs.capacity, k3⟩, ?_, hs.budget,
    fun solve hso => (C37_percentage_traded S smp call df ht hp hsg hu tm ex h solve hso).2,
    fun solve hso res => (C38_percentage_welfare S smp call df ht hp hsg hu hc tm ex h solve hso res).2⟩
  intro t htt h0
  have := hs.rational t htt h0.ne'
  rw [add_zero, sub_zero]
  exact this

/-- What Huang's auction keeps for prices of any sign. -/
structure Spec.HuangAnySigns (df : DF) (ts : List Transaction) : Prop where
  conserves : Conserves df ts
  once : (ts.map (fun t => t.bid)).Nodup
  budget : received df ts ≤ paid df ts
  uniform : ∃ ps pb : ℚ, ps < pb ∧ ∀ t ∈ ts, (isBuy df t.bid = true → t.price = pb) ∧
    (isSell df t.bid = true → t.price = ps)
  buyers : ∀ t ∈ ts, isBuy df t.bid = true → t.price ≤ max (priceOf df t.bid) 0
  sellers : ∀ t ∈ ts, isSell df t.bid = true → priceOf df t.bid ≤ t.price

theorem huangAnySigns_nil {df : DF} (hq : ∀ r ∈ df, 0 ≤ r.quantity) : HuangAnySigns df [] :=
  ⟨conserves_nil hq, List.nodup_nil, le_refl _, ⟨0, 1, by norm_num, by simp⟩, by simp, by simp⟩

theorem SignedOut.anySigns {df : DF} {ps pb : ℚ} {ts : List Transaction} (hq : ∀ r ∈ df, 0 ≤ r.quantity)
    (h : SignedOut df ps pb ts) : HuangAnySigns df ts where
  conserves := ⟨fun t ht => ⟨(h.trade t ht).id_lt, (h.trade t ht).nonneg⟩,
    capacity_of_nodup h.nodup (fun t ht => (h.trade t ht).le) hq, h.balanced⟩
  once := h.nodup
  budget := h.budget
  uniform := ⟨ps, pb, h.lt, fun t ht =>
    ⟨fun hb => ((h.trade t ht).buyer hb).1, fun hs => ((h.trade t ht).seller hs).1⟩⟩
  buyers := fun t ht hb => by
    have := (h.trade t ht).buyer hb
    rw [this.1]; exact this.2
  sellers := fun t ht hs => by
    have := (h.trade t ht).seller hs
    rw [this.1]; exact this.2

/-- **C100, Huang's auction, partial.** For prices of any sign the auction returns; quantities are
conserved, each bid trades once, each side has one price, the buyers' price is above the sellers' one, no
seller gets less than asked, and no buyer pays more than the larger of the bid and 0.

Missing: no buyer pays more than the bid, false for negative bids (`C100_refuted_prices`). -/
theorem C100_huang_partial (S : Sorter) (smp : Sampler) (df : DF) (ht : IsTable df) (hp : GroupQty df) :
    ∃ tm ex, runAlgo S smp .huang df = .ok (tm, ex) ∧ HuangAnySigns df tm.trans := by
  rcases huang_market_signed S smp ht hp with ⟨tm, h1, h2⟩ | ⟨tm, ps, pb, q, h1, hO⟩
  · exact ⟨tm, _, h1, by rw [h2]; exact huangAnySigns_nil hp.1⟩
  · exact ⟨tm, _, h1, hO.anySigns hp.1⟩

/-- The same for `huang_auction` itself, where also zero quantities are allowed. -/
theorem C100_huang_direct_partial (S : Sorter) (df : DF) (ht : IsTable df)
    (hq : ∀ r ∈ df, 0 ≤ r.quantity) :
    ∃ tm ex, huangAuction S df = .ok (tm, ex) ∧ HuangAnySigns df tm.trans := by
  rcases huang_direct_signed S ht hq with h1 | ⟨tm, ps, pb, q, h1, hO, _⟩
  · exact ⟨_, _, h1, huangAnySigns_nil hq⟩
  · exact ⟨tm, _, h1, hO.anySigns hq⟩

/-- Two buyers who want to be paid 1 and 3.5 for taking a unit, and two sellers who would pay 3 and 2 per
unit to get rid of three units each. -/
def disposalBook : DF := labelFrom 0
  [⟨1, -1, 0, true, 0, true⟩, ⟨1, -7 / 2, 1, true, 0, true⟩, ⟨3, -3, 2, false, 0, true⟩,
   ⟨3, -2, 3, false, 0, true⟩]

def disposalLog : List Transaction :=
  [⟨2, 2, -2, -1, false⟩, ⟨0, 1, 0, -1, false⟩, ⟨1, 1, 0, -1, false⟩]

theorem disposalBook_ok : IsTable disposalBook ∧ ∀ r ∈ disposalBook, 0 < r.quantity := by decide +kernel

theorem disposalBook_run : runAlgo stableSorter headSampler .huang disposalBook =
    .ok (⟨3, disposalLog⟩, .huang ((-2 : ℚ) : Ext) ((0 : ℚ) : Ext) 2) := by decide +kernel

/-- The hypotheses of the partial theorems hold with negative prices: the buyer at -1 meets a seller. -/
example : IsTable disposalBook ∧ GroupQty disposalBook ∧
    SignsOk (.p2p false (1 / 2) (fun _ => 0)) disposalBook ∧
    ∃ tm ex, runAlgo stableSorter headSampler (.p2p false (1 / 2) (fun _ => 0)) disposalBook = .ok (tm, ex) ∧
      boughtQty disposalBook tm.trans = 1 ∧ paid disposalBook tm.trans = -2 :=
  ⟨disposalBook_ok.1, groupQty_of_pos disposalBook_ok.2, trivial, _, _, rfl, by decide +kernel,
    by decide +kernel⟩

/-- A book with negative asks only, for Huang's auction: three units are sold at -2
and bought at 0. -/
def windBook : DF := labelFrom 0
  [⟨2, 4, 0, true, 0, true⟩, ⟨2, 1, 1, true, 0, true⟩, ⟨3, -3, 2, false, 0, true⟩,
   ⟨3, -2, 3, false, 0, true⟩]

example : IsTable windBook ∧ GroupQty windBook ∧ SignsOk .huang windBook ∧
    runAlgo stableSorter headSampler .huang windBook = .ok (⟨3, [⟨2, 3, -2, -1, false⟩,
      ⟨0, 3 / 2, 0, -1, false⟩, ⟨1, 3 / 2, 0, -1, false⟩]⟩, .huang ((-2 : ℚ) : Ext) ((0 : ℚ) : Ext) 3) :=
  ⟨by decide +kernel, groupQty_of_pos (by decide +kernel), by unfold SignsOk; decide +kernel,
    by decide +kernel⟩

/-- The buyer at -1 takes a unit of the seller at -3. -/
theorem disposalBook_plan : TradePlan disposalBook (fun i j => if i = 0 ∧ j = 2 then 1 else 0) := by
  have hq : ∀ r ∈ disposalBook, 0 ≤ r.quantity := fun r hr => (disposalBook_ok.2 r hr).le
  refine ⟨?_, ?_, ?_, ?_⟩
  · intro i j
    split <;> norm_num
  · intro i j h
    split at h
    · rename_i hij
      obtain ⟨rfl, rfl⟩ := hij
      decide +kernel
    · exact absurd rfl h
  · intro i
    by_cases h : i = 0
    · subst h; decide +kernel
    · simp only [h, false_and, if_false, List.map_const', List.sum_replicate, smul_zero]
      exact qtyOf_nonneg' hq i
  · intro j
    by_cases h : j = 2
    · subst h; decide +kernel
    · simp only [h, and_false, if_false, List.map_const', List.sum_replicate, smul_zero]
      exact qtyOf_nonneg' hq j

/-- **C100, prices, refuted.** The buyer who asks to be paid 1 gets nothing. -/
theorem C100_refuted_prices : ¬ AnySignsPrices := by
  intro h
  have := (h stableSorter headSampler .huang _ disposalBook_ok.1 disposalBook_ok.2 trivial trivial _ _
    disposalBook_run ⟨0, 1, 0, -1, false⟩ (by simp [disposalLog]) (by norm_num)).1 (by decide +kernel)
  revert this
  decide +kernel

/-- **C100, volume, refuted.** Only the buyer at -1 can trade with a compatible seller, and the auction
trades two units: the percentage is 2. -/
theorem C100_refuted_traded : ¬ AnySignsTraded := by
  intro h
  have hq : ∀ r ∈ disposalBook, 0 ≤ r.quantity := fun r hr => (disposalBook_ok.2 r hr).le
  obtain ⟨solve, hs, _⟩ := exists_solver _ disposalBook_ok.1 hq
  obtain ⟨best, hB, hsh⟩ := C37_value _ disposalBook_ok.1 hq disposalLog
    (by decide +kernel) (by decide +kernel) solve hs
  have e : boughtQty disposalBook disposalLog = 2 := by decide +kernel
  rw [e] at hsh
  have h1 : 1 ≤ best := hB.2 ⟨_, disposalBook_plan, by
    intro i j h
    by_cases hij : i = 0 ∧ j = 2
    · obtain ⟨rfl, rfl⟩ := hij
      decide +kernel
    · beta_reduce at h
      rw [if_neg hij] at h
      exact absurd rfl h, by decide +kernel⟩
  have h2 : best ≤ 1 := by
    obtain ⟨q, p1, p2, rfl⟩ := hB.1
    have hl : disposalBook.length = 4 := rfl
    have hrow : ∀ i, i < 4 → i ≠ 0 → ∀ j, j < 4 → q i j = 0 := by
      intro i hi h1 j hj
      have hno : ∀ i < 4, i ≠ 0 → ∀ j < 4, ¬ (isBuy disposalBook i = true ∧ isSell disposalBook j = true ∧
          priceOf disposalBook j ≤ priceOf disposalBook i) := by decide +kernel
      by_contra hc
      exact hno i hi h1 j hj ⟨(p1.pair i j hc).1, (p1.pair i j hc).2, p2 i j hc⟩
    have hb := p1.buyer 0
    have hq1 : qtyOf disposalBook 0 = 1 := by decide +kernel
    rw [hq1, hl] at hb
    unfold planVolume
    rw [hl]
    have hr : List.range 4 = [0, 1, 2, 3] := rfl
    rw [hr] at hb ⊢
    simp only [List.map_cons, List.map_nil, List.sum_cons, List.sum_nil] at hb ⊢
    rw [hrow 1 (by omega) (by omega) 0 (by omega), hrow 1 (by omega) (by omega) 1 (by omega),
      hrow 1 (by omega) (by omega) 2 (by omega), hrow 1 (by omega) (by omega) 3 (by omega),
      hrow 2 (by omega) (by omega) 0 (by omega), hrow 2 (by omega) (by omega) 1 (by omega),
      hrow 2 (by omega) (by omega) 2 (by omega), hrow 2 (by omega) (by omega) 3 (by omega),
      hrow 3 (by omega) (by omega) 0 (by omega), hrow 3 (by omega) (by omega) 1 (by omega),
      hrow 3 (by omega) (by omega) 2 (by omega), hrow 3 (by omega) (by omega) 3 (by omega)]
    linarith
  have hx := h stableSorter headSampler .huang _ disposalBook_ok.1 disposalBook_ok.2 trivial trivial _ _
    disposalBook_run solve hs _ (hsh.2 (by linarith))
  have : best = 1 := le_antisymm h2 h1
  rw [this] at hx
  norm_num at hx

/-- **C100, welfare, refuted.** The traders lose 2.5 although they could gain 2. -/
theorem C100_refuted_welfare : ¬ AnySignsWelfare := by
  intro h
  have hq : ∀ r ∈ disposalBook, 0 ≤ r.quantity := fun r hr => (disposalBook_ok.2 r hr).le
  obtain ⟨solve, _, hs⟩ := exists_solver _ disposalBook_ok.1 hq
  obtain ⟨best, hB, hsh⟩ := C38_value _ disposalBook_ok.1 hq disposalLog none solve (hs _)
  have e : gains disposalBook (priceOf disposalBook) disposalLog = -5 / 2 := by decide +kernel
  rw [e] at hsh
  have h1 : 2 ≤ best := hB.2 ⟨_, disposalBook_plan, by decide +kernel⟩
  have hx := (h stableSorter headSampler .huang _ disposalBook_ok.1 disposalBook_ok.2 trivial trivial _ _
    disposalBook_run solve (hs _) _ (hsh.2 (by linarith))).1
  have : (-5 / 2 : ℚ) / best < 0 := div_neg_of_neg_of_pos (by norm_num) (by linarith)
  linarith

end PyMarket
