import Verif.Props.NoLosses
import Verif.Props.MergedRuns
import Verif.Props.Volumes
import Verif.Props.Units

/-! # C99: the statistics after runs with `merge=True` -/

set_option autoImplicit false

namespace PyMarket

open Spec

/-! ## Outcomes on the merged book settle in the rounded book -/

section rounded

variable {df : DF} {rd : ℚ → ℚ}

theorem roundedBook_get (i : ℕ) :
    (roundedBook rd df)[i]? = (df[i]?).map (fun r => { r with price := rd r.price }) := by
  unfold roundedBook
  rw [List.getElem?_map]

theorem roundedBook_flags (i : ℕ) : isBuy (roundedBook rd df) i = isBuy df i ∧
    isSell (roundedBook rd df) i = isSell df i ∧ qtyOf (roundedBook rd df) i = qtyOf df i := by
  unfold isBuy isSell qtyOf
  rw [roundedBook_get]
  cases df[i]? <;> exact ⟨rfl, rfl, rfl⟩

theorem roundedBook_length : (roundedBook rd df).length = df.length := by simp [roundedBook]

theorem roundedBook_bought (ts : List Transaction) : boughtQty (roundedBook rd df) ts = boughtQty df ts := by
  unfold boughtQty
  simp only [(roundedBook_flags _).1]

theorem roundedBook_sold (ts : List Transaction) : soldQty (roundedBook rd df) ts = soldQty df ts := by
  unfold soldQty
  simp only [(roundedBook_flags _).2.1]

theorem roundedBook_money (ts : List Transaction) : paid (roundedBook rd df) ts = paid df ts ∧
    received (roundedBook rd df) ts = received df ts := by
  unfold paid received
  simp only [(roundedBook_flags _).1, (roundedBook_flags _).2.1, and_self]

theorem roundedBook_table (ht : IsTable df) : IsTable (roundedBook rd df) := by
  unfold IsTable at ht ⊢
  rw [roundedBook_length, ← ht]
  unfold roundedBook
  rw [List.map_map]
  rfl

theorem roundedBook_qty (hq : ∀ r ∈ df, 0 ≤ r.quantity) : ∀ r ∈ roundedBook rd df, 0 ≤ r.quantity := by
  intro r hr
  obtain ⟨r', h, rfl⟩ := List.mem_map.mp hr
  exact hq r' h

end rounded

/-- Prices with at most five decimals do not change. -/
theorem roundedBook_decimals {df : DF} {rd : ℚ → ℚ} (hrd : ∀ p, IsRounded 5 p (rd p))
    (hd : ∀ r ∈ df, IsRounded 5 r.price r.price) : roundedBook rd df = df := by
  unfold roundedBook
  conv_rhs => rw [← List.map_id df]
  apply List.map_congr_left
  intro r hr
  rw [isRounded_unique (hrd r.price) (hd r hr)]
  rfl

theorem MergeSpec.settled {df nb : DF} {mp : List (List ℕ)} (hM : MergeSpec df nb mp)
    (hq : ∀ r ∈ df, 0 ≤ r.quantity) {ts : List Transaction} (h : Settled nb ts) :
    Settled (roundedBook (npRound 5) df) (ts.flatMap (splitT df mp)) := by
  obtain ⟨k1, k2, k3⟩ := h.known
  have hC : Conserves df (ts.flatMap (splitT df mp)) :=
    hM.conserves hq ⟨fun t ht => ⟨k1 t ht, k2 t ht⟩, h.capacity, k3⟩
  obtain ⟨ps, rfl, hp⟩ := h.pools
  refine ⟨⟨ps.map (fun p => p.flatMap (splitT df mp)), ?_, ?_⟩, ?_⟩
  · clear hC hp k1 k2 k3 h
    induction ps with
    | nil => rfl
    | cons p ps ih => rw [List.map_cons, List.flatten_cons, ih, List.flatten_cons, List.flatMap_append]
  · intro p' hp'
    obtain ⟨p, hpm, rfl⟩ := List.mem_map.mp hp'
    have hpool := hp p hpm
    have hent : ∀ t ∈ p.flatMap (splitT df mp), t.bid < df.length ∧ 0 ≤ t.quantity := by
      intro t ht
      obtain ⟨t0, h1, h2⟩ := List.mem_flatMap.mp ht
      exact hC.entries t (List.mem_flatMap.mpr ⟨t0, List.mem_flatten.mpr ⟨p, hpm, h1⟩, h2⟩)
    refine ⟨fun t ht => by rw [roundedBook_length]; exact (hent t ht).1, fun t ht => (hent t ht).2, ?_, ?_⟩
    · rw [roundedBook_bought, roundedBook_sold, hM.boughtQty_lift hpool.known, hM.soldQty_lift hpool.known]
      exact hpool.balanced
    · obtain ⟨c, hc⟩ := hpool.price
      refine ⟨c, ?_⟩
      intro t' ht' h0
      obtain ⟨t, htm, row, r, g1, g2, g3, g4, g5, g6, g7, g8, g9, _⟩ := hM.mem_lift hpool.known ht'
      have hne : t.quantity ≠ 0 := fun h => h0 (by rw [g8, h, zero_mul])
      obtain ⟨h1, h2⟩ := hc t htm hne
      rw [isBuy_some g1, priceOf_some g1] at h1
      rw [isSell_some g1, priceOf_some g1] at h2
      have hr : (roundedBook (npRound 5) df)[t'.bid]? = some { r with price := npRound 5 r.price } := by
        rw [roundedBook_get, g2]; rfl
      rw [isBuy_some hr, isSell_some hr, priceOf_some hr]
      simp only [g3, g4]
      exact ⟨h1, h2⟩
  · intro i
    rw [(roundedBook_flags i).2.2]
    exact hC.bounded i

theorem MergeSpec.sound {df nb : DF} {mp : List (List ℕ)} (hM : MergeSpec df nb mp)
    (hq : ∀ r ∈ df, 0 ≤ r.quantity) {ts : List Transaction} (h : Sound nb ts) :
    Sound (roundedBook (npRound 5) df) (ts.flatMap (splitT df mp)) := by
  obtain ⟨k1, k2, k3⟩ := h.toSettled.known
  refine ⟨hM.settled hq h.toSettled, ?_, ?_⟩
  · intro t' ht' h0
    obtain ⟨t, htm, row, r, g1, g2, g3, g4, g5, g6, g7, g8, g9, _⟩ := hM.mem_lift k1 ht'
    have hne : t.quantity ≠ 0 := fun h => h0 (by rw [g8, h, zero_mul])
    obtain ⟨h1, h2⟩ := h.rational t htm hne
    rw [isBuy_some g1, priceOf_some g1] at h1
    rw [isSell_some g1, priceOf_some g1] at h2
    have hr : (roundedBook (npRound 5) df)[t'.bid]? = some { r with price := npRound 5 r.price } := by
      rw [roundedBook_get, g2]; rfl
    rw [isBuy_some hr, isSell_some hr, priceOf_some hr]
    simp only [g3, g4, g5]
    exact ⟨h1, h2⟩
  · rw [(roundedBook_money _).1, (roundedBook_money _).2, (paid_lift hM k1).1, (paid_lift hM k1).2]
    exact h.budget

/-- The calls that merge bids of equal rounded price. -/
def Spec.Merging : AlgoCall → Prop
  | .muda merge _ => merge = true
  | .p2p merge _ _ => merge = true
  | _ => False

theorem Spec.Merging.signs {call : AlgoCall} (h : Merging call) {df : DF} : SignsOk call df := by
  cases call with
  | huang => exact h.elim
  | _ => trivial

theorem run_settled_merged {S : Sorter} {smp : Sampler} {call : AlgoCall} {df : DF} (ht : IsTable df)
    (hp : GroupQty df) (hu : Merging call) {tm : TransactionManager} {ex : Extra}
    (h : runAlgo S smp call df = .ok (tm, ex)) :
    Settled (roundedBook (npRound 5) df) tm.trans ∧
      (CoefOk call → Sound (roundedBook (npRound 5) df) tm.trans) := by
  obtain ⟨nb, mp, hm, hM⟩ := merge_spec_qty smp ht hp
  have hq := hp.1
  have hnq : GroupQty nb := groupQty_of_pos hM.qty
  cases call with
  | huang => exact hu.elim
  | other name => exact hu.elim
  | muda merge coin =>
    have hu : merge = true := hu
    subst hu
    have h : mechanism smp true (muda S coin) df = .ok (tm, ex) := h
    obtain ⟨tm0, hrun⟩ := mechanism_merge_inv smp (muda S coin) hm h
    have hs : Sound nb tm0.trans := by
      have := (run_settled (S := S) (smp := smp) (call := .muda false coin) hM.table hnq trivial rfl hrun).2
      exact this trivial
    obtain ⟨tm', e1, e2⟩ := mechanism_merge smp (muda S coin) hm hM hrun hs.toSettled.known.1
    rw [e1] at h
    cases h
    rw [e2]
    exact ⟨hM.settled hq hs.toSettled, fun _ => hM.sound hq hs⟩
  | p2p merge c choice =>
    have hu : merge = true := hu
    subst hu
    have h : mechanism smp true (p2pRandom c choice) df = .ok (tm, ex) := h
    obtain ⟨tm0, hrun⟩ := mechanism_merge_inv smp (p2pRandom c choice) hm h
    obtain ⟨hs, hs'⟩ := run_settled (S := S) (smp := smp) (call := .p2p false c choice) hM.table hnq trivial rfl hrun
    obtain ⟨tm', e1, e2⟩ := mechanism_merge smp (p2pRandom c choice) hm hM hrun hs.known.1
    rw [e1] at h
    cases h
    rw [e2]
    exact ⟨hM.settled hq hs, fun hc => hM.sound hq (hs' hc)⟩

/-! ## Prices with at most five decimals -/

/-- The prices have at most five decimals. -/
def Spec.DecimalPrices (df : DF) : Prop := ∀ r ∈ df, FiveDecimals r.price

theorem run_sound_decimals {S : Sorter} {smp : Sampler} {call : AlgoCall} {df : DF} (ht : IsTable df)
    (hp : GroupQty df) (hsg : SignsOk call df) (hd : DecimalPrices df) {tm : TransactionManager} {ex : Extra}
    (h : runAlgo S smp call df = .ok (tm, ex)) :
    Settled df tm.trans ∧ (CoefOk call → Sound df tm.trans) := by
  have key : Merging call → Settled df tm.trans ∧ (CoefOk call → Sound df tm.trans) := by
    intro hu
    have := run_settled_merged ht hp hu h
    rwa [roundedBook_decimals (npRound_isRounded 5) (fun r hr => isRounded_self (hd r hr))] at this
  cases call with
  | huang => exact run_settled (call := .huang) ht hp hsg trivial h
  | muda merge coin =>
    cases merge with
    | false => exact run_settled (call := .muda false coin) ht hp trivial rfl h
    | true => exact key rfl
  | p2p merge c choice =>
    cases merge with
    | false => exact run_settled (call := .p2p false c choice) ht hp trivial rfl h
    | true => exact key rfl
  | other name => cases h

theorem settled_traded {df : DF} (ht : IsTable df) (hq : ∀ r ∈ df, 0 ≤ r.quantity) {ts : List Transaction}
    (h : Settled df ts) (solve : Solver) (hs : IsOptimum (volumeLP df) (solve (volumeLP df))) (x : ℚ)
    (hx : percentageTraded solve df ts = some x) : 0 ≤ x ∧ x ≤ 1 := by
  obtain ⟨q, h1, h2, h3, _⟩ := h.plan ht hq
  obtain ⟨k1, k2, k3⟩ := h.known
  have hb := boughtQty_nonneg (df := df) k2
  obtain ⟨best, hB, hsh⟩ := C37_value df ht hq ts k1 k3 solve hs
  have hle : boughtQty df ts ≤ best := by
    have := hB.2 ⟨q, h1, h2, rfl⟩
    rw [h3] at this
    exact this
  by_cases hpos : 0 < best
  · rw [hsh.2 hpos] at hx
    cases hx
    exact ⟨div_nonneg hb hpos.le, (div_le_one hpos).mpr hle⟩
  · rw [hsh.1 (not_lt.mp hpos)] at hx
    cases hx

/-- Without prices every outcome that conserves quantities is settled. -/
theorem conserves_settled {df : DF} {ts : List Transaction} (h : Conserves df ts) :
    Settled (roundedBook (fun _ => 0) df) ts := by
  refine ⟨⟨[ts], by simp, ?_⟩, fun i => by rw [(roundedBook_flags i).2.2]; exact h.bounded i⟩
  intro p hp
  rw [List.mem_singleton] at hp
  subst hp
  have h0 : ∀ i, priceOf (roundedBook (fun _ => 0) df) i = 0 := by
    intro i
    unfold priceOf
    rw [roundedBook_get]
    cases df[i]? <;> rfl
  refine ⟨fun t ht => by rw [roundedBook_length]; exact (h.entries t ht).1, fun t ht => (h.entries t ht).2, ?_,
    0, fun t _ _ => ?_⟩
  · rw [roundedBook_bought, roundedBook_sold]
    exact h.balanced
  · rw [h0]
    exact ⟨fun _ => le_refl _, fun _ => le_refl _⟩

/-- Whatever conserves quantities is a trade plan, possibly between incompatible bids, with the same
gains. -/
theorem conserves_plan {df : DF} (ht : IsTable df) (hq : ∀ r ∈ df, 0 ≤ r.quantity) {ts : List Transaction}
    (h : Conserves df ts) : ∃ q, TradePlan df q ∧
      ∀ v, planWelfare df v q = boughtValue df v ts - soldValue df v ts := by
  obtain ⟨q, h1, _, _, h4⟩ := (conserves_settled h).plan (roundedBook_table ht) (roundedBook_qty hq)
  refine ⟨q, ⟨h1.nonneg, fun i j hij => ?_, fun i => ?_, fun j => ?_⟩, fun v => ?_⟩
  · have := h1.pair i j hij
    rw [(roundedBook_flags i).1, (roundedBook_flags j).2.1] at this
    exact this
  · have := h1.buyer i
    rw [(roundedBook_flags i).2.2, roundedBook_length] at this
    exact this
  · have := h1.seller j
    rw [(roundedBook_flags j).2.2, roundedBook_length] at this
    exact this
  · have := h4 v
    unfold planWelfare boughtValue soldValue at this
    simp only [(roundedBook_flags _).1, (roundedBook_flags _).2.1, roundedBook_length] at this
    exact this

theorem weighted_le {l : List Transaction} {f g : Transaction → ℚ} {ε : ℚ}
    (h : ∀ t ∈ l, t.quantity * f t ≤ t.quantity * g t + ε * t.quantity) :
    (l.map (fun t => t.quantity * f t)).sum ≤
      (l.map (fun t => t.quantity * g t)).sum + ε * (l.map (fun t => t.quantity)).sum := by
  induction l with
  | nil => simp
  | cons t l ih =>
    have h1 := h t List.mem_cons_self
    have h2 := ih (fun t' h' => h t' (List.mem_cons_of_mem _ h'))
    simp only [List.map_cons, List.sum_cons]
    linarith

/-- If the prices are respected up to `ε`, the traders lose at most `ε` on each side of each unit. -/
theorem within_gains {df : DF} {ts : List Transaction} {ε : ℚ} (hC : Conserves df ts)
    (hP : PricesWithin ε df ts) : -(2 * ε * boughtQty df ts) ≤ gains df (priceOf df) ts := by
  have h1 : paid df ts ≤ boughtValue df (priceOf df) ts + ε * boughtQty df ts := by
    unfold paid boughtValue boughtQty
    apply weighted_le
    intro t ht
    obtain ⟨t1, t2⟩ := List.mem_filter.mp ht
    rcases lt_or_eq_of_le (hC.entries t t1).2 with h | h
    · have := (hP t t1 h).1 t2
      nlinarith
    · rw [← h]; simp
  have h2 : soldValue df (priceOf df) ts ≤ received df ts + ε * soldQty df ts := by
    unfold received soldValue soldQty
    apply weighted_le
    intro t ht
    obtain ⟨t1, t2⟩ := List.mem_filter.mp ht
    rcases lt_or_eq_of_le (hC.entries t t1).2 with h | h
    · have := (hP t t1 h).2 t2
      nlinarith
    · rw [← h]; simp
  rw [← hC.balanced] at h2
  unfold gains
  linarith

theorem conserves_welfare {df : DF} (ht : IsTable df) (hq : ∀ r ∈ df, 0 ≤ r.quantity) {ts : List Transaction}
    (hC : Conserves df ts) (hm : paid df ts = received df ts) {best : ℚ}
    (hB : BestWelfare df (priceOf df) best) : gains df (priceOf df) ts ≤ best := by
  obtain ⟨q, h1, h2⟩ := conserves_plan ht hq hC
  have := hB.2 ⟨q, h1, rfl⟩
  rw [h2] at this
  unfold gains
  linarith

/-- What holds of every run with merging: quantities are conserved, money is balanced and the prices are
respected up to the rounding. -/
theorem merging_outcome {S : Sorter} {smp : Sampler} {call : AlgoCall} {df : DF} (ht : IsTable df)
    (hp : GroupQty df) (hu : Merging call) {tm : TransactionManager} {ex : Extra}
    (h : runAlgo S smp call df = .ok (tm, ex)) : Conserves df tm.trans ∧
      paid df tm.trans = received df tm.trans ∧ (CoefOk call → PricesWithin (1 / 200000) df tm.trans) := by
  cases call with
  | huang => exact hu.elim
  | other name => exact hu.elim
  | muda merge coin =>
    have hu : merge = true := hu
    subst hu
    have hm := (C67_muda_fees S smp true coin df ht hp tm ex h none).1
    rw [market_profit ht] at hm
    refine ⟨C57_muda S smp coin df ht hp tm ex h, ?_, fun _ => (C58_muda_partial S smp coin df ht hp tm ex h).1⟩
    simp at hm
    linarith
  | p2p merge c choice =>
    have hu : merge = true := hu
    subst hu
    have hm := C67_p2p_zero S smp true c choice df ht hp tm ex h none
    rw [market_profit ht] at hm
    obtain ⟨tm', ex', e1, hC⟩ := C57_p2p S smp c choice df ht hp
    rw [h] at e1
    cases e1
    refine ⟨hC, ?_, fun hc => ?_⟩
    · simp at hm
      linarith
    · obtain ⟨tm', ex', e1, hP, _⟩ := C58_p2p_partial S smp c hc.1 hc.2 choice df ht hp
      rw [h] at e1
      cases e1
      exact hP

/-! ## C99 -/

/-- **C99, volume (what holds for all prices).** A run with merging trades no more than the best volume of
the book with its prices rounded to five decimals. -/
theorem C99_rounded_volume (S : Sorter) (smp : Sampler) (call : AlgoCall) (df : DF) (ht : IsTable df)
    (hp : GroupQty df) (hu : Merging call) (tm : TransactionManager) (ex : Extra)
    (h : runAlgo S smp call df = .ok (tm, ex)) (rd : ℚ → ℚ) (hrd : ∀ p, IsRounded 5 p (rd p)) (best : ℚ)
    (hB : BestVolume (roundedBook rd df) best) :
    0 ≤ boughtQty df tm.trans ∧ boughtQty df tm.trans ≤ best := by
  obtain rfl : rd = npRound 5 := funext (fun p => isRounded_unique (hrd p) (npRound_isRounded 5 p))
  have hset := (run_settled_merged ht hp hu h).1
  obtain ⟨q, h1, h2, h3, _⟩ := hset.plan (roundedBook_table ht) (roundedBook_qty hp.1)
  refine ⟨boughtQty_nonneg hset.known.2.1, ?_⟩
  have := hB.2 ⟨q, h1, h2, rfl⟩
  rw [h3, roundedBook_bought] at this
  exact this

/-- **C99, volume, partial.** With prices of at most five decimals, `percentage_traded` is between 0 and 1
after every run, with and without merging.

Missing: prices with more decimals, for which it is false, see `C99_refuted_traded`. -/
theorem C99_traded_partial (S : Sorter) (smp : Sampler) (call : AlgoCall) (df : DF) (ht : IsTable df)
    (hp : GroupQty df) (hsg : SignsOk call df) (hd : DecimalPrices df) (tm : TransactionManager) (ex : Extra)
    (h : runAlgo S smp call df = .ok (tm, ex)) (solve : Solver)
    (hs : IsOptimum (volumeLP df) (solve (volumeLP df))) (x : ℚ)
    (hx : percentageTraded solve df tm.trans = some x) : 0 ≤ x ∧ x ≤ 1 :=
  settled_traded ht hp.1 (run_sound_decimals ht hp hsg hd h).1 solve hs x hx

/-- **C99, welfare, partial.** After a run with merging `percentage_welfare` is at most 1. It is at least 0
if the prices have at most five decimals, and in any case the traders together lose at most 0.00001 per unit.

Missing: at least 0 for all prices, which is false, see `C99_refuted_welfare`. -/
theorem C99_welfare_partial (S : Sorter) (smp : Sampler) (call : AlgoCall) (df : DF) (ht : IsTable df)
    (hp : GroupQty df) (hu : Merging call) (hc : CoefOk call) (tm : TransactionManager) (ex : Extra)
    (h : runAlgo S smp call df = .ok (tm, ex)) (solve : Solver)
    (hs : IsOptimum (utilityLP df (fun _ => none)) (solve (utilityLP df (fun _ => none))))
    (res : Option ResPrices) : ∃ best, BestWelfare df (priceOf df) best ∧
      Share (gains df (priceOf df) tm.trans) best (percentageWelfare solve df tm.trans res) ∧
      -(boughtQty df tm.trans / 100000) ≤ gains df (priceOf df) tm.trans ∧
      ∀ x, percentageWelfare solve df tm.trans res = some x →
        x ≤ 1 ∧ -(boughtQty df tm.trans / 100000) / best ≤ x ∧ (DecimalPrices df → 0 ≤ x) := by
  have hq := hp.1
  obtain ⟨hC, hm, hP⟩ := merging_outcome ht hp hu h
  obtain ⟨best, hB, hsh⟩ := C38_value df ht hq tm.trans res solve hs
  have hlow : -(boughtQty df tm.trans / 100000) ≤ gains df (priceOf df) tm.trans := by
    have := within_gains hC (hP hc)
    linarith
  refine ⟨best, hB, hsh, hlow, ?_⟩
  intro x hx
  by_cases hpos : 0 < best
  · rw [hsh.2 hpos] at hx
    cases hx
    refine ⟨(div_le_one hpos).mpr (conserves_welfare ht hq hC hm hB),
      div_le_div_of_nonneg_right hlow hpos.le, fun hd => div_nonneg ?_ hpos.le⟩
    have hS := (run_sound_decimals ht hp hu.signs hd h).2 hc
    have := within_gains (ε := 0) hC (fun t ht0 h0 => by
      have := hS.rational t ht0 h0.ne'
      rw [add_zero, sub_zero]
      exact this)
    linarith
  · rw [hsh.1 (not_lt.mp hpos)] at hx
    cases hx

/-- **C99, profits, partial.** With prices of at most five decimals no user loses in the `profits` statistic
after a run with merging, and the market maker's profit is not negative.

Missing: prices with more decimals, for which users may lose, see `C99_refuted_profits`. -/
theorem C99_no_losses_partial (m m' : Market) (S : Sorter) (smp : Sampler) (call : AlgoCall)
    (hp : GroupQty m.bm.getDf) (hd : DecimalPrices m.bm.getDf) (hu : Merging call) (hc : CoefOk call)
    (tm : TransactionManager) (ex : Extra) (h : m.run S smp call = (m', .ok (tm, ex))) (solve : Solver)
    (res : Option ResPrices) (exclude : List String) (pr : Profits)
    (hpr : (m'.statistics solve res exclude).2.1.profits = some pr) :
    (∃ us, UsersOf m.bm.getDf us ∧ pr.playerBid.length = us.length) ∧
    (∀ y ∈ pr.playerBid, 0 ≤ y) ∧ 0 ≤ pr.market := by
  have ht : IsTable m.bm.getDf := isTable_labelFrom _
  unfold Market.run at h
  cases hrun : runAlgo S smp call m.bm.getDf with
  | error e => rw [hrun] at h; cases h
  | ok o =>
    obtain ⟨tm0, ex0⟩ := o
    rw [hrun] at h
    obtain ⟨rfl, h⟩ := Prod.mk.inj h
    cases h
    have hsound := (run_sound_decimals ht hp hu.signs hd hrun).2 hc
    obtain ⟨k1, k2, k3⟩ := hsound.toSettled.known
    set fees : Option (List ℚ) := (match ex with
      | .muda _ _ _ _ fees => some fees
      | _ => none) with hfees
    have hpr' : pr = (calculateProfits m.bm.getDf tm.trans res fees).1 := by
      unfold Market.statistics at hpr
      simp only at hpr
      split at hpr
      · cases hpr
      · rw [← Option.some.inj hpr, hfees]
        cases ex <;> rfl
    obtain ⟨us, hus, he⟩ := C40_player m.bm.getDf ht tm.trans res fees
    rw [hpr']
    refine ⟨⟨us, hus, by rw [he, List.length_map]⟩, ?_, ?_⟩
    · intro y hy
      rw [he] at hy
      obtain ⟨u, _, rfl⟩ := List.mem_map.mp hy
      exact surplus_nonneg k2 hsound.rational u
    · rw [market_profit ht]
      apply add_nonneg
      · have := hsound.budget
        linarith
      · apply List.sum_nonneg
        cases call with
        | huang => exact hu.elim
        | other name => exact hu.elim
        | muda merge coin =>
          rcases (C67_muda_fees S smp merge coin _ ht hp tm _ hrun res).2 with
            h0 | ⟨_, _, _, _, _, h0, h1, _⟩
          · subst h0; intro x hx; cases hx
          · subst h0; exact h1
        | p2p merge c choice =>
          have hu : merge = true := hu
          subst hu
          obtain ⟨nb, mp, hm, hM⟩ := merge_spec_qty smp ht hp
          obtain ⟨tm1, g⟩ := mechanism_merge_inv smp (p2pRandom c choice) hm hrun
          rcases mechRun_cases (p2pRandom c choice) nb with e | e
          · rw [e] at g; cases g; intro x hx; cases hx
          · rw [e] at g
            obtain ⟨_, _, g1, _⟩ := p2p_run c choice nb hM.table
            rw [g] at g1; cases g1; intro x hx; cases hx

/-- Two of the bids merge, and all prices have at most five decimals. -/
def decimalMarket : Market :=
  { Market.init with bm := ⟨5, [⟨2, 6, 0, true, 0, true⟩, ⟨1, 5, 1, true, 0, true⟩,
    ⟨1, 6, 2, true, 0, true⟩, ⟨1, 1, 3, false, 0, true⟩, ⟨2, 2, 4, false, 0, true⟩]⟩ }

/-- The hypotheses hold for `decimalMarket`, which trades three units. -/
example : Pos decimalMarket.bm.getDf ∧ DecimalPrices decimalMarket.bm.getDf ∧
    boughtQty decimalMarket.bm.getDf (decimalMarket.run stableSorter headSampler
      (.p2p true (1 / 2) (fun _ => 0))).1.transactions.trans = 3 := by
  refine ⟨by decide +kernel, ?_, by decide +kernel⟩
  intro r hr
  have h : ∀ r ∈ decimalMarket.bm.getDf, r.price = ((⌊r.price⌋ * 100000 : ℤ) : ℚ) / 10 ^ 5 := by
    decide +kernel
  exact ⟨_, h r hr⟩

/-- A million units are offered at 1.000004 and wanted at 1.000001. -/
def closeMarket : Market :=
  { Market.init with bm := ⟨4, [⟨1000000, 1000001 / 1000000, 0, true, 0, true⟩, ⟨1, 3, 1, true, 0, true⟩,
    ⟨1000000, 1000004 / 1000000, 2, false, 0, true⟩, ⟨1, 2, 3, false, 0, true⟩]⟩ }

/-- Peer to peer trading with merging. -/
def closeCall : AlgoCall := .p2p true (1 / 2) (fun _ => 0)

theorem closeMarket_run : runAlgo stableSorter headSampler closeCall closeMarket.bm.getDf = .ok
    (⟨4, [⟨0, 1000000, 1, 2, false⟩, ⟨2, 1000000, 1, 0, false⟩, ⟨1, 1, 5 / 2, 3, false⟩,
      ⟨3, 1, 5 / 2, 1, false⟩]⟩, .p2p [[(0, 2), (1, 3)]]) := by
  decide +kernel

theorem closeMarket_table : IsTable closeMarket.bm.getDf := by decide +kernel

theorem closeMarket_pos : Pos closeMarket.bm.getDf := by decide +kernel

theorem closeCall_ok : Merging closeCall ∧ CoefOk closeCall :=
  ⟨rfl, by simp only [CoefOk, closeCall]; norm_num⟩

/-- The plan that gives the buyer at 3 the unit of the seller at 2. -/
theorem closeMarket_plan : TradePlan closeMarket.bm.getDf (fun i j => if i = 1 ∧ j = 3 then 1 else 0) := by
  have hq : ∀ r ∈ closeMarket.bm.getDf, 0 ≤ r.quantity := fun r hr => (closeMarket_pos r hr).1.le
  refine ⟨?_, ?_, ?_, ?_⟩
  · intro i j
    split <;> norm_num
  · intro i j h
    split at h
    · rename_i hij
      obtain ⟨rfl, rfl⟩ := hij
      decide +kernel
    · exact absurd rfl h
  · intro i
    by_cases h : i = 1
    · subst h; decide +kernel
    · simp only [h, false_and, if_false, List.map_const', List.sum_replicate, smul_zero]
      exact qtyOf_nonneg' hq i
  · intro j
    by_cases h : j = 3
    · subst h; decide +kernel
    · simp only [h, and_false, if_false, List.map_const', List.sum_replicate, smul_zero]
      exact qtyOf_nonneg' hq j

/-- C99 as claimed for `percentage_traded`. -/
def Spec.MergedTradedShare : Prop :=
  ∀ (S : Sorter) (smp : Sampler) (call : AlgoCall) (df : DF), IsTable df → Pos df → Merging call →
    CoefOk call → ∀ tm ex, runAlgo S smp call df = .ok (tm, ex) → ∀ solve : Solver,
      IsOptimum (volumeLP df) (solve (volumeLP df)) →
        ∀ x, percentageTraded solve df tm.trans = some x → 0 ≤ x ∧ x ≤ 1

/-- C99 as claimed for `percentage_welfare`. -/
def Spec.MergedWelfareShare : Prop :=
  ∀ (S : Sorter) (smp : Sampler) (call : AlgoCall) (df : DF), IsTable df → Pos df → Merging call →
    CoefOk call → ∀ tm ex, runAlgo S smp call df = .ok (tm, ex) → ∀ solve : Solver,
      IsOptimum (utilityLP df (fun _ => none)) (solve (utilityLP df (fun _ => none))) →
        ∀ x, percentageWelfare solve df tm.trans none = some x → 0 ≤ x ∧ x ≤ 1

/-- C99 as claimed for the `profits` of the users. -/
def Spec.MergedNoLosses : Prop :=
  ∀ (m m' : Market) (S : Sorter) (smp : Sampler) (call : AlgoCall), Pos m.bm.getDf → Merging call →
    CoefOk call → ∀ tm ex, m.run S smp call = (m', .ok (tm, ex)) → ∀ (solve : Solver) (pr : Profits),
      (m'.statistics solve none []).2.1.profits = some pr → ∀ y ∈ pr.playerBid, 0 ≤ y

/-- **C99, volume, refuted.** In `closeMarket` only the unit of the buyer at 3 can be traded between
compatible bids, and the run trades 1000001 units: the percentage is 1000001. -/
theorem C99_refuted_traded : ¬ MergedTradedShare := by
  intro h
  have hq : ∀ r ∈ closeMarket.bm.getDf, 0 ≤ r.quantity := fun r hr => (closeMarket_pos r hr).1.le
  obtain ⟨solve, hs, _⟩ := exists_solver _ closeMarket_table hq
  obtain ⟨best, hB, hsh⟩ := C37_value _ closeMarket_table hq
    [⟨0, 1000000, 1, 2, false⟩, ⟨2, 1000000, 1, 0, false⟩, ⟨1, 1, 5 / 2, 3, false⟩, ⟨3, 1, 5 / 2, 1, false⟩]
    (by decide +kernel) (by decide +kernel) solve hs
  have e : boughtQty closeMarket.bm.getDf [⟨0, 1000000, 1, 2, false⟩, ⟨2, 1000000, 1, 0, false⟩,
      ⟨1, 1, 5 / 2, 3, false⟩, ⟨3, 1, 5 / 2, 1, false⟩] = 1000001 := by decide +kernel
  rw [e] at hsh
  have h1 : 1 ≤ best := hB.2 ⟨_, closeMarket_plan, by
    intro i j h
    by_cases hij : i = 1 ∧ j = 3
    · obtain ⟨rfl, rfl⟩ := hij
      decide +kernel
    · beta_reduce at h
      rw [if_neg hij] at h
      exact absurd rfl h, by decide +kernel⟩
  have h2 : best ≤ 1 := by
    obtain ⟨q, p1, p2, rfl⟩ := hB.1
    have hz : ∀ i j, ¬ (isBuy closeMarket.bm.getDf i = true ∧ isSell closeMarket.bm.getDf j = true ∧
        priceOf closeMarket.bm.getDf j ≤ priceOf closeMarket.bm.getDf i) → q i j = 0 := by
      intro i j hn
      by_contra hc
      exact hn ⟨(p1.pair i j hc).1, (p1.pair i j hc).2, p2 i j hc⟩
    have hl : closeMarket.bm.getDf.length = 4 := rfl
    have hrow : ∀ i, i < 4 → i ≠ 1 → ∀ j, j < 4 → q i j = 0 := by
      intro i hi h1 j hj
      apply hz
      have : ∀ i < 4, i ≠ 1 → ∀ j < 4, ¬ (isBuy closeMarket.bm.getDf i = true ∧
          isSell closeMarket.bm.getDf j = true ∧
          priceOf closeMarket.bm.getDf j ≤ priceOf closeMarket.bm.getDf i) := by decide +kernel
      exact this i hi h1 j hj
    have hb := p1.buyer 1
    have hq1 : qtyOf closeMarket.bm.getDf 1 = 1 := by decide +kernel
    rw [hq1, hl] at hb
    unfold planVolume
    rw [hl]
    have hr : List.range 4 = [0, 1, 2, 3] := rfl
    rw [hr] at hb ⊢
    simp only [List.map_cons, List.map_nil, List.sum_cons, List.sum_nil] at hb ⊢
    rw [hrow 0 (by omega) (by omega) 0 (by omega), hrow 0 (by omega) (by omega) 1 (by omega),
      hrow 0 (by omega) (by omega) 2 (by omega), hrow 0 (by omega) (by omega) 3 (by omega),
      hrow 2 (by omega) (by omega) 0 (by omega), hrow 2 (by omega) (by omega) 1 (by omega),
      hrow 2 (by omega) (by omega) 2 (by omega), hrow 2 (by omega) (by omega) 3 (by omega),
      hrow 3 (by omega) (by omega) 0 (by omega), hrow 3 (by omega) (by omega) 1 (by omega),
      hrow 3 (by omega) (by omega) 2 (by omega), hrow 3 (by omega) (by omega) 3 (by omega)]
    linarith
  have hx := h stableSorter headSampler closeCall _ closeMarket_table closeMarket_pos closeCall_ok.1
    closeCall_ok.2 _ _ closeMarket_run solve hs _ (hsh.2 (by linarith))
  have : best = 1 := le_antisymm h2 h1
  rw [this] at hx
  norm_num at hx

/-- **C99, welfare, refuted.** In `closeMarket` the traders lose 2 although they could gain. -/
theorem C99_refuted_welfare : ¬ MergedWelfareShare := by
  intro h
  have hq : ∀ r ∈ closeMarket.bm.getDf, 0 ≤ r.quantity := fun r hr => (closeMarket_pos r hr).1.le
  obtain ⟨solve, _, hs⟩ := exists_solver _ closeMarket_table hq
  obtain ⟨best, hB, hsh⟩ := C38_value _ closeMarket_table hq
    [⟨0, 1000000, 1, 2, false⟩, ⟨2, 1000000, 1, 0, false⟩, ⟨1, 1, 5 / 2, 3, false⟩, ⟨3, 1, 5 / 2, 1, false⟩]
    none solve (hs _)
  have e : gains closeMarket.bm.getDf (priceOf closeMarket.bm.getDf) [⟨0, 1000000, 1, 2, false⟩,
      ⟨2, 1000000, 1, 0, false⟩, ⟨1, 1, 5 / 2, 3, false⟩, ⟨3, 1, 5 / 2, 1, false⟩] = -2 := by decide +kernel
  rw [e] at hsh
  have h1 : 1 ≤ best := hB.2 ⟨_, closeMarket_plan, by decide +kernel⟩
  have hx := (h stableSorter headSampler closeCall _ closeMarket_table closeMarket_pos closeCall_ok.1
    closeCall_ok.2 _ _ closeMarket_run solve (hs _) _ (hsh.2 (by linarith))).1
  have : (-2 : ℚ) / best < 0 := div_neg_of_neg_of_pos (by norm_num) (by linarith)
  linarith

/-- **C99, profits, refuted.** The seller at 1.000004 sells a million units at 1 and loses 4. -/
theorem C99_refuted_profits : ¬ MergedNoLosses := by
  intro h
  have hrun : closeMarket.run stableSorter headSampler closeCall =
      ((closeMarket.run stableSorter headSampler closeCall).1, .ok
        (⟨4, [⟨0, 1000000, 1, 2, false⟩, ⟨2, 1000000, 1, 0, false⟩, ⟨1, 1, 5 / 2, 3, false⟩,
          ⟨3, 1, 5 / 2, 1, false⟩]⟩, .p2p [[(0, 2), (1, 3)]])) := by
    unfold Market.run
    rw [closeMarket_run]
  have hpr : ((closeMarket.run stableSorter headSampler closeCall).1.statistics (fun _ => 0) none []).2.1.profits
      = some ⟨[1, 1 / 2, -4, 1 / 2], [1, 1 / 2, -4, 1 / 2], 0⟩ := by decide +kernel
  have := h closeMarket _ stableSorter headSampler closeCall closeMarket_pos closeCall_ok.1 closeCall_ok.2 _ _
    hrun (fun _ => 0) _ hpr (-4) (by decide +kernel)
  norm_num at this

end PyMarket
