import Verif.Model.Market
import Verif.Props.Profits
import Verif.Props.Statistics
import Verif.Props.MergedRuns

/-! # C67: nobody is reported with a loss after a run -/

set_option autoImplicit false

namespace PyMarket

open Spec

/-- Rational entries with non-negative quantities leave every user a non-negative surplus. -/
theorem surplus_nonneg {df : DF} {ts : List Transaction} (hn : ∀ t ∈ ts, 0 ≤ t.quantity)
    (hr : ∀ t ∈ ts, t.quantity ≠ 0 → (isBuy df t.bid = true → t.price ≤ priceOf df t.bid) ∧
      (isSell df t.bid = true → priceOf df t.bid ≤ t.price)) (u : ℤ) :
    0 ≤ surplusOf df (priceOf df) u ts := by
  unfold surplusOf
  have hsub : ∀ t ∈ transOf df u ts, t ∈ ts := fun t h => (List.mem_filter.mp h).1
  apply add_nonneg
  · rw [sub_nonneg]
    unfold boughtValue Spec.paid
    apply List.sum_le_sum
    intro t h
    obtain ⟨h1, h2⟩ := List.mem_filter.mp h
    rcases eq_or_ne t.quantity 0 with h0 | h0
    · rw [h0, zero_mul, zero_mul]
    · exact mul_le_mul_of_nonneg_left ((hr t (hsub t h1) h0).1 h2) (hn t (hsub t h1))
  · rw [sub_nonneg]
    unfold soldValue Spec.received
    apply List.sum_le_sum
    intro t h
    obtain ⟨h1, h2⟩ := List.mem_filter.mp h
    rcases eq_or_ne t.quantity 0 with h0 | h0
    · rw [h0, zero_mul, zero_mul]
    · exact mul_le_mul_of_nonneg_left ((hr t (hsub t h1) h0).2 h2) (hn t (hsub t h1))

theorem paid_split {df nb : DF} {mp : List (List ℕ)} (h : MergeSpec df nb mp) {t : Transaction}
    (ht : t.bid < nb.length) :
    paid df (splitT df mp t) = (if isBuy nb t.bid then t.quantity * t.price else 0) ∧
    received df (splitT df mp t) = (if isSell nb t.bid then t.quantity * t.price else 0) := by
  have hpr : ∀ t' ∈ splitT df mp t, t'.price = t.price := by
    intro t' h'
    obtain ⟨i, _, rfl⟩ := List.mem_map.mp h'
    rfl
  have e1 : paid df (splitT df mp t) = boughtQty df (splitT df mp t) * t.price := by
    unfold Spec.paid boughtQty
    rw [← List.sum_map_mul_right]
    congr 1
    apply List.map_congr_left
    intro t' h'
    rw [hpr t' (List.mem_filter.mp h').1]
  have e2 : received df (splitT df mp t) = soldQty df (splitT df mp t) * t.price := by
    unfold Spec.received soldQty
    rw [← List.sum_map_mul_right]
    congr 1
    apply List.map_congr_left
    intro t' h'
    rw [hpr t' (List.mem_filter.mp h').1]
  rw [e1, e2, h.boughtQty_split ht, h.soldQty_split ht]
  constructor <;> split <;> simp

theorem paid_lift {df nb : DF} {mp : List (List ℕ)} (h : MergeSpec df nb mp) {ts : List Transaction}
    (hts : ∀ t ∈ ts, t.bid < nb.length) :
    paid df (ts.flatMap (splitT df mp)) = paid nb ts ∧
    received df (ts.flatMap (splitT df mp)) = received nb ts := by
  induction ts with
  | nil => exact ⟨rfl, rfl⟩
  | cons t ts ih =>
    obtain ⟨h1, h2⟩ := ih (fun t' ht' => hts t' (List.mem_cons_of_mem _ ht'))
    obtain ⟨g1, g2⟩ := paid_split h (hts t List.mem_cons_self)
    rw [List.flatMap_cons, paid_append, received_append, h1, h2, g1, g2]
    unfold Spec.paid Spec.received
    rw [List.filter_cons, List.filter_cons]
    constructor <;> split_ifs <;> simp

/-- What is paid is received, on one table. -/
theorem p2p_money (c : ℚ) (choice : ℕ → ℕ) {df : DF} (ht : IsTable df) (hq : ∀ r ∈ df, 0 ≤ r.quantity)
    {tm : TransactionManager} {ex : Extra} (h : mechRun (p2pRandom c choice) df = .ok (tm, ex)) :
    paid df tm.trans = received df tm.trans := by
  rcases mechRun_cases (p2pRandom c choice) df with e | e
  · rw [e] at h; cases h; rfl
  · rw [e] at h; exact (settled_p2p ht hq h).2

theorem muda_money {S : Sorter} {coin : ℕ → Bool} {df : DF} (ht : IsTable df) (hq : ∀ r ∈ df, 0 ≤ r.quantity)
    {tm : TransactionManager} {ex : Extra} (h : mechRun (muda S coin) df = .ok (tm, ex)) :
    paid df tm.trans = received df tm.trans ∧
    (ex = .empty ∨ ∃ left right pl pr fees, ex = .muda left right pl pr fees ∧ ∀ x ∈ fees, 0 ≤ x) := by
  rcases mechRun_cases (muda S coin) df with e | e
  · rw [e] at h; cases h; exact ⟨rfl, Or.inl rfl⟩
  · rw [e] at h
    obtain ⟨left, right, pl, pr, fees, rfl, hr⟩ := muda_run ht h
    obtain ⟨hsplit, ol, or⟩ := hr.halves ht hq
    refine ⟨?_, Or.inr ⟨left, right, pl, pr, fees, rfl, hr.fees_nonneg ht hq⟩⟩
    rw [hsplit, paid_append, received_append, (half_volume ht ol).2, (half_volume ht or).2]

/-- **C67, P2P.** With and without merging and for any price coefficient, the market maker's reported
profit is zero after a run of P2P. -/
theorem C67_p2p_zero (S : Sorter) (smp : Sampler) (merge : Bool) (c : ℚ) (choice : ℕ → ℕ) (df : DF)
    (ht : IsTable df) (hp : GroupQty df) (tm : TransactionManager) (ex : Extra)
    (h : runAlgo S smp (.p2p merge c choice) df = .ok (tm, ex)) (res : Option ResPrices) :
    (calculateProfits df tm.trans res none).1.market = 0 := by
  rw [market_profit ht]
  have : paid df tm.trans = received df tm.trans := by
    cases merge with
    | false => exact p2p_money c choice ht hp.1 h
    | true =>
      obtain ⟨nb, mp, hm, hM⟩ := merge_spec_qty smp ht hp
      obtain ⟨tm0, ex0, hrun, hC, _⟩ := p2p_conserves c choice hM.table (fun r hr => (hM.qty r hr).le)
      have hlt := fun t htt => (hC.entries t htt).1
      obtain ⟨tm', e1, e2⟩ := mechanism_merge smp (p2pRandom c choice) hm hM hrun hlt
      have h : mechanism smp true (p2pRandom c choice) df = .ok (tm, ex) := h
      rw [e1] at h
      cases h
      rw [e2, (paid_lift hM hlt).1, (paid_lift hM hlt).2]
      exact p2p_money c choice hM.table (fun r hr => (hM.qty r hr).le) hrun
  simp [this]

/-- **C67, MUDA.** With and without merging, the market maker's reported profit after a run of MUDA is
the sum of the fees, none of which is negative. -/
theorem C67_muda_fees (S : Sorter) (smp : Sampler) (merge : Bool) (coin : ℕ → Bool) (df : DF)
    (ht : IsTable df) (hp : GroupQty df) (tm : TransactionManager) (ex : Extra)
    (h : runAlgo S smp (.muda merge coin) df = .ok (tm, ex)) (res : Option ResPrices) :
    (calculateProfits df tm.trans res none).1.market = 0 ∧
    (ex = .empty ∨ ∃ left right pl pr fees, ex = .muda left right pl pr fees ∧ (∀ x ∈ fees, 0 ≤ x) ∧
      (calculateProfits df tm.trans res (some fees)).1.market = fees.sum) := by
  have key : paid df tm.trans = received df tm.trans ∧
      (ex = .empty ∨ ∃ left right pl pr fees, ex = .muda left right pl pr fees ∧
        ∀ x ∈ fees, 0 ≤ x) := by
    cases merge with
    | false => exact muda_money ht hp.1 h
    | true =>
      obtain ⟨nb, mp, hm, hM⟩ := merge_spec_qty smp ht hp
      have h : mechanism smp true (muda S coin) df = .ok (tm, ex) := h
      obtain ⟨tm0, hrun⟩ := mechanism_merge_inv smp (muda S coin) hm h
      have hC := (muda_mechRun hM.table (fun r hr => (hM.qty r hr).le) hrun).1
      have hlt := fun t htt => (hC.entries t htt).1
      obtain ⟨tm', e1, e2⟩ := mechanism_merge smp (muda S coin) hm hM hrun hlt
      rw [e1] at h
      cases h
      obtain ⟨g1, g2⟩ := muda_money hM.table (fun r hr => (hM.qty r hr).le) hrun
      refine ⟨?_, g2⟩
      rw [e2, (paid_lift hM hlt).1, (paid_lift hM hlt).2]
      exact g1
  rw [market_profit ht]
  refine ⟨by simp [key.1], ?_⟩
  rcases key.2 with he | ⟨left, right, pl, pr, fees, he, hf⟩
  · exact Or.inl he
  · refine Or.inr ⟨left, right, pl, pr, fees, he, hf, ?_⟩
    rw [market_profit ht]
    simp [key.1]

/-- **C67.** After a successful run of any mechanism with its default arguments (and, for P2P, a price
coefficient in [0, 1]), the `profits` statistic of the market lists one number per user, in increasing
order of the user ids, none of them negative, and a market maker's profit that is not negative. -/
theorem C67_no_losses (m m' : Market) (S : Sorter) (smp : Sampler) (call : AlgoCall)
    (hp : GroupQty m.bm.getDf) (hsg : SignsOk call m.bm.getDf) (hu : Unmerged call) (hc : CoefOk call)
    (tm : TransactionManager) (ex : Extra) (h : m.run S smp call = (m', .ok (tm, ex))) (solve : Solver)
    (res : Option ResPrices) (exclude : List String) (pr : Profits)
    (hpr : (m'.statistics solve res exclude).2.1.profits = some pr) :
    (∃ us, UsersOf m.bm.getDf us ∧ pr.playerBid.length = us.length) ∧
    (∀ y ∈ pr.playerBid, 0 ≤ y) ∧ 0 ≤ pr.market := by
  have ht : IsTable m.bm.getDf := isTable_labelFrom _
  unfold Market.run at h
  cases hrun : runAlgo S smp call m.bm.getDf with
  | error e => rw [hrun] at h; cases h
  | ok o =>
    obtain ⟨tm0, ex0⟩ := o
    rw [hrun] at h
    obtain ⟨rfl, h⟩ := Prod.mk.inj h
    cases h
    have hsound := (run_settled ht hp hsg hu hrun).2 hc
    obtain ⟨k1, k2, k3⟩ := hsound.toSettled.known
    set fees : Option (List ℚ) := (match ex with
      | .muda _ _ _ _ fees => some fees
      | _ => none) with hfees
    have hpr' : pr = (calculateProfits m.bm.getDf tm.trans res fees).1 := by
      unfold Market.statistics at hpr
      simp only at hpr
      split at hpr
      · cases hpr
      · rw [← Option.some.inj hpr, hfees]
        cases ex <;> rfl
    obtain ⟨us, hus, he⟩ := C40_player m.bm.getDf ht tm.trans res fees
    rw [hpr']
    refine ⟨⟨us, hus, by rw [he, List.length_map]⟩, ?_, ?_⟩
    · intro y hy
      rw [he] at hy
      obtain ⟨u, _, rfl⟩ := List.mem_map.mp hy
      exact surplus_nonneg k2 hsound.rational u
    · rw [market_profit ht]
      apply add_nonneg
      · have := hsound.budget
        linarith
      · have hnn : ∀ x ∈ fees.getD [], 0 ≤ x := by
          cases ex with
          | muda left right pl pr fs =>
            have hcall : ∃ merge coin, call = .muda merge coin := by
              cases call with
              | huang =>
                rcases huang_market_signed S smp ht hp with ⟨_, g1, _⟩ | ⟨_, _, _, _, g1, _⟩ <;>
                  rw [hrun] at g1 <;> cases g1
              | muda merge coin => exact ⟨merge, coin, rfl⟩
              | p2p merge c choice =>
                have hu : merge = false := hu
                subst hu
                have h' : mechRun (p2pRandom c choice) m.bm.getDf = .ok (tm, _) := hrun
                rcases mechRun_cases (p2pRandom c choice) m.bm.getDf with e | e
                · rw [e] at h'; cases h'
                · rw [e] at h'
                  obtain ⟨_, _, g1, _⟩ := p2p_run c choice m.bm.getDf ht
                  rw [h'] at g1; cases g1
              | other name => exact hu.elim
            obtain ⟨merge, coin, rfl⟩ := hcall
            rcases (C67_muda_fees S smp merge coin _ ht hp tm _ hrun res).2 with
              h0 | ⟨_, _, _, _, _, h0, h1, _⟩
            · cases h0
            · cases h0; exact h1
          | _ => intro x hx; cases hx
        exact List.sum_nonneg hnn

/-- A market with two buyers and two sellers. -/
def lossMarket : Market :=
  { Market.init with bm := ⟨4, [⟨2, 6, 0, true, 0, true⟩, ⟨1, 5, 1, true, 0, true⟩,
    ⟨1, 1, 2, false, 0, true⟩, ⟨3, 2, 3, false, 0, true⟩]⟩ }

/-- The hypotheses hold for `lossMarket`: Huang's auction leaves the market maker a profit, P2P and
MUDA (with these coins) leave none. -/
example : Pos lossMarket.bm.getDf ∧
    (lossMarket.run stableSorter headSampler .huang).1.transactions.trans ≠ [] ∧
    ((lossMarket.run stableSorter headSampler .huang).1.statistics (fun _ => 0) none []).2.1.profits =
      some ⟨[1, 0, 1, 0], [1, 0, 1, 0], 3⟩ ∧
    ((lossMarket.run stableSorter headSampler (.p2p false (1 / 2) (fun _ => 0))).1.statistics
      (fun _ => 0) none []).2.1.profits = some ⟨[9 / 2, 3 / 2, 5 / 2, 7 / 2],
        [9 / 2, 3 / 2, 5 / 2, 7 / 2], 0⟩ ∧
    ((lossMarket.run stableSorter headSampler (.muda false (fun i => i == 0 || i == 2))).1.statistics
      (fun _ => 0) none []).2.1.profits = some ⟨[4, 0, 1, 0], [4, 0, 1, 0], 0⟩ := by
  decide +kernel

end PyMarket
