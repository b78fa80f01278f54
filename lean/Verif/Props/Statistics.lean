import Verif.Lemmas.Pools
import Verif.Lemmas.HuangSigned
import Verif.Props.Huang
import Verif.Props.P2P
import Verif.Props.Muda

/-! # C37, C38, C39, C43: the welfare and volume statistics -/

set_option autoImplicit false

namespace PyMarket

open Spec

/-! ## C39 -/

/-- **C39, volume.** The program of `maximum_traded_volume` has an optimal value; it is not negative
and it is the largest volume of a trade plan between compatible bids. -/
theorem C39_volume (df : DF) (ht : IsTable df) (hq : ∀ r ∈ df, 0 ≤ r.quantity) :
    (∃ x, IsOptimum (volumeLP df) x) ∧ ∀ x, IsOptimum (volumeLP df) x → 0 ≤ x ∧
      BestVolume df x := by
  rw [volumeLP_eq]
  obtain ⟨h1, h2⟩ := tradeLP_optimum ht hq
    (fun i j => decide (priceOf df j ≤ priceOf df i)) (fun _ => 1)
  refine ⟨h1, fun x hx => ⟨h2 x hx, ?_⟩⟩
  unfold IsOptimum at hx
  rw [tradeLP_values ht hq] at hx
  have e : {y | ∃ q, TradePlan df q ∧ (∀ i j, q i j ≠ 0 →
      decide (priceOf df j ≤ priceOf df i) = true) ∧
      y = sum2 df.length (fun i j => 1 * q i j)} =
      {y | ∃ q, TradePlan df q ∧ Compatible df q ∧ y = planVolume df q} := by
    unfold Compatible planVolume sum2
    simp only [decide_eq_true_eq, one_mul]
  unfold BestVolume
  rw [← e]
  exact hx

/-- **C39, welfare.** The program of `maximum_aggregated_utility` has an optimal value; it is not
negative and it is the largest gain from trade of a trade plan, each bid valued at its reservation
price or, without one, at the submitted price. -/
theorem C39_welfare (df : DF) (ht : IsTable df) (hq : ∀ r ∈ df, 0 ≤ r.quantity) (res : ResPrices) :
    (∃ x, IsOptimum (utilityLP df res) x) ∧ ∀ x, IsOptimum (utilityLP df res) x → 0 ≤ x ∧
      BestWelfare df (valueOf df res) x := by
  rw [utilityLP_eq]
  obtain ⟨h1, h2⟩ := tradeLP_optimum ht hq (fun _ _ => true)
    (fun x => (fillRes res df x.1).getD 0 - (fillRes res df x.2).getD 0)
  refine ⟨h1, fun x hx => ⟨h2 x hx, ?_⟩⟩
  unfold IsOptimum at hx
  rw [tradeLP_values ht hq] at hx
  have e : {y | ∃ q, TradePlan df q ∧ (∀ i j, q i j ≠ 0 → true = true) ∧
      y = sum2 df.length (fun i j =>
        ((fillRes res df i).getD 0 - (fillRes res df j).getD 0) * q i j)} =
      {y | ∃ q, TradePlan df q ∧ y = planWelfare df (valueOf df res) q} := by
    unfold planWelfare sum2
    simp only [fillRes_value ht, implies_true, true_and]
  unfold BestWelfare
  rw [← e]
  exact hx

/-! ## Mechanism outcomes are sound -/

theorem capacity_of_nodup {df : DF} {ts : List Transaction}
    (hn : (ts.map (fun t => t.bid)).Nodup) (hc : ∀ t ∈ ts, t.quantity ≤ qtyOf df t.bid)
    (hq : ∀ r ∈ df, 0 ≤ r.quantity) (i : ℕ) : tradedBy ts i ≤ qtyOf df i := by
  by_cases h : ∃ t ∈ ts, t.bid = i
  · obtain ⟨t, h1, rfl⟩ := h
    rw [tradedBy_nodup hn h1]
    exact hc t h1
  · rw [tradedBy_not_mem (fun t h1 h2 => h ⟨t, h1, h2⟩)]
    exact qtyOf_nonneg' hq i

theorem sound_nil {df : DF} (hq : ∀ r ∈ df, 0 ≤ r.quantity) : Sound df [] where
  pools := ⟨[], rfl, by simp⟩
  capacity := fun i => qtyOf_nonneg' hq i
  rational := by simp
  budget := le_refl _

theorem sound_huang {df : DF} {ps pb q : ℚ} {ts : List Transaction} (hq : ∀ r ∈ df, 0 ≤ r.quantity)
    (h : HuangOut df ps pb q ts) : Sound df ts where
  pools := ⟨[ts], by simp, by
    intro p hp
    rw [List.mem_singleton] at hp
    subst hp
    exact ⟨fun t ht => (h.trade t ht).id_lt, fun t ht => (h.trade t ht).nonneg, h.balanced, ps,
      fun t ht _ => ⟨fun hb => h.lt.le.trans ((h.trade t ht).buyer hb).2,
        fun hs => ((h.trade t ht).seller hs).2⟩⟩⟩
  capacity := capacity_of_nodup h.nodup (fun t ht => (h.trade t ht).le) hq
  rational := by
    intro t ht _
    refine ⟨fun hb => ?_, fun hs => ?_⟩
    · have := (h.trade t ht).buyer hb; rw [this.1]; exact this.2
    · have := (h.trade t ht).seller hs; rw [this.1]; exact this.2
  budget := by
    rw [h.paid.1, h.paid.2, ← h.balanced]
    exact mul_le_mul_of_nonneg_left h.lt.le h.bought_nonneg

theorem pool_half {S : Sorter} {df : DF} (ht : IsTable df) {ids : List ℕ} {v : Val}
    {ts : List Transaction} (h : HalfOutcome S (half df ids) v ts) : Pool df ts := by
  have hb := (half_volume ht h).1
  rcases h with ⟨rfl, _⟩ | ⟨p, _, hh⟩
  · exact ⟨by simp, by simp, rfl, 0, by simp⟩
  · refine ⟨?_, ?_, hb, p, ?_⟩
    · intro t h
      obtain ⟨r, h1, h2, _⟩ := hh.mem t h
      rw [h2]; exact ht.label_lt (half_sub r h1)
    · intro t h
      obtain ⟨r, _, _, h2, _⟩ := hh.mem t h
      exact h2
    · intro t h _
      obtain ⟨r, h1, h2, _, _, _, _, _, h3, h4⟩ := hh.mem t h
      have hr := half_sub r h1
      rw [h2, ht.isBuy_eq hr, ht.isSell_eq hr, ht.price_eq hr]
      exact ⟨h3, fun hs => h4 (by simpa using hs)⟩

theorem sound_muda {S : Sorter} {coin : ℕ → Bool} {df : DF} (ht : IsTable df)
    (hq : ∀ r ∈ df, 0 ≤ r.quantity)
    {tm : TransactionManager} {ex : Extra} (h : muda S coin df = .ok (tm, ex)) :
    Sound df tm.trans := by
  obtain ⟨left, right, pl, pr, fees, rfl, hr⟩ := muda_run ht h
  obtain ⟨hsplit, ol, or⟩ := hr.halves ht hq
  obtain ⟨_, _, _, h4, h5⟩ := C25_balance S coin df ht hq tm left right pl pr fees h
  refine ⟨⟨⟨[tradesIn left tm.trans, tradesIn right tm.trans], ?_, ?_⟩, ?_⟩, ?_, ?_⟩
  · simp only [List.flatten_cons, List.flatten_nil, List.append_nil]
    exact hsplit.symm
  · intro p hp
    simp only [List.mem_cons, List.not_mem_nil, or_false] at hp
    rcases hp with rfl | rfl
    · exact pool_half ht ol
    · exact pool_half ht or
  · exact capacity_of_nodup h4 (fun t h => (h5 t h).2.2.1) hq
  · intro t h' _
    have := C26_rational S coin df ht hq tm left right pl pr fees h t h'
    exact ⟨this.1, this.2.1⟩
  · rw [hsplit, paid_append, received_append, (half_volume ht ol).2, (half_volume ht or).2]

theorem tradeRound_pools {df : DF} {c : ℚ} {q : ℕ → ℚ} {M : List (ℕ × ℕ)}
    (hM : ∀ p ∈ M, IsPair df p.1 p.2) (hq : ∀ i, 0 ≤ q i) :
    ∃ ps : List (List Transaction), ps.flatten = (tradeRound (priceOf df) c q M).2 ∧
      ∀ p ∈ ps, Pool df p ∧ paid df p = received df p := by
  induction M generalizing q with
  | nil => exact ⟨[], rfl, by simp⟩
  | cons m M ih =>
    have hm := hM m List.mem_cons_self
    obtain ⟨ps, h1, h2⟩ := ih (q := (tradeOne (priceOf df) c q m).1)
      (fun p h => hM p (List.mem_cons_of_mem _ h)) (by
        intro i
        have := (tradeRound_bounds (priceOf df) c q [m] (by
          intro p hp; rw [List.mem_singleton] at hp; subst hp; exact isPair_ne hm) hq i).1
        simpa [tradeRound] using this)
    refine ⟨(tradeOne (priceOf df) c q m).2 :: ps, ?_, ?_⟩
    · simp only [List.flatten_cons, h1, tradeRound]
    · intro p hp
      rcases List.mem_cons.mp hp with rfl | hp
      · refine ⟨⟨?_, tradeOne_nonneg hq, tradeOne_balanced hm, priceOf df m.2, ?_⟩, ?_⟩
        · intro t h
          rw [tradeOne_entries] at h
          split_ifs at h <;>
          · simp only [List.mem_cons, List.not_mem_nil, or_false] at h
            rcases h with rfl | rfl
            · exact isBuy_lt hm.1
            · exact isSell_lt hm.2
        · intro t h ht
          rw [tradeOne_entries] at h
          split_ifs at h with hp
          · simp only [List.mem_cons, List.not_mem_nil, or_false] at h
            rcases h with rfl | rfl
            · exact ⟨fun _ => hp, fun hs => by
                have := (isPair_flags hm).1; simp only at hs; rw [this] at hs; cases hs⟩
            · refine ⟨fun hb => ?_, fun _ => le_refl _⟩
              simp only [(isPair_flags hm).2] at hb
              cases hb
          · simp only [List.mem_cons, List.not_mem_nil, or_false] at h
            rcases h with rfl | rfl <;> exact absurd rfl ht
        · obtain ⟨f1, f2⟩ := isPair_flags hm
          rw [tradeOne_entries]
          unfold paid received
          split_ifs <;> simp [hm.1, hm.2, f1, f2]
      · exact h2 p hp

theorem settled_p2p {c : ℚ} {choice : ℕ → ℕ} {df : DF} (ht : IsTable df)
    (hn : ∀ r ∈ df, 0 ≤ r.quantity)
    {tm : TransactionManager} {ex : Extra} (h : p2pRandom c choice df = .ok (tm, ex)) :
    Settled df tm.trans ∧ paid df tm.trans = received df tm.trans := by
  obtain ⟨tm', R, h1, hR⟩ := p2p_run c choice df ht
  rw [h] at h1
  cases h1
  obtain ⟨tm', ex', h1, _, hcap, _⟩ := C20_conservation c choice df ht hn
  rw [h] at h1
  cases h1
  obtain ⟨ps, e1, e2⟩ := tradeRound_pools (c := c) hR.pair (qtyOf_nonneg hn)
  have e : tm.trans = ps.flatten := by rw [e1]; exact hR.loop.trans
  refine ⟨⟨⟨ps, e.symm, fun p hp => (e2 p hp).1⟩, hcap⟩, ?_⟩
  rw [e]
  clear e e1 hcap
  induction ps with
  | nil => rfl
  | cons p ps ih =>
    rw [List.flatten_cons, paid_append, received_append, (e2 p List.mem_cons_self).2,
      ih (fun p hp => e2 p (List.mem_cons_of_mem _ hp))]

theorem sound_p2p {c : ℚ} (hc0 : 0 ≤ c) (hc1 : c ≤ 1) {choice : ℕ → ℕ} {df : DF} (ht : IsTable df)
    (hn : ∀ r ∈ df, 0 ≤ r.quantity) {tm : TransactionManager} {ex : Extra}
    (h : p2pRandom c choice df = .ok (tm, ex)) : Sound df tm.trans := by
  obtain ⟨h1, h2⟩ := settled_p2p ht hn h
  refine ⟨h1, ?_, h2.symm.le⟩
  obtain ⟨tm', R, h3, h4⟩ := C21_price_rule c choice df ht
  rw [h] at h3
  cases h3
  intro t htt hq
  obtain ⟨b, s, _, hpair, hor, _, h5⟩ := h4 t htt
  obtain ⟨_, h6, _⟩ := h5 hq
  obtain ⟨h7, h8⟩ := h6 hc0 hc1
  obtain ⟨f1, f2⟩ := isPair_flags hpair
  rcases hor with ⟨hb, _⟩ | ⟨hb, _⟩
  · rw [hb]
    exact ⟨fun _ => h8, fun hs => by rw [f1] at hs; cases hs⟩
  · rw [hb]
    refine ⟨fun hs => ?_, fun _ => h7⟩
    rw [f2] at hs
    cases hs

/-- The mechanisms with their default arguments: `merge` is off for MUDA and P2P. -/
def Spec.Unmerged : AlgoCall → Prop
  | .huang => True
  | .muda merge _ => merge = false
  | .p2p merge _ _ => merge = false
  | .other _ => False

/-- The P2P price coefficient, if any, lies between 0 and 1. -/
def Spec.CoefOk : AlgoCall → Prop
  | .p2p _ c _ => 0 ≤ c ∧ c ≤ 1
  | _ => True

/-- Prices may have any sign, except that Huang's auction needs buying prices that are not negative. -/
def Spec.SignsOk : AlgoCall → DF → Prop
  | .huang, df => ∀ r ∈ df, r.buying = true → 0 ≤ r.price
  | _, _ => True

theorem Spec.NonNeg.signs {df : DF} (h : NonNeg df) (call : AlgoCall) : SignsOk call df := by
  cases call with
  | huang => exact fun r hr _ => (h r hr).2
  | _ => trivial

theorem sound_huang_signed {df : DF} {ps pb : ℚ} {ts : List Transaction} (hq : ∀ r ∈ df, 0 ≤ r.quantity)
    (hb0 : ∀ r ∈ df, r.buying = true → 0 ≤ r.price) (h : SignedOut df ps pb ts) : Sound df ts := by
  have hbuy : ∀ t ∈ ts, isBuy df t.bid = true → t.price = pb ∧ pb ≤ priceOf df t.bid := by
    intro t ht hb
    obtain ⟨h1, h2⟩ := (h.trade t ht).buyer hb
    refine ⟨h1, ?_⟩
    have hs := List.getElem?_eq_getElem (h.trade t ht).id_lt
    rw [priceOf_some hs] at h2 ⊢
    rw [isBuy_some hs] at hb
    rwa [max_eq_left (hb0 _ (List.mem_of_getElem? hs) hb)] at h2
  refine ⟨⟨⟨[ts], by simp, ?_⟩, capacity_of_nodup h.nodup (fun t ht => (h.trade t ht).le) hq⟩, ?_,
    h.budget⟩
  · intro p hp
    rw [List.mem_singleton] at hp
    subst hp
    exact ⟨fun t ht => (h.trade t ht).id_lt, fun t ht => (h.trade t ht).nonneg, h.balanced, ps,
      fun t ht _ => ⟨fun hb => h.lt.le.trans (hbuy t ht hb).2,
        fun hs => ((h.trade t ht).seller hs).2⟩⟩
  · intro t ht _
    refine ⟨fun hb => ?_, fun hs => ?_⟩
    · have := hbuy t ht hb; rw [this.1]; exact this.2
    · have := (h.trade t ht).seller hs; rw [this.1]; exact this.2

theorem mechRun_cases (algo : Algo) (df : DF) :
    mechRun algo df = .ok (TransactionManager.init, .empty) ∨ mechRun algo df = algo df := by
  unfold mechRun
  simp only
  split
  · exact Or.inr rfl
  · exact Or.inl rfl

theorem run_settled {S : Sorter} {smp : Sampler} {call : AlgoCall} {df : DF} (ht : IsTable df)
    (hp : GroupQty df) (hsg : SignsOk call df) (hu : Unmerged call) {tm : TransactionManager} {ex : Extra}
    (h : runAlgo S smp call df = .ok (tm, ex)) :
    Settled df tm.trans ∧ (CoefOk call → Sound df tm.trans) := by
  have hq := hp.1
  cases call with
  | huang =>
    have : Sound df tm.trans := by
      rcases huang_market_signed S smp ht hp with ⟨tm', h1, h2⟩ | ⟨tm', ps, pb, q, h1, hO⟩
      · rw [h] at h1; cases h1; rw [h2]; exact sound_nil hq
      · rw [h] at h1; cases h1; exact sound_huang_signed hq hsg hO
    exact ⟨this.toSettled, fun _ => this⟩
  | muda merge coin =>
    have hu : merge = false := hu
    subst hu
    have h : mechRun (muda S coin) df = .ok (tm, ex) := h
    have : Sound df tm.trans := by
      rcases mechRun_cases (muda S coin) df with e | e
      · rw [e] at h; cases h; exact sound_nil hq
      · rw [e] at h; exact sound_muda ht hq h
    exact ⟨this.toSettled, fun _ => this⟩
  | p2p merge c choice =>
    have hu : merge = false := hu
    subst hu
    have h : mechRun (p2pRandom c choice) df = .ok (tm, ex) := h
    rcases mechRun_cases (p2pRandom c choice) df with e | e
    · rw [e] at h; cases h
      exact ⟨(sound_nil hq).toSettled, fun _ => sound_nil hq⟩
    · rw [e] at h
      exact ⟨(settled_p2p ht hq h).1, fun hc => sound_p2p hc.1 hc.2 ht hq h⟩
  | other name => exact hu.elim

/-! ## C37 -/

theorem sum_all_quantities {df : DF} {ts : List Transaction} (hk : ∀ t ∈ ts, t.bid < df.length) :
    (ts.map (fun t => t.quantity)).sum = boughtQty df ts + soldQty df ts := by
  induction ts with
  | nil => simp [boughtQty, soldQty]
  | cons t ts ih =>
    have ht := hk t List.mem_cons_self
    have e := ih (fun t h => hk t (List.mem_cons_of_mem _ h))
    have hb : boughtQty df (t :: ts) = (if isBuy df t.bid then t.quantity else 0) +
        boughtQty df ts := by
      unfold boughtQty; rw [List.filter_cons]; split <;> simp
    have hs : soldQty df (t :: ts) = (if isSell df t.bid then t.quantity else 0) +
        soldQty df ts := by
      unfold soldQty; rw [List.filter_cons]; split <;> simp
    rw [List.map_cons, List.sum_cons, e, hb, hs]
    have : isSell df t.bid = !isBuy df t.bid := by
      unfold isSell isBuy
      rw [List.getElem?_eq_getElem ht]; rfl
    rw [this]
    cases isBuy df t.bid <;> simp <;> ring

theorem Spec.Settled.known {df : DF} {ts : List Transaction} (h : Settled df ts) :
    (∀ t ∈ ts, t.bid < df.length) ∧ (∀ t ∈ ts, 0 ≤ t.quantity) ∧
      boughtQty df ts = soldQty df ts := by
  obtain ⟨ps, rfl, hp⟩ := h.pools
  refine ⟨?_, ?_, ?_⟩
  · intro t ht
    obtain ⟨p, h1, h2⟩ := List.mem_flatten.mp ht
    exact (hp p h1).known t h2
  · intro t ht
    obtain ⟨p, h1, h2⟩ := List.mem_flatten.mp ht
    exact (hp p h1).nonneg t h2
  · clear h
    induction ps with
    | nil => rfl
    | cons p ps ih =>
      rw [List.flatten_cons, boughtQty_append, soldQty_append,
        (hp p List.mem_cons_self).balanced, ih (fun p h => hp p (List.mem_cons_of_mem _ h))]

/-- **C37, value.** When the traded quantities are settled, `percentage_traded` is the traded volume
as a share of the best volume of a compatible trade plan, if the solver returns the optimal value of
the program it is given. -/
theorem C37_value (df : DF) (ht : IsTable df) (hq : ∀ r ∈ df, 0 ≤ r.quantity)
    (ts : List Transaction) (hk : ∀ t ∈ ts, t.bid < df.length)
    (hb : boughtQty df ts = soldQty df ts) (solve : Solver)
    (hs : IsOptimum (volumeLP df) (solve (volumeLP df))) :
    ∃ best, BestVolume df best ∧ Share (boughtQty df ts) best (percentageTraded solve df ts) := by
  refine ⟨_, ((C39_volume df ht hq).2 _ hs).2, ?_, ?_⟩
  · intro h
    unfold percentageTraded
    exact if_neg (not_lt.mpr h)
  · intro h
    unfold percentageTraded
    simp only
    rw [if_pos h, sum_all_quantities hk, ← hb]
    congr 2
    ring

/-- **C37.** After a run of any mechanism with its default arguments, `percentage_traded` is the
traded volume as a share of the best volume of a compatible trade plan, and it is `None` or between 0
and 1; the solver is assumed to return the optimal value of the program it is given. -/
theorem C37_percentage_traded (S : Sorter) (smp : Sampler) (call : AlgoCall) (df : DF)
    (ht : IsTable df) (hp : GroupQty df) (hsg : SignsOk call df) (hu : Unmerged call)
    (tm : TransactionManager) (ex : Extra)
    (h : runAlgo S smp call df = .ok (tm, ex)) (solve : Solver)
    (hs : IsOptimum (volumeLP df) (solve (volumeLP df))) :
    (∃ best, BestVolume df best ∧
      Share (boughtQty df tm.trans) best (percentageTraded solve df tm.trans)) ∧
    ∀ x, percentageTraded solve df tm.trans = some x → 0 ≤ x ∧ x ≤ 1 := by
  have hq := hp.1
  have hset := (run_settled ht hp hsg hu h).1
  obtain ⟨q, h1, h2, h3, _⟩ := hset.plan ht hq
  obtain ⟨k1, k2, k3⟩ := hset.known
  have hb := boughtQty_nonneg (df := df) k2
  obtain ⟨best, hB, hsh⟩ := C37_value df ht hq tm.trans k1 k3 solve hs
  have hle : boughtQty df tm.trans ≤ best := by
    have := hB.2 ⟨q, h1, h2, rfl⟩
    rw [h3] at this
    exact this
  refine ⟨⟨best, hB, hsh⟩, ?_⟩
  intro x hx
  by_cases hpos : 0 < best
  · rw [hsh.2 hpos] at hx
    cases hx
    exact ⟨div_nonneg hb hpos.le, (div_le_one hpos).mpr hle⟩
  · rw [hsh.1 (not_lt.mp hpos)] at hx
    cases hx

/-! ## C38 -/

theorem welfare_eq {df : DF} (ht : IsTable df) (ts : List Transaction) :
    (((joinBids df ts).filter (fun p => p.2.buying)).map
        (fun p => (p.2.price - p.1.price) * p.1.quantity)).sum +
      (((joinBids df ts).filter (fun p => !p.2.buying)).map
        (fun p => (p.1.price - p.2.price) * p.1.quantity)).sum =
    (boughtValue df (priceOf df) ts - paid df ts) +
      (received df ts - soldValue df (priceOf df) ts) := by
  rw [join_sum_buy ht (fun t p => (p - t.price) * t.quantity) ts,
    join_sum_sell ht (fun t p => (t.price - p) * t.quantity) ts]
  unfold boughtValue paid received soldValue
  have hsub : ∀ (l : List Transaction) (f g : Transaction → ℚ), (l.map (fun x => f x - g x)).sum =
      (l.map f).sum - (l.map g).sum := by
    intro l f g
    induction l with
    | nil => simp
    | cons a l ih => simp only [List.map_cons, List.sum_cons, ih]; ring
  rw [← hsub, ← hsub]
  congr 3 <;> (funext t; ring)

/-- **C38, value.** `percentage_welfare` is the gain of the traders at the submitted prices as a share
of the best gain of a trade plan, if the solver returns the optimal value of the program it is
given. -/
theorem C38_value (df : DF) (ht : IsTable df) (hq : ∀ r ∈ df, 0 ≤ r.quantity)
    (ts : List Transaction) (res : Option ResPrices) (solve : Solver)
    (hs : IsOptimum (utilityLP df (fun _ => none)) (solve (utilityLP df (fun _ => none)))) :
    ∃ best, BestWelfare df (priceOf df) best ∧
      Share (gains df (priceOf df) ts) best (percentageWelfare solve df ts res) := by
  have hB := ((C39_welfare df ht hq (fun _ => none)).2 _ hs).2
  refine ⟨_, hB, ?_, ?_⟩
  · intro h
    unfold percentageWelfare
    exact if_neg (not_lt.mpr h)
  · intro h
    unfold percentageWelfare
    simp only
    rw [if_pos h, welfare_eq ht]
    rfl

/-- **C38.** After a run of any mechanism with its default arguments and, for P2P, a price coefficient
in [0, 1], `percentage_welfare` is the gain of the traders as a share of the best gain of a trade
plan, and it is `None` or between 0 and 1; the solver is assumed to return the optimal value of the
program it is given. -/
theorem C38_percentage_welfare (S : Sorter) (smp : Sampler) (call : AlgoCall) (df : DF)
    (ht : IsTable df) (hp : GroupQty df) (hsg : SignsOk call df) (hu : Unmerged call) (hc : CoefOk call)
    (tm : TransactionManager) (ex : Extra)
    (h : runAlgo S smp call df = .ok (tm, ex)) (solve : Solver)
    (hs : IsOptimum (utilityLP df (fun _ => none)) (solve (utilityLP df (fun _ => none))))
    (res : Option ResPrices) :
    (∃ best, BestWelfare df (priceOf df) best ∧
      Share (gains df (priceOf df) tm.trans) best (percentageWelfare solve df tm.trans res)) ∧
    ∀ x, percentageWelfare solve df tm.trans res = some x → 0 ≤ x ∧ x ≤ 1 := by
  have hq := hp.1
  have hsound := (run_settled ht hp hsg hu h).2 hc
  obtain ⟨q, h1, _, _, h4⟩ := hsound.toSettled.plan ht hq
  obtain ⟨best, hB, hsh⟩ := C38_value df ht hq tm.trans res solve hs
  have hle : boughtValue df (priceOf df) tm.trans - soldValue df (priceOf df) tm.trans ≤ best := by
    have := hB.2 ⟨q, h1, rfl⟩
    rw [h4] at this
    exact this
  obtain ⟨_, k2, _⟩ := hsound.toSettled.known
  have hbuy : paid df tm.trans ≤ boughtValue df (priceOf df) tm.trans := by
    apply List.sum_le_sum
    intro t htt
    obtain ⟨t1, t2⟩ := List.mem_filter.mp htt
    by_cases h0 : t.quantity = 0
    · rw [h0]; simp
    · exact mul_le_mul_of_nonneg_left ((hsound.rational t t1 h0).1 t2) (k2 t t1)
  have hsell : soldValue df (priceOf df) tm.trans ≤ received df tm.trans := by
    apply List.sum_le_sum
    intro t htt
    obtain ⟨t1, t2⟩ := List.mem_filter.mp htt
    by_cases h0 : t.quantity = 0
    · rw [h0]; simp
    · exact mul_le_mul_of_nonneg_left ((hsound.rational t t1 h0).2 t2) (k2 t t1)
  have hbud := hsound.budget
  refine ⟨⟨best, hB, hsh⟩, ?_⟩
  intro x hx
  by_cases hpos : 0 < best
  · rw [hsh.2 hpos] at hx
    cases hx
    unfold gains
    refine ⟨div_nonneg ?_ hpos.le, (div_le_one hpos).mpr ?_⟩ <;> linarith
  · rw [hsh.1 (not_lt.mp hpos)] at hx
    cases hx

/-- A book of two buyers and one seller: prices 3, 2 and 1, one unit each. -/
def welfareBook : DF := labelFrom 0
  [⟨1, 3, 0, true, 0, true⟩, ⟨1, 2, 1, true, 0, true⟩, ⟨1, 1, 2, false, 0, true⟩]

/-- The first buyer meets the seller. -/
def welfareCall : AlgoCall := .p2p false (1/2) (fun _ => 0)

/-- The hypotheses of C37 and C38 are met: the book is valid, the run returns, and it trades. -/
example : IsTable welfareBook ∧ Pos welfareBook ∧ Unmerged welfareCall ∧ CoefOk welfareCall ∧
    ∃ tm ex, runAlgo stableSorter headSampler welfareCall welfareBook = .ok (tm, ex) ∧
      boughtQty welfareBook tm.trans = 1 ∧ gains welfareBook (priceOf welfareBook) tm.trans = 2 :=
  ⟨by decide +kernel, by decide +kernel, rfl, by simp only [CoefOk, welfareCall]; norm_num, _, _,
    rfl, by decide +kernel, by decide +kernel⟩

/-- A solver that returns optimal values exists. -/
theorem exists_solver (df : DF) (ht : IsTable df) (hq : ∀ r ∈ df, 0 ≤ r.quantity) :
    ∃ solve : Solver, IsOptimum (volumeLP df) (solve (volumeLP df)) ∧
      ∀ res, IsOptimum (utilityLP df res) (solve (utilityLP df res)) := by
  classical
  refine ⟨fun lp => if h : ∃ x, IsOptimum lp x then h.choose else 0, ?_, fun res => ?_⟩
  · beta_reduce
    rw [dif_pos (C39_volume df ht hq).1]
    exact Exists.choose_spec _
  · beta_reduce
    rw [dif_pos (C39_welfare df ht hq res).1]
    exact Exists.choose_spec _

/-! ## C43 -/

/-- **C43, partial.** With reservation prices that repeat the submitted prices, `percentage_welfare`
is the gain of the traders at their reservation prices as a share of the best such gain.

Missing: the same for reservation prices that differ from the submitted prices. The code violates it,
see `C43_refuted`. -/
theorem C43_reservation_partial (df : DF) (ht : IsTable df) (hq : ∀ r ∈ df, 0 ≤ r.quantity)
    (ts : List Transaction) (res : ResPrices) (hres : ∀ i, valueOf df res i = priceOf df i)
    (solve : Solver)
    (hs : IsOptimum (utilityLP df (fun _ => none)) (solve (utilityLP df (fun _ => none)))) :
    ∃ best, BestWelfare df (valueOf df res) best ∧
      Share (gains df (valueOf df res) ts) best (percentageWelfare solve df ts (some res)) := by
  have e : valueOf df res = priceOf df := funext hres
  rw [e]
  exact C38_value df ht hq ts (some res) solve hs

/-- True values for `welfareBook`: the first buyer bid 3 for something worthless to it. -/
def welfareValues : ResPrices := fun i => if i = 0 then some 0 else none

/-- **C43, refuted.** A book, a run of P2P and reservation prices for which `percentage_welfare` is
not the share of welfare at the reservation prices, although the solver is right on every program:
the traders lose, and the reported share is not negative. -/
theorem C43_refuted : ∃ (df : DF) (call : AlgoCall) (res : ResPrices) (tm : TransactionManager)
    (ex : Extra), IsTable df ∧ Pos df ∧ runAlgo stableSorter headSampler call df = .ok (tm, ex) ∧
    ∀ solve : Solver, (∀ r, IsOptimum (utilityLP df r) (solve (utilityLP df r))) →
      ¬ ∃ best, BestWelfare df (valueOf df res) best ∧
        Share (gains df (valueOf df res) tm.trans) best
          (percentageWelfare solve df tm.trans (some res)) := by
  obtain ⟨tm, ex, hrun, hg⟩ : ∃ tm ex,
      runAlgo stableSorter headSampler welfareCall welfareBook = .ok (tm, ex) ∧
      gains welfareBook (valueOf welfareBook welfareValues) tm.trans = -1 :=
    ⟨_, _, rfl, by decide +kernel⟩
  have ht : IsTable welfareBook := by decide +kernel
  have hp : Pos welfareBook := by decide +kernel
  refine ⟨welfareBook, welfareCall, welfareValues, tm, ex, ht, hp, hrun, ?_⟩
  rintro solve hs ⟨best, hB, hsh⟩
  have h38 := (C38_percentage_welfare stableSorter headSampler welfareCall welfareBook ht
    hp.groupPos.groupQty trivial rfl (by simp only [CoefOk, welfareCall]; norm_num) tm ex hrun solve (hs _) (some welfareValues)).2
  have hbest : 1 ≤ best := by
    apply hB.2
    refine ⟨fun i j => if i = 1 ∧ j = 2 then 1 else 0, ⟨?_, ?_, ?_, ?_⟩, by decide +kernel⟩
    · intro i j
      split <;> norm_num
    · intro i j h
      split at h
      · rename_i hij
        obtain ⟨rfl, rfl⟩ := hij
        decide +kernel
      · exact absurd rfl h
    · intro i
      by_cases h : i = 1
      · subst h; decide +kernel
      · simp only [h, false_and, if_false, List.map_const', List.sum_replicate, smul_zero]
        exact qtyOf_nonneg' (fun r hr => (hp r hr).1.le) i
    · intro j
      by_cases h : j = 2
      · subst h; decide +kernel
      · simp only [h, and_false, if_false, List.map_const', List.sum_replicate, smul_zero]
        exact qtyOf_nonneg' (fun r hr => (hp r hr).1.le) j
  have := h38 _ (hsh.2 (by linarith))
  rw [hg] at this
  have h2 : (-1 : ℚ) / best < 0 := div_neg_of_neg_of_pos (by norm_num) (by linarith)
  linarith [this.1]

/-- The hypothesis of `C43_reservation_partial` is met by repeating the submitted prices. -/
example : ∀ i, valueOf welfareBook (fun i => if i = 0 then some 3 else none) i =
    priceOf welfareBook i := by
  intro i
  unfold valueOf
  by_cases h : i = 0
  · subst h; decide +kernel
  · simp only [if_neg h, Option.getD_none]

end PyMarket
