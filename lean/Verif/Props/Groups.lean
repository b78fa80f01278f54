import Verif.Lemmas.Groups
import Verif.Props.Envy
import Verif.Props.WelfareTheorem

/-! # C128: could a group do better on its own? -/

set_option autoImplicit false

namespace PyMarket

open Spec

section

variable {df : DF} {ts : List Transaction} {C : Finset ℕ}

theorem ownGain_unknown {i : ℕ} (h : ∀ t ∈ ts, t.bid ≠ i) : ownGain df ts i = 0 := by
  unfold ownGain
  rw [List.filter_eq_nil_iff.mpr (fun t ht => by simpa using h t ht)]
  rfl

theorem groupGain_eq (ht : IsTable df) (hk : ∀ t ∈ ts, t.bid < df.length) :
    groupGain df ts C = (df.map (fun r => if r.label ∈ C then ownGain df ts r.label else 0)).sum :=
  group_sum ht _ (fun i hi => ownGain_unknown (fun t htm he => by have := hk t htm; omega))

/-- The gains of all bidders are the sum of the gains of the bids. -/
theorem gains_eq_groupGain (hk : ∀ t ∈ ts, t.bid < df.length) :
    gains df (priceOf df) ts = groupGain df ts (Finset.range df.length) := by
  induction ts with
  | nil => simp [gains, boughtValue, soldValue, paid, received, groupGain, ownGain]
  | cons t ts ih =>
    have ih := ih (fun t' h' => hk t' (List.mem_cons_of_mem _ h'))
    have ht := hk t List.mem_cons_self
    have e1 : groupGain df (t :: ts) (Finset.range df.length) =
        marginAt df t.bid t.price * t.quantity + groupGain df ts (Finset.range df.length) := by
      unfold groupGain
      have : ∀ i, ownGain df (t :: ts) i =
          (if i = t.bid then marginAt df t.bid t.price * t.quantity else 0) + ownGain df ts i := by
        intro i
        unfold ownGain
        by_cases hb : i = t.bid
        · subst hb
          rw [List.filter_cons_of_pos (by simp), if_pos rfl]
          rfl
        · rw [List.filter_cons_of_neg (by simpa using fun h => hb h.symm), if_neg hb, zero_add]
      rw [Finset.sum_congr rfl (fun i _ => this i), Finset.sum_add_distrib, Finset.sum_ite_eq',
        if_pos (Finset.mem_range.mpr ht)]
    rw [e1, ← ih]
    have hs : isSell df t.bid = !isBuy df t.bid := by
      unfold isSell isBuy
      rw [List.getElem?_eq_getElem ht]
      rfl
    unfold gains boughtValue soldValue paid received marginAt
    cases hb : isBuy df t.bid with
    | true =>
      rw [hb] at hs
      simp only [List.filter_cons, hb, hs, Bool.not_true, Bool.false_eq_true, if_true, if_false, List.map_cons,
        List.sum_cons]
      ring
    | false =>
      rw [hb] at hs
      simp only [List.filter_cons, hb, hs, Bool.not_false, Bool.false_eq_true, if_true, if_false, List.map_cons,
        List.sum_cons]
      ring

/-- When everybody gains what they could gain at a common price, no group objects. -/
theorem no_objection (ht : IsTable df) (hk : ∀ t ∈ ts, t.bid < df.length) (p : ℚ)
    (h : ∀ r ∈ df, claim p r.toBid ≤ ownGain df ts r.label) (q : ℕ → ℕ → ℚ) : ¬ Objects df ts C q := by
  intro ho
  have h1 := groupPlan_le ht ho.plan ho.within p
  have h2 := ho.better
  rw [groupGain_eq ht hk] at h2
  refine absurd (lt_of_lt_of_le h2 h1) (not_lt.mpr (List.sum_le_sum ?_))
  intro r hr
  split
  · exact h r hr
  · exact le_refl _

/-- When nobody gains more than they could gain at a common price, a group misses at most what all together miss. -/
theorem group_misses_le (ht : IsTable df) (hk : ∀ t ∈ ts, t.bid < df.length) (p : ℚ)
    (h : ∀ r ∈ df, ownGain df ts r.label ≤ claim p r.toBid) {q : ℕ → ℕ → ℚ} (hq : TradePlan df q) (hw : Within C q) :
    planWelfare df (priceOf df) q - groupGain df ts C ≤
      (df.map (fun r => claim p r.toBid)).sum - gains df (priceOf df) ts := by
  have h1 := groupPlan_le ht hq hw p
  have e2 : gains df (priceOf df) ts = (df.map (fun r => ownGain df ts r.label)).sum := by
    rw [gains_eq_groupGain hk, groupGain_eq ht hk]
    congr 1
    apply List.map_congr_left
    intro r hr
    rw [if_pos]
    have : r.label ∈ df.map (fun r => r.label) := List.mem_map_of_mem hr
    rw [show df.map (fun r => r.label) = List.range df.length from ht] at this
    exact Finset.mem_range.mpr (List.mem_range.mp this)
  have h3 : (df.map (fun r => if r.label ∈ C then claim p r.toBid else 0)).sum + gains df (priceOf df) ts ≤
      (df.map (fun r => claim p r.toBid)).sum + groupGain df ts C := by
    rw [e2, groupGain_eq ht hk, ← List.sum_map_add, ← List.sum_map_add]
    apply List.sum_le_sum
    intro r hr
    have := h r hr
    split <;> linarith
  linarith

/-- The plan of one pair is a plan. -/
theorem onePair_plan (hq : ∀ r ∈ df, 0 ≤ r.quantity) {b s : ℕ} {x : ℚ} (hx : 0 ≤ x) (hb : isBuy df b = true)
    (hs : isSell df s = true) (h1 : x ≤ qtyOf df b) (h2 : x ≤ qtyOf df s) : TradePlan df (onePair b s x) := by
  have hlen : ∀ (n a : ℕ) (y : ℚ), 0 ≤ y → ((List.range n).map (fun j => if j = a then y else 0)).sum ≤ y := by
    intro n a y hy
    induction n with
    | zero => simpa using hy
    | succ n ih =>
      rw [List.range_succ, List.map_append, List.sum_append, List.map_singleton, List.sum_singleton]
      by_cases hn : n = a
      · subst hn
        rw [if_pos rfl, List.sum_eq_zero, zero_add]
        intro z hz
        obtain ⟨j, hj, rfl⟩ := List.mem_map.mp hz
        exact if_neg (List.mem_range.mp hj).ne
      · rw [if_neg hn, add_zero]
        exact ih
  refine ⟨?_, ?_, ?_, ?_⟩
  · intro i j
    unfold onePair
    split
    · exact hx
    · exact le_refl _
  · intro i j hne
    unfold onePair at hne
    by_cases hij : i = b ∧ j = s
    · rw [hij.1, hij.2]; exact ⟨hb, hs⟩
    · exact absurd (if_neg hij) hne
  · intro i
    unfold onePair
    by_cases hi : i = b
    · subst hi
      simp only [true_and]
      exact (hlen _ _ _ hx).trans h1
    · simp only [hi, false_and, if_false]
      rw [List.sum_eq_zero (by intro z hz; obtain ⟨_, _, rfl⟩ := List.mem_map.mp hz; rfl)]
      exact qtyOf_nonneg' hq i
  · intro j
    unfold onePair
    by_cases hj : j = s
    · subst hj
      simp only [and_true]
      exact (hlen _ _ _ hx).trans h2
    · simp only [hj, and_false, if_false]
      rw [List.sum_eq_zero (by intro z hz; obtain ⟨_, _, rfl⟩ := List.mem_map.mp hz; rfl)]
      exact qtyOf_nonneg' hq j

/-- One pair objects when it would gain more by trading with each other. -/
theorem pair_objects (hq : ∀ r ∈ df, 0 ≤ r.quantity) {b s : ℕ} {x : ℚ} (hx : 0 ≤ x) (hb : isBuy df b = true)
    (hs : isSell df s = true) (h1 : x ≤ qtyOf df b) (h2 : x ≤ qtyOf df s)
    (hg : groupGain df ts {b, s} < planWelfare df (priceOf df) (onePair b s x)) :
    Objects df ts {b, s} (onePair b s x) := by
  refine ⟨onePair_plan hq hx hb hs h1 h2, ?_, hg⟩
  intro i j hne
  unfold onePair at hne
  by_cases hij : i = b ∧ j = s
  · rw [hij.1, hij.2]
    simp
  · exact absurd (if_neg hij) hne

end

/-! ## The uniform price -/

/-- With one price `p`, a bid that is served when it wants to be gains all it could gain at `p`. -/
theorem claim_le_ownGain {df : DF} {ts : List Transaction} {p : ℚ} (ht : IsTable df)
    (hs : ServesWilling df ts p) (hb : ∀ i, isBuy df i = true → priceOf df i < p → tradedBy ts i = 0)
    (ha : ∀ i, isSell df i = true → p < priceOf df i → tradedBy ts i = 0)
    (hp : ∀ t ∈ ts, t.price = p) {r : Row} (hr : r ∈ df) : claim p r.toBid ≤ ownGain df ts r.label := by
  rw [ownGain_eq (fun t h _ => hp t h)]
  unfold marginAt claim
  rw [ht.isBuy_eq hr, ht.price_eq hr]
  cases hbuy : r.buying with
  | true =>
    simp only [if_true]
    have hB : isBuy df r.label = true := by rw [ht.isBuy_eq hr]; exact hbuy
    rcases lt_trichotomy p r.price with h | h | h
    · rw [hs.1 r.label hB (by rw [ht.price_eq hr]; exact h), ht.qty_eq hr, max_eq_right (by linarith), mul_comm]
    · rw [h]; simp
    · rw [hb r.label hB (by rw [ht.price_eq hr]; exact h), max_eq_left (by linarith)]; simp
  | false =>
    simp only [Bool.false_eq_true, if_false]
    have hS : isSell df r.label = true := by rw [ht.isSell_eq hr, hbuy]; rfl
    rcases lt_trichotomy p r.price with h | h | h
    · rw [ha r.label hS (by rw [ht.price_eq hr]; exact h), max_eq_left (by linarith)]; simp
    · rw [h]; simp
    · rw [hs.2 r.label hS (by rw [ht.price_eq hr]; exact h), ht.qty_eq hr, max_eq_right (by linarith), mul_comm]

/-- **C128, uniform price.** With the uniform price mechanism of the documentation no group of bids could gain more
by trading among its members, as long as no more than the cleared quantity is demanded above and offered below
the price. The full claim drops this condition and is refuted below. -/
theorem C128_uniform_partial (S : Sorter) (df : DF) (ht : IsTable df) (h : NonNeg df) (tm : TransactionManager)
    (q p : ℚ) (hrun : uniformPrice S df = .ok (tm, some (q : Ext), .fin p))
    (hq : demandQtyAbove df p ≤ q ∧ supplyQtyBelow df p ≤ q) (C : Finset ℕ) (plan : ℕ → ℕ → ℚ) :
    ¬ Objects df tm.trans C plan := by
  have hs := (C96_exact S df ht h tm q p hrun).mpr hq
  obtain ⟨q', p', e1, e2, _, u, _⟩ := C94_outcome S df ht h tm _ _ hrun
  obtain rfl : p = p' := by cases e2; rfl
  have hz : ∀ i, (isBuy df i = true ∧ priceOf df i < p) ∨ (isSell df i = true ∧ p < priceOf df i) →
      tradedBy tm.trans i = 0 := by
    intro i hi
    by_contra hne
    obtain ⟨t, h1, h2, _⟩ := tradedBy_ne_zero hne
    have hR := u.rational t h1
    rw [h2] at hR
    rcases hi with ⟨a, b⟩ | ⟨a, b⟩
    · exact absurd b (not_lt.mpr (hR.1 a))
    · exact absurd b (not_lt.mpr (hR.2 a))
  exact no_objection ht (fun t h => (u.trans t h).1) p (fun r hr => claim_le_ownGain ht hs
    (fun i a b => hz i (Or.inl ⟨a, b⟩)) (fun i a b => hz i (Or.inr ⟨a, b⟩)) (fun t h => (u.trans t h).2.2.2.1) hr) plan

example : IsTable uniformBook ∧ NonNeg uniformBook ∧ demandQtyAbove uniformBook 4 ≤ 3 ∧
    supplyQtyBelow uniformBook 4 ≤ 3 ∧
    (uniformPrice stableSorter uniformBook).toOption.map (fun o => o.2) = some (some ((3 : ℚ) : Ext), .fin 4) :=
  ⟨by decide +kernel, by decide +kernel, by decide +kernel, by decide +kernel, by decide +kernel⟩

/-- **C128, uniform quantities.** What is traded is always right: at some price for all transactions no group
objects. -/
theorem C128_supported (S : Sorter) (df : DF) (ht : IsTable df) (h : NonNeg df) (tm : TransactionManager)
    (x : Option Ext) (v : Val) (hrun : uniformPrice S df = .ok (tm, x, v)) :
    ∃ c : ℚ, ∀ C plan, ¬ Objects df (tm.trans.map (fun t => { t with price := c })) C plan := by
  obtain ⟨c, hs, hb, ha⟩ := C96_some_price_serves S df ht h tm x v hrun
  obtain ⟨q, p, _, _, _, u, _⟩ := C94_outcome S df ht h tm _ _ hrun
  have e : ∀ i, tradedBy (tm.trans.map (fun t => { t with price := c })) i = tradedBy tm.trans i := by
    intro i
    unfold tradedBy
    rw [List.filter_map, List.map_map]
    rfl
  refine ⟨c, fun C plan => no_objection ht ?_ c ?_ plan⟩
  · intro t h
    obtain ⟨t', h', rfl⟩ := List.mem_map.mp h
    exact (u.trans t' h').1
  · intro r hr
    refine claim_le_ownGain ht ⟨?_, ?_⟩ ?_ ?_ ?_ hr
    · intro i a b; rw [e]; exact hs.1 i a b
    · intro i a b; rw [e]; exact hs.2 i a b
    · intro i a b; rw [e]; exact hb i a b
    · intro i a b; rw [e]; exact ha i a b
    · intro t h
      obtain ⟨t', _, rfl⟩ := List.mem_map.mp h
      rfl

/-- For `alignedBook` the price of the mechanism is 11/2; the quantities are right at 37/4. -/
example : IsTable alignedBook ∧ NonNeg alignedBook ∧
    (uniformPrice stableSorter alignedBook).toOption.map (fun o => o.2.2) = some (.fin (11 / 2)) ∧
    ServesWilling alignedBook [⟨0, 1, 37 / 4, -1, false⟩, ⟨2, 1, 37 / 4, -1, false⟩] (37 / 4) := by
  refine ⟨by decide +kernel, by decide +kernel, by decide +kernel, ?_, ?_⟩ <;>
  · intro i
    rcases Nat.lt_or_ge i 4 with hi | hi
    · revert i; decide +kernel
    · intro h
      have hn : alignedBook[i]? = none := List.getElem?_eq_none hi
      simp [isBuy, isSell, hn] at h

/-- **C128 refuted for the uniform price.** Buyers 1 @ 10 and 1 @ 9, sellers 1 @ 1 and 1 @ 19/2: one unit is traded
at 11/2. The second buyer and the seller at 1 together gain 9/2 and could gain 8. -/
theorem C128_uniform_refuted : IsTable alignedBook ∧ NonNeg alignedBook ∧ ∃ q,
    uniformPrice stableSorter alignedBook = .ok (⟨2, [⟨0, 1, 11 / 2, -1, false⟩, ⟨2, 1, 11 / 2, -1, false⟩]⟩,
      some q, .fin (11 / 2)) ∧
    Objects alignedBook [⟨0, 1, 11 / 2, -1, false⟩, ⟨2, 1, 11 / 2, -1, false⟩] {1, 2} (onePair 1 2 1) :=
  ⟨by decide +kernel, by decide +kernel, ((1 : ℚ) : Ext), by decide +kernel,
    pair_objects (by decide +kernel) (by decide +kernel) (by decide +kernel) (by decide +kernel) (by decide +kernel)
      (by decide +kernel) (by decide +kernel)⟩

/-! ## Huang's auction -/

/-- **C128, Huang's auction.** A group of bids that trades on its own instead gains at most what all bidders
together miss of the best possible total. -/
theorem C128_huang (S : Sorter) (df : DF) (ht : IsTable df) (h : NonNeg df) (y : ℚ)
    (hy : BestWelfare df (priceOf df) y) (C : Finset ℕ) (plan : ℕ → ℕ → ℚ) (hp : TradePlan df plan)
    (hw : Within C plan) :
    ∃ tm ex, huangAuction S df = .ok (tm, ex) ∧
      planWelfare df (priceOf df) plan - groupGain df tm.trans C ≤ y - gains df (priceOf df) tm.trans := by
  have hq : ∀ r ∈ df, 0 ≤ r.quantity := fun r hr => (h r hr).1
  have hnil : planWelfare df (priceOf df) plan - groupGain df TransactionManager.init.trans C ≤
      y - gains df (priceOf df) TransactionManager.init.trans := by
    have h1 : groupGain df [] C = 0 := Finset.sum_eq_zero (fun i _ => rfl)
    have h2 : gains df (priceOf df) [] = 0 := by simp [gains, boughtValue, soldValue, paid, received]
    have h3 := hy.2 ⟨plan, hp, rfl⟩
    show _ - groupGain df [] C ≤ _ - gains df (priceOf df) []
    rw [h1, h2]
    linarith
  rcases huang_cases S h with ⟨h1, _⟩ | ⟨x, ps, pb, hc, hps, hpb, hlt, hcase⟩
  · exact ⟨_, _, h1, hnil⟩
  rcases hcase with ⟨_, _, cs, cb, hcs, hcb, _, _, _, hrun⟩ | ⟨_, hrun⟩
  swap
  · exact ⟨_, _, hrun, hnil⟩
  obtain ⟨c, _, hc1, hc2, hcl⟩ := hc.clears_between h
  rw [hps] at hc1
  rw [hpb] at hc2
  have hc1 := WithTop.coe_le_coe.mp hc1
  have hc2 := WithTop.coe_le_coe.mp hc2
  have hyc : y = (df.map (fun r => claim c r.toBid)).sum := hy.unique (best_of_clears ht hq hcl)
  refine ⟨_, _, hrun, ?_⟩
  rcases huang_direct S ht h with e | ⟨tm, ps', pb', q', e, hO, _⟩
  · rw [hrun] at e
    simp at e
  rw [hrun] at e
  simp only [Except.ok.injEq, Prod.mk.injEq, Extra.huang.injEq, WithTop.coe_inj] at e
  obtain ⟨rfl, rfl, rfl, _⟩ := e
  generalize (TransactionManager.init.addAll (cutTrans (huangA S df x) cs ps ++
    cutTrans (huangB S df x) cb pb)).trans = ts at hO ⊢
  rw [hyc]
  refine group_misses_le ht (fun t h => (hO.trade t h).id_lt) c ?_ hp hw
  intro r hr
  have htr : ∀ t ∈ ts, t.bid = r.label → marginAt df r.label t.price * t.quantity ≤ claim c r.toBid := by
    intro t htm hb
    have hT := hO.trade t htm
    have hle := hT.le
    have h0 := hT.nonneg
    have hbu := hT.buyer
    have hse := hT.seller
    rw [hb, ht.qty_eq hr] at hle
    rw [hb, ht.isBuy_eq hr, ht.price_eq hr] at hbu
    rw [hb, ht.isSell_eq hr, ht.price_eq hr] at hse
    unfold marginAt claim
    rw [ht.isBuy_eq hr, ht.price_eq hr]
    cases hbuy : r.buying with
    | true =>
      obtain ⟨e1, e2⟩ := hbu hbuy
      simp only [if_true]
      rw [e1, max_eq_right (by linarith), mul_comm]
      exact mul_le_mul hle (by linarith) (by linarith) (hq r hr)
    | false =>
      obtain ⟨e1, e2⟩ := hse (by rw [hbuy]; rfl)
      simp only [Bool.false_eq_true, if_false]
      rw [e1, max_eq_right (by linarith), mul_comm]
      exact mul_le_mul hle (by linarith) (by linarith) (hq r hr)
  have hcl0 : 0 ≤ claim c r.toBid := by
    unfold claim
    refine mul_nonneg (hq r hr) ?_
    split <;> exact le_max_left _ _
  by_cases hex : ∃ t ∈ ts, t.bid = r.label
  · obtain ⟨t, htm, hb⟩ := hex
    have hpr : ∀ t' ∈ ts, t'.bid = r.label → t'.price = t.price := by
      intro t' ht' hb'
      rw [List.inj_on_of_nodup_map hO.nodup ht' htm (hb'.trans hb.symm)]
    rw [ownGain_eq hpr, ← hb, tradedBy_of_nodup hO.nodup htm, hb]
    exact htr t htm hb
  · rw [ownGain_unknown (fun t h1 h2 => hex ⟨t, h1, h2⟩)]
    exact hcl0

example : IsTable cutEnvyBook ∧ NonNeg cutEnvyBook ∧
    (huangAuction stableSorter cutEnvyBook).toOption.map (fun o => gains cutEnvyBook (priceOf cutEnvyBook) o.1.trans) =
      some (9 / 2) := ⟨by decide +kernel, by decide +kernel, by decide +kernel⟩

/-- **C128 refuted for Huang's auction.** The second buyer and the seller at 1 could gain 16 from trading with each
other; they gain 7/2, because the difference of the prices goes to the auctioneer. -/
theorem C128_huang_refuted : IsTable cutEnvyBook ∧ NonNeg cutEnvyBook ∧
    ∃ ex, huangAuction stableSorter cutEnvyBook = .ok (⟨3, [⟨3, 2, 2, -1, false⟩, ⟨0, 1 / 2, 8, -1, false⟩,
      ⟨1, 3 / 2, 8, -1, false⟩]⟩, ex) ∧
    Objects cutEnvyBook [⟨3, 2, 2, -1, false⟩, ⟨0, 1 / 2, 8, -1, false⟩, ⟨1, 3 / 2, 8, -1, false⟩] {1, 3}
      (onePair 1 3 2) :=
  ⟨by decide +kernel, by decide +kernel, .huang ((2 : ℚ) : Ext) ((8 : ℚ) : Ext) 2, by decide +kernel,
    pair_objects (by decide +kernel) (by decide +kernel) (by decide +kernel) (by decide +kernel) (by decide +kernel)
      (by decide +kernel) (by decide +kernel)⟩

/-! ## MUDA and peer to peer trading -/

/-- **C128 refuted for MUDA.** In `halvesEnvyBook` the buyer at 7, who does not trade, and the seller at 3, who sells
one unit at 11/2, could gain 4 together instead of 5/2. -/
theorem C128_muda_refuted : IsTable halvesEnvyBook ∧ Pos halvesEnvyBook ∧ ∃ ex,
    muda stableSorter (fun n => decide (n ≤ 1)) halvesEnvyBook = .ok (⟨4, [⟨1, 1, 11 / 2, -1, false⟩,
        ⟨0, 1, 11 / 2, -1, false⟩, ⟨4, 1, 11 / 2, -1, false⟩, ⟨2, 1, 11 / 2, -1, false⟩]⟩, ex) ∧
    Objects halvesEnvyBook [⟨1, 1, 11 / 2, -1, false⟩, ⟨0, 1, 11 / 2, -1, false⟩, ⟨4, 1, 11 / 2, -1, false⟩,
        ⟨2, 1, 11 / 2, -1, false⟩] {3, 4} (onePair 3 4 1) :=
  ⟨by decide +kernel, by decide +kernel, .muda [0, 1] [2, 3, 4] (.fin (11 / 2)) (.fin (11 / 2)) [0, 0, 3 / 2, 0, 0],
    by decide +kernel,
    pair_objects (by decide +kernel) (by decide +kernel) (by decide +kernel) (by decide +kernel) (by decide +kernel)
      (by decide +kernel) (by decide +kernel)⟩

theorem list_sum_nonpos {l : List ℚ} (h : ∀ x ∈ l, x ≤ 0) : l.sum ≤ 0 := by
  induction l with
  | nil => exact le_refl _
  | cons a l ih =>
    rw [List.sum_cons]
    have h1 := h a List.mem_cons_self
    have h2 := ih (fun x hx => h x (List.mem_cons_of_mem _ hx))
    linarith

theorem le_sum_range {f : ℕ → ℚ} (hf : ∀ j, 0 ≤ f j) {n j : ℕ} (hj : j ∈ List.range n) :
    f j ≤ ((List.range n).map f).sum := by
  refine List.single_le_sum ?_ _ (List.mem_map_of_mem hj)
  intro x hx
  obtain ⟨k, _, rfl⟩ := List.mem_map.mp hx
  exact hf k

/-- **C128, peer to peer trading.** A group of bids none of which traded could not have gained anything among its
members. The full claim is about all groups and is refuted below. -/
theorem C128_p2p_partial (c : ℚ) (choice : ℕ → ℕ) (df : DF) (ht : IsTable df) (hq : ∀ r ∈ df, 0 ≤ r.quantity)
    (C : Finset ℕ) (plan : ℕ → ℕ → ℚ) :
    ∃ tm R, p2pRandom c choice df = .ok (tm, .p2p R) ∧
      ((∀ i ∈ C, tradedBy tm.trans i = 0) → ¬ Objects df tm.trans C plan) := by
  obtain ⟨tm, R, hrun, _, hC⟩ := C22_complete c choice df ht hq
  obtain ⟨tm', R', hrun', hn, _⟩ := C20_conservation c choice df ht hq
  rw [hrun] at hrun'
  cases hrun'
  refine ⟨tm, R, hrun, fun hz ho => ?_⟩
  have hg : groupGain df tm.trans C = 0 := by
    apply Finset.sum_eq_zero
    intro i hi
    have h0 : ∀ t ∈ tm.trans, t.bid = i → t.quantity = 0 := by
      intro t htm hb
      refine le_antisymm ?_ (hn t htm)
      rw [← hz i hi]
      unfold tradedBy
      refine List.single_le_sum ?_ _ (List.mem_map_of_mem (List.mem_filter.mpr ⟨htm, by simpa using hb⟩))
      intro x hx
      obtain ⟨t', ht', rfl⟩ := List.mem_map.mp hx
      exact hn t' (List.mem_of_mem_filter ht')
    apply List.sum_eq_zero
    intro x hx
    obtain ⟨t, ht', rfl⟩ := List.mem_map.mp hx
    obtain ⟨h1, h2⟩ := List.mem_filter.mp ht'
    rw [h0 t h1 (by simpa using h2), mul_zero]
  have hle : planWelfare df (priceOf df) plan ≤ 0 := by
    unfold planWelfare
    apply list_sum_nonpos
    intro z hz1
    obtain ⟨i, hi, rfl⟩ := List.mem_map.mp hz1
    apply list_sum_nonpos
    intro z hz2
    obtain ⟨j, hj, rfl⟩ := List.mem_map.mp hz2
    by_cases hne : plan i j = 0
    · rw [hne, mul_zero]
    · obtain ⟨i1, j1⟩ := ho.within i j hne
      have hpr := ho.plan.pair i j hne
      have h0 := ho.plan.nonneg i j
      rcases lt_or_ge (priceOf df i) (priceOf df j) with hlt | hge
      · exact mul_nonpos_of_nonpos_of_nonneg (by linarith) h0
      · exfalso
        apply hne
        refine le_antisymm ?_ h0
        have hb := le_sum_range (ho.plan.nonneg i) hj
        have hs := le_sum_range (fun i => ho.plan.nonneg i j) hi
        rcases hC i j hpr hge with h1 | h1
        · rw [hz i i1] at h1
          have := ho.plan.buyer i
          linarith
        · rw [hz j j1] at h1
          have := ho.plan.seller j
          linarith
  have := ho.better
  rw [hg] at this
  linarith

/-- The first buyer of `p2pEnvyBook` did not trade. -/
example : IsTable p2pEnvyBook ∧ (∀ r ∈ p2pEnvyBook, 0 ≤ r.quantity) ∧
    (p2pRandom (1 / 2) (fun _ => 1) p2pEnvyBook).toOption.map (fun o => tradedBy o.1.trans 0) = some 0 :=
  ⟨by decide +kernel, by decide +kernel, by decide +kernel⟩

/-- **C128 refuted for peer to peer trading.** The buyer at 10 does not trade; with the seller, who sells to the buyer
at 9 for 5, they could gain 9 instead of 4. -/
theorem C128_p2p_refuted : IsTable p2pEnvyBook ∧ Pos p2pEnvyBook ∧
    p2pRandom (1 / 2) (fun _ => 1) p2pEnvyBook = .ok (⟨2, [⟨1, 1, 5, 2, false⟩, ⟨2, 1, 5, 1, false⟩]⟩,
      .p2p [[(1, 2)]]) ∧
    Objects p2pEnvyBook [⟨1, 1, 5, 2, false⟩, ⟨2, 1, 5, 1, false⟩] {0, 2} (onePair 0 2 1) :=
  ⟨by decide +kernel, by decide +kernel, by decide +kernel,
    pair_objects (by decide +kernel) (by decide +kernel) (by decide +kernel) (by decide +kernel) (by decide +kernel)
      (by decide +kernel) (by decide +kernel)⟩

end PyMarket
