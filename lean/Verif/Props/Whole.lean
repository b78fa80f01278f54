import Verif.Lemmas.WholeHuang
import Verif.Lemmas.WholeMoney
import Verif.Props.Ieee

/-! # C108: whole quantities are traded without rounding errors

C77 – C79 bound the rounding errors of the three mechanisms and show that MUDA may go badly wrong. Here the
quantities are multiples of one unit (whole units, or halves, quarters, …) and not too large altogether. Then
sums, running totals and remainders of quantities are exact, in every order of summation. -/

set_option autoImplicit false

namespace PyMarket

open Spec

/-- The same entry except for the quantity. -/
def Spec.ButQuantity (t t' : Transaction) : Prop :=
  t'.bid = t.bid ∧ t'.price = t.price ∧ t'.source = t.source ∧ t'.active = t.active

/-- Both report the same prices, or both report nothing. -/
def Spec.SamePrices (e e' : Extra) : Prop :=
  (e = .empty ∧ e' = .empty) ∨ ∃ ps pb q q', e = .huang ps pb q ∧ e' = .huang ps pb q'

/-- **C108 (peer to peer).** On whole quantities the same pairs meet in the same rounds and trade the same
quantities as with exact numbers, whatever the coefficient; only the prices are rounded. -/
theorem C108_p2p (A : Arith) (g : ℚ) (M : ℕ) (hA : ExactOn A g M) (s : Summer A) (c : ℚ) (choice : ℕ → ℕ)
    (df : DF) (ht : IsTable df) (hb : WholeBook g M df) :
    ∃ tm tm' R, p2pRandomF A s c choice df = .ok (tm, .p2p R) ∧ p2pRandom c choice df = .ok (tm', .p2p R) ∧
      List.Forall₂ ButPrice tm'.trans tm.trans := by
  obtain ⟨h1, h2⟩ := p2pLoopF_whole hA s df (valueAt df (fun r => r.price)) c choice 0
    (valueAt df (fun r => r.quantity)) (allPairs df) [] (valueAt_wholeQ hA.1 hb)
    (by rw [valueAt_sum ht]; exact hb.2) (fun p hp => allPairs_ne ht hp)
  refine ⟨TransactionManager.init.addAll (p2pLoopF A s df (valueAt df (fun r => r.price)) c choice 0
    (valueAt df (fun r => r.quantity)) (allPairs df) []).2,
    TransactionManager.init.addAll (p2pLoop df (valueAt df (fun r => r.price)) c choice 0
    (valueAt df (fun r => r.quantity)) (allPairs df) []).2, _, rfl, ?_, ?_⟩
  · rw [h1]; rfl
  · simp only [TransactionManager.init_addAll_trans]
    exact h2

/-- **C108 (Huang).** On whole quantities the auction always returns, selects the same bids and the same two
prices as with exact numbers, and on one of the two sides every bid trades exactly the same quantity. -/
theorem C108_huang (F : Fmt) (g : ℚ) (M : ℕ) (hA : ExactOn F.toArith g M) (s : Summer F.toArith) (S : Sorter)
    (df : DF) (ht : IsTable df) (hq : NonNeg df) (hb : WholeBook g M df) :
    ∃ tm ex tm' ex', huangAuctionF F s S df = .ok (tm, ex) ∧ huangAuction S df = .ok (tm', ex') ∧
      SamePrices ex ex' ∧ List.Forall₂ ButQuantity tm'.trans tm.trans ∧
      ((∀ t ∈ tm.trans, isSell df t.bid = true → ∃ t' ∈ tm'.trans, t'.bid = t.bid ∧ t'.quantity = t.quantity) ∨
        (∀ t ∈ tm.trans, isBuy df t.bid = true → ∃ t' ∈ tm'.trans, t'.bid = t.bid ∧ t'.quantity = t.quantity)) := by
  rcases huangF_whole hA s S hq hb with ⟨h1, h2⟩ | ⟨ps, pb, ⟨x, h1, h2⟩ |
    ⟨U, V, qs, qb, qs', qb', x, x', sU, sV, h1, h2, l1, l2, l3, l4, hor⟩⟩
  · exact ⟨_, _, _, _, h1, h2, Or.inl ⟨rfl, rfl⟩, .nil, Or.inl (fun t h => by cases h)⟩
  · exact ⟨_, _, _, _, h1, h2, Or.inr ⟨_, _, _, _, rfl, rfl⟩, .nil, Or.inl (fun t h => by cases h)⟩
  have hU : ∀ r ∈ U, r ∈ df ∧ r.buying = false := fun r hr => mem_sells.mp (mem_sortAsc.mp (sU.subset hr))
  have hV : ∀ r ∈ V, r ∈ df ∧ r.buying = true := fun r hr => mem_buys.mp (mem_sortDesc.mp (sV.subset hr))
  have side : ∀ (rows : DF) (q q' : List ℚ) (p : ℚ), rows.length = q.length → rows.length = q'.length →
      List.Forall₂ ButQuantity (huangSideTrans rows q' p) (huangSideTrans rows q p) := by
    intro rows
    induction rows with
    | nil => intro q q' p _ _; exact .nil
    | cons r rows ih =>
      intro q q' p hl hl'
      cases q with
      | nil => simp at hl
      | cons a q =>
        cases q' with
        | nil => simp at hl'
        | cons a' q' =>
          exact .cons ⟨rfl, rfl, rfl, rfl⟩ (ih q q' p (by simpa using hl) (by simpa using hl'))
  refine ⟨_, _, _, _, h1, h2, Or.inr ⟨_, _, _, _, rfl, rfl⟩, ?_, ?_⟩
  · simp only [TransactionManager.init_addAll_trans]
    exact List.rel_append (side U qs qs' _ l1 l2) (side V qb qb' _ l3 l4)
  · simp only [TransactionManager.init_addAll_trans]
    rcases hor with rfl | ⟨rfl, _⟩
    · left
      intro t htm hs
      rcases List.mem_append.mp htm with hm | hm
      · exact ⟨t, List.mem_append_left _ hm, rfl, rfl⟩
      · obtain ⟨r, q, hz, rfl⟩ := mem_huangSideTrans hm
        obtain ⟨v1, v2⟩ := hV r (List.of_mem_zip hz).1
        rw [ht.isSell_eq v1, v2] at hs
        cases hs
    · right
      intro t htm hs
      rcases List.mem_append.mp htm with hm | hm
      · obtain ⟨r, q, hz, rfl⟩ := mem_huangSideTrans hm
        obtain ⟨v1, v2⟩ := hU r (List.of_mem_zip hz).1
        rw [ht.isBuy_eq v1, v2] at hs
        cases hs
      · exact ⟨t, List.mem_append_right _ hm, rfl, rfl⟩

/-- The trades of the two halves. -/
theorem tradesIn_split {ts tl tr : List Transaction} {left right : List ℕ} (h : ts = tl ++ tr)
    (hl : ∀ t ∈ tl, t.bid ∈ left) (hr : ∀ t ∈ tr, t.bid ∈ right) (hd : ∀ i ∈ left, i ∉ right) :
    tradesIn left ts = tl ∧ tradesIn right ts = tr := by
  subst h
  unfold tradesIn
  rw [List.filter_append, List.filter_append]
  have a1 : tl.filter (fun t => decide (t.bid ∈ left)) = tl :=
    List.filter_eq_self.mpr (fun t h => by simpa using hl t h)
  have a2 : tr.filter (fun t => decide (t.bid ∈ left)) = [] :=
    List.filter_eq_nil_iff.mpr (fun t h => by simpa using fun h' => hd _ h' (hr t h))
  have a3 : tl.filter (fun t => decide (t.bid ∈ right)) = [] :=
    List.filter_eq_nil_iff.mpr (fun t h => by simpa using hd _ (hl t h))
  have a4 : tr.filter (fun t => decide (t.bid ∈ right)) = tr :=
    List.filter_eq_self.mpr (fun t h => by simpa using hr t h)
  rw [a1, a2, a3, a4]
  simp

/-- **C108 (MUDA).** On whole quantities, with any number of bids and any representable prices: the price of a half
is its rounded competitive price; the other half trades at it exactly what both of its sides are willing to trade;
as much is bought as sold; and nobody trades a negative quantity or more than offered. -/
theorem C108_muda (F : Fmt) (g : ℚ) (M : ℕ) (hA : ExactOn F.toArith g M) (s o : Summer F.toArith) (S : Sorter)
    (coin : ℕ → Bool) (df : DF) (ht : IsTable df) (hb : WholeBook g M df) (hp : ∀ r ∈ df, F.Rep r.price)
    (tm : TransactionManager) (left right : List ℕ) (pl pr : Val) (fees : List ℚ)
    (h : mudaF F s o S coin df = .ok (tm, .muda left right pl pr fees)) :
    (∀ ids v, (ids = left ∧ v = pl) ∨ (ids = right ∧ v = pr) →
      ∃ v', findCompetitivePrice S (half df ids) = .ok v' ∧ v = v'.round F) ∧
    (∀ ids v, (ids = left ∧ v = pr) ∨ (ids = right ∧ v = pl) →
      boughtQty df (tradesIn ids tm.trans) = soldQty df (tradesIn ids tm.trans) ∧
      ∀ p, v = .fin p → boughtQty df (tradesIn ids tm.trans) = volumeAt (half df ids) p) ∧
    ∀ t ∈ tm.trans, 0 ≤ t.quantity ∧ t.quantity ≤ qtyOf df t.bid := by
  have hq := hb.nonneg hA.1
  have hr := mudaF_run' ht h
  have hbH := half_wholeBook hA.1 hb
  obtain ⟨_, _, _, hd, _⟩ := hr.halves ht hq
  obtain ⟨tl, tr, f1, h1, h2, hsplit⟩ := hr.sides
  have out : ∀ ids v fees tm fees', solveSideF F s o S (half df ids) v fees = .ok (tm, fees') →
      HalfOutcome S (half df ids) v tm.trans := by
    intro ids v fees tm fees' h'
    rcases solveSideF_trades hA s o S (hbH ids) v fees fees rfl with ⟨e, he, _⟩ | ⟨a, b, b', he, he'⟩
    · rw [h'] at he; cases he
    · rw [h'] at he
      cases he
      rcases solveSide_trades S (half_nodup ht ids) (fun r hr => hq r (half_sub r hr)) he' with
        ⟨k1, _, k2⟩ | k1
      · exact Or.inl ⟨k1, fun p hp => by rw [← halfQty_eq S]; exact k2 p hp⟩
      · exact Or.inr k1
  have ol := out _ _ _ _ _ h1
  have or := out _ _ _ _ _ h2
  obtain ⟨el, er⟩ := tradesIn_split hsplit ol.bids or.bids hd
  have cap : ∀ ids v ts, HalfOutcome S (half df ids) v ts → ∀ t ∈ ts,
      0 ≤ t.quantity ∧ t.quantity ≤ qtyOf df t.bid := by
    intro ids v ts ho t htt
    rcases ho with ⟨he, _⟩ | ⟨p, _, hh⟩
    · rw [he] at htt; cases htt
    · obtain ⟨r, k2, k3, k4, k5, _⟩ := hh.mem t htt
      rw [k3, ht.qty_eq (half_sub r k2)]
      exact ⟨k4, k5⟩
  have vol : ∀ ids v ts, HalfOutcome S (half df ids) v ts → boughtQty df ts = soldQty df ts ∧
      ∀ p, v = .fin p → boughtQty df ts = volumeAt (half df ids) p := by
    intro ids v ts ho
    refine ⟨(half_volume ht ho).1, ?_⟩
    intro p hv
    rcases ho.finite hv with ⟨rfl, h0⟩ | hh
    · rw [h0]; rfl
    · exact (hh.sums ht half_sub).1
  refine ⟨?_, ?_, ?_⟩
  · have price : ∀ ids v, findCompetitivePriceF F S (half df ids) = .ok v →
        ∃ v', findCompetitivePrice S (half df ids) = .ok v' ∧ v = v'.round F := by
      intro ids v hv
      obtain ⟨i, hi⟩ := intersect_total S (df := half df ids) (fun r hr => hq r (half_sub r hr)) (1 / 2)
      refine ⟨i.v, by unfold findCompetitivePrice; rw [hi]; rfl, ?_⟩
      have d1 := demandCurveF_rep (F := F) S (df := half df ids) (fun r hr => hp r (half_sub r hr))
      have d2 := supplyCurveF_rep (F := F) S (df := half df ids) (fun r hr => hp r (half_sub r hr))
      rw [demandCurveF_whole hA S (hbH ids)] at d1
      rw [supplyCurveF_whole hA S (hbH ids)] at d2
      have := intersectStepwiseF_half d1 d2 hi
      unfold findCompetitivePriceF at hv
      rw [demandCurveF_whole hA S (hbH ids), supplyCurveF_whole hA S (hbH ids), this] at hv
      cases hv
      rfl
    rintro ids v (⟨rfl, rfl⟩ | ⟨rfl, rfl⟩)
    · exact price _ _ hr.priceLeft
    · exact price _ _ hr.priceRight
  · rintro ids v (⟨rfl, rfl⟩ | ⟨rfl, rfl⟩)
    · rw [el]; exact vol _ _ _ ol
    · rw [er]; exact vol _ _ _ or
  · intro t htt
    rw [hsplit] at htt
    rcases List.mem_append.mp htt with k | k
    · exact cap _ _ _ ol t k
    · exact cap _ _ _ or t k

/-- **C108 (whole prices too).** When the prices are whole as well and the arithmetic is exact on their products
with quantities, MUDA, its fees included, and peer to peer trading at the midpoint give exactly the results of
exact arithmetic: the same log, the same report, the same exception. -/
theorem C108_exact (A : Arith) (g h : ℚ) (M P : ℕ) (hA : ExactMoney A g h M P) (s gs o : Summer A) (S : Sorter)
    (smp : Sampler) (df : DF) (ht : IsTable df) (hb : WholeBook g M df) (hp : WholePrices h P df) :
    (∀ coin, runAlgoF A s gs o S smp (.muda false coin) df = runAlgo S smp (.muda false coin) df) ∧
    ∀ choice, runAlgoF A s gs o S smp (.p2p false (1 / 2) choice) df =
      runAlgo S smp (.p2p false (1 / 2) choice) df := by
  constructor
  · intro coin
    show mechRun (mudaF A s o S coin) df = mechRun (muda S coin) df
    unfold mechRun
    rw [mudaF_whole hA s o S coin ht hb hp]
  · intro choice
    show mechRun (p2pRandomF A s (1 / 2) choice) df = mechRun (p2pRandom (1 / 2) choice) df
    unfold mechRun
    rw [p2pRandomF_money hA s choice ht hb hp]

/-! ## float64 -/

/-- Multiples of a power of two up to `2^53` times it. -/
theorem exactOn_float64 (e : ℤ) (M : ℕ) (hM : M ≤ 2 ^ 53) : ExactOn float64.toArith ((2 : ℚ) ^ e) M := by
  refine ⟨two_zpow_pos e, ?_⟩
  intro m hm
  have hn : m.natAbs ≤ 2 ^ 53 := by zify; omega
  have h1 : float64.Rep ((m.natAbs : ℚ) * 2 ^ e) := rep_nat_zpow m.natAbs hn e
  rcases Int.natAbs_eq m with he | he
  · have : (m : ℚ) = (m.natAbs : ℚ) := by rw [← Int.cast_natCast, ← he]
    rw [this]
    exact h1
  · have : (m : ℚ) = -(m.natAbs : ℚ) := by rw [← Int.cast_natCast, ← Int.cast_neg, ← he]
    rw [this, neg_mul]
    exact float64.rep_neg h1

/-- The same for binary64 with its bounded exponent. -/
theorem exactOn_ieee {A : Arith} (hA : IsIeee A) (e : ℤ) (M : ℕ) (hM : M ≤ 2 ^ 53) (h1 : -1074 ≤ e)
    (h2 : e ≤ 970) : ExactOn A ((2 : ℚ) ^ e) M := by
  refine ⟨two_zpow_pos e, ?_⟩
  intro m hm
  rw [hA.rnd ⟨?_, Or.inr (zpow_grid (by push_cast; exact h1) m)⟩]
  · exact (exactOn_float64 e M hM).2 m hm
  · rw [abs_mul, abs_of_pos (two_zpow_pos e), ← Int.cast_abs]
    have a1 : ((|m| : ℤ) : ℚ) ≤ 2 ^ 53 := by
      have : |m| ≤ 2 ^ 53 := by
        have : (M : ℤ) ≤ 2 ^ 53 := by exact_mod_cast hM
        omega
      exact_mod_cast this
    have a2 : (2 : ℚ) ^ e ≤ (2 : ℚ) ^ (970 : ℤ) := zpow_le_zpow_right₀ (by norm_num) h2
    calc ((|m| : ℤ) : ℚ) * (2 : ℚ) ^ e ≤ 2 ^ 53 * (2 : ℚ) ^ (970 : ℤ) :=
          mul_le_mul a1 a2 (two_zpow_pos e).le (by positivity)
      _ = (2 : ℚ) ^ ((53 : ℕ) + (970 : ℤ)) := by rw [zpow_add₀ (by norm_num), zpow_natCast]
      _ = (2 : ℚ) ^ 1023 := by
        rw [← zpow_natCast]; norm_num
      _ ≤ 2 ^ 1023 := le_refl _

/-- **C108 (float64).** Integers: with whole quantities of at most `M` altogether and whole prices up to `P`, where
`2 * P * M ≤ 2^53`, a float64 run of MUDA or of peer to peer trading at the midpoint gives exactly the result of
exact arithmetic, whatever the order of summation. -/
theorem C108_integers (A : Arith) (hA : IsIeee A) (s gs o : Summer A) (S : Sorter) (smp : Sampler) (df : DF)
    (M P : ℕ) (hM : 1 ≤ M) (hP : 1 ≤ P) (hMP : 2 * P * M ≤ 2 ^ 53) (ht : IsTable df)
    (hq : ∀ r ∈ df, ∃ k : ℕ, r.quantity = k) (hQ : totalQty df ≤ M)
    (hp : ∀ r ∈ df, ∃ k : ℕ, r.price = k ∧ k ≤ P) :
    (∀ coin, runAlgoF A s gs o S smp (.muda false coin) df = runAlgo S smp (.muda false coin) df) ∧
    ∀ choice, runAlgoF A s gs o S smp (.p2p false (1 / 2) choice) df =
      runAlgo S smp (.p2p false (1 / 2) choice) df := by
  have hM' : M ≤ 2 ^ 53 := by nlinarith
  have hP' : 2 * P ≤ 2 ^ 53 := by nlinarith
  have e1 : ((2 : ℚ) ^ (0 : ℤ)) = 1 := by norm_num
  have e2 : ((2 : ℚ) ^ (-1 : ℤ)) = 1 / 2 := by norm_num
  have x1 := exactOn_ieee hA 0 M hM' (by norm_num) (by norm_num)
  have x2 := exactOn_ieee hA (-1) (2 * P) hP' (by norm_num) (by norm_num)
  have x3 := exactOn_ieee hA (-1) (2 * P * M) hMP (by norm_num) (by norm_num)
  rw [e1] at x1
  rw [e2] at x2 x3
  refine C108_exact A 1 1 M P ⟨?_, x1, x2, by simpa using x3⟩ s gs o S smp df ht ⟨?_, ?_⟩ ?_
  · have := x2.2 1 (by simp; omega)
    simpa using this
  · intro x hx
    obtain ⟨r, hr, rfl⟩ := List.mem_map.mp hx
    obtain ⟨k, hk⟩ := hq r hr
    exact ⟨k, by rw [hk]; simp⟩
  · simpa [totalQty] using hQ
  · intro r hr
    obtain ⟨k, hk, hkP⟩ := hp r hr
    refine ⟨⟨k, by rw [hk]; simp⟩, ?_⟩
    rw [hk]; simpa using hkP

/-- `mudaBook` meets the hypotheses of `C108_integers` with `M = 100` and `P = 100`, and trades. -/
example : IsIeee ieee64 ∧ 2 * 100 * 100 ≤ 2 ^ 53 ∧ IsTable mudaBook ∧
    (∀ r ∈ mudaBook, r.quantity.den = 1 ∧ 0 ≤ r.quantity ∧ r.price.den = 1 ∧ 0 ≤ r.price ∧ r.price ≤ 100) ∧
    totalQty mudaBook ≤ 100 ∧
    runAlgo stableSorter headSampler (.muda false mudaCoin) mudaBook =
      .ok (⟨4, mudaTrans⟩, .muda [0, 1, 2, 3, 5, 7] [4, 6, 8, 9] (.fin 6) (.fin (7 / 2))
        [11, 0, 0, 3, 0, 0, 0, 0]) :=
  ⟨ieee64_isIeee, by norm_num, by decide +kernel, by decide +kernel, by decide +kernel, by decide +kernel⟩

/-- Whole quantities slightly above `2^53` altogether. The last three bids form the other half and set the
price 11/2. -/
def giantBook : DF := labelFrom 0
  [⟨2 ^ 53, 9, 0, true, 0, true⟩, ⟨1, 8, 1, true, 0, true⟩, ⟨1, 7, 2, true, 0, true⟩,
   ⟨2 ^ 53 + 4, 4, 3, false, 0, true⟩, ⟨1, 6, 4, true, 0, true⟩, ⟨1, 5, 5, false, 0, true⟩,
   ⟨1, 3, 6, true, 0, true⟩]

/-- The left half. -/
def giantCoin (i : ℕ) : Bool := decide (i < 4)

/-- **C108 (the bound is needed).** The quantities are whole, but their total exceeds `2^53`: the running total of
the buyers stays at `2^53`, the second buyer trades in full and the third nothing, and more is bought than sold. -/
theorem C108_bound_needed :
    IsTable giantBook ∧ (∀ r ∈ giantBook, r.quantity.den = 1 ∧ 0 ≤ r.quantity) ∧
    (∀ r ∈ giantBook, float64.Rep r.quantity ∧ float64.Rep r.price) ∧
    ∃ tm left right pl pr fees, mudaF float64 (pairSummer float64) (seqSummer float64) stableSorter
        giantCoin giantBook = .ok (tm, .muda left right pl pr fees) ∧
      boughtQty giantBook (tradesIn left tm.trans) = soldQty giantBook (tradesIn left tm.trans) + 1 := by
  refine ⟨by decide +kernel, by decide +kernel, ?_, ?_⟩
  · unfold Fmt.Rep
    decide +kernel
  · have h : (mudaF float64 (pairSummer float64) (seqSummer float64) stableSorter
        giantCoin giantBook).toOption.any (fun r => match r.2 with
          | .muda left _ _ _ _ => decide (boughtQty giantBook (tradesIn left r.1.trans) =
              soldQty giantBook (tradesIn left r.1.trans) + 1)
          | _ => false) = true := by decide +kernel
    cases hr : mudaF float64 (pairSummer float64) (seqSummer float64) stableSorter giantCoin giantBook with
    | error e => rw [hr] at h; cases h
    | ok r =>
      rw [hr] at h
      obtain ⟨tm, ex⟩ := r
      cases ex with
      | muda left right pl pr fees => exact ⟨tm, left, right, pl, pr, fees, rfl, of_decide_eq_true h⟩
      | _ => cases h

/-- Thirteen bids in quarters: `C108_muda` and `C108_huang` apply although a side has more than seven bids. -/
def quarterBook : DF := labelFrom 0
  [⟨5 / 4, 5, 0, true, 0, true⟩, ⟨1 / 4, 6, 1, true, 0, true⟩, ⟨3 / 4, 7, 2, true, 0, true⟩,
   ⟨1, 8, 3, true, 0, true⟩, ⟨1 / 4, 9, 4, true, 0, true⟩, ⟨1, 10, 5, true, 0, true⟩,
   ⟨5 / 4, 11, 6, true, 0, true⟩, ⟨1 / 4, 12, 7, true, 0, true⟩, ⟨3 / 2, 13, 8, true, 0, true⟩,
   ⟨23 / 4, 3, 9, false, 0, true⟩, ⟨1, 4, 10, false, 0, true⟩, ⟨1, 14, 11, true, 0, true⟩,
   ⟨1, 2, 12, false, 0, true⟩]

/-- The left half. -/
def quarterCoin (i : ℕ) : Bool := decide (i < 11)

theorem quarterBook_whole : WholeBook ((2 : ℚ) ^ (-2 : ℤ)) (2 ^ 53) quarterBook := by
  have h : ((2 : ℚ) ^ (-2 : ℤ)) = 1 / 4 := by norm_num
  rw [h]
  constructor
  · have : ∀ x ∈ quarterBook.map (fun r : Row => r.quantity), x = (((4 * x : ℚ).num.toNat : ℕ) : ℚ) * (1 / 4) := by
      decide +kernel
    exact fun x hx => ⟨_, this x hx⟩
  · decide +kernel

example : ExactOn float64.toArith ((2 : ℚ) ^ (-2 : ℤ)) (2 ^ 53) ∧
    WholeBook ((2 : ℚ) ^ (-2 : ℤ)) (2 ^ 53) quarterBook ∧ IsTable quarterBook ∧ NonNeg quarterBook ∧
    (∀ r ∈ quarterBook, float64.Rep r.price) ∧
    (mudaF float64 (pairSummer float64) (seqSummer float64) stableSorter quarterCoin
      quarterBook).toOption.any (fun r => decide (2 < r.1.trans.length)) = true ∧
    (huangAuctionF float64 (pairSummer float64) stableSorter quarterBook).toOption.any
      (fun r => decide (2 < r.1.trans.length)) = true := by
  refine ⟨exactOn_float64 _ _ (le_refl _), quarterBook_whole, by decide +kernel, by decide +kernel, ?_,
    by decide +kernel, by decide +kernel⟩
  unfold Fmt.Rep
  decide +kernel

end PyMarket
