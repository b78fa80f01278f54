import Verif.Lemmas.MudaServed
import Verif.Props.WelfareTheorem

/-! # C116: in a large market MUDA realises almost all gains from trade -/

set_option autoImplicit false

namespace PyMarket

open Spec

/-- No buyer and seller could gain more than `P` per unit from each other. -/
def Spec.PriceGap (df : DF) (P : ℚ) : Prop :=
  ∀ b ∈ df, ∀ s ∈ df, b.buying = true → s.buying = false → b.price - s.price ≤ P

/-- What a plan gains, when all gains per unit are at most `P`. -/
theorem planWelfare_le_cut {df : DF} (ht : IsTable df) {q : ℕ → ℕ → ℚ} (h : TradePlan df q) {P : ℚ}
    (hP : 0 ≤ P) (hg : PriceGap df P) (t : ℚ) :
    planWelfare df (priceOf df) q ≤ P * volumeBound df t := by
  set q' : ℕ → ℕ → ℚ := fun i j => if priceOf df j ≤ priceOf df i then q i j else 0 with hq'
  have hle : ∀ i j, q' i j ≤ q i j := by
    intro i j
    simp only [hq']
    split_ifs
    · exact le_refl _
    · exact h.nonneg i j
  have hplan : TradePlan df q' := by
    refine ⟨?_, ?_, ?_, ?_⟩
    · intro i j
      simp only [hq']
      split_ifs
      · exact h.nonneg i j
      · exact le_refl _
    · intro i j hne
      apply h.pair i j
      intro h0
      apply hne
      simp [hq', h0]
    · intro i
      exact le_trans (List.sum_le_sum (fun j _ => hle i j)) (h.buyer i)
    · intro j
      exact le_trans (List.sum_le_sum (fun i _ => hle i j)) (h.seller j)
  have hcomp : Compatible df q' := by
    intro i j hne
    by_contra hlt
    exact hne (by simp only [hq']; rw [if_neg hlt])
  have hvol : planVolume df q' ≤ volumeBound df t := by
    have := planVolume_le_cut hplan hcomp (fun i => decide (t < priceOf df i))
      (fun j => decide (priceOf df j ≤ t))
      (by
        intro i j _ _ hij
        simp only [decide_eq_true_eq]
        rcases lt_or_ge t (priceOf df i) with h | h
        · exact .inl h
        · exact .inr (le_trans hij h))
    unfold volumeBound
    rw [demandQtyAbove_range ht, supplyQty_range ht]
    simpa only [decide_eq_true_eq] using this
  refine le_trans ?_ (mul_le_mul_of_nonneg_left hvol hP)
  unfold planWelfare planVolume
  rw [← List.sum_map_mul_left]
  apply List.sum_le_sum
  intro i hi
  rw [← List.sum_map_mul_left]
  apply List.sum_le_sum
  intro j hj
  have hn := h.nonneg i j
  simp only [hq']
  split_ifs with hc
  · by_cases h0 : q i j = 0
    · simp [h0]
    · obtain ⟨hb, hs⟩ := h.pair i j h0
      rw [List.mem_range] at hi hj
      have ei := ht.isBuy_eq (List.getElem_mem hi)
      have ej := ht.isSell_eq (List.getElem_mem hj)
      have pi := ht.price_eq (List.getElem_mem hi)
      have pj := ht.price_eq (List.getElem_mem hj)
      have li : (df[i]).label = i := ht.label (List.getElem?_eq_getElem hi)
      have lj : (df[j]).label = j := ht.label (List.getElem?_eq_getElem hj)
      rw [li] at ei pi
      rw [lj] at ej pj
      rw [hb] at ei
      rw [hs] at ej
      have := hg df[i] (List.getElem_mem hi) df[j] (List.getElem_mem hj) ei.symm (by simpa using ej.symm)
      rw [pi, pj]
      exact mul_le_mul_of_nonneg_right this hn
  · have : priceOf df i - priceOf df j ≤ 0 := by linarith
    nlinarith

/-- If at every price one side is at most `ε`, some price leaves at most `ε` on both. -/
theorem thin_cut {df : DF} (hn : NonNeg df) {ε : ℚ} (hε : 0 ≤ ε)
    (h : ∀ q, demandQty df q ≤ ε ∨ supplyQty df q ≤ ε) :
    ∃ t, demandQtyAbove df t ≤ ε ∧ supplyQty df t ≤ ε := by
  classical
  set C : Finset ℚ := insert (-1) ((df.map (fun r => r.price)).toFinset.filter (fun c => ε < demandQty df c))
    with hC
  obtain ⟨t, htC, hmax⟩ := Finset.exists_max_image C id ⟨-1, Finset.mem_insert_self _ _⟩
  refine ⟨t, ?_, ?_⟩
  · by_contra hlt
    rw [not_le] at hlt
    set L := (df.filter (fun r => r.buying && decide (t < r.price))).toFinset with hL
    have hne : L.Nonempty := by
      rw [hL, List.toFinset_nonempty_iff]
      intro he
      unfold demandQtyAbove at hlt
      rw [he] at hlt
      simp at hlt
      linarith
    obtain ⟨m, hm, hmin⟩ := Finset.exists_min_image L (fun r => r.price) hne
    rw [hL, List.mem_toFinset, List.mem_filter] at hm
    obtain ⟨hm1, hm2⟩ := hm
    simp only [Bool.and_eq_true, decide_eq_true_eq] at hm2
    have he : demandQty df m.price = demandQtyAbove df t := by
      unfold demandQty demandQtyAbove
      congr 2
      apply List.filter_congr
      intro r hr
      cases hb : r.buying
      · rfl
      · simp only [Bool.true_and]
        rw [decide_eq_decide]
        constructor
        · intro h; linarith [hm2.2]
        · intro h
          exact hmin r (by rw [hL, List.mem_toFinset, List.mem_filter]; exact ⟨hr, by simp [hb, h]⟩)
    have := hmax m.price (by
      rw [hC]
      apply Finset.mem_insert_of_mem
      rw [Finset.mem_filter, List.mem_toFinset]
      exact ⟨List.mem_map.mpr ⟨m, hm1, rfl⟩, by rw [he]; exact hlt⟩)
    simp only [id] at this
    linarith [hm2.2]
  · rw [hC, Finset.mem_insert, Finset.mem_filter] at htC
    rcases htC with rfl | ⟨-, ht⟩
    · rw [supplyQty_neg hn (by norm_num)]; exact hε
    · rcases h t with h | h
      · exact absurd h (not_le.mpr ht)
      · exact h

/-- **C116, one outcome of the coins.** If the coins divide the market evenly up to `ε` and nobody could gain
more than `P` per unit, MUDA realises all but `10 P ε` of the largest possible gain. -/
theorem C116_gains_partial (S : Sorter) (coin : ℕ → Bool) (df : DF) (ht : IsTable df) (hn : NonNeg df)
    (hu : Untied df) (P : ℚ) (hP : 0 ≤ P) (hg : PriceGap df P) (ε : ℚ) (hb : Balanced df coin ε)
    (tm : TransactionManager) (ex : Extra) (h : muda S coin df = .ok (tm, ex)) (best : ℚ)
    (hbest : BestWelfare df (priceOf df) best) : best - 10 * P * ε ≤ gains df (priceOf df) tm.trans := by
  have hq : ∀ r ∈ df, 0 ≤ r.quantity := fun r hr => (hn r hr).1
  have hε : 0 ≤ ε := le_trans (abs_nonneg _) (hb.demand 0)
  obtain ⟨⟨plan, hplan, rfl⟩, -⟩ := hbest
  obtain ⟨left, right, pl, pr, fees, rfl, hrun⟩ := muda_run ht h
  obtain ⟨hsplit, ol, or⟩ := hrun.halves ht hq
  have hL : half df left = df.filter (fun r => coin r.label) := by rw [hrun.left_eq, half_filter ht]
  have hR : half df right = df.filter (fun r => !coin r.label) := by rw [hrun.right_eq, half_filter ht]
  have hpl := hrun.priceLeft
  have hpr := hrun.priceRight
  have hsum : gains df (priceOf df) tm.trans = gains df (priceOf df) (tradesIn left tm.trans) +
      gains df (priceOf df) (tradesIn right tm.trans) := by
    conv_lhs => rw [hsplit]
    exact gains_append _ _ _ _
  have sub1 : ∀ r ∈ df.filter (fun r => coin r.label), r ∈ df := fun r hr => (List.mem_filter.mp hr).1
  have sub2 : ∀ r ∈ df.filter (fun r => !coin r.label), r ∈ df := fun r hr => (List.mem_filter.mp hr).1
  have n1 : NonNeg (df.filter (fun r => coin r.label)) := fun r hr => hn r (sub1 r hr)
  have n2 : NonNeg (df.filter (fun r => !coin r.label)) := fun r hr => hn r (sub2 r hr)
  by_cases hboth : (∃ q, 0 < volumeAt (df.filter (fun r => coin r.label)) q) ∧
      ∃ q, 0 < volumeAt (df.filter (fun r => !coin r.label)) q
  · obtain ⟨⟨q1, h1⟩, q2, h2⟩ := hboth
    obtain ⟨p1, x1, e1, c1, a1, b1, l1, u1⟩ := competitive_volume S n1 (hu.sub sub1) h1
    obtain ⟨p2, x2, e2, c2, a2, b2, l2, u2⟩ := competitive_volume S n2 (hu.sub sub2) h2
    rw [hL, e1] at hpl
    rw [hR, e2] at hpr
    have v1 : pl = .fin p1 := by injection hpl with h; exact h.symm
    have v2 : pr = .fin p2 := by injection hpr with h; exact h.symm
    rw [v2] at ol
    rw [v1] at or
    obtain ⟨w1, -, s1, d1, k1⟩ := c1.clears_between n1
    obtain ⟨w2, -, s2, d2, k2⟩ := c2.clears_between n2
    -- the marginal bids bound the prices
    have range : ∀ {H : DF} {x p w : ℚ}, (∀ r ∈ H, r ∈ df) → NonNeg H → Crossing S H x →
        supplyAt S H x ≤ (p : Ext) → (p : Ext) ≤ demandAt S H x →
        supplyAt S H x ≤ (w : Ext) → (w : Ext) ≤ demandAt S H x →
        (∀ r ∈ df, r.buying = true → r.price - w ≤ P) ∧ (∀ r ∈ df, r.buying = false → w - r.price ≤ P) ∧
          w - p ≤ P ∧ p - w ≤ P := by
      intro H x p w hsub hnH hc hp1 hp2 hw1 hw2
      obtain ⟨b, hb, hb'⟩ := hc.marginal_buy hnH
      obtain ⟨s, hs, hs'⟩ := hc.marginal_sell
      have hbm := mem_buys.mp (mem_sortDesc.mp (List.mem_of_getElem? hb))
      have hsm := mem_sells.mp (mem_sortAsc.mp (List.mem_of_getElem? hs))
      rw [hs'] at hp1 hw1
      rw [hb'] at hp2 hw2
      have hp1 := WithTop.coe_le_coe.mp hp1
      have hp2 := WithTop.coe_le_coe.mp hp2
      have hw1 := WithTop.coe_le_coe.mp hw1
      have hw2 := WithTop.coe_le_coe.mp hw2
      have hbs := hg b (hsub b hbm.1) s (hsub s hsm.1) hbm.2 hsm.2
      refine ⟨fun r hr h => ?_, fun r hr h => ?_, by linarith, by linarith⟩
      · have := hg r hr s (hsub s hsm.1) h hsm.2
        linarith
      · have := hg b (hsub b hbm.1) r hr hbm.2 h
        linarith
    obtain ⟨f1, f2, f3, f4⟩ := range sub2 n2 c2 a2 b2 s2 d2
    obtain ⟨g1, g2, g3, g4⟩ := range sub1 n1 c1 a1 b1 s1 d1
    obtain ⟨k11, k12, k13, k14⟩ := k1
    obtain ⟨k21, k22, k23, k24⟩ := k2
    have bd1 := abs_le.mp (hb.demand w1)
    have bs1 := abs_le.mp (hb.supply w1)
    have bd2 := abs_le.mp (hb.demand w2)
    have bs2 := abs_le.mp (hb.supply w2)
    have ba1 := abs_le.mp (hb.above w1).1
    have bb1 := abs_le.mp (hb.above w1).2
    have ba2 := abs_le.mp (hb.above w2).1
    have bb2 := abs_le.mp (hb.above w2).2
    have bv2 := (hb.volume p2).2.2.1
    have bv1 := (hb.volume p1).2.2.2
    have gl := half_gain_bound ht hn (c := w2) (x := x2) (ε := ε) (P := P) ol hP hε
      (by rw [hL]; linarith) (by rw [hL]; linarith) (by rw [hL]; linarith) (by rw [hL]; linarith)
      (by rw [hL]; linarith) f1 f2 f3 f4
    have gr := half_gain_bound ht hn (c := w1) (x := x1) (ε := ε) (P := P) or hP hε
      (by rw [hR]; linarith) (by rw [hR]; linarith) (by rw [hR]; linarith) (by rw [hR]; linarith)
      (by rw [hR]; linarith) g1 g2 g3 g4
    rw [hL] at gl
    rw [hR] at gr
    have o1 := planWelfare_le ht hplan w1
    have o2 := planWelfare_le ht hplan w2
    change _ ≤ claims w1 df at o1
    change _ ≤ claims w2 df at o2
    rw [claims_halves w1 df (fun r => coin r.label), claims_sides, claims_sides] at o1
    rw [claims_halves w2 df (fun r => coin r.label), claims_sides, claims_sides] at o2
    rw [claims_sides] at gl gr
    have q1 := abs_le.mp (hb.buyClaims hP g1)
    have q2 := abs_le.mp (hb.sellClaims hP g2)
    have q3 := abs_le.mp (hb.buyClaims hP f1)
    have q4 := abs_le.mp (hb.sellClaims hP f2)
    rw [hsum]
    linarith
  · have hthin : ∀ q, demandQty df q ≤ ε ∨ supplyQty df q ≤ ε := by
      intro q
      have e1 : demandQty df q = demandQty (df.filter (fun r => coin r.label)) q +
          demandQty (df.filter (fun r => !coin r.label)) q := filter_split_sum df _ _
      have e2 : supplyQty df q = supplyQty (df.filter (fun r => coin r.label)) q +
          supplyQty (df.filter (fun r => !coin r.label)) q := filter_split_sum df _ _
      have h1 := abs_le.mp (hb.demand q)
      have h2 := abs_le.mp (hb.supply q)
      rw [not_and_or] at hboth
      push Not at hboth
      rcases hboth with hz | hz
      · rcases min_le_iff.mp (hz q) with h | h
        · left
          change demandQty _ q ≤ 0 at h
          linarith
        · right
          change supplyQty _ q ≤ 0 at h
          linarith
      · rcases min_le_iff.mp (hz q) with h | h
        · left
          change demandQty _ q ≤ 0 at h
          linarith
        · right
          change supplyQty _ q ≤ 0 at h
          linarith
    obtain ⟨t, t1, t2⟩ := thin_cut hn hε hthin
    have hcut := planWelfare_le_cut ht hplan hP hg t
    unfold volumeBound at hcut
    have hnn : ∀ (ids : List ℕ) (v : Val), HalfOutcome S (half df ids) v (tradesIn ids tm.trans) →
        0 ≤ gains df (priceOf df) (tradesIn ids tm.trans) := by
      intro ids v ho
      rcases ho with ⟨he, -⟩ | ⟨p, -, hh⟩
      · rw [he, gains_terms]
        exact le_refl _
      · rw [gains_terms]
        apply List.sum_nonneg
        intro y hy
        obtain ⟨t, htt, rfl⟩ := List.mem_map.mp hy
        obtain ⟨r, hr, h1, h2, _, h4, _, _, h7, h8⟩ := hh.mem t htt
        have hr' := half_sub r hr
        rw [h1, ht.isBuy_eq hr', ht.isSell_eq hr', ht.price_eq hr', h4]
        cases hb : r.buying
        · have := mul_nonneg h2 (sub_nonneg.mpr (h8 hb)); simpa using this
        · have := mul_nonneg h2 (sub_nonneg.mpr (h7 hb)); simpa using this
    have := hnn left pr ol
    have := hnn right pl or
    have : P * (demandQtyAbove df t + supplyQty df t) ≤ P * (2 * ε) :=
      mul_le_mul_of_nonneg_left (by linarith) hP
    have := mul_nonneg hP hε
    rw [hsum]
    linarith

/-- **C116.** At most a fraction `Σ q² / ε²` of the outcomes of the coins loses more than `10 P ε` of the
largest possible gain. -/
theorem C116_most_partial (S : Sorter) (df : DF) (ht : IsTable df) (hn : NonNeg df) (ha : Untied df)
    (hu : UsersInRange df) (htwin : ¬ HasTwin df) (P : ℚ) (hP : 0 ≤ P) (hg : PriceGap df P) (best : ℚ)
    (hbest : BestWelfare df (priceOf df) best) (ε : ℚ) (h0 : 0 ≤ ε) :
    (Nat.card {d : Fin df.length → Bool // ¬ ∃ tm ex, muda S (coins d) df = .ok (tm, ex) ∧
      best - 10 * P * ε ≤ gains df (priceOf df) tm.trans} : ℚ) * ε ^ 2 ≤
      2 ^ df.length * (df.map (fun r => r.quantity ^ 2)).sum := by
  refine le_trans (mul_le_mul_of_nonneg_right ?_ (by positivity)) (C115_balanced df ht ε h0)
  have : Nat.card {d : Fin df.length → Bool // ¬ ∃ tm ex, muda S (coins d) df = .ok (tm, ex) ∧
      best - 10 * P * ε ≤ gains df (priceOf df) tm.trans} ≤
      Nat.card {d : Fin df.length → Bool // ¬ Balanced df (coins d) ε} := by
    apply Nat.card_le_card_of_injective
      (fun d => ⟨d.1, fun hb => d.2 (by
        obtain ⟨tm, left, right, pl, pr, fees, h⟩ :=
          C32_total_partial S (coins d.1) df ht (fun r hr => (hn r hr).1) hu htwin
        exact ⟨tm, _, h, C116_gains_partial S _ df ht hn ha P hP hg ε hb tm _ h best hbest⟩)⟩)
    intro d d' h
    simpa [Subtype.ext_iff] using h
  exact_mod_cast this

/-- **C116, large markets.** If the squares of the quantities are small against the square of the largest
possible gain, all but a small fraction `η` of the outcomes of the coins realises the share `1 - δ` of it. -/
theorem C116_large_partial (S : Sorter) (df : DF) (ht : IsTable df) (hn : NonNeg df) (ha : Untied df)
    (hu : UsersInRange df) (htwin : ¬ HasTwin df) (P : ℚ) (hP : 0 < P) (hg : PriceGap df P) (best : ℚ)
    (hbest : BestWelfare df (priceOf df) best) (h0 : 0 < best) (δ η : ℚ) (hδ : 0 < δ)
    (hsmall : 100 * P ^ 2 * (df.map (fun r => r.quantity ^ 2)).sum ≤ η * (δ * best) ^ 2) :
    (Nat.card {d : Fin df.length → Bool // ¬ ∃ tm ex, muda S (coins d) df = .ok (tm, ex) ∧
      (1 - δ) * best ≤ gains df (priceOf df) tm.trans} : ℚ) ≤ η * 2 ^ df.length := by
  have hε : 0 < δ * best / (10 * P) := by positivity
  have h := C116_most_partial S df ht hn ha hu htwin P hP.le hg best hbest (δ * best / (10 * P)) hε.le
  have he : best - 10 * P * (δ * best / (10 * P)) = (1 - δ) * best := by
    field_simp
  rw [he] at h
  have hpos : 0 < (δ * best / (10 * P)) ^ 2 := by positivity
  refine le_of_mul_le_mul_right (le_trans h ?_) hpos
  have h2 : (0 : ℚ) < 2 ^ df.length := by positivity
  have hd : (df.map (fun r => r.quantity ^ 2)).sum ≤ η * (δ * best / (10 * P)) ^ 2 := by
    rw [div_pow, ← mul_div_assoc, le_div_iff₀ (by positivity)]
    refine le_trans (le_of_eq ?_) hsmall
    ring
  calc (2 : ℚ) ^ df.length * (df.map (fun r => r.quantity ^ 2)).sum
      ≤ 2 ^ df.length * (η * (δ * best / (10 * P)) ^ 2) := mul_le_mul_of_nonneg_left hd h2.le
    _ = _ := by ring

/-! ## A market of any size -/

theorem wide_above (n : ℕ) : demandQtyAbove (labelFrom 0 (wideBids n)) 1 = n := by
  have h : demandQtyAbove (labelFrom 0 (wideBids n)) 1 = demandQty (labelFrom 0 (wideBids n)) 1 := by
    unfold demandQtyAbove demandQty
    congr 2
    apply List.filter_congr
    intro r hr
    cases hb : r.buying
    · rfl
    · rw [(wide_mem hr).2.1 hb]; norm_num
  have hv := wide_volume n
  rw [volumeAt_eq] at hv
  refine le_antisymm ?_ ?_
  · refine le_trans (le_of_eq
      (sum_filter_rows (fun b => b.buying && decide (1 < b.price)) (fun b => b.quantity) _ 0)) ?_
    unfold wideBids
    rw [List.filter_append, List.filter_map, List.filter_map]
    have e1 : (List.range n).filter ((fun b : Bid => b.buying && decide (1 < b.price)) ∘
        fun i : ℕ => (⟨1, 2, (i : ℤ), true, 0, true⟩ : Bid)) = List.range n := by
      rw [List.filter_eq_self]; intro i _; simp
    have e2 : (List.range n).filter ((fun b : Bid => b.buying && decide (1 < b.price)) ∘
        fun i : ℕ => (⟨1, 1, ((n + i : ℕ) : ℤ), false, 0, true⟩ : Bid)) = [] := by
      rw [List.filter_eq_nil_iff]; intro i _; simp
    rw [e1, e2]
    simp [Function.comp_def]
  · rw [h]
    exact hv.symm.le.trans (min_le_left _ _)

theorem wide_best (n : ℕ) :
    BestWelfare (labelFrom 0 (wideBids n)) (priceOf (labelFrom 0 (wideBids n))) n := by
  have hv := wide_volume n
  rw [volumeAt_eq] at hv
  have hnn : NonNeg (labelFrom 0 (wideBids n)) := by
    intro r hr
    obtain ⟨h1, h2, h3⟩ := wide_mem hr
    rw [h1]
    cases hb : r.buying
    · rw [h3 hb]; norm_num
    · rw [h2 hb]; norm_num
  have hbelow : supplyQtyBelow (labelFrom 0 (wideBids n)) 1 ≤ n := by
    have : supplyQtyBelow (labelFrom 0 (wideBids n)) 1 = 0 := by
      unfold supplyQtyBelow
      have : (labelFrom 0 (wideBids n)).filter (fun r => !r.buying && decide (r.price < 1)) = [] := by
        rw [List.filter_eq_nil_iff]
        intro r hr
        cases hb : r.buying
        · rw [(wide_mem hr).2.2 hb]; norm_num
        · simp
      rw [this]; rfl
    rw [this]; positivity
  have hclear : Clears (labelFrom 0 (wideBids n)) 1 n :=
    ⟨(wide_above n).le, hv.symm.le.trans (min_le_left _ _), hbelow, hv.symm.le.trans (min_le_right _ _)⟩
  have hb := best_of_clears (isTable_labelFrom _) (fun r hr => (hnn r hr).1) hclear
  have : ((labelFrom 0 (wideBids n)).map (fun r => claim 1 r.toBid)).sum = n := by
    rw [sum_rows (claim 1)]
    unfold wideBids
    simp [Function.comp_def, claim]
    norm_num
  rw [this] at hb
  exact hb

/-- With `n` buyers and `n` sellers of one unit, MUDA realises at least `(1 - δ) n` of the possible gain `n`
except for a fraction `200 / (δ² n)` of the outcomes of the coins. -/
theorem C116_wide (S : Sorter) (n : ℕ) (hn : 0 < n) (δ : ℚ) (hδ : 0 < δ) :
    (Nat.card {d : Fin (labelFrom 0 (wideBids n)).length → Bool //
      ¬ ∃ tm ex, muda S (coins d) (labelFrom 0 (wideBids n)) = .ok (tm, ex) ∧
        (1 - δ) * n ≤ gains (labelFrom 0 (wideBids n)) (priceOf (labelFrom 0 (wideBids n))) tm.trans} : ℚ) ≤
      200 / (δ ^ 2 * n) * 2 ^ (2 * n) := by
  have hlen : (labelFrom 0 (wideBids n)).length = 2 * n := by
    rw [labelFrom_length]; simp [wideBids]; omega
  have hn' : (0 : ℚ) < n := by exact_mod_cast hn
  have key := C116_large_partial S (labelFrom 0 (wideBids n)) (isTable_labelFrom _)
    (by
      intro r hr
      obtain ⟨h1, h2, h3⟩ := wide_mem hr
      rw [h1]
      cases hb : r.buying
      · rw [h3 hb]; norm_num
      · rw [h2 hb]; norm_num)
    (by
      intro s hs h
      rw [(wide_mem hs).2.2 h]
      refine ⟨by norm_num, fun b hb h => ?_⟩
      rw [(wide_mem hb).2.1 h]; norm_num)
    (usersInRange_labelFrom (users_labelFrom rfl (wideBids_user n)))
    (not_hasTwin_labelFrom (wideBids_user n)) 1 one_pos
    (by
      intro b hb s hs h1 h2
      rw [(wide_mem hb).2.1 h1, (wide_mem hs).2.2 h2]; norm_num)
    n (wide_best n) hn' δ (200 / (δ ^ 2 * n)) hδ
    (by
      rw [sum_rows (fun b => b.quantity ^ 2)]
      have : ((wideBids n).map (fun b => b.quantity ^ 2)).sum = 2 * (n : ℚ) := by
        unfold wideBids
        simp [Function.comp_def]
        ring
      rw [this]
      apply le_of_eq
      field_simp
      ring)
  refine le_trans key (le_of_eq ?_)
  rw [hlen]

/-! ## Why the conditions are needed -/

/-- C116 for one outcome of the coins, for every book. -/
def Spec.MudaGainsMost : Prop :=
  ∀ (S : Sorter) (coin : ℕ → Bool) (df : DF), IsTable df → NonNeg df → ∀ P, 0 ≤ P → PriceGap df P →
    ∀ ε, Balanced df coin ε → ∀ tm ex, muda S coin df = .ok (tm, ex) →
    ∀ best, BestWelfare df (priceOf df) best → best - 10 * P * ε ≤ gains df (priceOf df) tm.trans

/-- With ties all gains can be lost although the halves are equal: of 16 possible on `tieHalvesBook`, MUDA
realises nothing. -/
theorem C116_ties_refuted : ¬ MudaGainsMost := by
  intro h
  have h1 : (muda stableSorter evenCoin tieHalvesBook).toOption.map (fun o => o.1.trans) = some [] := by
    decide +kernel
  cases hm : muda stableSorter evenCoin tieHalvesBook with
  | error e => rw [hm] at h1; cases h1
  | ok o =>
    rw [hm] at h1
    have h2 : o.1.trans = [] := by simpa [Except.toOption] using h1
    have hb := best_of_clears (df := tieHalvesBook) (p := 5) (x := 2) (by decide +kernel) (by decide +kernel)
      (by decide +kernel)
    have := h stableSorter evenCoin tieHalvesBook (by decide +kernel) (by decide +kernel) 8 (by norm_num)
      (by unfold PriceGap; decide +kernel) 0 (balanced_of_same (by decide +kernel)) o.1 o.2 hm _ hb
    rw [h2] at this
    revert this
    decide +kernel

/-- C116 for books in which no buying and selling price agree. -/
def Spec.MudaGainsMostUntied : Prop :=
  ∀ (S : Sorter) (coin : ℕ → Bool) (df : DF), IsTable df → NonNeg df →
    (∀ s ∈ df, s.buying = false → ∀ b ∈ df, b.buying = true → b.price ≠ s.price) →
    ∀ P, 0 ≤ P → PriceGap df P → ∀ ε, Balanced df coin ε → ∀ tm ex, muda S coin df = .ok (tm, ex) →
    ∀ best, BestWelfare df (priceOf df) best → best - 10 * P * ε ≤ gains df (priceOf df) tm.trans

/-- Nor do free offers allow it: the possible gain of 10 on `gratisBook` is lost. -/
theorem C116_free_refuted : ¬ MudaGainsMostUntied := by
  intro h
  have h1 : (muda stableSorter evenCoin gratisBook).toOption.map (fun o => o.1.trans) = some [] := by
    decide +kernel
  cases hm : muda stableSorter evenCoin gratisBook with
  | error e => rw [hm] at h1; cases h1
  | ok o =>
    rw [hm] at h1
    have h2 : o.1.trans = [] := by simpa [Except.toOption] using h1
    have hb := best_of_clears (df := gratisBook) (p := 0) (x := 2) (by decide +kernel) (by decide +kernel)
      (by decide +kernel)
    have := h stableSorter evenCoin gratisBook (by decide +kernel) (by decide +kernel) (by decide +kernel) 5
      (by norm_num) (by unfold PriceGap; decide +kernel) 0 (balanced_of_same (by decide +kernel)) o.1 o.2 hm
      _ hb
    rw [h2] at this
    revert this
    decide +kernel

/-- The hypotheses of `C116_gains_partial` hold for four buyers and four sellers divided evenly, and the whole
possible gain of 4 is realised. -/
example : IsTable (labelFrom 0 (wideBids 4)) ∧ Untied (labelFrom 0 (wideBids 4)) ∧
    PriceGap (labelFrom 0 (wideBids 4)) 1 ∧ Balanced (labelFrom 0 (wideBids 4)) evenCoin 0 ∧
    BestWelfare (labelFrom 0 (wideBids 4)) (priceOf (labelFrom 0 (wideBids 4))) 4 ∧
    (muda stableSorter evenCoin (labelFrom 0 (wideBids 4))).toOption.map
      (fun o => gains (labelFrom 0 (wideBids 4)) (priceOf (labelFrom 0 (wideBids 4))) o.1.trans) = some 4 :=
  ⟨by decide +kernel, by unfold Untied; decide +kernel, by unfold PriceGap; decide +kernel,
    balanced_of_same (by decide +kernel), by have := wide_best 4; exact_mod_cast this, by decide +kernel⟩

end PyMarket
