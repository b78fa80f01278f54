import Verif.Props.MudaEfficient
import Verif.Props.P2PWelfare
import Verif.Props.ClosedForm

/-! # The gains of a half of MUDA against what its bids could claim at another price -/

set_option autoImplicit false

namespace PyMarket

open Spec

theorem sum_filter_rows_ite (rows : DF) (f : Row → Bool) (g : Row → ℚ) :
    ((rows.filter f).map g).sum = (rows.map (fun r => if f r then g r else 0)).sum := by
  induction rows with
  | nil => rfl
  | cons r rows ih =>
    rw [List.filter_cons]
    cases hf : f r <;> simp [hf, ih]

theorem sum_map_sub_rows (rows : DF) (f g : Row → ℚ) :
    (rows.map (fun r => f r - g r)).sum = (rows.map f).sum - (rows.map g).sum := by
  induction rows with
  | nil => simp
  | cons r rows ih => simp only [List.map_cons, List.sum_cons, ih]; ring

theorem sum_map_add_rows (rows : DF) (f g : Row → ℚ) :
    (rows.map (fun r => f r + g r)).sum = (rows.map f).sum + (rows.map g).sum := by
  induction rows with
  | nil => simp
  | cons r rows ih => simp only [List.map_cons, List.sum_cons, ih]; ring

/-- Bids served best first, about as many as are worth more than `c`, realise about what all could claim at
`c`. -/
theorem served_loss {rows : DF} {v t : Row → ℚ} {c P e V : ℚ} (hP : 0 ≤ P) (he : 0 ≤ e)
    (ht : ∀ r ∈ rows, 0 ≤ t r ∧ t r ≤ r.quantity) (hV : (rows.map t).sum = V)
    (best : ∀ r ∈ rows, ∀ r' ∈ rows, v r < v r' → 0 < t r → t r' = r'.quantity)
    (h1 : ((rows.filter (fun r => decide (c < v r))).map (fun r => r.quantity)).sum ≤ V + e)
    (h2 : ∀ r ∈ rows, v r < c → 0 < t r →
      V ≤ ((rows.filter (fun r => decide (c ≤ v r))).map (fun r => r.quantity)).sum + e)
    (hP1 : ∀ r ∈ rows, c < v r → v r - c ≤ P) (hP2 : ∀ r ∈ rows, 0 < t r → c - v r ≤ P) :
    (rows.map (fun r => r.quantity * max 0 (v r - c))).sum - P * e ≤
      (rows.map (fun r => t r * (v r - c))).sum := by
  set g : Row → ℚ := fun r => if c < v r then r.quantity - t r else if v r < c then t r else 0 with hg
  have hpt : (rows.map (fun r => r.quantity * max 0 (v r - c) - t r * (v r - c))).sum ≤
      (rows.map (fun r => P * g r)).sum := by
    apply List.sum_le_sum
    intro r hr
    obtain ⟨t0, t1⟩ := ht r hr
    simp only [hg]
    rcases lt_trichotomy c (v r) with h | h | h
    · rw [if_pos h, max_eq_right (by linarith)]
      have := hP1 r hr h
      nlinarith
    · rw [← h]; simp
    · rw [if_neg (not_lt.mpr h.le), if_pos h, max_eq_left (by linarith)]
      rcases eq_or_lt_of_le t0 with h0 | h0
      · rw [← h0]; simp
      · have := hP2 r hr h0
        nlinarith
  rw [sum_map_sub_rows, List.sum_map_mul_left] at hpt
  have hsum : (rows.map g).sum ≤ e := by
    rw [sum_filter_rows_ite] at h1
    by_cases hex : ∃ r ∈ rows, v r < c ∧ 0 < t r
    · obtain ⟨r0, hr0, hv0, ht0⟩ := hex
      have h2 := h2 r0 hr0 hv0 ht0
      rw [sum_filter_rows_ite] at h2
      have : (rows.map g).sum =
          (rows.map (fun r => t r - if decide (c ≤ v r) = true then r.quantity else 0)).sum := by
        congr 1
        apply List.map_congr_left
        intro r hr
        simp only [hg, decide_eq_true_eq]
        rcases lt_trichotomy c (v r) with h | h | h
        · rw [if_pos h, if_pos h.le, best r0 hr0 r hr (by linarith) ht0]
        · rw [if_neg h.not_lt, if_neg h.symm.not_lt, if_pos h.le, best r0 hr0 r hr (by linarith) ht0]
          ring
        · rw [if_neg (not_lt.mpr h.le), if_pos h, if_neg (not_le.mpr h)]; ring
      rw [this, sum_map_sub_rows, hV]
      linarith
    · push Not at hex
      by_cases hex2 : ∃ r ∈ rows, v r = c ∧ 0 < t r
      · obtain ⟨r0, hr0, hv0, ht0⟩ := hex2
        have : (rows.map g).sum = 0 := by
          apply sum_map_eq_zero
          intro r hr
          simp only [hg]
          split_ifs with h h'
          · rw [best r0 hr0 r hr (by linarith) ht0, sub_self]
          · exact le_antisymm (hex r hr h') (ht r hr).1
          · rfl
        rw [this]; exact he
      · push Not at hex2
        have : (rows.map g).sum =
            (rows.map (fun r => (if decide (c < v r) = true then r.quantity else 0) - t r)).sum := by
          congr 1
          apply List.map_congr_left
          intro r hr
          simp only [hg, decide_eq_true_eq]
          rcases lt_trichotomy c (v r) with h | h | h
          · rw [if_pos h, if_pos h]
          · rw [if_neg h.not_lt, if_neg h.symm.not_lt, if_neg h.not_lt]
            have := hex2 r hr h.symm
            have := (ht r hr).1
            linarith
          · rw [if_neg (not_lt.mpr h.le), if_pos h, if_neg (not_lt.mpr h.le)]
            have := hex r hr h
            have := (ht r hr).1
            linarith
        rw [this, sum_map_sub_rows, hV]
        linarith
  nlinarith

/-- Summation by parts: if the signed weight of the rows above every level is at most `ε`, so is their signed
value per unit of level. -/
theorem parts_sorted {ε : ℚ} (s w : Row → ℚ) : ∀ (rows : DF) (a w0 : ℚ),
    rows.Pairwise (fun a b => w b ≤ w a) → (∀ r ∈ rows, 0 ≤ w r ∧ w r ≤ w0) → 0 ≤ w0 →
    (∀ x, x ≤ w0 → |a + ((rows.filter (fun r => decide (x ≤ w r))).map s).sum| ≤ ε) →
    |a * w0 + (rows.map (fun r => s r * w r)).sum| ≤ ε * w0 := by
  intro rows
  induction rows with
  | nil =>
    intro a w0 _ _ h0 h
    have := h w0 (le_refl _)
    simp only [List.filter_nil, List.map_nil, List.sum_nil, add_zero] at this ⊢
    rw [abs_mul, abs_of_nonneg h0]
    exact mul_le_mul_of_nonneg_right this h0
  | cons r rows ih =>
    intro a w0 hs hw h0 h
    rw [List.pairwise_cons] at hs
    obtain ⟨hr0, hr1⟩ := hw r (List.mem_cons_self ..)
    have key := ih (a + s r) (w r) hs.2
      (fun r' hr' => ⟨(hw r' (List.mem_cons_of_mem _ hr')).1, hs.1 r' hr'⟩) hr0
      (fun x hx => by
        have := h x (le_trans hx hr1)
        rw [List.filter_cons_of_pos (by simpa using hx), List.map_cons, List.sum_cons, ← add_assoc] at this
        exact this)
    have ha : |a * (w0 - w r)| ≤ ε * (w0 - w r) := by
      rcases eq_or_lt_of_le hr1 with he | hlt
      · rw [he, sub_self, mul_zero, mul_zero, abs_zero]
      · have := h w0 (le_refl _)
        rw [List.filter_eq_nil_iff.mpr (by
          intro r' hr'
          simp only [decide_eq_true_eq, not_le]
          rcases List.mem_cons.mp hr' with rfl | hr'
          · exact hlt
          · exact lt_of_le_of_lt (hs.1 r' hr') hlt)] at this
        simp only [List.map_nil, List.sum_nil, add_zero] at this
        rw [abs_mul, abs_of_nonneg (by linarith : 0 ≤ w0 - w r)]
        exact mul_le_mul_of_nonneg_right this (by linarith)
    have e : a * w0 + ((r :: rows).map (fun r => s r * w r)).sum =
        a * (w0 - w r) + ((a + s r) * w r + (rows.map (fun r => s r * w r)).sum) := by
      rw [List.map_cons, List.sum_cons]; ring
    rw [e]
    refine le_trans (abs_add_le _ _) ?_
    linarith

theorem parts_bound {ε W : ℚ} (s w : Row → ℚ) (rows : DF) (hw : ∀ r ∈ rows, 0 ≤ w r ∧ w r ≤ W) (hW : 0 ≤ W)
    (h : ∀ x, |((rows.filter (fun r => decide (x ≤ w r))).map s).sum| ≤ ε) :
    |(rows.map (fun r => s r * w r)).sum| ≤ ε * W := by
  set l := rows.mergeSort (fun a b => decide (w b ≤ w a)) with hl
  have hp : l.Perm rows := List.mergeSort_perm _ _
  have hs : l.Pairwise (fun a b => w b ≤ w a) := by
    have := List.pairwise_mergeSort (le := fun a b : Row => decide (w b ≤ w a))
      (by intro a b c h1 h2; simp only [decide_eq_true_eq] at *; linarith)
      (by intro a b; simp only [Bool.or_eq_true, decide_eq_true_eq]; exact le_total _ _) rows
    exact this.imp (by intro a b h; simpa using h)
  have := parts_sorted (ε := ε) s w l 0 W hs (fun r hr => hw r (hp.mem_iff.mp hr)) hW (by
    intro x _
    rw [zero_add, ((hp.filter _).map s).sum_eq]
    exact h x)
  rwa [zero_mul, zero_add, (hp.map _).sum_eq] at this

/-! ## Balanced coins, beyond the thresholds -/

theorem next_price (df : DF) (p : ℚ) : ∃ p', p < p' ∧ ∀ r ∈ df, p < r.price → p' ≤ r.price := by
  induction df with
  | nil => exact ⟨p + 1, by linarith, by simp⟩
  | cons r df ih =>
    obtain ⟨p', h1, h2⟩ := ih
    by_cases h : p < r.price
    · refine ⟨min p' r.price, lt_min h1 h, ?_⟩
      intro r' hr' hlt
      rcases List.mem_cons.mp hr' with rfl | hr'
      · exact min_le_right _ _
      · exact le_trans (min_le_left _ _) (h2 r' hr' hlt)
    · refine ⟨p', h1, ?_⟩
      intro r' hr' hlt
      rcases List.mem_cons.mp hr' with rfl | hr'
      · exact absurd hlt h
      · exact h2 r' hr' hlt

theorem prev_price (df : DF) (p : ℚ) : ∃ p', p' < p ∧ ∀ r ∈ df, r.price < p → r.price ≤ p' := by
  induction df with
  | nil => exact ⟨p - 1, by linarith, by simp⟩
  | cons r df ih =>
    obtain ⟨p', h1, h2⟩ := ih
    by_cases h : r.price < p
    · refine ⟨max p' r.price, max_lt h1 h, ?_⟩
      intro r' hr' hlt
      rcases List.mem_cons.mp hr' with rfl | hr'
      · exact le_max_right _ _
      · exact le_trans (h2 r' hr' hlt) (le_max_left _ _)
    · refine ⟨p', h1, ?_⟩
      intro r' hr' hlt
      rcases List.mem_cons.mp hr' with rfl | hr'
      · exact absurd hlt h
      · exact h2 r' hr' hlt

theorem demandQtyAbove_next {df H : DF} (hs : ∀ r ∈ H, r ∈ df) {p p' : ℚ} (h1 : p < p')
    (h2 : ∀ r ∈ df, p < r.price → p' ≤ r.price) : demandQtyAbove H p = demandQty H p' := by
  unfold demandQtyAbove demandQty
  congr 2
  apply List.filter_congr
  intro r hr
  congr 1
  rw [decide_eq_decide]
  exact ⟨h2 r (hs r hr), fun h => lt_of_lt_of_le h1 h⟩

theorem supplyQtyBelow_prev {df H : DF} (hs : ∀ r ∈ H, r ∈ df) {p p' : ℚ} (h1 : p' < p)
    (h2 : ∀ r ∈ df, r.price < p → r.price ≤ p') : supplyQtyBelow H p = supplyQty H p' := by
  unfold supplyQtyBelow supplyQty
  congr 2
  apply List.filter_congr
  intro r hr
  congr 1
  rw [decide_eq_decide]
  exact ⟨h2 r (hs r hr), fun h => lt_of_le_of_lt h h1⟩

theorem Spec.Balanced.above {df : DF} {coin : ℕ → Bool} {ε : ℚ} (hb : Balanced df coin ε) (p : ℚ) :
    |demandQtyAbove (df.filter (fun r => coin r.label)) p -
      demandQtyAbove (df.filter (fun r => !coin r.label)) p| ≤ ε ∧
    |supplyQtyBelow (df.filter (fun r => coin r.label)) p -
      supplyQtyBelow (df.filter (fun r => !coin r.label)) p| ≤ ε := by
  have s1 : ∀ r ∈ df.filter (fun r => coin r.label), r ∈ df := fun r hr => (List.mem_filter.mp hr).1
  have s2 : ∀ r ∈ df.filter (fun r => !coin r.label), r ∈ df := fun r hr => (List.mem_filter.mp hr).1
  obtain ⟨p1, a1, a2⟩ := next_price df p
  obtain ⟨p2, b1, b2⟩ := prev_price df p
  rw [demandQtyAbove_next s1 a1 a2, demandQtyAbove_next s2 a1 a2, supplyQtyBelow_prev s1 b1 b2,
    supplyQtyBelow_prev s2 b1 b2]
  exact ⟨hb.demand p1, hb.supply p2⟩

/-- What the bids of a book could claim at `c`. -/
def claims (c : ℚ) (H : DF) : ℚ := (H.map (fun r => claim c r.toBid)).sum

theorem claims_sides (c : ℚ) (H : DF) :
    claims c H = ((buys H).map (fun r => r.quantity * max 0 (r.price - c))).sum +
      ((sells H).map (fun r => r.quantity * max 0 (c - r.price))).sum := by
  unfold claims buys sells claim
  induction H with
  | nil => simp
  | cons r H ih =>
    simp only [List.map_cons, List.sum_cons, ih, List.filter_cons]
    cases r.buying <;> simp <;> ring

theorem claims_halves (c : ℚ) (df : DF) (f : Row → Bool) :
    claims c df = claims c (df.filter f) + claims c (df.filter (fun r => !f r)) := by
  unfold claims
  induction df with
  | nil => simp
  | cons r df ih =>
    simp only [List.map_cons, List.sum_cons, ih, List.filter_cons]
    cases f r <;> simp <;> ring

/-- The difference of the claims of the halves, as a signed sum. -/
theorem signed_claims (df : DF) (coin : ℕ → Bool) (f : Row → Bool) (w : Row → ℚ) :
    ((df.filter f).map (fun r => signedQty coin r * w r)).sum =
      (((df.filter (fun r => coin r.label)).filter f).map (fun r => r.quantity * w r)).sum -
      (((df.filter (fun r => !coin r.label)).filter f).map (fun r => r.quantity * w r)).sum := by
  simp only [List.filter_filter]
  induction df with
  | nil => simp
  | cons r df ih =>
    have e : signedQty coin r = if coin r.label then r.quantity else -r.quantity := rfl
    simp only [List.filter_cons]
    cases hc : coin r.label <;> cases hf : f r <;> simp [hc, ih, e] <;> ring

theorem Spec.Balanced.buyClaims {df : DF} {coin : ℕ → Bool} {ε W c : ℚ} (hb : Balanced df coin ε)
    (hW : 0 ≤ W) (hw : ∀ r ∈ df, r.buying = true → r.price - c ≤ W) :
    |((buys (df.filter (fun r => coin r.label))).map (fun r => r.quantity * max 0 (r.price - c))).sum -
      ((buys (df.filter (fun r => !coin r.label))).map (fun r => r.quantity * max 0 (r.price - c))).sum| ≤
      ε * W := by
  have drop : ∀ H : DF, ((buys H).map (fun r => r.quantity * max 0 (r.price - c))).sum =
      ((H.filter (fun r => r.buying && decide (c ≤ r.price))).map
        (fun r => r.quantity * (r.price - c))).sum := by
    intro H
    unfold buys
    induction H with
    | nil => rfl
    | cons r H ih =>
      simp only [List.filter_cons]
      cases hb : r.buying
      · simpa using ih
      · by_cases h : c ≤ r.price
        · simp [h, ih]
        · simp only [h, decide_false, Bool.and_false, if_true, List.map_cons, List.sum_cons, ih]
          rw [max_eq_left (by linarith)]; simp
  rw [drop, drop, ← signed_claims df coin (fun r => r.buying && decide (c ≤ r.price))
    (fun r => r.price - c)]
  apply parts_bound (signedQty coin) (fun r => r.price - c) _ _ hW
  · intro x
    have := hb.demand (c + max x 0)
    unfold demandQty at this
    rw [← signedSum_filter] at this
    unfold signedSum at this
    rw [List.filter_filter]
    convert this using 5
    funext r
    cases hb : r.buying
    · simp
    · simp only [Bool.true_and]
      rw [← Bool.decide_and, decide_eq_decide]
      constructor
      · rintro ⟨h1, h2⟩
        have := max_le (a := x) (b := 0) (c := r.price - c) h1 (by linarith)
        linarith
      · intro h
        have h1 := le_max_left x 0
        have h2 := le_max_right x 0
        exact ⟨by linarith, by linarith⟩
  · intro r hr
    obtain ⟨h1, h2⟩ := List.mem_filter.mp hr
    simp only [Bool.and_eq_true, decide_eq_true_eq] at h2
    exact ⟨by linarith [h2.2], hw r h1 h2.1⟩

theorem Spec.Balanced.sellClaims {df : DF} {coin : ℕ → Bool} {ε W c : ℚ} (hb : Balanced df coin ε)
    (hW : 0 ≤ W) (hw : ∀ r ∈ df, r.buying = false → c - r.price ≤ W) :
    |((sells (df.filter (fun r => coin r.label))).map (fun r => r.quantity * max 0 (c - r.price))).sum -
      ((sells (df.filter (fun r => !coin r.label))).map (fun r => r.quantity * max 0 (c - r.price))).sum| ≤
      ε * W := by
  have drop : ∀ H : DF, ((sells H).map (fun r => r.quantity * max 0 (c - r.price))).sum =
      ((H.filter (fun r => !r.buying && decide (r.price ≤ c))).map
        (fun r => r.quantity * (c - r.price))).sum := by
    intro H
    unfold sells
    induction H with
    | nil => rfl
    | cons r H ih =>
      simp only [List.filter_cons]
      cases hb : r.buying
      · by_cases h : r.price ≤ c
        · simp [h, ih]
        · simp only [h, decide_false, Bool.and_false, Bool.not_false, if_true, List.map_cons, List.sum_cons, ih]
          rw [max_eq_left (by linarith)]; simp
      · simpa using ih
  rw [drop, drop, ← signed_claims df coin (fun r => !r.buying && decide (r.price ≤ c))
    (fun r => c - r.price)]
  apply parts_bound (signedQty coin) (fun r => c - r.price) _ _ hW
  · intro x
    have := hb.supply (c - max x 0)
    unfold supplyQty at this
    rw [← signedSum_filter] at this
    unfold signedSum at this
    rw [List.filter_filter]
    convert this using 5
    funext r
    cases hb : r.buying
    · simp only [Bool.not_false, Bool.true_and]
      rw [← Bool.decide_and, decide_eq_decide]
      constructor
      · rintro ⟨h1, h2⟩
        have := max_le (a := x) (b := 0) (c := c - r.price) h1 (by linarith)
        linarith
      · intro h
        have h1 := le_max_left x 0
        have h2 := le_max_right x 0
        exact ⟨by linarith, by linarith⟩
    · simp
  · intro r hr
    obtain ⟨h1, h2⟩ := List.mem_filter.mp hr
    simp only [Bool.and_eq_true, Bool.not_eq_true', decide_eq_true_eq] at h2
    exact ⟨by linarith [h2.2], hw r h1 h2.1⟩

/-! ## A half -/

theorem gains_terms (df : DF) (v : ℕ → ℚ) (ts : List Transaction) :
    gains df v ts = (ts.map (fun t =>
      (if isBuy df t.bid then t.quantity * (v t.bid - t.price) else 0) +
      (if isSell df t.bid then t.quantity * (t.price - v t.bid) else 0))).sum := by
  induction ts with
  | nil => simp [gains, boughtValue, soldValue, paid, received]
  | cons t ts ih =>
    rw [List.map_cons, List.sum_cons, ← ih]
    simp only [gains, boughtValue, soldValue, paid, received]
    by_cases hb : isBuy df t.bid = true <;> by_cases hs : isSell df t.bid = true <;>
      simp [hb, hs] <;> ring

theorem half_gains {S : Sorter} {df : DF} (ht : IsTable df) {ids : List ℕ} {p : ℚ} {ts : List Transaction}
    (h : HalfOutcome S (half df ids) (.fin p) ts) :
    gains df (priceOf df) ts = gainIn (half df ids) p ts := by
  rcases h.finite rfl with ⟨rfl, -⟩ | hh
  · rw [gains_terms]
    unfold gainIn
    rw [sum_map_eq_zero (fun r _ => by simp [tradedBy])]
    rfl
  · have hG : gainIn (half df ids) p ts = ((half df ids).map (fun r =>
          (fun i => if isBuy df i then priceOf df i - p else p - priceOf df i) r.label *
            tradedBy ts r.label)).sum := by
      unfold gainIn
      congr 1
      apply List.map_congr_left
      intro r hr
      have hr' := half_sub r hr
      simp only [ht.isBuy_eq hr', ht.price_eq hr']
      rfl
    rw [hG, sum_tradedBy (half_nodup ht ids) (fun i => if isBuy df i then priceOf df i - p else p - priceOf df i),
      gains_terms]
    congr 1
    apply List.map_congr_left
    intro t htt
    obtain ⟨r, hr, h1, h2, _, h4, _⟩ := hh.mem t htt
    have hr' := half_sub r hr
    have hmem : t.bid ∈ (half df ids).map (fun r => r.label) := List.mem_map.mpr ⟨r, hr, h1.symm⟩
    rw [if_pos hmem, h1, h4, ht.isBuy_eq hr', ht.isSell_eq hr',
      ht.price_eq hr']
    cases hb : r.buying <;> simp <;> ring

/-- A half whose demand and supply around `c` are about `x`, and which trades at least about `x`, gains about
what its bids could claim at `c`. -/
theorem half_gain_bound {S : Sorter} {df : DF} (ht : IsTable df) (hn : NonNeg df) {ids : List ℕ} {p c x ε P : ℚ}
    {ts : List Transaction} (h : HalfOutcome S (half df ids) (.fin p) (tradesIn ids ts)) (hP : 0 ≤ P) (hε : 0 ≤ ε)
    (hD1 : demandQtyAbove (half df ids) c ≤ x + ε) (hS1 : supplyQtyBelow (half df ids) c ≤ x + ε)
    (hD2 : x - ε ≤ demandQty (half df ids) c) (hS2 : x - ε ≤ supplyQty (half df ids) c)
    (hV : x - ε ≤ volumeAt (half df ids) p)
    (hb : ∀ r ∈ df, r.buying = true → r.price - c ≤ P) (hs : ∀ r ∈ df, r.buying = false → c - r.price ≤ P)
    (hcp : c - p ≤ P) (hpc : p - c ≤ P) :
    claims c (half df ids) - 4 * ε * P ≤ gains df (priceOf df) (tradesIn ids ts) := by
  set H := half df ids with hH
  have hq : ∀ r ∈ H, 0 ≤ r.quantity := fun r hr => (hn r (half_sub r hr)).1
  have hnd : (H.map (fun r => r.label)).Nodup := half_nodup ht ids
  have heff := (half_outcome_efficiency ht h).2
  set t : Row → ℚ := fun r => tradedBy (tradesIn ids ts) r.label with ht'
  have vB := half_vcg hnd hq h true
  have vS := half_vcg hnd hq h false
  have htr : ∀ r ∈ H, tradedBy ts r.label = t r := fun r hr => (tradedBy_tradesIn (half_label hr)).symm
  -- facts about the buyers
  have tB : ∀ r ∈ buys H, 0 ≤ t r ∧ t r ≤ r.quantity ∧ (0 < t r → p ≤ r.price) := by
    intro r hr
    obtain ⟨h1, h2⟩ := mem_buys.mp hr
    by_cases hw : p ≤ r.price
    · have := vB.bound r (mem_willingOf.mpr ⟨h1, h2, by unfold unitGain; rw [h2]; simpa using hw⟩)
      exact ⟨this.1, this.2, fun _ => hw⟩
    · have : t r = 0 := vB.zero r h1 h2 (by unfold unitGain; rw [h2]; simpa using hw)
      exact ⟨this.ge, this ▸ hq r h1, fun h0 => absurd this h0.ne'⟩
  have tS : ∀ r ∈ sells H, 0 ≤ t r ∧ t r ≤ r.quantity ∧ (0 < t r → r.price ≤ p) := by
    intro r hr
    obtain ⟨h1, h2⟩ := mem_sells.mp hr
    by_cases hw : r.price ≤ p
    · have := vS.bound r (mem_willingOf.mpr ⟨h1, h2, by unfold unitGain; rw [h2]; simpa using hw⟩)
      exact ⟨this.1, this.2, fun _ => hw⟩
    · have : t r = 0 := vS.zero r h1 h2 (by unfold unitGain; rw [h2]; simpa using hw)
      exact ⟨this.ge, this ▸ hq r h1, fun h0 => absurd this h0.ne'⟩
  have hsum : ((buys H).map t).sum = volumeAt H p ∧ ((sells H).map t).sum = volumeAt H p := by
    rcases h.finite rfl with ⟨he, hv⟩ | hh
    · rw [hv]
      constructor <;> exact sum_map_eq_zero (fun r _ => by simp [ht', he, tradedBy])
    · have wB := (hh.willing_bound hnd true).2.1
      have wS := (hh.willing_bound hnd false).2.1
      constructor
      · rw [← wB]
        change _ = ((willingBuyers H p).map _).sum
        have e : willingBuyers H p = (buys H).filter (fun r => decide (p ≤ r.price)) := by
          unfold willingBuyers buys
          rw [List.filter_filter]
          apply List.filter_congr
          intro r _
          rw [Bool.and_comm]
        rw [e, sum_filter_rows_ite]
        congr 1
        apply List.map_congr_left
        intro r hr
        split_ifs with hw
        · rfl
        · have := tB r hr
          exact le_antisymm (not_lt.mp (fun h0 => hw (decide_eq_true (this.2.2 h0)))) this.1
      · rw [← wS]
        change _ = ((willingSellers H p).map _).sum
        have e : willingSellers H p = (sells H).filter (fun r => decide (r.price ≤ p)) := by
          unfold willingSellers sells
          rw [List.filter_filter]
          apply List.filter_congr
          intro r _
          rw [Bool.and_comm]
        rw [e, sum_filter_rows_ite]
        congr 1
        apply List.map_congr_left
        intro r hr
        split_ifs with hw
        · rfl
        · have := tS r hr
          exact le_antisymm (not_lt.mp (fun h0 => hw (decide_eq_true (this.2.2 h0)))) this.1
  have fB : ∀ f : Row → Bool, (((buys H).filter f).map (fun r => r.quantity)).sum =
      ((H.filter (fun r => r.buying && f r)).map (fun r => r.quantity)).sum := by
    intro f
    unfold buys
    rw [List.filter_filter]
    congr 2
    apply List.filter_congr
    intro r _
    rw [Bool.and_comm]
  have fS : ∀ f : Row → Bool, (((sells H).filter f).map (fun r => r.quantity)).sum =
      ((H.filter (fun r => !r.buying && f r)).map (fun r => r.quantity)).sum := by
    intro f
    unfold sells
    rw [List.filter_filter]
    congr 2
    apply List.filter_congr
    intro r _
    rw [Bool.and_comm]
  have none_zero : tradesIn ids ts = [] → ∀ r, t r = 0 := by
    intro he r
    simp [ht', he, tradedBy]
  have lossB := served_loss (rows := buys H) (v := fun r => r.price) (t := t) (c := c) (P := P) (e := 2 * ε)
    (V := volumeAt H p) hP (by linarith) (fun r hr => ⟨(tB r hr).1, (tB r hr).2.1⟩) hsum.1
    (by
      intro r hr r' hr' hlt h0
      rcases heff with ⟨he, -⟩ | ⟨-, -, hbest, -⟩
      · exact absurd (none_zero he r) h0.ne'
      · have m := mem_buys.mp hr
        have m' := mem_buys.mp hr'
        have hp := (tB r hr).2.2 h0
        rw [← htr r' m'.1]
        apply hbest r (List.mem_filter.mpr ⟨m.1, by simp [m.2, hp]⟩) r'
          (List.mem_filter.mpr ⟨m'.1, by simp [m'.2]; linarith⟩) hlt
        rw [htr r m.1]; exact h0)
    (by
      rw [fB]
      have : demandQtyAbove H c ≤ volumeAt H p + 2 * ε := by linarith
      exact this)
    (by
      intro r hr hrc h0
      rw [fB]
      have hp := (tB r hr).2.2 h0
      have h1 : supplyQty H p ≤ supplyQtyBelow H c := by
        unfold supplyQty supplyQtyBelow
        apply List.Sublist.sum_le_sum
        · apply List.Sublist.map
          apply List.monotone_filter_right
          intro r' h'
          simp only [Bool.and_eq_true, decide_eq_true_eq] at h' ⊢
          exact ⟨h'.1, by linarith [h'.2]⟩
        · intro y hy
          obtain ⟨r', hr', rfl⟩ := List.mem_map.mp hy
          exact hq r' (List.mem_filter.mp hr').1
      have h2 : volumeAt H p ≤ supplyQty H p := min_le_right _ _
      have : volumeAt H p ≤ demandQty H c + 2 * ε := by linarith
      exact this)
    (fun r hr _ => hb r (half_sub r (mem_buys.mp hr).1) (mem_buys.mp hr).2)
    (fun r hr h0 => by
      have := (tB r hr).2.2 h0
      change c - r.price ≤ P
      linarith)
  have lossS := served_loss (rows := sells H) (v := fun r => -r.price) (t := t) (c := -c) (P := P) (e := 2 * ε)
    (V := volumeAt H p) hP (by linarith) (fun r hr => ⟨(tS r hr).1, (tS r hr).2.1⟩) hsum.2
    (by
      intro r hr r' hr' hlt h0
      rcases heff with ⟨he, -⟩ | ⟨-, -, -, hbest⟩
      · exact absurd (none_zero he r) h0.ne'
      · have m := mem_sells.mp hr
        have m' := mem_sells.mp hr'
        have hp := (tS r hr).2.2 h0
        have hlt : r'.price < r.price := by
          have : -r.price < -r'.price := hlt
          linarith
        rw [← htr r' m'.1]
        apply hbest r (List.mem_filter.mpr ⟨m.1, by simp [m.2, hp]⟩) r'
          (List.mem_filter.mpr ⟨m'.1, by simp [m'.2]; linarith⟩) hlt
        rw [htr r m.1]; exact h0)
    (by
      rw [fS]
      simp only [neg_lt_neg_iff]
      have : supplyQtyBelow H c ≤ volumeAt H p + 2 * ε := by linarith
      exact this)
    (by
      intro r hr hrc h0
      rw [fS]
      simp only [neg_le_neg_iff]
      have hp := (tS r hr).2.2 h0
      have hrc : c < r.price := by
        have : -r.price < -c := hrc
        linarith
      have h1 : demandQty H p ≤ demandQtyAbove H c := by
        unfold demandQty demandQtyAbove
        apply List.Sublist.sum_le_sum
        · apply List.Sublist.map
          apply List.monotone_filter_right
          intro r' h'
          simp only [Bool.and_eq_true, decide_eq_true_eq] at h' ⊢
          exact ⟨h'.1, by linarith [h'.2]⟩
        · intro y hy
          obtain ⟨r', hr', rfl⟩ := List.mem_map.mp hy
          exact hq r' (List.mem_filter.mp hr').1
      have h2 : volumeAt H p ≤ demandQty H p := min_le_left _ _
      have : volumeAt H p ≤ supplyQty H c + 2 * ε := by linarith
      exact this)
    (fun r hr _ => by
      have := hs r (half_sub r (mem_sells.mp hr).1) (mem_sells.mp hr).2
      change -r.price - -c ≤ P
      linarith)
    (fun r hr h0 => by
      have := (tS r hr).2.2 h0
      change -c - -r.price ≤ P
      linarith)
  rw [half_gains ht h]
  have hgain : gainIn H p (tradesIn ids ts) =
      ((buys H).map (fun r => t r * (r.price - c))).sum + ((sells H).map (fun r => t r * (-r.price - -c))).sum := by
    have e1 : gainIn H p (tradesIn ids ts) = ((buys H).map (fun r => t r * (r.price - p))).sum +
        ((sells H).map (fun r => t r * (p - r.price))).sum := by
      unfold gainIn
      rw [← sum_buys_sells H]
      congr 2
      · apply List.map_congr_left
        intro r hr
        unfold unitGain
        rw [(mem_buys.mp hr).2]; simp [ht', mul_comm]
      · apply List.map_congr_left
        intro r hr
        unfold unitGain
        rw [(mem_sells.mp hr).2]; simp [ht', mul_comm]
    have e2 : ((buys H).map (fun r => t r * (r.price - c))).sum =
        ((buys H).map (fun r => t r * (r.price - p))).sum + (p - c) * volumeAt H p := by
      rw [← hsum.1, ← List.sum_map_mul_left, ← sum_map_add_rows]
      congr 1
      apply List.map_congr_left
      intro r _
      ring
    have e3 : ((sells H).map (fun r => t r * (-r.price - -c))).sum =
        ((sells H).map (fun r => t r * (p - r.price))).sum + (c - p) * volumeAt H p := by
      rw [← hsum.2, ← List.sum_map_mul_left, ← sum_map_add_rows]
      congr 1
      apply List.map_congr_left
      intro r _
      ring
    rw [e1, e2, e3]
    ring
  have hclaims : claims c H = ((buys H).map (fun r => r.quantity * max 0 (r.price - c))).sum +
      ((sells H).map (fun r => r.quantity * max 0 (-r.price - -c))).sum := by
    rw [claims_sides]
    congr 2
    apply List.map_congr_left
    intro r _
    congr 2
    ring
  rw [hgain, hclaims]
  linarith

end PyMarket
