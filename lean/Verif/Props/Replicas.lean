import Verif.Props.MarketPrice
import Verif.Props.HuangWelfare
import Verif.Props.WelfareTheorem

/-! # C120: Huang's auction on replicated books -/

set_option autoImplicit false

namespace PyMarket

open Spec

/-- The book in which every bid of a list is submitted `m` times. -/
def Spec.replicas (m : ℕ) (bids : List Bid) : DF := labelFrom 0 (List.replicate m bids).flatten

section

variable {bids : List Bid} {m : ℕ}

theorem sum_replicate_flatten {α : Type*} (f : α → ℚ) (m : ℕ) (l : List α) :
    ((List.replicate m l).flatten.map f).sum = m * (l.map f).sum := by
  induction m with
  | zero => simp
  | succ m ih =>
    rw [List.replicate_succ, List.flatten_cons, List.map_append, List.sum_append, ih]
    push_cast
    ring

/-- Sums over a book that only depend on the bids. -/
theorem labelFrom_sum (f : Bid → ℚ) (n : ℕ) (l : List Bid) :
    ((labelFrom n l).map (fun r => f r.toBid)).sum = (l.map f).sum := by
  conv_rhs => rw [← labelFrom_map_toBid n l, List.map_map]
  rfl

@[inherit_doc labelFrom_sum]
theorem labelFrom_filter_sum (P : Bid → Bool) (f : Bid → ℚ) (n : ℕ) (l : List Bid) :
    (((labelFrom n l).filter (fun r => P r.toBid)).map (fun r => f r.toBid)).sum =
      ((l.filter P).map f).sum := by
  conv_rhs => rw [← labelFrom_map_toBid n l, List.filter_map, List.map_map]
  rfl

theorem replicas_sum (P : Bid → Bool) (f : Bid → ℚ) (m : ℕ) (l : List Bid) :
    (((replicas m l).filter (fun r => P r.toBid)).map (fun r => f r.toBid)).sum =
      m * (((labelFrom 0 l).filter (fun r => P r.toBid)).map (fun r => f r.toBid)).sum := by
  unfold replicas
  rw [labelFrom_filter_sum, labelFrom_filter_sum]
  have : (List.replicate m l).flatten.filter P = (List.replicate m (l.filter P)).flatten := by
    rw [List.filter_flatten, List.map_replicate]
  rw [this, sum_replicate_flatten]

theorem replicas_demandQty (p : ℚ) : demandQty (replicas m bids) p = m * demandQty (labelFrom 0 bids) p :=
  replicas_sum (fun b => b.buying && decide (p ≤ b.price)) (fun b => b.quantity) m bids

theorem replicas_demandQtyAbove (p : ℚ) :
    demandQtyAbove (replicas m bids) p = m * demandQtyAbove (labelFrom 0 bids) p :=
  replicas_sum (fun b => b.buying && decide (p < b.price)) (fun b => b.quantity) m bids

theorem replicas_supplyQty (p : ℚ) : supplyQty (replicas m bids) p = m * supplyQty (labelFrom 0 bids) p :=
  replicas_sum (fun b => !b.buying && decide (b.price ≤ p)) (fun b => b.quantity) m bids

theorem replicas_supplyQtyBelow (p : ℚ) :
    supplyQtyBelow (replicas m bids) p = m * supplyQtyBelow (labelFrom 0 bids) p :=
  replicas_sum (fun b => !b.buying && decide (b.price < p)) (fun b => b.quantity) m bids

theorem mem_labelFrom_bid {n : ℕ} {l : List Bid} {r : Row} (h : r ∈ labelFrom n l) : r.toBid ∈ l := by
  rw [← labelFrom_map_toBid n l]
  exact List.mem_map.mpr ⟨r, h, rfl⟩

theorem mem_labelFrom_row {n : ℕ} {l : List Bid} {b : Bid} (h : b ∈ l) : ∃ r ∈ labelFrom n l, r.toBid = b := by
  rw [← labelFrom_map_toBid n l] at h
  obtain ⟨r, h1, h2⟩ := List.mem_map.mp h
  exact ⟨r, h1, h2⟩

theorem mem_replicas {r : Row} (h : r ∈ replicas m bids) : ∃ r' ∈ labelFrom 0 bids, r'.toBid = r.toBid := by
  have h1 := mem_labelFrom_bid h
  obtain ⟨l, h2, h3⟩ := List.mem_flatten.mp h1
  rw [List.eq_of_mem_replicate h2] at h3
  exact mem_labelFrom_row h3

theorem exists_replica (hm : 0 < m) {r : Row} (h : r ∈ labelFrom 0 bids) :
    ∃ r' ∈ replicas m bids, r'.toBid = r.toBid :=
  mem_labelFrom_row (List.mem_flatten.mpr ⟨bids, List.mem_replicate.mpr ⟨hm.ne', rfl⟩, mem_labelFrom_bid h⟩)

theorem replicas_pos (h : Pos (labelFrom 0 bids)) : Pos (replicas m bids) := by
  intro r hr
  obtain ⟨r', h1, h2⟩ := mem_replicas hr
  rw [← h2]
  exact h r' h1

theorem replicas_pair (hm : 0 < m) {x : ℚ} {b a : Row} (h : MarginalPair (labelFrom 0 bids) x b a) :
    ∃ b' a', MarginalPair (replicas m bids) (m * x) b' a' ∧ b'.toBid = b.toBid ∧ a'.toBid = a.toBid := by
  have hm' : (0 : ℚ) < m := Nat.cast_pos.mpr hm
  obtain ⟨b', hb', eb⟩ := exists_replica hm h.buyer.1
  obtain ⟨a', ha', ea⟩ := exists_replica hm h.seller.1
  have pb : b'.price = b.price := by rw [eb]
  have pa : a'.price = a.price := by rw [ea]
  refine ⟨b', a', ⟨mul_pos hm' h.pos, ⟨hb', by rw [eb]; exact h.buyer.2⟩, ⟨ha', by rw [ea]; exact h.seller.2⟩,
    by rw [pb, pa]; exact h.lt, ?_, ?_, ?_, ?_⟩, eb, ea⟩
  · rw [pb, replicas_demandQtyAbove, replicas_demandQty]
    exact ⟨mul_lt_mul_of_pos_left h.last_buyer.1 hm', mul_le_mul_of_nonneg_left h.last_buyer.2 hm'.le⟩
  · rw [pa, replicas_supplyQtyBelow, replicas_supplyQty]
    exact ⟨mul_lt_mul_of_pos_left h.last_seller.1 hm', mul_le_mul_of_nonneg_left h.last_seller.2 hm'.le⟩
  · intro b₁ hb₁ a₁ ha₁ h1 h2 h3
    obtain ⟨b₂, hb₂, e1⟩ := mem_replicas hb₁
    obtain ⟨a₂, ha₂, e2⟩ := mem_replicas ha₁
    rw [← e1] at h1 h3
    rw [← e2] at h2 h3
    have := h.no_more b₂ hb₂ a₂ ha₂ h1 h2 h3
    rw [← e1, ← e2, replicas_demandQty, replicas_supplyQty, ← mul_min_of_nonneg _ _ hm'.le]
    exact mul_le_mul_of_nonneg_left this hm'.le
  · rw [replicas_supplyQty]
    exact mul_le_mul_of_nonneg_left h.free hm'.le

/-- The best plan for the replicated book is `m` times as good. -/
theorem replicas_best (h : Pos (labelFrom 0 bids)) {x : ℚ} {b a : Row} (hp : MarginalPair (labelFrom 0 bids) x b a)
    {y : ℚ} (hy : BestWelfare (labelFrom 0 bids) (priceOf (labelFrom 0 bids)) y) (m : ℕ) :
    BestWelfare (replicas m bids) (priceOf (replicas m bids)) (m * y) := by
  have hm' : (0 : ℚ) ≤ m := Nat.cast_nonneg m
  have hc := (crossing_iff_pair (S := stableSorter) h x).mpr ⟨b, a, hp⟩
  obtain ⟨p, _, _, _, hcl⟩ := hc.clears_between h.nonNeg
  have h1 := best_of_clears (isTable_labelFrom bids) (fun r hr => (h r hr).1.le) hcl
  have hcl' : Clears (replicas m bids) p (m * x) := by
    refine ⟨?_, ?_, ?_, ?_⟩
    · rw [replicas_demandQtyAbove]; exact mul_le_mul_of_nonneg_left hcl.1 hm'
    · rw [replicas_demandQty]; exact mul_le_mul_of_nonneg_left hcl.2.1 hm'
    · rw [replicas_supplyQtyBelow]; exact mul_le_mul_of_nonneg_left hcl.2.2.1 hm'
    · rw [replicas_supplyQty]; exact mul_le_mul_of_nonneg_left hcl.2.2.2 hm'
  have h2 := best_of_clears (isTable_labelFrom _) (fun r hr => (replicas_pos (m := m) h r hr).1.le) hcl'
  have e : ((replicas m bids).map (fun r => claim p r.toBid)).sum = m * y := by
    rw [hy.unique h1]
    unfold replicas
    rw [labelFrom_sum, labelFrom_sum, sum_replicate_flatten]
  rw [← e]
  exact h2

end

/-- What the market maker of `huang_auction` keeps. -/
theorem huang_maker (S : Sorter) {df : DF} (ht : IsTable df) (h : NonNeg df) {tm : TransactionManager}
    {ps pb q : ℚ} (hrun : huangAuction S df = .ok (tm, .huang (ps : Ext) (pb : Ext) q)) :
    paid df tm.trans - received df tm.trans = (pb - ps) * boughtQty df tm.trans := by
  rcases huang_cases S h with ⟨heq, _⟩ | ⟨x, ps', pb', hc, hps, hpb, _, hcase⟩
  · rw [hrun] at heq; cases heq
  rcases hcase with ⟨_, _, cs, cb, _, _, _, hsA, hsB, heq⟩ | ⟨_, heq⟩
  · have sB := huangB_spec h hc hpb
    have sA := huangA_spec hc hps
    have bB := cutTrans_buys ht (fun r hr => ⟨(sB.1 r hr).1, (sB.1 r hr).2.1⟩) cb pb'
    have bA := cutTrans_sells ht (fun r hr => ⟨(sA.1 r hr).1, (sA.1 r hr).2.1⟩) cs ps'
    rw [hrun] at heq
    simp only [Except.ok.injEq, Prod.mk.injEq, Extra.huang.injEq, WithTop.coe_inj] at heq
    obtain ⟨rfl, rfl, rfl, _⟩ := heq
    rw [TransactionManager.init_addAll_trans, paid_append, received_append, boughtQty_append]
    obtain ⟨b1, b2, b3, b4⟩ := bB
    obtain ⟨a1, a2, a3, a4⟩ := bA
    rw [b1, b3, b4, a2, a4, a3, hsA, hsB]
    ring
  · rw [hrun] at heq
    simp only [Except.ok.injEq, Prod.mk.injEq, Extra.huang.injEq, WithTop.coe_inj] at heq
    obtain ⟨rfl, _⟩ := heq
    change (0 : ℚ) - 0 = _ * 0
    ring

/-- **C120.** Submit every bid of a book `m` times. The quantity found is `m` times as large and the two prices of
`huang_auction` do not change; at most the quantity `Q` of a largest bid is not traded, what is lost of the
possible gains stays bounded, and the market maker keeps the difference of the prices for all but `Q` units. -/
theorem C120_replicas (S : Sorter) (bids : List Bid) (h : Pos (labelFrom 0 bids)) (x : ℚ) (b a : Row)
    (hp : MarginalPair (labelFrom 0 bids) x b a) (y : ℚ)
    (hy : BestWelfare (labelFrom 0 bids) (priceOf (labelFrom 0 bids)) y)
    (Q hi lo : ℚ) (hQ : ∀ r ∈ bids, r.quantity ≤ Q) (hhi : ∀ r ∈ bids, r.buying = true → r.price ≤ hi)
    (hlo : ∀ r ∈ bids, r.buying = false → lo ≤ r.price)
    (m : ℕ) (hm : 0 < m) (tm : TransactionManager) (ex : Extra)
    (hrun : huangAuction S (replicas m bids) = .ok (tm, ex)) :
    (∃ q, ex = .huang ((a.price : ℚ) : Ext) ((b.price : ℚ) : Ext) q) ∧
    m * x - Q ≤ boughtQty (replicas m bids) tm.trans ∧ boughtQty (replicas m bids) tm.trans ≤ m * x ∧
    BestWelfare (replicas m bids) (priceOf (replicas m bids)) (m * y) ∧
    m * y - (boughtValue (replicas m bids) (priceOf (replicas m bids)) tm.trans -
      soldValue (replicas m bids) (priceOf (replicas m bids)) tm.trans) ≤ Q * (hi - lo) ∧
    (m * x - Q) * (b.price - a.price) ≤ paid (replicas m bids) tm.trans - received (replicas m bids) tm.trans := by
  have hP := replicas_pos (m := m) h
  have ht : IsTable (replicas m bids) := isTable_labelFrom _
  obtain ⟨b', a', hp', eb, ea⟩ := replicas_pair hm hp
  obtain ⟨q, hex⟩ := (C119_huang S _ hP tm ex hrun).1 _ _ _ hp'
  rw [eb, ea] at hex
  have hbest := replicas_best h hp hy m
  obtain ⟨i, hi'⟩ := C08_total S (replicas m bids) (fun r hr => (hP r hr).1.le) (1 / 2)
  have hix := (C119_intersection S _ hP _ i hi' (m * x)).mpr ⟨b', a', hp'⟩
  have mem : ∀ r ∈ replicas m bids, r.toBid ∈ bids := by
    intro r hr
    obtain ⟨r', h1, h2⟩ := mem_replicas hr
    rw [← h2]
    exact mem_labelFrom_bid h1
  have hloss := (C72_welfare_loss S _ ht hP.nonNeg _ i _ hi' hix tm ex hrun _ hbest hi lo
    (fun r hr => hhi _ (mem r hr)) (fun r hr => hlo _ (mem r hr))).1
  obtain ⟨mb, b1, ms, s1, q', b2, s2, _, hle, _, hle', _⟩ := C64_deficit S _ ht hP.nonNeg _ i _ hi' hix tm ex hrun
  have hT : m * x - Q ≤ boughtQty (replicas m bids) tm.trans := by
    have := max_le (hQ _ (mem mb b1)) (hQ _ (mem ms s1))
    linarith
  have hlt := hp.lt
  have hb := hhi _ (mem_labelFrom_bid hp.buyer.1) hp.buyer.2
  have ha := hlo _ (mem_labelFrom_bid hp.seller.1) hp.seller.2
  refine ⟨⟨q, hex⟩, hT, hle', hbest, ?_, ?_⟩
  · refine le_trans hloss (mul_le_mul_of_nonneg_right (by linarith) ?_)
    linarith
  · rw [hex] at hrun
    rw [huang_maker S ht hP.nonNeg hrun, mul_comm (b.price - a.price)]
    exact mul_le_mul_of_nonneg_right hT (by linarith)

theorem sum_ite_mul {α : Type*} (P : α → Bool) (q : α → ℚ) (c : ℚ) (l : List α) :
    (l.map (fun r => if P r then q r * c else 0)).sum = ((l.filter P).map q).sum * c := by
  induction l with
  | nil => simp
  | cons r l ih =>
    rw [List.map_cons, List.sum_cons, ih, List.filter_cons]
    split_ifs
    · rw [List.map_cons, List.sum_cons]; ring
    · ring

/-- The possible gains are at least the quantity times the difference of the marginal prices. -/
theorem pair_best_ge {df : DF} (ht : IsTable df) (h : Pos df) {x : ℚ} {b a : Row} (hp : MarginalPair df x b a)
    {y : ℚ} (hy : BestWelfare df (priceOf df) y) : x * (b.price - a.price) ≤ y := by
  have hc := (crossing_iff_pair (S := stableSorter) h x).mpr ⟨b, a, hp⟩
  obtain ⟨p, _, h1, h2, hcl⟩ := hc.clears_between h.nonNeg
  obtain ⟨hD, hS⟩ := pair_prices (S := stableSorter) h hp
  rw [hS] at h1
  rw [hD] at h2
  have hap := WithTop.coe_le_coe.mp h1
  have hpb := WithTop.coe_le_coe.mp h2
  rw [hy.unique (best_of_clears ht (fun r hr => (h r hr).1.le) hcl)]
  have e1 := sum_ite_mul (fun r : Row => r.buying && decide (b.price ≤ r.price)) (fun r => r.quantity)
    (b.price - p) df
  have e2 := sum_ite_mul (fun r : Row => !r.buying && decide (r.price ≤ a.price)) (fun r => r.quantity)
    (p - a.price) df
  have k1 := mul_le_mul_of_nonneg_right hp.last_buyer.2 (by linarith : 0 ≤ b.price - p)
  have k2 := mul_le_mul_of_nonneg_right hp.last_seller.2 (by linarith : 0 ≤ p - a.price)
  unfold demandQty at k1
  unfold supplyQty at k2
  rw [← e1] at k1
  rw [← e2] at k2
  have k3 : (df.map (fun r => if r.buying && decide (b.price ≤ r.price) then r.quantity * (b.price - p) else 0)).sum +
      (df.map (fun r => if !r.buying && decide (r.price ≤ a.price) then r.quantity * (p - a.price) else 0)).sum ≤
      (df.map (fun r => claim p r.toBid)).sum := by
    rw [← List.sum_map_add]
    apply List.sum_le_sum
    intro r hr
    have hq := (h r hr).1.le
    unfold claim
    cases hb : r.buying
    · by_cases hle : r.price ≤ a.price
      · simp only [hle, Bool.false_and, Bool.not_false, decide_true, Bool.and_self, if_true, Bool.false_eq_true,
          if_false, zero_add]
        exact mul_le_mul_of_nonneg_left (le_trans (by linarith) (le_max_right _ _)) hq
      · simp only [hle, Bool.false_and, decide_false, Bool.and_false, Bool.false_eq_true, if_false, add_zero]
        exact mul_nonneg hq (le_max_left _ _)
    · by_cases hle : b.price ≤ r.price
      · simp only [hle, Bool.not_true, Bool.false_and, decide_true, Bool.and_self, if_true, Bool.false_eq_true,
          if_false, add_zero]
        exact mul_le_mul_of_nonneg_left (le_trans (by linarith) (le_max_right _ _)) hq
      · simp only [hle, Bool.not_true, Bool.false_and, decide_false, Bool.and_false, Bool.false_eq_true, if_false,
          if_true, add_zero]
        exact mul_nonneg hq (le_max_left _ _)
  linarith

theorem exists_upper {α : Type*} (f : α → ℚ) (l : List α) : ∃ B : ℚ, 0 ≤ B ∧ ∀ r ∈ l, f r ≤ B := by
  induction l with
  | nil => exact ⟨0, le_rfl, by simp⟩
  | cons r l ih =>
    obtain ⟨B, h0, hB⟩ := ih
    refine ⟨max (f r) B, le_trans h0 (le_max_right _ _), ?_⟩
    intro r' hr'
    rcases List.mem_cons.mp hr' with rfl | hr'
    · exact le_max_left _ _
    · exact le_trans (hB r' hr') (le_max_right _ _)

/-- **C120, large markets.** With enough copies of every bid `huang_auction` realises any share below one of the
possible gains. But the share of them that goes to the market maker does not vanish: it tends to
`x * (b.price - a.price) / y`, which is positive. -/
theorem C120_limit (S : Sorter) (bids : List Bid) (h : Pos (labelFrom 0 bids)) (x : ℚ) (b a : Row)
    (hp : MarginalPair (labelFrom 0 bids) x b a) (y : ℚ)
    (hy : BestWelfare (labelFrom 0 bids) (priceOf (labelFrom 0 bids)) y) (ε : ℚ) (hε : 0 < ε) :
    0 < x * (b.price - a.price) / y ∧
    ∃ M : ℕ, ∀ m ≥ M, ∃ tm ex, huangAuction S (replicas m bids) = .ok (tm, ex) ∧
      BestWelfare (replicas m bids) (priceOf (replicas m bids)) (m * y) ∧
      (1 - ε) * (m * y) ≤ boughtValue (replicas m bids) (priceOf (replicas m bids)) tm.trans -
        soldValue (replicas m bids) (priceOf (replicas m bids)) tm.trans ∧
      |(paid (replicas m bids) tm.trans - received (replicas m bids) tm.trans) -
        x * (b.price - a.price) / y * (m * y)| ≤ ε * (m * y) := by
  have hlt := hp.lt
  have hx := hp.pos
  have hD : 0 < b.price - a.price := by linarith
  have hxD := mul_pos hx hD
  have hy0 : 0 < y := lt_of_lt_of_le hxD (pair_best_ge (isTable_labelFrom _) h hp hy)
  refine ⟨div_pos hxD hy0, ?_⟩
  obtain ⟨Q, hQ0, hQ⟩ := exists_upper (fun r : Bid => r.quantity) bids
  obtain ⟨H, hH0, hH⟩ := exists_upper (fun r : Bid => r.price) bids
  have hlo : ∀ r ∈ bids, (0 : ℚ) ≤ r.price := by
    intro r hr
    obtain ⟨r', h1, rfl⟩ := mem_labelFrom_row (n := 0) hr
    exact (h r' h1).2
  have hbH : b.price ≤ H := hH _ (mem_labelFrom_bid hp.buyer.1)
  have ha0 : 0 ≤ a.price := hlo _ (mem_labelFrom_bid hp.seller.1)
  obtain ⟨M, hM⟩ : ∃ M : ℕ, Q * H / (ε * y) ≤ M := ⟨⌈Q * H / (ε * y)⌉₊, Nat.le_ceil _⟩
  refine ⟨M + 1, fun m hm => ?_⟩
  have hm0 : 0 < m := by omega
  have hmM : (M : ℚ) ≤ m := by exact_mod_cast (by omega : M ≤ m)
  have key : Q * H ≤ ε * (m * y) := by
    have h1 := (div_le_iff₀ (mul_pos hε hy0)).mp (hM.trans hmM)
    linarith
  have hP := replicas_pos (m := m) h
  obtain ⟨b', a', hp', eb, ea⟩ := replicas_pair hm0 hp
  obtain ⟨tm, ex, hrun⟩ : ∃ tm ex, huangAuction S (replicas m bids) = .ok (tm, ex) := by
    rcases huang_cases S hP.nonNeg with ⟨heq, _⟩ | ⟨_, _, _, _, _, _, _, hcase⟩
    · exact ⟨_, _, heq⟩
    · rcases hcase with ⟨_, _, cs, cb, _, _, _, _, _, heq⟩ | ⟨_, heq⟩ <;> exact ⟨_, _, heq⟩
  obtain ⟨⟨q, hex⟩, hT, hT', hbest, hloss, hmk⟩ := C120_replicas S bids h x b a hp y hy Q H 0 hQ
    (fun r hr _ => hH r hr) (fun r hr _ => hlo r hr) m hm0 tm ex hrun
  refine ⟨tm, ex, hrun, hbest, by linarith, ?_⟩
  have e : x * (b.price - a.price) / y * (m * y) = m * x * (b.price - a.price) := by
    field_simp
  rw [e]
  have hrun' := hrun
  rw [hex] at hrun'
  have ht : IsTable (replicas m bids) := isTable_labelFrom _
  rw [huang_maker S ht hP.nonNeg hrun', abs_le]
  have k1 := mul_le_mul_of_nonneg_right hT hD.le
  have k2 := mul_le_mul_of_nonneg_right hT' hD.le
  have k3 := mul_le_mul_of_nonneg_left (by linarith : b.price - a.price ≤ H) hQ0
  have k4 := mul_nonneg hε.le (mul_nonneg (Nat.cast_nonneg (α := ℚ) m) hy0.le)
  constructor <;> nlinarith

/-- A case that meets the hypotheses: with two buyers and two sellers one unit each at 10, 9 and 1, 2, two units
could be traded with a gain of 16; one copy trades one unit, three copies trade five of six, with a gain of 41 of 48
of which the market maker keeps 35. -/
def replicaBids : List Bid := [⟨1, 10, 0, true, 0, true⟩, ⟨1, 9, 1, true, 0, true⟩, ⟨1, 1, 2, false, 0, true⟩,
  ⟨1, 2, 3, false, 0, true⟩]

example : Pos (labelFrom 0 replicaBids) ∧
    MarginalPair (labelFrom 0 replicaBids) 2 ⟨⟨1, 9, 1, true, 0, true⟩, 1⟩ ⟨⟨1, 2, 3, false, 0, true⟩, 3⟩ ∧
    ((labelFrom 0 replicaBids).map (fun r => claim 5 r.toBid)).sum = 16 ∧ Clears (labelFrom 0 replicaBids) 5 2 ∧
    (huangAuction stableSorter (replicas 3 replicaBids)).toOption.map (fun o =>
      (boughtQty (replicas 3 replicaBids) o.1.trans, paid (replicas 3 replicaBids) o.1.trans -
        received (replicas 3 replicaBids) o.1.trans,
        boughtValue (replicas 3 replicaBids) (priceOf (replicas 3 replicaBids)) o.1.trans -
          soldValue (replicas 3 replicaBids) (priceOf (replicas 3 replicaBids)) o.1.trans)) =
      some (5, 35, 41) := by
  refine ⟨by decide +kernel, ⟨by decide +kernel, by decide +kernel, by decide +kernel, by decide +kernel,
    by decide +kernel, by decide +kernel, by decide +kernel, by decide +kernel⟩, by decide +kernel, ?_, by decide +kernel⟩
  unfold Clears; decide +kernel

end PyMarket
