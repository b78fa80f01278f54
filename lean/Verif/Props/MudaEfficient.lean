import Verif.Lemmas.MudaWalk
import Verif.Props.Equilibrium
import Verif.Props.Datasets

/-! # C115: in a large market MUDA trades almost all that can be traded -/

set_option autoImplicit false

namespace PyMarket

open Spec

/-- The coins divide the demand and the supply at every price equally, up to `ε`. -/
structure Spec.Balanced (df : DF) (coin : ℕ → Bool) (ε : ℚ) : Prop where
  demand : ∀ p, |demandQty (df.filter (fun r => coin r.label)) p -
    demandQty (df.filter (fun r => !coin r.label)) p| ≤ ε
  supply : ∀ p, |supplyQty (df.filter (fun r => coin r.label)) p -
    supplyQty (df.filter (fun r => !coin r.label)) p| ≤ ε

/-- No selling bid is free, and no buying bid has the price of a selling bid. -/
def Spec.Untied (df : DF) : Prop :=
  ∀ s ∈ df, s.buying = false → 0 < s.price ∧ ∀ b ∈ df, b.buying = true → b.price ≠ s.price

theorem Spec.Untied.sub {df H : DF} (h : Untied df) (hs : ∀ r ∈ H, r ∈ df) : Untied H :=
  fun s hs' h1 => ⟨(h s (hs s hs') h1).1, fun b hb h2 => (h s (hs s hs') h1).2 b (hs b hb) h2⟩

theorem volumeAt_eq (H : DF) (p : ℚ) : volumeAt H p = min (demandQty H p) (supplyQty H p) := rfl

/-- If a book without ties can trade anything, its competitive price clears the most. -/
theorem competitive_volume (S : Sorter) {H : DF} (hn : NonNeg H) (ha : Untied H) {q : ℚ}
    (h0 : 0 < volumeAt H q) : ∃ p x, findCompetitivePrice S H = .ok (.fin p) ∧ Crossing S H x ∧
      supplyAt S H x ≤ (p : Ext) ∧ (p : Ext) ≤ demandAt S H x ∧
      x ≤ volumeAt H p ∧ ∀ p', volumeAt H p' ≤ x := by
  have hq : ∀ r ∈ H, 0 ≤ r.quantity := fun r hr => (hn r hr).1
  have hp : ∀ r ∈ H, 0 ≤ r.price := fun r hr => (hn r hr).2
  have hne : ∀ z : Ext, demandAt S H z ≠ supplyAt S H z := by
    intro z he
    unfold demandAt supplyAt at he
    rcases stepVal_mem z 0 (sortAsc S (sells H)) ⊤ with h | ⟨s, hs, h⟩
    · rw [h] at he
      exact demandAt_ne_top S H z he
    · have hs' := mem_sells.mp (mem_sortAsc.mp hs)
      have hsa := ha s hs'.1 hs'.2
      rw [h] at he
      rcases stepVal_mem z 0 (sortDesc S (buys H)) ((0 : ℚ) : Ext) with h' | ⟨b, hb, h'⟩
      · rw [h'] at he
        exact absurd (WithTop.coe_injective he) hsa.1.ne
      · have hb' := mem_buys.mp (mem_sortDesc.mp hb)
        rw [h'] at he
        exact hsa.2 b hb'.1 hb'.2 (WithTop.coe_injective he)
  have hsq : volumeAt H q ≤ supplyQty H q := min_le_right _ _
  have hdq : volumeAt H q ≤ demandQty H q := min_le_left _ _
  have hq0 : 0 ≤ q := by
    by_contra hlt
    rw [supplyQty_neg hn (not_le.mp hlt)] at hsq
    linarith
  have h1 := (supplyAt_galois S hq h0).mpr hsq
  have h2 : (q : Ext) ≤ demandAt S H (volumeAt H q) := by
    rcases eq_or_lt_of_le hq0 with rfl | hp'
    · exact demandAt_nonneg S hp _
    · exact (demandAt_galois S hq h0 hp').mpr hdq
  rcases intersect_cases S hn (1 / 2) with ⟨x, hc, he⟩ | ⟨-, hno⟩
  swap
  · exact absurd ⟨⟨_, WithTop.coe_le_coe.mpr h0.le, lt_of_le_of_ne (le_trans h1 h2) (hne _).symm⟩,
      fun z _ => hne z⟩ hno
  have hmax := (C08_max_volume S H hn (1 / 2) _ x he rfl).2
  have hmax : ∀ p', volumeAt H p' ≤ x := fun p' => hmax ⟨p', rfl⟩
  have hx : 0 < x := lt_of_lt_of_le h0 (hmax q)
  obtain ⟨p, hpe, hp1, hp2⟩ := crossPrice_between (k := 1 / 2) (by norm_num) (by norm_num) hc
  refine ⟨p, x, by rw [competitive_of_crossing hn hc, hpe], hc, hp1, hp2, le_min ?_ ?_, hmax⟩
  · have hpp : 0 < p := by
      obtain ⟨s, hs, hs'⟩ := hc.marginal_sell
      have hsm := mem_sells.mp (mem_sortAsc.mp (List.mem_of_getElem? hs))
      rw [hs'] at hp1
      exact lt_of_lt_of_le (ha s hsm.1 hsm.2).1 (WithTop.coe_le_coe.mp hp1)
    exact (demandAt_galois S hq hx hpp).mp hp2
  · exact (supplyAt_galois S hq hx).mp hp1

theorem filter_split_sum (df : DF) (c f : Row → Bool) :
    ((df.filter f).map (fun r => r.quantity)).sum =
      (((df.filter c).filter f).map (fun r => r.quantity)).sum +
      (((df.filter (fun r => !c r)).filter f).map (fun r => r.quantity)).sum := by
  induction df with
  | nil => simp
  | cons r df ih =>
    simp only [List.filter_cons]
    cases hc : c r <;> cases hf : f r <;> simp [hf, ih] <;> ring

theorem Spec.Balanced.volume {df : DF} {coin : ℕ → Bool} {ε : ℚ} (hb : Balanced df coin ε) (p : ℚ) :
    volumeAt df p - ε ≤ 2 * volumeAt (df.filter (fun r => coin r.label)) p ∧
    volumeAt df p - ε ≤ 2 * volumeAt (df.filter (fun r => !coin r.label)) p ∧
    volumeAt (df.filter (fun r => !coin r.label)) p - ε ≤ volumeAt (df.filter (fun r => coin r.label)) p ∧
    volumeAt (df.filter (fun r => coin r.label)) p - ε ≤ volumeAt (df.filter (fun r => !coin r.label)) p := by
  simp only [volumeAt_eq]
  have h1 := abs_le.mp (hb.demand p)
  have h2 := abs_le.mp (hb.supply p)
  have e1 : demandQty df p = demandQty (df.filter (fun r => coin r.label)) p +
      demandQty (df.filter (fun r => !coin r.label)) p := filter_split_sum df _ _
  have e2 : supplyQty df p = supplyQty (df.filter (fun r => coin r.label)) p +
      supplyQty (df.filter (fun r => !coin r.label)) p := filter_split_sum df _ _
  have m1 := min_le_left (demandQty df p) (supplyQty df p)
  have m2 := min_le_right (demandQty df p) (supplyQty df p)
  rcases min_choice (demandQty (df.filter (fun r => coin r.label)) p)
      (supplyQty (df.filter (fun r => coin r.label)) p) with e | e <;>
    rcases min_choice (demandQty (df.filter (fun r => !coin r.label)) p)
      (supplyQty (df.filter (fun r => !coin r.label)) p) with e' | e' <;>
    have n1 := min_le_left (demandQty (df.filter (fun r => coin r.label)) p)
      (supplyQty (df.filter (fun r => coin r.label)) p) <;>
    have n2 := min_le_right (demandQty (df.filter (fun r => coin r.label)) p)
      (supplyQty (df.filter (fun r => coin r.label)) p) <;>
    have n3 := min_le_left (demandQty (df.filter (fun r => !coin r.label)) p)
      (supplyQty (df.filter (fun r => !coin r.label)) p) <;>
    have n4 := min_le_right (demandQty (df.filter (fun r => !coin r.label)) p)
      (supplyQty (df.filter (fun r => !coin r.label)) p) <;>
    rw [e, e'] at * <;>
    refine ⟨?_, ?_, ?_, ?_⟩ <;> linarith

/-- **C115, one outcome of the coins.** If the coins divide the market evenly up to `ε`, MUDA trades all but
`3 ε` of what any price clears. -/
theorem C115_volume_partial (S : Sorter) (coin : ℕ → Bool) (df : DF) (ht : IsTable df) (hn : NonNeg df)
    (ha : Untied df) (ε : ℚ) (hb : Balanced df coin ε) (tm : TransactionManager) (ex : Extra)
    (h : muda S coin df = .ok (tm, ex)) (q : ℚ) : volumeAt df q - 3 * ε ≤ boughtQty df tm.trans := by
  have hq : ∀ r ∈ df, 0 ≤ r.quantity := fun r hr => (hn r hr).1
  have hε : 0 ≤ ε := le_trans (abs_nonneg _) (hb.demand 0)
  obtain ⟨left, right, pl, pr, fees, rfl, hrun⟩ := muda_run ht h
  obtain ⟨hsplit, -, -⟩ := hrun.halves ht hq
  have hL : half df left = df.filter (fun r => coin r.label) := by rw [hrun.left_eq, half_filter ht]
  have hR : half df right = df.filter (fun r => !coin r.label) := by rw [hrun.right_eq, half_filter ht]
  have hpl := hrun.priceLeft
  have hpr := hrun.priceRight
  have effL := (C26_efficient S coin df ht hq tm left right pl pr fees h left pr (.inl ⟨rfl, rfl⟩)).2
  have effR := (C26_efficient S coin df ht hq tm left right pl pr fees h right pl (.inr ⟨rfl, rfl⟩)).2
  have hsum : boughtQty df tm.trans = boughtQty df (tradesIn left tm.trans) +
      boughtQty df (tradesIn right tm.trans) := by
    conv_lhs => rw [hsplit]
    exact boughtQty_append _ _ _
  rw [hL] at hpl effL
  rw [hR] at hpr effR
  obtain ⟨b1, b2, -, -⟩ := hb.volume q
  by_cases hv : volumeAt df q ≤ ε
  · have hnn : 0 ≤ boughtQty df tm.trans := by
      have key : ∀ (H : DF) (v : Val) (ts : List Transaction), (∀ r ∈ H, 0 ≤ r.quantity) →
          ((∀ p, v ≠ .fin p) → ts = []) → (∀ p, v = .fin p → boughtQty df ts = volumeAt H p) →
          0 ≤ boughtQty df ts := by
        intro H v ts hH h1 h2
        by_cases hv : ∃ p, v = .fin p
        · obtain ⟨p, hp⟩ := hv
          rw [h2 p hp]
          apply le_min <;>
          · apply List.sum_nonneg
            intro x hx
            obtain ⟨r, hr, rfl⟩ := List.mem_map.mp hx
            exact hH r (List.mem_filter.mp hr).1
        · rw [h1 (fun p hp => hv ⟨p, hp⟩)]
          exact le_refl 0
      rw [hsum]
      apply add_nonneg
      · exact key _ pr _ (fun r hr => hq r (List.mem_filter.mp hr).1)
          (C26_efficient S coin df ht hq tm left right pl pr fees h left pr (.inl ⟨rfl, rfl⟩)).1
          (fun p hp => (effL p hp).1)
      · exact key _ pl _ (fun r hr => hq r (List.mem_filter.mp hr).1)
          (C26_efficient S coin df ht hq tm left right pl pr fees h right pl (.inr ⟨rfl, rfl⟩)).1
          (fun p hp => (effR p hp).1)
    linarith
  · rw [not_le] at hv
    have sub1 : ∀ r ∈ df.filter (fun r => coin r.label), r ∈ df := fun r hr => (List.mem_filter.mp hr).1
    have sub2 : ∀ r ∈ df.filter (fun r => !coin r.label), r ∈ df := fun r hr => (List.mem_filter.mp hr).1
    obtain ⟨p1, x1, e1, -, -, -, l1, u1⟩ := competitive_volume S (fun r hr => hn r (sub1 r hr)) (ha.sub sub1)
      (q := q) (by linarith)
    obtain ⟨p2, x2, e2, -, -, -, l2, u2⟩ := competitive_volume S (fun r hr => hn r (sub2 r hr)) (ha.sub sub2)
      (q := q) (by linarith)
    rw [e1] at hpl
    rw [e2] at hpr
    have v1 : pl = .fin p1 := by injection hpl with h; exact h.symm
    have v2 : pr = .fin p2 := by injection hpr with h; exact h.symm
    rw [hsum, (effL p2 v2).1, (effR p1 v1).1]
    have := (hb.volume p2).2.2.1
    have := (hb.volume p1).2.2.2
    have := u1 q
    have := u2 q
    linarith

theorem signedSum_filter (df : DF) (c : ℕ → Bool) (f : Row → Bool) :
    signedSum c (df.filter f) =
      (((df.filter (fun r => c r.label)).filter f).map (fun r => r.quantity)).sum -
      (((df.filter (fun r => !c r.label)).filter f).map (fun r => r.quantity)).sum := by
  unfold signedSum
  induction df with
  | nil => simp
  | cons r df ih =>
    simp only [List.filter_cons]
    cases hc : c r.label <;> cases hf : f r <;> simp [hf, hc, ih, signedQty] <;> ring

/-- The rows of a sorted list that satisfy a condition which only gets harder come first. -/
theorem filter_eq_take (f : Row → Bool) : ∀ {rows : DF},
    rows.Pairwise (fun a b => f b = true → f a = true) → ∃ k, rows.filter f = rows.take k := by
  intro rows
  induction rows with
  | nil => intro _; exact ⟨0, rfl⟩
  | cons r rows ih =>
    intro h
    rw [List.pairwise_cons] at h
    cases hf : f r with
    | true =>
      obtain ⟨k, hk⟩ := ih h.2
      exact ⟨k + 1, by simp [hf, hk]⟩
    | false =>
      refine ⟨0, ?_⟩
      rw [List.take_zero, List.filter_eq_nil_iff]
      intro r' hr' hf'
      rcases List.mem_cons.mp hr' with rfl | hr'
      · rw [hf] at hf'; cases hf'
      · have := h.1 r' hr' hf'
        rw [hf] at this; cases this

theorem signedSum_perm {c : ℕ → Bool} {l l' : DF} (h : l.Perm l') : signedSum c l = signedSum c l' :=
  (h.map _).sum_eq

theorem signed_demand (df : DF) (c : ℕ → Bool) (p : ℚ) :
    ∃ k, demandQty (df.filter (fun r => c r.label)) p - demandQty (df.filter (fun r => !c r.label)) p =
      signedSum c ((sortDesc stableSorter (buys df)).take k) := by
  obtain ⟨k, hk⟩ := filter_eq_take (fun r => decide (p ≤ r.price))
    (rows := sortDesc stableSorter (buys df)) ((sortDesc_sorted _ _).imp (by
      intro a b h1 h2
      simp only [decide_eq_true_eq] at h2 ⊢
      linarith))
  refine ⟨k, ?_⟩
  rw [← hk]
  unfold demandQty
  rw [← signedSum_filter, signedSum_perm ((sortDesc_perm stableSorter (buys df)).filter _)]
  unfold buys
  rw [List.filter_filter]
  congr 1
  apply List.filter_congr
  intro r _
  rw [Bool.and_comm]

theorem signed_supply (df : DF) (c : ℕ → Bool) (p : ℚ) :
    ∃ k, supplyQty (df.filter (fun r => c r.label)) p - supplyQty (df.filter (fun r => !c r.label)) p =
      signedSum c ((sortAsc stableSorter (sells df)).take k) := by
  obtain ⟨k, hk⟩ := filter_eq_take (fun r => decide (r.price ≤ p))
    (rows := sortAsc stableSorter (sells df)) ((sortAsc_sorted _ _).imp (by
      intro a b h1 h2
      simp only [decide_eq_true_eq] at h2 ⊢
      linarith))
  refine ⟨k, ?_⟩
  rw [← hk]
  unfold supplyQty
  rw [← signedSum_filter, signedSum_perm ((sortAsc_perm stableSorter (sells df)).filter _)]
  unfold sells
  rw [List.filter_filter]
  congr 1
  apply List.filter_congr
  intro r _
  rw [Bool.and_comm]

theorem sum_buys_sells (df : DF) (g : Row → ℚ) :
    ((buys df).map g).sum + ((sells df).map g).sum = (df.map g).sum := by
  unfold buys sells
  induction df with
  | nil => simp
  | cons r df ih =>
    simp only [List.filter_cons]
    cases hb : r.buying <;> simp [← ih] <;> ring

/-- **C115, the coins.** At most a fraction `Σ q² / ε²` of the outcomes of the coins divides the market
unevenly by more than `ε`. -/
theorem C115_balanced (df : DF) (ht : IsTable df) (ε : ℚ) (h0 : 0 ≤ ε) :
    (Nat.card {d : Fin df.length → Bool // ¬ Balanced df (coins d) ε} : ℚ) * ε ^ 2 ≤
      2 ^ df.length * (df.map (fun r => r.quantity ^ 2)).sum := by
  classical
  set A := Finset.univ.filter (fun d : Fin df.length → Bool =>
    ∃ k, ε < |signedSum (coins d) ((sortDesc stableSorter (buys df)).take k)|) with hA
  set B := Finset.univ.filter (fun d : Fin df.length → Bool =>
    ∃ k, ε < |signedSum (coins d) ((sortAsc stableSorter (sells df)).take k)|) with hB
  have hcard : Nat.card {d : Fin df.length → Bool // ¬ Balanced df (coins d) ε} ≤ A.card + B.card := by
    rw [Nat.card_eq_fintype_card, Fintype.card_subtype]
    refine le_trans (Finset.card_le_card ?_) (Finset.card_union_le A B)
    intro d hd
    rw [Finset.mem_filter] at hd
    rw [Finset.mem_union, hA, hB, Finset.mem_filter, Finset.mem_filter]
    by_contra hno
    push Not at hno
    apply hd.2
    constructor
    · intro p
      obtain ⟨k, hk⟩ := signed_demand df (coins d) p
      rw [hk]
      exact hno.1 (Finset.mem_univ _) k
    · intro p
      obtain ⟨k, hk⟩ := signed_supply df (coins d) p
      rw [hk]
      exact hno.2 (Finset.mem_univ _) k
  have hnd : (df.map (fun r => r.label)).Nodup := ht.nodup
  have pB := sortDesc_perm stableSorter (buys df)
  have pS := sortAsc_perm stableSorter (sells df)
  have wA := walk_card (n := df.length) h0 (sortDesc stableSorter (buys df))
    ((pB.map _).nodup_iff.mpr (hnd.sublist (List.Sublist.map _ List.filter_sublist)))
    (fun r hr => ht.label_lt (mem_buys.mp (mem_sortDesc.mp hr)).1)
  have wB := walk_card (n := df.length) h0 (sortAsc stableSorter (sells df))
    ((pS.map _).nodup_iff.mpr (hnd.sublist (List.Sublist.map _ List.filter_sublist)))
    (fun r hr => ht.label_lt (mem_sells.mp (mem_sortAsc.mp hr)).1)
  rw [(pB.map _).sum_eq] at wA
  rw [(pS.map _).sum_eq] at wB
  have hcard' : (Nat.card {d : Fin df.length → Bool // ¬ Balanced df (coins d) ε} : ℚ) ≤
      A.card + B.card := by exact_mod_cast hcard
  have hε : 0 ≤ ε ^ 2 := by positivity
  rw [← sum_buys_sells df]
  have := mul_le_mul_of_nonneg_right hcard' hε
  have wA' : (A.card : ℚ) * ε ^ 2 ≤ 2 ^ df.length * ((buys df).map (fun r => r.quantity ^ 2)).sum := by
    convert wA
  have wB' : (B.card : ℚ) * ε ^ 2 ≤ 2 ^ df.length * ((sells df).map (fun r => r.quantity ^ 2)).sum := by
    convert wB
  nlinarith

/-- **C115.** At most a fraction `Σ q² / ε²` of the outcomes of the coins leaves more than `3 ε` untraded of
what some price clears. -/
theorem C115_most_partial (S : Sorter) (df : DF) (ht : IsTable df) (hn : NonNeg df) (ha : Untied df)
    (hu : UsersInRange df) (htwin : ¬ HasTwin df) (ε : ℚ) (h0 : 0 ≤ ε) :
    (Nat.card {d : Fin df.length → Bool // ¬ ∃ tm ex, muda S (coins d) df = .ok (tm, ex) ∧
      ∀ q, volumeAt df q - 3 * ε ≤ boughtQty df tm.trans} : ℚ) * ε ^ 2 ≤
      2 ^ df.length * (df.map (fun r => r.quantity ^ 2)).sum := by
  refine le_trans (mul_le_mul_of_nonneg_right ?_ (by positivity)) (C115_balanced df ht ε h0)
  have : Nat.card {d : Fin df.length → Bool // ¬ ∃ tm ex, muda S (coins d) df = .ok (tm, ex) ∧
      ∀ q, volumeAt df q - 3 * ε ≤ boughtQty df tm.trans} ≤
      Nat.card {d : Fin df.length → Bool // ¬ Balanced df (coins d) ε} := by
    apply Nat.card_le_card_of_injective
      (fun d => ⟨d.1, fun hb => d.2 (by
        obtain ⟨tm, left, right, pl, pr, fees, h⟩ :=
          C32_total_partial S (coins d.1) df ht (fun r hr => (hn r hr).1) hu htwin
        exact ⟨tm, _, h, fun q => C115_volume_partial S _ df ht hn ha ε hb tm _ h q⟩)⟩)
    intro d d' h
    simpa [Subtype.ext_iff] using h
  exact_mod_cast this

/-- **C115, large markets.** If the squares of the quantities are small against the square of what a price
`q` clears, all but a small fraction `η` of the outcomes of the coins leads to at least the share `1 - δ` of
it. -/
theorem C115_large_partial (S : Sorter) (df : DF) (ht : IsTable df) (hn : NonNeg df) (ha : Untied df)
    (hu : UsersInRange df) (htwin : ¬ HasTwin df) (q δ η : ℚ) (hδ : 0 < δ)
    (hv : 0 < volumeAt df q)
    (hsmall : 9 * (df.map (fun r => r.quantity ^ 2)).sum ≤ η * (δ * volumeAt df q) ^ 2) :
    (Nat.card {d : Fin df.length → Bool // ¬ ∃ tm ex, muda S (coins d) df = .ok (tm, ex) ∧
      (1 - δ) * volumeAt df q ≤ boughtQty df tm.trans} : ℚ) ≤ η * 2 ^ df.length := by
  have hε : 0 < δ * volumeAt df q / 3 := by positivity
  have h := C115_most_partial S df ht hn ha hu htwin (δ * volumeAt df q / 3) hε.le
  have hle : Nat.card {d : Fin df.length → Bool // ¬ ∃ tm ex, muda S (coins d) df = .ok (tm, ex) ∧
      (1 - δ) * volumeAt df q ≤ boughtQty df tm.trans} ≤
      Nat.card {d : Fin df.length → Bool // ¬ ∃ tm ex, muda S (coins d) df = .ok (tm, ex) ∧
      ∀ q', volumeAt df q' - 3 * (δ * volumeAt df q / 3) ≤ boughtQty df tm.trans} := by
    apply Nat.card_le_card_of_injective
      (fun d => ⟨d.1, fun hb => d.2 (by
        obtain ⟨tm, ex, h1, h2⟩ := hb
        refine ⟨tm, ex, h1, ?_⟩
        have := h2 q
        linarith)⟩)
    intro d d' h
    simpa [Subtype.ext_iff] using h
  have hle' : (Nat.card {d : Fin df.length → Bool // ¬ ∃ tm ex, muda S (coins d) df = .ok (tm, ex) ∧
      (1 - δ) * volumeAt df q ≤ boughtQty df tm.trans} : ℚ) ≤
      Nat.card {d : Fin df.length → Bool // ¬ ∃ tm ex, muda S (coins d) df = .ok (tm, ex) ∧
      ∀ q', volumeAt df q' - 3 * (δ * volumeAt df q / 3) ≤ boughtQty df tm.trans} := by
    exact_mod_cast hle
  refine le_trans hle' ?_
  have hpos : 0 < (δ * volumeAt df q / 3) ^ 2 := by positivity
  have h2 : (0 : ℚ) < 2 ^ df.length := by positivity
  refine le_of_mul_le_mul_right (le_trans h ?_) hpos
  have : (2 : ℚ) ^ df.length * (9 * (df.map (fun r => r.quantity ^ 2)).sum) ≤
      2 ^ df.length * (η * (δ * volumeAt df q) ^ 2) := mul_le_mul_of_nonneg_left hsmall h2.le
  nlinarith

/-! ## A market of any size -/

/-- `n` bids to buy one unit at 2 and `n` bids to sell one unit at 1, all of different users. -/
def wideBids (n : ℕ) : List Bid :=
  (List.range n).map (fun i : ℕ => (⟨1, 2, (i : ℤ), true, 0, true⟩ : Bid)) ++
    (List.range n).map (fun i : ℕ => (⟨1, 1, ((n + i : ℕ) : ℤ), false, 0, true⟩ : Bid))

theorem wideBids_user (n k : ℕ) (b : Bid) (h : (wideBids n)[k]? = some b) : b.user = (k : ℤ) := by
  unfold wideBids at h
  rw [List.getElem?_append] at h
  split_ifs at h with hk
  · rw [List.length_map, List.length_range] at hk
    rw [List.getElem?_map, List.getElem?_range hk] at h
    cases h; rfl
  · rw [List.length_map, List.length_range, not_lt] at hk
    rw [List.length_map, List.length_range, List.getElem?_map] at h
    obtain ⟨i, hi, rfl⟩ := Option.map_eq_some_iff.mp h
    obtain ⟨hlt, rfl⟩ := List.getElem?_eq_some_iff.mp hi
    rw [List.getElem_range]
    change ((n + (k - n) : ℕ) : ℤ) = k
    congr 1
    omega

theorem wide_mem {n : ℕ} {r : Row} (hr : r ∈ labelFrom 0 (wideBids n)) :
    r.quantity = 1 ∧ (r.buying = true → r.price = 2) ∧ (r.buying = false → r.price = 1) := by
  have : r.toBid ∈ wideBids n := by
    rw [← labelFrom_map_toBid 0 (wideBids n)]
    exact List.mem_map_of_mem hr
  unfold wideBids at this
  rcases List.mem_append.mp this with h | h <;>
  · obtain ⟨i, -, he⟩ := List.mem_map.mp h
    rw [← he]
    simp

theorem sum_rows (g : Bid → ℚ) (l : List Bid) (n : ℕ) :
    ((labelFrom n l).map (fun r => g r.toBid)).sum = (l.map g).sum := by
  conv_rhs => rw [← labelFrom_map_toBid n l, List.map_map]
  rfl

theorem sum_filter_rows (f : Bid → Bool) (g : Bid → ℚ) (l : List Bid) (n : ℕ) :
    (((labelFrom n l).filter (fun r => f r.toBid)).map (fun r => g r.toBid)).sum = ((l.filter f).map g).sum := by
  conv_rhs => rw [← labelFrom_map_toBid n l, List.filter_map, List.map_map]
  rfl

theorem wide_volume (n : ℕ) : volumeAt (labelFrom 0 (wideBids n)) 1 = n := by
  have h1 : demandQty (labelFrom 0 (wideBids n)) 1 = n := by
    refine (sum_filter_rows (fun b => b.buying && decide (1 ≤ b.price)) (fun b => b.quantity) _ 0).trans ?_
    unfold wideBids
    rw [List.filter_append, List.filter_map, List.filter_map]
    have e1 : (List.range n).filter ((fun b : Bid => b.buying && decide (1 ≤ b.price)) ∘
        fun i : ℕ => (⟨1, 2, (i : ℤ), true, 0, true⟩ : Bid)) = List.range n := by
      rw [List.filter_eq_self]; intro i _; simp
    have e2 : (List.range n).filter ((fun b : Bid => b.buying && decide (1 ≤ b.price)) ∘
        fun i : ℕ => (⟨1, 1, ((n + i : ℕ) : ℤ), false, 0, true⟩ : Bid)) = [] := by
      rw [List.filter_eq_nil_iff]; intro i _; simp
    rw [e1, e2]
    simp [Function.comp_def]
  have h2 : supplyQty (labelFrom 0 (wideBids n)) 1 = n := by
    refine (sum_filter_rows (fun b => !b.buying && decide (b.price ≤ 1)) (fun b => b.quantity) _ 0).trans ?_
    unfold wideBids
    rw [List.filter_append, List.filter_map, List.filter_map]
    have e1 : (List.range n).filter ((fun b : Bid => !b.buying && decide (b.price ≤ 1)) ∘
        fun i : ℕ => (⟨1, 2, (i : ℤ), true, 0, true⟩ : Bid)) = [] := by
      rw [List.filter_eq_nil_iff]; intro i _; simp
    have e2 : (List.range n).filter ((fun b : Bid => !b.buying && decide (b.price ≤ 1)) ∘
        fun i : ℕ => (⟨1, 1, ((n + i : ℕ) : ℤ), false, 0, true⟩ : Bid)) = List.range n := by
      rw [List.filter_eq_self]; intro i _; simp
    rw [e1, e2]
    simp [Function.comp_def]
  rw [volumeAt_eq, h1, h2, min_self]

/-- With `n` buyers and `n` sellers of one unit, MUDA trades at least `(1 - δ) n` except for a fraction
`18 / (δ² n)` of the outcomes of the coins. -/
theorem C115_wide (S : Sorter) (n : ℕ) (hn : 0 < n) (δ : ℚ) (hδ : 0 < δ) :
    (Nat.card {d : Fin (labelFrom 0 (wideBids n)).length → Bool //
      ¬ ∃ tm ex, muda S (coins d) (labelFrom 0 (wideBids n)) = .ok (tm, ex) ∧
        (1 - δ) * n ≤ boughtQty (labelFrom 0 (wideBids n)) tm.trans} : ℚ) ≤
      18 / (δ ^ 2 * n) * 2 ^ (2 * n) := by
  have hlen : (labelFrom 0 (wideBids n)).length = 2 * n := by
    rw [labelFrom_length]; simp [wideBids]; omega
  have hn' : (0 : ℚ) < n := by exact_mod_cast hn
  have key := C115_large_partial S (labelFrom 0 (wideBids n)) (isTable_labelFrom _)
    (by
      intro r hr
      obtain ⟨h1, h2, h3⟩ := wide_mem hr
      rw [h1]
      cases hb : r.buying
      · rw [h3 hb]; norm_num
      · rw [h2 hb]; norm_num)
    (by
      intro s hs h
      rw [(wide_mem hs).2.2 h]
      refine ⟨by norm_num, fun b hb h => ?_⟩
      rw [(wide_mem hb).2.1 h]; norm_num)
    (usersInRange_labelFrom (users_labelFrom rfl (wideBids_user n)))
    (not_hasTwin_labelFrom (wideBids_user n)) 1 δ (18 / (δ ^ 2 * n)) hδ
    (by rw [wide_volume]; exact hn')
    (by
      rw [wide_volume, sum_rows (fun b => b.quantity ^ 2)]
      have : ((wideBids n).map (fun b => b.quantity ^ 2)).sum = 2 * (n : ℚ) := by
        unfold wideBids
        simp [Function.comp_def]
        ring
      rw [this]
      apply le_of_eq
      field_simp
      ring)
  rw [wide_volume] at key
  refine le_trans key (le_of_eq ?_)
  rw [hlen]

/-! ## Why the conditions are needed -/

/-- C115 for one outcome of the coins, for every book. -/
def Spec.MudaTradesMost : Prop :=
  ∀ (S : Sorter) (coin : ℕ → Bool) (df : DF), IsTable df → NonNeg df → ∀ ε, Balanced df coin ε →
    ∀ tm ex, muda S coin df = .ok (tm, ex) → ∀ q, volumeAt df q - 3 * ε ≤ boughtQty df tm.trans

/-- The same for books in which no buying and selling price agree. -/
def Spec.MudaTradesMostUntied : Prop :=
  ∀ (S : Sorter) (coin : ℕ → Bool) (df : DF), IsTable df → NonNeg df →
    (∀ s ∈ df, s.buying = false → ∀ b ∈ df, b.buying = true → b.price ≠ s.price) → ∀ ε, Balanced df coin ε →
    ∀ tm ex, muda S coin df = .ok (tm, ex) → ∀ q, volumeAt df q - 3 * ε ≤ boughtQty df tm.trans

theorem balanced_of_same {df : DF} {coin : ℕ → Bool}
    (h : (df.filter (fun r => coin r.label)).map (fun r => (r.buying, r.price, r.quantity)) =
      (df.filter (fun r => !coin r.label)).map (fun r => (r.buying, r.price, r.quantity))) :
    Balanced df coin 0 := by
  have key : ∀ (H : DF) (f : Bool × ℚ × ℚ → Bool),
      ((H.filter (fun r => f (r.buying, r.price, r.quantity))).map (fun r => r.quantity)).sum =
      (((H.map (fun r => (r.buying, r.price, r.quantity))).filter f).map (fun x => x.2.2)).sum := by
    intro H f
    rw [List.filter_map, List.map_map]
    rfl
  constructor
  · intro p
    have h1 := key (df.filter (fun r => coin r.label)) (fun x => x.1 && decide (p ≤ x.2.1))
    have h2 := key (df.filter (fun r => !coin r.label)) (fun x => x.1 && decide (p ≤ x.2.1))
    unfold demandQty
    rw [h1, h2, h, sub_self, abs_zero]
  · intro p
    have h1 := key (df.filter (fun r => coin r.label)) (fun x => !x.1 && decide (x.2.1 ≤ p))
    have h2 := key (df.filter (fun r => !coin r.label)) (fun x => !x.1 && decide (x.2.1 ≤ p))
    unfold supplyQty
    rw [h1, h2, h, sub_self, abs_zero]

/-- Buyers at 9 and 5 and sellers at 1 and 5, each twice. -/
def tieHalvesBook : DF := labelFrom 0
  [⟨1, 9, 0, true, 0, true⟩, ⟨1, 9, 1, true, 0, true⟩, ⟨1, 5, 2, true, 0, true⟩, ⟨1, 5, 3, true, 0, true⟩,
   ⟨1, 1, 4, false, 0, true⟩, ⟨1, 1, 5, false, 0, true⟩, ⟨1, 5, 6, false, 0, true⟩, ⟨1, 5, 7, false, 0, true⟩]

/-- Two buyers of 1 at 5 and two sellers of 2 at 0. -/
def gratisBook : DF := labelFrom 0
  [⟨1, 5, 0, true, 0, true⟩, ⟨1, 5, 1, true, 0, true⟩, ⟨2, 0, 2, false, 0, true⟩, ⟨2, 0, 3, false, 0, true⟩]

/-- Even bids go left. -/
def evenCoin (i : ℕ) : Bool := i % 2 == 0

/-- With ties MUDA can trade nothing although the halves are equal: `tieHalvesBook` clears 4 at 5, of which the
two trades between 9 and 1 gain 8 each. -/
theorem C115_ties_refuted : ¬ MudaTradesMost := by
  intro h
  have h1 : (muda stableSorter evenCoin tieHalvesBook).toOption.map (fun o => o.1.trans) = some [] := by
    decide +kernel
  cases hm : muda stableSorter evenCoin tieHalvesBook with
  | error e => rw [hm] at h1; cases h1
  | ok o =>
    rw [hm] at h1
    have h2 : o.1.trans = [] := by simpa [Except.toOption] using h1
    have := h stableSorter evenCoin tieHalvesBook (by decide +kernel) (by decide +kernel) 0
      (balanced_of_same (by decide +kernel)) o.1 o.2 hm 5
    rw [h2] at this
    revert this
    decide +kernel

/-- A free offer is a tie with the end of the demand curve: the two units of `gratisBook` stay untraded. -/
theorem C115_free_refuted : ¬ MudaTradesMostUntied := by
  intro h
  have h1 : (muda stableSorter evenCoin gratisBook).toOption.map (fun o => o.1.trans) = some [] := by
    decide +kernel
  cases hm : muda stableSorter evenCoin gratisBook with
  | error e => rw [hm] at h1; cases h1
  | ok o =>
    rw [hm] at h1
    have h2 : o.1.trans = [] := by simpa [Except.toOption] using h1
    have := h stableSorter evenCoin gratisBook (by decide +kernel) (by decide +kernel) (by decide +kernel) 0
      (balanced_of_same (by decide +kernel)) o.1 o.2 hm 1
    rw [h2] at this
    revert this
    decide +kernel

/-- The hypotheses of `C115_volume_partial` hold for four buyers and four sellers divided evenly, and all 4
are traded. -/
example : IsTable (labelFrom 0 (wideBids 4)) ∧ Balanced (labelFrom 0 (wideBids 4)) evenCoin 0 ∧
    (muda stableSorter evenCoin (labelFrom 0 (wideBids 4))).toOption.map
      (fun o => boughtQty (labelFrom 0 (wideBids 4)) o.1.trans) = some 4 :=
  ⟨by decide +kernel, balanced_of_same (by decide +kernel), by decide +kernel⟩

end PyMarket
