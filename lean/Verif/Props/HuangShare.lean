import Verif.Props.HuangWelfare
import Verif.Props.HuangQuantity
import Verif.Lemmas.HuangReport
import Verif.Props.HuangVolume
import Verif.Props.WelfareTheorem

/-! # C118: which share of the gains Huang's auction realises -/

set_option autoImplicit false

namespace PyMarket

open Spec

/-- On each side every bid with a transaction trades the same share of its quantity. -/
def Spec.Proportional (df : DF) (ts : List Transaction) : Prop :=
  ∀ side : Bool, ∃ l : ℚ, 0 ≤ l ∧ ∀ t ∈ ts, isBuy df t.bid = side → t.quantity = l * qtyOf df t.bid

/-- All buyers want the same quantity and all sellers offer the same quantity. -/
def Spec.EqualSizes (df : DF) : Prop :=
  ∀ a ∈ df, ∀ b ∈ df, a.buying = b.buying → a.quantity = b.quantity

/-- One side of the share: `L` is sorted by decreasing value `w` per unit, the first `n` elements are served the
share `l`, and at most `x` is wanted at a positive value. -/
theorem side_share {α : Type*} {L : List α} (q w : α → ℚ) (n : ℕ) {x l : ℚ}
    (hs : L.Pairwise (fun a b => w b ≤ w a)) (hq : ∀ a ∈ L, 0 ≤ q a)
    (hw : ∀ a ∈ L.take n, 0 ≤ w a) (hl : 0 ≤ l)
    (hx : ((L.take n).map q).sum ≤ x)
    (hx' : ((L.filter (fun a => decide (0 < w a))).map q).sum ≤ x) :
    (L.map (fun a => q a * max 0 (w a))).sum * ((L.take n).map (fun a => l * q a)).sum ≤
      ((L.take n).map (fun a => l * q a * w a)).sum * x := by
  have hL : L = L.take n ++ L.drop n := (List.take_append_drop n L).symm
  have hqt : ∀ a ∈ L.take n, 0 ≤ q a := fun a ha => hq a (List.mem_of_mem_take ha)
  have hqd : ∀ a ∈ L.drop n, 0 ≤ q a := fun a ha => hq a (List.mem_of_mem_drop ha)
  have e1 : (L.map (fun a => q a * max 0 (w a))).sum =
      ((L.take n).map (fun a => q a * w a)).sum +
        ((L.drop n).map (fun a => q a * max 0 (w a))).sum := by
    conv_lhs => rw [hL, List.map_append, List.sum_append]
    congr 2
    apply List.map_congr_left
    intro a ha
    rw [max_eq_right (hw a ha)]
  have e2 : ((L.take n).map (fun a => l * q a * w a)).sum =
      l * ((L.take n).map (fun a => q a * w a)).sum := by
    rw [← List.sum_map_mul_left]
    congr 1
    apply List.map_congr_left
    intro a _
    ring
  rw [e1, e2, List.sum_map_mul_left]
  rcases List.eq_nil_or_concat (L.take n) with h0 | ⟨init, a, ha⟩
  · rw [h0]
    simp
  rw [List.concat_eq_append] at ha
  -- the least value served
  have hle : ∀ b ∈ L.take n, w a ≤ w b := by
    intro b hb
    have hp := hs
    rw [hL, ha, List.pairwise_append, List.pairwise_append] at hp
    rw [ha] at hb
    rcases List.mem_append.mp hb with hb | hb
    · exact hp.1.2.2 b hb a (by simp)
    · rw [List.mem_singleton.mp hb]
  have hge : ∀ b ∈ L.drop n, w b ≤ w a := by
    intro b hb
    have hp := hs
    rw [hL, List.pairwise_append] at hp
    exact hp.2.2 a (by rw [ha]; simp) b hb
  have hwa : 0 ≤ w a := hw a (by rw [ha]; simp)
  have c1 : w a * ((L.take n).map q).sum ≤ ((L.take n).map (fun b => q b * w b)).sum := by
    rw [← List.sum_map_mul_left]
    apply List.sum_le_sum
    intro b hb
    have := mul_le_mul_of_nonneg_left (hle b hb) (hqt b hb)
    linarith
  have c2 : ((L.drop n).map (fun b => q b * max 0 (w b))).sum ≤ w a * (x - ((L.take n).map q).sum) := by
    rcases eq_or_lt_of_le hwa with h0 | hpos
    · have : ((L.drop n).map (fun b => q b * max 0 (w b))).sum = 0 := by
        apply List.sum_eq_zero
        intro y hy
        obtain ⟨b, hb, rfl⟩ := List.mem_map.mp hy
        rw [max_eq_left (by rw [h0]; exact hge b hb), mul_zero]
      rw [this, ← h0]
      simp
    · have hall : (L.take n).filter (fun b => decide (0 < w b)) = L.take n := by
        rw [List.filter_eq_self]
        intro b hb
        exact decide_eq_true (lt_of_lt_of_le hpos (hle b hb))
      have e3 : ((L.filter (fun b => decide (0 < w b))).map q).sum = ((L.take n).map q).sum +
          (((L.drop n).filter (fun b => decide (0 < w b))).map q).sum := by
        conv_lhs => rw [hL, List.filter_append, hall, List.map_append, List.sum_append]
      have e4 : ((L.drop n).map (fun b => q b * max 0 (w b))).sum ≤
          w a * (((L.drop n).filter (fun b => decide (0 < w b))).map q).sum := by
        have key : ∀ l : List α, (∀ b ∈ l, 0 ≤ q b ∧ w b ≤ w a) →
            (l.map (fun b => q b * max 0 (w b))).sum ≤
              w a * ((l.filter (fun b => decide (0 < w b))).map q).sum := by
          intro l
          induction l with
          | nil => intro _; simp
          | cons b l ih =>
            intro hb
            have ih := ih (fun b' hb' => hb b' (List.mem_cons_of_mem _ hb'))
            obtain ⟨hb1, hb2⟩ := hb b List.mem_cons_self
            rw [List.map_cons, List.sum_cons, List.filter_cons]
            by_cases hp : 0 < w b
            · rw [if_pos (decide_eq_true hp), List.map_cons, List.sum_cons, max_eq_right hp.le]
              have := mul_le_mul_of_nonneg_left hb2 hb1
              linarith
            · rw [if_neg (by simpa using hp), max_eq_left (not_lt.mp hp), mul_zero]
              linarith
        exact key _ (fun b hb => ⟨hqd b hb, hge b hb⟩)
      refine le_trans e4 (mul_le_mul_of_nonneg_left ?_ hwa)
      linarith
  have hB : 0 ≤ ((L.take n).map q).sum := by
    apply List.sum_nonneg
    intro y hy
    obtain ⟨b, hb, rfl⟩ := List.mem_map.mp hy
    exact hqt b hb
  set B := ((L.take n).map q).sum
  set C := ((L.take n).map (fun b => q b * w b)).sum
  set D := ((L.drop n).map (fun b => q b * max 0 (w b))).sum
  have k1 : D * B ≤ w a * (x - B) * B := mul_le_mul_of_nonneg_right c2 hB
  have k2 : w a * B * (x - B) ≤ C * (x - B) := mul_le_mul_of_nonneg_right c1 (by linarith)
  have k3 : (C + D) * B ≤ C * x := by nlinarith
  have := mul_le_mul_of_nonneg_left k3 hl
  nlinarith

/-- **C118, proportional rationing.** Let the curves cross at `x`. If Huang's auction leaves every trading bid of
a side the same share of its quantity, then the share of the largest possible value that it realises is at least
the share of `x` that it trades. -/
theorem C118_share_partial (S : Sorter) (df : DF) (ht : IsTable df) (h : NonNeg df) (k : ℚ)
    (i : Intersection) (x : ℚ)
    (hi : intersectStepwise (demandCurve S df).1 (supplyCurve S df).1 k = .ok i)
    (hx : i.x = some (x : Ext)) (tm : TransactionManager) (ex : Extra)
    (hrun : huangAuction S df = .ok (tm, ex)) (hprop : Proportional df tm.trans)
    (y : ℚ) (hy : BestWelfare df (priceOf df) y) :
    y * boughtQty df tm.trans ≤
      (boughtValue df (priceOf df) tm.trans - soldValue df (priceOf df) tm.trans) * x := by
  obtain ⟨x', he, hc, rfl⟩ := intersect_some h hi hx
  obtain rfl := WithTop.coe_injective he
  obtain ⟨c, hc0, hcs, hcd, hcl⟩ := hc.clears_between h
  have hyc : y ≤ (df.map (fun r => claim c r.toBid)).sum := by
    obtain ⟨⟨q, h1, rfl⟩, _⟩ := hy
    exact planWelfare_le ht h1 c
  rcases huang_cases S h with ⟨_, hno⟩ | ⟨x', ps, pb, hc', hps, hpb, hlt, hcase⟩
  · exfalso
    apply hno
    exact ⟨⟨x, WithTop.coe_le_coe.mpr hc.nonneg, hc.at_x⟩, fun z _ => hc.no_tie h z⟩
  obtain rfl : x' = x := hc'.unique hc
  have sB := huangB_spec h hc hpb
  have sA := huangA_spec hc hps
  have hB := qsum_huangB_le h hc
  have hA := qsum_huangA_le h hc
  have hcp : c ≤ pb := by rw [hpb] at hcd; exact WithTop.coe_le_coe.mp hcd
  have hpc : ps ≤ c := by rw [hps] at hcs; exact WithTop.coe_le_coe.mp hcs
  have memB : ∀ r ∈ sortDesc S (buys df), r ∈ df ∧ r.buying = true := fun r hr =>
    mem_buys.mp (mem_sortDesc.mp hr)
  have memA : ∀ r ∈ sortAsc S (sells df), r ∈ df ∧ r.buying = false := fun r hr =>
    mem_sells.mp (mem_sortAsc.mp hr)
  have dB : (((sortDesc S (buys df)).filter (fun r => decide (0 < r.price - c))).map
      (fun r => r.quantity)).sum ≤ x' := by
    refine le_trans (le_of_eq ?_) hcl.1
    rw [(((sortDesc_perm S (buys df)).filter _).map _).sum_eq]
    unfold buys demandQtyAbove
    rw [List.filter_filter]
    congr 2
    apply List.filter_congr
    intro r _
    rw [Bool.and_comm]
    simp only [sub_pos]
  have dA : (((sortAsc S (sells df)).filter (fun r => decide (0 < c - r.price))).map
      (fun r => r.quantity)).sum ≤ x' := by
    refine le_trans (le_of_eq ?_) hcl.2.2.1
    rw [(((sortAsc_perm S (sells df)).filter _).map _).sum_eq]
    unfold sells supplyQtyBelow
    rw [List.filter_filter]
    congr 2
    apply List.filter_congr
    intro r _
    rw [Bool.and_comm]
    simp only [sub_pos]
  rcases hcase with ⟨_, _, cs, cb, hcs0, hcb0, _, hsA, hsB, heq⟩ | ⟨_, heq⟩
  · rw [hrun] at heq
    cases heq
    obtain ⟨lb, hlb, pB⟩ := hprop true
    obtain ⟨la, hla, pA⟩ := hprop false
    rw [TransactionManager.init_addAll_trans] at pB pA
    have tB : ∀ r ∈ huangB S df x', max (r.quantity - cb) 0 = lb * r.quantity := by
      intro r hr
      have := pB ⟨r.label, max (r.quantity - cb) 0, pb, -1, false⟩
        (List.mem_append_right _ (List.mem_map.mpr ⟨r, hr, rfl⟩))
        (by rw [ht.isBuy_eq (sB.1 r hr).1, (sB.1 r hr).2.1])
      rwa [ht.qty_eq (sB.1 r hr).1] at this
    have tA : ∀ r ∈ huangA S df x', max (r.quantity - cs) 0 = la * r.quantity := by
      intro r hr
      have := pA ⟨r.label, max (r.quantity - cs) 0, ps, -1, false⟩
        (List.mem_append_left _ (List.mem_map.mpr ⟨r, hr, rfl⟩))
        (by rw [ht.isBuy_eq (sA.1 r hr).1, (sA.1 r hr).2.1])
      rwa [ht.qty_eq (sA.1 r hr).1] at this
    have vB := cutTrans_values ht (b := true) (fun r hr => ⟨(sB.1 r hr).1, (sB.1 r hr).2.1⟩) cb pb
    have vA := cutTrans_values ht (b := false) (fun r hr => ⟨(sA.1 r hr).1, (sA.1 r hr).2.1⟩) cs ps
    have bB := cutTrans_buys ht (fun r hr => ⟨(sB.1 r hr).1, (sB.1 r hr).2.1⟩) cb pb
    have bA := cutTrans_sells ht (fun r hr => ⟨(sA.1 r hr).1, (sA.1 r hr).2.1⟩) cs ps
    have qB : ((huangB S df x').map (fun r => lb * r.quantity)).sum =
        min (qsum (huangA S df x')) (qsum (huangB S df x')) := by
      rw [← hsB, ← List.map_congr_left tB]; unfold cut; rw [List.map_map]; rfl
    have qA : ((huangA S df x').map (fun r => la * r.quantity)).sum =
        min (qsum (huangA S df x')) (qsum (huangB S df x')) := by
      rw [← hsA, ← List.map_congr_left tA]; unfold cut; rw [List.map_map]; rfl
    have l1 := side_share (L := sortDesc S (buys df)) (fun r : Row => r.quantity) (fun r => r.price - c)
      (demandIdx S df x') (l := lb) (x := x')
      ((sortDesc_sorted S (buys df)).imp (fun h' => by simpa using h'))
      (fun r hr => (h r (memB r hr).1).1)
      (fun r hr => by have := (sB.1 r hr).2.2; linarith) hlb hB dB
    have l2 := side_share (L := sortAsc S (sells df)) (fun r : Row => r.quantity) (fun r => c - r.price)
      (supplyIdx S df x') (l := la) (x := x')
      ((sortAsc_sorted S (sells df)).imp (fun h' => by linarith))
      (fun r hr => (h r (memA r hr).1).1)
      (fun r hr => by have := (sA.1 r hr).2.2; linarith) hla hA dA
    have wB : ((huangB S df x').map (fun r => lb * r.quantity * (r.price - c))).sum =
        ((huangB S df x').map (fun r => max (r.quantity - cb) 0 * r.price)).sum -
          min (qsum (huangA S df x')) (qsum (huangB S df x')) * c := by
      rw [← qB, ← List.sum_map_mul_right, ← sum_map_sub']
      congr 1
      apply List.map_congr_left
      intro r hr
      rw [tB r hr]
      ring
    have wA : ((huangA S df x').map (fun r => la * r.quantity * (c - r.price))).sum =
        min (qsum (huangA S df x')) (qsum (huangB S df x')) * c -
          ((huangA S df x').map (fun r => max (r.quantity - cs) 0 * r.price)).sum := by
      rw [← qA, ← List.sum_map_mul_right, ← sum_map_sub']
      congr 1
      apply List.map_congr_left
      intro r hr
      rw [tA r hr]
      ring
    rw [TransactionManager.init_addAll_trans]
    have a1 : ∀ a b : List Transaction, boughtValue df (priceOf df) (a ++ b) =
        boughtValue df (priceOf df) a + boughtValue df (priceOf df) b := by
      intro a b; unfold boughtValue; rw [List.filter_append, List.map_append, List.sum_append]
    have a2 : ∀ a b : List Transaction, soldValue df (priceOf df) (a ++ b) =
        soldValue df (priceOf df) a + soldValue df (priceOf df) b := by
      intro a b; unfold soldValue; rw [List.filter_append, List.map_append, List.sum_append]
    rw [a1, a2, vB.1, vB.2, vA.1, vA.2, boughtQty_append, bB.1, bA.2.1, hsB]
    simp only [if_true, Bool.false_eq_true, if_false, zero_add, add_zero]
    have l1'' : ((sortDesc S (buys df)).map (fun r => r.quantity * max 0 (r.price - c))).sum *
        min (qsum (huangA S df x')) (qsum (huangB S df x')) ≤
        (((huangB S df x').map (fun r => max (r.quantity - cb) 0 * r.price)).sum -
          min (qsum (huangA S df x')) (qsum (huangB S df x')) * c) * x' := by
      rw [← wB]
      conv_lhs => rw [← qB]
      exact l1
    have l2'' : ((sortAsc S (sells df)).map (fun r => r.quantity * max 0 (c - r.price))).sum *
        min (qsum (huangA S df x')) (qsum (huangB S df x')) ≤
        (min (qsum (huangA S df x')) (qsum (huangB S df x')) * c -
          ((huangA S df x').map (fun r => max (r.quantity - cs) 0 * r.price)).sum) * x' := by
      rw [← wA]
      conv_lhs => rw [← qA]
      exact l2
    have hT : 0 ≤ min (qsum (huangA S df x')) (qsum (huangB S df x')) := by
      rw [← hsB]
      apply List.sum_nonneg
      intro z hz
      unfold cut at hz
      obtain ⟨_, _, rfl⟩ := List.mem_map.mp hz
      exact le_max_right _ _
    have hyT := mul_le_mul_of_nonneg_right hyc hT
    rw [sum_claim_split df S c] at hyT
    nlinarith
  · rw [hrun] at heq
    cases heq
    have e1 : boughtValue df (priceOf df) TransactionManager.init.trans = 0 := rfl
    have e2 : soldValue df (priceOf df) TransactionManager.init.trans = 0 := rfl
    have e3 : boughtQty df TransactionManager.init.trans = 0 := rfl
    rw [e1, e2, e3]
    simp

/-- Each side is cut by a single amount, so equal sizes are cut by equal shares. -/
theorem huang_proportional (S : Sorter) {df : DF} (ht : IsTable df) (h : NonNeg df) (he : EqualSizes df)
    {tm : TransactionManager} {ex : Extra} (hrun : huangAuction S df = .ok (tm, ex)) :
    Proportional df tm.trans := by
  have key : ∀ (c : ℚ) (side : Bool), 0 ≤ c → ∃ l : ℚ, 0 ≤ l ∧
      ∀ r ∈ df, r.buying = side → max (r.quantity - c) 0 = l * r.quantity := by
    intro c side hc
    by_cases hr : ∃ r ∈ df, r.buying = side
    · obtain ⟨r, hr, hb⟩ := hr
      rcases eq_or_lt_of_le (h r hr).1 with h0 | h0
      · refine ⟨0, le_refl _, fun r' hr' hb' => ?_⟩
        rw [he r' hr' r hr (hb'.trans hb.symm), ← h0, max_eq_right (by linarith)]
        ring
      · refine ⟨max (r.quantity - c) 0 / r.quantity, div_nonneg (le_max_right _ _) h0.le,
          fun r' hr' hb' => ?_⟩
        rw [he r' hr' r hr (hb'.trans hb.symm)]
        field_simp
    · exact ⟨0, le_refl _, fun r hr' hb => absurd ⟨r, hr', hb⟩ hr⟩
  rcases huang_cases S h with ⟨heq, _⟩ | ⟨x, ps, pb, hc, hps, hpb, _, hcase⟩
  · rw [hrun] at heq
    cases heq
    exact fun _ => ⟨0, le_refl _, fun t htr => absurd htr List.not_mem_nil⟩
  rcases hcase with ⟨_, _, cs, cb, hcs, hcb, _, _, _, heq⟩ | ⟨_, heq⟩
  · have sB := huangB_spec h hc hpb
    have sA := huangA_spec hc hps
    rw [hrun] at heq
    cases heq
    intro side
    obtain ⟨l, hl, hP⟩ := key (if side then cb else cs) side (by split_ifs <;> assumption)
    refine ⟨l, hl, ?_⟩
    rw [TransactionManager.init_addAll_trans]
    intro t htr hside
    rcases List.mem_append.mp htr with htr | htr
    · obtain ⟨r, hr, rfl⟩ := List.mem_map.mp htr
      obtain ⟨hm, hb, _⟩ := sA.1 r hr
      simp only at hside ⊢
      rw [ht.isBuy_eq hm, hb] at hside
      subst hside
      rw [ht.qty_eq hm, ← hP r hm hb]
      simp
    · obtain ⟨r, hr, rfl⟩ := List.mem_map.mp htr
      obtain ⟨hm, hb, _⟩ := sB.1 r hr
      simp only at hside ⊢
      rw [ht.isBuy_eq hm, hb] at hside
      subst hside
      rw [ht.qty_eq hm, ← hP r hm hb]
      simp
  · rw [hrun] at heq
    cases heq
    exact fun _ => ⟨0, le_refl _, fun t htr => absurd htr List.not_mem_nil⟩

/-- **C118, equal sizes.** If the buyers want equal quantities and the sellers offer equal quantities, the share
of the gains is at least the share of the volume; and if no bid is larger than `Q`, at least `1 - Q / x`. -/
theorem C118_equal_partial (S : Sorter) (df : DF) (ht : IsTable df) (h : NonNeg df) (he : EqualSizes df) (k : ℚ)
    (i : Intersection) (x : ℚ)
    (hi : intersectStepwise (demandCurve S df).1 (supplyCurve S df).1 k = .ok i)
    (hx : i.x = some (x : Ext)) (tm : TransactionManager) (ex : Extra)
    (hrun : huangAuction S df = .ok (tm, ex)) (y : ℚ) (hy : BestWelfare df (priceOf df) y) :
    y * boughtQty df tm.trans ≤
        (boughtValue df (priceOf df) tm.trans - soldValue df (priceOf df) tm.trans) * x ∧
      ∀ Q : ℚ, (∀ r ∈ df, r.quantity ≤ Q) →
        y * (x - Q) ≤ (boughtValue df (priceOf df) tm.trans - soldValue df (priceOf df) tm.trans) * x := by
  have main := C118_share_partial S df ht h k i x hi hx tm ex hrun (huang_proportional S ht h he hrun) y hy
  refine ⟨main, fun Q hQ => le_trans ?_ main⟩
  obtain ⟨mb, b1, ms, s1, q, b2, s2, _, hle, _⟩ := C64_deficit S df ht h k i x hi hx tm ex hrun
  have hy0 : 0 ≤ y := by
    apply hy.2
    exact ⟨fun _ _ => 0, ⟨fun _ _ => le_refl _, by simp,
      by simpa using qtyOf_nonneg (fun r hr => (h r hr).1), by simpa using qtyOf_nonneg (fun r hr => (h r hr).1)⟩, by simp [planWelfare]⟩
  apply mul_le_mul_of_nonneg_left _ hy0
  have := max_le (hQ mb b1) (hQ ms s1)
  linarith

/-- Everybody who trades trades everything: the other case of proportional rationing. -/
theorem C118_unrationed_partial (S : Sorter) (df : DF) (ht : IsTable df) (h : NonNeg df) (k : ℚ)
    (i : Intersection) (x : ℚ)
    (hi : intersectStepwise (demandCurve S df).1 (supplyCurve S df).1 k = .ok i)
    (hx : i.x = some (x : Ext)) (tm : TransactionManager) (ex : Extra)
    (hrun : huangAuction S df = .ok (tm, ex)) (hall : ∀ t ∈ tm.trans, t.quantity = qtyOf df t.bid)
    (y : ℚ) (hy : BestWelfare df (priceOf df) y) :
    y * boughtQty df tm.trans ≤
      (boughtValue df (priceOf df) tm.trans - soldValue df (priceOf df) tm.trans) * x :=
  C118_share_partial S df ht h k i x hi hx tm ex hrun
    (fun _ => ⟨1, zero_le_one, fun t htr _ => by rw [hall t htr, one_mul]⟩) y hy

/-- A small bid of great value in front of a large one. -/
def shareBook (M N : ℚ) : DF :=
  labelFrom 0 [⟨1, M, 0, true, 0, true⟩, ⟨N, 10, 1, true, 0, true⟩, ⟨1, 9, 2, true, 0, true⟩,
    ⟨N - 1, 1, 3, false, 0, true⟩, ⟨4, 2, 4, false, 0, true⟩]

/-- **C118, refuted in general.** For any `ε, δ > 0` there is a book on which Huang's auction trades all but the
share `δ` of the crossing quantity and yet realises less than the share `ε` of the possible gains: the cut is the
same amount for everyone, and a small bid of great value is cut to nothing. -/
theorem C118_refuted (S : Sorter) (ε δ : ℚ) (hε : 0 < ε) (hδ : 0 < δ) :
    ∃ (df : DF) (x : ℚ) (i : Intersection) (tm : TransactionManager) (ex : Extra) (y : ℚ),
      IsTable df ∧ NonNeg df ∧ DistinctPrices df ∧
      intersectStepwise (demandCurve S df).1 (supplyCurve S df).1 (1 / 2) = .ok i ∧ i.x = some (x : Ext) ∧
      huangAuction S df = .ok (tm, ex) ∧ BestWelfare df (priceOf df) y ∧
      (1 - δ) * x ≤ boughtQty df tm.trans ∧
      boughtValue df (priceOf df) tm.trans - soldValue df (priceOf df) tm.trans < ε * y := by
  obtain ⟨N, hN, hNδ⟩ : ∃ N : ℚ, 2 ≤ N ∧ 3 ≤ δ * (N + 2) := by
    refine ⟨3 / δ + 2, by have := div_pos (by norm_num : (0 : ℚ) < 3) hδ; linarith, ?_⟩
    have : δ * (3 / δ) = 3 := by field_simp
    nlinarith
  obtain ⟨M, hM, hMε⟩ : ∃ M : ℚ, 10 < M ∧ 9 * N < ε * (M - 2) := by
    refine ⟨9 * N / ε + 12, by have := div_pos (by linarith : (0 : ℚ) < 9 * N) hε; linarith, ?_⟩
    have : ε * (9 * N / ε) = 9 * N := by field_simp
    nlinarith
  have ht : IsTable (shareBook M N) := isTable_labelFrom _
  have hn : NonNeg (shareBook M N) := by
    intro r hr
    simp only [shareBook, labelFrom, List.mem_cons, List.not_mem_nil, or_false] at hr
    rcases hr with rfl | rfl | rfl | rfl | rfl <;> constructor <;> simp only <;> linarith
  have hd : DistinctPrices (shareBook M N) := by
    intro a ha b hb
    simp only [shareBook, labelFrom, List.mem_cons, List.not_mem_nil, or_false] at ha hb
    rcases ha with rfl | rfl | rfl | rfl | rfl <;> rcases hb with rfl | rfl | rfl | rfl | rfl <;>
      simp <;> linarith
  have hq : ∀ r ∈ shareBook M N, 0 ≤ r.quantity := fun r hr => (hn r hr).1
  have hx0 : (0 : ℚ) < N + 2 := by linarith
  have m1 : 9 < M := by linarith
  have m2 : 9 ≤ M := by linarith
  have m3 : 2 < M := by linarith
  have m4 : 2 ≤ M := by linarith
  have d9 : demandQty (shareBook M N) 9 = N + 2 := by
    simp [demandQty, shareBook, labelFrom, m2]; norm_num; ring
  have d9' : demandQtyAbove (shareBook M N) 9 = N + 1 := by
    simp [demandQtyAbove, shareBook, labelFrom, m1]; norm_num; ring
  have s2 : supplyQty (shareBook M N) 2 = N + 3 := by
    simp [supplyQty, shareBook, labelFrom]; ring
  have s2' : supplyQtyBelow (shareBook M N) 2 = N - 1 := by
    simp [supplyQtyBelow, shareBook, labelFrom]
  have hD : demandAt S (shareBook M N) ((N + 2 : ℚ) : Ext) = ((9 : ℚ) : Ext) := by
    apply le_antisymm
    · rw [← not_lt, demandAt_galois_lt S hq hx0 (by norm_num), d9']
      linarith
    · rw [demandAt_galois S hq hx0 (by norm_num), d9]
  have hS : supplyAt S (shareBook M N) ((N + 2 : ℚ) : Ext) = ((2 : ℚ) : Ext) := by
    apply le_antisymm
    · rw [supplyAt_galois S hq hx0, s2]
      linarith
    · rw [← not_lt, supplyAt_galois_lt S hq hx0, s2']
      linarith
  have hc : Crossing S (shareBook M N) (N + 2) := by
    refine crossing_of hn hx0.le (by rw [hD, hS]; exact WithTop.coe_lt_coe.mpr (by norm_num)) ?_
    intro z hz
    have h1 : ((2 : ℚ) : Ext) ≤ supplyAt S (shareBook M N) z := by
      rw [← hS]
      exact supplyAt_monotone S _ hz.le
    refine lt_of_lt_of_le ?_ h1
    induction z using WithTop.recTopCoe with
    | top => rw [demandAt_top]; exact WithTop.coe_lt_coe.mpr (by norm_num)
    | coe z =>
      have hz' : N + 2 < z := WithTop.coe_lt_coe.mp hz
      rw [← not_le, demandAt_galois S hq (by linarith) (by norm_num)]
      have : demandQty (shareBook M N) 2 = N + 2 := by
        simp [demandQty, shareBook, labelFrom, m4]; norm_num; ring
      rw [this]
      linarith
  have hcl : Clears (shareBook M N) 2 (N + 2) := by
    refine ⟨?_, ?_, ?_, ?_⟩
    · simp [demandQtyAbove, shareBook, labelFrom, m3]; norm_num; linarith
    · simp [demandQty, shareBook, labelFrom, m4]; norm_num; linarith
    · rw [s2']; linarith
    · rw [s2]; linarith
  have hbest := best_of_clears ht hq hcl
  have hy : ((shareBook M N).map (fun r => claim 2 r.toBid)).sum = (M - 2) + 8 * N + 7 + (N - 1) := by
    simp only [shareBook, labelFrom, claim, List.map_cons, List.map_nil, List.sum_cons, List.sum_nil, if_true,
      Bool.false_eq_true, if_false]
    rw [max_eq_right (by linarith : (0 : ℚ) ≤ M - 2)]
    norm_num
    ring
  obtain ⟨i, hi, hix⟩ : ∃ i, intersectStepwise (demandCurve S (shareBook M N)).1
      (supplyCurve S (shareBook M N)).1 (1 / 2) = .ok i ∧ i.x = some ((N + 2 : ℚ) : Ext) := by
    rcases intersect_cases S hn (1 / 2) with ⟨x, hc', he⟩ | ⟨_, hno⟩
    · rw [hc.unique hc']
      exact ⟨_, he, rfl⟩
    · exact absurd ⟨⟨_, WithTop.coe_le_coe.mpr hc.nonneg, hc.at_x⟩, fun z _ => hc.no_tie hn z⟩ hno
  rcases huang_cases S hn with ⟨_, hno⟩ | ⟨x', ps, pb, hc', hps, hpb, _, hcase⟩
  · exact absurd ⟨⟨_, WithTop.coe_le_coe.mpr hc.nonneg, hc.at_x⟩, fun z _ => hc.no_tie hn z⟩ hno
  obtain rfl : x' = N + 2 := hc'.unique hc
  obtain rfl : 2 = ps := WithTop.coe_injective (hS.symm.trans hps)
  obtain rfl : 9 = pb := WithTop.coe_injective (hD.symm.trans hpb)
  have sB := huangB_spec hn hc hpb
  have sA := huangA_spec hc hps
  have pB := huangB_perm ht hn hc hpb (huangB_strict' ht hn hc hpb (fun a ha b hb h1 h2 h3 h4 =>
    hd a ha b hb (h1.trans h2.symm) (h3.trans h4.symm)))
  have pA := huangA_perm ht hc hps (huangA_strict' ht hc hps (fun a ha b hb h1 h2 h3 h4 =>
    hd a ha b hb (h1.trans h2.symm) (h3.trans h4.symm)))
  have fB : (shareBook M N).filter (frontBuy 9) =
      [⟨⟨1, M, 0, true, 0, true⟩, 0⟩, ⟨⟨N, 10, 1, true, 0, true⟩, 1⟩] := by
    simp [shareBook, labelFrom, frontBuy, m1, List.filter_cons]; norm_num
  have fA : (shareBook M N).filter (frontSell 2) = [⟨⟨N - 1, 1, 3, false, 0, true⟩, 3⟩] := by
    simp [shareBook, labelFrom, frontSell]
  rw [fB] at pB
  rw [fA] at pA
  rcases hcase with ⟨_, _, cs, cb, hcs, hcb, _, hsA, hsB, heq⟩ | ⟨hor, _⟩
  swap
  · exfalso
    rcases hor with h0 | h0
    · rw [h0] at pB; simpa using pB.length_eq
    · rw [h0] at pA; simpa using pA.length_eq
  have qB : qsum (huangB S (shareBook M N) (N + 2)) = 1 + N := by
    unfold qsum
    rw [(pB.map _).sum_eq]
    simp
  have qA : qsum (huangA S (shareBook M N) (N + 2)) = N - 1 := by
    unfold qsum
    rw [(pA.map _).sum_eq]
    simp
  rw [qA, qB, min_eq_left (by linarith)] at hsA hsB
  have hsA' := hsA
  have hsB' := hsB
  unfold cut at hsA' hsB'
  rw [List.map_map, (pA.map _).sum_eq] at hsA'
  rw [List.map_map, (pB.map _).sum_eq] at hsB'
  simp only [List.map_cons, List.map_nil, List.sum_cons, List.sum_nil, Function.comp, add_zero] at hsA' hsB'
  have hcs0 : cs = 0 := by
    rcases le_total (N - 1 - cs) 0 with h0 | h0
    · rw [max_eq_right h0] at hsA'; linarith
    · rw [max_eq_left h0] at hsA'; linarith
  have hcb1 : cb = 1 := by
    rcases le_total (1 - cb) 0 with h0 | h0 <;> rcases le_total (N - cb) 0 with h1 | h1
    · rw [max_eq_right h0, max_eq_right h1] at hsB'; linarith
    · rw [max_eq_right h0, max_eq_left h1] at hsB'; linarith
    · rw [max_eq_left h0, max_eq_right h1] at hsB'; linarith
    · rw [max_eq_left h0, max_eq_left h1] at hsB'; linarith
  subst hcs0 hcb1
  have vB := cutTrans_values ht (b := true) (fun r hr => ⟨(sB.1 r hr).1, (sB.1 r hr).2.1⟩) 1 9
  have vA := cutTrans_values ht (b := false) (fun r hr => ⟨(sA.1 r hr).1, (sA.1 r hr).2.1⟩) 0 2
  have bB := cutTrans_buys ht (fun r hr => ⟨(sB.1 r hr).1, (sB.1 r hr).2.1⟩) 1 9
  have bA := cutTrans_sells ht (fun r hr => ⟨(sA.1 r hr).1, (sA.1 r hr).2.1⟩) 0 2
  refine ⟨shareBook M N, N + 2, i, _, _, _, ht, hn, hd, hi, hix, heq, hbest, ?_, ?_⟩
  · rw [TransactionManager.init_addAll_trans, boughtQty_append, bB.1, bA.2.1, hsB]
    nlinarith
  · have a1 : ∀ a b : List Transaction, boughtValue (shareBook M N) (priceOf (shareBook M N)) (a ++ b) =
        boughtValue (shareBook M N) (priceOf (shareBook M N)) a +
          boughtValue (shareBook M N) (priceOf (shareBook M N)) b := by
      intro a b; unfold boughtValue; rw [List.filter_append, List.map_append, List.sum_append]
    have a2 : ∀ a b : List Transaction, soldValue (shareBook M N) (priceOf (shareBook M N)) (a ++ b) =
        soldValue (shareBook M N) (priceOf (shareBook M N)) a +
          soldValue (shareBook M N) (priceOf (shareBook M N)) b := by
      intro a b; unfold soldValue; rw [List.filter_append, List.map_append, List.sum_append]
    rw [TransactionManager.init_addAll_trans, a1, a2, vB.1, vB.2, vA.1, vA.2, (pB.map _).sum_eq,
      (pA.map _).sum_eq, hy]
    simp only [List.map_cons, List.map_nil, List.sum_cons, List.sum_nil, if_true, Bool.false_eq_true, if_false]
    rw [max_eq_right (by norm_num : (1 : ℚ) - 1 ≤ 0), max_eq_left (by linarith : (0 : ℚ) ≤ N - 1),
      max_eq_left (by linarith : (0 : ℚ) ≤ N - 1 - 0)]
    nlinarith

/-- A case that meets the hypotheses: with bids of one unit each, two of the three units of the crossing are
traded, and 16 of at most 20 is realised. -/
def equalBook : DF :=
  labelFrom 0 [⟨1, 10, 0, true, 0, true⟩, ⟨1, 9, 1, true, 0, true⟩, ⟨1, 8, 2, true, 0, true⟩,
    ⟨1, 1, 3, false, 0, true⟩, ⟨1, 2, 4, false, 0, true⟩, ⟨1, 4, 5, false, 0, true⟩,
    ⟨1, 12, 6, false, 0, true⟩]

example : IsTable equalBook ∧ NonNeg equalBook ∧ EqualSizes equalBook ∧ Clears equalBook 5 3 ∧
    (equalBook.map (fun r => claim 5 r.toBid)).sum = 20 ∧
    ((intersectStepwise (demandCurve stableSorter equalBook).1 (supplyCurve stableSorter equalBook).1
      (1 / 2)).toOption.map (fun i => i.x)) = some (some ((3 : ℚ) : Ext)) ∧
    ((huangAuction stableSorter equalBook).toOption.map (fun o => o.1.trans)) =
      some [⟨3, 1, 4, -1, false⟩, ⟨4, 1, 4, -1, false⟩, ⟨0, 1, 8, -1, false⟩, ⟨1, 1, 8, -1, false⟩] := by
  refine ⟨isTable_labelFrom _, ?_, ?_, ?_, ?_, ?_, ?_⟩
  · unfold NonNeg; decide +kernel
  · unfold EqualSizes; decide +kernel
  · unfold Clears; decide +kernel
  · decide +kernel
  · decide +kernel
  · decide +kernel

end PyMarket
