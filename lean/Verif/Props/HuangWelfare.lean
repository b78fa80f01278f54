import Verif.Props.HuangVolume
import Verif.Props.WelfareTheorem

/-! # C72: how much welfare Huang's auction gives up -/

set_option autoImplicit false

namespace PyMarket

open Spec

theorem sum_map_sub' {α : Type*} (l : List α) (f g : α → ℚ) :
    (l.map (fun a => f a - g a)).sum = (l.map f).sum - (l.map g).sum := by
  induction l with
  | nil => simp
  | cons a l ih => simp only [List.map_cons, List.sum_cons, ih]; ring

/-- One side of the loss: `L` is sorted by decreasing value `w` per unit, the first `n` elements are
served `t` instead of `q`. -/
theorem side_loss {α : Type*} {L : List α} (q w t : α → ℚ) (n : ℕ) {M x : ℚ}
    (hs : L.Pairwise (fun a b => w b ≤ w a)) (hq : ∀ a ∈ L, 0 ≤ q a) (hM : ∀ a ∈ L, w a ≤ M)
    (hM0 : 0 ≤ M) (hw : ∀ a ∈ L.take n, 0 ≤ w a) (htq : ∀ a ∈ L.take n, t a ≤ q a)
    (hx : ((L.take n).map q).sum ≤ x)
    (hx' : ((L.filter (fun a => decide (0 < w a))).map q).sum ≤ x) :
    (L.map (fun a => q a * max 0 (w a))).sum - ((L.take n).map (fun a => t a * w a)).sum ≤
      M * (x - ((L.take n).map t).sum) := by
  have hL : L = L.take n ++ L.drop n := (List.take_append_drop n L).symm
  have e1 : (L.map (fun a => q a * max 0 (w a))).sum =
      ((L.take n).map (fun a => q a * w a)).sum +
        ((L.drop n).map (fun a => q a * max 0 (w a))).sum := by
    conv_lhs => rw [hL, List.map_append, List.sum_append]
    congr 2
    apply List.map_congr_left
    intro a ha
    rw [max_eq_right (hw a ha)]
  have h1 : ((L.take n).map (fun a => q a * w a)).sum ≤
      ((L.take n).map (fun a => t a * w a)).sum +
        M * (((L.take n).map q).sum - ((L.take n).map t).sum) := by
    have : ((L.take n).map (fun a => q a * w a)).sum ≤
        ((L.take n).map (fun a => t a * w a + (M * q a - M * t a))).sum := by
      apply List.sum_le_sum
      intro a ha
      have := mul_le_mul_of_nonneg_left (hM a (List.mem_of_mem_take ha))
        (sub_nonneg.mpr (htq a ha))
      linarith
    refine le_trans this (le_of_eq ?_)
    rw [List.sum_map_add, sum_map_sub', List.sum_map_mul_left, List.sum_map_mul_left]
    ring
  have h2 : ((L.drop n).map (fun a => q a * max 0 (w a))).sum ≤
      M * (x - ((L.take n).map q).sum) := by
    have hqd : ∀ a ∈ L.drop n, 0 ≤ q a := fun a ha => hq a (List.mem_of_mem_drop ha)
    by_cases hz : ∃ a ∈ L.take n, w a = 0
    · obtain ⟨a, ha, h0⟩ := hz
      have : ((L.drop n).map (fun a => q a * max 0 (w a))).sum = 0 := by
        apply List.sum_eq_zero
        intro y hy
        obtain ⟨b, hb, rfl⟩ := List.mem_map.mp hy
        rw [hL, List.pairwise_append] at hs
        have := hs.2.2 a ha b hb
        rw [h0] at this
        rw [max_eq_left this, mul_zero]
      rw [this]
      exact mul_nonneg hM0 (by linarith)
    · have hall : (L.take n).filter (fun a => decide (0 < w a)) = L.take n := by
        rw [List.filter_eq_self]
        intro a ha
        exact decide_eq_true (lt_of_le_of_ne (hw a ha) (fun h => hz ⟨a, ha, h.symm⟩))
      have e2 : ((L.filter (fun a => decide (0 < w a))).map q).sum = ((L.take n).map q).sum +
          (((L.drop n).filter (fun a => decide (0 < w a))).map q).sum := by
        conv_lhs => rw [hL, List.filter_append, hall, List.map_append, List.sum_append]
      have e3 : ∀ l : List α, (∀ a ∈ l, 0 ≤ q a) → (∀ a ∈ l, w a ≤ M) →
          (l.map (fun a => q a * max 0 (w a))).sum ≤
            M * ((l.filter (fun a => decide (0 < w a))).map q).sum := by
        intro l
        induction l with
        | nil => intro _ _; simp
        | cons a l ih =>
          intro hql hwl
          have hi := ih (fun b hb => hql b (List.mem_cons_of_mem _ hb))
            (fun b hb => hwl b (List.mem_cons_of_mem _ hb))
          have ha := hql a List.mem_cons_self
          have hwa := hwl a List.mem_cons_self
          by_cases hp : 0 < w a
          · rw [List.filter_cons_of_pos (by simpa using hp), List.map_cons, List.map_cons,
              List.sum_cons, List.sum_cons, max_eq_right hp.le, mul_add]
            have := mul_le_mul_of_nonneg_left hwa ha
            linarith
          · rw [List.filter_cons_of_neg (by simpa using hp), List.map_cons, List.sum_cons,
              max_eq_left (not_lt.mp hp), mul_zero, zero_add]
            exact hi
      refine le_trans (e3 _ hqd (fun a ha => hM a (List.mem_of_mem_drop ha))) ?_
      exact mul_le_mul_of_nonneg_left (by linarith) hM0
  rw [e1]
  nlinarith

theorem sum_claim_split (df : DF) (S : Sorter) (p : ℚ) :
    (df.map (fun r => claim p r.toBid)).sum =
      ((sortDesc S (buys df)).map (fun r => r.quantity * max 0 (r.price - p))).sum +
        ((sortAsc S (sells df)).map (fun r => r.quantity * max 0 (p - r.price))).sum := by
  rw [((sortDesc_perm S (buys df)).map _).sum_eq, ((sortAsc_perm S (sells df)).map _).sum_eq]
  unfold buys sells
  induction df with
  | nil => simp
  | cons r df ih =>
    rw [List.map_cons, List.sum_cons, ih]
    cases hb : r.buying <;> simp [hb, claim] <;> ring

theorem cutTrans_values {df rows : DF} (ht : IsTable df) {b : Bool}
    (h : ∀ r ∈ rows, r ∈ df ∧ r.buying = b) (c p : ℚ) :
    boughtValue df (priceOf df) (cutTrans rows c p) =
      (if b then (rows.map (fun r => max (r.quantity - c) 0 * r.price)).sum else 0) ∧
    soldValue df (priceOf df) (cutTrans rows c p) =
      (if b then 0 else (rows.map (fun r => max (r.quantity - c) 0 * r.price)).sum) := by
  unfold boughtValue soldValue cutTrans
  induction rows with
  | nil => cases b <;> simp
  | cons r rows ih =>
    obtain ⟨i1, i2⟩ := ih (fun r' h' => h r' (List.mem_cons_of_mem _ h'))
    obtain ⟨hr, hb⟩ := h r List.mem_cons_self
    have f1 := ht.isBuy_eq hr
    have f2 := ht.isSell_eq hr
    have f3 := ht.price_eq hr
    rw [hb] at f1 f2
    cases b
    · simp only [List.map_cons, List.filter_cons, f1, f2, Bool.not_false, if_true, List.sum_cons, f3,
        Bool.false_eq_true, if_false] at i1 i2 ⊢
      exact ⟨i1, by rw [i2]⟩
    · simp only [List.map_cons, List.filter_cons, f1, f2, Bool.not_true, if_true, List.sum_cons, f3,
        Bool.false_eq_true, if_false] at i1 i2 ⊢
      exact ⟨by rw [i1], i2⟩

/-- The loss of Huang's auction against any value that does not exceed the claims of the bids at any price. -/
theorem huang_loss (S : Sorter) {df : DF} (ht : IsTable df) (h : NonNeg df) {x : ℚ} (hc : Crossing S df x)
    {tm : TransactionManager} {ex : Extra} (hrun : huangAuction S df = .ok (tm, ex)) {y : ℚ}
    (hyc : ∀ c, y ≤ (df.map (fun r => claim c r.toBid)).sum)
    {hi' lo : ℚ} (hhi : ∀ r ∈ df, r.buying = true → r.price ≤ hi')
    (hlo : ∀ r ∈ df, r.buying = false → lo ≤ r.price) :
    y - (boughtValue df (priceOf df) tm.trans - soldValue df (priceOf df) tm.trans) ≤
      (x - boughtQty df tm.trans) * (hi' - lo) := by
  obtain ⟨c, hc0, hcs, hcd, hcl⟩ := hc.clears_between h
  replace hyc := hyc c
  rcases huang_cases S h with ⟨_, hno⟩ | ⟨x', ps, pb, hc', hps, hpb, hlt, hcase⟩
  · exfalso
    apply hno
    exact ⟨⟨x, WithTop.coe_le_coe.mpr hc.nonneg, hc.at_x⟩, fun z _ => hc.no_tie h z⟩
  obtain rfl : x' = x := hc'.unique hc
  obtain ⟨mb, b1, b2, b3, -⟩ := hc.marginal_buy_cover h hpb
  obtain ⟨ms, s1, s2, s3, -⟩ := hc.marginal_sell_cover hps
  have sB := huangB_spec h hc hpb
  have sA := huangA_spec hc hps
  have hB := qsum_huangB_le h hc
  have hA := qsum_huangA_le h hc
  have hcp : c ≤ pb := by rw [hpb] at hcd; exact WithTop.coe_le_coe.mp hcd
  have hpc : ps ≤ c := by rw [hps] at hcs; exact WithTop.coe_le_coe.mp hcs
  have hMb : 0 ≤ hi' - c := by have := hhi mb b1 b2; linarith
  have hMs : 0 ≤ c - lo := by have := hlo ms s1 s2; linarith
  have memB : ∀ r ∈ sortDesc S (buys df), r ∈ df ∧ r.buying = true := fun r hr =>
    mem_buys.mp (mem_sortDesc.mp hr)
  have memA : ∀ r ∈ sortAsc S (sells df), r ∈ df ∧ r.buying = false := fun r hr =>
    mem_sells.mp (mem_sortAsc.mp hr)
  have dB : (((sortDesc S (buys df)).filter (fun r => decide (0 < r.price - c))).map
      (fun r => r.quantity)).sum ≤ x' := by
    refine le_trans (le_of_eq ?_) hcl.1
    rw [(((sortDesc_perm S (buys df)).filter _).map _).sum_eq]
    unfold buys demandQtyAbove
    rw [List.filter_filter]
    congr 2
    apply List.filter_congr
    intro r _
    rw [Bool.and_comm]
    simp only [sub_pos]
  have dA : (((sortAsc S (sells df)).filter (fun r => decide (0 < c - r.price))).map
      (fun r => r.quantity)).sum ≤ x' := by
    refine le_trans (le_of_eq ?_) hcl.2.2.1
    rw [(((sortAsc_perm S (sells df)).filter _).map _).sum_eq]
    unfold sells supplyQtyBelow
    rw [List.filter_filter]
    congr 2
    apply List.filter_congr
    intro r _
    rw [Bool.and_comm]
    simp only [sub_pos]
  have lossB : ∀ t : Row → ℚ, (∀ r ∈ huangB S df x', t r ≤ r.quantity) →
      ((sortDesc S (buys df)).map (fun r => r.quantity * max 0 (r.price - c))).sum -
        ((huangB S df x').map (fun r => t r * (r.price - c))).sum ≤
      (hi' - c) * (x' - ((huangB S df x').map t).sum) := by
    intro t htq
    refine side_loss (fun r : Row => r.quantity) (fun r => r.price - c) t (demandIdx S df x') ?_ ?_
      ?_ hMb ?_ htq hB dB
    · exact (sortDesc_sorted S (buys df)).imp (fun h' => by simpa using h')
    · exact fun r hr => (h r (memB r hr).1).1
    · intro r hr
      have := hhi r (memB r hr).1 (memB r hr).2
      linarith
    · intro r hr
      have := (sB.1 r hr).2.2
      linarith
  have lossA : ∀ t : Row → ℚ, (∀ r ∈ huangA S df x', t r ≤ r.quantity) →
      ((sortAsc S (sells df)).map (fun r => r.quantity * max 0 (c - r.price))).sum -
        ((huangA S df x').map (fun r => t r * (c - r.price))).sum ≤
      (c - lo) * (x' - ((huangA S df x').map t).sum) := by
    intro t htq
    refine side_loss (fun r : Row => r.quantity) (fun r => c - r.price) t (supplyIdx S df x') ?_ ?_
      ?_ hMs ?_ htq hA dA
    · exact (sortAsc_sorted S (sells df)).imp (fun h' => by linarith)
    · exact fun r hr => (h r (memA r hr).1).1
    · intro r hr
      have := hlo r (memA r hr).1 (memA r hr).2
      linarith
    · intro r hr
      have := (sA.1 r hr).2.2
      linarith
  rw [sum_claim_split df S c] at hyc
  rcases hcase with ⟨_, _, cs, cb, hcs0, hcb0, _, hsA, hsB, heq⟩ | ⟨_, heq⟩
  · rw [hrun] at heq
    cases heq
    have vB := cutTrans_values ht (b := true) (fun r hr => ⟨(sB.1 r hr).1, (sB.1 r hr).2.1⟩) cb pb
    have vA := cutTrans_values ht (b := false) (fun r hr => ⟨(sA.1 r hr).1, (sA.1 r hr).2.1⟩) cs ps
    have bB := cutTrans_buys ht (fun r hr => ⟨(sB.1 r hr).1, (sB.1 r hr).2.1⟩) cb pb
    have bA := cutTrans_sells ht (fun r hr => ⟨(sA.1 r hr).1, (sA.1 r hr).2.1⟩) cs ps
    have l1 := lossB (fun r => max (r.quantity - cb) 0) (fun r hr =>
      max_le (by linarith) (h r (sB.1 r hr).1).1)
    have l2 := lossA (fun r => max (r.quantity - cs) 0) (fun r hr =>
      max_le (by linarith) (h r (sA.1 r hr).1).1)
    have qB : ((huangB S df x').map (fun r => max (r.quantity - cb) 0)).sum =
        min (qsum (huangA S df x')) (qsum (huangB S df x')) := by
      rw [← hsB]; unfold cut; rw [List.map_map]; rfl
    have qA : ((huangA S df x').map (fun r => max (r.quantity - cs) 0)).sum =
        min (qsum (huangA S df x')) (qsum (huangB S df x')) := by
      rw [← hsA]; unfold cut; rw [List.map_map]; rfl
    have wB : ((huangB S df x').map (fun r => max (r.quantity - cb) 0 * (r.price - c))).sum =
        ((huangB S df x').map (fun r => max (r.quantity - cb) 0 * r.price)).sum -
          min (qsum (huangA S df x')) (qsum (huangB S df x')) * c := by
      rw [← qB, ← List.sum_map_mul_right, ← sum_map_sub']
      congr 1
      apply List.map_congr_left
      intro r _
      ring
    have wA : ((huangA S df x').map (fun r => max (r.quantity - cs) 0 * (c - r.price))).sum =
        min (qsum (huangA S df x')) (qsum (huangB S df x')) * c -
          ((huangA S df x').map (fun r => max (r.quantity - cs) 0 * r.price)).sum := by
      rw [← qA, ← List.sum_map_mul_right, ← sum_map_sub']
      congr 1
      apply List.map_congr_left
      intro r _
      ring
    rw [TransactionManager.init_addAll_trans]
    have a1 : ∀ a b : List Transaction, boughtValue df (priceOf df) (a ++ b) =
        boughtValue df (priceOf df) a + boughtValue df (priceOf df) b := by
      intro a b; unfold boughtValue; rw [List.filter_append, List.map_append, List.sum_append]
    have a2 : ∀ a b : List Transaction, soldValue df (priceOf df) (a ++ b) =
        soldValue df (priceOf df) a + soldValue df (priceOf df) b := by
      intro a b; unfold soldValue; rw [List.filter_append, List.map_append, List.sum_append]
    rw [a1, a2, vB.1, vB.2, vA.1, vA.2, boughtQty_append, bB.1, bA.2.1, hsB]
    simp only [if_true, Bool.false_eq_true, if_false]
    rw [wB, qB] at l1
    rw [wA, qA] at l2
    linarith
  · rw [hrun] at heq
    cases heq
    have l1 := lossB (fun _ => 0) (fun r hr => (h r (sB.1 r hr).1).1)
    have l2 := lossA (fun _ => 0) (fun r hr => (h r (sA.1 r hr).1).1)
    simp only [zero_mul, List.map_const', List.sum_replicate, smul_zero, sub_zero] at l1 l2
    have e1 : boughtValue df (priceOf df) TransactionManager.init.trans = 0 := rfl
    have e2 : soldValue df (priceOf df) TransactionManager.init.trans = 0 := rfl
    have e3 : boughtQty df TransactionManager.init.trans = 0 := rfl
    rw [e1, e2, e3]
    linarith

/-- **C72.** When the curves cross at `x`, the value created by Huang's auction falls short of the
largest possible value `y` by at most the quantity given up times the distance between the highest
buying and the lowest selling price — hence by at most the larger of the two price setting bids times
that distance. -/
theorem C72_welfare_loss (S : Sorter) (df : DF) (ht : IsTable df) (h : NonNeg df) (k : ℚ)
    (i : Intersection) (x : ℚ)
    (hi : intersectStepwise (demandCurve S df).1 (supplyCurve S df).1 k = .ok i)
    (hx : i.x = some (x : Ext)) (tm : TransactionManager) (ex : Extra)
    (hrun : huangAuction S df = .ok (tm, ex)) (y : ℚ) (hy : BestWelfare df (priceOf df) y)
    (hi' lo : ℚ) (hhi : ∀ r ∈ df, r.buying = true → r.price ≤ hi')
    (hlo : ∀ r ∈ df, r.buying = false → lo ≤ r.price) :
    y - (boughtValue df (priceOf df) tm.trans - soldValue df (priceOf df) tm.trans) ≤
        (x - boughtQty df tm.trans) * (hi' - lo) ∧
      ∃ mb ∈ df, ∃ ms ∈ df, ∃ q, mb.buying = true ∧ ms.buying = false ∧
        ex = .huang (ms.price : Ext) (mb.price : Ext) q ∧
        y - (boughtValue df (priceOf df) tm.trans - soldValue df (priceOf df) tm.trans) ≤
          max mb.quantity ms.quantity * (hi' - lo) := by
  have main : y - (boughtValue df (priceOf df) tm.trans - soldValue df (priceOf df) tm.trans) ≤
      (x - boughtQty df tm.trans) * (hi' - lo) := by
    obtain ⟨x', he, hc, rfl⟩ := intersect_some h hi hx
    obtain rfl := WithTop.coe_injective he
    obtain ⟨⟨q, h1, rfl⟩, _⟩ := hy
    exact huang_loss S ht h hc hrun (fun c => planWelfare_le ht h1 c) hhi hlo
  refine ⟨main, ?_⟩
  obtain ⟨mb, b1, ms, s1, q, b2, s2, he, hle, _, hbx, _⟩ := C64_deficit S df ht h k i x hi hx tm ex hrun
  refine ⟨mb, b1, ms, s1, q, b2, s2, he, le_trans main ?_⟩
  apply mul_le_mul_of_nonneg_right (by linarith)
  have h1 := hhi mb b1 b2
  have h2 := hlo ms s1 s2
  have h3 : ms.price < mb.price := by
    obtain ⟨x', he', hc, rfl⟩ := intersect_some h hi hx
    rcases huang_cases S h with ⟨heq, _⟩ | ⟨y', ps, pb, _, _, _, hlt, hcase⟩
    · rw [hrun, he] at heq; cases heq
    · rcases hcase with ⟨_, _, cs, cb, _, _, _, _, _, heq⟩ | ⟨_, heq⟩ <;>
      · rw [hrun, he] at heq
        simp only [Except.ok.injEq, Prod.mk.injEq, Extra.huang.injEq, WithTop.coe_inj] at heq
        rw [heq.2.1, heq.2.2.1]
        exact hlt
  linarith

/-- A case that meets the hypotheses: in `deficitBook` 55 is possible (5 units at 10, 2 at 8, bought for
5 at 1, 2 at 3), 45 is reached, 2 units between 1 and 10 are given up, and `10 ≤ 2 * 9`. -/
example : IsTable deficitBook ∧ NonNeg deficitBook ∧ Clears deficitBook 5 7 ∧
    (deficitBook.map (fun r => claim 5 r.toBid)).sum = 55 ∧
    boughtValue deficitBook (priceOf deficitBook) [⟨2, 5, 3, -1, false⟩, ⟨0, 5, 8, -1, false⟩] -
      soldValue deficitBook (priceOf deficitBook) [⟨2, 5, 3, -1, false⟩, ⟨0, 5, 8, -1, false⟩] = 45 ∧
    (∀ r ∈ deficitBook, r.buying = true → r.price ≤ 10) ∧
    (∀ r ∈ deficitBook, r.buying = false → 1 ≤ r.price) := by
  decide +kernel

end PyMarket
