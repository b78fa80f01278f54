import Verif.Props.Totals
import Verif.Props.MergedStatistics
import Verif.Props.HuangWelfare
import Verif.Props.HuangVolume
import Verif.Props.HuangLosers
import Verif.Props.Withdraw

/-! # The merged book and the book with rounded prices have the same curves -/

set_option autoImplicit false

namespace PyMarket

open Spec

section

variable {df nb : DF} {mp : List (List ℕ)}

/-- Weighted quantities are the same before and after merging, if the weight depends on side and rounded
price only. -/
theorem MergeSpec.weight_lift (h : MergeSpec df nb mp) (g : Bool → ℚ → ℚ) :
    (nb.map (fun r => r.quantity * g r.buying r.price)).sum =
      (df.map (fun r => r.quantity * g r.buying (npRound 5 r.price))).sum := by
  have e : ∀ i r, df[i]? = some r → qtyOf df i * g (isBuy df i) (npRound 5 (priceOf df i)) =
      r.quantity * g r.buying (npRound 5 r.price) := by
    intro i r hr
    rw [isBuy_some hr, priceOf_some hr, qtyOf_some hr]
  rw [sum_ids df _ _ e, ← (h.perm.map _).sum_eq, List.map_flatten, List.sum_flatten, List.map_map]
  congr 1
  apply List.ext_getElem
  · simp [h.length]
  · intro k h1 h2
    simp only [List.getElem_map, Function.comp_apply]
    have hk1 : k < nb.length := by simpa using h1
    have hk2 : k < mp.length := by simpa using h2
    obtain ⟨_, g2, g3⟩ := h.group k _ _ (List.getElem?_eq_getElem hk1) (List.getElem?_eq_getElem hk2)
    have e2 : ∀ i ∈ mp[k], qtyOf df i * g (isBuy df i) (npRound 5 (priceOf df i)) =
        qtyOf df i * g nb[k].buying nb[k].price := by
      intro i hi
      obtain ⟨r, hr, hb, hp⟩ := g3 i hi
      rw [isBuy_some hr, priceOf_some hr, hb, hp]
    rw [List.map_congr_left e2, g2, List.sum_map_mul_right]

theorem MergeSpec.claims (h : MergeSpec df nb mp) (c : ℚ) :
    (nb.map (fun r => claim c r.toBid)).sum =
      ((roundedBook (npRound 5) df).map (fun r => claim c r.toBid)).sum := by
  have := h.weight_lift (fun b p => if b then max 0 (p - c) else max 0 (c - p))
  unfold roundedBook
  rw [List.map_map]
  exact this

theorem roundedBook_nonNeg (h : NonNeg df) : NonNeg (roundedBook (npRound 5) df) := by
  intro r hr
  obtain ⟨r', h', rfl⟩ := List.mem_map.mp hr
  exact ⟨(h r' h').1, npRound_nonneg 5 (h r' h').2⟩

theorem MergeSpec.demandQty_eq (h : MergeSpec df nb mp) (p : ℚ) :
    demandQty nb p = demandQty (roundedBook (npRound 5) df) p := by
  unfold demandQty
  rw [h.sum_lift (fun b y => b && decide (p ≤ y))]
  unfold roundedBook
  rw [List.filter_map, List.map_map]
  rfl

theorem MergeSpec.supplyQty_eq (h : MergeSpec df nb mp) (p : ℚ) :
    supplyQty nb p = supplyQty (roundedBook (npRound 5) df) p := by
  unfold supplyQty
  rw [h.sum_lift (fun b y => !b && decide (y ≤ p))]
  unfold roundedBook
  rw [List.filter_map, List.map_map]
  rfl

/-- A side and price occur in the merged table exactly when they do in the rounded book. -/
theorem MergeSpec.exists_iff (h : MergeSpec df nb mp) (ht : IsTable df) (g : Bool → ℚ → Bool) :
    nb.filter (fun r => g r.buying r.price) ≠ [] ↔
      (roundedBook (npRound 5) df).filter (fun r => g r.buying r.price) ≠ [] := by
  simp only [ne_eq, List.filter_eq_nil_iff, not_forall, not_not]
  constructor
  · rintro ⟨row, hrow, hg⟩
    obtain ⟨row', ids, g1, _, g3, _, _, g6⟩ := h.get (h.table.label_lt hrow)
    rw [h.table.get_label hrow] at g1
    cases g1
    obtain ⟨i, hi⟩ := List.exists_mem_of_ne_nil _ g3
    obtain ⟨r, hr, hb, hp⟩ := g6 i hi
    refine ⟨{ r with price := npRound 5 r.price }, List.mem_map_of_mem (List.mem_of_getElem? hr), ?_⟩
    simp only [hb, hp]
    exact hg
  · rintro ⟨r', hr', hg⟩
    obtain ⟨r, hr, rfl⟩ := List.mem_map.mp hr'
    obtain ⟨k, ids, hk, hids, hmem⟩ := h.exists_group (ht.label_lt hr)
    obtain ⟨row, ids', g1, g2, _, _, _, g6⟩ := h.get hk
    rw [hids] at g2
    cases g2
    obtain ⟨s, s1, s2, s3⟩ := g6 _ hmem
    rw [ht.get_label hr] at s1
    cases s1
    refine ⟨row, List.mem_of_getElem? g1, ?_⟩
    rw [← s2, ← s3]
    exact hg

theorem MergeSpec.demandAt_eq (h : MergeSpec df nb mp) (ht : IsTable df) (hn : NonNeg df) (S S' : Sorter)
    {z : ℚ} (hz : 0 ≤ z) : demandAt S nb z = demandAt S' (roundedBook (npRound 5) df) z := by
  have hN := (h.pos hn).nonNeg
  have hR := roundedBook_nonNeg hn
  rcases eq_or_lt_of_le hz with rfl | hz
  · obtain ⟨a, ha⟩ := demand_fin S nb ((0 : ℚ) : Ext)
    obtain ⟨b, hb⟩ := demand_fin S' (roundedBook (npRound 5) df) ((0 : ℚ) : Ext)
    have ha0 := demandAt_nonneg S (fun r hr => (hN r hr).2) ((0 : ℚ) : Ext)
    have hb0 := demandAt_nonneg S' (fun r hr => (hR r hr).2) ((0 : ℚ) : Ext)
    have key : ∀ p : ℚ, 0 < p → ((p : Ext) ≤ demandAt S nb ((0 : ℚ) : Ext) ↔
        (p : Ext) ≤ demandAt S' (roundedBook (npRound 5) df) ((0 : ℚ) : Ext)) := by
      intro p hp
      rw [demandAt_zero_iff S (fun r hr => (hN r hr).1) hp, demandAt_zero_iff S' (fun r hr => (hR r hr).1) hp]
      exact h.exists_iff ht (fun s y => s && decide (p ≤ y))
    rw [ha, hb] at key ⊢
    rw [ha] at ha0
    rw [hb] at hb0
    simp only [WithTop.coe_le_coe] at key ha0 hb0
    rw [WithTop.coe_inj]
    apply le_antisymm
    · rcases eq_or_lt_of_le ha0 with h0 | h0
      · rw [← h0]; exact hb0
      · exact (key a h0).mp le_rfl
    · rcases eq_or_lt_of_le hb0 with h0 | h0
      · rw [← h0]; exact ha0
      · exact (key b h0).mpr le_rfl
  · exact le_antisymm
      (demandAt_le_of_qty S S' hN hR (fun p => (h.demandQty_eq p).le) hz)
      (demandAt_le_of_qty S' S hR hN (fun p => (h.demandQty_eq p).ge) hz)

theorem MergeSpec.supplyAt_eq (h : MergeSpec df nb mp) (ht : IsTable df) (hn : NonNeg df) (S S' : Sorter)
    {z : ℚ} (hz : 0 ≤ z) : supplyAt S nb z = supplyAt S' (roundedBook (npRound 5) df) z := by
  have hN := (h.pos hn).nonNeg
  have hR := roundedBook_nonNeg hn
  rcases eq_or_lt_of_le hz with rfl | hz
  · have key : ∀ p : ℚ, (supplyAt S nb ((0 : ℚ) : Ext) ≤ (p : Ext) ↔
        supplyAt S' (roundedBook (npRound 5) df) ((0 : ℚ) : Ext) ≤ (p : Ext)) := by
      intro p
      rw [supplyAt_zero_iff S (fun r hr => (hN r hr).1), supplyAt_zero_iff S' (fun r hr => (hR r hr).1)]
      exact h.exists_iff ht (fun s y => !s && decide (y ≤ p))
    generalize supplyAt S nb ((0 : ℚ) : Ext) = a at key ⊢
    generalize supplyAt S' (roundedBook (npRound 5) df) ((0 : ℚ) : Ext) = b at key ⊢
    apply le_antisymm
    · induction b using WithTop.recTopCoe with
      | top => exact le_top
      | coe b => exact (key b).mpr le_rfl
    · induction a using WithTop.recTopCoe with
      | top => exact le_top
      | coe a => exact (key a).mp le_rfl
  · exact le_antisymm
      (supplyAt_le_of_qty S' S hR hN (fun p => (h.supplyQty_eq p).ge) hz)
      (supplyAt_le_of_qty S S' hN hR (fun p => (h.supplyQty_eq p).le) hz)

/-- The merged book has the equilibrium quantity of the rounded book. -/
theorem MergeSpec.crossing (h : MergeSpec df nb mp) (ht : IsTable df) (hn : NonNeg df) (S S' : Sorter) {x : ℚ}
    (hc : Crossing S' (roundedBook (npRound 5) df) x) : Crossing S nb x := by
  apply crossing_of (h.pos hn).nonNeg hc.nonneg
  · rw [h.supplyAt_eq ht hn S S' hc.nonneg, h.demandAt_eq ht hn S S' hc.nonneg]
    exact hc.at_x
  · intro z hz
    rcases eq_or_ne z ⊤ with rfl | hne
    · rw [demandAt_top, supplyAt_top]; exact WithTop.coe_lt_top 0
    · obtain ⟨y, rfl⟩ := WithTop.ne_top_iff_exists.mp hne
      have hy0 : 0 ≤ y := le_trans hc.nonneg (WithTop.coe_lt_coe.mp hz).le
      rw [h.supplyAt_eq ht hn S S' hy0, h.demandAt_eq ht hn S S' hy0]
      exact hc.above _ hz

/-- The value of the split log at the rounded prices is that of the log of the merged bids. -/
theorem MergeSpec.values_lift (h : MergeSpec df nb mp) {ts : List Transaction}
    (hts : ∀ t ∈ ts, t.bid < nb.length) :
    boughtValue df (priceOf (roundedBook (npRound 5) df)) (ts.flatMap (splitT df mp)) =
        boughtValue nb (priceOf nb) ts ∧
      soldValue df (priceOf (roundedBook (npRound 5) df)) (ts.flatMap (splitT df mp)) =
        soldValue nb (priceOf nb) ts := by
  induction ts with
  | nil => exact ⟨rfl, rfl⟩
  | cons t ts ih =>
    obtain ⟨i1, i2⟩ := ih (fun t' ht' => hts t' (List.mem_cons_of_mem _ ht'))
    obtain ⟨row, ids, h1, h2, h3, h4, h5, h6⟩ := h.get (hts t List.mem_cons_self)
    have hp : ∀ t' ∈ splitT df mp t, priceOf (roundedBook (npRound 5) df) t'.bid = priceOf nb t.bid := by
      intro t' ht'
      unfold splitT at ht'
      rw [h2, Option.getD_some] at ht'
      obtain ⟨i, hi, rfl⟩ := List.mem_map.mp ht'
      obtain ⟨r, hr, _, hpr⟩ := h6 i hi
      rw [priceOf_some h1, ← hpr]
      have : (roundedBook (npRound 5) df)[i]? = some { r with price := npRound 5 r.price } := by
        rw [roundedBook_get, hr]; rfl
      rw [priceOf_some this]
    have key : ∀ side : ℕ → Bool, ((((splitT df mp t).filter (fun t => side t.bid)).map
        (fun t => t.quantity * priceOf (roundedBook (npRound 5) df) t.bid)).sum =
        (((splitT df mp t).filter (fun t => side t.bid)).map (fun t => t.quantity)).sum * priceOf nb t.bid) := by
      intro side
      rw [← List.sum_map_mul_right]
      congr 1
      apply List.map_congr_left
      intro t' ht'
      rw [hp t' (List.mem_filter.mp ht').1]
    constructor
    · have e := h.boughtQty_split (hts t List.mem_cons_self)
      unfold boughtQty at e
      unfold boughtValue at i1 ⊢
      rw [List.flatMap_cons, List.filter_append, List.map_append, List.sum_append, i1,
        key (isBuy df), e, List.filter_cons]
      split_ifs <;> simp
    · have e := h.soldQty_split (hts t List.mem_cons_self)
      unfold soldQty at e
      unfold soldValue at i2 ⊢
      rw [List.flatMap_cons, List.filter_append, List.map_append, List.sum_append, i2,
        key (isSell df), e, List.filter_cons]
      split_ifs <;> simp

end

/-! ## The front of a side -/

/-- Price and quantity of a row. -/
def pq (r : Row) : ℚ × ℚ := (r.price, r.quantity)

theorem step_pq {F F' : DF} (h : F.map pq = F'.map pq) (x : Ext) (a : ℚ) (e : Ext) :
    stepIdx x a F = stepIdx x a F' ∧ stepVal x a F e = stepVal x a F' e := by
  induction F generalizing F' a with
  | nil =>
    cases F' with
    | nil => exact ⟨rfl, rfl⟩
    | cons _ _ => simp at h
  | cons r F ih =>
    cases F' with
    | nil => simp at h
    | cons r' F' =>
      simp only [List.map_cons, List.cons.injEq, pq, Prod.mk.injEq] at h
      obtain ⟨⟨h1, h2⟩, h3⟩ := h
      obtain ⟨i1, i2⟩ := ih h3 (a + r.quantity)
      simp only [stepIdx, stepVal, h1, h2] at i1 i2 ⊢
      rw [i1, i2]
      exact ⟨rfl, rfl⟩

/-- A list whose elements with `P` come first. -/
theorem filter_first {L : DF} {P : Row → Bool} (h : L.Pairwise (fun r r' => P r' = true → P r = true)) :
    L = L.filter P ++ L.filter (fun r => !P r) := by
  induction L with
  | nil => rfl
  | cons r L ih =>
    rw [List.pairwise_cons] at h
    by_cases hr : P r = true
    · rw [List.filter_cons_of_pos hr, List.filter_cons_of_neg (by simp [hr]), List.cons_append, ← ih h.2]
    · have hall : ∀ r' ∈ L, ¬ P r' = true := fun r' hr' hP => hr (h.1 r' hr' hP)
      rw [List.filter_cons_of_neg hr, List.filter_eq_nil_iff.mpr hall, List.nil_append,
        List.filter_eq_self.mpr]
      intro r' hr'
      rcases List.mem_cons.mp hr' with rfl | hr'
      · simpa using hr
      · simpa using hall r' hr'

/-- Two sides with the same front: same marginal position, same price, same quantities in front. -/
theorem side_front {L L' : DF} {P : Row → Bool} {x e : Ext} {m : Row}
    (hL : L.Pairwise (fun r r' => P r' = true → P r = true))
    (hL' : L'.Pairwise (fun r r' => P r' = true → P r = true))
    (hm : L[stepIdx x 0 L]? = some m) (hP : P m = true)
    (hF : (L.filter P).map pq = (L'.filter P).map pq) :
    stepVal x 0 L' e = stepVal x 0 L e ∧
      (L'.take (stepIdx x 0 L')).map pq = (L.take (stepIdx x 0 L)).map pq := by
  have e1 := filter_first hL
  have e2 := filter_first hL'
  set F := L.filter P with hFd
  set F' := L'.filter P with hFd'
  have hlt : stepIdx x 0 L < F.length := by
    by_contra hge
    rw [e1, List.getElem?_append_right (by rw [← e1]; omega)] at hm
    have := List.mem_of_getElem? hm
    simp only [List.mem_filter, hP] at this
    simp at this
  have hlen : F.length = F'.length := by simpa using congrArg List.length hF
  have s1 := step_prefix (x := x) (a := 0) (U := F) (V := L.filter (fun r => !P r)) [] e (by rw [← e1]; exact hlt)
  rw [← e1, List.append_nil] at s1
  have s0 := step_pq hF x 0 e
  have s2 := step_prefix (x := x) (a := 0) (U := F') (V := []) (L'.filter (fun r => !P r)) e
    (by rw [List.append_nil, ← s0.1, s1.1, ← hlen]; exact hlt)
  rw [← e2, List.append_nil] at s2
  refine ⟨by rw [s2.2, ← s0.2, s1.2], ?_⟩
  have hidx : stepIdx x 0 L' = stepIdx x 0 L := by rw [s2.1, ← s0.1, s1.1]
  rw [hidx]
  conv_lhs => rw [e2, List.take_append_of_le_length (by omega), List.map_take, ← hF]
  conv_rhs => rw [e1, List.take_append_of_le_length (by rw [← e1]; omega), List.map_take, ← e1]

/-- The fronts of two merged tables with the same totals there. -/
theorem front_pq {L L' nb nb' df df' : DF} {mp mp' : List (List ℕ)} (hM : MergeSpec df nb mp)
    (hM' : MergeSpec df' nb' mp') {side : Bool} (P : ℚ → Bool) (lt : ℚ → ℚ → Prop)
    (hasym : ∀ a b, lt a b → ¬ lt b a)
    (hL : ∀ r, r ∈ L ↔ r ∈ nb ∧ r.buying = side) (hL' : ∀ r, r ∈ L' ↔ r ∈ nb' ∧ r.buying = side)
    (hs : L.Pairwise (fun r r' => lt r.price r'.price)) (hs' : L'.Pairwise (fun r r' => lt r.price r'.price))
    (hoff : ∀ y, P y = true → offered (npRound 5) df' side y = offered (npRound 5) df side y) :
    (L.filter (fun r => P r.price)).map pq = (L'.filter (fun r => P r.price)).map pq := by
  have sub : ∀ {nb nb' df df' : DF} {mp mp' : List (List ℕ)}, MergeSpec df nb mp → MergeSpec df' nb' mp' →
      (∀ y, P y = true → offered (npRound 5) df' side y = offered (npRound 5) df side y) →
      ∀ r ∈ nb, r.buying = side → P r.price = true →
        ∃ r' ∈ nb', r'.buying = side ∧ pq r' = pq r := by
    intro nb nb' df df' mp mp' hM hM' hoff r hr hb hp
    have h0 : offered id nb' side r.price ≠ 0 := by
      rw [← hM'.offered_eq, hoff _ hp, hM.offered_eq, hM.offered_ne_zero]
      exact ⟨r, hr, hb, rfl⟩
    obtain ⟨r', hr', hb', hp'⟩ := (hM'.offered_ne_zero _ _).mp h0
    refine ⟨r', hr', hb', ?_⟩
    have e1 := hM'.offered_row hr'
    have e2 := hM.offered_row hr
    unfold pq
    rw [← e1, ← e2, hb, hb', hp', ← hM.offered_eq, ← hM'.offered_eq, hoff _ hp]
  have hsrt : ∀ {L : DF}, L.Pairwise (fun r r' => lt r.price r'.price) →
      ((L.filter (fun r => P r.price)).map pq).Pairwise (fun a b => lt a.1 b.1) := by
    intro L hs
    rw [List.pairwise_map]
    exact hs.sublist List.filter_sublist
  have hnd : ∀ {l : List (ℚ × ℚ)}, l.Pairwise (fun a b => lt a.1 b.1) → l.Nodup := by
    intro l hl
    refine hl.imp ?_
    rintro a b h rfl
    exact hasym _ _ h h
  have hperm : ((L.filter (fun r => P r.price)).map pq).Perm ((L'.filter (fun r => P r.price)).map pq) := by
    rw [List.perm_ext_iff_of_nodup (hnd (hsrt hs)) (hnd (hsrt hs'))]
    intro a
    simp only [List.mem_map, List.mem_filter, hL, hL']
    constructor
    · rintro ⟨r, ⟨⟨h1, h2⟩, h3⟩, rfl⟩
      obtain ⟨r', a1, a2, a3⟩ := sub hM hM' hoff r h1 h2 h3
      have : r'.price = r.price := congrArg Prod.fst a3
      exact ⟨r', ⟨⟨a1, a2⟩, by rw [this]; exact h3⟩, a3⟩
    · rintro ⟨r, ⟨⟨h1, h2⟩, h3⟩, rfl⟩
      obtain ⟨r', a1, a2, a3⟩ := sub hM' hM (fun y hy => (hoff y hy).symm) r h1 h2 h3
      have : r'.price = r.price := congrArg Prod.fst a3
      exact ⟨r', ⟨⟨a1, a2⟩, by rw [this]; exact h3⟩, a3⟩
  exact hperm.eq_of_pairwise (fun a b _ _ h1 h2 => absurd h1 (hasym _ _ h2)) (hsrt hs) (hsrt hs')

/-! ## The log as a function of the quantities in front -/

theorem tradedBy_side_nil {A : DF} {qs : List ℚ} {p : ℚ} {i : ℕ} (h : ∀ r ∈ A, r.label ≠ i) :
    tradedBy (huangSideTrans A qs p) i = 0 := by
  unfold tradedBy
  rw [List.filter_eq_nil_iff.mpr]
  · rfl
  · intro t ht
    obtain ⟨⟨r, q⟩, hz, rfl⟩ := List.mem_map.mp ht
    simpa using h r (List.of_mem_zip hz).1

/-- Rows at the same price trade the same. -/
theorem tradedBy_side {A A' : DF} (h : A.map pq = A'.map pq) (hl : (A.map (fun r => r.label)).Nodup)
    (hl' : (A'.map (fun r => r.label)).Nodup) (hpr : (A.map (fun r => r.price)).Nodup) (qs : List ℚ) (p : ℚ)
    {r r' : Row} (hr : r ∈ A) (hr' : r' ∈ A') (he : r.price = r'.price) :
    tradedBy (huangSideTrans A qs p) r.label = tradedBy (huangSideTrans A' qs p) r'.label := by
  induction A generalizing A' qs with
  | nil => cases hr
  | cons a A ih =>
    cases A' with
    | nil => cases hr'
    | cons a' A' =>
      simp only [List.map_cons, List.cons.injEq, pq, Prod.mk.injEq] at h
      obtain ⟨⟨h1, h2⟩, h3⟩ := h
      rw [List.map_cons, List.nodup_cons] at hl hl' hpr
      cases qs with
      | nil => simp [huangSideTrans, tradedBy]
      | cons q qs =>
        have hcons : ∀ (b : Row) (B : DF), huangSideTrans (b :: B) (q :: qs) p =
            ⟨b.label, q, p, -1, false⟩ :: huangSideTrans B qs p := fun _ _ => rfl
        have hsplit : ∀ (b : Row) (B : DF) (i : ℕ), tradedBy (huangSideTrans (b :: B) (q :: qs) p) i =
            (if b.label = i then q else 0) + tradedBy (huangSideTrans B qs p) i := by
          intro b B i
          rw [hcons]
          unfold tradedBy
          rw [List.filter_cons]
          simp only [beq_iff_eq]
          split_ifs <;> simp
        have hprices : A.map (fun r => r.price) = A'.map (fun r => r.price) := by
          have := congrArg (List.map Prod.fst) h3
          rw [List.map_map, List.map_map] at this
          exact this
        have lab : ∀ {B : DF} {b : Row}, b.label ∉ B.map (fun r => r.label) → ∀ s ∈ B, s.label ≠ b.label := by
          intro B b hb s hs hh
          exact hb (hh ▸ List.mem_map_of_mem hs)
        rw [hsplit, hsplit]
        rcases List.mem_cons.mp hr with rfl | hr
        · rcases List.mem_cons.mp hr' with rfl | hr'
          · rw [if_pos rfl, if_pos rfl, tradedBy_side_nil (lab hl.1), tradedBy_side_nil (lab hl'.1)]
          · exfalso
            apply hpr.1
            rw [hprices, he]
            exact List.mem_map_of_mem hr'
        · rcases List.mem_cons.mp hr' with rfl | hr'
          · exfalso
            apply hpr.1
            rw [h1, ← he]
            exact List.mem_map_of_mem hr
          · rw [if_neg (fun e : a.label = r.label => lab hl.1 r hr e.symm),
              if_neg (fun e : a'.label = r'.label => lab hl'.1 r' hr' e.symm),
              ih h3 hl.2 hl'.2 hpr.2 qs hr hr']

theorem moneyOf_side (A : DF) (qs : List ℚ) (p : ℚ) (i : ℕ) :
    moneyOf (huangSideTrans A qs p) i = tradedBy (huangSideTrans A qs p) i * p := by
  unfold moneyOf tradedBy
  rw [← List.sum_map_mul_right]
  congr 1
  apply List.map_congr_left
  intro t ht
  obtain ⟨_, _, rfl⟩ := List.mem_map.mp (List.mem_filter.mp ht).1
  rfl

theorem moneyOf_append (l l' : List Transaction) (i : ℕ) : moneyOf (l ++ l') i = moneyOf l i + moneyOf l' i := by
  simp [moneyOf]

/-- The end of the auction for two pairs of fronts with the same prices and quantities. -/
theorem huangClear_pq {A A' B B' : DF} (hA : A'.map pq = A.map pq) (hB : B'.map pq = B.map pq) {ps pb q : ℚ}
    {tm : TransactionManager} (h : huangClear A B ps pb = .ok (tm, .huang (ps : Ext) (pb : Ext) q)) :
    ∃ tm', huangClear A' B' ps pb = .ok (tm', .huang (ps : Ext) (pb : Ext) q) ∧
      ((tm.trans = [] ∧ tm'.trans = []) ∨ ∃ qs qb, tm.trans = huangSideTrans A qs ps ++ huangSideTrans B qb pb ∧
        tm'.trans = huangSideTrans A' qs ps ++ huangSideTrans B' qb pb) := by
  have hq : ∀ {C C' : DF}, C'.map pq = C.map pq → C'.map (fun r => r.quantity) = C.map (fun r => r.quantity) := by
    intro C C' h
    have := congrArg (List.map Prod.snd) h
    rw [List.map_map, List.map_map] at this
    exact this
  have hnil : ∀ {C C' : DF}, C'.map pq = C.map pq → (C' = [] ↔ C = []) := by
    intro C C' h
    rw [← List.map_eq_nil_iff (f := pq), h, List.map_eq_nil_iff]
  unfold huangClear at h ⊢
  simp only [ne_eq, hnil hA, hnil hB, hq hA, hq hB, bind, Except.bind] at h ⊢
  split_ifs at h ⊢ with h1 h2
  · cases hu : updateQuantity (A.map (fun r => r.quantity))
        ((A.map (fun r => r.quantity)).sum - (B.map (fun r => r.quantity)).sum) with
    | error e => rw [hu] at h; cases h
    | ok qs =>
      rw [hu] at h
      simp only [Except.ok.injEq, Prod.mk.injEq, Extra.huang.injEq, true_and] at h ⊢
      refine ⟨_, ⟨rfl, h.2⟩, Or.inr ⟨_, _, ?_, TransactionManager.init_addAll_trans _⟩⟩
      rw [← h.1]
      exact TransactionManager.init_addAll_trans _
  · cases hu : updateQuantity (B.map (fun r => r.quantity))
        (-((A.map (fun r => r.quantity)).sum - (B.map (fun r => r.quantity)).sum)) with
    | error e => rw [hu] at h; cases h
    | ok qs =>
      rw [hu] at h
      simp only [Except.ok.injEq, Prod.mk.injEq, Extra.huang.injEq, true_and] at h ⊢
      refine ⟨_, ⟨rfl, h.2⟩, Or.inr ⟨_, _, ?_, TransactionManager.init_addAll_trans _⟩⟩
      rw [← h.1]
      exact TransactionManager.init_addAll_trans _
  · simp only [Except.ok.injEq, Prod.mk.injEq, Extra.huang.injEq, true_and] at h ⊢
    refine ⟨_, ⟨rfl, h.2⟩, Or.inl ⟨?_, rfl⟩⟩
    rw [← h.1]
    rfl

end PyMarket
