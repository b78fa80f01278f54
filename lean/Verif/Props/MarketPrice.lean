import Verif.Props.Comparative
import Verif.Props.HuangQuantity
import Verif.Lemmas.HuangReport
import Verif.Props.Muda
import Verif.Lemmas.Uniform

/-! # C119: quantities and prices in terms of the bids alone -/

set_option autoImplicit false

namespace PyMarket

open Spec

/-- `b` is the last buyer and `a` the last seller needed to trade `x`, they are compatible, and nothing more
than `x` can be traded between compatible bids. Two clauses are due to the code: the last pair must have
different prices, and as the demand curve ends at price 0, no more than `x` may be offered for nothing. -/
structure Spec.MarginalPair (df : DF) (x : ℚ) (b a : Row) : Prop where
  pos : 0 < x
  buyer : b ∈ df ∧ b.buying = true
  seller : a ∈ df ∧ a.buying = false
  lt : a.price < b.price
  last_buyer : demandQtyAbove df b.price < x ∧ x ≤ demandQty df b.price
  last_seller : supplyQtyBelow df a.price < x ∧ x ≤ supplyQty df a.price
  no_more : ∀ b' ∈ df, ∀ a' ∈ df, b'.buying = true → a'.buying = false → a'.price ≤ b'.price →
    min (demandQty df b'.price) (supplyQty df a'.price) ≤ x
  free : supplyQty df 0 ≤ x

/-- The price of a marginal pair: the price of the one whose bid is not used up; the mean if both are. -/
def Spec.pairPrice (df : DF) (x : ℚ) (b a : Row) : ℚ :=
  if x = demandQty df b.price then
    if x = supplyQty df a.price then (a.price + b.price) / 2 else a.price
  else b.price

section

variable {S : Sorter} {df : DF}

theorem crossing_iff_pair (h : Pos df) (x : ℚ) : Crossing S df x ↔ ∃ b a, MarginalPair df x b a := by
  have hq : ∀ r ∈ df, 0 ≤ r.quantity := fun r hr => (h r hr).1.le
  have hp : ∀ r ∈ df, 0 ≤ r.price := fun r hr => (h r hr).2
  constructor
  · intro hc
    have hx := crossing_pos h hc
    obtain ⟨b, hb, hbd⟩ := hc.marginal_buy h.nonNeg
    obtain ⟨a, ha, has⟩ := hc.marginal_sell
    have hb' := mem_buys.mp (mem_sortDesc.mp (List.mem_of_getElem? hb))
    have ha' := mem_sells.mp (mem_sortAsc.mp (List.mem_of_getElem? ha))
    have hlt : a.price < b.price := by
      have := hc.at_x
      rw [hbd, has] at this
      exact WithTop.coe_lt_coe.mp this
    have hb0 : 0 < b.price := lt_of_le_of_lt (hp a ha'.1) hlt
    refine ⟨b, a, hx, hb', ha', hlt, ⟨?_, ?_⟩, ⟨?_, ?_⟩, ?_, ?_⟩
    · rw [← not_le, ← demandAt_galois_lt S hq hx hb0.le, hbd]
      exact lt_irrefl _
    · rw [← demandAt_galois S hq hx hb0, hbd]
    · rw [← not_le, ← supplyAt_galois_lt S hq hx, has]
      exact lt_irrefl _
    · rw [← supplyAt_galois S hq hx, has]
    · intro b' hb1 a' ha1 hb2 ha2 hle
      by_contra hlt'
      rw [not_le] at hlt'
      have hz0 := hx.trans hlt'
      have h1 := hc.above _ (WithTop.coe_lt_coe.mpr hlt')
      have h2 := (supplyAt_galois S hq hz0 (p := a'.price)).mpr (min_le_right _ _)
      rcases eq_or_lt_of_le (hp b' hb1) with h0 | h0
      · have h3 := demandAt_nonneg S hp (((min (demandQty df b'.price) (supplyQty df a'.price) : ℚ)) : Ext)
        have h4 := WithTop.coe_lt_coe.mp (lt_of_le_of_lt h3 (lt_of_lt_of_le h1 h2))
        linarith
      · have h3 := (demandAt_galois S hq hz0 h0).mpr (min_le_left _ _)
        have h4 := WithTop.coe_lt_coe.mp (lt_of_le_of_lt h3 (lt_of_lt_of_le h1 h2))
        linarith
    · by_contra hlt'
      rw [not_le] at hlt'
      have h1 := hc.above _ (WithTop.coe_lt_coe.mpr hlt')
      have h2 := (supplyAt_galois S hq (hx.trans hlt') (p := 0)).mpr le_rfl
      exact absurd (lt_of_lt_of_le h1 h2) (not_lt.mpr (demandAt_nonneg S hp _))
  · rintro ⟨b, a, hm⟩
    have hb0 : 0 < b.price := lt_of_le_of_lt (hp a hm.seller.1) hm.lt
    refine crossing_of h.nonNeg hm.pos.le ?_ ?_
    · refine lt_of_le_of_lt ((supplyAt_galois S hq hm.pos).mpr hm.last_seller.2)
        (lt_of_lt_of_le (WithTop.coe_lt_coe.mpr hm.lt) ((demandAt_galois S hq hm.pos hb0).mpr hm.last_buyer.2))
    · intro z hz
      induction z using WithTop.recTopCoe with
      | top => rw [demandAt_top, supplyAt_top]; exact WithTop.coe_lt_top _
      | coe z =>
        have hz' : x < z := WithTop.coe_lt_coe.mp hz
        have hz0 := hm.pos.trans hz'
        by_contra hle
        rw [not_lt] at hle
        have main : ∀ s d : ℚ, supplyAt S df z = (s : Ext) → demandAt S df z = (d : Ext) → d ≤ 0 → False := by
          intro s d hs hd h0
          rw [hs, hd] at hle
          have := WithTop.coe_le_coe.mp hle
          have h1 := (supplyAt_galois S hq hz0 (p := 0)).mp
            (by rw [hs]; exact WithTop.coe_le_coe.mpr (by linarith))
          have := hm.free
          linarith
        obtain ⟨d, hd⟩ := demand_fin S df (z : Ext)
        rcases stepVal_mem (z : Ext) 0 (sortAsc S (sells df)) ⊤ with h1 | ⟨a', ha', h1⟩
        · change supplyAt S df z = _ at h1
          rw [h1, hd] at hle
          exact absurd hle (by simp)
        change supplyAt S df z = _ at h1
        have ha1 := mem_sells.mp (mem_sortAsc.mp ha')
        rcases stepVal_mem (z : Ext) 0 (sortDesc S (buys df)) ((0 : ℚ) : Ext) with h2 | ⟨b', hb', h2⟩
        · exact main _ _ h1 h2 le_rfl
        change demandAt S df z = _ at h2
        have hb1 := mem_buys.mp (mem_sortDesc.mp hb')
        rcases le_or_gt b'.price 0 with h0 | h0
        · exact main _ _ h1 h2 h0
        have h3 := (demandAt_galois S hq hz0 h0).mp h2.ge
        have h4 := (supplyAt_galois S hq hz0).mp h1.le
        rw [h1, h2] at hle
        have := hm.no_more b' hb1.1 a' ha1.1 hb1.2 ha1.2 (WithTop.coe_le_coe.mp hle)
        have := le_min h3 h4
        linarith

/-- The prices of the curves at the quantity of a marginal pair. -/
theorem pair_prices (h : Pos df) {x : ℚ} {b a : Row} (hm : MarginalPair df x b a) :
    demandAt S df x = ((b.price : ℚ) : Ext) ∧ supplyAt S df x = ((a.price : ℚ) : Ext) := by
  have hq : ∀ r ∈ df, 0 ≤ r.quantity := fun r hr => (h r hr).1.le
  have hb0 : 0 < b.price := lt_of_le_of_lt (h a hm.seller.1).2 hm.lt
  constructor <;> apply le_antisymm
  · rw [← not_lt, demandAt_galois_lt S hq hm.pos hb0.le, not_le]
    exact hm.last_buyer.1
  · rw [demandAt_galois S hq hm.pos hb0]
    exact hm.last_buyer.2
  · rw [supplyAt_galois S hq hm.pos]
    exact hm.last_seller.2
  · rw [← not_lt, supplyAt_galois_lt S hq hm.pos, not_le]
    exact hm.last_seller.1

/-- Past a breakpoint a curve without equal prices has another value. -/
theorem stepVal_ne {a : ℚ} {rows : DF} {e x z : Ext} (hs : rows.Pairwise (fun r s => r.price ≠ s.price))
    (hq : ∀ r ∈ rows, 0 ≤ r.quantity) (hx : x ∈ (stepCurve a rows e).map Prod.fst) (hz : x < z)
    (he : stepVal x a rows e ≠ e) : stepVal z a rows e ≠ stepVal x a rows e := by
  induction rows generalizing a with
  | nil => exact absurd rfl he
  | cons r rows ih =>
    have ih := ih (a := a + r.quantity) hs.of_cons (fun r' hr' => hq r' (List.mem_cons_of_mem _ hr'))
    rcases lt_trichotomy x ((a + r.quantity : ℚ) : Ext) with hlt | heq | hgt
    · exfalso
      simp only [stepCurve, List.map_cons, List.mem_cons] at hx
      rcases hx with hx | hx
      · exact absurd hx hlt.ne
      · obtain ⟨s, hs', rfl⟩ := List.mem_map.mp hx
        exact absurd (stepCurve_fst_ge (fun r' hr' => hq r' (List.mem_cons_of_mem _ hr')) hs') (not_le.mpr hlt)
    · have h1 : stepVal x a (r :: rows) e = ((r.price : ℚ) : Ext) := by simp only [stepVal]; rw [if_pos heq.le]
      have h2 : stepVal z a (r :: rows) e = stepVal z (a + r.quantity) rows e := by
        simp only [stepVal]
        rw [if_neg (not_le.mpr (heq ▸ hz))]
      rw [h1] at he
      rw [h1, h2]
      rcases stepVal_mem z (a + r.quantity) rows e with h3 | ⟨r', hr', h3⟩ <;> rw [h3]
      · exact he.symm
      · intro h4
        exact (List.pairwise_cons.mp hs).1 r' hr' (WithTop.coe_injective h4).symm
    · have h1 : stepVal x a (r :: rows) e = stepVal x (a + r.quantity) rows e := by
        simp only [stepVal]; rw [if_neg (not_le.mpr hgt)]
      have h2 : stepVal z a (r :: rows) e = stepVal z (a + r.quantity) rows e := by
        simp only [stepVal]; rw [if_neg (not_le.mpr (hgt.trans hz))]
      rw [h1] at he
      rw [h1, h2]
      apply ih _ he
      simp only [stepCurve, List.map_cons, List.mem_cons] at hx
      exact hx.resolve_left hgt.ne'

theorem sortDesc_ne (hnd : df.Nodup) (hd : DistinctPrices df) :
    (sortDesc S (buys df)).Pairwise (fun r s => r.price ≠ s.price) := by
  have hn : (sortDesc S (buys df)).Nodup := by
    rw [(sortDesc_perm S (buys df)).nodup_iff]
    exact hnd.sublist List.filter_sublist
  refine hn.imp_of_mem (fun {a b} ha hb hab he => hab ?_)
  have h1 := mem_buys.mp (mem_sortDesc.mp ha)
  have h2 := mem_buys.mp (mem_sortDesc.mp hb)
  exact hd a h1.1 b h2.1 (h1.2.trans h2.2.symm) he

theorem sortAsc_ne (hnd : df.Nodup) (hd : DistinctPrices df) :
    (sortAsc S (sells df)).Pairwise (fun r s => r.price ≠ s.price) := by
  have hn : (sortAsc S (sells df)).Nodup := by
    rw [(sortAsc_perm S (sells df)).nodup_iff]
    exact hnd.sublist List.filter_sublist
  refine hn.imp_of_mem (fun {a b} ha hb hab he => hab ?_)
  have h1 := mem_sells.mp (mem_sortAsc.mp ha)
  have h2 := mem_sells.mp (mem_sortAsc.mp hb)
  exact hd a h1.1 b h2.1 (h1.2.trans h2.2.symm) he

theorem demand_steps (h : Pos df) (hnd : df.Nodup) (hd : DistinctPrices df) {x : ℚ} {b a : Row}
    (hm : MarginalPair df x b a) :
    (x : Ext) ∈ (demandCurve S df).1.map Prod.fst ↔ x = demandQty df b.price := by
  have hq : ∀ r ∈ df, 0 ≤ r.quantity := fun r hr => (h r hr).1.le
  have hb0 : 0 < b.price := lt_of_le_of_lt (h a hm.seller.1).2 hm.lt
  have hD := (pair_prices (S := S) h hm).1
  constructor
  · intro hx
    by_contra hne
    have hlt := lt_of_le_of_ne hm.last_buyer.2 hne
    have h1 := (demandAt_galois S hq (hm.pos.trans hlt) hb0).mpr le_rfl
    have h2 := demandAt_antitone S (fun r hr => (h r hr).2) (WithTop.coe_le_coe.mpr hlt.le)
    rw [hD] at h2
    rw [demandCurve_eq] at hx
    refine stepVal_ne (sortDesc_ne hnd hd) (fun r hr => hq r (mem_buys.mp (mem_sortDesc.mp hr)).1) hx
      (WithTop.coe_lt_coe.mpr hlt) ?_ ?_
    · change demandAt S df x ≠ _
      rw [hD]
      exact fun h0 => hb0.ne' (WithTop.coe_injective h0)
    · change demandAt S df _ = demandAt S df x
      rw [hD]
      exact le_antisymm h2 h1
  · intro hx
    by_contra hn
    obtain ⟨y, hxy, hy⟩ := demandAt_stays hn
    have h1 := hy y hxy.le le_rfl
    rw [hD] at h1
    have := (demandAt_galois S hq (hm.pos.trans hxy) hb0).mp h1.le
    linarith

theorem supply_steps (h : Pos df) (hnd : df.Nodup) (hd : DistinctPrices df) {x : ℚ} {b a : Row}
    (hm : MarginalPair df x b a) :
    (x : Ext) ∈ (supplyCurve S df).1.map Prod.fst ↔ x = supplyQty df a.price := by
  have hq : ∀ r ∈ df, 0 ≤ r.quantity := fun r hr => (h r hr).1.le
  have hS := (pair_prices (S := S) h hm).2
  constructor
  · intro hx
    by_contra hne
    have hlt := lt_of_le_of_ne hm.last_seller.2 hne
    have h1 := (supplyAt_galois S hq (hm.pos.trans hlt)).mpr (le_refl (supplyQty df a.price))
    have h2 := supplyAt_monotone S df (WithTop.coe_le_coe.mpr hlt.le)
    rw [hS] at h2
    rw [supplyCurve_eq] at hx
    refine stepVal_ne (sortAsc_ne hnd hd) (fun r hr => hq r (mem_sells.mp (mem_sortAsc.mp hr)).1) hx
      (WithTop.coe_lt_coe.mpr hlt) ?_ ?_
    · change supplyAt S df x ≠ _
      rw [hS]
      exact WithTop.coe_ne_top
    · change supplyAt S df _ = supplyAt S df x
      rw [hS]
      exact le_antisymm h1 h2
  · intro hx
    by_contra hn
    obtain ⟨y, hxy, hy⟩ := supplyAt_stays hn
    have h1 := hy y hxy.le le_rfl
    rw [hS] at h1
    have := (supplyAt_galois S hq (hm.pos.trans hxy)).mp h1.ge
    linarith

theorem crossPrice_pair (h : Pos df) (hnd : df.Nodup) (hd : DistinctPrices df) {x : ℚ} {b a : Row}
    (hm : MarginalPair df x b a) : crossPrice S df (1 / 2) x = .fin (pairPrice df x b a) := by
  obtain ⟨hD, hS⟩ := pair_prices (S := S) h hm
  have hc := (crossing_iff_pair (S := S) h x).mpr ⟨b, a, hm⟩
  have mD := demand_steps (S := S) h hnd hd hm
  have mS := supply_steps (S := S) h hnd hd hm
  unfold crossPrice pairPrice
  rw [hD, hS]
  by_cases h1 : x = demandQty df b.price
  · by_cases h2 : x = supplyQty df a.price
    · rw [if_pos ⟨mD.mpr h1, mS.mpr h2⟩, if_pos h1, if_pos h2, kMix_fin]
      congr 1
      ring
    · rw [if_neg (fun h' => h2 (mS.mp h'.2)), if_pos (mD.mpr h1), if_pos h1, if_neg h2]
      rfl
  · rw [if_neg (fun h' => h1 (mD.mp h'.1)), if_neg (fun h' => h1 (mD.mp h')), if_neg h1]
    rfl

/-- `find_competitive_price` in terms of the bids. -/
theorem competitive_iff (h : Pos df) (hnd : df.Nodup) (hd : DistinctPrices df) {v : Val}
    (hv : findCompetitivePrice S df = .ok v) :
    (∀ p, v = .fin p ↔ ∃ x b a, MarginalPair df x b a ∧ p = pairPrice df x b a) ∧
      (v = .inf ↔ ¬ ∃ x b a, MarginalPair df x b a) := by
  unfold findCompetitivePrice at hv
  rcases intersect_cases S h.nonNeg (1 / 2) with ⟨x, hc, he⟩ | ⟨he, hno⟩
  · obtain ⟨b, a, hm⟩ := (crossing_iff_pair h x).mp hc
    have hp := crossPrice_pair (S := S) h hnd hd hm
    rw [he] at hv
    change Except.ok _ = _ at hv
    cases hv
    simp only
    rw [hp]
    refine ⟨fun p => ⟨fun h1 => ⟨x, b, a, hm, ?_⟩, ?_⟩, ⟨fun h1 => (by cases h1), fun h1 => absurd ⟨x, b, a, hm⟩ h1⟩⟩
    · cases h1; rfl
    · rintro ⟨x', b', a', hm', rfl⟩
      obtain rfl := ((crossing_iff_pair (S := S) h x').mpr ⟨b', a', hm'⟩).unique hc
      rw [← hp, crossPrice_pair (S := S) h hnd hd hm']
  · rw [he] at hv
    have hv' : v = .inf := by
      change Except.ok _ = _ at hv
      cases hv
      have : Val.scale (1 / 2) (⊤ : Ext) = .inf := by
        change (if (0 : ℚ) < 1 / 2 then Val.inf else _) = _
        rw [if_pos (by norm_num)]
      change kMix _ _ _ = _
      unfold kMix
      rw [this]; rfl
    have hnone : ¬ ∃ x b a, MarginalPair df x b a := by
      rintro ⟨x, b, a, hm⟩
      have hc := (crossing_iff_pair (S := S) h x).mpr ⟨b, a, hm⟩
      exact hno ⟨⟨x, WithTop.coe_le_coe.mpr hc.nonneg, hc.at_x⟩, fun z _ => hc.no_tie h.nonNeg z⟩
    subst hv'
    refine ⟨fun p => ⟨fun h1 => (by cases h1), ?_⟩, ⟨fun _ => hnone, fun _ => rfl⟩⟩
    rintro ⟨x, b, a, hm, _⟩
    exact absurd ⟨x, b, a, hm⟩ hnone

end

/-- **C119, quantity.** On a book with positive quantities `intersect_stepwise` finds `x` exactly when some pair
of bids is marginal at `x`. -/
theorem C119_intersection (S : Sorter) (df : DF) (h : Pos df) (k : ℚ) (i : Intersection)
    (hi : intersectStepwise (demandCurve S df).1 (supplyCurve S df).1 k = .ok i) (x : ℚ) :
    i.x = some (x : Ext) ↔ ∃ b a, MarginalPair df x b a := by
  rw [← crossing_iff_pair (S := S) h x]
  constructor
  · intro hx
    obtain ⟨x', he, hc, _⟩ := intersect_some h.nonNeg hi hx
    obtain rfl := WithTop.coe_injective he
    exact hc
  · intro hc
    rcases intersect_cases S h.nonNeg k with ⟨y, hc', he⟩ | ⟨_, hno⟩
    · rw [he] at hi
      cases hi
      rw [hc.unique hc']
    · exact absurd ⟨⟨x, WithTop.coe_le_coe.mpr hc.nonneg, hc.at_x⟩, fun z _ => hc.no_tie h.nonNeg z⟩ hno

/-- **C119.** The quantity and the two prices of a marginal pair are determined by the book. -/
theorem C119_unique (df : DF) (h : Pos df) (x x' : ℚ) (b a b' a' : Row) (hm : MarginalPair df x b a)
    (hm' : MarginalPair df x' b' a') : x = x' ∧ b.price = b'.price ∧ a.price = a'.price := by
  obtain rfl := ((crossing_iff_pair (S := stableSorter) h x').mpr ⟨b', a', hm'⟩).unique
    ((crossing_iff_pair (S := stableSorter) h x).mpr ⟨b, a, hm⟩)
  obtain ⟨h1, h2⟩ := pair_prices (S := stableSorter) h hm
  obtain ⟨h3, h4⟩ := pair_prices (S := stableSorter) h hm'
  exact ⟨rfl, WithTop.coe_injective (h1.symm.trans h3), WithTop.coe_injective (h2.symm.trans h4)⟩

/-- **C119, `huang_auction`.** Its prices are the prices of the marginal pair; without one it returns nothing. -/
theorem C119_huang (S : Sorter) (df : DF) (h : Pos df) (tm : TransactionManager) (ex : Extra)
    (hrun : huangAuction S df = .ok (tm, ex)) :
    (∀ x b a, MarginalPair df x b a →
      ∃ q, ex = .huang ((a.price : ℚ) : Ext) ((b.price : ℚ) : Ext) q) ∧
    ((¬ ∃ x b a, MarginalPair df x b a) → ex = .empty ∧ tm.trans = []) := by
  constructor
  · intro x b a hm
    have hc := (crossing_iff_pair (S := S) h x).mpr ⟨b, a, hm⟩
    obtain ⟨hD, hS⟩ := pair_prices (S := S) h hm
    rcases huang_cases S h.nonNeg with ⟨_, hno⟩ | ⟨x', ps, pb, hc', hps, hpb, _, hcase⟩
    · exact absurd ⟨⟨x, WithTop.coe_le_coe.mpr hc.nonneg, hc.at_x⟩, fun z _ => hc.no_tie h.nonNeg z⟩ hno
    · obtain rfl := hc'.unique hc
      rw [hD] at hpb
      rw [hS] at hps
      rw [hpb, hps]
      rcases hcase with ⟨_, _, cs, cb, _, _, _, _, _, heq⟩ | ⟨_, heq⟩ <;>
      · rw [hrun] at heq
        cases heq
        exact ⟨_, rfl⟩
  · intro hno'
    rcases huang_cases S h.nonNeg with ⟨heq, _⟩ | ⟨x', ps, pb, hc', _⟩
    · rw [hrun] at heq
      cases heq
      exact ⟨rfl, rfl⟩
    · obtain ⟨b, a, hm⟩ := (crossing_iff_pair h x').mp hc'
      exact absurd ⟨x', b, a, hm⟩ hno'

/-- **C119, `muda`.** The price of a half is the price of the marginal pair among its bids, and infinite when it
has none. -/
theorem C119_muda (S : Sorter) (coin : ℕ → Bool) (df : DF) (ht : IsTable df) (h : Pos df) (hd : DistinctPrices df)
    (tm : TransactionManager) (left right : List ℕ) (pl pr : Val) (fees : List ℚ)
    (hrun : muda S coin df = .ok (tm, .muda left right pl pr fees)) :
    (∀ p, pl = .fin p ↔ ∃ x b a, MarginalPair (half df left) x b a ∧ p = pairPrice (half df left) x b a) ∧
    (pl = .inf ↔ ¬ ∃ x b a, MarginalPair (half df left) x b a) ∧
    (∀ p, pr = .fin p ↔ ∃ x b a, MarginalPair (half df right) x b a ∧ p = pairPrice (half df right) x b a) ∧
    (pr = .inf ↔ ¬ ∃ x b a, MarginalPair (half df right) x b a) := by
  have hr := muda_run' ht hrun
  have hp : ∀ ids, Pos (half df ids) := fun ids r hr' => h r (List.mem_filter.mp hr').1
  have hd' : ∀ ids, DistinctPrices (half df ids) := fun ids a ha b hb =>
    hd a (List.mem_filter.mp ha).1 b (List.mem_filter.mp hb).1
  have hn : ∀ ids, (half df ids).Nodup := fun ids => (List.Nodup.of_map _ ht.nodup).sublist List.filter_sublist
  obtain ⟨h1, h2⟩ := competitive_iff (hp left) (hn left) (hd' left) hr.priceLeft
  obtain ⟨h3, h4⟩ := competitive_iff (hp right) (hn right) (hd' right) hr.priceRight
  exact ⟨h1, h2, h3, h4⟩

/-- **C119, uniform price of the documentation.** The mechanism succeeds exactly when there is a marginal pair,
and then reports its quantity and price, and every transaction is at that price. -/
theorem C119_uniform (S : Sorter) (df : DF) (ht : IsTable df) (h : Pos df) (hd : DistinctPrices df) :
    (∀ x b a, MarginalPair df x b a → ∃ tm, uniformPrice S df =
        .ok (tm, some (x : Ext), .fin (pairPrice df x b a)) ∧
      ∀ t ∈ tm.trans, t.price = pairPrice df x b a) ∧
    ((¬ ∃ x b a, MarginalPair df x b a) → uniformPrice S df = .error .typeError) := by
  have hnd : df.Nodup := List.Nodup.of_map _ ht.nodup
  constructor
  · intro x b a hm
    have hc := (crossing_iff_pair (S := S) h x).mpr ⟨b, a, hm⟩
    obtain ⟨mb, ms, p, _, _, _, _, hp, _, _, _, _, _, _, he⟩ := uniform_eval S h.nonNeg hc
    rw [crossPrice_pair (S := S) h hnd hd hm] at hp
    cases hp
    refine ⟨_, he, ?_⟩
    have key : ∀ (rows : DF) (m : Row) (p : ℚ), ∀ t ∈ servedTrans rows m x p, t.price = p := by
      intro rows m p t htr
      unfold servedTrans at htr
      rcases List.mem_append.mp htr with htr | htr
      · obtain ⟨r, _, rfl⟩ := List.mem_map.mp htr
        rfl
      · rw [List.mem_singleton.mp htr]
    rw [TransactionManager.init_addAll_trans]
    intro t htr
    split_ifs at htr <;> rcases List.mem_append.mp htr with htr | htr <;> exact key _ _ _ t htr
  · intro hno'
    rcases intersect_cases S h.nonNeg (1 / 2) with ⟨y, hc', he⟩ | ⟨he, _⟩
    · obtain ⟨b, a, hm⟩ := (crossing_iff_pair h y).mp hc'
      exact absurd ⟨y, b, a, hm⟩ hno'
    · unfold uniformPrice
      simp only [he]
      rfl

/-- Cases that meet the hypotheses: a book on which the marginal seller (bid 3) is not used up, one on which
neither is left with anything, and one on which free supply exceeds the demand, so that there is no pair. -/
def pairBook : DF := labelFrom 0 [⟨3, 10, 0, true, 0, true⟩, ⟨2, 7, 1, true, 0, true⟩,
  ⟨1, 1, 2, false, 0, true⟩, ⟨6, 4, 3, false, 0, true⟩]

@[inherit_doc pairBook]
def pairBook2 : DF := labelFrom 0 [⟨3, 10, 0, true, 0, true⟩, ⟨2, 7, 1, true, 0, true⟩,
  ⟨5, 4, 2, false, 0, true⟩]

@[inherit_doc pairBook]
def pairBook3 : DF := labelFrom 0 [⟨3, 10, 0, true, 0, true⟩, ⟨5, 0, 1, false, 0, true⟩]

example : MarginalPair pairBook 5 ⟨⟨2, 7, 1, true, 0, true⟩, 1⟩ ⟨⟨6, 4, 3, false, 0, true⟩, 3⟩ ∧
    pairPrice pairBook 5 ⟨⟨2, 7, 1, true, 0, true⟩, 1⟩ ⟨⟨6, 4, 3, false, 0, true⟩, 3⟩ = 4 ∧
    MarginalPair pairBook2 5 ⟨⟨2, 7, 1, true, 0, true⟩, 1⟩ ⟨⟨5, 4, 2, false, 0, true⟩, 2⟩ ∧
    pairPrice pairBook2 5 ⟨⟨2, 7, 1, true, 0, true⟩, 1⟩ ⟨⟨5, 4, 2, false, 0, true⟩, 2⟩ = 11 / 2 ∧
    Pos pairBook ∧ Pos pairBook2 ∧ DistinctPrices pairBook ∧ DistinctPrices pairBook2 := by
  refine ⟨⟨by decide +kernel, by decide +kernel, by decide +kernel, by decide +kernel, by decide +kernel,
    by decide +kernel, by decide +kernel, by decide +kernel⟩, by decide +kernel,
    ⟨by decide +kernel, by decide +kernel, by decide +kernel, by decide +kernel, by decide +kernel,
    by decide +kernel, by decide +kernel, by decide +kernel⟩, by decide +kernel, by decide +kernel,
    by decide +kernel, ?_, ?_⟩
  · unfold DistinctPrices; decide +kernel
  · unfold DistinctPrices; decide +kernel

/-- Trading 3 units would be best here, but no pair is marginal and `huang_auction` does nothing. -/
example : Pos pairBook3 ∧ ¬ (∃ x b a, MarginalPair pairBook3 x b a) ∧
    (huangAuction stableSorter pairBook3).toOption.map (fun o => o.1.trans) = some [] := by
  refine ⟨by decide +kernel, ?_, by decide +kernel⟩
  rintro ⟨x, b, a, hm⟩
  have h1 := hm.free
  have h2 := hm.last_buyer.2
  have h3 : supplyQty pairBook3 0 = 5 := by decide +kernel
  have h4 : demandQty pairBook3 b.price ≤ 3 := by
    unfold demandQty pairBook3
    simp only [labelFrom, List.filter_cons, List.filter_nil, Bool.true_and, Bool.false_and]
    split_ifs <;> simp_all
  linarith

end PyMarket
