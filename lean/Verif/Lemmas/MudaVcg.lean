import Verif.Lemmas.MudaFees

/-! # A MUDA half as a Vickrey auction of the opposite side's quantity

Seen from one side (long or short), a half gives the side's willing bids the best use of the
quantity the opposite side is willing to trade, and charges externalities. -/

set_option autoImplicit false

namespace PyMarket

open Spec

variable {S : Sorter}

/-- The bids of one side (buyers if `b`) that accept the price. -/
def willingOf (H : DF) (b : Bool) (p : ℚ) : DF := if b then willingBuyers H p else willingSellers H p

theorem mem_willingOf {H : DF} {b : Bool} {p : ℚ} {r : Row} :
    r ∈ willingOf H b p ↔ r ∈ H ∧ r.buying = b ∧ 0 ≤ unitGain p r := by
  unfold willingOf unitGain
  cases b
  · simp only [Bool.false_eq_true, if_false, willingSellers, List.mem_filter, Bool.and_eq_true,
      Bool.not_eq_true', decide_eq_true_eq]
    constructor
    · rintro ⟨h1, h2, h3⟩; refine ⟨h1, h2, ?_⟩; rw [h2]; simpa using h3
    · rintro ⟨h1, h2, h3⟩; refine ⟨h1, h2, ?_⟩; rw [h2] at h3; simpa using h3
  · simp only [if_true, willingBuyers, List.mem_filter, Bool.and_eq_true, decide_eq_true_eq]
    constructor
    · rintro ⟨h1, h2, h3⟩; refine ⟨h1, h2, ?_⟩; rw [h2]; simpa using h3
    · rintro ⟨h1, h2, h3⟩; refine ⟨h1, h2, ?_⟩; rw [h2] at h3; simpa using h3

theorem willingOf_eq (H : DF) (b : Bool) (p : ℚ) :
    willingOf H b p = H.filter (fun r => decide (r.buying = b) && decide (0 ≤ unitGain p r)) := by
  unfold willingOf willingBuyers willingSellers unitGain
  cases b
  · simp only [Bool.false_eq_true, if_false]
    apply List.filter_congr
    intro r _
    cases hb : r.buying <;> simp
  · simp only [if_true]
    apply List.filter_congr
    intro r _
    cases hb : r.buying <;> simp

theorem volumeAt_willingOf (H : DF) (b : Bool) (p : ℚ) :
    volumeAt H p = min (qsum (willingOf H b p)) (qsum (willingOf H (!b) p)) := by
  unfold willingOf volumeAt
  cases b
  · simp only [Bool.false_eq_true, if_false, Bool.not_false, if_true]
    exact min_comm _ _
  · rfl

/-- When everything fits, trading everything is best. -/
theorem full_isGreatest {L : DF} {p Q : ℚ} (hq : ∀ r ∈ L, 0 ≤ r.quantity)
    (hg : ∀ r ∈ L, 0 ≤ unitGain p r) (hle : qsum L ≤ Q) {ts : List Transaction}
    (hf : ∀ r ∈ L, tradedBy ts r.label = r.quantity) :
    IsGreatest (CouldGain L p Q) (gainIn L p ts) := by
  constructor
  · refine ⟨tradedBy ts, ?_, ?_, rfl⟩
    · intro r hr; rw [hf r hr]; exact ⟨hq r hr, le_refl _⟩
    · rw [List.map_congr_left hf]; exact hle
  · rintro x ⟨a, ha, _, rfl⟩
    unfold gainIn
    apply List.sum_le_sum
    intro r hr
    rw [hf r hr]
    exact mul_le_mul_of_nonneg_left (ha r hr).2 (hg r hr)

/-- One side of a half. -/
structure Vcg (H : DF) (b : Bool) (p : ℚ) (ts : List Transaction) : Prop where
  bound : ∀ r ∈ willingOf H b p, 0 ≤ tradedBy ts r.label ∧ tradedBy ts r.label ≤ r.quantity
  total : ((willingOf H b p).map (fun r => tradedBy ts r.label)).sum ≤ qsum (willingOf H (!b) p)
  best : IsGreatest (CouldGain (willingOf H b p) p (qsum (willingOf H (!b) p)))
    (gainIn (willingOf H b p) p ts)
  zero : ∀ r ∈ H, r.buying = b → unitGain p r < 0 → tradedBy ts r.label = 0
  fee : ∀ (u : ℤ) (x : ℚ), (∀ r ∈ H, r.user = u → r.buying = b) →
    ((TradesLong H p ts u ∧ IsExternality H p ts u x) ∨ (¬ TradesLong H p ts u ∧ x = 0)) →
    ∃ W, IsGreatest (CouldGain (others (willingOf H b p) u) p (qsum (willingOf H (!b) p))) W ∧
      x = W - gainIn (others (willingOf H b p) u) p ts

theorem longSide_willingOf (H : DF) (b : Bool) (p : ℚ) :
    (longSide H p = willingOf H b p ∧ qsum (willingOf H (!b) p) ≤ qsum (willingOf H b p)) ∨
    (longSide H p = willingOf H (!b) p ∧ qsum (willingOf H b p) ≤ qsum (willingOf H (!b) p)) := by
  unfold longSide willingOf
  by_cases h : ((willingBuyers H p).map (fun r => r.quantity)).sum <
    ((willingSellers H p).map (fun r => r.quantity)).sum
  · cases b
    · left; simp only [if_pos h, Bool.false_eq_true, if_false, Bool.not_false, if_true, true_and]
      exact h.le
    · right; simp only [if_pos h, Bool.not_true, Bool.false_eq_true, if_false, if_true, true_and]
      exact h.le
  · cases b
    · right; simp only [if_neg h, Bool.false_eq_true, if_false, Bool.not_false, if_true, true_and]
      exact not_lt.mp h
    · left; simp only [if_neg h, Bool.not_true, Bool.false_eq_true, if_false, if_true, true_and]
      exact not_lt.mp h

theorem HalfTrade.willing_bound {H : DF} (hn : (H.map (fun r => r.label)).Nodup) {p : ℚ}
    {ts : List Transaction} (hh : HalfTrade S H p ts) (b : Bool) :
    (∀ r ∈ willingOf H b p, 0 ≤ tradedBy ts r.label ∧ tradedBy ts r.label ≤ r.quantity) ∧
    ((willingOf H b p).map (fun r => tradedBy ts r.label)).sum = volumeAt H p ∧
    (volumeAt H p = qsum (willingOf H b p) →
      ∀ r ∈ willingOf H b p, tradedBy ts r.label = r.quantity) := by
  cases b
  · obtain ⟨tl, os, es⟩ := hh.tradedBy_sell hn
    have hp := willingSupply_perm S H p
    change _ ∧ ((willingSellers H p).map _).sum = _ ∧ (_ = qsum (willingSellers H p) → _)
    refine ⟨?_, ?_, ?_⟩
    · intro r hr
      have hm := hp.mem_iff.mpr hr
      rw [es r hm]; exact os.bound r hm
    · rw [← halfQty_eq S, ← os.total]
      refine ((hp.map (fun r => tradedBy ts r.label)).sum_eq).symm.trans ?_
      congr 1
      exact List.map_congr_left es
    · intro hv r hr
      have hm := hp.mem_iff.mpr hr
      rw [es r hm]
      exact os.full (by rw [halfQty_eq, hv]; exact (qsum_perm hp).symm) r hm
  · obtain ⟨tl, os, es⟩ := hh.tradedBy_buy hn
    have hp := willingDemand_perm S H p
    change _ ∧ ((willingBuyers H p).map _).sum = _ ∧ (_ = qsum (willingBuyers H p) → _)
    refine ⟨?_, ?_, ?_⟩
    · intro r hr
      have hm := hp.mem_iff.mpr hr
      rw [es r hm]; exact os.bound r hm
    · rw [← halfQty_eq S, ← os.total]
      refine ((hp.map (fun r => tradedBy ts r.label)).sum_eq).symm.trans ?_
      congr 1
      exact List.map_congr_left es
    · intro hv r hr
      have hm := hp.mem_iff.mpr hr
      rw [es r hm]
      exact os.full (by rw [halfQty_eq, hv]; exact (qsum_perm hp).symm) r hm

theorem sum_map_eq_zero {L : DF} {f : Row → ℚ} (hf : ∀ r ∈ L, f r = 0) : (L.map f).sum = 0 := by
  rw [List.map_congr_left hf]; simp

theorem qsum_others_le {L : DF} (hq : ∀ r ∈ L, 0 ≤ r.quantity) (u : ℤ) :
    qsum (others L u) ≤ qsum L := by
  unfold others
  induction L with
  | nil => exact le_refl _
  | cons r L ih =>
    have h1 := hq r List.mem_cons_self
    have h2 := ih (fun r hr => hq r (List.mem_cons_of_mem _ hr))
    by_cases h : r.user = u
    · rw [List.filter_cons_of_neg (by simpa using h)]
      unfold qsum at *; rw [List.map_cons, List.sum_cons]; linarith
    · rw [List.filter_cons_of_pos (by simpa using h)]
      unfold qsum at *; rw [List.map_cons, List.sum_cons, List.map_cons, List.sum_cons]; linarith

/-- Nothing to trade: nothing is best. -/
theorem none_isGreatest {L : DF} {p Q : ℚ} (hq : ∀ r ∈ L, 0 ≤ r.quantity) (hQ : 0 ≤ Q)
    (hz : min (qsum L) Q = 0) : IsGreatest (CouldGain L p Q) (gainIn L p []) := by
  have hg0 : gainIn L p [] = 0 := sum_map_eq_zero (fun r _ => by simp [tradedBy])
  rw [hg0]
  constructor
  · refine ⟨fun _ => 0, fun r hr => ⟨le_refl _, hq r hr⟩, ?_, ?_⟩
    · rw [sum_map_eq_zero (fun _ _ => rfl)]; exact hQ
    · rw [sum_map_eq_zero (fun r _ => mul_zero _)]
  · rintro x ⟨a, ha, hs, rfl⟩
    have h0 : (L.map (fun r => a r.label)).sum ≤ 0 := by
      rcases min_choice (qsum L) Q with h | h
      · rw [← hz, h]
        exact List.sum_le_sum (fun r hr => (ha r hr).2)
      · rw [← hz, h]; exact hs
    have hall : ∀ r ∈ L, a r.label = 0 := by
      have hnn : ∀ x ∈ L.map (fun r => a r.label), 0 ≤ x := by
        intro x hx
        obtain ⟨r, hr, rfl⟩ := List.mem_map.mp hx
        exact (ha r hr).1
      intro r hr
      have := List.single_le_sum hnn _ (List.mem_map_of_mem hr)
      exact le_antisymm (this.trans h0) (ha r hr).1
    rw [sum_map_eq_zero (fun r hr => by rw [hall r hr, mul_zero])]

theorem half_vcg {H : DF} (hn : (H.map (fun r => r.label)).Nodup)
    (hq : ∀ r ∈ H, 0 ≤ r.quantity) {p : ℚ} {ts : List Transaction}
    (ho : HalfOutcome S H (.fin p) ts) (b : Bool) : Vcg H b p ts := by
  have hqw : ∀ c, ∀ r ∈ willingOf H c p, 0 ≤ r.quantity := fun c r hr => hq r (mem_willingOf.mp hr).1
  have hgw : ∀ c, ∀ r ∈ willingOf H c p, 0 ≤ unitGain p r := fun c r hr => (mem_willingOf.mp hr).2.2
  have hQ : 0 ≤ qsum (willingOf H (!b) p) := qsum_nonneg (hqw _)
  have hsubo : ∀ {c : Bool} {u : ℤ}, ∀ r ∈ others (willingOf H c p) u, r ∈ willingOf H c p :=
    fun r hr => (List.mem_filter.mp hr).1
  rcases ho.finite rfl with ⟨rfl, hv⟩ | hh
  · rw [volumeAt_willingOf H b] at hv
    refine ⟨?_, ?_, none_isGreatest (hqw b) hQ hv, ?_, ?_⟩
    · intro r hr; exact ⟨le_refl _, hqw b r hr⟩
    · rw [sum_map_eq_zero (fun r _ => by simp [tradedBy])]; exact hQ
    · intro r _ _ _; rfl
    · rintro u x _ (⟨⟨t, ht, _⟩, _⟩ | ⟨_, rfl⟩)
      · cases ht
      · refine ⟨_, none_isGreatest (fun r hr => hqw b r (hsubo r hr)) hQ ?_, (sub_self _).symm⟩
        refine le_antisymm ?_ (le_min (qsum_nonneg (fun r hr => hqw b r (hsubo r hr))) hQ)
        rw [← hv]
        exact min_le_min_right _ (qsum_others_le (hqw b) u)
  · obtain ⟨w1, w2, w3⟩ := hh.willing_bound hn b
    have hvol := volumeAt_willingOf H b p
    refine ⟨w1, ?_, ?_, ?_, ?_⟩
    · rw [w2, hvol]; exact min_le_right _ _
    · rcases longSide_willingOf H b p with ⟨h1, h2⟩ | ⟨h1, h2⟩
      · have := hh.long_optimal hn hq
        rw [h1, hvol, min_eq_right h2] at this
        exact this
      · exact full_isGreatest (hqw b) (hgw b) h2 (w3 (by rw [hvol, min_eq_left h2]))
    · intro r hr hb hg
      apply tradedBy_not_mem
      intro t ht he
      obtain ⟨r', hr', h1, _, _, _, _, _, h7, h8⟩ := hh.mem t ht
      have := List.inj_on_of_nodup_map hn hr' hr (by rw [← h1, he])
      subst this
      unfold unitGain at hg
      cases hb' : r'.buying
      · have := h8 hb'; rw [hb'] at hg; simp at hg; linarith
      · have := h7 hb'; rw [hb'] at hg; simp at hg; linarith
    · intro u x hu hx
      rcases longSide_willingOf H b p with ⟨h1, h2⟩ | ⟨h1, h2⟩
      · have hvol' : volumeAt H p = qsum (willingOf H (!b) p) := by rw [hvol, min_eq_right h2]
        have hext : IsExternality H p ts u x := by
          rcases hx with ⟨_, h⟩ | ⟨h, rfl⟩
          · exact h
          · have hy := sideExt_isExternality (S := S) hn hq p ts u
            have hz := (externality_nonneg hn hq hh hy).2.2 h
            rw [hz] at hy
            exact hy
        unfold IsExternality at hext
        rw [h1, hvol'] at hext
        exact hext
      · by_cases htl : TradesLong H p ts u
        · -- the user's bids are on side `b`, so this side is long too: both sides are equal
          obtain ⟨t, _, r, hr, _, hru⟩ := htl
          rw [h1] at hr
          have hm := mem_willingOf.mp hr
          have := hu r hm.1 hru
          rw [hm.2.1] at this
          cases b <;> cases this
        · rcases hx with ⟨h, _⟩ | ⟨_, rfl⟩
          · exact absurd h htl
          · refine ⟨_, full_isGreatest (fun r hr => hqw b r (hsubo r hr))
              (fun r hr => hgw b r (hsubo r hr)) ((qsum_others_le (hqw b) u).trans h2)
              (fun r hr => w3 (by rw [hvol, min_eq_left h2]) r (hsubo r hr)), (sub_self _).symm⟩

end PyMarket
