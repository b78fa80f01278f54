import Verif.Props.Groups
import Verif.Props.Muda

/-! # C128 for MUDA: groups within one half -/

set_option autoImplicit false

namespace PyMarket

open Spec

/-- When every member of the group gains what it could gain at a common price, the group does not object. -/
theorem no_objection_of_members {df : DF} {ts : List Transaction} {C : Finset ℕ} (ht : IsTable df)
    (hk : ∀ t ∈ ts, t.bid < df.length) (p : ℚ)
    (h : ∀ r ∈ df, r.label ∈ C → claim p r.toBid ≤ ownGain df ts r.label) (q : ℕ → ℕ → ℚ) : ¬ Objects df ts C q := by
  intro ho
  have h1 := groupPlan_le ht ho.plan ho.within p
  have h2 := ho.better
  rw [groupGain_eq ht hk] at h2
  refine absurd (lt_of_lt_of_le h2 h1) (not_lt.mpr (List.sum_le_sum ?_))
  intro r hr
  split
  · exact h r hr (by assumption)
  · exact le_refl _

theorem quantity_zero_of_sum {rows : DF} (hq : ∀ r ∈ rows, 0 ≤ r.quantity)
    (h : (rows.map (fun r => r.quantity)).sum ≤ 0) {r : Row} (hr : r ∈ rows) : r.quantity = 0 := by
  refine le_antisymm ?_ (hq r hr)
  have := List.single_le_sum (l := rows.map (fun r => r.quantity))
    (by intro x hx; obtain ⟨s, hs, rfl⟩ := List.mem_map.mp hx; exact hq s hs) r.quantity (List.mem_map_of_mem hr)
  linarith

/-- **C128, MUDA.** A group of bids of one half does not object, before fees, if its members on the longer side of
the half trade in full. The members on the shorter side always do when they are willing. The full claim is about all
groups and is refuted by `C128_muda_refuted`. -/
theorem C128_muda_partial (S : Sorter) (coin : ℕ → Bool) (df : DF) (ht : IsTable df) (hq : ∀ r ∈ df, 0 ≤ r.quantity)
    (tm : TransactionManager) (left right : List ℕ) (pl pr : Val) (fees : List ℚ)
    (h : muda S coin df = .ok (tm, .muda left right pl pr fees)) (ids : List ℕ) (v : Val)
    (hids : (ids = left ∧ v = pr) ∨ (ids = right ∧ v = pl)) (p : ℚ) (hv : v = .fin p) (C : Finset ℕ)
    (hC : ∀ i ∈ C, i ∈ ids)
    (hlong : ∀ r ∈ longSide (half df ids) p, r.label ∈ C → r.price ≠ p → tradedBy tm.trans r.label = r.quantity)
    (plan : ℕ → ℕ → ℚ) : ¬ Objects df tm.trans C plan := by
  obtain ⟨-, hL, hR, -, -, hpr⟩ := C24_halves S coin df ht hq tm left right pl pr fees h
  obtain ⟨-, -, -, -, hbid⟩ := C25_balance S coin df ht hq tm left right pl pr fees h
  have hrat := C26_rational S coin df ht hq tm left right pl pr fees h
  have hq' : ∀ r ∈ half df ids, 0 ≤ r.quantity := fun r hr => hq r (half_sub r hr)
  have hprice : ∀ t ∈ tm.trans, t.bid ∈ ids → t.price = p := by
    intro t htm hin
    rcases hids with ⟨rfl, rfl⟩ | ⟨rfl, rfl⟩
    · rcases hpr t htm with ⟨_, h2⟩ | ⟨h1, _⟩
      · rw [h2] at hv; cases hv; rfl
      · have := (hL _).mp hin; have := (hR _).mp h1; simp_all
    · rcases hpr t htm with ⟨h1, _⟩ | ⟨_, h2⟩
      · have := (hR _).mp hin; have := (hL _).mp h1; simp_all
      · rw [h2] at hv; cases hv; rfl
  have hnone : ∀ i ∈ ids, (isBuy df i = true ∧ priceOf df i < p) ∨ (isSell df i = true ∧ p < priceOf df i) →
      tradedBy tm.trans i = 0 := by
    intro i hi hun
    by_contra hne
    obtain ⟨t, h1, rfl, _⟩ := tradedBy_ne_zero hne
    have h3 := hrat t h1
    rw [hprice t h1 hi] at h3
    rcases hun with ⟨a, b⟩ | ⟨a, b⟩
    · exact absurd b (not_lt.mpr (h3.1 a))
    · exact absurd b (not_lt.mpr (h3.2.1 a))
  have heff := (C26_efficient S coin df ht hq tm left right pl pr fees h ids v hids).2 p hv
  have hqB : ∀ r ∈ willingBuyers (half df ids) p, 0 ≤ r.quantity := fun r hr => hq' r (List.mem_filter.mp hr).1
  have hqS : ∀ r ∈ willingSellers (half df ids) p, 0 ≤ r.quantity := fun r hr => hq' r (List.mem_filter.mp hr).1
  have hz : tradesIn ids tm.trans = [] → ∀ i ∈ ids, tradedBy tm.trans i = 0 := by
    intro he i hi
    by_contra hne
    obtain ⟨t, h1, rfl, _⟩ := tradedBy_ne_zero hne
    have : t ∈ tradesIn ids tm.trans := List.mem_filter.mpr ⟨h1, by simpa using hi⟩
    rw [he] at this
    cases this
  have hshort : ∀ r ∈ half df ids, r.label ∈ ids →
      (r ∈ willingBuyers (half df ids) p ∨ r ∈ willingSellers (half df ids) p) →
      r ∉ longSide (half df ids) p → tradedBy tm.trans r.label = r.quantity := by
    intro r _ hi hw hn
    unfold longSide at hn
    split_ifs at hn with hlt
    · have hb := hw.resolve_right hn
      rcases heff.2 with ⟨h1, h2⟩ | ⟨h1, _⟩
      · unfold volumeAt at h2
        rw [min_eq_left hlt.le] at h2
        rw [hz h1 _ hi, quantity_zero_of_sum hqB h2.le hb]
      · exact h1 hlt.le r hb
    · have hs := hw.resolve_left hn
      have hle := not_lt.mp hlt
      rcases heff.2 with ⟨h1, h2⟩ | ⟨_, h1, _⟩
      · unfold volumeAt at h2
        rw [min_eq_right hle] at h2
        rw [hz h1 _ hi, quantity_zero_of_sum hqS h2.le hs]
      · exact h1 hle r hs
  refine no_objection_of_members ht (fun t htm => (hbid t htm).1) p ?_ plan
  intro r hr hrC
  have hi := hC _ hrC
  have hH : r ∈ half df ids := List.mem_filter.mpr ⟨hr, by simpa using hi⟩
  rw [ownGain_eq (p := p) (fun t htm hb => hprice t htm (hb ▸ hi))]
  have hfull : (r ∈ willingBuyers (half df ids) p ∨ r ∈ willingSellers (half df ids) p) → r.price ≠ p →
      tradedBy tm.trans r.label = r.quantity := by
    intro hw hne
    by_cases hl : r ∈ longSide (half df ids) p
    · exact hlong r hl hrC hne
    · exact hshort r hH hi hw hl
  unfold marginAt claim
  rw [ht.isBuy_eq hr, ht.price_eq hr]
  cases hbuy : r.buying with
  | true =>
    simp only [if_true]
    rcases lt_trichotomy p r.price with hp | hp | hp
    · rw [hfull (.inl (List.mem_filter.mpr ⟨hH, by simp [hbuy, hp.le]⟩)) hp.ne', max_eq_right (by linarith), mul_comm]
    · rw [hp]; simp
    · rw [hnone r.label hi (.inl ⟨by rw [ht.isBuy_eq hr]; exact hbuy, by rw [ht.price_eq hr]; exact hp⟩),
        max_eq_left (by linarith)]
      simp
  | false =>
    simp only [Bool.false_eq_true, if_false]
    rcases lt_trichotomy p r.price with hp | hp | hp
    · rw [hnone r.label hi (.inr ⟨by rw [ht.isSell_eq hr, hbuy]; rfl, by rw [ht.price_eq hr]; exact hp⟩),
        max_eq_left (by linarith)]
      simp
    · rw [hp]; simp
    · rw [hfull (.inr (List.mem_filter.mpr ⟨hH, by simp [hbuy, hp.le]⟩)) hp.ne, max_eq_right (by linarith), mul_comm]

/-- In `halvesEnvyBook` with the coins of `C128_muda_refuted`, the right half trades at 11/2. Its longer side is that of
the buyers, at 8 and 7. The group of the buyer at 8 and the seller at 3 meets the hypotheses. -/
example : (longSide (half halvesEnvyBook [2, 3, 4]) (11 / 2)).map (fun r => (r.label, r.price)) = [(2, 8), (3, 7)] ∧
    (muda stableSorter (fun n => decide (n ≤ 1)) halvesEnvyBook).toOption.map
      (fun o => (tradedBy o.1.trans 2, tradedBy o.1.trans 3, tradedBy o.1.trans 4)) = some (1, 0, 1) := by
  decide +kernel

end PyMarket
