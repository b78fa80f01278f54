import Verif.Lemmas.MudaRun

/-! # The externality of a user in a MUDA half -/

set_option autoImplicit false

namespace PyMarket

open Spec

variable {S : Sorter}

theorem HalfTrade.long_bound {H : DF} (hn : (H.map (fun r => r.label)).Nodup) {p : ℚ}
    {ts : List Transaction} (hh : HalfTrade S H p ts) : ∀ r ∈ longSide H p,
    0 ≤ tradedBy ts r.label ∧ tradedBy ts r.label ≤ r.quantity ∧ 0 ≤ unitGain p r := by
  obtain ⟨tb, ob, eb⟩ := hh.tradedBy_buy hn
  obtain ⟨tl, os, es⟩ := hh.tradedBy_sell hn
  intro r hr
  unfold longSide at hr
  split at hr
  · have hm := (willingSupply_perm S H p).mem_iff.mpr hr
    rw [es r hm]
    refine ⟨(os.bound r hm).1, (os.bound r hm).2, ?_⟩
    have := (List.mem_filter.mp hr).2
    simp only [Bool.and_eq_true, Bool.not_eq_true', decide_eq_true_eq] at this
    unfold unitGain; rw [this.1]; simp only [Bool.false_eq_true, if_false]; linarith [this.2]
  · have hm := (willingDemand_perm S H p).mem_iff.mpr hr
    rw [eb r hm]
    refine ⟨(ob.bound r hm).1, (ob.bound r hm).2, ?_⟩
    have := (List.mem_filter.mp hr).2
    simp only [Bool.and_eq_true, decide_eq_true_eq] at this
    unfold unitGain; rw [this.1]; simp only [if_true]; linarith [this.2]

theorem HalfTrade.long_total {H : DF} (hn : (H.map (fun r => r.label)).Nodup) {p : ℚ}
    {ts : List Transaction} (hh : HalfTrade S H p ts) :
    ((longSide H p).map (fun r => tradedBy ts r.label)).sum = volumeAt H p := by
  rw [← halfQty_eq S]
  obtain ⟨tb, ob, eb⟩ := hh.tradedBy_buy hn
  obtain ⟨tl, os, es⟩ := hh.tradedBy_sell hn
  unfold longSide
  split
  · rw [← os.total]
    refine (((willingSupply_perm S H p).map (fun r => tradedBy ts r.label)).sum_eq).symm.trans ?_
    congr 1
    apply List.map_congr_left
    intro r hr; rw [es r hr]
  · rw [← ob.total]
    refine (((willingDemand_perm S H p).map (fun r => tradedBy ts r.label)).sum_eq).symm.trans ?_
    congr 1
    apply List.map_congr_left
    intro r hr; rw [eb r hr]

/-- The long side gains as much as it can from the volume. -/
theorem HalfTrade.long_optimal {H : DF} (hn : (H.map (fun r => r.label)).Nodup)
    (hq : ∀ r ∈ H, 0 ≤ r.quantity) {p : ℚ} {ts : List Transaction} (hh : HalfTrade S H p ts) :
    IsGreatest (CouldGain (longSide H p) p (volumeAt H p)) (gainIn (longSide H p) p ts) := by
  have hlong := hh.long_bound hn
  have hsum := hh.long_total hn
  constructor
  · exact ⟨fun i => tradedBy ts i, fun r hr => ⟨(hlong r hr).1, (hlong r hr).2.1⟩,
      hsum.le, rfl⟩
  · rintro y ⟨b, hb1, hb2, rfl⟩
    have hopt := (greedy_isGreatest (long_side (S := S) hn hq p) (volumeAt_nonneg hq p)).2
    have hperm := longRows_perm S H p
    have hgreedy : greedy (fun r => r.quantity) (longGain S H p) (volumeAt H p)
        (longRows S H p) = gainIn (longSide H p) p ts := by
      obtain ⟨tb, ob, eb⟩ := hh.tradedBy_buy hn
      obtain ⟨tl, os, es⟩ := hh.tradedBy_sell hn
      unfold gainIn
      rw [← (hperm.map (fun r => unitGain p r * tradedBy ts r.label)).sum_eq, ← halfQty_eq S]
      have e : (longRows S H p).map (fun r => unitGain p r * tradedBy ts r.label) =
          (longRows S H p).map (fun r => longGain S H p r * tradedBy ts r.label) := by
        apply List.map_congr_left
        intro r hr
        rw [longGain_eq hr]
      rw [e]
      unfold longRows longGain
      cases longIsSupply S H p
      · simp only [Bool.false_eq_true, if_false]
        rw [← ob.greedy]
        congr 1
        apply List.map_congr_left
        intro r hr; rw [eb r hr]
      · simp only [if_true]
        rw [← os.greedy]
        congr 1
        apply List.map_congr_left
        intro r hr; rw [es r hr]
    rw [← hgreedy]
    apply hopt
    refine ⟨b, fun r hr => hb1 r (hperm.mem_iff.mp hr), ?_, ?_⟩
    · rw [(hperm.map (fun r => b r.label)).sum_eq]; exact hb2
    · rw [← (hperm.map (fun r => unitGain p r * b r.label)).sum_eq]
      congr 1
      apply List.map_congr_left
      intro r hr
      rw [longGain_eq hr]

theorem externality_nonneg {H : DF} (hn : (H.map (fun r => r.label)).Nodup)
    (hq : ∀ r ∈ H, 0 ≤ r.quantity) {p : ℚ} {ts : List Transaction}
    (hh : HalfTrade S H p ts) {u : ℤ} {x : ℚ} (hx : IsExternality H p ts u x) :
    0 ≤ x ∧ x ≤ gainIn (own (longSide H p) u) p ts ∧ (¬ TradesLong H p ts u → x = 0) := by
  have hlong := hh.long_bound hn
  have hsum := hh.long_total hn
  have hsplit : ∀ f : Row → ℚ, ((longSide H p).map f).sum =
      ((others (longSide H p) u).map f).sum + ((own (longSide H p) u).map f).sum := by
    intro f
    unfold others own
    generalize longSide H p = l
    induction l with
    | nil => simp
    | cons r l ih =>
      by_cases h : r.user = u
      · simp only [List.map_cons, List.sum_cons, h, ne_eq, not_true_eq_false, decide_false,
          Bool.false_eq_true, not_false_eq_true, List.filter_cons_of_neg, decide_true,
          List.filter_cons_of_pos, ih]; ring
      · simp only [List.map_cons, List.sum_cons, h, ne_eq, not_false_eq_true, decide_true,
          List.filter_cons_of_pos, decide_false, Bool.false_eq_true, List.filter_cons_of_neg, ih]
        ring
  have hown0 : 0 ≤ ((own (longSide H p) u).map (fun r => tradedBy ts r.label)).sum := by
    apply List.sum_nonneg
    intro v hv
    obtain ⟨r, hr, rfl⟩ := List.mem_map.mp hv
    exact (hlong r (List.mem_filter.mp hr).1).1
  obtain ⟨W, hW, rfl⟩ := hx
  have hmem : gainIn (others (longSide H p) u) p ts ∈
      CouldGain (others (longSide H p) u) p (volumeAt H p) := by
    refine ⟨fun i => tradedBy ts i, ?_, ?_, rfl⟩
    · intro r hr
      have := hlong r (List.mem_filter.mp hr).1
      exact ⟨this.1, this.2.1⟩
    · have := hsplit (fun r => tradedBy ts r.label)
      rw [hsum] at this
      linarith
  have hbound : W - gainIn (others (longSide H p) u) p ts ≤ gainIn (own (longSide H p) u) p ts := by
    -- the others could be joined by the user's bids trading nothing
    obtain ⟨a, ha1, ha2, rfl⟩ := hW.1
    have hall := hh.long_optimal hn hq
    have hlab : ∀ r ∈ longSide H p, r ∈ H := by
      intro r hr
      unfold longSide at hr
      split at hr <;> exact (List.mem_filter.mp hr).1
    set b : ℕ → ℚ := fun i => if i ∈ (own (longSide H p) u).map (fun r => r.label) then 0 else a i
      with hb
    have hbo : ∀ r ∈ others (longSide H p) u, b r.label = a r.label := by
      intro r hr
      simp only [hb]
      rw [if_neg]
      intro hc
      obtain ⟨r', hr', hl⟩ := List.mem_map.mp hc
      have h1 := List.mem_filter.mp hr
      have h2 := List.mem_filter.mp hr'
      have := List.inj_on_of_nodup_map hn (hlab r' h2.1) (hlab r h1.1) hl
      subst this
      have e1 := of_decide_eq_true h1.2
      exact e1 (of_decide_eq_true h2.2)
    have hbu : ∀ r ∈ own (longSide H p) u, b r.label = 0 := by
      intro r hr
      simp only [hb]
      rw [if_pos (List.mem_map_of_mem hr)]
    have hbm : ((others (longSide H p) u).map (fun r => unitGain p r * a r.label)).sum ∈
        CouldGain (longSide H p) p (volumeAt H p) := by
      refine ⟨b, ?_, ?_, ?_⟩
      · intro r hr
        by_cases hu : r.user = u
        · have : r ∈ own (longSide H p) u := List.mem_filter.mpr ⟨hr, decide_eq_true hu⟩
          rw [hbu r this]
          exact ⟨le_refl _, hq r (hlab r hr)⟩
        · have : r ∈ others (longSide H p) u := List.mem_filter.mpr ⟨hr, decide_eq_true hu⟩
          rw [hbo r this]
          exact ha1 r this
      · rw [hsplit]
        have e1 : (own (longSide H p) u).map (fun r => b r.label) =
            (own (longSide H p) u).map (fun _ => (0 : ℚ)) :=
          List.map_congr_left hbu
        have e2 : (others (longSide H p) u).map (fun r => b r.label) =
            (others (longSide H p) u).map (fun r => a r.label) :=
          List.map_congr_left hbo
        rw [e1, e2]
        simpa using ha2
      · rw [hsplit]
        have e1 : (own (longSide H p) u).map (fun r => unitGain p r * b r.label) =
            (own (longSide H p) u).map (fun _ => (0 : ℚ)) :=
          List.map_congr_left (fun r hr => by rw [hbu r hr, mul_zero])
        have e2 : (others (longSide H p) u).map (fun r => unitGain p r * b r.label) =
            (others (longSide H p) u).map (fun r => unitGain p r * a r.label) :=
          List.map_congr_left (fun r hr => by rw [hbo r hr])
        rw [e1, e2]
        simp
    have h1 := hall.2 hbm
    have h2 := hsplit (fun r => unitGain p r * tradedBy ts r.label)
    unfold gainIn at h1 ⊢
    linarith
  refine ⟨sub_nonneg.mpr (hW.2 hmem), hbound, ?_⟩
  · intro hnot
    refine le_antisymm (hbound.trans (le_of_eq ?_)) (sub_nonneg.mpr (hW.2 hmem))
    apply List.sum_eq_zero
    intro v hv
    obtain ⟨r, hr, rfl⟩ := List.mem_map.mp hv
    have hz : tradedBy ts r.label = 0 := by
      apply tradedBy_not_mem
      intro t ht he
      exact hnot ⟨t, ht, r, (List.mem_filter.mp hr).1, he.symm,
        of_decide_eq_true (List.mem_filter.mp hr).2⟩
    rw [hz, mul_zero]

end PyMarket
