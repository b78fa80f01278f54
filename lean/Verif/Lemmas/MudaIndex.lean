import Verif.Lemmas.Erase
import Verif.Lemmas.MudaRun

/-! # Renaming the users of a MUDA run

The trades of a half do not depend on the user ids; only the positions written in the fee array do. -/

set_option autoImplicit false

namespace PyMarket

open Spec

/-- Every bid gets a user of its own, numbered like the bid. -/
def ownRow (r : Row) : Row := { r with user := r.label }

theorem ownRow_keeps : Keeps ownRow := ⟨fun _ => rfl, fun _ => rfl, fun _ => rfl, fun _ => rfl⟩

theorem findCompetitivePrice_own (S : Sorter) (df : DF) :
    findCompetitivePrice S (df.map ownRow) = findCompetitivePrice S df := by
  unfold findCompetitivePrice
  rw [ownRow_keeps.demandCurve_map, ownRow_keeps.supplyCurve_map]

theorem willingDemand_own (S : Sorter) (df : DF) (v : Val) :
    willingDemand S (df.map ownRow) v = (willingDemand S df v).map ownRow := by
  unfold willingDemand
  rw [ownRow_keeps.buys_map, List.filter_map, ownRow_keeps.sortDesc_map]
  rfl

theorem willingSupply_own (S : Sorter) (df : DF) (v : Val) :
    willingSupply S (df.map ownRow) v = (willingSupply S df v).map ownRow := by
  unfold willingSupply
  rw [ownRow_keeps.sells_map, List.filter_map, ownRow_keeps.sortAsc_map]
  rfl

theorem getTradingBids_own (df : DF) (q : ℚ) :
    getTradingBids (df.map ownRow) q =
      (getTradingBids df q).map (fun p => (p.1.map ownRow, p.2)) := by
  unfold getTradingBids
  rw [ownRow_keeps.quantities]
  by_cases h : df = [] ∧ q < 0
  · rw [if_pos h, if_pos ⟨by rw [h.1]; rfl, h.2⟩]
    rfl
  · rw [if_neg h, if_neg (by rw [List.map_eq_nil_iff]; exact h)]
    simp only [List.getElem?_map]
    cases df[lastIndex (df.map (fun r => r.quantity)) q]? with
    | none => rfl
    | some row =>
      simp only [Option.map_some, ← List.map_take, ownRow_keeps.qsum_map, ownRow_keeps.quantity,
        ← List.map_drop]
      split
      · simp only [Except.map, List.map_append, List.map_cons]
        rfl
      · rfl

theorem tradingTrans_own (rows : DF) (i : ℕ) (p : ℚ) :
    tradingTrans (rows.map ownRow) i p = tradingTrans rows i p := by
  unfold tradingTrans
  rw [List.zipIdx_map, List.filter_map, List.map_map]
  rfl

/-- The trades of a half do not depend on the user ids. -/
theorem solveSide_own {S : Sorter} {df : DF} {v : Val} {fees fees₀ f f₀ : List ℚ}
    {tm tm₀ : TransactionManager} (h : solveSide S df v fees = .ok (tm, f))
    (h₀ : solveSide S (df.map ownRow) v fees₀ = .ok (tm₀, f₀)) : tm₀ = tm := by
  have hl : ∀ b : Bool, ∀ x y : DF, (if b then x.map ownRow else y.map ownRow) =
      (if b then x else y).map ownRow := by
    intro b x y; cases b <;> rfl
  unfold solveSide at h h₀
  simp only [ownRow_keeps.buys_map, ownRow_keeps.sells_map, List.length_map, willingDemand_own,
    willingSupply_own, ownRow_keeps.qsum_map, hl, getTradingBids_own] at h₀
  split at h
  · rename_i hb
    rw [if_pos hb] at h₀
    cases h; cases h₀; rfl
  rename_i hb
  rw [if_neg hb] at h₀
  split at h
  · rename_i hs
    rw [if_pos hs] at h₀
    cases h; cases h₀; rfl
  rename_i hs
  rw [if_neg hs] at h₀
  simp only at h
  revert h h₀
  generalize (if decide (qsum (willingDemand S df v) < qsum (willingSupply S df v))
    then willingSupply S df v else willingDemand S df v) = long
  generalize (if decide (qsum (willingDemand S df v) < qsum (willingSupply S df v))
    then willingDemand S df v else willingSupply S df v) = short
  generalize (if decide (qsum (willingDemand S df v) < qsum (willingSupply S df v))
    then qsum (willingDemand S df v) else qsum (willingSupply S df v)) = q
  intro h h₀
  split at h
  · rename_i hq
    rw [if_pos hq] at h₀
    cases hgl : getTradingBids long q with
    | error e => simp only [hgl, bind, Except.bind] at h; cases h
    | ok a =>
      cases hgs : getTradingBids short q with
      | error e => simp only [hgl, hgs, bind, Except.bind] at h; cases h
      | ok b =>
        simp only [hgl, hgs, bind, Except.bind, Except.map, tradingTrans_own] at h h₀
        split at h
        · cases h
        split at h₀
        · cases h₀
        cases h; cases h₀; rfl
  · rename_i hq
    rw [if_neg hq] at h₀
    cases h; cases h₀; rfl

/-! ## Positions of the fee array -/

theorem npSet_valid {fees : List ℚ} {u : ℤ} (h : -(fees.length : ℤ) ≤ u ∧ u < fees.length) (x : ℚ) :
    ∃ f, npSet fees u x = .ok f ∧ f.length = fees.length := by
  unfold npSet
  by_cases h0 : 0 ≤ u ∧ u < fees.length
  · rw [if_pos h0]
    exact ⟨_, rfl, List.length_set⟩
  · rw [if_neg h0, if_pos (by omega)]
    exact ⟨_, rfl, List.length_set⟩

theorem npSet_invalid {fees : List ℚ} {u : ℤ} (h : ¬ (-(fees.length : ℤ) ≤ u ∧ u < fees.length))
    (x : ℚ) : npSet fees u x = .error .indexError := by
  unfold npSet
  rw [if_neg (by omega), if_neg (by omega)]

theorem feeLoop_valid {long : DF} {k : ℕ} {Q p : ℚ} {us : List ℤ} {fees : List ℚ}
    (hu : ∀ u ∈ us, -(fees.length : ℤ) ≤ u ∧ u < fees.length) :
    ∃ f, feeLoop long k Q p us fees = .ok f ∧ f.length = fees.length := by
  induction us generalizing fees with
  | nil => exact ⟨fees, rfl, rfl⟩
  | cons u us ih =>
    obtain ⟨f, e, hl⟩ := npSet_valid (hu u List.mem_cons_self) (computeFee long k u Q p)
    obtain ⟨f', e', hl'⟩ := ih (fees := f)
      (by rw [hl]; exact fun v hv => hu v (List.mem_cons_of_mem _ hv))
    refine ⟨f', ?_, by rw [hl', hl]⟩
    simp only [feeLoop, e, bind, Except.bind, e']

theorem feeLoop_invalid {long : DF} {k : ℕ} {Q p : ℚ} {us : List ℤ} {fees : List ℚ}
    (hu : ∃ u ∈ us, ¬ (-(fees.length : ℤ) ≤ u ∧ u < fees.length)) :
    feeLoop long k Q p us fees = .error .indexError := by
  induction us generalizing fees with
  | nil => obtain ⟨u, h, _⟩ := hu; cases h
  | cons u us ih =>
    by_cases hv : -(fees.length : ℤ) ≤ u ∧ u < fees.length
    · obtain ⟨f, e, hl⟩ := npSet_valid hv (computeFee long k u Q p)
      have : ∃ u ∈ us, ¬ (-(f.length : ℤ) ≤ u ∧ u < f.length) := by
        obtain ⟨w, hw, hw'⟩ := hu
        rcases List.mem_cons.mp hw with rfl | hw
        · exact absurd hv hw'
        · exact ⟨w, hw, by rw [hl]; exact hw'⟩
      simp only [feeLoop, e, bind, Except.bind, ih this]
    · simp only [feeLoop, npSet_invalid hv, bind, Except.bind]

theorem exists_bound (us : List ℤ) : ∃ n : ℕ, ∀ u ∈ us, -(n : ℤ) ≤ u ∧ u < n := by
  induction us with
  | nil => exact ⟨0, by simp⟩
  | cons u us ih =>
    obtain ⟨n, hn⟩ := ih
    refine ⟨n + u.natAbs + 1, ?_⟩
    intro w hw
    rcases List.mem_cons.mp hw with rfl | hw
    · constructor
      · omega
      · omega
    · have := hn w hw
      constructor
      · omega
      · omega

/-- One half: the trades are those of the book with a user per bid, and the half fails exactly when a
trading user of the long side is not a position of the fee array. -/
theorem solveSide_exact {S : Sorter} {H : DF} (hn : (H.map (fun r => r.label)).Nodup)
    (hq : ∀ r ∈ H, 0 ≤ r.quantity) {v : Val} {fees₀ f₀ : List ℚ} {tm : TransactionManager}
    (h₀ : solveSide S (H.map ownRow) v fees₀ = .ok (tm, f₀)) (fees : List ℚ) :
    ((∀ p, v = .fin p → ∀ u, TradesLong H p tm.trans u →
        -(fees.length : ℤ) ≤ u ∧ u < fees.length) →
      ∃ f, solveSide S H v fees = .ok (tm, f) ∧ f.length = fees.length) ∧
    (∀ p u, v = .fin p → TradesLong H p tm.trans u →
        ¬ (-(fees.length : ℤ) ≤ u ∧ u < fees.length) →
      solveSide S H v fees = .error .indexError) := by
  rcases solveSide_cases S hn hq v with
    ⟨he, hz⟩ | ⟨p, out, k, tm', hv, ht, hside, hcut, hle, htb, hin, hout, he⟩
  · have := solveSide_own (he []) h₀
    subst this
    refine ⟨fun _ => ⟨fees, he fees, rfl⟩, ?_⟩
    intro p u _ ht
    obtain ⟨t, ht, _⟩ := ht
    cases ht
  · obtain ⟨N, hN⟩ := exists_bound (tradingUsers out k)
    obtain ⟨f, e, _⟩ := feeLoop_valid (long := out) (k := k) (Q := halfQty S H p) (p := p)
      (us := tradingUsers out k) (fees := List.replicate N 0)
      (by rw [List.length_replicate]; exact hN)
    have htm : tm = tm' := by
      have h1 := he (List.replicate N 0)
      rw [e] at h1
      exact solveSide_own h1 h₀
    subst htm
    have hmem : ∀ u, u ∈ tradingUsers out k ↔ TradesLong H p tm.trans u := by
      intro u
      rw [hcut.users (p := p) hside.nodup]
      unfold TradesLong
      simp only [(longRows_perm S H p).mem_iff.symm]
      constructor
      · rintro ⟨t, h1, h2⟩
        exact ⟨t, hout t h1, h2⟩
      · rintro ⟨t, h1, r, h2, h3, h4⟩
        exact ⟨t, hin t h1 ⟨r, h2, h3⟩, r, h2, h3, h4⟩
    constructor
    · intro hu
      obtain ⟨f', e', hl⟩ := feeLoop_valid (long := out) (k := k) (Q := halfQty S H p) (p := p)
        (us := tradingUsers out k) (fees := fees) (fun u hm => hu p hv u ((hmem u).mp hm))
      exact ⟨f', by rw [he fees, e']; rfl, hl⟩
    · intro p' u hp' htl hbad
      rw [hv] at hp'
      cases hp'
      rw [he fees, feeLoop_invalid ⟨u, (hmem u).mpr htl, hbad⟩]
      rfl

theorem half_own (df : DF) (ids : List ℕ) : half (df.map ownRow) ids = (half df ids).map ownRow := by
  unfold half
  rw [List.filter_map]
  rfl

end PyMarket
