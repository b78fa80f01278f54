import Verif.Lemmas.MudaResidue

/-! # C107: negative user ids count from the end of the array of fees -/

set_option autoImplicit false

namespace PyMarket

/-- The number of different users. -/
def Spec.userCount (df : DF) : ℕ := (df.map (fun r => r.user)).dedup.length

/-- All ids are between `-n` and `n - 1` for `n` users, and different modulo `n`. -/
def Spec.DistinctResidues (df : DF) : Prop :=
  (∀ r ∈ df, -(userCount df : ℤ) ≤ r.user ∧ r.user < userCount df) ∧
  ∀ r ∈ df, ∀ s ∈ df, r.user % (userCount df : ℤ) = s.user % (userCount df : ℤ) → r.user = s.user

open Spec

instance (df : DF) : Decidable (DistinctResidues df) := by unfold DistinctResidues; infer_instance

/-- The book with every id replaced by its residue modulo the number of users. -/
def Spec.reduceUsers (df : DF) : DF := df.map (renameUser (fun u => u % (userCount df : ℤ)))

theorem sameSpot_emod {n : ℕ} {u : ℤ} (h1 : -(n : ℤ) ≤ u) (h2 : u < n) : SameSpot n u (u % n) := by
  intro fees x hl
  have hn : (0 : ℤ) < n := by omega
  by_cases hu : 0 ≤ u
  · rw [Int.emod_eq_of_lt hu h2]
  · have e : u % (n : ℤ) = u + n := by
      rw [← Int.add_emod_right, Int.emod_eq_of_lt (by omega) (by omega)]
    unfold npSet
    rw [e, hl, if_pos ⟨by omega, by omega⟩, if_neg (by omega), if_pos ⟨by omega, h1⟩]

/-- **C107.** MUDA treats a book with ids between `-n` and `n - 1` that differ modulo `n` exactly like
the same book with the ids `u mod n`: same outcome (or same exception), same halves, prices,
transactions and fees. So the fee of a user with the negative id `u` is entry `n + u`. The reduced book
has the ids `0, …, n - 1` that C27-C30, C32 and C41 ask for. -/
theorem C107_residue (S : Sorter) (coin : ℕ → Bool) (df : DF) (h : DistinctResidues df) :
    muda S coin (reduceUsers df) = muda S coin df ∧ UsersInRange (reduceUsers df) ∧
    userCount (reduceUsers df) = userCount df := by
  have hap : Apart (df.map (fun r => r.user)) (fun u => u % (userCount df : ℤ)) := by
    intro u hu v hv huv
    obtain ⟨r, hr, rfl⟩ := List.mem_map.mp hu
    obtain ⟨s, hs, rfl⟩ := List.mem_map.mp hv
    exact h.2 r hr s hs huv
  have hded : userCount (reduceUsers df) = userCount df := by
    have e : (reduceUsers df).map (fun r => r.user) =
        (df.map (fun r => r.user)).map (fun u => u % (userCount df : ℤ)) := by
      unfold reduceUsers
      rw [List.map_map, List.map_map]; rfl
    have e' : ((df.map (fun r => r.user)).map (fun u => u % (userCount df : ℤ))).toFinset =
        (df.map (fun r => r.user)).toFinset.image (fun u => u % (userCount df : ℤ)) := by
      ext x
      rw [List.mem_toFinset, Finset.mem_image, List.mem_map]
      simp only [List.mem_toFinset]
    unfold userCount at e e' hap ⊢
    rw [e, ← List.card_toFinset, e', Finset.card_image_of_injOn, List.card_toFinset]
    intro a ha b hb hab
    exact hap a (List.mem_toFinset.mp ha) b (List.mem_toFinset.mp hb) hab
  refine ⟨muda_rename S coin df hap ?_, ?_, hded⟩
  · intro u hu
    obtain ⟨r, hr, rfl⟩ := List.mem_map.mp hu
    exact sameSpot_emod (h.1 r hr).1 (h.1 r hr).2
  · intro r hr
    have hlen : (((reduceUsers df).map (fun r => r.user)).dedup.length : ℤ) = userCount df := by
      exact_mod_cast hded
    rw [hlen]
    obtain ⟨s, hs, rfl⟩ := List.mem_map.mp hr
    have := h.1 s hs
    exact ⟨Int.emod_nonneg _ (by omega), Int.emod_lt_of_pos _ (by omega)⟩

/-- Reduction modulo `n` on the ids of the book, extended to an injection of all ids. -/
def reduceInj (df : DF) (u : ℤ) : ℤ :=
  if u ∈ df.map (fun r => r.user) then u % (userCount df : ℤ)
  else if 0 ≤ u then u + userCount df else u

theorem reduceInj_user {df : DF} {r : Row} (hr : r ∈ df) :
    reduceInj df r.user = r.user % (userCount df : ℤ) := by
  unfold reduceInj; rw [if_pos (List.mem_map_of_mem hr)]

theorem reduceInj_injective {df : DF} (h : DistinctResidues df) : Function.Injective (reduceInj df) := by
  have key : ∀ r ∈ df, 0 ≤ r.user % (userCount df : ℤ) ∧
      r.user % (userCount df : ℤ) < userCount df := by
    intro r hr
    have := h.1 r hr
    exact ⟨Int.emod_nonneg _ (by omega), Int.emod_lt_of_pos _ (by omega)⟩
  intro a b hab
  have out : ∀ u, u ∉ df.map (fun r => r.user) →
      reduceInj df u = if 0 ≤ u then u + userCount df else u := by
    intro u hu; unfold reduceInj; rw [if_neg hu]
  by_cases ha : a ∈ df.map (fun r => r.user) <;> by_cases hb : b ∈ df.map (fun r => r.user)
  · obtain ⟨r, hr, rfl⟩ := List.mem_map.mp ha
    obtain ⟨s, hs, rfl⟩ := List.mem_map.mp hb
    rw [reduceInj_user hr, reduceInj_user hs] at hab
    exact h.2 r hr s hs hab
  · obtain ⟨r, hr, rfl⟩ := List.mem_map.mp ha
    rw [reduceInj_user hr, out b hb] at hab
    have := key r hr
    split at hab <;> omega
  · obtain ⟨s, hs, rfl⟩ := List.mem_map.mp hb
    rw [reduceInj_user hs, out a ha] at hab
    have := key s hs
    split at hab <;> omega
  · rw [out a ha, out b hb] at hab
    split at hab <;> split at hab <;> omega

theorem reduceUsers_reduceInj (df : DF) : reduceUsers df = df.map (renameUser (reduceInj df)) := by
  unfold reduceUsers
  apply List.map_congr_left
  intro r hr
  unfold renameUser
  rw [reduceInj_user hr]

/-- **C107, the fees.** With non-negative quantities and no duplicate bids such a book is always
cleared, and each user, whatever the sign of the id `u`, is charged at entry `u mod n`: the externality
in the right half if the user trades there on the long side, else what is owed in the left half. -/
theorem C107_fees (S : Sorter) (coin : ℕ → Bool) (df : DF) (ht : IsTable df)
    (hq : ∀ r ∈ df, 0 ≤ r.quantity) (h : DistinctResidues df) (htw : ¬ HasTwin df) :
    ∃ tm left right pl pr fees, muda S coin df = .ok (tm, .muda left right pl pr fees) ∧
      fees.length = userCount df ∧
      ∀ r ∈ df, ∃ x, fees[(if 0 ≤ r.user then r.user else fees.length + r.user).toNat]? = some x ∧
        0 ≤ x ∧
        ((∃ p, pl = .fin p ∧ TradesLong (half df right) p (tradesIn right tm.trans) r.user ∧
            IsExternality (half df right) p (tradesIn right tm.trans) r.user x) ∨
         ((∀ p, pl = .fin p →
              ¬ TradesLong (half df right) p (tradesIn right tm.trans) r.user) ∧
            Owes (half df left) pr (tradesIn left tm.trans) r.user x)) := by
  obtain ⟨e, hu, hc⟩ := C107_residue S coin df h
  have hσ := reduceInj_injective h
  have ht' : IsTable (reduceUsers df) := by
    unfold IsTable at ht ⊢
    rw [reduceUsers, (rename_keeps _).labels, List.length_map, ht]
  have hq' : ∀ r ∈ reduceUsers df, 0 ≤ r.quantity := by
    intro r hr
    obtain ⟨a, ha, rfl⟩ := List.mem_map.mp hr
    exact hq a ha
  have htw' : ¬ HasTwin (reduceUsers df) := by
    rw [reduceUsers_reduceInj, hasTwin_rename hσ]; exact htw
  obtain ⟨tm, left, right, pl, pr, fees, hr⟩ := C32_total_partial S coin _ ht' hq' hu htw'
  obtain ⟨hl, hf⟩ := C27_fees S coin _ ht' hq' hu tm left right pl pr fees hr
  have hlen : fees.length = userCount df := hl.trans hc
  refine ⟨tm, left, right, pl, pr, fees, e.symm.trans hr, hlen, ?_⟩
  intro r hmem
  have hb := h.1 r hmem
  have hpos : (if 0 ≤ r.user then r.user else fees.length + r.user) = reduceInj df r.user := by
    rw [reduceInj_user hmem, hlen]
    split
    · rename_i h0; rw [Int.emod_eq_of_lt h0 hb.2]
    · rename_i h0
      rw [← Int.add_emod_right, Int.emod_eq_of_lt (by omega) (by omega), add_comm]
  have hrange : 0 ≤ reduceInj df r.user ∧ reduceInj df r.user < userCount df := by
    rw [reduceInj_user hmem]
    exact ⟨Int.emod_nonneg _ (by omega), Int.emod_lt_of_pos _ (by omega)⟩
  have hw : ((reduceInj df r.user).toNat : ℤ) = reduceInj df r.user := Int.toNat_of_nonneg hrange.1
  obtain ⟨x, hx1, hx0, hx2⟩ := hf (reduceInj df r.user).toNat (by omega)
  rw [hpos]
  refine ⟨x, hx1, hx0, ?_⟩
  rw [hw, reduceUsers_reduceInj, half_rename, half_rename] at hx2
  simpa only [tradesLong_rename hσ, externality_rename hσ, owes_rename hσ] using hx2

/-- `twiceBook` with user 0 renamed to `-4`: cleared, and the fee of user `-4` is entry 0. -/
example : DistinctResidues (twiceBook.map (renameUser (fun u => if u = 0 then -4 else u))) ∧
    ¬ HasTwin (twiceBook.map (renameUser (fun u => if u = 0 then -4 else u))) ∧
    reduceUsers (twiceBook.map (renameUser (fun u => if u = 0 then -4 else u))) = twiceBook := by
  refine ⟨by decide +kernel, ?_, by decide +kernel⟩
  rw [← C31_rejects stableSorter (fun i => decide (i < 3))]
  decide +kernel

/-- Without different residues the fees of two users fall on the same entry: with the ids `-4` and 0
for the users 0 and 3 of `twiceBook` … the array still has four entries, and entry 0 holds the fee of
user `-4` alone, although user 0 exists and owes nothing. -/
example : (muda stableSorter (fun i => decide (i < 3))
      (twiceBook.map (renameUser (fun u => if u = 0 then -4 else if u = 3 then 0 else u)))).toOption.map
        (fun o => o.2) =
    some (.muda [0, 1, 2] [3, 4, 5] (.fin (11 / 2)) (.fin 7) [5 / 2, 0, 0, 0]) := by
  decide +kernel

end PyMarket
