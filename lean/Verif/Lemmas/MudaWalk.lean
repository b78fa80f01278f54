import Verif.Props.MudaThin
import Mathlib.Algebra.Order.BigOperators.Group.Finset
import Mathlib.Algebra.BigOperators.Ring.Finset
import Mathlib.Tactic.Ring
import Mathlib.Tactic.Positivity

/-! # Random walks driven by the coins of MUDA

Kolmogorov's maximal inequality for the signed sums of the quantities of a list of rows, as a count of coin
vectors. -/

set_option autoImplicit false

namespace PyMarket

open Spec

/-- The quantity of a row with the sign that its coin gives. -/
def signedQty (c : ℕ → Bool) (r : Row) : ℚ := if c r.label then r.quantity else -r.quantity

/-- The sum of the signed quantities. -/
def signedSum (c : ℕ → Bool) (rows : DF) : ℚ := (rows.map (signedQty c)).sum

/-- The coin vector with the coin `i` turned over. -/
def flipCoin {n : ℕ} (i : ℕ) (d : Fin n → Bool) : Fin n → Bool := fun j => if (j : ℕ) = i then !d j else d j

theorem flipCoin_flipCoin {n : ℕ} (i : ℕ) (d : Fin n → Bool) : flipCoin i (flipCoin i d) = d := by
  funext j
  unfold flipCoin
  split_ifs <;> simp

theorem coins_flipCoin_self {n : ℕ} {i : ℕ} (hi : i < n) (d : Fin n → Bool) :
    coins (flipCoin i d) i = !coins d i := by
  simp [coins, flipCoin, hi]

theorem coins_flipCoin_ne {n : ℕ} {i j : ℕ} (hij : j ≠ i) (d : Fin n → Bool) :
    coins (flipCoin i d) j = coins d j := by
  simp [coins, flipCoin, hij]

theorem signedSum_flipCoin {n : ℕ} {i : ℕ} (d : Fin n → Bool) (rows : DF) (h : ∀ r ∈ rows, r.label ≠ i) :
    signedSum (coins (flipCoin i d)) rows = signedSum (coins d) rows := by
  unfold signedSum
  congr 1
  apply List.map_congr_left
  intro r hr
  unfold signedQty
  rw [coins_flipCoin_ne (h r hr)]

theorem signedQty_sq (c : ℕ → Bool) (r : Row) : signedQty c r ^ 2 = r.quantity ^ 2 := by
  unfold signedQty
  split_ifs <;> ring

theorem cross_cancel {n : ℕ} (A : Finset (Fin n → Bool)) (s : (Fin n → Bool) → ℚ) (r : Row)
    (hr : r.label < n) (hA : ∀ d ∈ A, flipCoin r.label d ∈ A) (hs : ∀ d, s (flipCoin r.label d) = s d) :
    ∑ d ∈ A, 2 * s d * signedQty (coins d) r = 0 := by
  apply Finset.sum_involution (fun d _ => flipCoin r.label d)
  · intro d _
    rw [hs]
    unfold signedQty
    rw [coins_flipCoin_self hr]
    cases coins d r.label <;> simp
  · intro d _ _ he
    have := coins_flipCoin_self hr d
    rw [he] at this
    cases h : coins d r.label <;> simp [h] at this
  · intro d hd; exact hA d hd
  · intro d _; exact flipCoin_flipCoin _ _

open Classical in
/-- The walk that starts at `s d` and follows `rows`. -/
theorem walk_from {n : ℕ} (ε : ℚ) (rows : DF) : ∀ (A : Finset (Fin n → Bool)) (s : (Fin n → Bool) → ℚ),
    (rows.map (fun r => r.label)).Nodup → (∀ r ∈ rows, r.label < n) →
    (∀ r ∈ rows, ∀ d, (flipCoin r.label d ∈ A ↔ d ∈ A)) → (∀ r ∈ rows, ∀ d, s (flipCoin r.label d) = s d) →
    0 ≤ ε →
    ∑ d ∈ A, (if ∃ k, ε < |s d + signedSum (coins d) (rows.take k)| then ε ^ 2 else 0) ≤
      ∑ d ∈ A, (s d ^ 2 + (rows.map (fun r => r.quantity ^ 2)).sum) := by
  induction rows with
  | nil =>
    intro A s _ _ _ _ h0
    apply Finset.sum_le_sum
    intro d _
    simp only [List.take_nil, signedSum, List.map_nil, List.sum_nil, add_zero, exists_const]
    split_ifs with h
    · rw [← sq_abs (s d)]
      exact pow_le_pow_left₀ h0 h.le 2
    · positivity
  | cons r rows ih =>
    intro A s hnd hlt hA hs h0
    have hnd' := List.nodup_cons.mp hnd
    have hne : ∀ r' ∈ rows, r'.label ≠ r.label := fun r' hr' he =>
      hnd'.1 (List.mem_map.mpr ⟨r', hr', he⟩)
    -- the vectors whose walk has left the strip already
    have key := ih (A.filter (fun d => ¬ ε < |s d|)) (fun d => s d + signedQty (coins d) r) hnd'.2
      (fun r' h => hlt r' (List.mem_cons_of_mem _ h))
      (fun r' h d => by
        rw [Finset.mem_filter, Finset.mem_filter, hA r' (List.mem_cons_of_mem _ h),
          hs r' (List.mem_cons_of_mem _ h)])
      (fun r' h d => by
        rw [hs r' (List.mem_cons_of_mem _ h)]
        unfold signedQty
        rw [coins_flipCoin_ne (hne r' h).symm])
      h0
    rw [← Finset.sum_filter_add_sum_filter_not A (fun d => ε < |s d|),
      ← Finset.sum_filter_add_sum_filter_not A (fun d => ε < |s d|) (fun d => s d ^ 2 + _)]
    apply add_le_add
    · apply Finset.sum_le_sum
      intro d hd
      have hd' := (Finset.mem_filter.mp hd).2
      rw [if_pos ⟨0, by simpa [signedSum] using hd'⟩]
      have h1 : ε ^ 2 ≤ s d ^ 2 := by
        rw [← sq_abs (s d)]
        exact pow_le_pow_left₀ h0 hd'.le 2
      have h2 : 0 ≤ ((r :: rows).map (fun r => r.quantity ^ 2)).sum :=
        List.sum_nonneg (by
          intro x hx
          obtain ⟨r', -, rfl⟩ := List.mem_map.mp hx
          positivity)
      linarith
    · have hL : ∑ d ∈ A.filter (fun d => ¬ ε < |s d|),
          (if ∃ k, ε < |s d + signedSum (coins d) ((r :: rows).take k)| then ε ^ 2 else 0) =
          ∑ d ∈ A.filter (fun d => ¬ ε < |s d|),
          (if ∃ k, ε < |s d + signedQty (coins d) r + signedSum (coins d) (rows.take k)| then ε ^ 2
            else 0) := by
        apply Finset.sum_congr rfl
        intro d hd
        have hd' := (Finset.mem_filter.mp hd).2
        congr 1
        apply propext
        constructor
        · rintro ⟨k, hk⟩
          cases k with
          | zero => exact absurd (by simpa [signedSum] using hk) hd'
          | succ k =>
            refine ⟨k, ?_⟩
            simpa [signedSum, add_assoc] using hk
        · rintro ⟨k, hk⟩
          refine ⟨k + 1, ?_⟩
          simpa [signedSum, add_assoc] using hk
      rw [hL]
      refine le_trans key (le_of_eq ?_)
      have hc := cross_cancel (A.filter (fun d => ¬ ε < |s d|)) s r (hlt r (List.mem_cons_self ..))
        (fun d hd => by
          rw [Finset.mem_filter] at hd ⊢
          rw [hA r (List.mem_cons_self ..), hs r (List.mem_cons_self ..)]
          exact hd)
        (hs r (List.mem_cons_self ..))
      rw [← add_zero (∑ d ∈ A.filter (fun d => ¬ ε < |s d|), (s d ^ 2 + _)), ← hc,
        ← Finset.sum_add_distrib]
      apply Finset.sum_congr rfl
      intro d _
      rw [List.map_cons, List.sum_cons, ← signedQty_sq (coins d) r]
      ring

open Classical in
/-- Few coin vectors drive the walk out of the strip of half-width `ε`. -/
theorem walk_card {n : ℕ} {ε : ℚ} (h0 : 0 ≤ ε) (rows : DF) (hnd : (rows.map (fun r => r.label)).Nodup)
    (hlt : ∀ r ∈ rows, r.label < n) :
    ((Finset.univ.filter (fun d : Fin n → Bool =>
      ∃ k, ε < |signedSum (coins d) (rows.take k)|)).card : ℚ) * ε ^ 2 ≤
      2 ^ n * (rows.map (fun r => r.quantity ^ 2)).sum := by
  have := walk_from ε rows Finset.univ (fun _ => 0) hnd hlt (by simp) (by simp) h0
  simp only [zero_add, ne_eq, OfNat.ofNat_ne_zero, not_false_eq_true, zero_pow] at this
  rw [Finset.sum_const, Finset.card_univ, Fintype.card_fun, Fintype.card_bool, Fintype.card_fin,
    nsmul_eq_mul, ← Finset.sum_filter, Finset.sum_const, nsmul_eq_mul] at this
  push_cast at this
  exact this

end PyMarket
