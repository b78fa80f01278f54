import Verif.Lemmas.Lift
import Verif.Model.Stats
import Mathlib.Algebra.BigOperators.Ring.List

/-! # Lemmas about the profit statistic -/

set_option autoImplicit false

namespace PyMarket

open Spec

theorem find_label {df : DF} (ht : IsTable df) (i : ℕ) :
    df.find? (fun r => r.label == i) = df[i]? := by
  cases h : df[i]? with
  | none =>
    rw [List.find?_eq_none]
    intro r hr hl
    have := ht.get_label hr
    rw [beq_iff_eq.mp hl, h] at this
    cases this
  | some r =>
    have hl := ht.label h
    cases hf : df.find? (fun r => r.label == i) with
    | none =>
      rw [List.find?_eq_none] at hf
      exact absurd (beq_iff_eq.mpr hl) (hf r (List.mem_of_getElem? h))
    | some r' =>
      have h1 := List.find?_some hf
      have h2 := List.mem_of_find?_eq_some hf
      rw [ht.inj h2 (List.mem_of_getElem? h) ((beq_iff_eq.mp h1).trans hl.symm)]

theorem joinBids_cons {df : DF} (ht : IsTable df) (t : Transaction) (ts : List Transaction) :
    joinBids df (t :: ts) = (match df[t.bid]? with
      | some r => (t, r) :: joinBids df ts
      | none => joinBids df ts) := by
  unfold joinBids
  rw [List.filterMap_cons, find_label ht]
  cases df[t.bid]? <;> rfl

/-- Sums over the buying part of the join. -/
theorem join_sum_buy {df : DF} (ht : IsTable df) (g : Transaction → ℚ → ℚ) (ts : List Transaction) :
    (((joinBids df ts).filter (fun p => p.2.buying)).map (fun p => g p.1 p.2.price)).sum =
      ((ts.filter (fun t => isBuy df t.bid)).map (fun t => g t (priceOf df t.bid))).sum := by
  induction ts with
  | nil => rfl
  | cons t ts ih =>
    rw [joinBids_cons ht, List.filter_cons]
    cases h : df[t.bid]? with
    | none =>
      have : isBuy df t.bid = false := by simp [isBuy, h]
      simp only [this, ih]; rfl
    | some r =>
      have h1 : isBuy df t.bid = r.buying := by simp [isBuy, h]
      have h2 : priceOf df t.bid = r.price := by simp [priceOf, h]
      simp only [h1, List.filter_cons]
      cases hb : r.buying with
      | true => simp only [if_true, List.map_cons, List.sum_cons, ih, h2]
      | false => simpa using ih

/-- Sums over the selling part of the join. -/
theorem join_sum_sell {df : DF} (ht : IsTable df) (g : Transaction → ℚ → ℚ) (ts : List Transaction) :
    (((joinBids df ts).filter (fun p => !p.2.buying)).map (fun p => g p.1 p.2.price)).sum =
      ((ts.filter (fun t => isSell df t.bid)).map (fun t => g t (priceOf df t.bid))).sum := by
  induction ts with
  | nil => rfl
  | cons t ts ih =>
    rw [joinBids_cons ht, List.filter_cons]
    cases h : df[t.bid]? with
    | none =>
      have : isSell df t.bid = false := by simp [isSell, h]
      simp only [this, ih]; rfl
    | some r =>
      have h1 : isSell df t.bid = !r.buying := by simp [isSell, h]
      have h2 : priceOf df t.bid = r.price := by simp [priceOf, h]
      simp only [h1, List.filter_cons]
      cases hb : r.buying with
      | false => simp only [Bool.not_false, if_true, List.map_cons, List.sum_cons, ih, h2]
      | true => simpa using ih

theorem sum_replicate_zero (n : ℕ) : (List.replicate n (0 : ℚ)).sum = 0 := by simp

/-- The market maker's profit. -/
theorem market_profit {df : DF} (ht : IsTable df) (ts : List Transaction) (res : Option ResPrices)
    (fees : Option (List ℚ)) :
    (calculateProfits df ts res fees).1.market =
      paid df ts - received df ts + (fees.getD []).sum := by
  have e1 := join_sum_buy ht (fun t _ => t.price * t.quantity) ts
  have e2 := join_sum_sell ht (fun t _ => t.price * t.quantity) ts
  unfold calculateProfits
  simp only at e1 e2 ⊢
  rw [e1, e2]
  have f1 : ∀ l : List Transaction, (l.map (fun t => t.price * t.quantity)).sum =
      (l.map (fun t => t.quantity * t.price)).sum := by
    intro l; congr 1; apply List.map_congr_left; intro t _; ring
  rw [f1, f1]
  unfold paid received
  cases fees with
  | none => simp
  | some f => simp

end PyMarket
