import Verif.Model.MudaUnlimited
import Verif.Spec.MudaUnlimited
import Verif.Props.Unlimited
import Verif.Lemmas.MudaSide
import Verif.Lemmas.TradingBids
import Verif.Lemmas.Managers

/-! # A round of MUDA with unlimited bids -/

set_option autoImplicit false

namespace PyMarket

open Spec

section

variable {S : Sorter} {qty : ℕ → Ext} {Q B : ℚ}

theorem lastIndexU_same {l : List Ext} (h0 : ∀ e ∈ l, ((0 : ℚ) : Ext) ≤ e) (hB : (l.map (fun e => e.untopD 0)).sum ≤ B)
    (hB0 : 0 ≤ B) (hBQ : B < Q) {q : ℚ} (hq : q ≤ B) :
    lastIndexU l (q : Ext) = lastIndex (l.map (fun e => e.untopD Q)) q := by
  unfold lastIndexU lastIndex
  have hc : ((q : Ext) < l.sum) ↔ q < (l.map (fun e => e.untopD Q)).sum := by
    rcases sum_sameUpTo (Q := Q) (hB0.trans hBQ.le) h0 hB with ⟨h1, _⟩ | ⟨h1, h2⟩
    · rw [h1]; exact WithTop.coe_lt_coe
    · rw [h1]
      exact ⟨fun _ => lt_of_lt_of_le (lt_of_le_of_lt hq hBQ) (WithTop.coe_le_coe.mp h2), fun _ => WithTop.coe_lt_top q⟩
  have hm : (extCumsumFrom ((0 : ℚ) : Ext) l).map (fun c => decide ((q : Ext) ≤ c)) =
      (cumsum (l.map (fun e => e.untopD Q))).map (fun c => decide (q ≤ c)) := by
    have hf := cumsum_sameUpTo (B := B) (Q := Q) (hB0.trans hBQ.le) (a := 0) h0 (le_refl 0) (by rwa [zero_add])
    unfold cumsum
    generalize extCumsumFrom ((0 : ℚ) : Ext) l = u at hf ⊢
    generalize cumsumFrom 0 (l.map (fun e => e.untopD Q)) = v at hf ⊢
    induction hf with
    | nil => rfl
    | cons h _ ih =>
      rw [List.map_cons, List.map_cons, ih]
      congr 1
      have := SameUpTo.le_iff hBQ h (WithTop.coe_le_coe.mpr hq)
      rw [decide_eq_decide, this]
      exact WithTop.coe_le_coe
  by_cases hlt : (q : Ext) < l.sum
  · rw [if_pos hlt, if_pos (hc.mp hlt), hm]
  · rw [if_neg hlt, if_neg (fun h => hlt (hc.mpr h)), List.length_map]

theorem ofExt_limited {e : Ext} (h : e ≠ ⊤) : Val.ofExt e = .fin (e.untopD Q) := by
  induction e using WithTop.recTopCoe with
  | top => exact absurd rfl h
  | coe q => rfl

/-- One side trades as in the filled book. -/
theorem tradingTransU_same {rows : DF} (h0 : ∀ e ∈ rows.map (fun r => qty r.label), ((0 : ℚ) : Ext) ≤ e)
    (hB : ((rows.map (fun r => qty r.label)).map (fun e => e.untopD 0)).sum ≤ B) (hB0 : 0 ≤ B) (hBQ : B < Q)
    {q : ℚ} (hq0 : 0 ≤ q) (hq : q ≤ B) {out : DF} {k : ℕ} (p : ℚ)
    (h : getTradingBids (rows.map (fillRow qty Q)) q = .ok (out, k)) :
    tradingTransU p qty rows (q : Ext) = .ok ((tradingTrans out k p).map ofTransaction) := by
  have hne : rows ≠ [] := by
    rintro rfl
    unfold getTradingBids at h
    rw [if_neg (fun hh => absurd hh.2 (not_lt.mpr hq0))] at h
    simp at h
  have hnn : ∀ x ∈ rows, 0 ≤ (qty x.label).untopD Q := by
    intro x hx
    have := h0 _ (List.mem_map_of_mem hx)
    cases e : qty x.label using WithTop.recTopCoe with
    | top => show 0 ≤ Q; linarith
    | coe c => rw [e] at this; exact WithTop.coe_le_coe.mp this
  obtain ⟨A, x, C, rfl, hi, hA, hx⟩ := lastIndex_spec (q := fun r : Row => (qty r.label).untopD Q) hq0 hne hnn
  have hi' : lastIndex (((A ++ x :: C).map (fillRow qty Q)).map (fun r => r.quantity)) q = A.length := by
    rw [List.map_map]; exact hi
  have hiU : lastIndexU ((A ++ x :: C).map (fun r => qty r.label)) (q : Ext) = A.length := by
    rw [lastIndexU_same h0 hB hB0 hBQ hq, List.map_map]; exact hi
  have hsA : (A.map (fun r => qty r.label)).sum = ((A.map (fun r => (qty r.label).untopD Q)).sum : ℚ) ∧
      ∀ r ∈ A, qty r.label ≠ ⊤ := by
    have hnA : ∀ e ∈ A.map (fun r => qty r.label), ((0 : ℚ) : Ext) ≤ e := by
      intro e he
      refine h0 e ?_
      rw [List.map_append]; exact List.mem_append_left _ he
    have hz : ∀ l : List Ext, (∀ e ∈ l, ((0 : ℚ) : Ext) ≤ e) → 0 ≤ (l.map (fun e => e.untopD 0)).sum := by
      intro l hl
      apply List.sum_nonneg
      intro y hy
      obtain ⟨e, he, rfl⟩ := List.mem_map.mp hy
      exact untop_nonneg (hl e he)
    have hBA : ((A.map (fun r => qty r.label)).map (fun e => e.untopD 0)).sum ≤ B := by
      rw [List.map_append, List.map_append, List.sum_append] at hB
      have := hz ((x :: C).map (fun r => qty r.label)) (fun e he => h0 e (by
        rw [List.map_append]; exact List.mem_append_right _ he))
      linarith
    have hA' : ((A.map (fun r => qty r.label)).map (fun e => e.untopD Q)).sum ≤ q := by
      rw [List.map_map]; exact hA
    rcases sum_sameUpTo (Q := Q) (hB0.trans hBQ.le) hnA hBA with ⟨h1, h2⟩ | ⟨_, h2⟩
    · refine ⟨by rw [h1, List.map_map]; rfl, fun r hr => ?_⟩
      refine sum_limited (l := A.map (fun r => qty r.label)) ?_ _ (List.mem_map_of_mem hr)
      rw [h1]; exact WithTop.coe_ne_top
    · have := WithTop.coe_le_coe.mp h2
      linarith
  have hget : ((A ++ x :: C).map (fillRow qty Q))[A.length]? = some (fillRow qty Q x) := by simp
  have htk : ((A ++ x :: C).map (fillRow qty Q)).take A.length = A.map (fillRow qty Q) := by simp
  have hsumA : qsum (A.map (fillRow qty Q)) = (A.map (fun r => (qty r.label).untopD Q)).sum := by
    unfold qsum
    rw [List.map_map]; rfl
  have hsum0 : 0 ≤ (A.map (fun r => (qty r.label).untopD Q)).sum := by
    apply List.sum_nonneg
    intro y hy
    obtain ⟨r, hr, rfl⟩ := List.mem_map.mp hy
    exact hnn r (List.mem_append_left _ hr)
  have hpre : A.map (fun r => (⟨r.label, Val.ofExt (qty r.label), p, -1, false⟩ : TransU)) =
      (mkTrans p (A.map (fillRow qty Q))).map ofTransaction := by
    unfold mkTrans
    rw [List.map_map, List.map_map]
    refine List.map_congr_left (fun r hr => ?_)
    rw [ofExt_limited (Q := Q) (hsA.2 r hr)]
    rfl
  unfold tradingTransU
  simp only [hiU, List.getElem?_append_right (le_refl _), Nat.sub_self, List.getElem?_cons_zero, List.take_left, hsA.1]
  rw [hpre]
  unfold getTradingBids at h
  rw [if_neg (fun hh => absurd hh.2 (not_lt.mpr hq0))] at h
  simp only [hi', hget, htk, hsumA] at h
  set a := (A.map (fun r => (qty r.label).untopD Q)).sum with ha
  have hdiff : (Val.ofExt (q : Ext)).sub (Val.ofExt (a : Ext)) = .fin (q - a) := by
    show Val.fin (q + -a) = _
    rw [sub_eq_add_neg]
  rw [hdiff]
  have hlt : (Val.fin (q - a)).lt (Val.ofExt (qty x.label)) = decide (q - a < (fillRow qty Q x).quantity) := by
    show _ = decide (q - a < (qty x.label).untopD Q)
    cases e : qty x.label using WithTop.recTopCoe with
    | top =>
      show true = decide (q - a < Q)
      rw [eq_comm, decide_eq_true_iff]
      linarith
    | coe c => rfl
  rw [hlt]
  by_cases hd : q - a < (fillRow qty Q x).quantity
  · rw [if_pos hd] at h
    cases h
    rw [tradingTrans_eq, if_pos (decide_eq_true hd)]
    have : (A.map (fillRow qty Q) ++ { fillRow qty Q x with quantity := q - a } ::
        { fillRow qty Q x with quantity := (fillRow qty Q x).quantity - (q - a) } ::
          ((A ++ x :: C).map (fillRow qty Q)).drop (A.length + 1)).take (A.length + 1) =
        A.map (fillRow qty Q) ++ [{ fillRow qty Q x with quantity := q - a }] := by
      rw [List.take_append]
      simp
    rw [this]
    unfold mkTrans
    rw [List.map_append, List.map_append]
    rfl
  · rw [if_neg hd] at h
    cases h
    rw [tradingTrans_eq, if_neg (by simpa using hd)]
    have : ((A ++ x :: C).map (fillRow qty Q)).take (A.length + 1) = A.map (fillRow qty Q) ++ [fillRow qty Q x] := by
      rw [List.map_append, List.take_append]
      simp
    rw [this]
    have hxl : qty x.label ≠ ⊤ := by
      intro e
      apply hd
      show q - a < (qty x.label).untopD Q
      rw [e]
      show q - a < Q
      linarith
    rw [ofExt_limited (Q := Q) hxl]
    unfold mkTrans
    rw [List.map_append, List.map_append]
    rfl

end

end PyMarket
