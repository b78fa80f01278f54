import Verif.Model.Uniform
import Verif.Props.WelfareTheorem
import Verif.Props.HuangWelfare

/-! # The outcome of the uniform price mechanism -/

set_option autoImplicit false

namespace PyMarket

open Spec

theorem stepIdx_exact {x a : ℚ} {rows : DF} {e : Ext} {m : Row} (hq : ∀ r ∈ rows, 0 ≤ r.quantity)
    (hx : (x : Ext) ∈ (stepCurve a rows e).map Prod.fst)
    (hm : rows[stepIdx (x : Ext) a rows]? = some m) :
    a + qsum (rows.take (stepIdx (x : Ext) a rows)) + m.quantity = x := by
  induction rows generalizing a with
  | nil => simp at hm
  | cons r rows ih =>
    simp only [stepCurve, List.map_cons, List.mem_cons] at hx
    have hq' : ∀ r ∈ rows, 0 ≤ r.quantity := fun r hr => hq r (List.mem_cons_of_mem _ hr)
    simp only [stepIdx] at hm ⊢
    by_cases hc : (x : Ext) ≤ ((a + r.quantity : ℚ) : Ext)
    · simp only [hc, if_true] at hm ⊢
      cases hm
      rcases hx with hx | hx
      · have := WithTop.coe_injective hx
        simpa using this.symm
      · obtain ⟨s, hs, hsx⟩ := List.mem_map.mp hx
        have h1 := stepCurve_fst_ge hq' hs
        rw [hsx] at h1
        have h2 := WithTop.coe_le_coe.mp h1
        have h3 := WithTop.coe_le_coe.mp hc
        simp; linarith
    · simp only [hc, if_false, List.take_succ_cons, qsum_cons] at hm ⊢
      have hx' : (x : Ext) ∈ (stepCurve (a + r.quantity) rows e).map Prod.fst := by
        rcases hx with hx | hx
        · exact absurd (le_of_eq hx) hc
        · exact hx
      have := ih hq' hx' (by simpa using hm)
      linarith

/-- The transactions of one side: the bids in front trade everything, the marginal one the rest of `x`. -/
def servedTrans (rows : DF) (m : Row) (x p : ℚ) : List Transaction :=
  uniformShort p rows ++ [{ bid := m.label, quantity := x - qsum rows, price := p, source := -1, active := false }]

theorem uniformLong_served {p x : ℚ} {m : Row} {a : ℚ} {rows : DF} (hq : ∀ r ∈ rows, 0 ≤ r.quantity)
    (h1 : a + qsum rows ≤ x) (h2 : x ≤ a + qsum rows + m.quantity) :
    uniformLong p x a (rows ++ [m]) = uniformShort p rows ++
      [{ bid := m.label, quantity := x - (a + qsum rows), price := p, source := -1, active := false }] := by
  induction rows generalizing a with
  | nil =>
    simp only [qsum, List.map_nil, List.sum_nil, add_zero] at h1 h2
    simp only [List.nil_append, uniformLong, uniformShort, List.map_nil, qsum, List.sum_nil, add_zero]
    congr 2
    split_ifs with hc
    · linarith
    · rfl
  | cons r rows ih =>
    have h0 : 0 ≤ qsum rows := qsum_nonneg (fun r hr => hq r (List.mem_cons_of_mem _ hr))
    rw [qsum_cons] at h1 h2 ⊢
    simp only [List.cons_append, uniformLong, uniformShort, List.map_cons]
    rw [if_pos (by linarith), ih (fun r hr => hq r (List.mem_cons_of_mem _ hr)) (by linarith) (by linarith)]
    simp only [uniformShort, add_assoc]

theorem take_succ_of_getElem? {α : Type*} {l : List α} {n : ℕ} {m : α} (h : l[n]? = some m) :
    l.take (n + 1) = l.take n ++ [m] := by
  rw [List.take_add_one, h]; rfl

/-- What the mechanism returns when the curves cross. -/
theorem uniform_eval (S : Sorter) {df : DF} (h : NonNeg df) {x : ℚ} (hc : Crossing S df x) :
    ∃ (mb ms : Row) (p : ℚ), (sortDesc S (buys df))[demandIdx S df x]? = some mb ∧
      (sortAsc S (sells df))[supplyIdx S df x]? = some ms ∧
      demandAt S df x = (mb.price : Ext) ∧ supplyAt S df x = (ms.price : Ext) ∧
      crossPrice S df (1 / 2) x = .fin p ∧ ms.price ≤ p ∧ p ≤ mb.price ∧
      qsum (huangB S df x) ≤ x ∧ x ≤ qsum (huangB S df x) + mb.quantity ∧
      qsum (huangA S df x) ≤ x ∧ x ≤ qsum (huangA S df x) + ms.quantity ∧
      uniformPrice S df = .ok (TransactionManager.init.addAll
        (if qsum (huangA S df x) + ms.quantity < qsum (huangB S df x) + mb.quantity
          then servedTrans (huangA S df x) ms x p ++ servedTrans (huangB S df x) mb x p
          else servedTrans (huangB S df x) mb x p ++ servedTrans (huangA S df x) ms x p),
        some (x : Ext), .fin p) := by
  have hqb : ∀ r ∈ sortDesc S (buys df), 0 ≤ r.quantity :=
    fun r hr => (h r (mem_buys.mp (mem_sortDesc.mp hr)).1).1
  have hqs : ∀ r ∈ sortAsc S (sells df), 0 ≤ r.quantity :=
    fun r hr => (h r (mem_sells.mp (mem_sortAsc.mp hr)).1).1
  obtain ⟨mb, hb1, hb2⟩ := hc.marginal_buy h
  obtain ⟨ms, hs1, hs2⟩ := hc.marginal_sell
  obtain ⟨p, hp1, hp2, hp3⟩ := crossPrice_between (k := 1 / 2) (by norm_num) (by norm_num) hc
  have cb := stepIdx_cover x 0 _ hb1
  have cs := stepIdx_cover x 0 _ hs1
  rw [zero_add] at cb cs
  have lb := qsum_huangB_le h hc
  have ls := qsum_huangA_le h hc
  change x ≤ qsum (huangB S df x) + mb.quantity at cb
  change x ≤ qsum (huangA S df x) + ms.quantity at cs
  refine ⟨mb, ms, p, hb1, hs1, hb2, hs2, hp1, WithTop.coe_le_coe.mp (hs2 ▸ hp2),
    WithTop.coe_le_coe.mp (hb2 ▸ hp3), lb, cb, ls, cs, ?_⟩
  have hex : qsum (huangB S df x) + mb.quantity = x ∨ qsum (huangA S df x) + ms.quantity = x := by
    rcases hc.mem with hm | hm
    · left
      rw [demandCurve_eq] at hm
      have := stepIdx_exact hqb hm hb1
      rwa [zero_add] at this
    · right
      rw [supplyCurve_eq] at hm
      have := stepIdx_exact hqs hm hs1
      rwa [zero_add] at this
  rcases intersect_cases S h (1 / 2) with ⟨y, hc', he⟩ | ⟨_, hn⟩
  swap
  · exact absurd ⟨⟨x, WithTop.coe_le_coe.mpr hc.nonneg, hc.at_x⟩, fun z _ => hc.no_tie h z⟩ hn
  obtain rfl : y = x := hc'.unique hc
  have eB : (sortDesc S (buys df)).take (demandIdx S df y + 1) = huangB S df y ++ [mb] :=
    take_succ_of_getElem? hb1
  have eA : (sortAsc S (sells df)).take (supplyIdx S df y + 1) = huangA S df y ++ [ms] :=
    take_succ_of_getElem? hs1
  have qB : qsum (huangB S df y ++ [mb]) = qsum (huangB S df y) + mb.quantity := by simp [qsum]
  have qA : qsum (huangA S df y ++ [ms]) = qsum (huangA S df y) + ms.quantity := by simp [qsum]
  have nB : ∀ r ∈ huangB S df y, 0 ≤ r.quantity := fun r hr => hqb r (List.mem_of_mem_take hr)
  have nA : ∀ r ∈ huangA S df y, 0 ≤ r.quantity := fun r hr => hqs r (List.mem_of_mem_take hr)
  have short : ∀ (rows : DF) (m : Row), qsum rows + m.quantity = y →
      uniformShort p (rows ++ [m]) = servedTrans rows m y p := by
    intro rows m hy
    have : y - qsum rows = m.quantity := by linarith
    simp [uniformShort, servedTrans, this]
  have long : ∀ (rows : DF) (m : Row), (∀ r ∈ rows, 0 ≤ r.quantity) → qsum rows ≤ y →
      y ≤ qsum rows + m.quantity → uniformLong p y 0 (rows ++ [m]) = servedTrans rows m y p := by
    intro rows m h0 h1 h2
    rw [uniformLong_served h0 (by linarith) (by linarith), zero_add]
    rfl
  unfold uniformPrice
  simp only [he, bind, Except.bind, eB, eA, qB, qA, hp1]
  by_cases hlt : qsum (huangA S df y) + ms.quantity < qsum (huangB S df y) + mb.quantity
  · simp only [hlt, if_true, qA]
    have hy : qsum (huangA S df y) + ms.quantity = y := by
      rcases hex with hex | hex
      · linarith
      · exact hex
    rw [hy, Val.toRat, short _ _ hy, long _ _ nB lb cb]
  · simp only [hlt, if_false, qB]
    have hy : qsum (huangB S df y) + mb.quantity = y := by
      rcases hex with hex | hex
      · exact hex
      · linarith
    rw [hy, Val.toRat, short _ _ hy, long _ _ nA ls cs]

end PyMarket
