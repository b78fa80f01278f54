import Verif.Lemmas.Managers

/-! # Lemmas about tables whose labels are positions -/

set_option autoImplicit false

namespace PyMarket

open Spec

theorem isTable_labelFrom (bs : List Bid) : IsTable (labelFrom 0 bs) := by
  unfold IsTable
  rw [labelFrom_map_label, labelFrom_length, List.range_eq_range']

theorem Spec.IsTable.nodup {df : DF} (h : IsTable df) : (df.map (fun r => r.label)).Nodup := by
  rw [h]; exact List.nodup_range

theorem Spec.IsTable.label {df : DF} (h : IsTable df) {k : ℕ} {r : Row} (hk : df[k]? = some r) :
    r.label = k := by
  have := congrArg (fun l => l[k]?) h
  simp only [List.getElem?_map, hk, Option.map_some] at this
  have hlt : k < df.length := by
    by_contra hc
    rw [List.getElem?_eq_none (not_lt.mp hc)] at hk
    cases hk
  rw [List.getElem?_range hlt] at this
  exact Option.some.inj this

theorem Spec.IsTable.get_label {df : DF} (h : IsTable df) {r : Row} (hr : r ∈ df) :
    df[r.label]? = some r := by
  obtain ⟨k, hk⟩ := List.getElem?_of_mem hr
  rw [h.label hk]; exact hk

theorem Spec.IsTable.label_lt {df : DF} (h : IsTable df) {r : Row} (hr : r ∈ df) :
    r.label < df.length := by
  have := h.get_label hr
  by_contra hc
  rw [List.getElem?_eq_none (not_lt.mp hc)] at this
  cases this

theorem Spec.IsTable.inj {df : DF} (h : IsTable df) {r r' : Row} (hr : r ∈ df) (hr' : r' ∈ df)
    (hl : r.label = r'.label) : r = r' := by
  have h1 := h.get_label hr
  have h2 := h.get_label hr'
  rw [hl, h2] at h1
  exact (Option.some.inj h1).symm

theorem Spec.IsTable.qty_eq {df : DF} (h : IsTable df) {r : Row} (hr : r ∈ df) :
    qtyOf df r.label = r.quantity := by simp [Spec.qtyOf, h.get_label hr]

theorem Spec.IsTable.price_eq {df : DF} (h : IsTable df) {r : Row} (hr : r ∈ df) :
    priceOf df r.label = r.price := by simp [Spec.priceOf, h.get_label hr]

theorem Spec.IsTable.isBuy_eq {df : DF} (h : IsTable df) {r : Row} (hr : r ∈ df) :
    isBuy df r.label = r.buying := by simp [Spec.isBuy, h.get_label hr]

theorem Spec.IsTable.isSell_eq {df : DF} (h : IsTable df) {r : Row} (hr : r ∈ df) :
    isSell df r.label = !r.buying := by simp [Spec.isSell, h.get_label hr]

theorem mem_buys {df : DF} {r : Row} : r ∈ buys df ↔ r ∈ df ∧ r.buying = true := by
  simp [buys]

theorem mem_sells {df : DF} {r : Row} : r ∈ sells df ↔ r ∈ df ∧ r.buying = false := by
  simp [sells]

theorem buys_sublist (df : DF) : (buys df).Sublist df := List.filter_sublist

theorem sells_sublist (df : DF) : (sells df).Sublist df := List.filter_sublist

theorem buys_sells_perm (df : DF) : (buys df ++ sells df).Perm df := by
  unfold buys sells
  exact List.filter_append_perm (fun r => r.buying) df

end PyMarket
