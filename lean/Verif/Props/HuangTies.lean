import Verif.Props.HuangCritical
import Verif.Lemmas.Stable

/-! # C59, C66: equal prices in Huang's auction

On books with equal prices the outcome depends on how the sort orders them. A stable sort is enough for
truthfulness; a sort whose order of equal prices may depend on the other prices is not. -/

set_option autoImplicit false

namespace PyMarket

open Spec

/-- **C59 with ties.** In Huang's auction itself, with a stable sort, on every book: a user whose only bid
is `r` gets at least the surplus of any other price report. -/
theorem C59_stable (S : Sorter) (hS : Stable S) (df : DF) (ht : IsTable df) (hn : NonNeg df)
    (i : ℕ) (u : ℤ) (r : Row) (hi : df[i]? = some r) (hru : r.user = u)
    (hs : ∀ a ∈ df, a.user = u → a = r)
    (w : ℚ) (hw0 : 0 ≤ w) (tm tm' : TransactionManager) (ex ex' : Extra)
    (h : huangAuction S df = .ok (tm, ex))
    (h' : huangAuction S (df.set i { r with price := w }) = .ok (tm', ex')) :
    surplusOf df (priceOf df) u tm'.trans ≤ surplusOf df (priceOf df) u tm.trans := by
  have hR := repriced_set ht hi w
  have hn' := hR.nonNeg hn hw0
  have hlab := ht.label hi
  refine huang_truthful_kept S df ht hn i u r hi hru hs w hw0 ?_ ?_ tm tm' ex ex' h h'
  · intro _ x pb _ hc' _ _ h1 h1'
    exact huangB_kept_stable hS hR hn hn' hc' h1 h1' hlab hlab rfl
  · intro _ x ps _ hc' _ _ h1 h1'
    exact huangA_kept_stable hS hR hn hc' h1 h1' hlab hlab rfl

/-- **C66 with ties.** With a stable sort, on every book: a bid that trades with two reports trades the
same quantity with both. -/
theorem C66_quantity_stable (S : Sorter) (hS : Stable S) (df : DF) (ht : IsTable df) (hn : NonNeg df)
    (i : ℕ) (r : Row) (hi : df[i]? = some r) (w : ℚ) (hw0 : 0 ≤ w)
    (tm tm' : TransactionManager) (ex ex' : Extra) (h : huangAuction S df = .ok (tm, ex))
    (h' : huangAuction S (df.set i { r with price := w }) = .ok (tm', ex'))
    (t t' : Transaction) (htm : t ∈ tm.trans) (hb : t.bid = i) (htm' : t' ∈ tm'.trans)
    (hb' : t'.bid = i) : tradedBy tm'.trans i = tradedBy tm.trans i := by
  have hR := repriced_set ht hi w
  have hlab := ht.label hi
  have hrm := List.mem_of_getElem? hi
  have hn' := hR.nonNeg hn hw0
  have ht' := hR.table'
  have hi' : (df.set i { r with price := w })[i]? = some { r with price := w } := by
    rw [List.getElem?_set_self (List.getElem?_eq_some_iff.mp hi).1]
  have hsym := hR.symm hrm hlab
  have hpt := C59_price_independent S df ht hn i r hi w hw0 tm tm' ex ex' h h' t t' htm htm' hb hb'
  rcases huang_bid S ht hn h hi with hno | ⟨x, ps, pb, cs, cb, hw, hbuy, hsell⟩
  · exact absurd hb (hno t htm)
  rcases huang_bid S ht' hn' h' hi' with hno | ⟨x', ps', pb', cs', cb', hw', hbuy', hsell'⟩
  · exact absurd hb' (hno t' htm')
  cases hside : r.buying with
  | true =>
    obtain ⟨h1, h2, h3⟩ := hbuy hside
    obtain ⟨h1', h2', h3'⟩ := hbuy' hside
    rw [h3 t htm hb, h3' t' htm' hb'] at hpt
    have hle : pb' ≤ w := ((huangB_spec hn' hw'.cross hw'.demand).1 _ h1').2.2
    obtain ⟨hc, hdem, _⟩ := crossing_reprice_buy hR hn hw.cross hw.demand h1 hlab (by rw [hpt]; exact hle)
    obtain rfl : x' = x := hw'.cross.unique hc
    subst hpt
    rw [h2, h2']
    apply le_antisymm
    · exact huang_buy_quantity (r' := { r with price := w }) hR hn hn' hlab hlab hside hw
        (huangB_kept_stable hS hR hn hn' hw'.cross h1 h1' hlab hlab rfl) h1 hw' h1'
    · exact huang_buy_quantity (r := { r with price := w }) (r' := r) hsym hn' hn hlab hlab hside hw'
        (huangB_kept_stable hS hsym hn' hn hw.cross h1' h1 hlab hlab rfl) h1' hw h1
  | false =>
    obtain ⟨h1, h2, h3⟩ := hsell hside
    obtain ⟨h1', h2', h3'⟩ := hsell' hside
    rw [h3 t htm hb, h3' t' htm' hb'] at hpt
    have hle : w ≤ ps' := ((huangA_spec hw'.cross hw'.supply).1 _ h1').2.2
    obtain ⟨hc, hsup, _⟩ := crossing_reprice_sell hR hn hw0 hw.cross hw.supply h1 hlab
      (by rw [hpt]; exact hle)
    obtain rfl : x' = x := hw'.cross.unique hc
    subst hpt
    rw [h2, h2']
    apply le_antisymm
    · exact huang_sell_quantity (r' := { r with price := w }) hR hn hn' hlab hlab hside hw
        (huangA_kept_stable hS hR hn hw'.cross h1 h1' hlab hlab rfl) h1 hw' h1'
    · exact huang_sell_quantity (r := { r with price := w }) (r' := r) hsym hn' hn hlab hlab hside hw'
        (huangA_kept_stable hS hsym hn' hw.cross h1' h1 hlab hlab rfl) h1' hw h1

/-- Two buyers at the marginal price. -/
def tiedBuyers : DF := labelFrom 0
  [⟨2, 10, 0, true, 0, true⟩, ⟨1, 8, 1, true, 0, true⟩, ⟨3, 8, 2, true, 0, true⟩,
   ⟨2, 1, 3, false, 0, true⟩, ⟨5, 2, 4, false, 0, true⟩]

/-- A case that meets the hypotheses: the buyers of `tiedBuyers` at 8 tie; user 0 gets the same 3 with the
reports 10, 11 and 8, and so trades 3/2 units with all of them. -/
example : Stable stableSorter ∧ IsTable tiedBuyers ∧ NonNeg tiedBuyers ∧
    (∀ a ∈ tiedBuyers, a.user = 0 → a = ⟨⟨2, 10, 0, true, 0, true⟩, 0⟩) ∧
    ¬ ((tiedBuyers.filter (fun a => a.buying == true)).map (fun a => a.price)).Nodup ∧
    (huangAuction stableSorter tiedBuyers).toOption.map
      (fun o => (surplusOf tiedBuyers (priceOf tiedBuyers) 0 o.1.trans, tradedBy o.1.trans 0)) =
      some (3, 3 / 2) ∧
    (huangAuction stableSorter (tiedBuyers.set 0 ⟨⟨2, 11, 0, true, 0, true⟩, 0⟩)).toOption.map
      (fun o => (surplusOf tiedBuyers (priceOf tiedBuyers) 0 o.1.trans, tradedBy o.1.trans 0)) =
      some (3, 3 / 2) ∧
    (huangAuction stableSorter (tiedBuyers.set 0 ⟨⟨2, 8, 0, true, 0, true⟩, 0⟩)).toOption.map
      (fun o => (surplusOf tiedBuyers (priceOf tiedBuyers) 0 o.1.trans, tradedBy o.1.trans 0)) =
      some (3, 3 / 2) :=
  ⟨stableSorter_stable, by decide +kernel⟩

/-- Sorts in decreasing order, and orders the equal prices of `[10, 8, 8]` from the back. -/
def fickleSorter : Sorter where
  asc := stableSorter.asc
  desc l := if l = [10, 8, 8] then [0, 2, 1] else stableSorter.desc l
  asc_perm := stableSorter.asc_perm
  desc_perm l := by
    split
    · rename_i h; subst h; decide
    · exact stableSorter.desc_perm l
  asc_sorted := stableSorter.asc_sorted
  desc_sorted l := by
    split
    · rename_i h; subst h; decide +kernel
    · exact stableSorter.desc_sorted l

/-- **C59 with ties, refuted for some sorts.** `sort_values` without `kind` promises no order of equal
prices. With a sort that changes this order when another price changes, user 0 of `tiedBuyers` gains by
reporting 11: 3/2 units instead of 1/2. -/
theorem C59_unstable_refuted :
    ¬ ∀ (i : ℕ) (r : Row) (w : ℚ), tiedBuyers[i]? = some r → 0 ≤ w →
      ∀ tm tm' ex ex', huangAuction fickleSorter tiedBuyers = .ok (tm, ex) →
        huangAuction fickleSorter (tiedBuyers.set i { r with price := w }) = .ok (tm', ex') →
        surplusOf tiedBuyers (priceOf tiedBuyers) r.user tm'.trans ≤
          surplusOf tiedBuyers (priceOf tiedBuyers) r.user tm.trans := by
  intro h
  have key := h 0 ⟨⟨2, 10, 0, true, 0, true⟩, 0⟩ 11 (by decide +kernel) (by norm_num)
    ⟨3, [⟨3, 2, 2, -1, false⟩, ⟨0, 1 / 2, 8, -1, false⟩, ⟨2, 3 / 2, 8, -1, false⟩]⟩
    ⟨3, [⟨3, 2, 2, -1, false⟩, ⟨0, 3 / 2, 8, -1, false⟩, ⟨1, 1 / 2, 8, -1, false⟩]⟩
    (.huang ((2 : ℚ) : Ext) ((8 : ℚ) : Ext) 2) (.huang ((2 : ℚ) : Ext) ((8 : ℚ) : Ext) 2)
    (by decide +kernel) (by decide +kernel)
  revert key
  decide +kernel

end PyMarket
