import Verif.Lemmas.HuangClear
import Verif.Props.HuangTruthful

/-! # C66: the price of a winner is the threshold between winning and losing reports -/

set_option autoImplicit false

namespace PyMarket

/-- For a buying bid `w` is above `p`, for a selling bid below. -/
def Spec.Bolder (buying : Bool) (p w : ℚ) : Prop := if buying then p < w else w < p

open Spec

/-- **C66, threshold.** On any book: if bid `i` trades at the price `t.price`, then with every
report bolder than that price it trades at the same price, and with every report less bold it does
not trade. -/
theorem C66_threshold (S : Sorter) (df : DF) (ht : IsTable df) (hn : NonNeg df)
    (i : ℕ) (r : Row) (hi : df[i]? = some r) (w : ℚ) (hw0 : 0 ≤ w)
    (tm tm' : TransactionManager) (ex ex' : Extra) (h : huangAuction S df = .ok (tm, ex))
    (h' : huangAuction S (df.set i { r with price := w }) = .ok (tm', ex'))
    (t : Transaction) (htm : t ∈ tm.trans) (hb : t.bid = i) :
    (Bolder r.buying t.price w → ∃ t' ∈ tm'.trans, t'.bid = i ∧ t'.price = t.price) ∧
    (Bolder r.buying w t.price → ∀ t' ∈ tm'.trans, t'.bid ≠ i) := by
  have hR := repriced_set ht hi w
  have hlab := ht.label hi
  have hrm := List.mem_of_getElem? hi
  have hn' := hR.nonNeg hn hw0
  have ht' := hR.table'
  have hi' : (df.set i { r with price := w })[i]? = some { r with price := w } := by
    rw [List.getElem?_set_self (List.getElem?_eq_some_iff.mp hi).1]
  have hrm' := List.mem_of_getElem? hi'
  have hsame := C59_price_independent S df ht hn i r hi w hw0 tm tm' ex ex' h h' t
  rcases huang_bid S ht hn h hi with hno | ⟨x, ps, pb, cs, cb, hw, hbuy, hsell⟩
  · exact absurd hb (hno t htm)
  constructor
  · intro hbold
    suffices hex : ∃ t' ∈ tm'.trans, t'.bid = i by
      obtain ⟨t', h1, h2⟩ := hex
      exact ⟨t', h1, h2, (hsame t' htm h1 hb h2).symm⟩
    unfold Bolder at hbold
    cases hside : r.buying with
    | true =>
      obtain ⟨h1, _, h3⟩ := hbuy hside
      rw [hside, h3 t htm hb] at hbold
      have hbold : pb < w := hbold
      obtain ⟨hc, hdem, _⟩ := crossing_reprice_buy hR hn hw.cross hw.demand h1 hlab hbold.le
      have hrB := (huangB_spec hn' hc hdem).2 _ hrm' hside hbold
      have hA : huangA S (df.set i { r with price := w }) x ≠ [] := by
        have e : huangA S (df.set i { r with price := w }) x = huangA S df x := by
          unfold huangA supplyIdx
          rw [hR.sells hrm hlab hside]
        rw [e]; exact hw.sellers
      obtain ⟨t', g1, g2⟩ := huang_wins S hn' h' hc hA (List.ne_nil_of_mem hrB) (Or.inr hrB)
      exact ⟨t', g1, g2.trans hlab⟩
    | false =>
      obtain ⟨h1, _, h3⟩ := hsell hside
      rw [hside, h3 t htm hb] at hbold
      have hbold : w < ps := by simpa using hbold
      obtain ⟨hc, hsup, _⟩ := crossing_reprice_sell hR hn hw0 hw.cross hw.supply h1 hlab hbold.le
      have hrA := (huangA_spec hc hsup).2 _ hrm' hside hbold
      have hB : huangB S (df.set i { r with price := w }) x ≠ [] := by
        have e : huangB S (df.set i { r with price := w }) x = huangB S df x := by
          unfold huangB demandIdx
          rw [hR.buys hrm hlab hside]
        rw [e]; exact hw.buyers
      obtain ⟨t', g1, g2⟩ := huang_wins S hn' h' hc (List.ne_nil_of_mem hrA) hB (Or.inl hrA)
      exact ⟨t', g1, g2.trans hlab⟩
  · intro hmeek t' htm' hb'
    have he := hsame t' htm htm' hb hb'
    rw [he] at hmeek
    unfold Bolder at hmeek
    rcases huang_bid S ht' hn' h' hi' with hno | ⟨x', ps', pb', cs', cb', hw', hbuy', hsell'⟩
    · exact hno t' htm' hb'
    cases hside : r.buying with
    | true =>
      obtain ⟨h1, _, h3⟩ := hbuy' hside
      rw [hside, h3 t' htm' hb'] at hmeek
      have hmeek : w < pb' := hmeek
      exact absurd ((huangB_spec hn' hw'.cross hw'.demand).1 _ h1).2.2 (not_le.mpr hmeek)
    | false =>
      obtain ⟨h1, _, h3⟩ := hsell' hside
      rw [hside, h3 t' htm' hb'] at hmeek
      have hmeek : ps' < w := by simpa using hmeek
      exact absurd ((huangA_spec hw'.cross hw'.supply).1 _ h1).2.2 (not_le.mpr hmeek)

/-- Prices of the old book that are not the report differ in the new book too. -/
theorem repriced_unique {i : ℕ} {w p : ℚ} {df df' : DF} (h : Repriced i w df df') (side : Bool)
    (hp : w ≠ p) (hd : ∀ a ∈ df, ∀ b ∈ df, a.buying = side → b.buying = side → a.price = b.price →
      a = b) : ∀ a ∈ df', ∀ b ∈ df', a.buying = side → b.buying = side → a.price = p →
        b.price = p → a = b := by
  intro a' ha' b' hb' h1 h2 h3 h4
  obtain ⟨a, ha, _, _, e1, _, e2, e3⟩ := h.mem' ha'
  obtain ⟨b, hb, _, _, f1, _, f2, f3⟩ := h.mem' hb'
  by_cases hea : a.label = i
  · exact absurd ((e2 hea).symm.trans h3) hp
  by_cases heb : b.label = i
  · exact absurd ((f2 heb).symm.trans h4) hp
  rw [e3 hea] at h1 h3 ⊢
  rw [f3 heb] at h2 h4 ⊢
  exact hd a ha b hb h1 h2 (h3.trans h4.symm)

/-- **C66, quantity.** If moreover the prices on the side of bid `i` are pairwise different, it trades
the same quantity with every bolder report. -/
theorem C66_quantity (S : Sorter) (df : DF) (ht : IsTable df) (hn : NonNeg df)
    (i : ℕ) (r : Row) (hi : df[i]? = some r)
    (hd : ((df.filter (fun a => a.buying == r.buying)).map (fun a => a.price)).Nodup)
    (w : ℚ) (hw0 : 0 ≤ w)
    (tm tm' : TransactionManager) (ex ex' : Extra) (h : huangAuction S df = .ok (tm, ex))
    (h' : huangAuction S (df.set i { r with price := w }) = .ok (tm', ex'))
    (t : Transaction) (htm : t ∈ tm.trans) (hb : t.bid = i) (hbold : Bolder r.buying t.price w) :
    tradedBy tm'.trans i = tradedBy tm.trans i := by
  have hR := repriced_set ht hi w
  have hlab := ht.label hi
  have hrm := List.mem_of_getElem? hi
  have hn' := hR.nonNeg hn hw0
  have ht' := hR.table'
  have hi' : (df.set i { r with price := w })[i]? = some { r with price := w } := by
    rw [List.getElem?_set_self (List.getElem?_eq_some_iff.mp hi).1]
  have hsym := hR.symm hrm hlab
  obtain ⟨t', htm', hb', hpt⟩ := (C66_threshold S df ht hn i r hi w hw0 tm tm' ex ex' h h' t htm hb).1
    hbold
  have hu : ∀ a ∈ df, ∀ b ∈ df, a.buying = r.buying → b.buying = r.buying → a.price = b.price →
      a = b := by
    intro a ha b hb' h1 h2 h3
    exact List.inj_on_of_nodup_map hd (List.mem_filter.mpr ⟨ha, by simp [h1]⟩)
      (List.mem_filter.mpr ⟨hb', by simp [h2]⟩) h3
  rcases huang_bid S ht hn h hi with hno | ⟨x, ps, pb, cs, cb, hw, hbuy, hsell⟩
  · exact absurd hb (hno t htm)
  rcases huang_bid S ht' hn' h' hi' with hno | ⟨x', ps', pb', cs', cb', hw', hbuy', hsell'⟩
  · exact absurd hb' (hno t' htm')
  unfold Bolder at hbold
  cases hside : r.buying with
  | true =>
    obtain ⟨h1, h2, h3⟩ := hbuy hside
    obtain ⟨h1', h2', h3'⟩ := hbuy' hside
    rw [hside, h3 t htm hb] at hbold
    have hbold : pb < w := hbold
    obtain ⟨hc, hdem, _⟩ := crossing_reprice_buy hR hn hw.cross hw.demand h1 hlab hbold.le
    obtain rfl : x' = x := hw'.cross.unique hc
    obtain rfl : pb' = pb := by
      have := hw'.demand
      rw [hdem] at this
      exact (WithTop.coe_injective this).symm
    rw [hside] at hu
    have st := huangB_strict' ht hn hw.cross hw.demand
      (fun a ha b hb h1 h2 h3 h4 => hu a ha b hb h1 h2 (h3.trans h4.symm))
    have st' := huangB_strict' ht' hn' hw'.cross hw'.demand
      (repriced_unique hR true hbold.ne' hu)
    rw [h2, h2']
    apply le_antisymm
    · exact huang_buy_quantity (r' := { r with price := w }) hR hn hn' hlab hlab hside hw
        (huangB_kept hR hn hn' hw.cross hw'.cross hw.demand hw'.demand st) h1 hw' h1'
    · exact huang_buy_quantity (r := { r with price := w }) (r' := r) hsym hn' hn hlab hlab hside hw'
        (huangB_kept hsym hn' hn hw'.cross hw.cross hw'.demand hw.demand st') h1' hw h1
  | false =>
    obtain ⟨h1, h2, h3⟩ := hsell hside
    obtain ⟨h1', h2', h3'⟩ := hsell' hside
    rw [hside, h3 t htm hb] at hbold
    have hbold : w < ps := by simpa using hbold
    obtain ⟨hc, hsup, _⟩ := crossing_reprice_sell hR hn hw0 hw.cross hw.supply h1 hlab hbold.le
    obtain rfl : x' = x := hw'.cross.unique hc
    obtain rfl : ps' = ps := by
      have := hw'.supply
      rw [hsup] at this
      exact (WithTop.coe_injective this).symm
    rw [hside] at hu
    have st := huangA_strict' ht hw.cross hw.supply
      (fun a ha b hb h1 h2 h3 h4 => hu a ha b hb h1 h2 (h3.trans h4.symm))
    have st' := huangA_strict' ht' hw'.cross hw'.supply
      (repriced_unique hR false hbold.ne hu)
    rw [h2, h2']
    apply le_antisymm
    · exact huang_sell_quantity (r' := { r with price := w }) hR hn hn' hlab hlab hside hw
        (huangA_kept hR hw.cross hw'.cross hw.supply hw'.supply st) h1 hw' h1'
    · exact huang_sell_quantity (r := { r with price := w }) (r' := r) hsym hn' hn hlab hlab hside hw'
        (huangA_kept hsym hw'.cross hw.cross hw'.supply hw.supply st') h1' hw h1

/-- A case that meets the hypotheses: bid 2 of `curtailBook` trades 1 unit at 6; so it does with the
reports 7 and 100, and with the report 5 it does not trade. -/
example : IsTable curtailBook ∧ NonNeg curtailBook ∧
    curtailBook[2]? = some ⟨⟨2, 8, 2, true, 0, true⟩, 2⟩ ∧
    ((curtailBook.filter (fun a => a.buying == true)).map (fun a => a.price)).Nodup ∧
    ([8, 7, 100, 5] : List ℚ).map (fun w =>
      (huangAuction stableSorter (curtailBook.set 2 ⟨⟨2, w, 2, true, 0, true⟩, 2⟩)).toOption.map
        (fun o => (o.1.trans.filter (fun t => t.bid == 2)).map (fun t => (t.quantity, t.price)))) =
      [some [(1, 6)], some [(1, 6)], some [(1, 6)], some []] := by
  decide +kernel

end PyMarket
