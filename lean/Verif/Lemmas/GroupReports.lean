import Verif.Spec.GroupReports
import Verif.Props.HuangTies
import Verif.Lemmas.HuangOutcome

/-! # Lemmas: a winner that reports another winning price changes nothing -/

set_option autoImplicit false

namespace PyMarket

open Spec

/-- The id and the quantity of a row. -/
def idQty (r : Row) : ℕ × ℚ := (r.label, r.quantity)

theorem cutTrans_idQty (l : DF) (c p : ℚ) :
    cutTrans l c p = (l.map idQty).map (fun a => ⟨a.1, max (a.2 - c) 0, p, -1, false⟩) := by
  unfold cutTrans idQty
  rw [List.map_map]
  rfl

theorem qty_idQty (l : DF) : l.map (fun r => r.quantity) = (l.map idQty).map Prod.snd := by
  unfold idQty
  rw [List.map_map]
  rfl

theorem cut_perm_sum {l l' : List ℚ} (h : l.Perm l') (c : ℚ) : (cut c l).sum = (cut c l').sum := by
  unfold cut
  exact (h.map _).sum_eq

theorem cut_same {l : List ℚ} {c c' : ℚ} (h : (cut c l).sum = (cut c' l).sum) {q : ℚ} (hq : q ∈ l) :
    max (q - c) 0 = max (q - c') 0 := by
  rcases le_total c c' with hc | hc
  · exact le_antisymm (cut_pointwise hc h.le hq) (max_le_max (by linarith) (le_refl _))
  · exact le_antisymm (max_le_max (by linarith) (le_refl _)) (cut_pointwise hc h.ge hq)

theorem cutTrans_perm {l l' : DF} (h : (l'.map idQty).Perm (l.map idQty)) {c c' : ℚ} (p : ℚ)
    (hs : (cut c' (l'.map (fun r => r.quantity))).sum = (cut c (l.map (fun r => r.quantity))).sum) :
    (cutTrans l' c' p).Perm (cutTrans l c p) := by
  rw [cutTrans_idQty, cutTrans_idQty]
  refine (h.map _).trans ?_
  rw [List.map_congr_left]
  intro a ha
  have h1 := h.map Prod.snd
  rw [qty_idQty, qty_idQty, cut_perm_sum h1] at hs
  rw [cut_same hs (List.mem_map_of_mem ha)]

theorem qsum_idQty_perm {l l' : DF} (h : (l'.map idQty).Perm (l.map idQty)) : qsum l' = qsum l := by
  unfold qsum
  rw [qty_idQty, qty_idQty]
  exact (h.map _).sum_eq

theorem idQty_perm {l l' : DF} (hn : (l.map (fun r => r.label)).Nodup) (hn' : (l'.map (fun r => r.label)).Nodup)
    {i : ℕ} {r r' : Row} (hr : r ∈ l) (hr' : r' ∈ l') (hl : r.label = i) (hl' : r'.label = i)
    (hq : r'.quantity = r.quantity) (h1 : ∀ a ∈ l, a.label ≠ i → a ∈ l') (h2 : ∀ a ∈ l', a.label ≠ i → a ∈ l) :
    (l'.map idQty).Perm (l.map idQty) := by
  have key : ∀ {l l' : DF} {r r' : Row}, (l.map (fun r => r.label)).Nodup → r ∈ l → r' ∈ l' → r.label = i →
      r'.label = i → r'.quantity = r.quantity → (∀ a ∈ l, a.label ≠ i → a ∈ l') →
      ∀ a ∈ l.map idQty, a ∈ l'.map idQty := by
    intro l l' r r' hn hr hr' hl hl' hq h1 a ha
    obtain ⟨b, hb, rfl⟩ := List.mem_map.mp ha
    by_cases he : b.label = i
    · have : b = r := List.inj_on_of_nodup_map hn hb hr (by rw [he, hl])
      subst this
      refine List.mem_map.mpr ⟨r', hr', ?_⟩
      unfold idQty
      rw [hl', hl, hq]
    · exact List.mem_map_of_mem (h1 b hb he)
  have nd : ∀ {l : DF}, (l.map (fun r => r.label)).Nodup → (l.map idQty).Nodup := by
    intro l h
    apply List.Nodup.of_map Prod.fst
    rw [List.map_map]
    exact h
  rw [List.perm_ext_iff_of_nodup (nd hn') (nd hn)]
  intro a
  exact ⟨key hn' hr' hr hl' hl hq.symm h2 a, key hn hr hr' hl hl' hq h1 a⟩

/-- What the auction does when it trades. -/
theorem huang_trade (S : Sorter) {df : DF} (hn : NonNeg df) {tm : TransactionManager} {ex : Extra}
    (h : huangAuction S df = .ok (tm, ex)) {t : Transaction} (htm : t ∈ tm.trans) :
    ∃ x ps pb cs cb : ℚ, Crossing S df x ∧ supplyAt S df x = (ps : Ext) ∧ demandAt S df x = (pb : Ext) ∧
      (cut cs ((huangA S df x).map (fun r => r.quantity))).sum =
        min (qsum (huangA S df x)) (qsum (huangB S df x)) ∧
      (cut cb ((huangB S df x).map (fun r => r.quantity))).sum =
        min (qsum (huangA S df x)) (qsum (huangB S df x)) ∧
      tm.trans = cutTrans (huangA S df x) cs ps ++ cutTrans (huangB S df x) cb pb ∧
      ex = .huang (ps : Ext) (pb : Ext) (min (qsum (huangA S df x)) (qsum (huangB S df x))) ∧
      huangA S df x ≠ [] ∧ huangB S df x ≠ [] := by
  rcases huang_cases S hn with ⟨h', _⟩ | ⟨x, ps, pb, hc, hps, hpb, _, hcase⟩
  · rw [h] at h'; cases h'; cases htm
  rcases hcase with ⟨hB, hA, cs, cb, _, _, _, sA, sB, heq⟩ | ⟨_, heq⟩
  · rw [h] at heq
    cases heq
    refine ⟨x, ps, pb, cs, cb, hc, hps, hpb, sA, sB, TransactionManager.init_addAll_trans _, ?_, hA, hB⟩
    rw [sB]
  · rw [h] at heq; cases heq; cases htm

/-- Two books with the same crossing, the same marginal prices and the same bids in front of the marginal
ones trade the same. -/
theorem huang_same_outcome (S : Sorter) {df df' : DF} (hn' : NonNeg df') {x ps pb cs cb : ℚ}
    (hc' : Crossing S df' x) (hps : supplyAt S df' x = (ps : Ext)) (hpb : demandAt S df' x = (pb : Ext))
    (sA : (cut cs ((huangA S df x).map (fun r => r.quantity))).sum =
      min (qsum (huangA S df x)) (qsum (huangB S df x)))
    (sB : (cut cb ((huangB S df x).map (fun r => r.quantity))).sum =
      min (qsum (huangA S df x)) (qsum (huangB S df x)))
    (hA : huangA S df x ≠ []) (hB : huangB S df x ≠ [])
    (pA : ((huangA S df' x).map idQty).Perm ((huangA S df x).map idQty))
    (pB : ((huangB S df' x).map idQty).Perm ((huangB S df x).map idQty)) :
    ∃ tm', huangAuction S df' = .ok (tm',
        .huang (ps : Ext) (pb : Ext) (min (qsum (huangA S df x)) (qsum (huangB S df x)))) ∧
      tm'.trans.Perm (cutTrans (huangA S df x) cs ps ++ cutTrans (huangB S df x) cb pb) := by
  have ne : ∀ {l l' : DF}, (l'.map idQty).Perm (l.map idQty) → l ≠ [] → l' ≠ [] := by
    rintro l l' hp hl rfl
    have := hp.length_eq
    simp only [List.map_nil, List.length_nil, List.length_map] at this
    exact hl (List.eq_nil_of_length_eq_zero this.symm)
  rcases huang_cases S hn' with ⟨_, hno⟩ | ⟨y, ps', pb', hy, hps', hpb', _, hcase⟩
  · exact absurd ⟨⟨x, WithTop.coe_le_coe.mpr hc'.nonneg, hc'.at_x⟩, fun z _ => hc'.no_tie hn' z⟩ hno
  obtain rfl : y = x := hy.unique hc'
  obtain rfl : ps' = ps := WithTop.coe_injective (hps'.symm.trans hps)
  obtain rfl : pb' = pb := WithTop.coe_injective (hpb'.symm.trans hpb)
  rcases hcase with ⟨_, _, cs', cb', _, _, _, sA', sB', heq⟩ | ⟨hor, _⟩
  · rw [qsum_idQty_perm pA, qsum_idQty_perm pB] at sA' sB'
    rw [sB'] at heq
    refine ⟨_, heq, ?_⟩
    rw [TransactionManager.init_addAll_trans]
    exact (cutTrans_perm pA _ (sA'.trans sA.symm)).append (cutTrans_perm pB _ (sB'.trans sB.symm))
  · rcases hor with h0 | h0
    · exact absurd h0 (ne pB hB)
    · exact absurd h0 (ne pA hA)

/-- With a stable sort, a bid that trades may report any price strictly better than the price at which it
trades: the transactions stay the same up to their order. -/
theorem winner_kept (S : Sorter) (hS : Stable S) {df : DF} (ht : IsTable df) (hn : NonNeg df) {i : ℕ} {r : Row}
    (hi : df[i]? = some r) {w : ℚ} (hw0 : 0 ≤ w) {tm : TransactionManager} {ex : Extra}
    (h : huangAuction S df = .ok (tm, ex)) {t : Transaction} (htm : t ∈ tm.trans) (hb : t.bid = i)
    (hbuy : r.buying = true → t.price < w) (hsell : r.buying = false → w < t.price) :
    ∃ tm', huangAuction S (df.set i { r with price := w }) = .ok (tm', ex) ∧ tm'.trans.Perm tm.trans := by
  have hR := repriced_set ht hi w
  have hlab := ht.label hi
  have hrm := List.mem_of_getElem? hi
  have hn' := hR.nonNeg hn hw0
  have ht' := hR.table'
  have hsym := hR.symm hrm hlab
  have hrm' : { r with price := w } ∈ df.set i { r with price := w } :=
    List.mem_of_getElem? (List.getElem?_set_self (List.getElem?_eq_some_iff.mp hi).1)
  obtain ⟨x, ps, pb, cs, cb, hc, hps, hpb, sA, sB, htr, hex, hA, hB⟩ := huang_trade S hn h htm
  have specB := huangB_spec hn hc hpb
  have specA := huangA_spec hc hps
  rw [htr] at htm
  rw [htr, hex]
  rcases List.mem_append.mp htm with hm | hm
  · obtain ⟨a, ha, rfl⟩ := List.mem_map.mp hm
    obtain ⟨ham, hside, _⟩ := specA.1 a ha
    obtain rfl : a = r := ht.inj ham hrm (by rw [hlab]; exact hb)
    have hlt : w < ps := hsell hside
    obtain ⟨hc', hps', hdem⟩ := crossing_reprice_sell hR hn hw0 hc hps ha hlab hlt.le
    have ha' := (huangA_spec hc' hps').2 _ hrm' hside hlt
    have hBe : huangB S (df.set i { a with price := w }) x = huangB S df x := by
      unfold huangB demandIdx
      rw [hR.buys hrm hlab hside]
    refine huang_same_outcome S hn' hc' hps' ((hdem _).trans hpb) sA sB hA hB ?_ (by rw [hBe])
    exact idQty_perm (huangA_labels_nodup ht.nodup x) (huangA_labels_nodup ht'.nodup x) ha ha' hlab hlab rfl
      (huangA_kept_stable hS hR hn hc' ha ha' hlab hlab rfl)
      (huangA_kept_stable hS hsym hn' hc ha' ha hlab hlab rfl)
  · obtain ⟨a, ha, rfl⟩ := List.mem_map.mp hm
    obtain ⟨ham, hside, _⟩ := specB.1 a ha
    obtain rfl : a = r := ht.inj ham hrm (by rw [hlab]; exact hb)
    have hlt : pb < w := hbuy hside
    obtain ⟨hc', hpb', hsup⟩ := crossing_reprice_buy hR hn hc hpb ha hlab hlt.le
    have ha' := (huangB_spec hn' hc' hpb').2 _ hrm' hside hlt
    have hAe : huangA S (df.set i { a with price := w }) x = huangA S df x := by
      unfold huangA supplyIdx
      rw [hR.sells hrm hlab hside]
    refine huang_same_outcome S hn' hc' ((hsup _).trans hps) hpb' sA sB hA hB (by rw [hAe]) ?_
    exact idQty_perm (huangB_labels_nodup ht.nodup x) (huangB_labels_nodup ht'.nodup x) ha ha' hlab hlab rfl
      (huangB_kept_stable hS hR hn hn' hc' ha ha' hlab hlab rfl)
      (huangB_kept_stable hS hsym hn' hn hc ha' ha hlab hlab rfl)

end PyMarket
