import Verif.Lemmas.NegativeMuda
import Verif.Props.P2P
import Verif.Props.Muda
import Verif.Props.HuangQuantity

/-! # C112: quantities of either sign

`BidManager.add_bid` (`pymarket/bids/bids.py:30-66`) does not look at the sign of a quantity. -/

set_option autoImplicit false

namespace PyMarket

open Spec

/-! ## The curves -/

/-- **C112 (price).** The competitive price of a book with quantities of any sign exists exactly when,
in the order of the curves, the quantities of no first bids of a side sum to less than 0. Otherwise
the lookup at the negative quantity gives `None` and the comparison raises `TypeError`. -/
theorem C112_price (S : Sorter) (df : DF) :
    (Dips S df → findCompetitivePrice S df = .error .typeError) ∧
    (¬ Dips S df → ∃ v, findCompetitivePrice S df = .ok v) := by
  unfold findCompetitivePrice
  constructor
  · intro h
    rw [intersect_dips S h]
    rfl
  · intro h
    obtain ⟨i, hi, _⟩ := intersect_no_dips S h (1 / 2)
    rw [hi]
    exact ⟨_, rfl⟩

theorem sum_take_nonneg {S : Sorter} {df : DF} (h : ¬ Dips S df) (k : ℕ) :
    0 ≤ qsum ((sortDesc S (buys df)).take k) ∧ 0 ≤ qsum ((sortAsc S (sells df)).take k) := by
  constructor
  · by_contra hlt
    exact h ⟨k, .inl (not_le.mp hlt)⟩
  · by_contra hlt
    exact h ⟨k, .inr (not_le.mp hlt)⟩

theorem qsum_map_qty (rows : DF) (f : Row → ℚ) :
    qsum (rows.map (fun r => { r with quantity := f r })) = (rows.map f).sum := by
  unfold qsum
  rw [List.map_map]; rfl

/-- One side of Huang's auction, as a portion of that side. -/
theorem huangSide_portion {rows : DF} {f g : Row → ℚ} (hfg : ∀ r ∈ rows, f r ≤ g r) (p : ℚ) :
    ∃ part, huangSideTrans rows (rows.map f) p = mkTrans p part ∧
      Portion g rows part (rows.map f).sum := by
  refine ⟨rows.map (fun r => { r with quantity := f r }), ?_, qsum_map_qty rows f, ?_, ?_⟩
  · unfold huangSideTrans mkTrans
    rw [List.map_map, List.zip_map_right, List.map_map]
    have : List.zip rows rows = rows.map (fun r => (r, r)) := by
      induction rows with
      | nil => rfl
      | cons r rows ih =>
        rw [List.zip_cons_cons, List.map_cons, ih (fun r' hr' => hfg r' (List.mem_cons_of_mem _ hr'))]
    rw [this, List.map_map]
    rfl
  · rw [List.map_map]
    exact List.Sublist.refl _
  · intro r' hr'
    obtain ⟨r, hr, rfl⟩ := List.mem_map.mp hr'
    exact ⟨r, hr, rfl, hfg r hr⟩

/-- **C112 (Huang).** With quantities of any sign `huang_auction` raises `TypeError` exactly when some
first bids of a side sum to less than 0 in the order of the curves. Otherwise it returns, the same
quantity is bought and sold, every bid trades at most once, and no bid trades more than its quantity,
or than 0 when that is negative. -/
theorem C112_huang (S : Sorter) (df : DF) (ht : IsTable df) :
    (Dips S df → huangAuction S df = .error .typeError) ∧
    (¬ Dips S df → ∃ tm ex, huangAuction S df = .ok (tm, ex) ∧
      boughtQty df tm.trans = soldQty df tm.trans ∧ (tm.trans.map (fun t => t.bid)).Nodup ∧
      ∀ t ∈ tm.trans, t.quantity ≤ max (qtyOf df t.bid) 0) := by
  constructor
  · intro h
    unfold huangAuction
    simp only [intersect_dips S h, bind, Except.bind]
  intro h
  obtain ⟨i, hi, hrows⟩ := intersect_no_dips S h (1 / 2)
  unfold huangAuction
  simp only [hi, bind, Except.bind]
  have hemp : ∃ tm ex, (Except.ok (TransactionManager.init, Extra.empty) :
      Except PyErr (TransactionManager × Extra)) = .ok (tm, ex) ∧
      boughtQty df tm.trans = soldQty df tm.trans ∧ (tm.trans.map (fun t => t.bid)).Nodup ∧
      ∀ t ∈ tm.trans, t.quantity ≤ max (qtyOf df t.bid) 0 :=
    ⟨_, _, rfl, rfl, List.nodup_nil, fun t ht => by cases ht⟩
  cases hf : i.f with
  | none => simp only; exact hemp
  | some b =>
    cases hg : i.g with
    | none => simp only; exact hemp
    | some s =>
      obtain ⟨⟨rb, hrb⟩, ⟨rs, hrs⟩⟩ := hrows b s hf hg
      simp only [hrb, hrs]
      by_cases hpos : 0 < b ∧ 0 < s
      · rw [if_pos hpos]
        have sB := (sum_take_nonneg h b).1
        have sA := (sum_take_nonneg h s).2
        have hBm : ∀ r ∈ (sortDesc S (buys df)).take b, r ∈ df ∧ r.buying = true :=
          fun r hr => mem_buys.mp (mem_sortDesc.mp (List.mem_of_mem_take hr))
        have hAm : ∀ r ∈ (sortAsc S (sells df)).take s, r ∈ df ∧ r.buying = false :=
          fun r hr => mem_sells.mp (mem_sortAsc.mp (List.mem_of_mem_take hr))
        have hBn : (((sortDesc S (buys df)).take b).map (fun r => r.label)).Nodup :=
          take_labels_nodup ht.nodup _ (.inr ⟨buys df, buys_sublist df, sortDesc_perm S _⟩)
        have hAn : (((sortAsc S (sells df)).take s).map (fun r => r.label)).Nodup :=
          take_labels_nodup ht.nodup _ (.inr ⟨sells df, sells_sublist df, sortAsc_perm S _⟩)
        have hBne : (sortDesc S (buys df)).take b ≠ [] := by
          intro h0
          have hl := (List.getElem?_eq_some_iff.mp hrb).1
          rw [demandCurve_eq, stepCurve_length] at hl
          have := congrArg List.length h0
          rw [List.length_take, List.length_nil] at this
          omega
        unfold qsum at sB sA
        generalize (sortDesc S (buys df)).take b = B at *
        generalize (sortAsc S (sells df)).take s = A at *
        have huq : ∀ (l : DF) (gap : ℚ), 0 ≤ gap → gap ≤ (l.map (fun r => r.quantity)).sum →
            l ≠ [] → ∃ f : Row → ℚ, updateQuantity (l.map (fun r => r.quantity)) gap = .ok (l.map f) ∧
              (l.map f).sum = (l.map (fun r => r.quantity)).sum - gap ∧
              ∀ r ∈ l, f r ≤ max r.quantity 0 := by
          intro l gap h0 h1 hne
          obtain ⟨c, hc, hu, hs, _⟩ := C12_water_filling (l.map (fun r => r.quantity)) gap
            (by simpa using hne) h0 h1
          unfold cut at hu hs
          rw [List.map_map] at hu hs
          exact ⟨_, hu, hs, fun r _ => max_le_max (by linarith) (le_refl _)⟩
        -- how two portions make up the result
        have fin : ∀ (f f' : Row → ℚ) (ps pb : ℚ) (ex : Extra), (∀ r ∈ A, f r ≤ max r.quantity 0) →
            (∀ r ∈ B, f' r ≤ max r.quantity 0) → (A.map f).sum = (B.map f').sum →
            ∃ tm ex', (Except.ok (TransactionManager.init.addAll
              (huangSideTrans A (A.map f) ps ++ huangSideTrans B (B.map f') pb), ex) :
              Except PyErr (TransactionManager × Extra)) = .ok (tm, ex') ∧
              boughtQty df tm.trans = soldQty df tm.trans ∧ (tm.trans.map (fun t => t.bid)).Nodup ∧
              ∀ t ∈ tm.trans, t.quantity ≤ max (qtyOf df t.bid) 0 := by
          intro f f' ps pb ex h1 h2 hsum
          refine ⟨_, _, rfl, ?_⟩
          rw [TransactionManager.init_addAll_trans]
          obtain ⟨a, ha, hpa⟩ := huangSide_portion h1 ps
          obtain ⟨d, hd, hpd⟩ := huangSide_portion h2 pb
          rw [ha, hd]
          have ea := portion_sells (p := ps) ht hAm hpa
          have ed := portion_buys (p := pb) ht hBm hpd
          refine ⟨?_, ?_, ?_⟩
          · rw [boughtQty_append, soldQty_append, ea.1, ea.2, ed.1, ed.2, hsum]; ring
          · rw [List.map_append, mkTrans_bids, mkTrans_bids, List.nodup_append]
            refine ⟨hAn.sublist hpa.labels, hBn.sublist hpd.labels, ?_⟩
            intro x hx y hy hxy
            subst hxy
            obtain ⟨r, hr, hrx⟩ := List.mem_map.mp (hpa.labels.subset hx)
            obtain ⟨r', hr', hrx'⟩ := List.mem_map.mp (hpd.labels.subset hy)
            have e1 := ht.isBuy_eq (hAm r hr).1
            have e2 := ht.isBuy_eq (hBm r' hr').1
            rw [hrx, (hAm r hr).2] at e1
            rw [hrx', (hBm r' hr').2, e1] at e2
            cases e2
          · intro t htm
            rcases List.mem_append.mp htm with htm | htm
            · obtain ⟨r', hr', rfl⟩ := List.mem_map.mp htm
              obtain ⟨r, hr, hl, hq⟩ := hpa.le r' hr'
              show r'.quantity ≤ max (qtyOf df r'.label) 0
              rw [hl, ht.qty_eq (hAm r hr).1]
              exact hq
            · obtain ⟨r', hr', rfl⟩ := List.mem_map.mp htm
              obtain ⟨r, hr, hl, hq⟩ := hpd.le r' hr'
              show r'.quantity ≤ max (qtyOf df r'.label) 0
              rw [hl, ht.qty_eq (hBm r hr).1]
              exact hq
        by_cases hgap : 0 < (A.map (fun r => r.quantity)).sum - (B.map (fun r => r.quantity)).sum
        · have hAne : A ≠ [] := by
            rintro rfl
            simp only [List.map_nil, List.sum_nil, zero_sub] at hgap
            linarith
          obtain ⟨f, hu, hs, hle⟩ := huq A _ hgap.le (by linarith) hAne
          rw [if_pos hgap, hu]
          exact fin f (fun r => r.quantity) _ _ _ hle (fun r _ => le_max_left _ _) (by rw [hs]; ring)
        · rw [if_neg hgap]
          obtain ⟨f, hu, hs, hle⟩ := huq B
            (-((A.map (fun r => r.quantity)).sum - (B.map (fun r => r.quantity)).sum))
            (by linarith) (by linarith) hBne
          rw [hu]
          exact fin (fun r => r.quantity) f _ _ _ (fun r _ => le_max_left _ _) hle (by rw [hs]; ring)
      · rw [if_neg hpos]
        exact ⟨_, _, rfl, rfl, List.nodup_nil, fun t ht => by cases ht⟩

/-- Buyers 0 and 1 and sellers 3 and 4 trade around the negative bid 1: buying 3, -1 and 4 units at
10, 9 and 5, selling 2, 3 and 3 units at 1, 2 and 6. -/
def owingBook : DF := labelFrom 0
  [⟨3, 10, 0, true, 0, true⟩, ⟨-1, 9, 1, true, 0, true⟩, ⟨4, 5, 2, true, 0, true⟩,
   ⟨2, 1, 3, false, 0, true⟩, ⟨3, 2, 4, false, 0, true⟩, ⟨3, 6, 5, false, 0, true⟩]

/-- A book of `C112_huang` without and one with a dip. -/
example : IsTable owingBook ∧
    huangAuction stableSorter owingBook = .ok (⟨3, [⟨3, 2, 2, -1, false⟩, ⟨0, 2, 5, -1, false⟩,
      ⟨1, 0, 5, -1, false⟩]⟩, .huang (2 : ℚ) (5 : ℚ) 2) ∧
    huangAuction stableSorter (owingBook.map (fun r => { r with quantity := -r.quantity })) =
      .error .typeError := by
  decide +kernel

/-- **C112 (prices).** Whatever the order of equal prices: when the buyers at or above some price, or
the sellers at or below some price, ask for or offer less than 0 in total, there is a dip. Without
equal prices on a side, dips are exactly these. -/
theorem C112_dips (S : Sorter) (df : DF) (ht : IsTable df) :
    ((∃ p, demandQty df p < 0 ∨ supplyQty df p < 0) → Dips S df) ∧
    (DistinctPrices df → Dips S df → ∃ p, demandQty df p < 0 ∨ supplyQty df p < 0) := by
  have eD : ∀ p, demandQty df p =
      qsum ((sortDesc S (buys df)).filter (fun r => decide (p ≤ r.price))) :=
    fun p => (qsum_buys_filter S df _).symm
  have eS : ∀ p, supplyQty df p =
      qsum ((sortAsc S (sells df)).filter (fun r => decide (r.price ≤ p))) :=
    fun p => (qsum_sells_filter S df _).symm
  constructor
  · rintro ⟨p, h | h⟩
    · obtain ⟨k, hk⟩ := exists_take_filter (P := fun r : Row => decide (p ≤ r.price))
        (sortDesc_sorted S (buys df)) (by
          intro a b hab hb
          simp only [decide_eq_true_eq] at hb ⊢
          exact hb.trans hab)
      refine ⟨k, .inl ?_⟩
      rw [eD, hk] at h
      exact h
    · obtain ⟨k, hk⟩ := exists_take_filter (P := fun r : Row => decide (r.price ≤ p))
        (sortAsc_sorted S (sells df)) (by
          intro a b hab hb
          simp only [decide_eq_true_eq] at hb ⊢
          exact hab.trans hb)
      refine ⟨k, .inr ?_⟩
      rw [eS, hk] at h
      exact h
  · intro hd hdip
    have strict : ∀ (l : DF) (f : Row → ℚ) (side : Bool), (∀ r ∈ l, r ∈ df ∧ r.buying = side) →
        l.Nodup → (∀ a b : Row, f a = f b → a.price = b.price) → l.Pairwise (fun a b => f a ≤ f b) →
        l.Pairwise (fun a b => f a < f b) := by
      intro l f side hm hn hf hs
      refine (hs.and hn).imp_of_mem ?_
      intro a b ha hb hab
      refine lt_of_le_of_ne hab.1 (fun he => hab.2 ?_)
      exact hd a (hm a ha).1 b (hm b hb).1 ((hm a ha).2.trans (hm b hb).2.symm) (hf a b he)
    have hnodup : df.Nodup := List.Nodup.of_map _ ht.nodup
    have hBn : (sortDesc S (buys df)).Nodup :=
      (sortDesc_perm S _).nodup_iff.mpr (hnodup.sublist (buys_sublist df))
    have hAn : (sortAsc S (sells df)).Nodup :=
      (sortAsc_perm S _).nodup_iff.mpr (hnodup.sublist (sells_sublist df))
    have len : ∀ l : DF, (l.map (fun r => r.quantity)).sum < 0 → 0 < l.length := by
      intro l hl
      cases l with
      | nil => simp at hl
      | cons r l => simp
    obtain ⟨k, h | h⟩ := hdip
    · have hs := strict (sortDesc S (buys df)) (fun r => -r.price) true
        (fun r hr => mem_buys.mp (mem_sortDesc.mp hr)) hBn
        (fun a b h => neg_injective h) ((sortDesc_sorted S (buys df)).imp (fun h => neg_le_neg h))
      obtain ⟨p, hp, _⟩ := take_eq_filter k hs (len _ h)
      refine ⟨-p, .inl ?_⟩
      rw [eD]
      rw [hp] at h
      have e : (fun r : Row => decide (-p ≤ r.price)) = (fun r : Row => decide (-r.price ≤ p)) := by
        funext r
        rw [decide_eq_decide]
        exact neg_le
      rw [e]
      exact h
    · have hs := strict (sortAsc S (sells df)) (fun r => r.price) false
        (fun r hr => mem_sells.mp (mem_sortAsc.mp hr)) hAn (fun a b h => h) (sortAsc_sorted S (sells df))
      obtain ⟨p, hp, _⟩ := take_eq_filter k hs (len _ h)
      refine ⟨p, .inr ?_⟩
      rw [eS]
      rw [hp] at h
      exact h

/-- In `owingBook` no price has less than 0 units asked or offered; with all signs changed every
price has. -/
example : DistinctPrices owingBook ∧ demandQty owingBook 9 = 2 ∧
    demandQty (owingBook.map (fun r => { r with quantity := -r.quantity })) 9 = -2 := by
  unfold DistinctPrices
  decide +kernel

/-! ## MUDA -/

/-- **C112 (MUDA).** With quantities of any sign MUDA raises `TypeError` exactly when the book is not
rejected and one of the halves has a dip. Whenever MUDA returns, the same quantity is bought and
sold, every bid trades at most once, and no bid trades more than its quantity. -/
theorem C112_muda (S : Sorter) (coin : ℕ → Bool) (df : DF) (ht : IsTable df) :
    (muda S coin df = .error .typeError ↔ ¬ HasTwin df ∧
      (Dips S (df.filter (fun r => coin r.label)) ∨
        Dips S (df.filter (fun r => !coin r.label)))) ∧
    ∀ tm ex, muda S coin df = .ok (tm, ex) →
      boughtQty df tm.trans = soldQty df tm.trans ∧ (tm.trans.map (fun t => t.bid)).Nodup ∧
      ∀ t ∈ tm.trans, t.quantity ≤ qtyOf df t.bid := by
  constructor
  · rw [← checkEqualPrice_iff]
    unfold muda
    split_ifs with hc
    · constructor
      · intro h; cases h
      · intro h; exact absurd hc h.1
    · rw [mudaBody_halves ht]
      simp only [half_filter ht]
      have h1 := C112_price S (df.filter (fun r => coin r.label))
      have h2 := C112_price S (df.filter (fun r => !coin r.label))
      by_cases d1 : Dips S (df.filter (fun r => coin r.label))
      · rw [h1.1 d1]
        exact ⟨fun _ => ⟨hc, .inl d1⟩, fun _ => rfl⟩
      · obtain ⟨pl, hpl⟩ := h1.2 d1
        rw [hpl]
        by_cases d2 : Dips S (df.filter (fun r => !coin r.label))
        · rw [h2.1 d2]
          exact ⟨fun _ => ⟨hc, .inr d2⟩, fun _ => rfl⟩
        · obtain ⟨pr, hpr⟩ := h2.2 d2
          rw [hpr]
          constructor
          · intro h
            exfalso
            refine NoTypeError.bind (solveSide_noType S _ pr _) (fun a => ?_) h
            exact NoTypeError.bind (solveSide_noType S _ pl _) (fun b => NoTypeError.ok _)
          · rintro ⟨_, h | h⟩
            · exact absurd h d1
            · exact absurd h d2
  · intro tm ex h
    obtain ⟨left, right, pl, pr, fees, _, hr⟩ := muda_run ht h
    obtain ⟨tl, tr, f', hl, hr', htm⟩ := hr.sides
    have h1 := solveSide_signed S ht (fun r h => half_sub r h) (half_nodup ht left) hl
    have h2 := solveSide_signed S ht (fun r h => half_sub r h) (half_nodup ht right) hr'
    rw [htm]
    refine ⟨?_, ?_, ?_⟩
    · rw [boughtQty_append, soldQty_append, h1.balanced, h2.balanced]
    · rw [List.map_append, List.nodup_append]
      refine ⟨h1.bids, h2.bids, ?_⟩
      intro a ha b hb hab
      subst hab
      obtain ⟨t, htl, rfl⟩ := List.mem_map.mp ha
      obtain ⟨t', htr, he⟩ := List.mem_map.mp hb
      obtain ⟨r, hrl, hl1, _⟩ := h1.own t htl
      obtain ⟨r', hrr, hl2, _⟩ := h2.own t' htr
      have m1 := (List.mem_filter.mp hrl).2
      have m2 := (List.mem_filter.mp hrr).2
      rw [decide_eq_true_eq] at m1 m2
      rw [hl2, he, ← hl1] at m2
      rw [hr.left_eq] at m1
      rw [hr.right_eq] at m2
      have c1 := (List.mem_filter.mp m1).2
      have c2 := (List.mem_filter.mp m2).2
      rw [c1] at c2
      cases c2
    · intro t htr
      rcases List.mem_append.mp htr with htr | htr
      · obtain ⟨r, hrl, hl1, hq⟩ := h1.own t htr
        rw [← hl1, ht.qty_eq (half_sub r hrl)]
        exact hq
      · obtain ⟨r, hrl, hl1, hq⟩ := h2.own t htr
        rw [← hl1, ht.qty_eq (half_sub r hrl)]
        exact hq

/-- Both cases of `C112_muda`: on `owingBook` the half of bids 1, 3 and 5 starts with -1 unit asked;
with bids 0, 1, 3 and 5 in one half nothing dips, and bid 1 "buys" -1 unit. -/
example : IsTable owingBook ∧ ¬ HasTwin owingBook ∧
    muda stableSorter (fun k => k % 2 = 0) owingBook = .error .typeError ∧
    muda stableSorter (fun k => k = 0 ∨ k % 2 = 1) owingBook = .ok
      (⟨3, [⟨3, 2, 5, -1, false⟩, ⟨0, 3, 5, -1, false⟩, ⟨1, -1, 5, -1, false⟩]⟩,
       .muda [0, 1, 3, 5] [2, 4] (.fin 6) (.fin 5) [0, 0, 0, 0, 0, 0]) := by
  refine ⟨by decide +kernel, ?_, by decide +kernel, by decide +kernel⟩
  rw [← checkEqualPrice_iff]
  decide +kernel

/-! ## Peer to peer -/

/-- **C112 (P2P).** Peer to peer trading returns on every book, whatever the signs of the quantities.
Every pair meets at most once. After every number `k` of meetings the same quantity is bought and
sold, no bid has traded more in total than its quantity, or than 0 when that is negative, and a bid
that has met a compatible price has not traded more than its quantity. -/
theorem C112_p2p (c : ℚ) (choice : ℕ → ℕ) (df : DF) (ht : IsTable df) :
    ∃ tm R, p2pRandom c choice df = .ok (tm, .p2p R) ∧
      (∀ p ∈ R.flatten, IsPair df p.1 p.2) ∧ R.flatten.Nodup ∧
      ∀ k, boughtQty df (tm.trans.take (2 * k)) = soldQty df (tm.trans.take (2 * k)) ∧
        ∀ i, tradedBy (tm.trans.take (2 * k)) i ≤ max (qtyOf df i) 0 ∧
          ((∃ p ∈ R.flatten.take k, priceOf df p.2 ≤ priceOf df p.1 ∧ (p.1 = i ∨ p.2 = i)) →
            tradedBy (tm.trans.take (2 * k)) i ≤ qtyOf df i) := by
  obtain ⟨tm, R, h, hR⟩ := p2p_run c choice df ht
  refine ⟨tm, R, h, hR.pair, hR.loop.nodup, ?_⟩
  intro k
  have hsplit := (List.take_append_drop k R.flatten).symm
  have e : tm.trans.take (2 * k) =
      (tradeRound (priceOf df) c (qtyOf df) (R.flatten.take k)).2 := by
    rw [hR.loop.trans]
    rcases le_total k R.flatten.length with hle | hle
    · conv_lhs => rw [hsplit]
      have := take_tradeRound (priceOf df) c (qtyOf df) (R.flatten.take k) (R.flatten.drop k)
      rwa [List.length_take, min_eq_left hle] at this
    · rw [List.take_of_length_le hle, List.take_of_length_le]
      rw [tradeRound_length]; omega
  have hM : ∀ p ∈ R.flatten.take k, IsPair df p.1 p.2 :=
    fun p hp => hR.pair p (List.mem_of_mem_take hp)
  rw [e]
  refine ⟨tradeRound_balanced hM, fun i => ?_⟩
  have h1 := tradeRound_qty (priceOf df) c (qtyOf df) (R.flatten.take k)
    (fun p hp => isPair_ne (hM p hp)) i
  have h2 := tradeRound_floor (priceOf df) c (qtyOf df) (R.flatten.take k)
    (fun p hp => isPair_ne (hM p hp)) i
  constructor
  · have := h2.1
    rcases le_total (qtyOf df i) 0 with hq | hq
    · rw [min_eq_left hq] at this
      rw [max_eq_right hq]
      linarith
    · rw [min_eq_right hq] at this
      rw [max_eq_left hq]
      linarith
  · intro hex
    have := h2.2 hex
    linarith

/-- A buyer of -1 unit, a buyer of 4 units and a seller of 2 units. -/
def owingTrio : DF := labelFrom 0
  [⟨-1, 5, 0, true, 0, true⟩, ⟨4, 5, 1, true, 0, true⟩, ⟨2, 1, 2, false, 0, true⟩]

/-- Non-vacuity of `C112_p2p`: the seller "sells" -1 unit and then 3 units. -/
example : IsTable owingTrio ∧ p2pRandom (1 / 2) (fun _ => 0) owingTrio = .ok
    (⟨4, [⟨0, -1, 3, 2, false⟩, ⟨2, -1, 3, 0, true⟩, ⟨1, 3, 3, 2, true⟩, ⟨2, 3, 3, 1, false⟩]⟩,
     .p2p [[(0, 2)], [(1, 2)]]) := by decide +kernel

/-- The bounds of `C112_p2p` are about totals. A single transaction can exceed the quantity of the bid
and can be negative. -/
theorem C112_single_refuted :
    ¬ ∀ (c : ℚ) (choice : ℕ → ℕ) (df : DF), IsTable df → ∀ tm ex,
      p2pRandom c choice df = .ok (tm, ex) →
      ∀ t ∈ tm.trans, 0 ≤ t.quantity ∧ t.quantity ≤ max (qtyOf df t.bid) 0 := by
  intro h
  have h1 := h (1 / 2) (fun _ => 0) owingTrio (by decide +kernel)
    ⟨4, [⟨0, -1, 3, 2, false⟩, ⟨2, -1, 3, 0, true⟩, ⟨1, 3, 3, 2, true⟩, ⟨2, 3, 3, 1, false⟩]⟩
    (.p2p [[(0, 2)], [(1, 2)]]) (by decide +kernel) ⟨2, 3, 3, 1, false⟩ (by simp)
  have h2 : qtyOf owingTrio 2 = 2 := by decide +kernel
  rw [h2] at h1
  norm_num at h1

/-- A buyer and a seller of 1 unit with compatible prices, and a seller of -2 units. -/
def owingSeller : DF := labelFrom 0
  [⟨1, 5, 0, true, 0, true⟩, ⟨1, 1, 1, false, 0, true⟩, ⟨-2, 9, 2, false, 0, true⟩]

/-- With a negative quantity the loop can end with a trade left (compare `C22_complete`): the total is
not positive, so nobody meets. -/
theorem C112_complete_refuted :
    ¬ ∀ (c : ℚ) (choice : ℕ → ℕ) (df : DF), IsTable df → ∀ tm ex,
      p2pRandom c choice df = .ok (tm, ex) → ∀ b s, IsPair df b s → priceOf df s ≤ priceOf df b →
      0 < qtyOf df b → 0 < qtyOf df s →
      tradedBy tm.trans b = qtyOf df b ∨ tradedBy tm.trans s = qtyOf df s := by
  intro h
  have h1 := h (1 / 2) (fun _ => 0) owingSeller (by decide +kernel) ⟨0, []⟩ (.p2p [])
    (by decide +kernel) 0 1 ⟨by decide +kernel, by decide +kernel⟩ (by decide +kernel)
    (by decide +kernel) (by decide +kernel)
  revert h1
  decide +kernel

end PyMarket
