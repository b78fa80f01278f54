import Verif.Lemmas.Missing
import Verif.Spec.Missing
import Verif.Props.Unlimited

/-! # C138: missing numbers

Quantities and prices may be NaN (`none` here). A bid with a missing number should trade nothing and leave the others
alone. -/

set_option autoImplicit false

namespace PyMarket

open Spec

section

variable (S : Sorter) (qty : ℕ → Option Ext) (df : DF)

/-- **C138, curves.** A single bid without a quantity makes `intersect_stepwise` raise `IndexError`. -/
theorem C138_curves_blocked (r : Row) (hr : r ∈ df) (hq : qty r.label = none) (k : ℚ) :
    intersectN (demandCurveN S df qty) (supplyCurveN S df qty) k = .error .indexError :=
  intersectN_none (by simp [demandCurveN]) (by simp [supplyCurveN]) (curvesN_none S hr hq) k

/-- **C138, Huang's auction** raises `IndexError` as soon as one bid has no quantity. -/
theorem C138_huang_blocked (r : Row) (hr : r ∈ df) (hq : qty r.label = none) :
    huangAuctionN S df qty = .error .indexError := by
  unfold huangAuctionN
  rw [C138_curves_blocked S qty df r hr hq]
  rfl

/-- **C138, uniform price.** The same for the uniform price. -/
theorem C138_uniform_blocked (r : Row) (hr : r ∈ df) (hq : qty r.label = none) :
    uniformPriceN S df qty = .error .indexError := by
  unfold uniformPriceN
  rw [C138_curves_blocked S qty df r hr hq]
  rfl

/-- The curves of a book with unlimited bids can be intersected. -/
theorem intersectU_ok (q : ℕ → Ext) (h : NonNegU q df) :
    ∃ i, intersectStepwise (demandCurveU S df q) (supplyCurveU S df q) = .ok i := by
  by_cases hn : NoUnlimitedTrade q df
  · obtain ⟨Q, hQ⟩ := exists_gt (limitedTotal q df)
    rcases book_intersect (S := S) h hn hQ with ⟨_, i, e, _⟩ | ⟨i, _, e, _⟩
    · exact ⟨i, e⟩
    · exact ⟨i, e⟩
  · unfold NoUnlimitedTrade at hn
    push Not at hn
    obtain ⟨r, hr, r', hr', hb, hs, hq, hq', hp⟩ := hn
    obtain ⟨i, hi, _⟩ := blocked_intersect S q df h r r' hr hr' hb hs hq hq' hp.le
    exact ⟨i, hi⟩

theorem findCompetitivePriceN_known (h : ∀ r ∈ df, qty r.label ≠ none) :
    findCompetitivePriceN S df qty = findCompetitivePriceU S df (knownQty qty) := by
  unfold findCompetitivePriceN findCompetitivePriceU
  rw [demandCurveN_known S h, supplyCurveN_known S h, intersectN_lift]

theorem mem_locLabels_iff (ht : IsTable df) {l : List ℕ} {r : Row} (hr : r ∈ df) : r ∈ locLabels df l ↔ r.label ∈ l := by
  have hf : ∀ i x, df.find? (fun r => r.label == i) = some x → x ∈ df ∧ x.label = i := by
    intro i x hx
    exact ⟨List.mem_of_find?_eq_some hx, by simpa using List.find?_some hx⟩
  unfold locLabels
  rw [List.mem_filterMap]
  constructor
  · rintro ⟨i, hi, hx⟩
    rw [(hf i r hx).2]
    exact hi
  · intro h
    refine ⟨r.label, h, ?_⟩
    cases hx : df.find? (fun x => x.label == r.label) with
    | none =>
      have := List.find?_eq_none.mp hx r hr
      simp at this
    | some x =>
      obtain ⟨h1, h2⟩ := hf _ _ hx
      have e1 := ht.get_label h1
      have e2 := ht.get_label hr
      rw [h2, e2] at e1
      rw [Option.some.inj e1]

/-- **C138, MUDA** raises `IndexError` whatever the coins, unless its check for equal prices stops it before. -/
theorem C138_muda_blocked (coin : ℕ → Bool) (ht : IsTable df)
    (h : ∀ r ∈ df, 0 ≤ r.price ∧ ∀ e, qty r.label = some e → ((0 : ℚ) : Ext) ≤ e)
    (he : checkEqualPriceRaises df = false) (r : Row) (hr : r ∈ df) (hq : qty r.label = none) :
    mudaPricesN S coin df qty = .error .indexError := by
  unfold mudaPricesN
  rw [he]
  simp only [Bool.false_eq_true, if_false, bind, Except.bind]
  have blocked : ∀ half : DF, r ∈ half → findCompetitivePriceN S half qty = .error .indexError := by
    intro half hm
    unfold findCompetitivePriceN
    rw [C138_curves_blocked S qty half r hm hq]
    rfl
  have open' : ∀ l : List ℕ, (findCompetitivePriceN S (locLabels df l) qty = .error .indexError) ∨
      ∃ v, findCompetitivePriceN S (locLabels df l) qty = .ok v := by
    intro l
    by_cases hk : ∀ x ∈ locLabels df l, qty x.label ≠ none
    · right
      rw [findCompetitivePriceN_known S qty _ hk]
      have hm : ∀ x ∈ locLabels df l, x ∈ df := by
        intro x hx
        unfold locLabels at hx
        obtain ⟨i, _, hi⟩ := List.mem_filterMap.mp hx
        exact List.mem_of_find?_eq_some hi
      obtain ⟨i, hi⟩ := intersectU_ok S (locLabels df l) (knownQty qty) (by
        intro x hx
        obtain ⟨h1, h2⟩ := h x (hm x hx)
        obtain ⟨e, he⟩ := Option.ne_none_iff_exists'.mp (hk x hx)
        refine ⟨?_, h1⟩
        unfold knownQty
        rw [he]
        exact h2 e he)
      refine ⟨i.v, ?_⟩
      unfold findCompetitivePriceU
      rw [hi]
      rfl
    · left
      push Not at hk
      obtain ⟨x, hx, hn⟩ := hk
      unfold findCompetitivePriceN
      rw [C138_curves_blocked S qty _ x hx hn]
      rfl
  rcases open' (coinLeft coin (df.map (fun r => r.label))) with h1 | ⟨v, h1⟩
  · rw [h1]
  · rw [h1]
    simp only
    rw [blocked]
    rw [mem_locLabels_iff df ht hr]
    refine List.mem_filter.mpr ⟨List.mem_map_of_mem hr, decide_eq_true ?_⟩
    intro hl
    rw [blocked _ ((mem_locLabels_iff df ht hr).mpr hl)] at h1
    cases h1

/-- **C138, peer to peer.** Nobody meets anybody when one bid has no quantity, whatever the prices. -/
theorem C138_p2p_blocked (price : ℕ → Option ℚ) (c : ℚ) (choice : ℕ → ℕ) (r : Row) (hr : r ∈ df)
    (hq : qty r.label = none) : p2pRandomN c choice df qty price = ([], []) := by
  unfold p2pRandomN
  rw [p2pLoopN]
  have e : sumU (df.map (fun r => Val.ofQty (qty r.label))) = .nan :=
    sumU_nan (List.mem_map.mpr ⟨r, hr, by rw [hq]; rfl⟩)
  simp [e, Val.lt]

/-- The loops agree when the meetings do. -/
theorem p2pLoopN_same (df' : DF) (price : ℕ → Option ℚ) (fill : ℕ → ℚ) (c : ℚ) (choice : ℕ → ℕ)
    (hl : df'.map (fun r => r.label) = df.map (fun r => r.label)) (hex : ∀ q, exhaustedU df' q = exhaustedU df q) :
    ∀ (m : ℕ) {n : ℕ} {q : ℕ → Val} {active : List (ℕ × ℕ)} {inactive : List ℕ}, active.length ≤ m →
      (∀ p ∈ active, ∀ q, tradeOneN price c q p = tradeOneU fill c q p) →
      p2pLoopN df price c choice n q active inactive = p2pLoopU df' fill c choice n q active inactive := by
  have round : ∀ (ps : List (ℕ × ℕ)), (∀ p ∈ ps, ∀ q, tradeOneN price c q p = tradeOneU fill c q p) → ∀ q,
      tradeRoundN price c q ps = tradeRoundU fill c q ps := by
    intro ps
    induction ps with
    | nil => intro _ _; rfl
    | cons p ps ih =>
      intro h q
      simp only [tradeRoundN, tradeRoundU]
      rw [h p (List.mem_cons_self ..), ih (fun p' hp' => h p' (List.mem_cons_of_mem _ hp'))]
  have es : ∀ q : ℕ → Val, df'.map (fun r => q r.label) = df.map (fun r => q r.label) := by
    intro q
    have := congrArg (List.map q) hl
    rwa [List.map_map, List.map_map] at this
  intro m
  induction m with
  | zero =>
    intro n q active inactive hm _
    have e : active = [] := List.length_eq_zero_iff.mp (Nat.le_zero.mp hm)
    subst e
    have e2 : maskOut [] inactive = [] := List.eq_nil_of_subset_nil (maskOut_sublist [] inactive).subset
    rw [p2pLoopN, p2pLoopU]
    simp [e2]
  | succ m ih =>
    intro n q active inactive hm h
    rw [p2pLoopN, p2pLoopU]
    simp only [es]
    by_cases hc : Val.lt (.fin 0) (sumU (df.map (fun r => q r.label))) = true ∧ maskOut active inactive ≠ []
    · rw [dif_pos hc, dif_pos hc]
      have hsub := meetLoop_mem choice n active (maskOut active inactive)
      have hlt := meetLoop_active_lt choice n active (maskOut active inactive) hc.2 (maskOut_sublist active inactive).subset
      rw [round _ (fun p hp => h p ((maskOut_sublist active inactive).subset (hsub.2 hp))), hex,
        ih (by omega) (fun p hp => h p (hsub.1 hp))]
    · rw [dif_neg hc, dif_neg hc]

/-- **C138, peer to peer, prices.** A bid without a price is treated like one at a price that nobody takes. -/
theorem C138_p2p_partial (q : ℕ → Ext) (ht : IsTable df) (price : ℕ → Option ℚ) (c : ℚ) (choice : ℕ → ℕ) (L H : ℚ)
    (hLH : NobodyTakes price L H df) :
    p2pRandomN c choice df (fun i => some (q i)) price = p2pRandomU c choice (withPriceOr price L H df) q := by
  obtain ⟨h1, h2⟩ := hLH
  have hb : buys (withPriceOr price L H df) = (buys df).map (fun r => { r with price := priceOr price L H r }) := by
    unfold buys withPriceOr
    rw [List.filter_map]
    rfl
  have hs : sells (withPriceOr price L H df) = (sells df).map (fun r => { r with price := priceOr price L H r }) := by
    unfold sells withPriceOr
    rw [List.filter_map]
    rfl
  have hpairs : allPairs (withPriceOr price L H df) = allPairs df := by
    unfold allPairs
    rw [hb, hs]
    simp [List.flatMap_map, Function.comp_def]
  have hval : ∀ r ∈ df, valueAt (withPriceOr price L H df) (fun r => r.price) r.label = priceOr price L H r := by
    intro r hr
    unfold valueAt withPriceOr
    rw [List.getElem?_map, ht.get_label hr]
    rfl
  have hex : ∀ u, exhaustedU (withPriceOr price L H df) u = exhaustedU df u := by
    intro u
    unfold exhaustedU
    rw [hb, hs, List.map_map, List.map_map]
    rfl
  unfold p2pRandomN p2pRandomU
  rw [hpairs]
  refine p2pLoopN_same df (withPriceOr price L H df) price _ c choice (by unfold withPriceOr; rw [List.map_map]; rfl) hex _
    (le_refl _) ?_
  intro p hp u
  obtain ⟨b, hbm, s, hsm, hbb, hss, rfl⟩ := mem_allPairs.mp hp
  have vb := hval b hbm
  have vs := hval s hsm
  have nb := h2 b hbm
  have ns := h2 s hsm
  have hne : s.label ≠ b.label := by
    intro e
    have e1 := ht.get_label hbm
    have e2 := ht.get_label hsm
    rw [e, e1] at e2
    rw [Option.some.inj e2, hss] at hbb
    cases hbb
  simp only [hbb, hss, if_true, Bool.false_eq_true, if_false] at nb ns
  simp only [priceOr, hbb, hss, if_true, Bool.false_eq_true, if_false] at vb vs
  unfold tradeOneN tradeOneU
  simp only [vb, vs]
  cases eb : price b.label with
  | none =>
    cases es : price s.label with
    | none => simp [not_le.mpr h1]
    | some y => simp [not_le.mpr (ns y es)]
  | some x =>
    cases es : price s.label with
    | none => simp [not_le.mpr (nb x eb)]
    | some y => simp [hne]

/-- **C138, without missing numbers** the mechanisms are those of `Model/Unlimited`. -/
theorem C138_known (q : ℕ → Ext) (k : ℚ) :
    intersectN (demandCurveN S df (fun i => some (q i))) (supplyCurveN S df (fun i => some (q i))) k =
      intersectStepwise (demandCurveU S df q) (supplyCurveU S df q) k ∧
    huangAuctionN S df (fun i => some (q i)) = huangAuctionU S df q ∧
    uniformPriceN S df (fun i => some (q i)) = uniformPriceU S df q ∧
    findCompetitivePriceN S df (fun i => some (q i)) = findCompetitivePriceU S df q := by
  have e : ∀ k, intersectN (demandCurveN S df (fun i => some (q i))) (supplyCurveN S df (fun i => some (q i))) k =
      intersectStepwise (demandCurveU S df q) (supplyCurveU S df q) k := by
    intro k
    rw [demandCurveN_known S (fun _ _ => Option.some_ne_none _), supplyCurveN_known S (fun _ _ => Option.some_ne_none _),
      intersectN_lift]
    rfl
  refine ⟨e k, ?_, ?_, findCompetitivePriceN_known S _ df (fun _ _ => Option.some_ne_none _)⟩
  · unfold huangAuctionN
    rw [e]
    have : knownQty (fun i => some (q i)) = q := rfl
    rw [this]
    cases h : intersectStepwise (demandCurveU S df q) (supplyCurveU S df q) with
    | error err =>
      unfold huangAuctionU
      simp only [bind, Except.bind, h]
    | ok i => rfl
  · unfold uniformPriceN
    rw [e]
    have : knownQty (fun i => some (q i)) = q := rfl
    rw [this]
    cases h : intersectStepwise (demandCurveU S df q) (supplyCurveU S df q) with
    | error err =>
      unfold uniformPriceU
      simp only [bind, Except.bind, h]
    | ok i => rfl

end

/-! ## Cases -/

/-- Buyers @ 10, @ 9 and @ 1; sellers @ 2 and @ 3 and @ 8; the quantities of the rows are not used. -/
def missingBook : DF := labelFrom 0 [⟨0, 10, 0, true, 0, true⟩, ⟨0, 9, 1, true, 0, true⟩, ⟨0, 2, 2, false, 0, true⟩,
  ⟨0, 3, 3, false, 0, true⟩, ⟨0, 8, 4, false, 0, true⟩, ⟨0, 1, 5, true, 0, true⟩]

/-- One unit each, but for the last bid, which has no quantity. -/
def missingCol (i : ℕ) : Option Ext := if i = 5 then none else some ((1 : ℚ) : Ext)

/-- All prices but that of the first bid. -/
def missingPrices (i : ℕ) : Option ℚ := if i = 0 then none else some (valueAt missingBook (fun r => r.price) i)

/-- **C138 refuted.** Without the last bid the others trade. With it, nobody does, although it could not trade at its
price. -/
theorem C138_refuted :
    (huangAuctionU stableSorter (missingBook.take 5) (knownQty missingCol)).toOption.map
      (fun o => o.1.trans.map (fun t => (t.bid, t.quantity))) = some [(2, 1), (0, 1)] ∧
    huangAuctionN stableSorter missingBook missingCol = .error .indexError ∧
    (uniformPriceU stableSorter (missingBook.take 5) (knownQty missingCol)).toOption.map (fun o => o.2.1) =
      some (some ((2 : ℚ) : Ext)) ∧
    uniformPriceN stableSorter missingBook missingCol = .error .indexError ∧
    (p2pRandomU (1 / 2) (fun _ => 0) (missingBook.take 5) (knownQty missingCol)).2.length = 4 ∧
    p2pRandomN (1 / 2) (fun _ => 0) missingBook missingCol (fun i => some (valueAt missingBook (fun r => r.price) i)) =
      ([], []) := by
  refine ⟨by decide +kernel, C138_huang_blocked _ _ _ _ (List.getElem_mem (l := missingBook) (n := 5) (by decide)) rfl, by decide +kernel,
    C138_uniform_blocked _ _ _ _ (List.getElem_mem (l := missingBook) (n := 5) (by decide)) rfl, by decide +kernel,
    C138_p2p_blocked _ _ _ _ _ _ (List.getElem_mem (l := missingBook) (n := 5) (by decide)) rfl⟩

/-- A bid without a price meets the others and trades nothing. -/
example : NobodyTakes missingPrices 0 11 missingBook ∧
    (p2pRandomN (1 / 2) (fun _ => 0) missingBook (fun _ => some ((1 : ℚ) : Ext)) missingPrices).1 =
      [[(0, 2), (1, 3), (5, 4)], [(0, 4), (5, 2)]] ∧
    ((p2pRandomN (1 / 2) (fun _ => 0) missingBook (fun _ => some ((1 : ℚ) : Ext)) missingPrices).2.filter
      (fun t => decide (t.quantity ≠ .fin 0))).map (fun t => (t.bid, t.quantity, t.price)) =
        [(1, .fin 1, 6), (3, .fin 1, 6)] := by
  refine ⟨⟨by norm_num, ?_⟩, by decide +kernel, by decide +kernel⟩
  intro r hr p hp
  simp only [missingBook, labelFrom, List.mem_cons, List.not_mem_nil, or_false] at hr
  rcases hr with rfl | rfl | rfl | rfl | rfl | rfl <;>
    simp [missingPrices, valueAt, missingBook, labelFrom] at hp ⊢ <;> subst hp <;> norm_num

/-- The hypotheses of `C138_muda_blocked` are met. -/
example : IsTable missingBook ∧ checkEqualPriceRaises missingBook = false ∧ (∀ r ∈ missingBook, 0 ≤ r.price) ∧
    missingCol 5 = none ∧ (∀ i, i ≠ 5 → missingCol i = some ((1 : ℚ) : Ext)) := by
  refine ⟨by decide +kernel, by decide +kernel, by decide +kernel, rfl, ?_⟩
  intro i hi
  simp [missingCol, hi]

end PyMarket
