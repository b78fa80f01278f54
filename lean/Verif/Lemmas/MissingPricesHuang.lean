import Verif.Lemmas.MissingPricesBook
import Verif.Spec.MissingPrices

/-! # Lemmas about Huang's auction with missing prices -/

set_option autoImplicit false

namespace PyMarket

open Spec

section

variable {S : Sorter} {price : ℕ → Option ℚ} {df : DF}

theorem sum_priced (side : Row → Bool) (df : DF) :
    ((pricedRows price (df.filter side)).map (fun r => r.quantity)).sum =
      ((df.filter (fun r => side r && (price r.label).isSome)).map (fun r => r.quantity)).sum := by
  unfold pricedRows
  induction df with
  | nil => rfl
  | cons r df ih =>
    cases hs : side r with
    | false => rw [List.filter_cons_of_neg (by simp [hs]), List.filter_cons_of_neg (by simp [hs]), ih]
    | true =>
      rw [List.filter_cons_of_pos (by simp [hs]), List.filterMap_cons]
      cases hp : price r.label with
      | none =>
        rw [List.filter_cons_of_neg (by simp [hp])]
        exact ih
      | some p =>
        rw [List.filter_cons_of_pos (by simp [hs, hp])]
        simp only [Option.map_some, List.map_cons, List.sum_cons]
        rw [ih]

theorem given_buys (df : DF) : ((sortDesc S (buys (pricedRows price df))).map (fun r => r.quantity)).sum =
    givenQty price true df := by
  rw [((sortDesc_perm S _).map (fun r : Row => r.quantity)).sum_eq, buys_pricedRows]
  unfold buys givenQty
  rw [sum_priced]
  simp

theorem given_sells (df : DF) : ((sortAsc S (sells (pricedRows price df))).map (fun r => r.quantity)).sum =
    givenQty price false df := by
  rw [((sortAsc_perm S _).map (fun r : Row => r.quantity)).sum_eq, sells_pricedRows]
  unfold sells givenQty
  rw [sum_priced]
  simp

theorem open_buys (df : DF) : ((unpricedRows price (buys df)).map (fun r => r.quantity)).sum = openQty price true df := by
  unfold unpricedRows buys openQty
  rw [List.filter_filter]
  simp [Bool.and_comm]

theorem open_sells (df : DF) : ((unpricedRows price (sells df)).map (fun r => r.quantity)).sum = openQty price false df := by
  unfold unpricedRows sells openQty
  rw [List.filter_filter]
  simp [Bool.and_comm]

/-- The crossing with missing prices. -/
theorem missing_cases (h : NonNegP price df) :
    (∃ i x b s, intersectStepwise (demandCurve S (pricedRows price df)).1 (supplyCurve S (pricedRows price df)).1 = .ok i ∧
      i.x = some x ∧ i.f = some b ∧ i.g = some s ∧
      b < (sortDesc S (buys (pricedRows price df))).length ∧ s < (sortAsc S (sells (pricedRows price df))).length ∧
      intersectP (demandCurveP S price df) (supplyCurveP S price df) = .ok (some (x, b, s)) ∧
      CrossesAt (demandCurve S (pricedRows price df)).1 (supplyCurve S (pricedRows price df)).1 ⊤ x ∧
      Covered price true df x ∧ Covered price false df x) ∨
    (∃ i, intersectStepwise (demandCurve S (pricedRows price df)).1 (supplyCurve S (pricedRows price df)).1 = .ok i ∧
      intersectP (demandCurveP S price df) (supplyCurveP S price df) = .ok none ∧ (i.x = none → i.f = none ∧ i.g = none) ∧
      ∀ x, (i.x = some x ↔ CrossesAt (demandCurve S (pricedRows price df)).1 (supplyCurve S (pricedRows price df)).1 ⊤ x) ∧
        (i.x = some x → ¬ (Covered price true df x ∧ Covered price false df x))) := by
  have hq : ∀ r ∈ pricedRows price df, 0 ≤ r.quantity ∧ 0 ≤ r.price := by
    intro r hr
    obtain ⟨h1, r', hr', e1, e2, _⟩ := mem_pricedRows hr
    obtain ⟨h2, h3⟩ := h r' hr'
    exact ⟨e2 ▸ h2, h3 _ (by rw [e1]; exact h1)⟩
  set A := sortDesc S (buys (pricedRows price df)) with hA
  set C := sortAsc S (sells (pricedRows price df)) with hC
  have memA : ∀ r ∈ A, r ∈ pricedRows price df := fun r hr => (buyRows_mem hr).1
  have memC : ∀ r ∈ C, r ∈ pricedRows price df := fun r hr => (sellRows_mem hr).1
  have qA : ∀ r ∈ A, 0 ≤ r.quantity := fun r hr => (hq r (memA r hr)).1
  have qC : ∀ r ∈ C, 0 ≤ r.quantity := fun r hr => (hq r (memC r hr)).1
  have qB : ∀ r ∈ unpricedRows price (buys df), 0 ≤ r.quantity := fun r hr =>
    (h r (mem_buys.mp (mem_unpricedRows hr).1).1).1
  have qD : ∀ r ∈ unpricedRows price (sells df), 0 ≤ r.quantity := fun r hr =>
    (h r (mem_sells.mp (mem_unpricedRows hr).1).1).1
  have nB : ∀ r ∈ unpricedRows price (buys df), price r.label = none := fun r hr => (mem_unpricedRows hr).2
  have nD : ∀ r ∈ unpricedRows price (sells df), price r.label = none := fun r hr => (mem_unpricedRows hr).2
  have nn : ∀ {E : DF}, (∀ r ∈ E, 0 ≤ r.quantity) → 0 ≤ (E.map (fun r => r.quantity)).sum := by
    intro E h
    refine List.sum_nonneg ?_
    intro x hx
    obtain ⟨t, ht, rfl⟩ := List.mem_map.mp hx
    exact h t ht
  have eF : demandCurveP S price df = liftP (bookRows A) ++ tailRows price ((A.map (fun r => r.quantity)).sum)
      (unpricedRows price (buys df)) ++ [((⊤ : Ext), some ((0 : ℚ) : Ext))] := by
    unfold demandCurveP sortDescP
    rw [← buys_pricedRows, curveRowsP_append _ _ (fun r hr => (mem_pricedRows (memA r hr)).1)]
  have eG : supplyCurveP S price df = liftP (bookRows C) ++ tailRows price ((C.map (fun r => r.quantity)).sum)
      (unpricedRows price (sells df)) ++ [((⊤ : Ext), some (⊤ : Ext))] := by
    unfold supplyCurveP sortAscP
    rw [← sells_pricedRows, curveRowsP_append _ _ (fun r hr => (mem_pricedRows (memC r hr)).1)]
  have dF : (demandCurve S (pricedRows price df)).1 = bookRows A ++ [((⊤ : Ext), ((0 : ℚ) : Ext))] := rfl
  have dG : (supplyCurve S (pricedRows price df)).1 = bookRows C ++ [((⊤ : Ext), (⊤ : Ext))] := rfl
  have sF : IsStep (bookRows A ++ [((⊤ : Ext), ((0 : ℚ) : Ext))]) := curve_isStep (by
    intro x hx
    obtain ⟨r, hr, rfl⟩ := List.mem_map.mp hx
    exact qA r hr) _
  have sG : IsStep (bookRows C ++ [((⊤ : Ext), (⊤ : Ext))]) := curve_isStep (by
    intro x hx
    obtain ⟨r, hr, rfl⟩ := List.mem_map.mp hx
    exact qC r hr) _
  have hdec := C05_demand_nonincreasing S (pricedRows price df) (fun r hr => (hq r hr).2)
  rw [List.pairwise_map, dF] at hdec
  have hinc := C06_supply_nondecreasing S (pricedRows price df)
  rw [List.pairwise_map, dG] at hinc
  have pG : ∀ s ∈ bookRows C, ((0 : ℚ) : Ext) ≤ s.2 := by
    intro s hs
    obtain ⟨⟨a, b⟩, hp, rfl⟩ := List.mem_map.mp hs
    obtain ⟨r, hr, e⟩ := List.mem_map.mp (List.of_mem_zip hp).2
    show ((0 : ℚ) : Ext) ≤ (b : Ext)
    rw [← e]
    exact WithTop.coe_le_coe.mpr (hq r (memC r hr)).2
  have tf : ∃ s ∈ bookRows A ++ [((⊤ : Ext), ((0 : ℚ) : Ext))], s.1 = ⊤ :=
    ⟨_, List.mem_append_right _ (List.mem_singleton.mpr rfl), rfl⟩
  have tg : ∃ s ∈ bookRows C ++ [((⊤ : Ext), (⊤ : Ext))], s.1 = ⊤ :=
    ⟨_, List.mem_append_right _ (List.mem_singleton.mpr rfl), rfl⟩
  obtain ⟨i, hi, hcase, hnone⟩ := intersectP_known (F := bookRows A) (G := bookRows C)
    (NF := tailRows price ((A.map (fun r => r.quantity)).sum) (unpricedRows price (buys df)))
    (NG := tailRows price ((C.map (fun r => r.quantity)).sum) (unpricedRows price (sells df)))
    (fun s hs => (tailRows_spec _ _ (nn qA) nB qB s hs).1) (fun s hs => (tailRows_spec _ _ (nn qC) nD qD s hs).1)
    (fun s hs => (tailRows_spec _ _ (nn qA) nB qB s hs).2.1) (fun s hs => (tailRows_spec _ _ (nn qC) nD qD s hs).2.1)
    sF sG hdec hinc pG
  obtain ⟨i', hi', hcross, _⟩ := C74_contract _ _ sF sG hdec hinc (1 / 2) ⊤ (domainEnd_top tf tg)
  rw [hi] at hi'
  cases hi'
  have cov : ∀ x, CrossesAt (bookRows A ++ [((⊤ : Ext), ((0 : ℚ) : Ext))]) (bookRows C ++ [((⊤ : Ext), (⊤ : Ext))]) ⊤ x →
      ((Reads (bookRows A) (tailRows price ((A.map (fun r => r.quantity)).sum) (unpricedRows price (buys df))) x ↔
        Covered price true df x) ∧
      (Reads (bookRows C) (tailRows price ((C.map (fun r => r.quantity)).sum) (unpricedRows price (sells df))) x ↔
        Covered price false df x)) := by
    intro x hc
    obtain ⟨inF, inG⟩ := crossesAt_inside pG hc
    unfold Reads Covered
    rw [reads_iff nB qA qB inF, reads_iff nD qC qD inG, hA, hC, given_buys, given_sells, open_buys, open_sells]
    exact ⟨Iff.rfl, Iff.rfl⟩
  rw [eF, eG, dF, dG]
  rcases hcase with ⟨x, b, s, h1, h2, h3, h4, h5, h6, h7, h8⟩ | ⟨h1, h2⟩
  · left
    rw [bookRows_length] at h4 h5
    have hc := (hcross x).mp h1
    exact ⟨i, x, b, s, hi, h1, h2, h3, h4, h5, h8, hc, (cov x hc).1.mp h6, (cov x hc).2.mp h7⟩
  · right
    refine ⟨i, hi, h1, hnone, fun x => ⟨hcross x, fun hx hc => ?_⟩⟩
    have cv := cov x ((hcross x).mp hx)
    exact h2 x hx ⟨cv.1.mpr hc.1, cv.2.mpr hc.2⟩

/-- The rows at a position with a value. -/
theorem curveP_row {A : DF} {N T : CurveP} {R : Curve} {b : ℕ} (hb : b < A.length) :
    ∃ row, (bookRows A ++ R)[b]? = some row ∧ (liftP (bookRows A) ++ N ++ T)[b]? = some (row.1, some row.2) := by
  have h1 : b < (bookRows A).length := by rw [bookRows_length]; exact hb
  refine ⟨(bookRows A)[b], ?_, ?_⟩
  · rw [List.getElem?_append_left h1, List.getElem?_eq_getElem h1]
  · rw [List.append_assoc, List.getElem?_append_left (by unfold liftP; rw [List.length_map]; exact h1)]
    unfold liftP
    rw [List.getElem?_map, List.getElem?_eq_getElem h1]
    rfl

/-- The auction at a crossing that is found. -/
theorem huangAuctionP_eq {i : Intersection} {x : Ext} {b s : ℕ}
    (hi : intersectStepwise (demandCurve S (pricedRows price df)).1 (supplyCurve S (pricedRows price df)).1 = .ok i)
    (hf : i.f = some b) (hg : i.g = some s) (hb : b < (sortDesc S (buys (pricedRows price df))).length)
    (hs : s < (sortAsc S (sells (pricedRows price df))).length)
    (hP : intersectP (demandCurveP S price df) (supplyCurveP S price df) = .ok (some (x, b, s))) :
    huangAuctionP S price df = huangAuction S (pricedRows price df) := by
  have eF : demandCurveP S price df = liftP (bookRows (sortDesc S (buys (pricedRows price df)))) ++
      tailRows price (((sortDesc S (buys (pricedRows price df))).map (fun r => r.quantity)).sum)
      (unpricedRows price (buys df)) ++ [((⊤ : Ext), some ((0 : ℚ) : Ext))] := by
    unfold demandCurveP sortDescP
    rw [← buys_pricedRows, curveRowsP_append _ _ (fun r hr => (mem_pricedRows (buyRows_mem hr).1).1)]
  have eG : supplyCurveP S price df = liftP (bookRows (sortAsc S (sells (pricedRows price df)))) ++
      tailRows price (((sortAsc S (sells (pricedRows price df))).map (fun r => r.quantity)).sum)
      (unpricedRows price (sells df)) ++ [((⊤ : Ext), some (⊤ : Ext))] := by
    unfold supplyCurveP sortAscP
    rw [← sells_pricedRows, curveRowsP_append _ _ (fun r hr => (mem_pricedRows (sellRows_mem hr).1).1)]
  obtain ⟨bRow, b1, b2⟩ := curveP_row (N := tailRows price (((sortDesc S (buys (pricedRows price df))).map
      (fun r => r.quantity)).sum) (unpricedRows price (buys df))) (T := [((⊤ : Ext), some ((0 : ℚ) : Ext))])
      (R := [((⊤ : Ext), ((0 : ℚ) : Ext))]) hb
  obtain ⟨sRow, s1, s2⟩ := curveP_row (N := tailRows price (((sortAsc S (sells (pricedRows price df))).map
      (fun r => r.quantity)).sum) (unpricedRows price (sells df))) (T := [((⊤ : Ext), some (⊤ : Ext))])
      (R := [((⊤ : Ext), (⊤ : Ext))]) hs
  rw [← eF] at b2
  rw [← eG] at s2
  replace b1 : (demandCurve S (pricedRows price df)).1[b]? = some bRow := b1
  replace s1 : (supplyCurve S (pricedRows price df)).1[s]? = some sRow := s1
  have t1 : (sortDescP S price (buys df)).take b = (sortDesc S (buys (pricedRows price df))).take b := by
    unfold sortDescP
    rw [← buys_pricedRows, List.take_append_of_le_length hb.le]
  have t2 : (sortAscP S price (sells df)).take s = (sortAsc S (sells (pricedRows price df))).take s := by
    unfold sortAscP
    rw [← sells_pricedRows, List.take_append_of_le_length hs.le]
  unfold huangAuctionP huangAuction
  simp only [bind, Except.bind, hi, hP, hf, hg, b1, b2, s1, s2, t1, t2]

/-- The auction without a crossing. -/
theorem huangAuctionP_none (hP : intersectP (demandCurveP S price df) (supplyCurveP S price df) = .ok none) :
    huangAuctionP S price df = .ok (TransactionManager.init, .empty) := by
  unfold huangAuctionP
  simp only [bind, Except.bind, hP]

/-- Curves cross at one quantity. -/
theorem crossesAt_unique {f g : Curve} {m x y : Ext} (hx : CrossesAt f g m x) (hy : CrossesAt f g m y) : x = y := by
  have key : ∀ {x y : Ext}, CrossesAt f g m x → CrossesAt f g m y → ¬ x < y := by
    rintro x y ⟨_, _, h1⟩ ⟨h2, ⟨a, b, h3, h4, h5⟩, _⟩ hxy
    obtain ⟨a', b', h6, h7, h8⟩ := h1 y hxy h2.le
    rw [h3.unique h6, h4.unique h7] at h5
    exact absurd h8 (not_lt.mpr h5.le)
  exact le_antisymm (not_lt.mp (key hy hx)) (not_lt.mp (key hx hy))

/-- The transactions of the auction belong to bids of the book. -/
theorem huangAuction_bids {rows : DF} {tm : TransactionManager} {e : Extra} (h : huangAuction S rows = .ok (tm, e)) :
    ∀ t ∈ tm.trans, ∃ r ∈ rows, r.label = t.bid := by
  have side : ∀ {l : DF} {qs : List ℚ} {p : ℚ} {t : Transaction}, (∀ r ∈ l, r ∈ rows) → t ∈ huangSideTrans l qs p →
      ∃ r ∈ rows, r.label = t.bid := by
    intro l qs p t hl ht
    obtain ⟨⟨r, q⟩, hrq, rfl⟩ := List.mem_map.mp ht
    exact ⟨r, hl r (List.of_mem_zip hrq).1, rfl⟩
  have both : ∀ {b s : ℕ} {qs qb : List ℚ} {ps pb : ℚ} {t : Transaction},
      t ∈ (TransactionManager.init.addAll (huangSideTrans ((sortAsc S (sells rows)).take s) qs ps ++
        huangSideTrans ((sortDesc S (buys rows)).take b) qb pb)).trans → ∃ r ∈ rows, r.label = t.bid := by
    intro b s qs qb ps pb t ht
    rw [TransactionManager.init_addAll_trans] at ht
    rcases List.mem_append.mp ht with ht | ht
    · exact side (fun r hr => (sellRows_mem (List.mem_of_mem_take hr)).1) ht
    · exact side (fun r hr => (buyRows_mem (List.mem_of_mem_take hr)).1) ht
  unfold huangAuction at h
  simp only [bind, Except.bind] at h
  split at h
  · cases h
  · split at h
    · split at h
      · split at h
        · split at h
          · split at h
            · cases h
            · cases h
              intro t ht
              exact both ht
          · split at h
            · cases h
            · cases h
              intro t ht
              exact both ht
        · cases h
          intro t ht
          cases ht
      · cases h
    · cases h
      intro t ht
      cases ht

theorem tailRows_ge : ∀ (B : DF) (a : ℚ), (∀ r ∈ B, 0 ≤ r.quantity) → ∀ s ∈ tailRows price a B, (a : Ext) ≤ s.1
  | [], a, _, s, hs => by cases hs
  | r :: B, a, hq, s, hs => by
    have h0 : a ≤ a + r.quantity := le_add_of_nonneg_right (hq r (List.mem_cons_self ..))
    rw [tailRows_cons] at hs
    rcases List.mem_cons.mp hs with rfl | hs
    · exact WithTop.coe_le_coe.mpr h0
    · exact (WithTop.coe_le_coe.mpr h0).trans (tailRows_ge B _ (fun t ht => hq t (List.mem_cons_of_mem _ ht)) s hs)

/-- The ends of a curve at a quantity within its priced rows. -/
theorem ends_iff {A B : DF} (hqA : ∀ r ∈ A, 0 ≤ r.quantity) (hqB : ∀ r ∈ B, 0 ≤ r.quantity) {x y0 : Ext}
    (hx : ∃ s ∈ bookRows A, x ≤ s.1) :
    x ∈ (liftP (bookRows A) ++ tailRows price ((A.map (fun r => r.quantity)).sum) B ++ [((⊤ : Ext), some y0)]).map Prod.fst ↔
      x ∈ (bookRows A ++ [((⊤ : Ext), y0)]).map Prod.fst := by
  have e : (liftP (bookRows A)).map Prod.fst = (bookRows A).map Prod.fst := by
    unfold liftP
    rw [List.map_map]
    rfl
  rw [List.map_append, List.map_append, List.map_append, e]
  constructor
  · intro h
    rcases List.mem_append.mp h with h | h
    · rcases List.mem_append.mp h with h | h
      · exact List.mem_append_left _ h
      · apply List.mem_append_left
        obtain ⟨s, hs, rfl⟩ := List.mem_map.mp h
        obtain ⟨t, ht, hst⟩ := hx
        obtain ⟨b1, b2⟩ := bookRows_spec A hqA
        have hn : A ≠ [] := by
          rintro rfl
          cases ht
        obtain ⟨u, hu, eu⟩ := b2 hn
        have : s.1 = u.1 := by
          rw [eu]
          exact le_antisymm (hst.trans (b1 t ht)) (tailRows_ge B _ hqB s hs)
        rw [this]
        exact List.mem_map.mpr ⟨u, hu, rfl⟩
    · exact List.mem_append_right _ h
  · intro h
    rcases List.mem_append.mp h with h | h
    · exact List.mem_append_left _ (List.mem_append_left _ h)
    · exact List.mem_append_right _ h

/-- The ordinate at a crossing that is found. -/
theorem ordinateP_eq (h : NonNegP price df) {i : Intersection} {x : Ext} {b s : ℕ}
    (hi : intersectStepwise (demandCurve S (pricedRows price df)).1 (supplyCurve S (pricedRows price df)).1 = .ok i)
    (hx : i.x = some x)
    (hf : i.f = some b) (hg : i.g = some s) (hb : b < (sortDesc S (buys (pricedRows price df))).length)
    (hs : s < (sortAsc S (sells (pricedRows price df))).length)
    (hc : CrossesAt (demandCurve S (pricedRows price df)).1 (supplyCurve S (pricedRows price df)).1 ⊤ x) :
    ∃ sRow bRow, (supplyCurveP S price df)[s]? = some sRow ∧ (demandCurveP S price df)[b]? = some bRow ∧
      ordinateP (1 / 2) (demandCurveP S price df) (supplyCurveP S price df) x sRow bRow = i.v := by
  have hq : ∀ r ∈ pricedRows price df, 0 ≤ r.quantity ∧ 0 ≤ r.price := by
    intro r hr
    obtain ⟨h1, r', hr', e1, e2, _⟩ := mem_pricedRows hr
    obtain ⟨h2, h3⟩ := h r' hr'
    exact ⟨e2 ▸ h2, h3 _ (by rw [e1]; exact h1)⟩
  have eF : demandCurveP S price df = liftP (bookRows (sortDesc S (buys (pricedRows price df)))) ++
      tailRows price (((sortDesc S (buys (pricedRows price df))).map (fun r => r.quantity)).sum)
      (unpricedRows price (buys df)) ++ [((⊤ : Ext), some ((0 : ℚ) : Ext))] := by
    unfold demandCurveP sortDescP
    rw [← buys_pricedRows, curveRowsP_append _ _ (fun r hr => (mem_pricedRows (buyRows_mem hr).1).1)]
  have eG : supplyCurveP S price df = liftP (bookRows (sortAsc S (sells (pricedRows price df)))) ++
      tailRows price (((sortAsc S (sells (pricedRows price df))).map (fun r => r.quantity)).sum)
      (unpricedRows price (sells df)) ++ [((⊤ : Ext), some (⊤ : Ext))] := by
    unfold supplyCurveP sortAscP
    rw [← sells_pricedRows, curveRowsP_append _ _ (fun r hr => (mem_pricedRows (sellRows_mem hr).1).1)]
  have pG : ∀ s ∈ bookRows (sortAsc S (sells (pricedRows price df))), ((0 : ℚ) : Ext) ≤ s.2 := by
    intro s hs
    obtain ⟨⟨a, b⟩, hp, rfl⟩ := List.mem_map.mp hs
    obtain ⟨r, hr, e⟩ := List.mem_map.mp (List.of_mem_zip hp).2
    show ((0 : ℚ) : Ext) ≤ (b : Ext)
    rw [← e]
    exact WithTop.coe_le_coe.mpr (hq r (sellRows_mem hr).1).2
  obtain ⟨inF, inG⟩ := crossesAt_inside pG hc
  have mF : x ∈ (demandCurveP S price df).map Prod.fst ↔ x ∈ (demandCurve S (pricedRows price df)).1.map Prod.fst := by
    rw [eF]
    exact ends_iff (fun r hr => (hq r (buyRows_mem hr).1).1)
      (fun r hr => (h r (mem_buys.mp (mem_unpricedRows hr).1).1).1) inF
  have mG : x ∈ (supplyCurveP S price df).map Prod.fst ↔ x ∈ (supplyCurve S (pricedRows price df)).1.map Prod.fst := by
    rw [eG]
    exact ends_iff (fun r hr => (hq r (sellRows_mem hr).1).1)
      (fun r hr => (h r (mem_sells.mp (mem_unpricedRows hr).1).1).1) inG
  obtain ⟨bRow, b1, b2⟩ := curveP_row (N := tailRows price (((sortDesc S (buys (pricedRows price df))).map
      (fun r => r.quantity)).sum) (unpricedRows price (buys df))) (T := [((⊤ : Ext), some ((0 : ℚ) : Ext))])
      (R := [((⊤ : Ext), ((0 : ℚ) : Ext))]) hb
  obtain ⟨sRow, s1, s2⟩ := curveP_row (N := tailRows price (((sortAsc S (sells (pricedRows price df))).map
      (fun r => r.quantity)).sum) (unpricedRows price (sells df))) (T := [((⊤ : Ext), some (⊤ : Ext))])
      (R := [((⊤ : Ext), (⊤ : Ext))]) hs
  rw [← eF] at b2
  rw [← eG] at s2
  replace b1 : (demandCurve S (pricedRows price df)).1[b]? = some bRow := b1
  replace s1 : (supplyCurve S (pricedRows price df)).1[s]? = some sRow := s1
  have hv : ordinateP (1 / 2) (demandCurveP S price df) (supplyCurveP S price df) x (sRow.1, some sRow.2)
      (bRow.1, some bRow.2) = i.v := by
    obtain ⟨gRow, fRow, g1, f1, e⟩ := intersect_shape hi hx
    rw [e] at hf hg
    simp only [Option.some.injEq] at hf hg
    rw [hf, b1] at f1
    rw [hg, s1] at g1
    cases f1
    cases g1
    rw [e]
    unfold ordinateP
    simp only [mF, mG, valP, kMixP]
  exact ⟨_, _, s2, b2, hv⟩

/-- The uniform price at a crossing that is found. -/
theorem uniformPriceP_eq (h : NonNegP price df) {i : Intersection} {x : Ext} {b s : ℕ}
    (hi : intersectStepwise (demandCurve S (pricedRows price df)).1 (supplyCurve S (pricedRows price df)).1 = .ok i)
    (hx : i.x = some x)
    (hf : i.f = some b) (hg : i.g = some s) (hb : b < (sortDesc S (buys (pricedRows price df))).length)
    (hs : s < (sortAsc S (sells (pricedRows price df))).length)
    (hP : intersectP (demandCurveP S price df) (supplyCurveP S price df) = .ok (some (x, b, s)))
    (hc : CrossesAt (demandCurve S (pricedRows price df)).1 (supplyCurve S (pricedRows price df)).1 ⊤ x) :
    uniformPriceP S price df = uniformPrice S (pricedRows price df) := by
  obtain ⟨sRow, bRow, s2, b2, hv⟩ := ordinateP_eq h hi hx hf hg hb hs hc
  have t1 : (sortDescP S price (buys df)).take (b + 1) = (sortDesc S (buys (pricedRows price df))).take (b + 1) := by
    unfold sortDescP
    rw [← buys_pricedRows, List.take_append_of_le_length hb]
  have t2 : (sortAscP S price (sells df)).take (s + 1) = (sortAsc S (sells (pricedRows price df))).take (s + 1) := by
    unfold sortAscP
    rw [← sells_pricedRows, List.take_append_of_le_length hs]
  unfold uniformPriceP uniformPrice
  simp only [bind, Except.bind, hi, hP, hf, hg, hx, b2, s2, t1, t2, hv]

end

end PyMarket
