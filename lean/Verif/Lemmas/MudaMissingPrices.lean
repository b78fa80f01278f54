import Verif.Model.MudaMissingPrices
import Verif.Lemmas.MissingPricesHuang
import Verif.Lemmas.KnownBids

/-! # Lemmas about missing prices in MUDA -/

set_option autoImplicit false

namespace PyMarket

open Spec

section

variable {S : Sorter} {price : ℕ → Option ℚ} {df : DF}

/-- Filtering by the price leaves rows with prices only. -/
theorem filter_priced (test : ℚ → Bool) (rows : DF) :
    pricedRows price (rows.filter (fun r => testP test (price r.label))) = (pricedRows price rows).filter (fun r => test r.price) ∧
    unpricedRows price (rows.filter (fun r => testP test (price r.label))) = [] := by
  have e0 : testP test none = false := rfl
  have e1 : ∀ q, testP test (some q) = test q := fun _ => rfl
  constructor
  · unfold pricedRows
    induction rows with
    | nil => rfl
    | cons r rows ih =>
      rw [List.filterMap_cons (a := r), List.filter_cons]
      cases hp : price r.label with
      | none =>
        simp only [Option.map_none, e0, Bool.false_eq_true, if_false]
        exact ih
      | some q =>
        simp only [Option.map_some]
        rw [List.filter_cons]
        simp only [e1]
        by_cases ht : test q = true
        · rw [if_pos ht, if_pos ht, List.filterMap_cons, hp]
          simp only [Option.map_some]
          rw [ih]
        · rw [if_neg ht, if_neg ht]
          exact ih
  · unfold unpricedRows
    rw [List.filter_eq_nil_iff]
    intro r hr
    have := (List.mem_filter.mp hr).2
    cases hp : price r.label with
    | none => rw [hp] at this; cases this
    | some q => simp

theorem willingDemandP_eq (df : DF) (p : Val) :
    willingDemandP S price df p = willingDemand S (pricedRows price df) p := by
  unfold willingDemandP willingDemand sortDescP
  rw [(filter_priced (fun q => p.leRat q) (buys df)).1, (filter_priced (fun q => p.leRat q) (buys df)).2,
    List.append_nil, buys_pricedRows]

theorem willingSupplyP_eq (df : DF) (p : Val) :
    willingSupplyP S price df p = willingSupply S (pricedRows price df) p := by
  unfold willingSupplyP willingSupply sortAscP
  rw [(filter_priced (fun q => Val.ratLe q p) (sells df)).1, (filter_priced (fun q => Val.ratLe q p) (sells df)).2,
    List.append_nil, sells_pricedRows]

/-- A side without willing bids trades nothing. -/
theorem total_not_pos {a b : ℚ} (h : a = 0 ∨ b = 0) : ¬ 0 < (if decide (a < b) then a else b) := by
  by_cases c : a < b
  · simp only [c, decide_true, if_true]
    rcases h with h | h <;> linarith
  · simp only [c, decide_false, Bool.false_eq_true, if_false]
    rcases h with h | h <;> linarith

theorem solveSideP_eq (df : DF) (p : Val) (fees : List ℚ) :
    solveSideP S price df p fees = solveSide S (pricedRows price df) p fees := by
  unfold solveSideP solveSide
  rw [willingDemandP_eq, willingSupplyP_eq]
  have eb : buys (pricedRows price df) = [] → willingDemand S (pricedRows price df) p = [] := by
    intro e
    unfold willingDemand
    rw [e]
    exact List.eq_nil_of_length_eq_zero (sortDesc_perm S []).length_eq
  have es : sells (pricedRows price df) = [] → willingSupply S (pricedRows price df) p = [] := by
    intro e
    unfold willingSupply
    rw [e]
    exact List.eq_nil_of_length_eq_zero (sortAsc_perm S []).length_eq
  have nb : buys df = [] → buys (pricedRows price df) = [] := by
    intro e
    rw [buys_pricedRows, e]
    rfl
  have ns : sells df = [] → sells (pricedRows price df) = [] := by
    intro e
    rw [sells_pricedRows, e]
    rfl
  simp only [List.length_eq_zero_iff]
  by_cases b1 : buys df = []
  · rw [if_pos b1, if_pos (nb b1)]
  · rw [if_neg b1]
    by_cases s1 : sells df = []
    · rw [if_pos s1, if_pos (ns s1), ite_self]
    · rw [if_neg s1]
      by_cases b2 : buys (pricedRows price df) = []
      · rw [if_pos b2, if_neg]
        apply total_not_pos
        left
        rw [eb b2]
        rfl
      · rw [if_neg b2]
        by_cases s2 : sells (pricedRows price df) = []
        · rw [if_pos s2, if_neg]
          apply total_not_pos
          right
          rw [es s2]
          rfl
        · rw [if_neg s2]

theorem curveRowsP_finite (rows : DF) : ∀ s ∈ curveRowsP price rows, s.1 < ⊤ := by
  intro s hs
  obtain ⟨p, _, rfl⟩ := List.mem_map.mp hs
  exact WithTop.coe_lt_top _

theorem lookupP_top {R : CurveP} (h : ∀ s ∈ R, s.1 < ⊤) (y0 : Ext) :
    getValueStepwiseP ⊤ (R ++ [((⊤ : Ext), some y0)]) = some (some y0) := by
  unfold getValueStepwiseP
  rw [if_neg not_top_lt]
  induction R with
  | nil => simp [stepLookupP]
  | cons s R ih =>
    rw [List.cons_append, stepLookupP, if_neg (not_le.mpr (h s (List.mem_cons_self ..)))]
    exact ih (fun t ht => h t (List.mem_cons_of_mem _ ht))

/-- The last point of the grid is infinity. -/
theorem gridXs_last_top {f g : Curve} (h : ∃ s ∈ f, s.1 = ⊤) : (gridXs f g ⊤).getLast? = some ⊤ := by
  have hm : (⊤ : Ext) ∈ gridXs f g ⊤ := mem_gridXs.mpr ⟨Or.inl h, le_refl _⟩
  have hne := List.ne_nil_of_mem hm
  rw [List.getLast?_eq_some_getLast hne]
  congr 1
  by_contra c
  have hs := gridXs_sorted f g ⊤
  rw [← List.dropLast_append_getLast hne] at hm hs
  rcases List.mem_append.mp hm with h | h
  · exact absurd ((List.pairwise_append.mp hs).2.2 _ h _ (List.mem_singleton.mpr rfl)) not_top_lt
  · exact c (List.mem_singleton.mp h).symm

/-- Without a crossing the price is infinite. -/
theorem competitiveP_none (hP : intersectP (demandCurveP S price df) (supplyCurveP S price df) = .ok none) :
    findCompetitivePriceP S price df = .ok .inf := by
  unfold findCompetitivePriceP
  have t : ∃ s ∈ (demandCurveP S price df).map (fun s : Ext × Option Ext => (s.1, s.1)), s.1 = ⊤ :=
    ⟨((⊤ : Ext), (⊤ : Ext)), List.mem_map.mpr ⟨((⊤ : Ext), some ((0 : ℚ) : Ext)), by
      unfold demandCurveP
      exact List.mem_append_right _ (List.mem_singleton.mpr rfl), rfl⟩, rfl⟩
  have v1 : getValueStepwiseP ⊤ (demandCurveP S price df) = some (some ((0 : ℚ) : Ext)) :=
    lookupP_top (curveRowsP_finite _) _
  have v2 : getValueStepwiseP ⊤ (supplyCurveP S price df) = some (some (⊤ : Ext)) :=
    lookupP_top (curveRowsP_finite _) _
  simp only [bind, Except.bind, hP, gridXs_last_top t, v1, v2]
  decide +kernel

/-- With a crossing the price is the one of the bids with prices. -/
theorem competitiveP_eq (h : NonNegP price df) {i : Intersection} {x : Ext} {b s : ℕ}
    (hi : intersectStepwise (demandCurve S (pricedRows price df)).1 (supplyCurve S (pricedRows price df)).1 = .ok i)
    (hx : i.x = some x)
    (hf : i.f = some b) (hg : i.g = some s) (hb : b < (sortDesc S (buys (pricedRows price df))).length)
    (hs : s < (sortAsc S (sells (pricedRows price df))).length)
    (hP : intersectP (demandCurveP S price df) (supplyCurveP S price df) = .ok (some (x, b, s)))
    (hc : CrossesAt (demandCurve S (pricedRows price df)).1 (supplyCurve S (pricedRows price df)).1 ⊤ x) :
    findCompetitivePriceP S price df = findCompetitivePrice S (pricedRows price df) := by
  obtain ⟨sRow, bRow, s2, b2, hv⟩ := ordinateP_eq h hi hx hf hg hb hs hc
  unfold findCompetitivePriceP findCompetitivePrice
  simp only [bind, Except.bind, hi, hP, b2, s2, hv]

end

end PyMarket
