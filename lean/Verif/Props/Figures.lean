import Verif.Props.Plot
import Verif.Props.Huang
import Verif.Props.Muda
import Mathlib.Algebra.Order.Floor.Semiring

/-! # C61: the figures of Huang's auction and of MUDA -/

set_option autoImplicit false

namespace PyMarket

/-- Two step lines show the demand and the supply curve of a set of bids, as in C50 (margins 6/5). -/
def Spec.Draws (S : Sorter) (df : DF) (c : (List Ext × List Ext) × (List Ext × List Ext)) : Prop :=
  ∃ top : ℚ, TopPrice df top ∧
    (∀ z y, OnStep c.1.1 c.1.2 z y → getValueStepwise z (demandCurve S df).1 = some y) ∧
    (∀ z y, OnStep c.2.1 c.2.2 z y →
      (z ≤ (sideQty df false : Ext) → getValueStepwise z (supplyCurve S df).1 = some y) ∧
      ((sideQty df false : Ext) < z → getValueStepwise z (supplyCurve S df).1 = some ⊤ ∧
        y = ((top * (6 / 5) : ℚ) : Ext))) ∧
    ∀ z : Ext, ((0 : ℚ) : Ext) < z →
      z < ((max (sideQty df true) (sideQty df false) * (6 / 5) : ℚ) : Ext) →
      (z ∉ c.1.1 → ∃ y, OnStep c.1.1 c.1.2 z y) ∧ (z ∉ c.2.1 → ∃ y, OnStep c.2.1 c.2.2 z y)

/-- The area between two horizontal lines of distance `height`, shaded between consecutive
abscissae (`fill_between`). -/
def Spec.shadedArea (height : ℚ) : List ℚ → ℚ
  | a :: b :: l => (b - a) * height + shadedArea height (b :: l)
  | _ => 0

/-- The lines of a Huang figure: sellers trade at one, buyers at the other, and the vertical line is
at the quantity bought and at the quantity sold. -/
def Spec.LinesShow (df : DF) (ts : List Transaction) (f : HuangFigure) : Prop :=
  (∀ t ∈ ts, isSell df t.bid = true → f.sellLine = (t.price : Ext)) ∧
  (∀ t ∈ ts, isBuy df t.bid = true → f.buyLine = (t.price : Ext)) ∧
  f.quantityLine = boughtQty df ts ∧ f.quantityLine = soldQty df ts

/-- The shaded area is between the two price lines and equals the market maker's profit. -/
def Spec.ShadesProfit (df : DF) (ts : List Transaction) (f : HuangFigure) : Prop :=
  f.fillY = (f.buyLine, f.sellLine) ∧
  ∀ ps pb : ℚ, f.sellLine = (ps : Ext) → f.buyLine = (pb : Ext) →
    shadedArea (pb - ps) f.fillX = (calculateProfits df ts none none).1.market

open Spec

theorem draws_plotData (S : Sorter) (df : DF) (h : NonNeg df) :
    Draws S df (plotData S df defaultMargin defaultMargin) := by
  obtain ⟨xd, yd, xs, ys, top, he, -, -, h1, h2, h3, h4⟩ := C50_drawn S df h (6 / 5) (6 / 5)
  unfold defaultMargin
  rw [he]
  exact ⟨top, h1, h2, h3, h4⟩

theorem shadedArea_step (height d : ℚ) (n s : ℕ) :
    shadedArea height ((List.range' s n).map (fun k : ℕ => (k : ℚ) / d)) =
      ((n - 1 : ℕ) : ℚ) / d * height := by
  induction n generalizing s with
  | zero => simp [shadedArea]
  | succ n ih =>
    cases n with
    | zero => simp [shadedArea]
    | succ n =>
      have e := ih (s + 1)
      rw [List.range'_succ] at e
      rw [List.range'_succ, List.range'_succ]
      simp only [List.map_cons, shadedArea] at e ⊢
      rw [e]
      simp only [Nat.add_sub_cancel]
      push_cast
      ring

theorem shadedArea_arange (height q : ℚ) :
    shadedArea height (arangeHundredths q) = ((⌈q * 100⌉₊ - 1 : ℕ) : ℚ) / 100 * height := by
  unfold arangeHundredths
  rw [List.range_eq_range', shadedArea_step]

theorem arange_last (q : ℚ) (hq : 0 < q) :
    q - 1 / 100 ≤ ((⌈q * 100⌉₊ - 1 : ℕ) : ℚ) / 100 ∧ ((⌈q * 100⌉₊ - 1 : ℕ) : ℚ) / 100 < q := by
  have h0 : 0 < ⌈q * 100⌉₊ := Nat.ceil_pos.mpr (by linarith)
  have h1 : ((⌈q * 100⌉₊ - 1 : ℕ) : ℚ) = (⌈q * 100⌉₊ : ℚ) - 1 := by
    rw [Nat.cast_sub h0, Nat.cast_one]
  have h2 := Nat.le_ceil (q * 100)
  have h3 := Nat.ceil_lt_add_one (a := q * 100) (by linarith)
  rw [h1]
  constructor
  · rw [le_div_iff₀ (by norm_num)]; linarith
  · rw [div_lt_iff₀ (by norm_num)]; linarith

theorem market_run_ok {m : Market} {S : Sorter} {smp : Sampler} {call : AlgoCall}
    {tm : TransactionManager} {ex : Extra} (h : runAlgo S smp call m.bm.getDf = .ok (tm, ex)) :
    m.run S smp call = ({ m with transactions := tm, extra := ex }, .ok (tm, ex)) := by
  unfold Market.run
  rw [h]

/-! ## Huang -/

/-- **C61, Huang, partial.** After `run('huang')`, when there is a transaction: the figure shows the
book's curves, the lines are at the trading prices and the traded quantity, and the shaded area
falls short of the market maker's profit by at most a strip of width 1/100 — but always short, when
something is traded. Missing: the equality of the shaded area (`C61_huang_refuted`) and the vertical
line when there is no transaction (`C61_line_refuted`). -/
theorem C61_huang_partial (S S' : Sorter) (smp : Sampler) (m : Market) (h : GroupPos m.bm.getDf)
    (hq : NonNeg m.bm.getDf) :
    ∃ tm ex, m.run S smp .huang = ({ m with transactions := tm, extra := ex }, .ok (tm, ex)) ∧
      (tm.trans ≠ [] → ∃ f, (m.run S smp .huang).1.huangPlot S' = some f ∧
        Draws S' m.bm.getDf f.curves ∧ LinesShow m.bm.getDf tm.trans f ∧
        f.fillY = (f.buyLine, f.sellLine) ∧
        ∃ ps pb : ℚ, f.sellLine = (ps : Ext) ∧ f.buyLine = (pb : Ext) ∧ ps < pb ∧
          (calculateProfits m.bm.getDf tm.trans none none).1.market - (pb - ps) / 100 ≤
            shadedArea (pb - ps) f.fillX ∧
          (0 < f.quantityLine → shadedArea (pb - ps) f.fillX <
            (calculateProfits m.bm.getDf tm.trans none none).1.market)) := by
  have ht : IsTable m.bm.getDf := isTable_labelFrom _
  rcases huang_market S smp ht h with ⟨tm, h1, h2⟩ | ⟨tm, ps, pb, q, h1, hO, -⟩
  · exact ⟨_, _, market_run_ok h1, fun hne => absurd h2 hne⟩
  · refine ⟨_, _, market_run_ok h1, fun hne => ?_⟩
    rw [market_run_ok h1]
    have hv := hO.volume hne
    have e : (calculateProfits m.bm.getDf tm.trans none none).1.market = (pb - ps) * q := by
      rw [market_profit ht, hO.paid.1, hO.paid.2, ← hO.balanced, hv]
      simp; ring
    have hlt := hO.lt
    refine ⟨huangFigure S' m.bm.getDf ps pb q, rfl, draws_plotData S' _ hq,
      ⟨fun t htt hs => ?_, fun t htt hb => ?_, hv, hv.trans hO.balanced⟩, rfl, ps, pb, rfl, rfl,
      hlt, ?_, fun hpos => ?_⟩
    · obtain ⟨r, hr, hc⟩ := hO.rational.2 t htt
      simp only [isSell, hr, Option.map_some, Option.getD_some] at hs
      rcases hc with ⟨hb, -⟩ | ⟨-, hp, -⟩
      · rw [hb] at hs; cases hs
      · rw [hp]; rfl
    · obtain ⟨r, hr, hc⟩ := hO.rational.2 t htt
      simp only [isBuy, hr, Option.map_some, Option.getD_some] at hb
      rcases hc with ⟨-, hp, -⟩ | ⟨hb', -⟩
      · rw [hp]; rfl
      · rw [hb'] at hb; cases hb
    · show _ ≤ shadedArea (pb - ps) (arangeHundredths q)
      rw [shadedArea_arange, e]
      by_cases hpos : 0 < q
      · have := mul_le_mul_of_nonneg_right (arange_last q hpos).1 (by linarith : 0 ≤ pb - ps)
        linarith
      · have h0 : ⌈q * 100⌉₊ = 0 := Nat.ceil_eq_zero.mpr (by linarith)
        have : (pb - ps) * q ≤ 0 := mul_nonpos_of_nonneg_of_nonpos (by linarith) (by linarith)
        rw [h0]
        simp only [Nat.zero_sub, Nat.cast_zero, zero_div, zero_mul]
        linarith
    · show shadedArea (pb - ps) (arangeHundredths q) < _
      rw [shadedArea_arange, e]
      have := mul_lt_mul_of_pos_right (arange_last q hpos).2 (by linarith : 0 < pb - ps)
      linarith

/-- A market with two buyers and two sellers in which one unit is traded at 3 and 2. -/
def figureMarket : Market :=
  { Market.init with bm := ⟨4, [⟨1, 5, 0, true, 0, true⟩, ⟨1, 3, 1, true, 0, true⟩,
      ⟨1, 1, 2, false, 0, true⟩, ⟨1, 2, 3, false, 0, true⟩]⟩ }

/-- The transactions of `figureMarket`. -/
def figureRun : TransactionManager := ⟨2, [⟨2, 1, 2, -1, false⟩, ⟨0, 1, 3, -1, false⟩]⟩

example : ∃ tm f, runAlgo stableSorter headSampler .huang figureMarket.bm.getDf =
      .ok (tm, .huang ((2 : ℚ) : Ext) ((3 : ℚ) : Ext) 1) ∧ tm.trans ≠ [] ∧
    (figureMarket.run stableSorter headSampler .huang).1.huangPlot stableSorter = some f ∧
    f.fillX.length = 100 :=
  ⟨figureRun,
    huangFigure stableSorter figureMarket.bm.getDf ((2 : ℚ) : Ext) ((3 : ℚ) : Ext) 1,
    by decide +kernel, by decide, by decide +kernel, by decide +kernel⟩

/-- **C61, Huang, fails**: the shaded area is 99/100 when the profit is 1, because the last point of
`np.arange` lies before the traded quantity. -/
theorem C61_huang_refuted : ¬ ∀ (S S' : Sorter) (smp : Sampler) (m : Market),
    GroupPos m.bm.getDf → NonNeg m.bm.getDf → ∀ tm ex f,
      (m.run S smp .huang).2 = .ok (tm, ex) → tm.trans ≠ [] →
      (m.run S smp .huang).1.huangPlot S' = some f →
      ShadesProfit m.bm.getDf tm.trans f := by
  intro hall
  have h := hall stableSorter stableSorter headSampler figureMarket
    (Pos.groupPos (by decide +kernel)) (by decide +kernel) figureRun
    (.huang ((2 : ℚ) : Ext) ((3 : ℚ) : Ext) 1)
    (huangFigure stableSorter figureMarket.bm.getDf ((2 : ℚ) : Ext) ((3 : ℚ) : Ext) 1)
    (by decide +kernel) (by decide) (by decide +kernel)
  have h2 := h.2 2 3 rfl rfl
  have h3 : shadedArea (3 - 2) (arangeHundredths 1) = 99 / 100 := by
    rw [shadedArea_arange]
    norm_num
  have h4 : (calculateProfits figureMarket.bm.getDf
      figureRun.trans none none).1.market = 1 := by decide +kernel
  have h5 : shadedArea (3 - 2) (arangeHundredths 1) = 1 := h2.trans h4
  rw [h3] at h5
  norm_num at h5

/-- **C61, Huang, fails** also without transactions: the vertical line of `reportBook` is at 2 though
nothing is traded (C18). -/
theorem C61_line_refuted : ¬ ∀ (S S' : Sorter) (smp : Sampler) (m : Market),
    GroupPos m.bm.getDf → NonNeg m.bm.getDf → ∀ tm ex f,
      (m.run S smp .huang).2 = .ok (tm, ex) → (m.run S smp .huang).1.huangPlot S' = some f →
      LinesShow m.bm.getDf tm.trans f := by
  intro hall
  have h := hall stableSorter stableSorter headSampler
    { Market.init with bm := ⟨4, reportBook.map (fun r => r.toBid)⟩ }
    (Pos.groupPos (by decide +kernel)) (by decide +kernel) TransactionManager.init (.huang ((2 : ℚ) : Ext) ((3 : ℚ) : Ext) 2)
    (huangFigure stableSorter reportBook ((2 : ℚ) : Ext) ((3 : ℚ) : Ext) 2)
    (by decide +kernel) (by decide +kernel)
  have h2 := h.2.2.1
  have h3 : (2 : ℚ) = 0 := h2
  norm_num at h3

/-! ## MUDA -/

/-- The two panels show the halves `L` and `R` of the book: every bid is in one of them, each panel
draws the curves of its half, and every transaction of a bid of a half is at the price of the line
of its panel. -/
def Spec.PanelsShow (S : Sorter) (df L R : DF) (ts : List Transaction) (f : MudaPanel × MudaPanel) :
    Prop :=
  (L ++ R).Perm df ∧ Draws S L f.1.curves ∧ Draws S R f.2.curves ∧
  ∀ t ∈ ts, ∃ r ∈ df, r.label = t.bid ∧ (r ∈ L → f.1.priceLine = .fin t.price) ∧
    (r ∈ R → f.2.priceLine = .fin t.price)

/-- **C61, MUDA, partial.** After a run of MUDA without merging the figure shows the two halves: bid
`i` is drawn on the left exactly when its coin says so, and it trades at the price of the line
drawn there. Missing: runs with merging (`C61_muda_refuted`). -/
theorem C61_muda_partial (S S' : Sorter) (smp : Sampler) (coin : ℕ → Bool) (m : Market)
    (hq : NonNeg m.bm.getDf) (tm : TransactionManager) (left right : List ℕ) (pl pr : Val)
    (fees : List ℚ)
    (h : (m.run S smp (.muda false coin)).2 = .ok (tm, .muda left right pl pr fees)) :
    ∃ f, (m.run S smp (.muda false coin)).1.mudaPlot S' = some f ∧
      PanelsShow S' m.bm.getDf (m.bm.getDf.filter (fun r => coin r.label))
        (m.bm.getDf.filter (fun r => !coin r.label)) tm.trans f := by
  have ht : IsTable m.bm.getDf := isTable_labelFrom _
  have hrun : runAlgo S smp (.muda false coin) m.bm.getDf =
      .ok (tm, .muda left right pl pr fees) := by
    unfold Market.run at h
    split at h
    · cases h
    · rename_i e; rw [e]; exact h
  rw [market_run_ok hrun]
  have hm : muda S coin m.bm.getDf = .ok (tm, .muda left right pl pr fees) := by
    simp only [runAlgo, mechanism, mechRun, Bool.false_eq_true, if_false] at hrun
    split at hrun
    · exact hrun
    · cases hrun
  obtain ⟨-, hl, hr, -, -, hp⟩ := C24_halves S coin _ ht (fun r hr => (hq r hr).1) tm left right pl
    pr fees hm
  have hlt : ∀ r ∈ m.bm.getDf, r.label < m.bm.getDf.length := fun r hr => ht.label_lt hr
  have eL : m.bm.getDf.filter (fun r => decide (r.label ∈ left)) =
      m.bm.getDf.filter (fun r => coin r.label) := by
    apply List.filter_congr
    intro r hr'
    rw [Bool.eq_iff_iff, decide_eq_true_iff, hl]
    exact ⟨fun x => x.2, fun x => ⟨hlt r hr', x⟩⟩
  have eR : m.bm.getDf.filter (fun r => decide (r.label ∈ right)) =
      m.bm.getDf.filter (fun r => !coin r.label) := by
    apply List.filter_congr
    intro r hr'
    rw [Bool.eq_iff_iff, decide_eq_true_iff, hr, Bool.not_eq_true']
    exact ⟨fun x => x.2, fun x => ⟨hlt r hr', x⟩⟩
  refine ⟨_, rfl, List.filter_append_perm _ _, ?_, ?_, ?_⟩
  · show Draws S' _ (plotData S' (m.bm.getDf.filter (fun r => decide (r.label ∈ left))) _ _)
    rw [eL]
    exact draws_plotData S' _ (fun r hr => hq r (List.mem_filter.mp hr).1)
  · show Draws S' _ (plotData S' (m.bm.getDf.filter (fun r => decide (r.label ∈ right))) _ _)
    rw [eR]
    exact draws_plotData S' _ (fun r hr => hq r (List.mem_filter.mp hr).1)
  · intro t htt
    have hb : t.bid < m.bm.getDf.length := by
      rcases hp t htt with ⟨h1, -⟩ | ⟨h1, -⟩
      · exact ((hl _).mp h1).1
      · exact ((hr _).mp h1).1
    have hget := List.getElem?_eq_getElem hb
    have hlab := ht.label hget
    refine ⟨_, List.getElem_mem hb, hlab, fun hL => ?_, fun hR => ?_⟩
    · have hc := (List.mem_filter.mp hL).2
      simp only [hlab] at hc
      rcases hp t htt with ⟨-, h2⟩ | ⟨h1, -⟩
      · exact h2
      · rw [((hr _).mp h1).2] at hc; cases hc
    · have hc := (List.mem_filter.mp hR).2
      simp only [hlab] at hc
      rcases hp t htt with ⟨h1, -⟩ | ⟨-, h2⟩
      · rw [((hl _).mp h1).2] at hc; cases hc
      · exact h2

/-- The market of `twiceBook`. -/
def twiceMarket : Market :=
  { Market.init with bm := ⟨6, twiceBook.map (fun r => r.toBid)⟩ }

example : (twiceMarket.run stableSorter headSampler (.muda false (fun i => decide (i < 3)))).2 =
    .ok (⟨4, twiceTrans⟩, .muda [0, 1, 2] [3, 4, 5] (.fin (11 / 2)) (.fin 7) [5 / 2, 0, 0, 0]) ∧
    NonNeg twiceMarket.bm.getDf := by
  decide +kernel

/-- **C61, MUDA, fails with merging.** `left` and `right` are then ids of the merged bids, which are
sorted by side and price, but the figure uses them as ids of the submitted bids. In `twiceMarket`
with the coins below, bid 0 trades at 7 but is drawn in the panel whose line is at 11/2. -/
theorem C61_muda_refuted : ¬ ∀ (S S' : Sorter) (smp : Sampler) (merge : Bool) (coin : ℕ → Bool)
    (m : Market), NonNeg m.bm.getDf → ∀ tm left right pl pr fees f,
    (m.run S smp (.muda merge coin)).2 = .ok (tm, .muda left right pl pr fees) →
    (m.run S smp (.muda merge coin)).1.mudaPlot S' = some f →
    PanelsShow S' m.bm.getDf (m.bm.getDf.filter (fun r => decide (r.label ∈ left)))
      (m.bm.getDf.filter (fun r => decide (r.label ∈ right))) tm.trans f := by
  intro hall
  have h := hall stableSorter stableSorter headSampler true
    (fun i => decide (i = 1 ∨ i = 2 ∨ i = 4)) twiceMarket (by decide +kernel)
    ⟨4, twiceTrans⟩ [1, 2, 4] [0, 3, 5] (.fin (11 / 2)) (.fin 7) [5 / 2, 0, 0, 0]
    (mudaFigure stableSorter twiceBook [1, 2, 4] [0, 3, 5] (.fin (11 / 2)) (.fin 7))
    (by decide +kernel) (by decide +kernel)
  obtain ⟨r, hr, hl, -, h2⟩ := h.2.2.2 ⟨0, 1, 7, -1, false⟩ (by decide +kernel)
  have hrt : r ∈ twiceMarket.bm.getDf.filter (fun r => decide (r.label ∈ [0, 3, 5])) :=
    List.mem_filter.mpr ⟨hr, by rw [hl]; decide⟩
  have h3 : Val.fin (11 / 2) = Val.fin 7 := h2 hrt
  simp only [Val.fin.injEq] at h3
  norm_num at h3

end PyMarket
