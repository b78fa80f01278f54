import Verif.Lemmas.Reprice
import Verif.Props.Units
import Verif.Model.Uniform

/-! # C125: only the order of the prices matters

Which bids trade, and how much, depends on the prices only through their order (and their signs): in Huang's
auction, in peer to peer trading and with the uniform price of the documentation. MUDA takes the mean of two prices
and compares the bids of the other half with it, so there the claim is false. -/

set_option autoImplicit false

namespace PyMarket

open Spec

/-- **C125, Huang's auction.** New prices in the same order: the same bids trade the same quantities, and the two
prices are those of the same bids. -/
theorem C125_huang (S : Sorter) (hS : ComparisonSort S) (g : Row → ℚ) (df : DF) (h : SameOrder g df) :
    ∃ f : ℚ → ℚ, StrictMono f ∧ f 0 = 0 ∧ (∀ r ∈ df, g r = f r.price) ∧
      huangAuction S (withPrices g df) = repriceHuang f (huangAuction S df) := by
  obtain ⟨f, hf, h0, hg, e⟩ := sameOrder_exists h
  exact ⟨f, hf, h0, hg, by rw [e, huangAuction_re hS hf h0]⟩

theorem npRound_five {x : ℚ} (h : FiveDecimals x) : npRound 5 x = x :=
  isRounded_unique (npRound_isRounded 5 x) (isRounded_self h)

/-- **C125, Huang's auction as the class runs it.** When all prices, old and new, have at most five decimals. -/
theorem C125_class_partial (S : Sorter) (hS : ComparisonSort S) (smp : Sampler) (g : Row → ℚ) (df : DF)
    (h : SameOrder g df) (h5 : ∀ r ∈ df, FiveDecimals r.price ∧ FiveDecimals (g r)) :
    ∃ f : ℚ → ℚ, StrictMono f ∧ f 0 = 0 ∧ (∀ r ∈ df, g r = f r.price) ∧
      runAlgo S smp .huang (withPrices g df) = repriceHuang f (runAlgo S smp .huang df) := by
  obtain ⟨f, hf, h0, hg, e⟩ := sameOrder_exists h
  refine ⟨f, hf, h0, hg, ?_⟩
  rw [e]
  apply mechanism_re smp hf (huangAuction_re hS hf h0)
  intro r hr
  rw [npRound_five (h5 r hr).1, ← hg r hr, npRound_five (h5 r hr).2]

/-- Three buyers and three sellers, one unit each. -/
def squareBook : DF := labelFrom 0
  [⟨1, 9, 0, true, 0, true⟩, ⟨1, 8, 1, true, 0, true⟩, ⟨1, 5, 2, true, 0, true⟩,
   ⟨1, 1, 3, false, 0, true⟩, ⟨1, 2, 4, false, 0, true⟩, ⟨1, 4, 5, false, 0, true⟩]

/-- The prices squared. -/
def squarePrice (r : Row) : ℚ := r.price ^ 2

/-- The hypotheses can be met, and the prices in the results are the new ones. -/
example : SameOrder squarePrice squareBook ∧
    huangAuction stableSorter squareBook = .ok (⟨4, [⟨3, 1, 4, -1, false⟩, ⟨4, 1, 4, -1, false⟩,
      ⟨0, 1, 5, -1, false⟩, ⟨1, 1, 5, -1, false⟩]⟩, .huang ((4 : ℚ) : Ext) ((5 : ℚ) : Ext) 2) ∧
    huangAuction stableSorter (withPrices squarePrice squareBook) = .ok (⟨4, [⟨3, 1, 16, -1, false⟩,
      ⟨4, 1, 16, -1, false⟩, ⟨0, 1, 25, -1, false⟩, ⟨1, 1, 25, -1, false⟩]⟩,
      .huang ((16 : ℚ) : Ext) ((25 : ℚ) : Ext) 2) :=
  ⟨by decide +kernel, by decide +kernel, by decide +kernel⟩

example : ∀ r ∈ squareBook, FiveDecimals r.price ∧ FiveDecimals (squarePrice r) := by
  intro r hr
  have : r.price ∈ [(9 : ℚ), 8, 5, 1, 2, 4] := by
    have := List.mem_map_of_mem (f := fun r : Row => r.price) hr
    exact this
  unfold squarePrice FiveDecimals
  simp only [List.mem_cons, List.not_mem_nil, or_false] at this
  rcases this with h | h | h | h | h | h <;> rw [h]
  · exact ⟨⟨900000, by norm_num⟩, ⟨8100000, by norm_num⟩⟩
  · exact ⟨⟨800000, by norm_num⟩, ⟨6400000, by norm_num⟩⟩
  · exact ⟨⟨500000, by norm_num⟩, ⟨2500000, by norm_num⟩⟩
  · exact ⟨⟨100000, by norm_num⟩, ⟨100000, by norm_num⟩⟩
  · exact ⟨⟨200000, by norm_num⟩, ⟨400000, by norm_num⟩⟩
  · exact ⟨⟨400000, by norm_num⟩, ⟨1600000, by norm_num⟩⟩

/-- A millionth of the price. -/
def tinyPrice (r : Row) : ℚ := r.price / 1000000

/-- **C125 refuted for the class.** With prices of a millionth everything is rounded to 0 and nothing is traded. -/
theorem C125_class_refuted : SameOrder tinyPrice squareBook ∧
    (runAlgo stableSorter headSampler .huang squareBook).toOption.map (fun r => r.1.trans.map withoutPrice) =
      some [(3, 1, -1, false), (4, 1, -1, false), (0, 1, -1, false), (1, 1, -1, false)] ∧
    (runAlgo stableSorter headSampler .huang (withPrices tinyPrice squareBook)).toOption.map
      (fun r => r.1.trans.map withoutPrice) = some [] :=
  ⟨by decide +kernel, by decide +kernel, by decide +kernel⟩

/-! ## The uniform price -/

/-- **C125, uniform price.** The same bids trade the same quantities, the same quantity is reported and the same
exceptions are raised. -/
theorem C125_uniform (S : Sorter) (hS : ComparisonSort S) (g : Row → ℚ) (df : DF) (h : SameOrder g df) :
    (uniformPrice S (withPrices g df)).map (fun r => (r.1.trans.map withoutPrice, r.2.1)) =
      (uniformPrice S df).map (fun r => (r.1.trans.map withoutPrice, r.2.1)) := by
  obtain ⟨f, hf, h0, _, e⟩ := sameOrder_exists h
  rw [e]
  have hlong : ∀ (rows : DF) (p p' t a : ℚ), (uniformLong p' t a (rows.map (reRow f))).map withoutPrice =
      (uniformLong p t a rows).map withoutPrice := by
    intro rows p p' t
    induction rows with
    | nil => intro a; rfl
    | cons r rows ih =>
      intro a
      simp only [List.map_cons, uniformLong]
      rw [← ih]
      rfl
  have hshort : ∀ (rows : DF) (p p' : ℚ), (uniformShort p' (rows.map (reRow f))).map withoutPrice =
      (uniformShort p rows).map withoutPrice := by
    intro rows p p'
    unfold uniformShort
    rw [List.map_map, List.map_map, List.map_map]
    rfl
  unfold uniformPrice
  simp only
  rw [demandCurve_re hS hf h0, supplyCurve_re hS hf]
  have hi := intersectStepwise_re hf (demandCurve S df).1 (supplyCurve S df).1 (1 / 2)
  cases e1 : intersectStepwise (demandCurve S df).1 (supplyCurve S df).1 with
  | error e =>
    rw [e1] at hi
    cases e2 : intersectStepwise (reCurve f (demandCurve S df).1) (reCurve f (supplyCurve S df).1) with
    | error e' => rw [e2] at hi; cases hi; rfl
    | ok j => rw [e2] at hi; cases hi
  | ok i =>
    rw [e1] at hi
    cases e2 : intersectStepwise (reCurve f (demandCurve S df).1) (reCurve f (supplyCurve S df).1) with
    | error e' => rw [e2] at hi; cases hi
    | ok j =>
      rw [e2] at hi
      simp only [Except.map, Except.ok.injEq, places, Prod.mk.injEq] at hi
      simp only [bind, Except.bind, hi.1, hi.2.1, hi.2.2]
      cases i.f with
      | none => rfl
      | some b =>
        cases i.g with
        | none => rfl
        | some s =>
          simp only [buys_re, sells_re, sortDesc_re hS hf, sortAsc_re hS hf, ← List.map_take, qsum_re]
          split <;>
          simp only [Except.map, TransactionManager.init_addAll_trans, List.map_append,
            hlong _ i.v.toRat j.v.toRat, hshort _ i.v.toRat j.v.toRat, qsum_re]

/-- The hypotheses can be met; the price moves from 9/2 to the mean of the squares. -/
example : (uniformPrice stableSorter squareBook).toOption.map (fun r => r.2.2) = some (.fin (9 / 2)) ∧
    (uniformPrice stableSorter (withPrices squarePrice squareBook)).toOption.map (fun r => r.2.2) =
      some (.fin (41 / 2)) := ⟨by decide +kernel, by decide +kernel⟩

/-! ## Peer to peer trading -/

/-- **C125, peer to peer trading.** It is enough that the new prices compare each buyer with each seller like the old
ones: the same bids meet, and they exchange the same quantities. The coefficient of the price may change, too. -/
theorem C125_p2p (k k' : ℚ) (choice : ℕ → ℕ) (g : Row → ℚ) (df : DF) (ht : IsTable df)
    (h : ∀ b ∈ df, ∀ s ∈ df, b.buying = true → s.buying = false → (s.price ≤ b.price ↔ g s ≤ g b)) :
    (p2pRandom k' choice (withPrices g df)).map (fun r => (r.1.trans.map withoutPrice, r.2)) =
      (p2pRandom k choice df).map (fun r => (r.1.trans.map withoutPrice, r.2)) := by
  have hb : buys (withPrices g df) = (buys df).map (fun r => { r with price := g r }) := by
    unfold buys withPrices; rw [List.filter_map]; rfl
  have hs : sells (withPrices g df) = (sells df).map (fun r => { r with price := g r }) := by
    unfold sells withPrices; rw [List.filter_map]; rfl
  have e1 : allPairs (withPrices g df) = allPairs df := by
    unfold allPairs
    rw [hb, hs, List.flatMap_map]
    congr 1
    funext b
    rw [List.map_map]
    rfl
  have e2 : valueAt (withPrices g df) (fun r => r.quantity) = valueAt df (fun r => r.quantity) := by
    funext i
    unfold valueAt withPrices
    rw [List.getElem?_map]
    cases df[i]? <;> rfl
  have e3 : ∀ r ∈ df, valueAt (withPrices g df) (fun r => r.price) r.label = g r ∧
      valueAt df (fun r => r.price) r.label = r.price := by
    intro r hr
    have := ht.get_label hr
    unfold valueAt withPrices
    rw [List.getElem?_map, this]
    exact ⟨rfl, rfl⟩
  have e4 : ∀ (pr : ℕ → ℚ) (k : ℚ) (n : ℕ) (q : ℕ → ℚ) (a : List (ℕ × ℕ)) (i : List ℕ),
      p2pLoop (withPrices g df) pr k choice n q a i = p2pLoop df pr k choice n q a i := by
    intro pr k n q a i
    have hl : ∀ q : ℕ → ℚ, (withPrices g df).map (fun r => q r.label) = df.map (fun r => q r.label) := by
      intro q
      unfold withPrices
      rw [List.map_map]
      rfl
    have hx : ∀ q : ℕ → ℚ, exhausted (withPrices g df) q = exhausted df q := by
      intro q
      unfold exhausted
      rw [hb, hs, List.map_map, List.map_map]
      rfl
    fun_induction p2pLoop df pr k choice n q a i with
    | case1 n q a i tmp hc m t rest ih =>
      rw [p2pLoop, dif_pos (by rw [hl]; exact hc)]
      simp only [hx]
      rw [ih]
    | case2 n q a i tmp hc =>
      rw [p2pLoop, dif_neg (by rw [hl]; exact hc)]
  unfold p2pRandom
  simp only [Except.map, TransactionManager.init_addAll_trans]
  rw [e1, e2, e4]
  obtain ⟨r1, r2⟩ := p2pLoop_re (df := df) (k := k) (k' := k')
    (pr := valueAt df (fun r => r.price)) (pr' := valueAt (withPrices g df) (fun r => r.price)) choice 0
    (valueAt df (fun r => r.quantity)) (allPairs df) [] (by
      intro p hp
      unfold allPairs at hp
      obtain ⟨b, hb, hp⟩ := List.mem_flatMap.mp hp
      obtain ⟨s, hs, rfl⟩ := List.mem_map.mp hp
      obtain ⟨hb1, hb2⟩ := List.mem_filter.mp hb
      obtain ⟨hs1, hs2⟩ := List.mem_filter.mp hs
      simp only [(e3 b hb1).1, (e3 b hb1).2, (e3 s hs1).1, (e3 s hs1).2]
      exact h b hb1 s hs1 hb2 (by simpa using hs2))
  rw [r1, r2]

/-- The hypotheses can be met by prices that are not in the same order: here all buyers get the same price. -/
example : (∀ b ∈ squareBook, ∀ s ∈ squareBook, b.buying = true → s.buying = false →
      (s.price ≤ b.price ↔ (if s.buying then (5 : ℚ) else s.price) ≤ (if b.buying then 5 else b.price))) ∧
    ¬ SameOrder (fun r => if r.buying then 5 else r.price) squareBook ∧
    (p2pRandom (1 / 2) (fun _ => 0) squareBook).toOption.any (fun r => decide (0 < r.1.trans.length)) = true :=
  ⟨by decide +kernel, by decide +kernel, by decide +kernel⟩

/-! ## MUDA -/

/-- One buyer and one seller in each half. -/
def meanBook : DF := labelFrom 0
  [⟨1, 10, 0, true, 0, true⟩, ⟨1, 2, 1, false, 0, true⟩, ⟨1, 7, 2, true, 0, true⟩, ⟨1, 1, 3, false, 0, true⟩]

/-- The buyer at 10 bids 100 instead. -/
def eagerPrice (r : Row) : ℚ := if r.price = 10 then 100 else r.price

/-- **C125 refuted for MUDA.** When the best buyer raises its price, the price of its half rises above the limit of
the buyer in the other half, who then does not trade. -/
theorem C125_muda_refuted : SameOrder eagerPrice meanBook ∧
    (muda stableSorter (fun n => decide (n ≤ 1)) meanBook).toOption.map (fun r => r.1.trans) =
      some [⟨1, 1, 4, -1, false⟩, ⟨0, 1, 4, -1, false⟩, ⟨3, 1, 6, -1, false⟩, ⟨2, 1, 6, -1, false⟩] ∧
    (muda stableSorter (fun n => decide (n ≤ 1)) (withPrices eagerPrice meanBook)).toOption.map
      (fun r => r.1.trans) = some [⟨1, 1, 4, -1, false⟩, ⟨0, 1, 4, -1, false⟩] :=
  ⟨by decide +kernel, by decide +kernel, by decide +kernel⟩

end PyMarket
