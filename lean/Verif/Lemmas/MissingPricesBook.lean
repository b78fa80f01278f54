import Verif.Lemmas.MissingPrices
import Verif.Lemmas.MarketOrders

/-! # Lemmas about the curves of books with missing prices -/

set_option autoImplicit false

namespace PyMarket

open Spec

section

variable {price : ℕ → Option ℚ}

theorem mem_pricedRows {rows : DF} {r : Row} (h : r ∈ pricedRows price rows) :
    price r.label = some r.price ∧ ∃ r' ∈ rows, r'.label = r.label ∧ r'.quantity = r.quantity ∧ r'.buying = r.buying := by
  obtain ⟨r', hr', e⟩ := List.mem_filterMap.mp h
  cases hp : price r'.label with
  | none => rw [hp] at e; cases e
  | some p =>
    rw [hp] at e
    cases e
    exact ⟨hp, r', hr', rfl, rfl, rfl⟩

theorem mem_unpricedRows {rows : DF} {r : Row} (h : r ∈ unpricedRows price rows) :
    r ∈ rows ∧ price r.label = none := by
  obtain ⟨h1, h2⟩ := List.mem_filter.mp h
  exact ⟨h1, by simpa using h2⟩

theorem buys_pricedRows (price : ℕ → Option ℚ) (df : DF) : buys (pricedRows price df) = pricedRows price (buys df) := by
  unfold buys pricedRows
  induction df with
  | nil => rfl
  | cons r df ih =>
    rw [List.filterMap_cons]
    cases hp : price r.label with
    | none =>
      simp only [Option.map_none]
      rw [ih]
      cases hb : r.buying with
      | false => rw [List.filter_cons_of_neg (by simp [hb])]
      | true =>
        rw [List.filter_cons_of_pos (by simp [hb]), List.filterMap_cons, hp]
        rfl
    | some p =>
      simp only [Option.map_some]
      cases hb : r.buying with
      | false =>
        rw [List.filter_cons_of_neg (by simp [hb]), List.filter_cons_of_neg (by simp [hb]), ih]
      | true =>
        rw [List.filter_cons_of_pos (by simp [hb]), List.filter_cons_of_pos (by simp [hb]), List.filterMap_cons, hp, ih]
        simp only [Option.map_some, hb]

theorem sells_pricedRows (price : ℕ → Option ℚ) (df : DF) : sells (pricedRows price df) = pricedRows price (sells df) := by
  unfold sells pricedRows
  induction df with
  | nil => rfl
  | cons r df ih =>
    rw [List.filterMap_cons]
    cases hp : price r.label with
    | none =>
      simp only [Option.map_none]
      rw [ih]
      cases hb : r.buying with
      | true => rw [List.filter_cons_of_neg (by simp [hb])]
      | false =>
        rw [List.filter_cons_of_pos (by simp [hb]), List.filterMap_cons, hp]
        rfl
    | some p =>
      simp only [Option.map_some]
      cases hb : r.buying with
      | true =>
        rw [List.filter_cons_of_neg (by simp [hb]), List.filter_cons_of_neg (by simp [hb]), ih]
      | false =>
        rw [List.filter_cons_of_pos (by simp [hb]), List.filter_cons_of_pos (by simp [hb]), List.filterMap_cons, hp, ih]
        simp only [Option.map_some, hb]

/-- The rows of a curve before its last one. -/
def bookRows (rows : DF) : Curve :=
  (List.zip (cumsum (rows.map (fun r => r.quantity))) (rows.map (fun r => r.price))).map (fun p => ((p.1 : Ext), (p.2 : Ext)))

/-- The rows of a curve from the accumulated quantity `a` on. -/
def tailRows (price : ℕ → Option ℚ) (a : ℚ) (B : DF) : CurveP :=
  (List.zip (cumsumFrom a (B.map (fun r => r.quantity))) (B.map (fun r => price r.label))).map
    (fun p => ((p.1 : Ext), p.2.map (fun q => (q : Ext))))

theorem tailRows_cons (a : ℚ) (r : Row) (B : DF) : tailRows price a (r :: B) =
    (((a + r.quantity : ℚ) : Ext), (price r.label).map (fun q => (q : Ext))) :: tailRows price (a + r.quantity) B := rfl

theorem tailRows_spec : ∀ (B : DF) (a : ℚ), 0 ≤ a → (∀ r ∈ B, price r.label = none) → (∀ r ∈ B, 0 ≤ r.quantity) →
    ∀ s ∈ tailRows price a B, s.2 = none ∧ ((0 : ℚ) : Ext) ≤ s.1 ∧
      s.1 ≤ ((a + (B.map (fun r => r.quantity)).sum : ℚ) : Ext)
  | [], a, _, _, _, s, hs => by cases hs
  | r :: B, a, ha, hB, hq, s, hs => by
    have h0 : 0 ≤ a + r.quantity := add_nonneg ha (hq r (List.mem_cons_self ..))
    have hq' : ∀ t ∈ B, 0 ≤ t.quantity := fun t ht => hq t (List.mem_cons_of_mem _ ht)
    rw [List.map_cons, List.sum_cons, ← add_assoc]
    rw [tailRows_cons] at hs
    rcases List.mem_cons.mp hs with rfl | hs
    · rw [hB r (List.mem_cons_self ..)]
      refine ⟨rfl, WithTop.coe_le_coe.mpr h0, WithTop.coe_le_coe.mpr ?_⟩
      have : 0 ≤ (B.map (fun r => r.quantity)).sum := List.sum_nonneg (by
        intro x hx
        obtain ⟨t, ht, rfl⟩ := List.mem_map.mp hx
        exact hq' t ht)
      linarith
    · exact tailRows_spec B _ h0 (fun t ht => hB t (List.mem_cons_of_mem _ ht)) hq' s hs

theorem tailRows_last : ∀ (B : DF) (a : ℚ), B ≠ [] →
    ∃ s ∈ tailRows price a B, s.1 = ((a + (B.map (fun r => r.quantity)).sum : ℚ) : Ext)
  | [], _, h => absurd rfl h
  | [r], a, _ => ⟨_, by rw [tailRows_cons]; exact List.mem_cons_self .., by simp⟩
  | r :: r' :: B, a, _ => by
    obtain ⟨s, hs, e⟩ := tailRows_last (r' :: B) (a + r.quantity) (by simp)
    refine ⟨s, by rw [tailRows_cons]; exact List.mem_cons_of_mem _ hs, ?_⟩
    rw [e, List.map_cons (a := r), List.sum_cons (a := r.quantity), ← add_assoc]

/-- The curve of rows with prices, followed by rows without: its two parts. -/
theorem curveRowsP_append (A B : DF) (hA : ∀ r ∈ A, price r.label = some r.price) :
    curveRowsP price (A ++ B) = liftP (bookRows A) ++ tailRows price ((A.map (fun r => r.quantity)).sum) B := by
  have h1 : ∀ (A : DF) (a : ℚ), (∀ r ∈ A, price r.label = some r.price) →
      tailRows price a (A ++ B) =
        liftP ((List.zip (cumsumFrom a (A.map (fun r => r.quantity))) (A.map (fun r => r.price))).map
          (fun p => ((p.1 : Ext), (p.2 : Ext)))) ++ tailRows price (a + (A.map (fun r => r.quantity)).sum) B := by
    intro A
    induction A with
    | nil =>
      intro a _
      rw [List.map_nil, List.sum_nil, add_zero]
      rfl
    | cons r A ih =>
      intro a hA
      rw [List.cons_append, tailRows_cons, ih _ (fun t ht => hA t (List.mem_cons_of_mem _ ht)),
        hA r (List.mem_cons_self ..), List.map_cons, List.sum_cons, ← add_assoc]
      rfl
  have := h1 A 0 hA
  rw [zero_add] at this
  exact this

theorem bookRows_spec (A : DF) (hq : ∀ r ∈ A, 0 ≤ r.quantity) :
    (∀ s ∈ bookRows A, s.1 ≤ (((A.map (fun r => r.quantity)).sum : ℚ) : Ext)) ∧
      (A ≠ [] → ∃ s ∈ bookRows A, s.1 = (((A.map (fun r => r.quantity)).sum : ℚ) : Ext)) := by
  have key : (bookRows A).map Prod.fst = (tailRows (fun _ => none) 0 A).map Prod.fst := by
    have h1 : ∀ (A : DF) (a : ℚ), ((List.zip (cumsumFrom a (A.map (fun r => r.quantity))) (A.map (fun r => r.price))).map
          (fun p => ((p.1 : Ext), (p.2 : Ext)))).map Prod.fst = (tailRows (fun _ => none) a A).map Prod.fst := by
      intro A
      induction A with
      | nil => intro a; rfl
      | cons r A ih =>
        intro a
        rw [tailRows_cons, List.map_cons, List.map_cons, List.map_cons, ← ih]
        rfl
    exact h1 A 0
  constructor
  · intro s hs
    have : s.1 ∈ (bookRows A).map Prod.fst := List.mem_map.mpr ⟨s, hs, rfl⟩
    rw [key] at this
    obtain ⟨t, ht, e⟩ := List.mem_map.mp this
    rw [← e]
    have := (tailRows_spec (price := fun _ => none) A 0 le_rfl (fun _ _ => rfl) hq t ht).2.2
    rwa [zero_add] at this
  · intro hne
    obtain ⟨t, ht, e⟩ := tailRows_last (price := fun _ => none) A 0 hne
    have : t.1 ∈ (bookRows A).map Prod.fst := by
      rw [key]
      exact List.mem_map.mpr ⟨t, ht, rfl⟩
    obtain ⟨s, hs, e'⟩ := List.mem_map.mp this
    rw [zero_add] at e
    exact ⟨s, hs, e'.trans e⟩

/-- `Reads` for the two parts of a book, at a quantity within the first. -/
theorem reads_iff {A B : DF} (hB : ∀ r ∈ B, price r.label = none) (hqA : ∀ r ∈ A, 0 ≤ r.quantity)
    (hqB : ∀ r ∈ B, 0 ≤ r.quantity) {x : Ext} (hx : ∃ s ∈ bookRows A, x ≤ s.1) :
    ((∃ s ∈ bookRows A, x < s.1) ∨ ∀ s ∈ tailRows price ((A.map (fun r => r.quantity)).sum) B, s.1 ≤ x) ↔
      (x < (((A.map (fun r => r.quantity)).sum : ℚ) : Ext) ∨ (B.map (fun r => r.quantity)).sum = 0) := by
  have nn : ∀ {C : DF}, (∀ r ∈ C, 0 ≤ r.quantity) → 0 ≤ (C.map (fun r => r.quantity)).sum := by
    intro C h
    refine List.sum_nonneg ?_
    intro x hx
    obtain ⟨t, ht, rfl⟩ := List.mem_map.mp hx
    exact h t ht
  obtain ⟨b1, b2⟩ := bookRows_spec A hqA
  constructor
  · rintro (⟨s, hs, h⟩ | h)
    · exact Or.inl (lt_of_lt_of_le h (b1 s hs))
    · right
      by_cases hn : B = []
      · rw [hn]; rfl
      · obtain ⟨s, hs, e⟩ := tailRows_last (price := price) B ((A.map (fun r => r.quantity)).sum) hn
        obtain ⟨t, ht, hxt⟩ := hx
        have := (h s hs).trans (hxt.trans (b1 t ht))
        rw [e, WithTop.coe_le_coe] at this
        have := nn hqB
        linarith
  · rintro (h | h)
    · left
      have hn : A ≠ [] := by
        rintro rfl
        obtain ⟨s, hs, _⟩ := hx
        cases hs
      obtain ⟨s, hs, e⟩ := b2 hn
      exact ⟨s, hs, by rw [e]; exact h⟩
    · by_cases c : x < (((A.map (fun r => r.quantity)).sum : ℚ) : Ext)
      · left
        have hn : A ≠ [] := by
          rintro rfl
          obtain ⟨s, hs, _⟩ := hx
          cases hs
        obtain ⟨s, hs, e⟩ := b2 hn
        exact ⟨s, hs, by rw [e]; exact c⟩
      · right
        intro s hs
        have := (tailRows_spec B _ (nn hqA) hB hqB s hs).2.2
        rw [h, add_zero] at this
        exact this.trans (not_lt.mp c)

theorem bookRows_length (rows : DF) : (bookRows rows).length = rows.length := by
  have : ∀ (l : List ℚ) (a : ℚ), (cumsumFrom a l).length = l.length := by
    intro l
    induction l with
    | nil => intro a; rfl
    | cons x l ih => intro a; simp [cumsumFrom, ih]
  unfold bookRows cumsum
  simp [this]

/-- A pair of neighbouring values of the grid that is a crossing is not passed over. -/
theorem crossLoopP_none {f g : CurveP} : ∀ {xs : List Ext} {ast : Option Ext},
    crossLoopP f g xs ast = .ok none → ∀ {pre rest : List Ext} {x y a b a' b' : Ext}, xs = pre ++ x :: y :: rest →
      getValueStepwiseP x f = some (some a) → getValueStepwiseP x g = some (some b) → b < a →
      getValueStepwiseP y f = some (some a') → getValueStepwiseP y g = some (some b') → ¬ a' < b' := by
  have keep : ∀ {xs : List Ext} {z : Ext}, crossLoopP f g xs (some z) ≠ .ok none := by
    intro xs
    induction xs with
    | nil => intro z h; simp [crossLoopP] at h
    | cons x xs ih =>
      intro z h
      cases xs with
      | nil => simp [crossLoopP] at h
      | cons y rest =>
        rw [crossLoopP] at h
        simp only [bind, Except.bind] at h
        split at h
        · cases h
        · split at h
          · split at h
            · cases h
            · split at h
              · exact ih h
              · exact ih h
          · exact ih h
  intro xs
  induction xs with
  | nil =>
    intro ast _ pre rest x y a b a' b' e
    cases pre <;> simp at e
  | cons x0 xs ih =>
    intro ast h pre rest x y a b a' b' e h1 h2 hlt h3 h4 hlt'
    cases pre with
    | nil =>
      obtain ⟨rfl, rfl⟩ := List.cons.inj e
      rw [crossLoopP, h1, h2, h3, h4] at h
      simp only [pyGtP, bind, Except.bind, hlt, hlt', decide_true, if_true] at h
      exact keep h
    | cons p pre =>
      rw [List.cons_append] at e
      obtain ⟨rfl, rfl⟩ := List.cons.inj e
      have : ∃ ast', crossLoopP f g (pre ++ x :: y :: rest) ast' = .ok none := by
        cases hp : pre ++ x :: y :: rest with
        | nil => simp at hp
        | cons y0 rest0 =>
          replace h : crossLoopP f g (x0 :: (pre ++ x :: y :: rest)) ast = .ok none := h
          rw [hp, crossLoopP] at h
          simp only [bind, Except.bind] at h
          split at h
          · cases h
          · split at h
            · split at h
              · cases h
              · exact ⟨_, h⟩
            · exact ⟨_, h⟩
      obtain ⟨ast', h'⟩ := this
      exact ih h' rfl h1 h2 hlt h3 h4 hlt'

theorem getValueP_lift {F : Curve} {R : CurveP} {x : Ext} (h0 : ((0 : ℚ) : Ext) ≤ x) (h : ∃ s ∈ F, x ≤ s.1) :
    getValueStepwiseP x (liftP F ++ R) = some (some (stepFun F x)) := by
  unfold getValueStepwiseP
  rw [if_neg (not_lt.mpr h0)]
  induction F with
  | nil => obtain ⟨s, hs, _⟩ := h; cases hs
  | cons s F ih =>
    rw [stepFun_cons]
    show stepLookupP x ((s.1, some s.2) :: (liftP F ++ R)) = _
    rw [stepLookupP]
    by_cases hx : x ≤ s.1
    · rw [if_pos hx, if_pos hx]
    · rw [if_neg hx, if_neg hx]
      obtain ⟨t, ht, hxt⟩ := h
      rcases List.mem_cons.mp ht with rfl | ht
      · exact absurd hxt hx
      · exact ih ⟨t, ht, hxt⟩

theorem stepFun_append {F R : Curve} {x : Ext} (h : ∃ s ∈ F, x ≤ s.1) : stepFun (F ++ R) x = stepFun F x := by
  induction F with
  | nil => obtain ⟨s, hs, _⟩ := h; cases hs
  | cons s F ih =>
    rw [List.cons_append, stepFun_cons, stepFun_cons]
    by_cases hx : x ≤ s.1
    · rw [if_pos hx, if_pos hx]
    · rw [if_neg hx, if_neg hx]
      obtain ⟨t, ht, hxt⟩ := h
      rcases List.mem_cons.mp ht with rfl | ht
      · exact absurd hxt hx
      · exact ih ⟨t, ht, hxt⟩

/-- In a sorted list with a member above `x`, the next one after `x`. -/
theorem next_in {l : List Ext} (hs : l.Pairwise (· < ·)) {x z : Ext} (hx : x ∈ l) (hz : z ∈ l) (hxz : x < z) :
    ∃ pre y rest, l = pre ++ x :: y :: rest ∧ ∀ w ∈ l, x < w → y ≤ w := by
  obtain ⟨pre, post, rfl⟩ := List.append_of_mem hx
  obtain ⟨_, p2, p3⟩ := List.pairwise_append.mp hs
  cases post with
  | nil =>
    rcases List.mem_append.mp hz with h | h
    · exact absurd (p3 z h x (List.mem_cons_self ..)) (not_lt.mpr hxz.le)
    · rw [List.mem_singleton.mp h] at hxz
      exact absurd hxz (lt_irrefl _)
  | cons y rest =>
    refine ⟨pre, y, rest, rfl, ?_⟩
    intro w hw hxw
    rcases List.mem_append.mp hw with h | h
    · exact absurd (p3 w h x (List.mem_cons_self ..)) (not_lt.mpr hxw.le)
    · rcases List.mem_cons.mp h with rfl | h
      · exact absurd hxw (lt_irrefl _)
      · rcases List.mem_cons.mp h with rfl | h
        · exact le_refl _
        · exact ((List.pairwise_cons.mp (List.pairwise_cons.mp p2).2).1 w h).le

section

variable {F G : Curve} {NF NG : CurveP}

/-- The value just above `x` is not NaN: `x` is inside of the rows with values, or the other rows do not reach beyond. -/
def Reads (F : Curve) (NF : CurveP) (x : Ext) : Prop := (∃ s ∈ F, x < s.1) ∨ ∀ s ∈ NF, s.1 ≤ x

theorem lookupP_nan {F : Curve} {N T : CurveP} {y : Ext} (hN : ∀ s ∈ N, s.2 = none) (h : ∀ s ∈ F, s.1 < y)
    (h' : ∃ s ∈ N, y ≤ s.1) : stepLookupP y (liftP F ++ N ++ T) = some none := by
  induction F with
  | nil =>
    show stepLookupP y (N ++ T) = some none
    induction N with
    | nil => obtain ⟨s, hs, _⟩ := h'; cases hs
    | cons s N ih =>
      rw [List.cons_append, stepLookupP]
      by_cases hy : y ≤ s.1
      · rw [if_pos hy, hN s (List.mem_cons_self ..)]
      · rw [if_neg hy]
        obtain ⟨t, ht, hyt⟩ := h'
        rcases List.mem_cons.mp ht with rfl | ht
        · exact absurd hyt hy
        · exact ih (fun t ht => hN t (List.mem_cons_of_mem _ ht)) ⟨t, ht, hyt⟩
  | cons s F ih =>
    show stepLookupP y ((s.1, some s.2) :: (liftP F ++ N ++ T)) = _
    rw [stepLookupP, if_neg (not_le.mpr (h s (List.mem_cons_self ..)))]
    exact ih (fun t ht => h t (List.mem_cons_of_mem _ ht))

theorem lookupP_tail {F : Curve} {N : CurveP} {y y0 : Ext} (h : ∀ s ∈ F, s.1 < y) (h' : ∀ s ∈ N, s.1 < y) :
    stepLookupP y (liftP F ++ N ++ [((⊤ : Ext), some y0)]) = some (some y0) := by
  induction F with
  | nil =>
    show stepLookupP y (N ++ [((⊤ : Ext), some y0)]) = _
    induction N with
    | nil => simp [stepLookupP]
    | cons s N ih =>
      rw [List.cons_append, stepLookupP, if_neg (not_le.mpr (h' s (List.mem_cons_self ..)))]
      exact ih (fun t ht => h' t (List.mem_cons_of_mem _ ht))
  | cons s F ih =>
    show stepLookupP y ((s.1, some s.2) :: (liftP F ++ N ++ [((⊤ : Ext), some y0)])) = _
    rw [stepLookupP, if_neg (not_le.mpr (h s (List.mem_cons_self ..)))]
    exact ih (fun t ht => h t (List.mem_cons_of_mem _ ht))

/-- Where the value is read, it is the one without the rows that are NaN. -/
theorem Reads.value {F : Curve} {N : CurveP} {x y y0 : Ext} (h : Reads F N x) (hy0 : ((0 : ℚ) : Ext) ≤ y) (hxy : x < y)
    (hF : ∀ s ∈ F, x < s.1 → y ≤ s.1) :
    getValueStepwiseP y (liftP F ++ N ++ [((⊤ : Ext), some y0)]) = some (some (stepFun (F ++ [((⊤ : Ext), y0)]) y)) := by
  by_cases c : ∃ s ∈ F, x < s.1
  · obtain ⟨s, hs, hx⟩ := c
    rw [List.append_assoc, getValueP_lift hy0 ⟨s, hs, hF s hs hx⟩, stepFun_append ⟨s, hs, hF s hs hx⟩]
  · rcases h with h | h
    · exact absurd h c
    · push Not at c
      have b : ∀ s ∈ F, s.1 < y := fun s hs => lt_of_le_of_lt (c s hs) hxy
      unfold getValueStepwiseP
      rw [if_neg (not_lt.mpr hy0), lookupP_tail b (fun s hs => lt_of_le_of_lt (h s hs) hxy)]
      unfold stepFun
      rw [lookup_beyond (fun s hs => not_le.mpr (b s hs))]
      rfl

/-- A value just above `x` that is a number. -/
theorem Reads.of_value {F : Curve} {N T : CurveP} {x y v : Ext} (hN : ∀ s ∈ N, s.2 = none) (hxy : x < y)
    (hgap : ∀ s ∈ N, x < s.1 → y ≤ s.1) (h : getValueStepwiseP y (liftP F ++ N ++ T) = some (some v)) : Reads F N x := by
  by_contra c
  unfold Reads at c
  push Not at c
  obtain ⟨c1, s, hs, hx⟩ := c
  unfold getValueStepwiseP at h
  split at h
  · cases h
  · rw [lookupP_nan hN (fun t ht => lt_of_le_of_lt (c1 t ht) hxy) ⟨s, hs, hgap s hs hx⟩] at h
    cases h

/-- A crossing lies within the rows of both curves. -/
theorem crossesAt_inside (hG : ∀ s ∈ G, ((0 : ℚ) : Ext) ≤ s.2) {x : Ext}
    (hc : CrossesAt (F ++ [((⊤ : Ext), ((0 : ℚ) : Ext))]) (G ++ [((⊤ : Ext), (⊤ : Ext))]) ⊤ x) :
    (∃ s ∈ F, x ≤ s.1) ∧ (∃ s ∈ G, x ≤ s.1) := by
  have tf : ∃ s ∈ F ++ [((⊤ : Ext), ((0 : ℚ) : Ext))], s.1 = ⊤ :=
    ⟨_, List.mem_append_right _ (List.mem_singleton.mpr rfl), rfl⟩
  have tg : ∃ s ∈ G ++ [((⊤ : Ext), (⊤ : Ext))], s.1 = ⊤ :=
    ⟨_, List.mem_append_right _ (List.mem_singleton.mpr rfl), rfl⟩
  obtain ⟨_, _, hgt, _⟩ := (crossesAt_top tf tg).mp hc
  have hb : ((0 : ℚ) : Ext) ≤ stepFun (G ++ [((⊤ : Ext), (⊤ : Ext))]) x := by
    obtain ⟨s, hs, e⟩ := stepFun_mem (f := G ++ [((⊤ : Ext), (⊤ : Ext))]) (x := x) (by
      obtain ⟨s, hs, e⟩ := tg
      exact ⟨s, hs, by rw [e]; exact le_top⟩)
    rw [← e]
    rcases List.mem_append.mp hs with hs | hs
    · exact hG s hs
    · rw [List.mem_singleton.mp hs]
      exact le_top
  have inF : ∃ s ∈ F, x ≤ s.1 := by
    by_contra hc
    push Not at hc
    have e : stepFun (F ++ [((⊤ : Ext), ((0 : ℚ) : Ext))]) x = ((0 : ℚ) : Ext) := by
      unfold stepFun
      rw [lookup_beyond (fun s hs => not_le.mpr (hc s hs))]
      rfl
    rw [e] at hgt
    exact absurd hgt (not_lt.mpr hb)
  have inG : ∃ s ∈ G, x ≤ s.1 := by
    by_contra hc
    push Not at hc
    have e : stepFun (G ++ [((⊤ : Ext), (⊤ : Ext))]) x = ⊤ := by
      unfold stepFun
      rw [lookup_beyond (fun s hs => not_le.mpr (hc s hs))]
      rfl
    rw [e] at hgt
    exact absurd hgt not_top_lt
  exact ⟨inF, inG⟩

/-- `intersectP` for curves whose rows without a value come after the others: the crossing of the others, or none. -/
theorem intersectP_known (hNF : ∀ s ∈ NF, s.2 = none) (hNG : ∀ s ∈ NG, s.2 = none)
    (pNF : ∀ s ∈ NF, ((0 : ℚ) : Ext) ≤ s.1) (pNG : ∀ s ∈ NG, ((0 : ℚ) : Ext) ≤ s.1)
    (sF : IsStep (F ++ [((⊤ : Ext), ((0 : ℚ) : Ext))])) (sG : IsStep (G ++ [((⊤ : Ext), (⊤ : Ext))]))
    (hdec : (F ++ [((⊤ : Ext), ((0 : ℚ) : Ext))]).Pairwise (fun s t => t.2 ≤ s.2))
    (hinc : (G ++ [((⊤ : Ext), (⊤ : Ext))]).Pairwise (fun s t => s.2 ≤ t.2)) (hG : ∀ s ∈ G, ((0 : ℚ) : Ext) ≤ s.2) :
    ∃ i, intersectStepwise (F ++ [((⊤ : Ext), ((0 : ℚ) : Ext))]) (G ++ [((⊤ : Ext), (⊤ : Ext))]) = .ok i ∧
      ((∃ x b s, i.x = some x ∧ i.f = some b ∧ i.g = some s ∧ b < F.length ∧ s < G.length ∧
        Reads F NF x ∧ Reads G NG x ∧
        intersectP (liftP F ++ NF ++ [((⊤ : Ext), some ((0 : ℚ) : Ext))]) (liftP G ++ NG ++ [((⊤ : Ext), some ⊤)]) =
          .ok (some (x, b, s))) ∨
      (intersectP (liftP F ++ NF ++ [((⊤ : Ext), some ((0 : ℚ) : Ext))]) (liftP G ++ NG ++ [((⊤ : Ext), some ⊤)]) =
          .ok none ∧ ∀ x, i.x = some x → ¬ (Reads F NF x ∧ Reads G NG x))) ∧
      (i.x = none → i.f = none ∧ i.g = none) := by
  have tf : ∃ s ∈ F ++ [((⊤ : Ext), ((0 : ℚ) : Ext))], s.1 = ⊤ :=
    ⟨_, List.mem_append_right _ (List.mem_singleton.mpr rfl), rfl⟩
  have tg : ∃ s ∈ G ++ [((⊤ : Ext), (⊤ : Ext))], s.1 = ⊤ :=
    ⟨_, List.mem_append_right _ (List.mem_singleton.mpr rfl), rfl⟩
  have tfP : ∃ s ∈ liftP F ++ NF ++ [((⊤ : Ext), some ((0 : ℚ) : Ext))], s.1 = ⊤ :=
    ⟨_, List.mem_append_right _ (List.mem_singleton.mpr rfl), rfl⟩
  have tgP : ∃ s ∈ liftP G ++ NG ++ [((⊤ : Ext), some (⊤ : Ext))], s.1 = ⊤ :=
    ⟨_, List.mem_append_right _ (List.mem_singleton.mpr rfl), rfl⟩
  obtain ⟨i, hi, hcross, _, hnone⟩ := C74_contract _ _ sF sG hdec hinc (1 / 2) ⊤ (domainEnd_top tf tg)
  refine ⟨i, hi, ?_, fun h => ⟨(hnone h).1, (hnone h).2.1⟩⟩
  set f := liftP F ++ NF ++ [((⊤ : Ext), some ((0 : ℚ) : Ext))] with hf
  set g := liftP G ++ NG ++ [((⊤ : Ext), some (⊤ : Ext))] with hg
  set xs := gridXs (f.map (fun s : Ext × Option Ext => (s.1, s.1))) (g.map (fun s : Ext × Option Ext => (s.1, s.1))) ⊤ with hxs
  have memf : ∀ s ∈ f, s.1 ∈ xs := fun s hs => mem_gridXs.mpr ⟨Or.inl ⟨_, List.mem_map.mpr ⟨s, hs, rfl⟩, rfl⟩, le_top⟩
  have memg : ∀ s ∈ g, s.1 ∈ xs := fun s hs => mem_gridXs.mpr ⟨Or.inr ⟨_, List.mem_map.mpr ⟨s, hs, rfl⟩, rfl⟩, le_top⟩
  have nonneg : ∀ x ∈ xs, ((0 : ℚ) : Ext) ≤ x := by
    intro x hx
    obtain ⟨hx, _⟩ := mem_gridXs.mp hx
    have side : ∀ {F : Curve} {N : CurveP} {y : Ext}, IsStep (F ++ [((⊤ : Ext), y)]) → (∀ s ∈ N, ((0 : ℚ) : Ext) ≤ s.1) →
        ∀ s ∈ liftP F ++ N ++ [((⊤ : Ext), some y)], ((0 : ℚ) : Ext) ≤ s.1 := by
      intro F N y hF hN s hs
      rcases List.mem_append.mp hs with hs | hs
      · rcases List.mem_append.mp hs with hs | hs
        · obtain ⟨s', hs', rfl⟩ := List.mem_map.mp hs
          exact hF.nonneg s' (List.mem_append_left _ hs')
        · exact hN s hs
      · rw [List.mem_singleton.mp hs]
        exact le_top
    rcases hx with ⟨_, hs, rfl⟩ | ⟨_, hs, rfl⟩
    · obtain ⟨s, hs', rfl⟩ := List.mem_map.mp hs
      exact side sF pNF s hs'
    · obtain ⟨s, hs', rfl⟩ := List.mem_map.mp hs
      exact side sG pNG s hs'
  obtain ⟨o, ho⟩ := crossLoopP_ok tfP tgP (ast := none) nonneg
  cases o with
  | some x =>
    left
    obtain ⟨c, hF, hG'⟩ := crossesAt_of_P hNF hNG hdec hinc hG ho
    have hx := (hcross x).mpr c
    have rd : Reads F NF x ∧ Reads G NG x := by
      rcases crossLoopP_found ho with h | ⟨pre, y, rest, a, b, a', b', e, h1, h2, hlt, h3, h4, hlt'⟩
      · cases h
      · have hsort := gridXs_sorted (f.map (fun s : Ext × Option Ext => (s.1, s.1)))
          (g.map (fun s : Ext × Option Ext => (s.1, s.1))) ⊤
        rw [← hxs, e] at hsort
        obtain ⟨_, p2, p3⟩ := List.pairwise_append.mp hsort
        have hxy : x < y := (List.pairwise_cons.mp p2).1 y (List.mem_cons_self ..)
        have gap : ∀ w ∈ xs, x < w → y ≤ w := by
          intro w hw hxw
          rw [e] at hw
          rcases List.mem_append.mp hw with hw | hw
          · exact absurd (p3 w hw x (List.mem_cons_self ..)) (not_lt.mpr hxw.le)
          · rcases List.mem_cons.mp hw with rfl | hw
            · exact absurd hxw (lt_irrefl _)
            · rcases List.mem_cons.mp hw with rfl | hw
              · exact le_refl _
              · exact ((List.pairwise_cons.mp (List.pairwise_cons.mp p2).2).1 w hw).le
        exact ⟨Reads.of_value hNF hxy (fun s hs h => gap _ (memf s (List.mem_append_left _ (List.mem_append_right _ hs))) h) h3,
          Reads.of_value hNG hxy (fun s hs h => gap _ (memg s (List.mem_append_left _ (List.mem_append_right _ hs))) h) h4⟩
    obtain ⟨_, _, _, _, e⟩ := intersect_shape hi hx
    obtain ⟨a1, a2⟩ := argmax_prefix (A := F.map Prod.fst) (B := NF.map Prod.fst ++ [⊤]) (C := [⊤]) (fun w => decide (x ≤ w))
      (by obtain ⟨s, hs, h⟩ := hF; exact ⟨s.1, List.mem_map.mpr ⟨s, hs, rfl⟩, by simpa using h⟩)
    obtain ⟨b1, b2⟩ := argmax_prefix (A := G.map Prod.fst) (B := NG.map Prod.fst ++ [⊤]) (C := [⊤]) (fun w => decide (x ≤ w))
      (by obtain ⟨s, hs, h⟩ := hG'; exact ⟨s.1, List.mem_map.mpr ⟨s, hs, rfl⟩, by simpa using h⟩)
    have ea : f.map (fun s => decide (x ≤ s.1)) = (F.map Prod.fst ++ (NF.map Prod.fst ++ [⊤])).map (fun w => decide (x ≤ w)) := by
      rw [hf, liftP]
      simp only [List.map_append, List.map_map, List.append_assoc, List.map_cons, List.map_nil]
      rfl
    have eb : g.map (fun s => decide (x ≤ s.1)) = (G.map Prod.fst ++ (NG.map Prod.fst ++ [⊤])).map (fun w => decide (x ≤ w)) := by
      rw [hg, liftP]
      simp only [List.map_append, List.map_map, List.append_assoc, List.map_cons, List.map_nil]
      rfl
    have ea' : (F ++ [((⊤ : Ext), ((0 : ℚ) : Ext))]).map (fun s => decide (x ≤ s.1)) =
        (F.map Prod.fst ++ [⊤]).map (fun w => decide (x ≤ w)) := by
      simp
    have eb' : (G ++ [((⊤ : Ext), (⊤ : Ext))]).map (fun s => decide (x ≤ s.1)) =
        (G.map Prod.fst ++ [⊤]).map (fun w => decide (x ≤ w)) := by
      simp
    refine ⟨x, argmaxTrue (f.map (fun s => decide (x ≤ s.1))), argmaxTrue (g.map (fun s => decide (x ≤ s.1))), hx, ?_, ?_, ?_, ?_, rd.1, rd.2, ?_⟩
    · rw [e, ea', ea, a1]
    · rw [e, eb', eb, b1]
    · rw [ea]
      simpa using a2
    · rw [eb]
      simpa using b2
    · unfold intersectP
      simp only [bind, Except.bind, ← hxs, ho]
  | none =>
    right
    constructor
    · unfold intersectP
      simp only [bind, Except.bind, ← hxs, ho]
      have hne : xs ≠ [] := by
        obtain ⟨s, hs, es⟩ := tfP
        exact List.ne_nil_of_mem (memf s hs)
      rw [List.getLast?_eq_some_getLast hne]
      have hn := nonneg _ (List.getLast_mem hne)
      obtain ⟨a, ha⟩ := getValueP_some tfP hn
      obtain ⟨b, hb⟩ := getValueP_some tgP hn
      simp only [ha, hb]
    · rintro x hx ⟨rF, rG⟩
      have hc := (hcross x).mp hx
      obtain ⟨hxtop, hx0, hgt, hlt⟩ := (crossesAt_top tf tg).mp hc
      have liftF : ∀ s ∈ F, (s.1, some s.2) ∈ f := fun s hs =>
        List.mem_append_left _ (List.mem_append_left _ (List.mem_map.mpr ⟨s, hs, rfl⟩))
      have liftG : ∀ s ∈ G, (s.1, some s.2) ∈ g := fun s hs =>
        List.mem_append_left _ (List.mem_append_left _ (List.mem_map.mpr ⟨s, hs, rfl⟩))
      have hmem : x ∈ xs := by
        obtain ⟨i', hi', hd, _⟩ := C74_last_drop _ _ sF sG (1 / 2) ⊤ (domainEnd_top tf tg) _ (gridXs_isGrid _ _ ⊤)
        rw [hi] at hi'
        cases hi'
        obtain ⟨j, ⟨y, h1, _⟩, _⟩ := (hd x).mp hx
        rcases (mem_gridXs.mp (List.mem_of_getElem? h1)).1 with ⟨s, hs, rfl⟩ | ⟨s, hs, rfl⟩
        · rcases List.mem_append.mp hs with hs | hs
          · exact memf _ (liftF s hs)
          · rw [List.mem_singleton.mp hs] at hxtop
            exact absurd hxtop (lt_irrefl _)
        · rcases List.mem_append.mp hs with hs | hs
          · exact memg _ (liftG s hs)
          · rw [List.mem_singleton.mp hs] at hxtop
            exact absurd hxtop (lt_irrefl _)
      have htop : (⊤ : Ext) ∈ xs := by
        obtain ⟨s, hs, es⟩ := tfP
        have := memf s hs
        rwa [es] at this
      obtain ⟨pre, y, rest, el, hy⟩ := next_in (gridXs_sorted _ _ _) hmem htop hxtop
      have hxy : x < y := by
        have := gridXs_sorted (f.map (fun s : Ext × Option Ext => (s.1, s.1))) (g.map (fun s : Ext × Option Ext => (s.1, s.1))) ⊤
        rw [el] at this
        exact (List.pairwise_cons.mp (List.pairwise_append.mp this).2.1).1 y (List.mem_cons_self ..)
      obtain ⟨inF, inG⟩ := crossesAt_inside hG hc
      have val : ∀ {F : Curve} {N : CurveP} {R : Curve} {T : CurveP} {z : Ext}, ((0 : ℚ) : Ext) ≤ z → (∃ s ∈ F, z ≤ s.1) →
          getValueStepwiseP z (liftP F ++ N ++ T) = some (some (stepFun (F ++ R) z)) := by
        intro F N R T z hz h
        rw [List.append_assoc, getValueP_lift hz h, stepFun_append h]
      exact crossLoopP_none ho el (val hx0 inF) (val hx0 inG) hgt
        (rF.value (hx0.trans hxy.le) hxy (fun s hs h => hy _ (memf _ (liftF s hs)) h))
        (rG.value (hx0.trans hxy.le) hxy (fun s hs h => hy _ (memg _ (liftG s hs)) h)) (hlt y hxy)

end

end

end PyMarket
