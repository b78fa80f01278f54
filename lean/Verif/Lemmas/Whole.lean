import Verif.Lemmas.Ieee
import Verif.Props.FloatMuda

/-! # Quantities that are multiples of one unit: sums and differences are exact -/

set_option autoImplicit false

namespace PyMarket

/-- The arithmetic represents the multiples `-M*g, …, M*g` of the unit `g` exactly. -/
def Spec.ExactOn (A : Arith) (g : ℚ) (M : ℕ) : Prop :=
  0 < g ∧ ∀ m : ℤ, |m| ≤ M → A.rnd (m * g) = m * g

/-- `x` is a multiple of the unit `g`. -/
def Spec.Multiple (g x : ℚ) : Prop := ∃ k : ℕ, x = k * g

/-- Multiples of `g` of at most `M*g` altogether. -/
def Spec.Whole (g : ℚ) (M : ℕ) (l : List ℚ) : Prop := (∀ x ∈ l, Multiple g x) ∧ l.sum ≤ M * g

open Spec

variable {A : Arith} {g : ℚ} {M : ℕ}

theorem Spec.Multiple.nonneg (hg : 0 < g) {x : ℚ} (h : Multiple g x) : 0 ≤ x := by
  obtain ⟨k, rfl⟩ := h; positivity

theorem Spec.Multiple.zero (g : ℚ) : Multiple g 0 := ⟨0, by simp⟩

theorem Spec.Multiple.add {x y : ℚ} (hx : Multiple g x) (hy : Multiple g y) : Multiple g (x + y) := by
  obtain ⟨k, rfl⟩ := hx; obtain ⟨l, rfl⟩ := hy
  exact ⟨k + l, by push_cast; ring⟩

theorem Spec.Multiple.sub (hg : 0 < g) {x y : ℚ} (hx : Multiple g x) (hy : Multiple g y) (h : y ≤ x) :
    Multiple g (x - y) := by
  obtain ⟨k, rfl⟩ := hx; obtain ⟨l, rfl⟩ := hy
  have hlk : l ≤ k := by
    have := le_of_mul_le_mul_right h hg
    exact_mod_cast this
  exact ⟨k - l, by push_cast [Nat.cast_sub hlk]; ring⟩

theorem Spec.Multiple.min {x y : ℚ} (hx : Multiple g x) (hy : Multiple g y) : Multiple g (min x y) := by
  rcases min_choice x y with h | h <;> rw [h] <;> assumption

theorem Spec.Multiple.sum {l : List ℚ} (h : ∀ x ∈ l, Multiple g x) : Multiple g l.sum := by
  induction l with
  | nil => exact Multiple.zero g
  | cons a l ih =>
    rw [List.sum_cons]
    exact (h a List.mem_cons_self).add (ih (fun x hx => h x (List.mem_cons_of_mem _ hx)))

theorem Spec.ExactOn.rnd (h : ExactOn A g M) {x : ℚ} (hx : Multiple g x) (hM : x ≤ M * g) :
    A.rnd x = x := by
  obtain ⟨k, rfl⟩ := hx
  have hk : k ≤ M := by
    have := le_of_mul_le_mul_right hM h.1
    exact_mod_cast this
  have := h.2 k (by rw [Nat.abs_cast]; exact_mod_cast hk)
  simpa using this

theorem Spec.ExactOn.rnd_sub (h : ExactOn A g M) {x y : ℚ} (hx : Multiple g x) (hy : Multiple g y)
    (hxM : x ≤ M * g) (hyM : y ≤ M * g) : A.rnd (x - y) = x - y := by
  obtain ⟨k, rfl⟩ := hx
  obtain ⟨l, rfl⟩ := hy
  have hk : k ≤ M := by
    have := le_of_mul_le_mul_right hxM h.1
    exact_mod_cast this
  have hl : l ≤ M := by
    have := le_of_mul_le_mul_right hyM h.1
    exact_mod_cast this
  have := h.2 ((k : ℤ) - l) (by rw [abs_le]; constructor <;> omega)
  push_cast at this
  rw [← sub_mul]
  exact this

theorem Spec.Whole.sublist (hg : 0 < g) {l m : List ℚ} (h : Whole g M m) (hs : l.Sublist m) :
    Whole g M l := by
  refine ⟨fun x hx => h.1 x (hs.subset hx), le_trans ?_ h.2⟩
  exact hs.sum_le_sum (fun x hx => (h.1 x hx).nonneg hg)

theorem Spec.Whole.perm {l m : List ℚ} (h : Whole g M m) (hp : l.Perm m) : Whole g M l :=
  ⟨fun x hx => h.1 x (hp.subset hx), by rw [hp.sum_eq]; exact h.2⟩

theorem Spec.Whole.le (hg : 0 < g) {l : List ℚ} (h : Whole g M l) {x : ℚ} (hx : x ∈ l) : x ≤ M * g :=
  le_trans (List.single_le_sum (fun y hy => (h.1 y hy).nonneg hg) x hx) h.2

theorem IsFSum.whole (hA : ExactOn A g M) {l : List ℚ} {v : ℚ} (h : IsFSum A l v) (hl : Whole g M l) :
    v = l.sum := by
  induction h with
  | nil => rfl
  | one x => simp
  | @add l m a b _ _ _ _ iha ihb =>
    have wl := hl.sublist hA.1 (List.sublist_append_left l m)
    have wm := hl.sublist hA.1 (List.sublist_append_right l m)
    rw [iha wl, ihb wm, List.sum_append]
    refine hA.rnd ((Multiple.sum wl.1).add (Multiple.sum wm.1)) ?_
    have := hl.2
    rwa [List.sum_append] at this
  | perm hp _ ih => rw [ih (hl.perm hp), hp.sum_eq]

theorem Summer.whole (hA : ExactOn A g M) (s : Summer A) {l : List ℚ} (hl : Whole g M l) :
    s.sum l = l.sum := (s.isSum l).whole hA hl

theorem cumsumFromF_whole (hA : ExactOn A g M) : ∀ (l : List ℚ) (acc : ℚ), Multiple g acc →
    (∀ x ∈ l, Multiple g x) → acc + l.sum ≤ M * g → cumsumFromF A acc l = cumsumFrom acc l := by
  intro l
  induction l with
  | nil => intro acc _ _ _; rfl
  | cons x l ih =>
    intro acc ha hl hM
    have hx := hl x List.mem_cons_self
    have hl' : ∀ y ∈ l, Multiple g y := fun y hy => hl y (List.mem_cons_of_mem _ hy)
    have h0 := (Multiple.sum hl').nonneg hA.1
    rw [List.sum_cons] at hM
    have e : A.rnd (acc + x) = acc + x := hA.rnd (ha.add hx) (by linarith)
    rw [cumsumFromF, cumsumFrom, e, ih _ (ha.add hx) hl' (by linarith)]

theorem cumsumF_whole (hA : ExactOn A g M) {l : List ℚ} (hl : Whole g M l) : cumsumF A l = cumsum l :=
  cumsumFromF_whole hA l 0 (Multiple.zero g) hl.1 (by rw [zero_add]; exact hl.2)

/-- A table with such quantities. -/
def Spec.WholeBook (g : ℚ) (M : ℕ) (df : DF) : Prop := Whole g M (df.map (fun r => r.quantity))

theorem Spec.WholeBook.sublist (hg : 0 < g) {df df' : DF} (h : WholeBook g M df) (hs : df'.Sublist df) :
    WholeBook g M df' := Whole.sublist hg h (hs.map _)

theorem Spec.WholeBook.perm {df df' : DF} (h : WholeBook g M df) (hp : df'.Perm df) :
    WholeBook g M df' := Whole.perm h (hp.map _)

theorem Spec.WholeBook.nonneg (hg : 0 < g) {df : DF} (h : WholeBook g M df) : ∀ r ∈ df, 0 ≤ r.quantity :=
  fun _ hr => (h.1 _ (List.mem_map_of_mem hr)).nonneg hg

/-! ## Curves -/

theorem demandCurveF_whole (hA : ExactOn A g M) (S : Sorter) {df : DF} (h : WholeBook g M df) :
    demandCurveF A S df = (demandCurve S df).1 := by
  unfold demandCurveF demandCurve
  simp only
  have hw : WholeBook g M (sortDesc S (buys df)) :=
    (h.sublist hA.1 List.filter_sublist).perm (sortDesc_perm S (buys df))
  rw [cumsumF_whole hA hw]

theorem supplyCurveF_whole (hA : ExactOn A g M) (S : Sorter) {df : DF} (h : WholeBook g M df) :
    supplyCurveF A S df = (supplyCurve S df).1 := by
  unfold supplyCurveF supplyCurve
  simp only
  have hw : WholeBook g M (sortAsc S (sells df)) :=
    (h.sublist hA.1 List.filter_sublist).perm (sortAsc_perm S (sells df))
  rw [cumsumF_whole hA hw]

/-! ## Peer to peer trading -/

/-- The same entry except for the price. -/
def Spec.ButPrice (t t' : Transaction) : Prop :=
  t'.bid = t.bid ∧ t'.quantity = t.quantity ∧ t'.source = t.source ∧ t'.active = t.active

/-- The remaining quantities are multiples of at most `M*g`. -/
def WholeQ (g : ℚ) (M : ℕ) (q : ℕ → ℚ) : Prop := ∀ i, Multiple g (q i) ∧ q i ≤ M * g

theorem tradeOneF_whole (hA : ExactOn A g M) {q : ℕ → ℚ} (hq : WholeQ g M q) (prices : ℕ → ℚ) (c : ℚ)
    (p : ℕ × ℕ) (hp : p.1 ≠ p.2) :
    (tradeOneF A prices c q p).1 = (tradeOne prices c q p).1 ∧
    List.Forall₂ ButPrice (tradeOne prices c q p).2 (tradeOneF A prices c q p).2 ∧
    WholeQ g M (tradeOne prices c q p).1 ∧ ∀ i, (tradeOne prices c q p).1 i ≤ q i := by
  obtain ⟨b, s⟩ := p
  have hbs : s ≠ b := Ne.symm hp
  have hm := (hq b).1.min (hq s).1
  have m0 := hm.nonneg hA.1
  have e1 : A.rnd (q b - min (q b) (q s)) = q b - min (q b) (q s) :=
    hA.rnd_sub (hq b).1 hm (hq b).2 (le_trans (min_le_left _ _) (hq b).2)
  have e2 : A.rnd (q s - min (q b) (q s)) = q s - min (q b) (q s) :=
    hA.rnd_sub (hq s).1 hm (hq s).2 (le_trans (min_le_left _ _) (hq b).2)
  unfold tradeOneF tradeOne
  simp only
  by_cases hpr : prices s ≤ prices b
  · rw [if_pos hpr, if_pos hpr]
    simp only [e1, e2]
    have e3 : setQ q b (q b - min (q b) (q s)) s = q s := by
      unfold setQ; rw [if_neg hbs]
    simp only [e3, e2]
    refine ⟨trivial, ?_, ?_, ?_⟩
    · exact .cons ⟨rfl, rfl, rfl, rfl⟩ (.cons ⟨rfl, rfl, rfl, rfl⟩ .nil)
    · intro i
      unfold setQ
      split
      · exact ⟨(hq s).1.sub hA.1 hm (min_le_right _ _), by have := (hq s).2; linarith⟩
      · split
        · exact ⟨(hq b).1.sub hA.1 hm (min_le_left _ _), by have := (hq b).2; linarith⟩
        · exact hq i
    · intro i
      unfold setQ
      split
      · rename_i hi; rw [hi]; linarith
      · split
        · rename_i hi; rw [hi]; linarith
        · exact le_refl _
  · rw [if_neg hpr, if_neg hpr]
    exact ⟨rfl, .cons ⟨rfl, rfl, rfl, rfl⟩ (.cons ⟨rfl, rfl, rfl, rfl⟩ .nil), hq, fun _ => le_refl _⟩

theorem tradeRoundF_whole (hA : ExactOn A g M) (prices : ℕ → ℚ) (c : ℚ) : ∀ (ps : List (ℕ × ℕ))
    (q : ℕ → ℚ), WholeQ g M q → (∀ p ∈ ps, p.1 ≠ p.2) →
    (tradeRoundF A prices c q ps).1 = (tradeRound prices c q ps).1 ∧
    List.Forall₂ ButPrice (tradeRound prices c q ps).2 (tradeRoundF A prices c q ps).2 ∧
    WholeQ g M (tradeRound prices c q ps).1 ∧ ∀ i, (tradeRound prices c q ps).1 i ≤ q i := by
  intro ps
  induction ps with
  | nil => intro q hq _; exact ⟨rfl, .nil, hq, fun _ => le_refl _⟩
  | cons p ps ih =>
    intro q hq hps
    obtain ⟨h1, h2, h3, h4⟩ := tradeOneF_whole hA hq prices c p (hps p List.mem_cons_self)
    obtain ⟨i1, i2, i3, i4⟩ := ih _ h3 (fun p' hp' => hps p' (List.mem_cons_of_mem _ hp'))
    rw [tradeRoundF, tradeRound]
    simp only [h1]
    exact ⟨i1, List.rel_append h2 i2, i3, fun i => le_trans (i4 i) (h4 i)⟩

theorem meetLoop_incl (choice : ℕ → ℕ) (n : ℕ) (active tmp : List (ℕ × ℕ)) :
    (∀ p ∈ (meetLoop choice n active tmp).2.1, p ∈ active) ∧
      ∀ p ∈ (meetLoop choice n active tmp).2.2, p ∈ tmp := by
  fun_induction meetLoop choice n active tmp with
  | case1 => exact ⟨fun _ h => h, fun p h => by cases h⟩
  | case2 n active tmp trade h r ih =>
    refine ⟨fun p hp => List.mem_of_mem_erase (ih.1 p hp), ?_⟩
    intro p hp
    rcases List.mem_cons.mp hp with rfl | hp
    · exact List.mem_of_getElem? h
    · exact (List.mem_filter.mp (List.mem_filter.mp (ih.2 p hp)).1).1

theorem p2pLoopF_whole (hA : ExactOn A g M) (s : Summer A) (df : DF) (prices : ℕ → ℚ) (c : ℚ)
    (choice : ℕ → ℕ) (n : ℕ) (q : ℕ → ℚ) (active : List (ℕ × ℕ)) (inactive : List ℕ)
    (hq : WholeQ g M q) (hsum : (df.map (fun r => q r.label)).sum ≤ M * g)
    (hne : ∀ p ∈ active, p.1 ≠ p.2) :
    (p2pLoopF A s df prices c choice n q active inactive).1 =
      (p2pLoop df prices c choice n q active inactive).1 ∧
    List.Forall₂ ButPrice (p2pLoop df prices c choice n q active inactive).2
      (p2pLoopF A s df prices c choice n q active inactive).2 := by
  fun_induction p2pLoop df prices c choice n q active inactive with
  | case1 n q active inactive tmp hcond m t rest ih =>
    have hsm : s.sum (df.map (fun r => q r.label)) = (df.map (fun r => q r.label)).sum := by
      refine s.whole hA ⟨?_, hsum⟩
      intro x hx
      obtain ⟨r, _, rfl⟩ := List.mem_map.mp hx
      exact (hq _).1
    have hm : m = meetLoop choice n active (maskOut active inactive) := rfl
    have hmem : ∀ p ∈ m.2.2, p ∈ active := by
      intro p hp
      exact (maskOut_sublist active inactive).subset ((meetLoop_incl choice n active _).2 p hp)
    have hrest : ∀ p ∈ m.2.1, p ∈ active := by
      exact (meetLoop_incl choice n active _).1
    obtain ⟨h1, h2, h3, h4⟩ := tradeRoundF_whole hA prices c m.2.2 q hq
      (fun p hp => hne p (hmem p hp))
    obtain ⟨i1, i2⟩ := ih h3 (le_trans (List.sum_le_sum (fun r _ => h4 r.label)) hsum)
      (fun p hp => hne p (hrest p hp))
    rw [p2pLoopF]
    have hcond' : 0 < s.sum (df.map (fun r => q r.label)) ∧ maskOut active inactive ≠ [] := by
      rw [hsm]; exact hcond
    simp only [dif_pos hcond']
    rw [← hm, h1]
    exact ⟨by rw [i1], List.rel_append h2 i2⟩
  | case2 n q active inactive tmp hcond =>
    have hsm : s.sum (df.map (fun r => q r.label)) = (df.map (fun r => q r.label)).sum := by
      refine s.whole hA ⟨?_, hsum⟩
      intro x hx
      obtain ⟨r, _, rfl⟩ := List.mem_map.mp hx
      exact (hq _).1
    rw [p2pLoopF]
    have hcond' : ¬ (0 < s.sum (df.map (fun r => q r.label)) ∧ maskOut active inactive ≠ []) := by
      rw [hsm]; exact hcond
    simp only [dif_neg hcond']
    exact ⟨trivial, .nil⟩

end PyMarket
