import Mathlib.Algebra.BigOperators.Group.List.Basic
import Mathlib.Algebra.BigOperators.Ring.List
import Mathlib.Algebra.Order.BigOperators.Group.List
import Mathlib.LinearAlgebra.Pi
import Mathlib.LinearAlgebra.Prod
import Verif.Lemmas.Polyhedron
import Verif.Lemmas.Table
import Verif.Lemmas.P2P
import Verif.Props.Profits
import Verif.Spec.LP

/-! # The linear programs of the statistics -/

set_option autoImplicit false

namespace PyMarket

open Spec

/-! ## Existence of an optimum -/

/-- The functional `Σ_{v ∈ l} coeff v * q v`. -/
def sumFunctional (coeff : ℕ × ℕ → ℚ) (l : List (ℕ × ℕ)) :
    ((ℕ × ℕ → ℚ) × ℚ) →ₗ[ℚ] ℚ :=
  (l.map (fun v => coeff v • ((LinearMap.proj v).comp (LinearMap.fst ℚ (ℕ × ℕ → ℚ) ℚ)))).sum

theorem sumFunctional_apply (coeff : ℕ × ℕ → ℚ) (l : List (ℕ × ℕ)) (q : ℕ × ℕ → ℚ) (y : ℚ) :
    sumFunctional coeff l (q, y) = (l.map (fun v => coeff v * q v)).sum := by
  unfold sumFunctional
  induction l with
  | nil => simp
  | cons v l ih =>
    rw [List.map_cons, List.sum_cons, LinearMap.add_apply, ih, List.map_cons, List.sum_cons]
    simp

/-- Feasibility together with a lower bound on the objective is a finite linear system. -/
theorem feasible_isPoly (lp : LP) :
    IsPoly (fun x : (ℕ × ℕ → ℚ) × ℚ => Feasible lp x.1 ∧ x.2 ≤ objective lp x.1) := by
  refine ⟨lp.vars.map (fun v => (-sumFunctional (fun _ => 1) [v], 0)) ++
    (lp.constraints.map (fun c => (sumFunctional (fun _ => 1) c.1, c.2)) ++
    [(LinearMap.snd ℚ (ℕ × ℕ → ℚ) ℚ - sumFunctional lp.coeff lp.vars, 0)]), fun x => ?_⟩
  obtain ⟨q, y⟩ := x
  simp only [List.mem_append, List.mem_map, List.mem_singleton]
  constructor
  · rintro ⟨⟨h1, h2⟩, h3⟩ c (⟨v, hv, rfl⟩ | ⟨c, hc, rfl⟩ | rfl)
    · have := h1 v hv
      simp only [LinearMap.neg_apply, sumFunctional_apply]
      simpa using this
    · simp only [sumFunctional_apply, one_mul]
      exact h2 c hc
    · simp only [LinearMap.sub_apply, LinearMap.snd_apply, sumFunctional_apply]
      exact sub_nonpos.mpr h3
  · intro h
    refine ⟨⟨fun v hv => ?_, fun c hc => ?_⟩, ?_⟩
    · have := h _ (Or.inl ⟨v, hv, rfl⟩)
      simp only [LinearMap.neg_apply, sumFunctional_apply] at this
      simpa using this
    · have := h _ (Or.inr (Or.inl ⟨c, hc, rfl⟩))
      simpa only [sumFunctional_apply, one_mul] using this
    · have := h _ (Or.inr (Or.inr rfl))
      simp only [LinearMap.sub_apply, LinearMap.snd_apply, sumFunctional_apply] at this
      exact sub_nonpos.mp this

/-- Unit vector of a variable. -/
def dirOf (v : ℕ × ℕ) : (ℕ × ℕ → ℚ) × ℚ := (Pi.single v 1, 0)

theorem elimList_vars (P : (ℕ × ℕ → ℚ) × ℚ → Prop) (vs : List (ℕ × ℕ)) (x : (ℕ × ℕ → ℚ) × ℚ) :
    ElimList P (vs.map dirOf) x ↔ ∃ q : ℕ × ℕ → ℚ, (∀ v, v ∉ vs → q v = 0) ∧ P (x + (q, 0)) := by
  induction vs generalizing x with
  | nil =>
    constructor
    · intro h
      refine ⟨0, fun _ _ => rfl, ?_⟩
      have : x + ((0 : ℕ × ℕ → ℚ), (0 : ℚ)) = x := add_zero x
      rw [this]; exact h
    · rintro ⟨q, h1, h2⟩
      have : q = 0 := funext fun v => h1 v (by simp)
      subst this
      have : x + ((0 : ℕ × ℕ → ℚ), (0 : ℚ)) = x := add_zero x
      rw [this] at h2; exact h2
  | cons v vs ih =>
    simp only [List.map_cons, ElimList, ih]
    constructor
    · rintro ⟨t, q, h1, h2⟩
      refine ⟨t • Pi.single v 1 + q, ?_, ?_⟩
      · intro w hw
        simp only [List.mem_cons, not_or] at hw
        simp [Pi.single_eq_of_ne hw.1, h1 w hw.2]
      · have : x + (t • Pi.single v 1 + q, (0 : ℚ)) = x + t • dirOf v + (q, 0) := by
          unfold dirOf
          ext <;> simp [add_assoc]
        rw [this]; exact h2
    · rintro ⟨q, h1, h2⟩
      refine ⟨q v, q - q v • Pi.single v 1, ?_, ?_⟩
      · intro w hw
        by_cases hwv : w = v
        · subst hwv; simp
        · simp [Pi.single_eq_of_ne hwv, h1 w (by simp [hw, hwv])]
      · have : x + q v • dirOf v + (q - q v • Pi.single v 1, (0 : ℚ)) = x + (q, 0) := by
          unfold dirOf
          ext <;> simp
        rw [this]; exact h2

/-- A feasible program whose objective is bounded has an optimal value. -/
theorem exists_optimum (lp : LP) (hsub : ∀ c ∈ lp.constraints, ∀ v ∈ c.1, v ∈ lp.vars)
    (hf : ∃ q, Feasible lp q) (hb : ∃ M, ∀ q, Feasible lp q → objective lp q ≤ M) :
    ∃ x, IsOptimum lp x := by
  have hrestrict : ∀ q, Feasible lp q →
      Feasible lp (fun v => if v ∈ lp.vars then q v else 0) ∧
      objective lp (fun v => if v ∈ lp.vars then q v else 0) = objective lp q := by
    intro q hq
    refine ⟨⟨fun v hv => by simp only [if_pos hv]; exact hq.1 v hv, fun c hc => ?_⟩, ?_⟩
    · have : c.1.map (fun v => if v ∈ lp.vars then q v else 0) = c.1.map q :=
        List.map_congr_left fun v hv => if_pos (hsub c hc v hv)
      rw [this]
      exact hq.2 c hc
    · unfold objective
      congr 1
      exact List.map_congr_left fun v hv => by simp only [if_pos hv]
  have hset : ∀ y : ℚ, ElimList (fun x : (ℕ × ℕ → ℚ) × ℚ => Feasible lp x.1 ∧
      x.2 ≤ objective lp x.1) (lp.vars.map dirOf) (y • ((0 : ℕ × ℕ → ℚ), (1 : ℚ))) ↔
      ∃ q, Feasible lp q ∧ y ≤ objective lp q := by
    intro y
    rw [elimList_vars]
    have e : ∀ q : ℕ × ℕ → ℚ, y • ((0 : ℕ × ℕ → ℚ), (1 : ℚ)) + (q, 0) = (q, y) := by
      intro q; ext <;> simp
    constructor
    · rintro ⟨q, _, h⟩
      rw [e] at h
      exact ⟨q, h⟩
    · rintro ⟨q, h1, h2⟩
      obtain ⟨r1, r2⟩ := hrestrict q h1
      refine ⟨fun v => if v ∈ lp.vars then q v else 0, fun v hv => if_neg hv, ?_⟩
      rw [e]
      exact ⟨r1, by rw [r2]; exact h2⟩
  obtain ⟨m, hm1, hm2⟩ := ((feasible_isPoly lp).elimList (lp.vars.map dirOf)).exists_max
    ((0 : ℕ × ℕ → ℚ), (1 : ℚ)) (by
      obtain ⟨q, hq⟩ := hf
      exact ⟨objective lp q, (hset _).mpr ⟨q, hq, le_refl _⟩⟩) (by
      obtain ⟨M, hM⟩ := hb
      refine ⟨M, fun y hy => ?_⟩
      obtain ⟨q, hq, h⟩ := (hset y).mp hy
      exact h.trans (hM q hq))
  have hup : ∀ q, Feasible lp q → objective lp q ≤ m :=
    fun q hq => hm2 ((hset _).mpr ⟨q, hq, le_refl _⟩)
  obtain ⟨q, hq, h⟩ := (hset m).mp hm1
  refine ⟨m, ⟨q, hq, le_antisymm h (hup q hq)⟩, ?_⟩
  rintro y ⟨q, hq, rfl⟩
  exact hup q hq

/-! ## The programs are about trade plans -/

theorem sum_filter_map {α : Type} (l : List α) (p : α → Bool) (f : α → ℚ) :
    ((l.filter p).map f).sum = (l.map (fun x => if p x then f x else 0)).sum := by
  induction l with
  | nil => rfl
  | cons a l ih =>
    cases h : p a <;> simp [h, ih]

theorem buyerIds_eq {df : DF} (ht : IsTable df) :
    buyerIds df = (List.range df.length).filter (isBuy df) := by
  have h : List.range df.length = df.map (fun r => r.label) := ht.symm
  rw [h, List.filter_map]
  unfold buyerIds buys
  congr 1
  apply List.filter_congr
  intro r hr
  exact (ht.isBuy_eq hr).symm

theorem sellerIds_eq {df : DF} (ht : IsTable df) :
    sellerIds df = (List.range df.length).filter (isSell df) := by
  have h : List.range df.length = df.map (fun r => r.label) := ht.symm
  rw [h, List.filter_map]
  unfold sellerIds sells
  congr 1
  apply List.filter_congr
  intro r hr
  exact (ht.isSell_eq hr).symm

/-- The common form of the two programs: trade between the pairs accepted by `ok`. -/
def tradeLP (df : DF) (ok : ℕ → ℕ → Bool) (coeff : ℕ × ℕ → ℚ) : LP :=
  { vars := (buyerIds df).flatMap (fun i => ((sellerIds df).filter (ok i)).map (fun j => (i, j)))
    coeff := coeff
    constraints :=
      (buyerIds df).map (fun b => (((sellerIds df).filter (ok b)).map (fun j => (b, j)),
        qtyOf df b)) ++
      (sellerIds df).map (fun s => (((buyerIds df).filter (fun i => ok i s)).map (fun i => (i, s)),
        qtyOf df s)) }

theorem utilityLP_eq (df : DF) (res : ResPrices) :
    utilityLP df res = tradeLP df (fun _ _ => true)
      (fun x => (fillRes res df x.1).getD 0 - (fillRes res df x.2).getD 0) := by
  unfold utilityLP tradeLP
  have : ∀ l : List ℕ, l.filter (fun _ => true) = l := fun l => List.filter_eq_self.mpr (by simp)
  simp only [this, valueAt_qty]

theorem mem_pairs {I J : List ℕ} {i j : ℕ} :
    (i, j) ∈ I.flatMap (fun i => J.map (fun j => (i, j))) ↔ i ∈ I ∧ j ∈ J := by
  simp only [List.mem_flatMap, List.mem_map, Prod.mk.injEq]
  constructor
  · rintro ⟨a, ha, b, hb, rfl, rfl⟩; exact ⟨ha, hb⟩
  · rintro ⟨h1, h2⟩; exact ⟨i, h1, j, h2, rfl, rfl⟩

theorem volumeLP_eq (df : DF) :
    volumeLP df = tradeLP df (fun i j => decide (priceOf df j ≤ priceOf df i)) (fun _ => 1) := by
  unfold volumeLP tradeLP
  simp only [valueAt_qty, valueAt_price, LP.mk.injEq, true_and]
  refine ⟨?_, ?_⟩
  · rw [List.filter_flatMap]
    simp only [List.filter_map]
    rfl
  · congr 1
    · apply List.map_congr_left
      intro b hb
      congr 2
      apply List.filter_congr
      intro j hj
      apply decide_eq_decide.mpr
      rw [List.mem_filter, mem_pairs]
      simp only [hb, hj, and_self, true_and]
      exact decide_eq_true_iff
    · apply List.map_congr_left
      intro s hs
      congr 2
      apply List.filter_congr
      intro j hj
      apply decide_eq_decide.mpr
      rw [List.mem_filter, mem_pairs]
      simp only [hs, hj, and_self, true_and]
      exact decide_eq_true_iff

/-- Sum over all pairs of positions. -/
def sum2 (n : ℕ) (f : ℕ → ℕ → ℚ) : ℚ :=
  ((List.range n).map (fun i => ((List.range n).map (fun j => f i j)).sum)).sum

theorem sum_flatMap_list {α : Type} (l : List α) (f : α → List ℚ) :
    (l.flatMap f).sum = (l.map (fun a => (f a).sum)).sum := by
  induction l with
  | nil => rfl
  | cons a l ih => rw [List.flatMap_cons, List.sum_append, ih, List.map_cons, List.sum_cons]

theorem tradeLP_objective {df : DF} (ht : IsTable df) (ok : ℕ → ℕ → Bool) (coeff q : ℕ × ℕ → ℚ) :
    objective (tradeLP df ok coeff) q = sum2 df.length (fun i j =>
      if isBuy df i = true ∧ isSell df j = true ∧ ok i j = true then coeff (i, j) * q (i, j)
      else 0) := by
  unfold objective tradeLP sum2
  simp only
  rw [List.map_flatMap, sum_flatMap_list, buyerIds_eq ht, sum_filter_map]
  congr 1
  apply List.map_congr_left
  intro i _
  rw [sellerIds_eq ht, List.map_map, List.filter_filter, sum_filter_map]
  cases hb : isBuy df i
  · simp
  · simp only [if_true, Function.comp, true_and]
    congr 1
    apply List.map_congr_left
    intro j _
    cases isSell df j <;> cases ok i j <;> simp

theorem tradeLP_vars {df : DF} (ht : IsTable df) {ok : ℕ → ℕ → Bool} {coeff : ℕ × ℕ → ℚ}
    {i j : ℕ} : (i, j) ∈ (tradeLP df ok coeff).vars ↔
      i < df.length ∧ j < df.length ∧ isBuy df i = true ∧ isSell df j = true ∧ ok i j = true := by
  unfold tradeLP
  simp only [List.mem_flatMap, List.mem_map, List.mem_filter, buyerIds_eq ht, sellerIds_eq ht,
    List.mem_range, Prod.mk.injEq]
  constructor
  · rintro ⟨a, ⟨h1, h2⟩, b, ⟨⟨h3, h4⟩, h5⟩, rfl, rfl⟩; exact ⟨h1, h3, h2, h4, h5⟩
  · rintro ⟨h1, h3, h2, h4, h5⟩; exact ⟨i, ⟨h1, h2⟩, j, ⟨⟨h3, h4⟩, h5⟩, rfl, rfl⟩

theorem isBuy_lt {df : DF} {i : ℕ} (h : isBuy df i = true) : i < df.length := by
  by_contra hc
  unfold isBuy at h
  rw [List.getElem?_eq_none (not_lt.mp hc)] at h
  cases h

theorem isSell_lt {df : DF} {i : ℕ} (h : isSell df i = true) : i < df.length := by
  by_contra hc
  unfold isSell at h
  rw [List.getElem?_eq_none (not_lt.mp hc)] at h
  cases h

/-- A feasible point, read as a trade plan. -/
def planOf (df : DF) (ok : ℕ → ℕ → Bool) (q : ℕ × ℕ → ℚ) (i j : ℕ) : ℚ :=
  if isBuy df i = true ∧ isSell df j = true ∧ ok i j = true then q (i, j) else 0

theorem buyer_row {df : DF} (ht : IsTable df) (ok : ℕ → ℕ → Bool) (q : ℕ × ℕ → ℚ) {i : ℕ}
    (hi : isBuy df i = true) :
    ((((sellerIds df).filter (ok i)).map (fun j => (i, j))).map q).sum =
      ((List.range df.length).map (planOf df ok q i)).sum := by
  rw [sellerIds_eq ht, List.map_map, List.filter_filter, sum_filter_map]
  congr 1
  apply List.map_congr_left
  intro j _
  unfold planOf
  cases hj : isSell df j <;> cases ho : ok i j <;> simp [hi]

theorem seller_col {df : DF} (ht : IsTable df) (ok : ℕ → ℕ → Bool) (q : ℕ × ℕ → ℚ) {j : ℕ}
    (hj : isSell df j = true) :
    ((((buyerIds df).filter (fun i => ok i j)).map (fun i => (i, j))).map q).sum =
      ((List.range df.length).map (fun i => planOf df ok q i j)).sum := by
  rw [buyerIds_eq ht, List.map_map, List.filter_filter, sum_filter_map]
  congr 1
  apply List.map_congr_left
  intro i _
  unfold planOf
  cases hi : isBuy df i <;> cases ho : ok i j <;> simp [hj]

theorem sum_zero_of {l : List ℕ} {f : ℕ → ℚ} (h : ∀ x ∈ l, f x = 0) : (l.map f).sum = 0 := by
  apply List.sum_eq_zero
  intro y hy
  obtain ⟨x, hx, rfl⟩ := List.mem_map.mp hy
  exact h x hx

theorem qtyOf_nonneg' {df : DF} (hq : ∀ r ∈ df, 0 ≤ r.quantity) (i : ℕ) : 0 ≤ qtyOf df i := by
  unfold qtyOf
  cases hi : df[i]? with
  | none => exact le_refl _
  | some r => exact hq r (List.mem_of_getElem? hi)

/-- Feasible points of the program are the trade plans between accepted pairs. -/
theorem tradeLP_feasible {df : DF} (ht : IsTable df) (hq : ∀ r ∈ df, 0 ≤ r.quantity)
    (ok : ℕ → ℕ → Bool) (coeff q : ℕ × ℕ → ℚ) :
    Feasible (tradeLP df ok coeff) q ↔ TradePlan df (planOf df ok q) := by
  constructor
  · rintro ⟨h1, h2⟩
    refine ⟨?_, ?_, ?_, ?_⟩
    · intro i j
      unfold planOf
      split
      · rename_i h
        exact h1 _ ((tradeLP_vars ht).mpr ⟨isBuy_lt h.1, isSell_lt h.2.1, h⟩)
      · exact le_refl _
    · intro i j h
      unfold planOf at h
      split at h
      · rename_i h'; exact ⟨h'.1, h'.2.1⟩
      · exact absurd rfl h
    · intro i
      by_cases hi : isBuy df i = true
      · have := h2 _ (List.mem_append_left _ (List.mem_map.mpr ⟨i, by
          rw [buyerIds_eq ht]; exact List.mem_filter.mpr ⟨List.mem_range.mpr (isBuy_lt hi), hi⟩, rfl⟩))
        rw [buyer_row ht ok q hi] at this
        exact this
      · have : ((List.range df.length).map (fun j => planOf df ok q i j)).sum = 0 :=
          sum_zero_of fun j _ => if_neg (fun h => hi h.1)
        rw [this]
        exact qtyOf_nonneg' hq i
    · intro j
      by_cases hj : isSell df j = true
      · have := h2 _ (List.mem_append_right _ (List.mem_map.mpr ⟨j, by
          rw [sellerIds_eq ht]
          exact List.mem_filter.mpr ⟨List.mem_range.mpr (isSell_lt hj), hj⟩, rfl⟩))
        rw [seller_col ht ok q hj] at this
        exact this
      · have : ((List.range df.length).map (fun i => planOf df ok q i j)).sum = 0 :=
          sum_zero_of fun i _ => if_neg (fun h => hj h.2.1)
        rw [this]
        exact qtyOf_nonneg' hq j
  · intro hp
    refine ⟨?_, ?_⟩
    · rintro ⟨i, j⟩ hv
      obtain ⟨_, _, h⟩ := (tradeLP_vars ht).mp hv
      have := hp.nonneg i j
      unfold planOf at this
      rwa [if_pos h] at this
    · intro c hc
      rcases List.mem_append.mp hc with hc | hc
      · obtain ⟨i, hi, rfl⟩ := List.mem_map.mp hc
        rw [buyerIds_eq ht] at hi
        simp only
        rw [buyer_row ht ok q (List.mem_filter.mp hi).2]
        exact hp.buyer i
      · obtain ⟨j, hj, rfl⟩ := List.mem_map.mp hc
        rw [sellerIds_eq ht] at hj
        simp only
        rw [seller_col ht ok q (List.mem_filter.mp hj).2]
        exact hp.seller j

theorem planOf_plan {df : DF} {q : ℕ → ℕ → ℚ} (hp : TradePlan df q) {ok : ℕ → ℕ → Bool}
    (hok : ∀ i j, q i j ≠ 0 → ok i j = true) : planOf df ok (fun v => q v.1 v.2) = q := by
  funext i j
  unfold planOf
  split
  · rfl
  · rename_i h
    by_contra hc
    have hne : q i j ≠ 0 := fun h0 => hc h0.symm
    exact h ⟨(hp.pair i j hne).1, (hp.pair i j hne).2, hok i j hne⟩

theorem tradeLP_objective' {df : DF} (ht : IsTable df) (ok : ℕ → ℕ → Bool) (coeff q : ℕ × ℕ → ℚ) :
    objective (tradeLP df ok coeff) q =
      sum2 df.length (fun i j => coeff (i, j) * planOf df ok q i j) := by
  rw [tradeLP_objective ht]
  congr 1
  funext i j
  unfold planOf
  split <;> simp

/-- The optimal value of the program is the best value of a trade plan between accepted pairs. -/
theorem tradeLP_values {df : DF} (ht : IsTable df) (hq : ∀ r ∈ df, 0 ≤ r.quantity)
    (ok : ℕ → ℕ → Bool) (coeff : ℕ × ℕ → ℚ) :
    {y | ∃ q, Feasible (tradeLP df ok coeff) q ∧ y = objective (tradeLP df ok coeff) q} =
    {y | ∃ q, TradePlan df q ∧ (∀ i j, q i j ≠ 0 → ok i j = true) ∧
      y = sum2 df.length (fun i j => coeff (i, j) * q i j)} := by
  apply Set.ext
  intro y
  constructor
  · rintro ⟨q, h1, rfl⟩
    refine ⟨_, (tradeLP_feasible ht hq ok coeff q).mp h1, ?_, tradeLP_objective' ht ok coeff q⟩
    intro i j h
    unfold planOf at h
    split at h
    · rename_i h'; exact h'.2.2
    · exact absurd rfl h
  · rintro ⟨q, h1, h2, rfl⟩
    refine ⟨fun v => q v.1 v.2, (tradeLP_feasible ht hq ok coeff _).mpr ?_, ?_⟩
    · rw [planOf_plan h1 h2]; exact h1
    · rw [tradeLP_objective', planOf_plan h1 h2]; exact ht

theorem plan_le {df : DF} {q : ℕ → ℕ → ℚ} (hp : TradePlan df q) (i j : ℕ) :
    q i j ≤ qtyOf df i := by
  by_cases h : q i j = 0
  · rw [h]
    refine le_trans ?_ (hp.buyer i)
    apply List.sum_nonneg
    intro x hx
    obtain ⟨j, _, rfl⟩ := List.mem_map.mp hx
    exact hp.nonneg i j
  · refine le_trans ?_ (hp.buyer i)
    apply List.single_le_sum
    · intro x hx
      obtain ⟨j, _, rfl⟩ := List.mem_map.mp hx
      exact hp.nonneg i j
    · exact List.mem_map.mpr ⟨j, List.mem_range.mpr (isSell_lt (hp.pair i j h).2), rfl⟩

theorem sum2_le {n : ℕ} {f g : ℕ → ℕ → ℚ} (h : ∀ i j, f i j ≤ g i j) : sum2 n f ≤ sum2 n g := by
  unfold sum2
  apply List.sum_le_sum
  intro i _
  apply List.sum_le_sum
  intro j _
  exact h i j

theorem sum2_zero (n : ℕ) : sum2 n (fun _ _ => 0) = 0 := by
  unfold sum2
  simp

/-- The program has an optimal value, and it is not negative. -/
theorem tradeLP_optimum {df : DF} (ht : IsTable df) (hq : ∀ r ∈ df, 0 ≤ r.quantity)
    (ok : ℕ → ℕ → Bool) (coeff : ℕ × ℕ → ℚ) :
    (∃ x, IsOptimum (tradeLP df ok coeff) x) ∧
    ∀ x, IsOptimum (tradeLP df ok coeff) x → 0 ≤ x := by
  have h0 : TradePlan df (fun _ _ => 0) := by
    refine ⟨fun _ _ => le_refl _, fun i j h => absurd rfl h, fun i => ?_, fun j => ?_⟩ <;>
    · simp only [List.map_const', List.sum_replicate, smul_zero]
      exact qtyOf_nonneg' hq _
  have hz : (0 : ℚ) ∈ {y | ∃ q, Feasible (tradeLP df ok coeff) q ∧
      y = objective (tradeLP df ok coeff) q} := by
    rw [tradeLP_values ht hq]
    refine ⟨_, h0, fun i j h => absurd rfl h, ?_⟩
    simp only [mul_zero]
    rw [sum2_zero]
  refine ⟨?_, fun x hx => hx.2 hz⟩
  apply exists_optimum
  · intro c hc v hv
    rcases List.mem_append.mp hc with hc | hc
    · obtain ⟨i, hi, rfl⟩ := List.mem_map.mp hc
      obtain ⟨j, hj, rfl⟩ := List.mem_map.mp hv
      obtain ⟨j1, j2⟩ := List.mem_filter.mp hj
      rw [buyerIds_eq ht] at hi
      rw [sellerIds_eq ht] at j1
      obtain ⟨i1, i2⟩ := List.mem_filter.mp hi
      obtain ⟨j3, j4⟩ := List.mem_filter.mp j1
      exact (tradeLP_vars ht).mpr ⟨List.mem_range.mp i1, List.mem_range.mp j3, i2, j4, j2⟩
    · obtain ⟨j, hj, rfl⟩ := List.mem_map.mp hc
      obtain ⟨i, hi, rfl⟩ := List.mem_map.mp hv
      obtain ⟨j1, j2⟩ := List.mem_filter.mp hi
      rw [sellerIds_eq ht] at hj
      rw [buyerIds_eq ht] at j1
      obtain ⟨i1, i2⟩ := List.mem_filter.mp hj
      obtain ⟨j3, j4⟩ := List.mem_filter.mp j1
      exact (tradeLP_vars ht).mpr ⟨List.mem_range.mp j3, List.mem_range.mp i1, j4, i2, j2⟩
  · obtain ⟨q, h, _⟩ := hz
    exact ⟨q, h⟩
  · refine ⟨sum2 df.length (fun i j => |coeff (i, j)| * qtyOf df i), fun q h => ?_⟩
    have hp := (tradeLP_feasible ht hq ok coeff q).mp h
    rw [tradeLP_objective' ht]
    apply sum2_le
    intro i j
    calc coeff (i, j) * planOf df ok q i j ≤ |coeff (i, j)| * planOf df ok q i j :=
          mul_le_mul_of_nonneg_right (le_abs_self _) (hp.nonneg i j)
      _ ≤ |coeff (i, j)| * qtyOf df i := mul_le_mul_of_nonneg_left (plan_le hp i j) (abs_nonneg _)

theorem fillRes_value {df : DF} (ht : IsTable df) (res : ResPrices) (i : ℕ) :
    (fillRes res df i).getD 0 = valueOf df res i := by
  rw [fillRes_get res df ht.nodup]
  unfold valueOf
  cases hr : res i with
  | some v => rfl
  | none =>
    simp only [Option.getD_none]
    cases hi : df[i]? with
    | none =>
      have : df.find? (fun r => r.label == i) = none := by
        rw [List.find?_eq_none]
        intro r hr' hl
        have := ht.get_label hr'
        rw [beq_iff_eq.mp hl, hi] at this
        cases this
      rw [this]
      unfold priceOf
      rw [hi]
    | some r =>
      have hr' := List.mem_of_getElem? hi
      have hl := ht.label hi
      have : df.find? (fun r => r.label == i) = some r := by
        cases hf : df.find? (fun r => r.label == i) with
        | none =>
          rw [List.find?_eq_none] at hf
          exact absurd (by simp [hl]) (hf r hr')
        | some r' =>
          have h1 := List.find?_some hf
          have h2 := List.mem_of_find?_eq_some hf
          rw [ht.inj h2 hr' ((beq_iff_eq.mp h1).trans hl.symm)]
      rw [this]
      unfold priceOf
      rw [hi]

end PyMarket
