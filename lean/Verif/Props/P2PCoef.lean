import Verif.Props.Statistics

/-! # C91: the price coefficient of peer to peer trading -/

set_option autoImplicit false

namespace PyMarket

open Spec

theorem tradeRound_coef (π : ℕ → ℚ) (c c' : ℚ) (q : ℕ → ℚ) (M : List (ℕ × ℕ)) :
    (tradeRound π c q M).1 = (tradeRound π c' q M).1 := by
  induction M generalizing q with
  | nil => rfl
  | cons p M ih =>
    have : (tradeOne π c q p).1 = (tradeOne π c' q p).1 := by
      unfold tradeOne
      simp only
      split <;> rfl
    simp only [tradeRound, this]
    exact ih _

theorem p2pLoop_coef (df : DF) (π : ℕ → ℚ) (c c' : ℚ) (choice : ℕ → ℕ) (n : ℕ) (q : ℕ → ℚ)
    (active : List (ℕ × ℕ)) (inactive : List ℕ) :
    (p2pLoop df π c choice n q active inactive).1 = (p2pLoop df π c' choice n q active inactive).1 := by
  fun_induction p2pLoop df π c choice n q active inactive with
  | case1 n q active inactive tmp hcond m t rest ih =>
    rw [p2pLoop, dif_pos hcond]
    simp only [rest, ih]
    have e : t.1 = (tradeRound π c' q m.2.2).1 := tradeRound_coef π c c' q m.2.2
    rw [e]
  | case2 n q active inactive tmp hcond =>
    rw [p2pLoop, dif_neg hcond]

/-- `t` records the same meeting as `t₀` and `t₁`, at the price that is a fraction `c` of the way from
the price of `t₀` to that of `t₁`. -/
def Spec.SameMeeting (c : ℚ) (t t₀ t₁ : Transaction) : Prop :=
  t.bid = t₀.bid ∧ t.quantity = t₀.quantity ∧ t.source = t₀.source ∧ t.active = t₀.active ∧
  t.bid = t₁.bid ∧ t.quantity = t₁.quantity ∧ t.source = t₁.source ∧ t.active = t₁.active ∧
  t.price = c * t₁.price + (1 - c) * t₀.price

theorem tradeRound_between (π : ℕ → ℚ) (c c₀ c₁ a : ℚ) (hc : c = a * c₁ + (1 - a) * c₀) (q : ℕ → ℚ)
    (M : List (ℕ × ℕ)) (k : ℕ) (t : Transaction) (h : (tradeRound π c q M).2[k]? = some t) :
    ∃ t₀ t₁, (tradeRound π c₀ q M).2[k]? = some t₀ ∧ (tradeRound π c₁ q M).2[k]? = some t₁ ∧
      SameMeeting a t t₀ t₁ ∧ (c₀ ≤ c₁ → t₀.price ≤ t₁.price) := by
  induction M generalizing q k with
  | nil => simp [tradeRound] at h
  | cons p M ih =>
    simp only [tradeRound] at h ⊢
    rw [List.getElem?_append, tradeOne_length] at h
    simp only [List.getElem?_append, tradeOne_length]
    by_cases hk : k < 2
    · rw [if_pos hk] at h
      simp only [if_pos hk]
      rw [tradeOne_entries] at h ⊢
      rw [tradeOne_entries]
      by_cases hp : π p.2 ≤ π p.1
      · simp only [if_pos hp] at h ⊢
        rcases (by omega : k = 0 ∨ k = 1) with rfl | rfl
        · simp only [List.getElem?_cons_zero, Option.some.injEq] at h ⊢
          subst h
          refine ⟨_, _, rfl, rfl, ⟨rfl, rfl, rfl, rfl, rfl, rfl, rfl, rfl, ?_⟩, fun h01 => ?_⟩
          · simp only [hc]; ring
          · simp only; nlinarith
        · simp only [List.getElem?_cons_succ, List.getElem?_cons_zero, Option.some.injEq] at h ⊢
          subst h
          refine ⟨_, _, rfl, rfl, ⟨rfl, rfl, rfl, rfl, rfl, rfl, rfl, rfl, ?_⟩, fun h01 => ?_⟩
          · simp only [hc]; ring
          · simp only; nlinarith
      · simp only [if_neg hp] at h ⊢
        rcases (by omega : k = 0 ∨ k = 1) with rfl | rfl
        · simp only [List.getElem?_cons_zero, Option.some.injEq] at h ⊢
          subst h
          refine ⟨_, _, rfl, rfl, ⟨rfl, rfl, rfl, rfl, rfl, rfl, rfl, rfl, ?_⟩, fun _ => le_refl _⟩
          simp
        · simp only [List.getElem?_cons_succ, List.getElem?_cons_zero, Option.some.injEq] at h ⊢
          subst h
          refine ⟨_, _, rfl, rfl, ⟨rfl, rfl, rfl, rfl, rfl, rfl, rfl, rfl, ?_⟩, fun _ => le_refl _⟩
          simp
    · rw [if_neg hk] at h
      simp only [if_neg hk]
      have e : ∀ c', (tradeOne π c q p).1 = (tradeOne π c' q p).1 := by
        intro c'
        unfold tradeOne
        simp only
        split <;> rfl
      rw [← e c₀, ← e c₁]
      exact ih _ _ h

/-- **C91.** For the same draws the price coefficient changes neither who meets nor what is traded:
the runs with the coefficients `c₀`, `c₁` and any `c = a·c₁ + (1 − a)·c₀` have the same rounds and
logs of the same length, in which corresponding entries agree in bid, quantity, counterparty and
activity, and the price for `c` is the same mixture of the other two prices; no price falls when the coefficient
rises. -/
theorem C91_coefficient (c c₀ c₁ a : ℚ) (hc : c = a * c₁ + (1 - a) * c₀) (choice : ℕ → ℕ) (df : DF)
    (ht : IsTable df) :
    ∃ tm tm₀ tm₁ R, p2pRandom c choice df = .ok (tm, .p2p R) ∧
      p2pRandom c₀ choice df = .ok (tm₀, .p2p R) ∧ p2pRandom c₁ choice df = .ok (tm₁, .p2p R) ∧
      tm₀.trans.length = tm.trans.length ∧ tm₁.trans.length = tm.trans.length ∧
      ∀ (k : ℕ) t, tm.trans[k]? = some t → ∃ t₀ t₁,
        tm₀.trans[k]? = some t₀ ∧ tm₁.trans[k]? = some t₁ ∧ SameMeeting a t t₀ t₁ ∧
        (c₀ ≤ c₁ → t₀.price ≤ t₁.price) := by
  obtain ⟨tm, R, h, hR⟩ := p2p_run c choice df ht
  obtain ⟨tm₀, R₀, h₀, hR₀⟩ := p2p_run c₀ choice df ht
  obtain ⟨tm₁, R₁, h₁, hR₁⟩ := p2p_run c₁ choice df ht
  have e₀ : R₀ = R := by
    have := p2pLoop_coef df (valueAt df (fun r => r.price)) c₀ c choice 0
      (valueAt df (fun r => r.quantity)) (allPairs df) []
    simp only [p2pRandom, Except.ok.injEq, Prod.mk.injEq, Extra.p2p.injEq] at h h₀
    rw [← h₀.2, ← h.2, this]
  have e₁ : R₁ = R := by
    have := p2pLoop_coef df (valueAt df (fun r => r.price)) c₁ c choice 0
      (valueAt df (fun r => r.quantity)) (allPairs df) []
    simp only [p2pRandom, Except.ok.injEq, Prod.mk.injEq, Extra.p2p.injEq] at h h₁
    rw [← h₁.2, ← h.2, this]
  subst e₀
  subst e₁
  refine ⟨tm, tm₀, tm₁, _, h, h₀, h₁, ?_, ?_, ?_⟩
  · rw [hR₀.loop.trans, hR.loop.trans, tradeRound_length, tradeRound_length]
  · rw [hR₁.loop.trans, hR.loop.trans, tradeRound_length, tradeRound_length]
  · intro k t hk
    rw [hR.loop.trans] at hk
    rw [hR₀.loop.trans, hR₁.loop.trans]
    exact tradeRound_between _ _ _ _ _ hc _ _ _ _ hk

/-- **C91, statistics.** So the share of the best volume and the share of the best welfare do not
depend on the price coefficient, whatever the solver returns. -/
theorem C91_statistics (c c' : ℚ) (choice : ℕ → ℕ) (df : DF) (ht : IsTable df) (hq : ∀ r ∈ df, 0 ≤ r.quantity)
    (solve : Solver) (res res' : Option ResPrices) :
    ∃ tm tm' R, p2pRandom c choice df = .ok (tm, .p2p R) ∧ p2pRandom c' choice df = .ok (tm', .p2p R) ∧
      percentageTraded solve df tm'.trans = percentageTraded solve df tm.trans ∧
      percentageWelfare solve df tm'.trans res' = percentageWelfare solve df tm.trans res := by
  obtain ⟨tm, tm', _, R, h, h', _, hl, _, hk⟩ := C91_coefficient c c' c 1 (by ring) choice df ht
  refine ⟨tm, tm', R, h, h', ?_⟩
  have hmap : tm'.trans.map (fun t => (t.bid, t.quantity)) = tm.trans.map (fun t => (t.bid, t.quantity)) := by
    apply List.ext_getElem?
    intro k
    rw [List.getElem?_map, List.getElem?_map]
    cases e : tm.trans[k]? with
    | none =>
      rw [List.getElem?_eq_none_iff] at e
      rw [List.getElem?_eq_none_iff.mpr (hl ▸ e)]
    | some t =>
      obtain ⟨t₀, _, h0, _, hb, _⟩ := hk k t e
      rw [h0]
      simp only [Option.map_some, hb.1, hb.2.1]
  have hsum : ∀ (P : ℕ → Bool) (f : ℕ → ℚ),
      ((tm'.trans.filter (fun t => P t.bid)).map (fun t => t.quantity * f t.bid)).sum =
      ((tm.trans.filter (fun t => P t.bid)).map (fun t => t.quantity * f t.bid)).sum := by
    intro P f
    have : ∀ l : List Transaction, (l.filter (fun t => P t.bid)).map (fun t => t.quantity * f t.bid) =
        ((l.map (fun t => (t.bid, t.quantity))).filter (fun p => P p.1)).map (fun p => p.2 * f p.1) := by
      intro l
      rw [List.filter_map, List.map_map]
      rfl
    rw [this, this, hmap]
  constructor
  · have : ∀ l : List Transaction, l.map (fun t => t.quantity) =
        (l.map (fun t => (t.bid, t.quantity))).map Prod.snd := by
      intro l; rw [List.map_map]; rfl
    unfold percentageTraded
    rw [this, this, hmap]
  · unfold percentageWelfare
    simp only
    rw [welfare_eq ht, welfare_eq ht, (settled_p2p ht hq h).2, (settled_p2p ht hq h').2]
    have hB : boughtValue df (priceOf df) tm'.trans = boughtValue df (priceOf df) tm.trans :=
      hsum (isBuy df) (priceOf df)
    have hS : soldValue df (priceOf df) tm'.trans = soldValue df (priceOf df) tm.trans :=
      hsum (isSell df) (priceOf df)
    rw [hB, hS]
    have e : ∀ a b x y : ℚ, (a - x) + (x - b) = (a - y) + (y - b) := fun a b x y => by ring
    rw [e _ _ _ (received df tm.trans)]

/-- A book in which the coefficient matters: the buyer at 5 meets the sellers at 1 and 2. -/
def coefBook : DF := labelFrom 0 [⟨3, 5, 0, true, 0, true⟩, ⟨1, 1, 1, false, 0, true⟩,
  ⟨1, 2, 2, false, 0, true⟩, ⟨1, 9, 3, false, 0, true⟩]

example : IsTable coefBook ∧ NonNeg coefBook ∧ (1/4 : ℚ) = 1/4 * 1 + (1 - 1/4) * 0 ∧
    (p2pRandom (1/4) (fun _ => 0) coefBook).toOption.map (fun r => r.1.trans.map (fun t => (t.quantity, t.price))) =
      some [(1, 2), (1, 2), (1, 11/4), (1, 11/4), (0, 0), (0, 0)] ∧
    (p2pRandom 0 (fun _ => 0) coefBook).toOption.map (fun r => r.1.trans.map (fun t => (t.quantity, t.price))) =
      some [(1, 1), (1, 1), (1, 2), (1, 2), (0, 0), (0, 0)] :=
  ⟨isTable_labelFrom _, by unfold NonNeg; decide +kernel, by norm_num, by decide +kernel, by decide +kernel⟩

end PyMarket
