import Verif.Props.MudaTruthful

/-! # C76: reporting the truth to MUDA with several bids

C33 is about users with one bid. A user with several bids can gain by misreporting when the coins send
the bids to different halves (`C33_several_bids`), or when they are on both sides of the market
(`C76_two_sides`). When all bids of the user are on one side and in one half, the truth is optimal. -/

set_option autoImplicit false

namespace PyMarket

open Spec

/-- `df'` is `df` with other prices and quantities reported for the bids of user `u`. -/
def Spec.Reports (u : ℤ) (df df' : DF) : Prop :=
  List.Forall₂ (fun a a' => a' = a ∨
    (a.user = u ∧ a'.user = u ∧ a'.label = a.label ∧ a'.buying = a.buying)) df df'

/-- `a` distributes the quantity `q` over the bids of user `u`. -/
structure Spec.Distributes (df : DF) (u : ℤ) (q : ℚ) (a : ℕ → ℚ) : Prop where
  bound : ∀ r ∈ df, r.user = u → 0 ≤ a r.label ∧ a r.label ≤ r.quantity
  total : ((own df u).map (fun r => a r.label)).sum = q

/-- What user `u` trades in total. -/
def Spec.tradedOf (df : DF) (u : ℤ) (ts : List Transaction) : ℚ :=
  ((own df u).map (fun r => tradedBy ts r.label)).sum

/-- What the quantities `a` are worth according to the bids of user `u`. -/
def Spec.worth (df : DF) (u : ℤ) (a : ℕ → ℚ) : ℚ :=
  ((own df u).map (fun r => r.price * a r.label)).sum

/-- What remains to user `u`, who only buys (`b`) or only sells, after the transactions `ts` when the
traded quantities are used as in `a`. -/
def Spec.netOf (b : Bool) (df : DF) (u : ℤ) (a : ℕ → ℚ) (ts : List Transaction) : ℚ :=
  if b then worth df u a - paid df (transOf df u ts) else received df (transOf df u ts) - worth df u a

/-! ## One half -/

theorem own_willing_sum {H : DF} {b : Bool} {p : ℚ} {u : ℤ} (hs : ∀ r ∈ H, r.user = u → r.buying = b)
    {f : Row → ℚ} (hf : ∀ r ∈ H, r.user = u → unitGain p r < 0 → f r = 0) :
    ((own (willingOf H b p) u).map f).sum = ((own H u).map f).sum := by
  rw [willingOf_eq]
  unfold own
  rw [List.filter_filter]
  induction H with
  | nil => rfl
  | cons r H ih =>
    have ih' := ih (fun a ha => hs a (List.mem_cons_of_mem _ ha)) (fun a ha => hf a (List.mem_cons_of_mem _ ha))
    by_cases hu : r.user = u
    · have hb := hs r List.mem_cons_self hu
      rw [List.filter_cons_of_pos (p := fun r : Row => decide (r.user = u)) (by simpa using hu), List.map_cons,
        List.sum_cons, ← ih']
      by_cases hg : 0 ≤ unitGain p r
      · rw [List.filter_cons_of_pos (by simp [hu, hb, hg]), List.map_cons, List.sum_cons]
      · rw [List.filter_cons_of_neg (by simp [hg]), hf r List.mem_cons_self hu (not_le.mp hg), zero_add]
    · rw [List.filter_cons_of_neg (by simp [hu]), List.filter_cons_of_neg (by simp [hu]), ih']

theorem sum_map_congr {L : DF} {f g : Row → ℚ} (h : ∀ r ∈ L, f r = g r) : (L.map f).sum = (L.map g).sum := by
  rw [List.map_congr_left h]

/-- One half: a user whose bids are all on side `b`, compared with any other report of them. -/
theorem half_truthful_several {H H' : DF} (hn : (H.map (fun r => r.label)).Nodup)
    {u : ℤ} {b : Bool} (hs : ∀ r ∈ H, r.user = u → r.buying = b)
    (hs' : ∀ r ∈ H', r.user = u → r.buying = b) {p : ℚ}
    (hoth : others (willingOf H' b p) u = others (willingOf H b p) u)
    (hopp : qsum (willingOf H' (!b) p) = qsum (willingOf H (!b) p))
    {ts ts' : List Transaction} (hv : Vcg H b p ts) (hv' : Vcg H' b p ts') {x x' : ℚ}
    (hx : (TradesLong H p ts u ∧ IsExternality H p ts u x) ∨ (¬ TradesLong H p ts u ∧ x = 0))
    (hx' : (TradesLong H' p ts' u ∧ IsExternality H' p ts' u x') ∨ (¬ TradesLong H' p ts' u ∧ x' = 0))
    {a : ℕ → ℚ} (ha : ∀ r ∈ H, r.user = u → 0 ≤ a r.label ∧ a r.label ≤ r.quantity)
    (hsum : ((own H u).map (fun r => a r.label)).sum ≤
      ((own H' u).map (fun r => tradedBy ts' r.label)).sum) :
    ((own H u).map (fun r => unitGain p r * a r.label)).sum - x' ≤
      ((own H u).map (fun r => unitGain p r * tradedBy ts r.label)).sum - x := by
  obtain ⟨W, hW, ex⟩ := hv.fee u x hs hx
  obtain ⟨W', hW', ex'⟩ := hv'.fee u x' hs' hx'
  rw [hoth, hopp] at hW'
  obtain rfl : W' = W := hW'.unique hW
  rw [hoth] at ex'
  set L := willingOf H b p with hL
  have hmL : ∀ r ∈ L, r ∈ H := fun r hr => (mem_willingOf.mp hr).1
  have hndL : (L.map (fun r => r.label)).Nodup := by
    rw [hL, willingOf_eq]; exact hn.sublist (List.filter_sublist.map _)
  have hmO : ∀ r ∈ others L u, r ∈ willingOf H' b p := fun r hr => by
    rw [← hoth] at hr
    exact (List.mem_filter.mp hr).1
  -- own bids of the second run
  have htot := hv'.total
  rw [sum_others_own _ u, hoth, hopp, own_willing_sum hs' (fun r hr hu hg => hv'.zero r hr (hs' r hr hu) hg)]
    at htot
  -- the allocation that gives `u` the quantities `a` and the others what they get in the second run
  let ownL : List ℕ := (own L u).map (fun r => r.label)
  let al : ℕ → ℚ := fun k => if k ∈ ownL then a k else tradedBy ts' k
  have hlo : ∀ r ∈ own L u, al r.label = a r.label := fun r hr => if_pos (List.mem_map_of_mem hr)
  have hlt : ∀ r ∈ others L u, al r.label = tradedBy ts' r.label := by
    intro r hr
    apply if_neg
    intro hc
    obtain ⟨r', hr', he⟩ := List.mem_map.mp hc
    have h1 := List.mem_filter.mp hr
    have h2 := List.mem_filter.mp hr'
    have := List.inj_on_of_nodup_map hndL h2.1 h1.1 he
    subst this
    exact (of_decide_eq_true h1.2) (of_decide_eq_true h2.2)
  have hownle : ((own L u).map (fun r => a r.label)).sum ≤ ((own H u).map (fun r => a r.label)).sum := by
    have hsub : (own L u).Sublist (own H u) := by
      rw [hL, willingOf_eq]
      unfold own
      exact List.filter_sublist.filter _
    refine List.Sublist.sum_le_sum (hsub.map _) ?_
    intro q hq
    obtain ⟨r, hr, rfl⟩ := List.mem_map.mp hq
    have := List.mem_filter.mp hr
    exact (ha r this.1 (of_decide_eq_true this.2)).1
  have hmem : ((own L u).map (fun r => unitGain p r * a r.label)).sum + gainIn (others L u) p ts' ∈
      CouldGain L p (qsum (willingOf H (!b) p)) := by
    refine ⟨al, ?_, ?_, ?_⟩
    · intro r hr
      by_cases hu : r.user = u
      · rw [hlo r (List.mem_filter.mpr ⟨hr, decide_eq_true hu⟩)]
        exact ha r (hmL r hr) hu
      · have hO : r ∈ others L u := List.mem_filter.mpr ⟨hr, decide_eq_true hu⟩
        rw [hlt r hO]
        exact hv'.bound r (hmO r hO)
    · rw [sum_others_own _ u, sum_map_congr hlt, sum_map_congr hlo]
      linarith
    · have e1 : ∀ r ∈ own L u, unitGain p r * al r.label = unitGain p r * a r.label :=
        fun r hr => by rw [hlo r hr]
      have e2 : ∀ r ∈ others L u, unitGain p r * al r.label = unitGain p r * tradedBy ts' r.label :=
        fun r hr => by rw [hlt r hr]
      rw [sum_others_own L u (fun r => unitGain p r * al r.label), sum_map_congr e1, sum_map_congr e2]
      exact add_comm _ _
  have hbest := hv.best.2 hmem
  have hall : gainIn L p ts = gainIn (others L u) p ts +
      ((own H u).map (fun r => unitGain p r * tradedBy ts r.label)).sum := by
    unfold gainIn
    rw [sum_others_own _ u, hL, own_willing_sum hs]
    intro r hr hu hg
    rw [hv.zero r hr (hs r hr hu) hg, mul_zero]
  have hneg : ((own H u).map (fun r => unitGain p r * a r.label)).sum ≤
      ((own L u).map (fun r => unitGain p r * a r.label)).sum := by
    have : ((own L u).map (fun r => max (unitGain p r) 0 * a r.label)).sum =
        ((own H u).map (fun r => max (unitGain p r) 0 * a r.label)).sum := by
      rw [hL]
      apply own_willing_sum hs
      intro r _ _ hg
      rw [max_eq_right hg.le, zero_mul]
    have h2 : ((own L u).map (fun r => max (unitGain p r) 0 * a r.label)).sum =
        ((own L u).map (fun r => unitGain p r * a r.label)).sum := by
      apply sum_map_congr
      intro r hr
      rw [max_eq_left (mem_willingOf.mp (List.mem_filter.mp hr).1).2.2]
    rw [← h2, this]
    apply List.sum_le_sum
    intro r hr
    have := List.mem_filter.mp hr
    exact mul_le_mul_of_nonneg_right (le_max_left _ _) (ha r this.1 (of_decide_eq_true this.2)).1
  rw [hall] at hbest
  rw [ex, ex']
  linarith

/-! ## Money and quantities of a user -/

theorem sum_own_traded {df : DF} (hn : (df.map (fun r => r.label)).Nodup) (ht : IsTable df) (u : ℤ)
    (w : Row → ℚ) (ts : List Transaction) :
    ((own df u).map (fun r => w r * tradedBy ts r.label)).sum =
      (ts.map (fun t => match df[t.bid]? with
        | some r => if r.user = u then w r * t.quantity else 0
        | none => 0)).sum := by
  induction ts with
  | nil => exact sum_map_eq_zero (fun r _ => by simp [tradedBy])
  | cons t ts ih =>
    rw [List.map_cons, List.sum_cons, ← ih]
    have e : ∀ r ∈ own df u, w r * tradedBy (t :: ts) r.label =
        (if r.label = t.bid then w r * t.quantity else 0) + w r * tradedBy ts r.label := by
      intro r _
      rw [show t :: ts = [t] ++ ts from rfl, tradedBy_append, mul_add]
      congr 1
      by_cases h : r.label = t.bid
      · rw [if_pos h]; simp [tradedBy, h]
      · rw [if_neg h, tradedBy_not_mem (by
          intro t' ht' hc
          rw [List.mem_singleton] at ht'
          exact h (by rw [← hc, ht'])), mul_zero]
    rw [sum_map_congr e, List.sum_map_add]
    congr 1
    cases hd : df[t.bid]? with
    | none =>
      apply sum_map_eq_zero
      intro r hr
      apply if_neg
      intro hc
      have := ht.get_label (List.mem_filter.mp hr).1
      rw [hc, hd] at this
      cases this
    | some r₀ =>
      have hl := ht.label hd
      have hm₀ : r₀ ∈ df := List.mem_of_getElem? hd
      by_cases hu : r₀.user = u
      · simp only [hu, if_true]
        have hm : r₀ ∈ own df u := List.mem_filter.mpr ⟨hm₀, decide_eq_true hu⟩
        have hnd : (own df u).Nodup := (List.Nodup.of_map _ hn).sublist List.filter_sublist
        rw [List.sum_map_eq_nsmul_single r₀, List.count_eq_one_of_mem hnd hm, one_nsmul, if_pos hl]
        intro r hne hr
        apply if_neg
        intro hc
        exact hne (List.inj_on_of_nodup_map hn (List.mem_filter.mp hr).1 hm₀ (hc.trans hl.symm))
      · simp only [hu, if_false]
        apply sum_map_eq_zero
        intro r hr
        apply if_neg
        intro hc
        have hrm := List.mem_filter.mp hr
        have := List.inj_on_of_nodup_map hn hrm.1 hm₀ (hc.trans hl.symm)
        subst this
        exact hu (of_decide_eq_true hrm.2)

theorem paid_own {df : DF} (ht : IsTable df) {u : ℤ} (hs : ∀ r ∈ df, r.user = u → r.buying = true)
    {ts : List Transaction} {p : ℚ} (hp : ∀ t ∈ ts, ∀ r, df[t.bid]? = some r → r.user = u → t.price = p) :
    paid df (transOf df u ts) = p * tradedOf df u ts := by
  unfold tradedOf
  rw [← List.sum_map_mul_left, sum_own_traded ht.nodup ht u (fun _ => p)]
  induction ts with
  | nil => rfl
  | cons t ts ih =>
    rw [List.map_cons, List.sum_cons, ← ih (fun t' h' => hp t' (List.mem_cons_of_mem _ h'))]
    have h1 := hp t List.mem_cons_self
    unfold transOf
    cases hd : df[t.bid]? with
    | none => rw [List.filter_cons_of_neg (by simp [ownedBy, hd]), zero_add]
    | some r =>
      by_cases hu : r.user = u
      · rw [List.filter_cons_of_pos (by simp [ownedBy, hd, hu])]
        have hb : isBuy df t.bid = true := by simp [isBuy, hd, hs r (List.mem_of_getElem? hd) hu]
        unfold paid
        rw [List.filter_cons_of_pos (by simpa using hb), List.map_cons, List.sum_cons, h1 r hd hu]
        simp only [hu, if_true]
        ring
      · rw [List.filter_cons_of_neg (by simp [ownedBy, hd, hu])]
        simp only [hu, if_false, zero_add]

theorem received_own {df : DF} (ht : IsTable df) {u : ℤ} (hs : ∀ r ∈ df, r.user = u → r.buying = false)
    {ts : List Transaction} {p : ℚ} (hp : ∀ t ∈ ts, ∀ r, df[t.bid]? = some r → r.user = u → t.price = p) :
    received df (transOf df u ts) = p * tradedOf df u ts := by
  unfold tradedOf
  rw [← List.sum_map_mul_left, sum_own_traded ht.nodup ht u (fun _ => p)]
  induction ts with
  | nil => rfl
  | cons t ts ih =>
    rw [List.map_cons, List.sum_cons, ← ih (fun t' h' => hp t' (List.mem_cons_of_mem _ h'))]
    have h1 := hp t List.mem_cons_self
    unfold transOf
    cases hd : df[t.bid]? with
    | none => rw [List.filter_cons_of_neg (by simp [ownedBy, hd]), zero_add]
    | some r =>
      by_cases hu : r.user = u
      · rw [List.filter_cons_of_pos (by simp [ownedBy, hd, hu])]
        have hb : isSell df t.bid = true := by simp [isSell, hd, hs r (List.mem_of_getElem? hd) hu]
        unfold received
        rw [List.filter_cons_of_pos (by simpa using hb), List.map_cons, List.sum_cons, h1 r hd hu]
        simp only [hu, if_true]
        ring
      · rw [List.filter_cons_of_neg (by simp [ownedBy, hd, hu])]
        simp only [hu, if_false, zero_add]

theorem sum_sub_map {α : Type} (L : List α) (f g : α → ℚ) :
    (L.map f).sum - (L.map g).sum = (L.map (fun r => f r - g r)).sum := by
  induction L with
  | nil => simp
  | cons r L ih => simp only [List.map_cons, List.sum_cons, ← ih]; ring

/-- The net result at a single price. -/
theorem netOf_own {df : DF} (ht : IsTable df) {u : ℤ} {b : Bool} (hs : ∀ r ∈ df, r.user = u → r.buying = b)
    {ts : List Transaction} {p : ℚ} (hp : ∀ t ∈ ts, ∀ r, df[t.bid]? = some r → r.user = u → t.price = p)
    {a : ℕ → ℚ} (ha : ((own df u).map (fun r => a r.label)).sum = tradedOf df u ts) :
    netOf b df u a ts = ((own df u).map (fun r => unitGain p r * a r.label)).sum := by
  unfold netOf worth
  have hb : ∀ r ∈ own df u, r.buying = b := fun r hr =>
    hs r (List.mem_filter.mp hr).1 (of_decide_eq_true (List.mem_filter.mp hr).2)
  cases b
  · simp only [Bool.false_eq_true, if_false]
    rw [received_own ht hs hp, ← ha, ← List.sum_map_mul_left, sum_sub_map]
    apply sum_map_congr
    intro r hr
    unfold unitGain
    rw [hb r hr]
    simp only [Bool.false_eq_true, if_false]
    ring
  · simp only [if_true]
    rw [paid_own ht hs hp, ← ha, ← List.sum_map_mul_left, sum_sub_map]
    apply sum_map_congr
    intro r hr
    unfold unitGain
    rw [hb r hr]
    simp only [if_true]
    ring

/-- Using every unit as traded, the net result is the surplus. -/
theorem netOf_self {df : DF} (ht : IsTable df) {u : ℤ} {b : Bool} (hs : ∀ r ∈ df, r.user = u → r.buying = b)
    (ts : List Transaction) : netOf b df u (tradedBy ts) ts = surplusOf df (priceOf df) u ts := by
  unfold netOf worth surplusOf
  rw [sum_own_traded ht.nodup ht u (fun r => r.price)]
  induction ts with
  | nil => cases b <;> simp [transOf, paid, received, boughtValue, soldValue]
  | cons t ts ih =>
    rw [List.map_cons, List.sum_cons]
    cases hd : df[t.bid]? with
    | none =>
      have e : transOf df u (t :: ts) = transOf df u ts :=
        List.filter_cons_of_neg (by simp [ownedBy, hd])
      rw [e, ← ih, zero_add]
    | some r =>
      by_cases hu : r.user = u
      · have e : transOf df u (t :: ts) = t :: transOf df u ts :=
          List.filter_cons_of_pos (by simp [ownedBy, hd, hu])
        have hb := hs r (List.mem_of_getElem? hd) hu
        have hbuy : isBuy df t.bid = b := by simp [isBuy, hd, hb]
        have hsell : isSell df t.bid = !b := by simp [isSell, hd, hb]
        have hpr : priceOf df t.bid = r.price := by simp [priceOf, hd]
        simp only [hu, if_true]
        rw [e]
        cases b
        · simp only [Bool.false_eq_true, if_false] at ih ⊢
          simp only [paid, received, boughtValue, soldValue, List.filter_cons, hbuy, hsell, Bool.not_false,
            Bool.false_eq_true, if_true, if_false, List.map_cons, List.sum_cons, hpr] at ih ⊢
          linarith
        · simp only [if_true] at ih ⊢
          simp only [paid, received, boughtValue, soldValue, List.filter_cons, hbuy, hsell, Bool.not_true,
            Bool.false_eq_true, if_true, if_false, List.map_cons, List.sum_cons, hpr] at ih ⊢
          linarith
      · have e : transOf df u (t :: ts) = transOf df u ts :=
          List.filter_cons_of_neg (by simp [ownedBy, hd, hu])
        simp only [hu, if_false]
        rw [e, ← ih, zero_add]

/-! ## The reported book -/

section reports

variable {u : ℤ} {df df' : DF}

theorem Spec.Reports.labels (h : Reports u df df') : df'.map (fun r => r.label) = df.map (fun r => r.label) := by
  induction h with
  | nil => rfl
  | cons h _ ih =>
    rw [List.map_cons, List.map_cons, ih]
    rcases h with rfl | ⟨_, _, h, _⟩
    · rfl
    · rw [h]

theorem Spec.Reports.users (h : Reports u df df') : df'.map (fun r => r.user) = df.map (fun r => r.user) := by
  induction h with
  | nil => rfl
  | cons h _ ih =>
    rw [List.map_cons, List.map_cons, ih]
    rcases h with rfl | ⟨h1, h2, _, _⟩
    · rfl
    · rw [h1, h2]

theorem Spec.Reports.table (h : Reports u df df') (ht : IsTable df) : IsTable df' := by
  unfold IsTable at ht ⊢
  rw [h.labels, ← h.length_eq, ht]

theorem Spec.Reports.inRange (h : Reports u df df') (hu : UsersInRange df) : UsersInRange df' := by
  intro a ha
  have : a.user ∈ df.map (fun r => r.user) := by
    rw [← h.users]; exact List.mem_map_of_mem ha
  obtain ⟨b, hb, he⟩ := List.mem_map.mp this
  rw [h.users, ← he]
  exact hu b hb

theorem Spec.Reports.side (h : Reports u df df') {b : Bool} (hs : ∀ r ∈ df, r.user = u → r.buying = b) :
    ∀ r ∈ df', r.user = u → r.buying = b := by
  induction h with
  | nil => intro r hr; cases hr
  | cons h _ ih =>
    intro r hr hu
    rcases List.mem_cons.mp hr with rfl | hr
    · rcases h with rfl | ⟨h1, _, _, h4⟩
      · exact hs _ List.mem_cons_self hu
      · rw [h4]; exact hs _ List.mem_cons_self h1
    · exact ih (fun a ha => hs a (List.mem_cons_of_mem _ ha)) r hr hu

theorem Spec.Reports.filter_eq (h : Reports u df df') {P : Row → Bool}
    (hP : ∀ a a', a ∈ df → a' ∈ df' → a.user = u → a'.user = u → a'.label = a.label →
      a'.buying = a.buying → P a = false ∧ P a' = false) : df'.filter P = df.filter P := by
  induction h with
  | nil => rfl
  | cons h _ ih =>
    have ih' := ih (fun a a' ha ha' => hP a a' (List.mem_cons_of_mem _ ha) (List.mem_cons_of_mem _ ha'))
    rcases h with rfl | ⟨h1, h2, h3, h4⟩
    · rw [List.filter_cons, List.filter_cons, ih']
    · obtain ⟨g1, g2⟩ := hP _ _ List.mem_cons_self List.mem_cons_self h1 h2 h3 h4
      rw [List.filter_cons_of_neg (by rw [g2]; simp), List.filter_cons_of_neg (by rw [g1]; simp), ih']

theorem Spec.Reports.half (h : Reports u df df') (ids : List ℕ) : Reports u (half df ids) (half df' ids) := by
  unfold Spec.half
  induction h with
  | nil => exact List.Forall₂.nil
  | @cons a a' _ _ h _ ih =>
    have hl : a'.label = a.label := by
      rcases h with rfl | ⟨_, _, h3, _⟩
      · rfl
      · exact h3
    by_cases hm : a.label ∈ ids
    · rw [List.filter_cons_of_pos (by simpa using hm), List.filter_cons_of_pos (by simpa [hl] using hm)]
      exact List.Forall₂.cons h ih
    · rw [List.filter_cons_of_neg (by simpa using hm), List.filter_cons_of_neg (by simpa [hl] using hm)]
      exact ih

theorem Spec.Reports.own_labels (h : Reports u df df') :
    (own df' u).map (fun r => r.label) = (own df u).map (fun r => r.label) := by
  unfold own
  induction h with
  | nil => rfl
  | @cons a a' _ _ h _ ih =>
    rcases h with rfl | ⟨h1, h2, h3, _⟩
    · rw [List.filter_cons, List.filter_cons]
      split
      · rw [List.map_cons, List.map_cons, ih]
      · exact ih
    · rw [List.filter_cons_of_pos (by simpa using h2), List.filter_cons_of_pos (by simpa using h1),
        List.map_cons, List.map_cons, ih, h3]

end reports

theorem own_half {df : DF} {ids : List ℕ} {u : ℤ} (h : ∀ r ∈ df, r.user = u → r.label ∈ ids) :
    own (half df ids) u = own df u := by
  unfold own half
  rw [List.filter_filter]
  apply List.filter_congr
  intro r hr
  by_cases hu : r.user = u
  · simp [hu, h r hr hu]
  · simp [hu]

/-- What a user owes whose bids are all in one half. -/
theorem owes_several {S : Sorter} {coin : ℕ → Bool} {df : DF} (ht : IsTable df)
    (hq : ∀ r ∈ df, 0 ≤ r.quantity) (hu : UsersInRange df)
    {tm : TransactionManager} {left right : List ℕ} {pl pr : Val} {fees : List ℚ}
    (h : muda S coin df = .ok (tm, .muda left right pl pr fees)) {u : ℕ} {c : Bool}
    (hc : ∀ r ∈ df, r.user = u → coin r.label = c) {x : ℚ} (hx : fees[u]? = some x) :
    Owes (half df (if c then left else right)) (if c then pr else pl)
      (tradesIn (if c then left else right) tm.trans) u x := by
  have hr := muda_run' ht h
  have huu : u < fees.length := (List.getElem?_eq_some_iff.mp hx).1
  obtain ⟨y, hy1, _, hy2⟩ := (C27_fees S coin df ht hq hu tm left right pl pr fees h).2 u huu
  rw [hx] at hy1
  cases hy1
  have hno : ∀ {ids : List ℕ} {p : ℚ} {ts : List Transaction}, (∀ i ∈ ids, coin i ≠ c) →
      ¬ TradesLong (half df ids) p ts u := by
    rintro ids p ts hni ⟨t, _, a, ha, _, hau⟩
    have ham : a ∈ half df ids := by
      unfold longSide at ha
      split at ha <;> exact (List.mem_filter.mp ha).1
    exact hni _ (half_label ham) (hc a (half_sub a ham) hau)
  cases c
  · simp only [Bool.false_eq_true, if_false]
    have hl : ∀ i ∈ left, coin i ≠ false := by
      intro i hi; rw [hr.left_eq] at hi; simp [(List.mem_filter.mp hi).2]
    rcases hy2 with ⟨p, hp, htl, hext⟩ | ⟨h1, h2⟩
    · exact Or.inl ⟨p, hp, htl, hext⟩
    · right
      refine ⟨h1, ?_⟩
      rcases h2 with ⟨p, _, htl, _⟩ | ⟨_, h2⟩
      · exact absurd htl (hno hl)
      · exact h2
  · simp only [if_true]
    have hl : ∀ i ∈ right, coin i ≠ true := by
      intro i hi; rw [hr.right_eq] at hi
      have := (List.mem_filter.mp hi).2
      simpa using this
    rcases hy2 with ⟨p, _, htl, _⟩ | ⟨_, h2⟩
    · exact absurd htl (hno hl)
    · exact h2

/-- **C76.** A user whose bids are all on one side of the market and, by the coins, in one
half cannot gain by reporting other prices and quantities: whatever use `a` the user makes of the
quantity traded after another report, worth what the true bids say, the result net of payments and
the fee is not better than with the truth. For users with bids in both halves or on both sides
the claim is false (`C33_several_bids`, `C76_two_sides`). -/
theorem C76_one_side (S : Sorter) (coin : ℕ → Bool) (df df' : DF) (ht : IsTable df)
    (hq : ∀ r ∈ df, 0 ≤ r.quantity) (hq' : ∀ r ∈ df', 0 ≤ r.quantity) (hu : UsersInRange df) (u : ℕ)
    (b c : Bool) (hs : ∀ r ∈ df, r.user = u → r.buying = b)
    (hc : ∀ r ∈ df, r.user = u → coin r.label = c) (hrep : Reports u df df')
    (tm tm' : TransactionManager) (left right left' right' : List ℕ) (pl pr pl' pr' : Val)
    (fees fees' : List ℚ)
    (h : muda S coin df = .ok (tm, .muda left right pl pr fees))
    (h' : muda S coin df' = .ok (tm', .muda left' right' pl' pr' fees')) (x x' : ℚ)
    (hx : fees[u]? = some x) (hx' : fees'[u]? = some x') (a : ℕ → ℚ)
    (ha : Distributes df u (tradedOf df u tm'.trans) a) :
    netOf b df u a tm'.trans - x' ≤ surplusOf df (priceOf df) u tm.trans - x := by
  rw [← netOf_self ht hs]
  have ht' := hrep.table ht
  have hu' := hrep.inRange hu
  have hs' := hrep.side hs
  have hlen : df'.length = df.length := hrep.length_eq.symm
  have hrun := muda_run' ht h
  have hrun' := muda_run' ht' h'
  have e1 : left' = left := by rw [hrun.left_eq, hrun'.left_eq, hlen]
  have e2 : right' = right := by rw [hrun.right_eq, hrun'.right_eq, hlen]
  subst e1 e2
  have hc' : ∀ r ∈ df', r.user = (u : ℤ) → coin r.label = c := by
    intro r hr hru
    have hm : r.label ∈ (own df' u).map (fun r => r.label) :=
      List.mem_map_of_mem (List.mem_filter.mpr ⟨hr, decide_eq_true hru⟩)
    rw [hrep.own_labels] at hm
    obtain ⟨r₀, h1, h2⟩ := List.mem_map.mp hm
    rw [← h2]
    exact hc r₀ (List.mem_filter.mp h1).1 (of_decide_eq_true (List.mem_filter.mp h1).2)
  set ids := if c then left' else right' with hids
  have hin : ∀ r ∈ df, r.user = (u : ℤ) → r.label ∈ ids := by
    intro r hr hru
    have h1 := hc r hr hru
    have h2 := ht.label_lt hr
    cases c
    · simp only [hids, Bool.false_eq_true, if_false, hrun.right_eq, List.mem_filter, List.mem_range]
      exact ⟨h2, by rw [h1]; rfl⟩
    · simp only [hids, if_true, hrun.left_eq, List.mem_filter, List.mem_range]
      exact ⟨h2, h1⟩
  have hin' : ∀ r ∈ df', r.user = (u : ℤ) → r.label ∈ ids := by
    intro r hr hru
    have h1 := hc' r hr hru
    have h2 := ht'.label_lt hr
    rw [hlen] at h2
    cases c
    · simp only [hids, Bool.false_eq_true, if_false, hrun.right_eq, List.mem_filter, List.mem_range]
      exact ⟨h2, by rw [h1]; rfl⟩
    · simp only [hids, if_true, hrun.left_eq, List.mem_filter, List.mem_range]
      exact ⟨h2, h1⟩
  -- the price of the half is set by the other one
  have hother : ∀ ids' : List ℕ, (∀ i ∈ ids', coin i ≠ c) → half df' ids' = half df ids' := by
    intro ids' hne
    apply hrep.filter_eq
    intro r r' hr hr' g1 g2 _ _
    constructor
    · rw [decide_eq_false_iff_not]
      exact fun hm => hne _ hm (hc r hr g1)
    · rw [decide_eq_false_iff_not]
      exact fun hm => hne _ hm (hc' r' hr' g2)
  have hprice : (if c then pr' else pl') = (if c then pr else pl) := by
    cases c
    · simp only [Bool.false_eq_true, if_false]
      have h1 := hrun'.priceLeft
      rw [hother left' (by intro i hi; rw [hrun.left_eq] at hi; simp [(List.mem_filter.mp hi).2]),
        hrun.priceLeft] at h1
      exact (Except.ok.inj h1).symm
    · simp only [if_true]
      have h1 := hrun'.priceRight
      rw [hother right' (by
        intro i hi; rw [hrun.right_eq] at hi; have := (List.mem_filter.mp hi).2; simpa using this),
        hrun.priceRight] at h1
      exact (Except.ok.inj h1).symm
  obtain ⟨_, ol, or⟩ := hrun.halves ht hq
  obtain ⟨_, ol', or'⟩ := hrun'.halves ht' hq'
  have hout : HalfOutcome S (half df ids) (if c then pr else pl) (tradesIn ids tm.trans) := by
    cases c
    · exact or
    · exact ol
  have hout' : HalfOutcome S (half df' ids) (if c then pr else pl) (tradesIn ids tm'.trans) := by
    rw [← hprice]
    cases c
    · exact or'
    · exact ol'
  have hw := owes_several ht hq hu h hc hx
  have hw' := owes_several ht' hq' hu' h' hc' hx'
  rw [← hids] at hw hw'
  rw [hprice] at hw'
  generalize hv : (if c then pr else pl) = v at *
  -- transactions of the user
  have htrans : ∀ {D : DF} {tm : TransactionManager} {pl pr : Val} {fees : List ℚ}, IsTable D →
      (∀ r ∈ D, 0 ≤ r.quantity) → (∀ r ∈ D, r.user = (u : ℤ) → coin r.label = c) →
      muda S coin D = .ok (tm, .muda left' right' pl pr fees) →
      ∀ t ∈ tm.trans, ∀ r, D[t.bid]? = some r → r.user = (u : ℤ) → (if c then pr else pl) = .fin t.price := by
    intro D tm pl pr fees hD hDq hDc hDh t htt r hr hru
    have hC := C24_halves S coin D hD hDq tm left' right' pl pr fees hDh
    have hcoin := hDc r (List.mem_of_getElem? hr) hru
    rw [hD.label hr] at hcoin
    rcases hC.2.2.2.2.2 t htt with ⟨g1, g2⟩ | ⟨g1, g2⟩
    · have := ((hC.2.1 _).mp g1).2
      rw [← hcoin, this]; exact g2
    · have := ((hC.2.2.1 _).mp g1).2
      rw [← hcoin, this]; exact g2
  have hp1 := htrans ht hq hc h
  have hp2' := htrans ht' hq' hc' h'
  rw [hv] at hp1
  rw [hprice] at hp2'
  have hp2 : ∀ t ∈ tm'.trans, ∀ r, df[t.bid]? = some r → r.user = (u : ℤ) → v = .fin t.price := by
    intro t htt r hr hru
    have hlt : t.bid < df'.length := by rw [hlen]; exact (List.getElem?_eq_some_iff.mp hr).1
    refine hp2' t htt _ (List.getElem?_eq_getElem hlt) ?_
    have h1 := congrArg (fun l : List ℤ => l[t.bid]?) hrep.users
    simp only [List.getElem?_map, hr, List.getElem?_eq_getElem hlt, Option.map_some, Option.some.injEq] at h1
    rw [h1, hru]
  have hself : ((own df (u : ℤ)).map (fun r => tradedBy tm.trans r.label)).sum = tradedOf df u tm.trans := rfl
  by_cases hfin : ∃ p, v = .fin p
  · obtain ⟨p, rfl⟩ := hfin
    rw [netOf_own ht hs (p := p) (fun t htt r hr hru => by have := hp2 t htt r hr hru; cases this; rfl) ha.total,
      netOf_own ht hs (p := p) (fun t htt r hr hru => by have := hp1 t htt r hr hru; cases this; rfl) hself]
    have howes : ∀ {H : DF} {ts : List Transaction} {y : ℚ}, Owes H (.fin p) ts (u : ℤ) y →
        (TradesLong H p ts u ∧ IsExternality H p ts u y) ∨ (¬ TradesLong H p ts u ∧ y = 0) := by
      rintro H ts y (⟨p', hp, g1, g2⟩ | ⟨g1, g2⟩)
      · cases hp; exact Or.inl ⟨g1, g2⟩
      · exact Or.inr ⟨g1 p rfl, g2⟩
    have hrepH := hrep.half ids
    have hoth : others (willingOf (half df' ids) b p) u = others (willingOf (half df ids) b p) u := by
      unfold others
      rw [willingOf_eq, willingOf_eq, List.filter_filter, List.filter_filter]
      apply hrepH.filter_eq
      intro r r' _ _ g1 g2 _ _
      simp [g1, g2]
    have hopp : qsum (willingOf (half df' ids) (!b) p) = qsum (willingOf (half df ids) (!b) p) := by
      rw [willingOf_eq, willingOf_eq, hrepH.filter_eq]
      intro r r' hr _ g1 _ _ g4
      have := hs r (half_sub r hr) g1
      rw [g4, this]
      cases b <;> simp
    have key := half_truthful_several (a := a) (half_nodup ht ids)
      (fun r hr => hs r (half_sub r hr)) (fun r hr => hs' r (half_sub r hr)) hoth hopp
      (half_vcg (half_nodup ht ids) (fun r hr => hq r (half_sub r hr)) hout b)
      (half_vcg (half_nodup ht' ids) (fun r hr => hq' r (half_sub r hr)) hout' b)
      (howes hw) (howes hw') (fun r hr => ha.bound r (half_sub r hr)) (by
        rw [own_half hin, own_half hin', ha.total]
        unfold tradedOf
        have e : ∀ D : DF, (∀ r ∈ D, r.user = (u : ℤ) → r.label ∈ ids) →
            ((own D (u : ℤ)).map (fun r => tradedBy (tradesIn ids tm'.trans) r.label)) =
            ((own D (u : ℤ)).map (fun r => r.label)).map (tradedBy tm'.trans) := by
          intro D hD
          rw [List.map_map]
          apply List.map_congr_left
          intro r hr
          have := List.mem_filter.mp hr
          exact tradedBy_tradesIn (hD r this.1 (of_decide_eq_true this.2))
        rw [e df' hin', hrep.own_labels, List.map_map]
        exact le_refl _)
    rw [own_half hin] at key
    have e : ∀ r ∈ own df (u : ℤ), unitGain p r * tradedBy (tradesIn ids tm.trans) r.label =
        unitGain p r * tradedBy tm.trans r.label := by
      intro r hr
      have := List.mem_filter.mp hr
      rw [tradedBy_tradesIn (hin r this.1 (of_decide_eq_true this.2))]
    rw [sum_map_congr e] at key
    exact key
  · push Not at hfin
    have hz : x = 0 ∧ x' = 0 := by
      constructor
      · rcases hw with ⟨p, hp, _⟩ | ⟨_, h0⟩
        · exact absurd hp (hfin p)
        · exact h0
      · rcases hw' with ⟨p, hp, _⟩ | ⟨_, h0⟩
        · exact absurd hp (hfin p)
        · exact h0
    have hnt : ∀ {ts : List Transaction}, (∀ t ∈ ts, ∀ r, df[t.bid]? = some r → r.user = (u : ℤ) →
        v = .fin t.price) → ∀ r ∈ own df (u : ℤ), tradedBy ts r.label = 0 := by
      intro ts hts r hr
      have hm := List.mem_filter.mp hr
      apply tradedBy_not_mem
      intro t htt he
      refine hfin _ (hts t htt r ?_ (of_decide_eq_true hm.2))
      rw [he]; exact ht.get_label hm.1
    have ha0 : ∀ r ∈ own df (u : ℤ), a r.label = 0 := by
      have htot := ha.total
      unfold tradedOf at htot
      rw [sum_map_eq_zero (hnt hp2)] at htot
      have hnn : ∀ q ∈ (own df (u : ℤ)).map (fun r => a r.label), 0 ≤ q := by
        intro q hq
        obtain ⟨r, hr, rfl⟩ := List.mem_map.mp hq
        have := List.mem_filter.mp hr
        exact (ha.bound r this.1 (of_decide_eq_true this.2)).1
      intro r hr
      have := List.single_le_sum hnn _ (List.mem_map_of_mem hr)
      have h0 := hnn _ (List.mem_map_of_mem hr)
      linarith
    rw [netOf_own ht hs (p := 0) (fun t htt r hr hru => absurd (hp2 t htt r hr hru) (hfin _)) ha.total,
      netOf_own ht hs (p := 0) (fun t htt r hr hru => absurd (hp1 t htt r hr hru) (hfin _)) hself,
      sum_map_eq_zero (fun r hr => by rw [ha0 r hr, mul_zero]),
      sum_map_eq_zero (fun r hr => by rw [hnt hp1 r hr, mul_zero]), hz.1, hz.2]

/-- **C76, surplus.** When the quantities traded after the other report do not exceed the true
ones, the surplus is not better. -/
theorem C76_surplus (S : Sorter) (coin : ℕ → Bool) (df df' : DF) (ht : IsTable df)
    (hq : ∀ r ∈ df, 0 ≤ r.quantity) (hq' : ∀ r ∈ df', 0 ≤ r.quantity) (hu : UsersInRange df) (u : ℕ)
    (b c : Bool) (hs : ∀ r ∈ df, r.user = u → r.buying = b)
    (hc : ∀ r ∈ df, r.user = u → coin r.label = c) (hrep : Reports u df df')
    (tm tm' : TransactionManager) (left right left' right' : List ℕ) (pl pr pl' pr' : Val)
    (fees fees' : List ℚ)
    (h : muda S coin df = .ok (tm, .muda left right pl pr fees))
    (h' : muda S coin df' = .ok (tm', .muda left' right' pl' pr' fees')) (x x' : ℚ)
    (hx : fees[u]? = some x) (hx' : fees'[u]? = some x')
    (hle : ∀ r ∈ df, r.user = u → tradedBy tm'.trans r.label ≤ r.quantity) :
    surplusOf df (priceOf df) u tm'.trans - x' ≤ surplusOf df (priceOf df) u tm.trans - x := by
  rw [← netOf_self ht hs tm'.trans]
  refine C76_one_side S coin df df' ht hq hq' hu u b c hs hc hrep tm tm' left right left' right'
    pl pr pl' pr' fees fees' h h' x x' hx hx' _ ⟨fun r hr hru => ⟨?_, hle r hr hru⟩, rfl⟩
  have ht' := hrep.table ht
  apply List.sum_nonneg
  intro q hqm
  obtain ⟨t, htm, rfl⟩ := List.mem_map.mp hqm
  have hC := C25_balance S coin df' ht' hq' tm' left' right' pl' pr' fees' h'
  exact (hC.2.2.2.2 t (List.mem_filter.mp htm).1).2.1

/-- User 0 buys with two bids in the left half (ids below 5). -/
def twoBuys : DF :=
  [⟨⟨1, 10, 0, true, 0, true⟩, 0⟩, ⟨⟨2, 8, 0, true, 0, true⟩, 1⟩, ⟨⟨2, 7, 1, true, 0, true⟩, 2⟩,
   ⟨⟨3, 3, 2, false, 0, true⟩, 3⟩, ⟨⟨1, 4, 3, false, 0, true⟩, 4⟩,
   ⟨⟨1, 9, 4, true, 0, true⟩, 5⟩, ⟨⟨1, 1, 5, false, 0, true⟩, 6⟩]

def twoBuysTrans : List Transaction :=
  [⟨3, 3, 5, -1, false⟩, ⟨4, 1, 5, -1, false⟩, ⟨0, 1, 5, -1, false⟩, ⟨1, 2, 5, -1, false⟩,
   ⟨2, 1, 5, -1, false⟩, ⟨6, 1, 7, -1, false⟩, ⟨5, 1, 7, -1, false⟩]

/-- The transactions when user 0 hides one of the units of bid 1. -/
def twoBuysTrans' : List Transaction :=
  [⟨3, 3, 5, -1, false⟩, ⟨4, 1, 5, -1, false⟩, ⟨0, 1, 5, -1, false⟩, ⟨1, 1, 5, -1, false⟩,
   ⟨2, 2, 5, -1, false⟩, ⟨6, 1, 11 / 2, -1, false⟩, ⟨5, 1, 11 / 2, -1, false⟩]

/-- The hypotheses can be met: hiding a unit avoids the fee of 2, but the unit was worth 3. -/
example : IsTable twoBuys ∧ UsersInRange twoBuys ∧ NonNeg twoBuys ∧
    (∀ r ∈ twoBuys, r.user = 0 → r.buying = true ∧ decide (r.label < 5) = true) ∧
    muda stableSorter (fun i => decide (i < 5)) twoBuys = .ok (⟨7, twoBuysTrans⟩,
      .muda [0, 1, 2, 3, 4] [5, 6] (.fin 7) (.fin 5) [2, 0, 0, 0, 0, 0]) ∧
    muda stableSorter (fun i => decide (i < 5)) (twoBuys.set 1 ⟨⟨1, 8, 0, true, 0, true⟩, 1⟩) =
      .ok (⟨7, twoBuysTrans'⟩,
      .muda [0, 1, 2, 3, 4] [5, 6] (.fin (11 / 2)) (.fin 5) [0, 0, 0, 0, 0, 0]) ∧
    surplusOf twoBuys (priceOf twoBuys) 0 twoBuysTrans - 2 = 9 ∧
    surplusOf twoBuys (priceOf twoBuys) 0 twoBuysTrans' - 0 = 8 := by
  decide +kernel

example : Reports 0 twoBuys (twoBuys.set 1 ⟨⟨1, 8, 0, true, 0, true⟩, 1⟩) :=
  .cons (Or.inl rfl) (.cons (Or.inr ⟨rfl, rfl, rfl, rfl⟩) (.cons (Or.inl rfl) (.cons (Or.inl rfl)
    (.cons (Or.inl rfl) (.cons (Or.inl rfl) (.cons (Or.inl rfl) .nil))))))

/-- User 0 buys and sells in the left half (ids below 4). -/
def twoSides : DF :=
  [⟨⟨1, 10, 0, true, 0, true⟩, 0⟩, ⟨⟨1, 6, 0, false, 0, true⟩, 1⟩, ⟨⟨1, 9, 1, true, 0, true⟩, 2⟩,
   ⟨⟨1, 1, 2, false, 0, true⟩, 3⟩, ⟨⟨1, 8, 3, true, 0, true⟩, 4⟩, ⟨⟨1, 2, 4, false, 0, true⟩, 5⟩]

/-- **C76, both sides.** In one half, truthfulness does not extend to users who both buy and sell: by
offering bid 1 at 5 instead of 6, user 0 of `twoSides` loses 1 on it but avoids the fee of 4 for bid 0. -/
theorem C76_two_sides : IsTable twoSides ∧ NonNeg twoSides ∧ UsersInRange twoSides ∧
    (∀ r ∈ twoSides, r.user = 0 → decide (r.label < 4) = true) ∧
    ¬ TruthfulForAll stableSorter (fun i => decide (i < 4)) twoSides := by
  refine ⟨by decide +kernel, by decide +kernel, by decide +kernel, by decide +kernel, fun hall => ?_⟩
  have h1 : muda stableSorter (fun i => decide (i < 4)) twoSides = .ok
      (⟨4, [⟨3, 1, 5, -1, false⟩, ⟨0, 1, 5, -1, false⟩, ⟨5, 1, 15 / 2, -1, false⟩,
        ⟨4, 1, 15 / 2, -1, false⟩]⟩,
        .muda [0, 1, 2, 3] [4, 5] (.fin (15 / 2)) (.fin 5) [4, 0, 0, 0, 0]) := by decide +kernel
  have h2 : muda stableSorter (fun i => decide (i < 4)) (twoSides.set 1 ⟨⟨1, 5, 0, false, 0, true⟩, 1⟩) = .ok
      (⟨6, [⟨3, 1, 5, -1, false⟩, ⟨1, 1, 5, -1, false⟩, ⟨0, 1, 5, -1, false⟩, ⟨2, 1, 5, -1, false⟩,
        ⟨5, 1, 7, -1, false⟩, ⟨4, 1, 7, -1, false⟩]⟩,
        .muda [0, 1, 2, 3] [4, 5] (.fin 7) (.fin 5) [0, 0, 0, 0, 0]) := by decide +kernel
  have h3 := hall 1 ⟨⟨1, 6, 0, false, 0, true⟩, 1⟩ 0 5 (by decide +kernel) rfl (by norm_num)
    _ _ _ _ _ _ _ _ _ _ _ _ 4 0 h1 h2 rfl rfl
  revert h3
  decide +kernel

end PyMarket
