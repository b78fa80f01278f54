import Verif.Lemmas.FloatStats
import Verif.Props.Profits

/-! # C86: the statistics in floating point arithmetic -/

set_option autoImplicit false

namespace PyMarket

open Spec

/-- What is at stake in the transactions of user `u`: the sum of the absolute gains and losses, when the
bids are worth `price`. -/
def Spec.stakeOf (df : DF) (price : ℕ → ℚ) (u : ℤ) (ts : List Transaction) : ℚ :=
  ((transOf df u ts).map (fun t => |price t.bid - t.price| * |t.quantity|)).sum

/-! ## Without rounding the model is the exact one -/

theorem getGainF_exact (t : Transaction) (p : ℚ) (b : Bool) : getGainF exactFmt t p b = getGain t p b := rfl

theorem userProfitF_exact (m : List (Transaction × Row)) (price : Row → ℚ) (u : ℤ) :
    userProfitF exactFmt List.sum m price u = userProfit m price u := by
  unfold userProfitF userProfit
  simp only [getGainF_exact]
  split
  · rename_i h; rw [h]; rfl
  · rfl

/-- **C86, consistency.** With exact arithmetic the rounded statistics are those of `Model/Stats`. -/
theorem C86_exact (s : Summer exactFmt) (solve : Solver) (df : DF) (ts : List Transaction)
    (res : Option ResPrices) (fees : Option (List ℚ)) :
    calculateProfitsF exactFmt s List.sum df ts res fees = calculateProfits df ts res fees ∧
    percentageTradedF exactFmt s solve df ts = percentageTraded solve df ts ∧
    percentageWelfareF exactFmt s solve df ts res = percentageWelfare solve df ts res := by
  refine ⟨?_, ?_, ?_⟩
  · unfold calculateProfitsF calculateProfits
    simp only [exactFmt_rnd, Summer.exact, funext (userProfitF_exact _ _)]
  · unfold percentageTradedF percentageTraded
    simp only [exactFmt_rnd, Summer.exact]
  · unfold percentageWelfareF percentageWelfare
    simp only [exactFmt_rnd, Summer.exact]

/-! ## The players -/

/-- The gain of one entry, up to two roundings. -/
theorem getGainF_err (F : Fmt) (t : Transaction) (p : ℚ) (b : Bool) :
    |getGainF F t p b - getGain t p b| ≤ ((1 + F.eps) ^ 2 - 1) * |getGain t p b| := by
  have e0 := F.eps_nonneg
  have key : ∀ d q : ℚ, |F.rnd (F.rnd d * q) - d * q| ≤ ((1 + F.eps) ^ 2 - 1) * |d * q| := by
    intro d q
    have h1 := F.err d
    have h2 := F.err (F.rnd d * q)
    have h3 : |F.rnd d * q - d * q| ≤ F.eps * |d * q| := by
      rw [← sub_mul, abs_mul, abs_mul, ← mul_assoc]
      exact mul_le_mul_of_nonneg_right h1 (abs_nonneg q)
    have h4 : |F.rnd d * q| ≤ (1 + F.eps) * |d * q| := by
      have : F.rnd d * q = d * q + (F.rnd d * q - d * q) := by ring
      rw [this]
      exact (abs_add_le _ _).trans (by linarith)
    have h5 : |F.rnd (F.rnd d * q) - F.rnd d * q| ≤ F.eps * ((1 + F.eps) * |d * q|) :=
      h2.trans (mul_le_mul_of_nonneg_left h4 e0)
    have : F.rnd (F.rnd d * q) - d * q = (F.rnd (F.rnd d * q) - F.rnd d * q) + (F.rnd d * q - d * q) := by
      ring
    rw [this]
    refine (abs_add_le _ _).trans ?_
    nlinarith
  unfold getGainF getGain
  cases b
  · simp only [Bool.not_false, if_true, ← F.neg]
    exact key _ _
  · simp only [Bool.not_true, Bool.false_eq_true, if_false]
    exact key _ _

/-- Adding up numbers with relative errors. -/
theorem sum_rel_err {α : Type} (l : List α) (f g : α → ℚ) {d : ℚ}
    (h : ∀ x ∈ l, |f x - g x| ≤ d * |g x|) :
    |(l.map f).sum - (l.map g).sum| ≤ d * absSum (l.map g) ∧
    absSum (l.map f) ≤ (1 + d) * absSum (l.map g) := by
  induction l with
  | nil => simp [absSum]
  | cons x l ih =>
    obtain ⟨i1, i2⟩ := ih (fun y hy => h y (List.mem_cons_of_mem _ hy))
    have hx := h x List.mem_cons_self
    simp only [absSum, List.map_cons, List.sum_cons] at i1 i2 ⊢
    constructor
    · have : f x + (l.map f).sum - (g x + (l.map g).sum) =
          (f x - g x) + ((l.map f).sum - (l.map g).sum) := by ring
      rw [this]
      refine (abs_add_le _ _).trans ?_
      linarith
    · have : |f x| ≤ |g x| + |f x - g x| := by
        have := abs_add_le (g x) (f x - g x)
        rwa [add_sub_cancel] at this
      linarith

theorem accurate_sum {α : Type} {K : ℕ → ℚ} {N : ℕ} {sum : List ℚ → ℚ} (hs : Accurate K N sum)
    (l : List α) (f g : α → ℚ) {d : ℚ} (hl : l.length ≤ N) (hK : 0 ≤ K l.length)
    (h : ∀ x ∈ l, |f x - g x| ≤ d * |g x|) :
    |sum (l.map f) - (l.map g).sum| ≤ ((1 + K l.length) * (1 + d) - 1) * absSum (l.map g) := by
  obtain ⟨h1, h2⟩ := sum_rel_err l f g h
  have h3 := hs (l.map f) (by rwa [List.length_map])
  rw [List.length_map] at h3
  have h4 := mul_le_mul_of_nonneg_left h2 hK
  have : sum (l.map f) - (l.map g).sum =
      (sum (l.map f) - (l.map f).sum) + ((l.map f).sum - (l.map g).sum) := by ring
  rw [this]
  refine (abs_add_le _ _).trans ?_
  linarith

/-- The entries of a user in the joined table. -/
theorem own_entries {df : DF} (ht : IsTable df) (price : ℕ → ℚ) (ts : List Transaction) (u : ℤ) :
    ((joinBids df ts).filter (fun p => decide (p.2.user = u))).length = (transOf df u ts).length ∧
    absSum (((joinBids df ts).filter (fun p => decide (p.2.user = u))).map
      (fun p => getGain p.1 (price p.2.label) p.2.buying)) = stakeOf df price u ts := by
  induction ts with
  | nil => simp [joinBids, stakeOf, transOf, absSum]
  | cons t ts ih =>
    rw [joinBids_cons ht]
    cases h : df[t.bid]? with
    | none =>
      have : ownedBy df u t.bid = false := by simp [ownedBy, h]
      simpa [stakeOf, transOf, this] using ih
    | some r =>
      have hl := ht.label h
      by_cases hu : r.user = u
      · have ho : ownedBy df u t.bid = true := by simp [ownedBy, h, hu]
        obtain ⟨i1, i2⟩ := ih
        simp only [transOf, stakeOf, absSum] at i1 i2 ⊢
        rw [List.filter_cons_of_pos (by simp [hu]), List.filter_cons_of_pos (a := t) (by exact ho)]
        refine ⟨by simp only [List.length_cons, i1], ?_⟩
        simp only [List.map_cons, List.sum_cons, i2]
        congr 1
        unfold getGain
        rw [abs_mul, hl]
        cases r.buying
        · simp only [Bool.not_false, if_true, abs_neg]
        · simp only [Bool.not_true, Bool.false_eq_true, if_false]
      · have ho : ownedBy df u t.bid = false := by simp [ownedBy, h, hu]
        simp only [transOf, stakeOf, absSum] at ih ⊢
        rw [List.filter_cons_of_neg (by simp [hu]), List.filter_cons_of_neg (by simp [ho])]
        exact ih

theorem userProfitF_err (F : Fmt) {K : ℕ → ℚ} {N : ℕ} {g : List ℚ → ℚ} (hg : Accurate K N g)
    {df : DF} (ht : IsTable df) (price : ℕ → ℚ) (pr : Row → ℚ) (ts : List Transaction)
    (hpr : ∀ p ∈ joinBids df ts, pr p.2 = price p.2.label) (u : ℤ)
    (hN : (transOf df u ts).length ≤ N) (hK : 0 ≤ K (transOf df u ts).length) :
    |userProfitF F g (joinBids df ts) pr u - surplusOf df price u ts| ≤
      ((1 + K (transOf df u ts).length) * (1 + F.eps) ^ 2 - 1) * stakeOf df price u ts := by
  obtain ⟨h1, h2⟩ := own_entries ht price ts u
  rw [← userProfit_eq ht, ← h2]
  rw [← h1] at hN hK ⊢
  unfold userProfitF userProfit
  set own := (joinBids df ts).filter (fun p => decide (p.2.user = u)) with hown
  have hmap : own.map (fun p => getGainF F p.1 (pr p.2) p.2.buying) =
      own.map (fun p => getGainF F p.1 (price p.2.label) p.2.buying) := by
    apply List.map_congr_left
    intro p hp
    rw [hpr p (List.mem_filter.mp hp).1]
  simp only
  rw [hmap]
  split
  · rename_i h
    simp [h, absSum]
  · have := accurate_sum hg own (fun p => getGainF F p.1 (price p.2.label) p.2.buying)
      (fun p => getGain p.1 (price p.2.label) p.2.buying) hN hK
      (fun p _ => getGainF_err F p.1 _ _)
    rw [add_sub_cancel] at this
    exact this

theorem mem_join {df : DF} (ht : IsTable df) {ts : List Transaction} {p : Transaction × Row}
    (hp : p ∈ joinBids df ts) : p.1 ∈ ts ∧ df[p.1.bid]? = some p.2 := by
  unfold joinBids at hp
  obtain ⟨t, htm, h⟩ := List.mem_filterMap.mp hp
  rw [find_label ht] at h
  cases h2 : df[t.bid]? with
  | none => rw [h2] at h; cases h
  | some r =>
    rw [h2] at h
    cases h
    exact ⟨htm, h2⟩

theorem transOf_length_le (df : DF) (u : ℤ) (ts : List Transaction) : (transOf df u ts).length ≤ ts.length :=
  List.length_filter_le _ _

/-- **C86, players.** The two profits of every player are the surpluses at the bid and at the reservation
prices, up to a small multiple of what is at stake for the player; `K` is the accuracy of the sum. -/
theorem C86_players (F : Fmt) (s : Summer F) (g : List ℚ → ℚ) (K : ℕ → ℚ) (df : DF) (ht : IsTable df)
    (ts : List Transaction) (hg : Accurate K ts.length g) (hK : ∀ n, 0 ≤ K n) (res : Option ResPrices)
    (fees : Option (List ℚ)) :
    ∃ us f h, UsersOf df us ∧ (calculateProfitsF F s g df ts res fees).1.playerBid = us.map f ∧
      (calculateProfitsF F s g df ts res fees).1.playerReservation = us.map h ∧
      ∀ u, |f u - surplusOf df (priceOf df) u ts| ≤
          ((1 + K (transOf df u ts).length) * (1 + F.eps) ^ 2 - 1) * stakeOf df (priceOf df) u ts ∧
        |h u - surplusOf df (reservationOf df (res.getD (fun _ => none))) u ts| ≤
          ((1 + K (transOf df u ts).length) * (1 + F.eps) ^ 2 - 1) *
            stakeOf df (reservationOf df (res.getD (fun _ => none))) u ts := by
  refine ⟨sortedUsers df, _, _, sortedUsers_spec df, rfl, rfl, ?_⟩
  intro u
  constructor
  · refine userProfitF_err F hg ht (priceOf df) _ ts ?_ u (transOf_length_le _ _ _) (hK _)
    intro p hp
    exact (ht.price_eq (List.mem_of_getElem? (mem_join ht hp).2)).symm
  · refine userProfitF_err F hg ht _ _ ts ?_ u (transOf_length_le _ _ _) (hK _)
    intro p hp
    have hr := List.mem_of_getElem? (mem_join ht hp).2
    simp only [reservationOf]
    rw [fillRes_get _ _ ht.nodup, find_label ht, ht.get_label hr, ht.price_eq hr]
    cases res.getD (fun _ => none) p.2.label <;> rfl

/-- **C86, no spurious losses.** If every entry of the log that moves something is at an acceptable price
for its bid, all profits at bid prices are computed as non-negative, whatever the rounding. -/
theorem C86_no_losses (F : Fmt) (s : Summer F) (g : List ℚ → ℚ) (df : DF) (ht : IsTable df)
    (ts : List Transaction) (hg : KeepsSign ts.length g) (res : Option ResPrices) (fees : Option (List ℚ))
    (hq : ∀ t ∈ ts, 0 ≤ t.quantity)
    (hb : ∀ t ∈ ts, t.quantity ≠ 0 → isBuy df t.bid = true → t.price ≤ priceOf df t.bid)
    (hs : ∀ t ∈ ts, t.quantity ≠ 0 → isSell df t.bid = true → priceOf df t.bid ≤ t.price) :
    ∀ x ∈ (calculateProfitsF F s g df ts res fees).1.playerBid, 0 ≤ x := by
  intro x hx
  obtain ⟨u, -, rfl⟩ := List.mem_map.mp hx
  unfold userProfitF
  simp only
  split
  · exact le_refl _
  refine hg _ ?_ ?_
  · rw [List.length_map, (own_entries ht (priceOf df) ts u).1]
    exact transOf_length_le _ _ _
  intro y hy
  obtain ⟨p, hp, rfl⟩ := List.mem_map.mp hy
  obtain ⟨h1, h2⟩ := mem_join ht (List.mem_filter.mp hp).1
  have hr := List.mem_of_getElem? h2
  have hl := ht.label h2
  unfold getGainF
  apply F.rnd_nonneg
  by_cases h0 : p.1.quantity = 0
  · rw [h0, mul_zero]
  apply mul_nonneg _ (hq _ h1)
  have e1 := ht.isBuy_eq hr
  have e2 := ht.isSell_eq hr
  have e3 := ht.price_eq hr
  rw [hl] at e1 e2 e3
  cases hbuy : p.2.buying
  · rw [hbuy] at e2
    have := hs _ h1 h0 (by rw [e2]; rfl)
    simp only [Bool.not_false, if_true]
    rw [← F.neg]
    apply F.rnd_nonneg
    linarith
  · rw [hbuy] at e1
    have := hb _ h1 h0 e1
    simp only [Bool.not_true, Bool.false_eq_true, if_false]
    apply F.rnd_nonneg
    linarith

/-! ## The market maker -/

/-- `x` approximates `y`, a number of size at most `m`, with relative error `E - 1`. -/
structure Near (E x y m : ℚ) : Prop where
  one_le : 1 ≤ E
  size : |y| ≤ m
  err : |x - y| ≤ (E - 1) * m

theorem Near.nonneg {E x y m : ℚ} (h : Near E x y m) : 0 ≤ m := (abs_nonneg y).trans h.size

theorem Near.abs_le {E x y m : ℚ} (h : Near E x y m) : |x| ≤ E * m := by
  have := abs_add_le y (x - y)
  rw [add_sub_cancel] at this
  linarith [h.size, h.err]

theorem Near.rnd {F : Fmt} {E x y m : ℚ} (h : Near E x y m) : Near (E * (1 + F.eps)) (F.rnd x) y m := by
  have e0 := F.eps_nonneg
  refine ⟨by nlinarith [h.one_le], h.size, ?_⟩
  have h1 := F.err x
  have h2 := mul_le_mul_of_nonneg_left h.abs_le e0
  have : F.rnd x - y = (F.rnd x - x) + (x - y) := by ring
  rw [this]
  refine (abs_add_le _ _).trans ?_
  linarith [h.err]

theorem Near.mono {E E' x y m : ℚ} (h : Near E x y m) (hE : E ≤ E') : Near E' x y m :=
  ⟨h.one_le.trans hE, h.size, h.err.trans (mul_le_mul_of_nonneg_right (by linarith) h.nonneg)⟩

theorem Near.add {E x y m x' y' m' : ℚ} (h : Near E x y m) (h' : Near E x' y' m') :
    Near E (x + x') (y + y') (m + m') := by
  refine ⟨h.one_le, (abs_add_le _ _).trans (add_le_add h.size h'.size), ?_⟩
  have : x + x' - (y + y') = (x - y) + (x' - y') := by ring
  rw [this, mul_add]
  exact (abs_add_le _ _).trans (add_le_add h.err h'.err)

theorem Near.neg {E x y m : ℚ} (h : Near E x y m) : Near E (-x) (-y) m := by
  refine ⟨h.one_le, by rw [abs_neg]; exact h.size, ?_⟩
  rw [← abs_neg]
  have : -(-x - -y) = x - y := by ring
  rw [this]
  exact h.err

theorem Near.sub {E x y m x' y' m' : ℚ} (h : Near E x y m) (h' : Near E x' y' m') :
    Near E (x - x') (y - y') (m + m') := by
  rw [sub_eq_add_neg, sub_eq_add_neg]
  exact h.add h'.neg

theorem Near.div {E x y m c : ℚ} (h : Near E x y m) (hc : 0 < c) : Near E (x / c) (y / c) (m / c) := by
  refine ⟨h.one_le, ?_, ?_⟩
  · rw [abs_div, abs_of_pos hc]
    exact div_le_div_of_nonneg_right h.size hc.le
  · rw [← sub_div, abs_div, abs_of_pos hc, ← mul_div_assoc]
    exact div_le_div_of_nonneg_right h.err hc.le

theorem Near.refl (y : ℚ) : Near 1 y y |y| := ⟨le_refl _, le_refl _, by simp⟩

/-- A rounded sum of approximations. -/
theorem near_sum {F : Fmt} (s : Summer F) {α : Type} (l : List α) (f g : α → ℚ) {E : ℚ} (hE : 1 ≤ E)
    (h : ∀ x ∈ l, Near E (f x) (g x) |g x|) {n : ℕ} (hn : l.length ≤ n + 1) :
    Near (E * (1 + F.eps) ^ n) (s.sum (l.map f)) (l.map g).sum (absSum (l.map g)) := by
  have e0 := F.eps_nonneg
  have hone : ∀ k, 1 ≤ (1 + F.eps) ^ k := fun k => one_le_pow₀ (by linarith)
  have h1 := accurate_sum (s.accurate l.length) l f g (d := E - 1) (le_refl _)
    (by linarith [hone (l.length - 1)]) (fun x hx => (h x hx).err)
  simp only [add_sub_cancel] at h1
  refine ⟨?_, abs_sum_le _, h1.trans ?_⟩
  · have := hone n
    nlinarith
  · apply mul_le_mul_of_nonneg_right _ (absSum_nonneg _)
    have : (1 + F.eps) ^ (l.length - 1) ≤ (1 + F.eps) ^ n := pow_le_pow_right₀ (by linarith) (by omega)
    nlinarith

theorem join_map_buy {df : DF} (ht : IsTable df) {α : Type} (g : Transaction → ℚ → α) (ts : List Transaction) :
    ((joinBids df ts).filter (fun p => p.2.buying)).map (fun p => g p.1 p.2.price) =
      (ts.filter (fun t => isBuy df t.bid)).map (fun t => g t (priceOf df t.bid)) := by
  induction ts with
  | nil => rfl
  | cons t ts ih =>
    rw [joinBids_cons ht, List.filter_cons]
    cases h : df[t.bid]? with
    | none =>
      have : isBuy df t.bid = false := by simp [isBuy, h]
      simp only [this, ih]; rfl
    | some r =>
      have h1 : isBuy df t.bid = r.buying := by simp [isBuy, h]
      have h2 : priceOf df t.bid = r.price := by simp [priceOf, h]
      simp only [h1, List.filter_cons]
      cases hb : r.buying with
      | true => simp only [if_true, List.map_cons, ih, h2]
      | false => simpa using ih

theorem join_map_sell {df : DF} (ht : IsTable df) {α : Type} (g : Transaction → ℚ → α) (ts : List Transaction) :
    ((joinBids df ts).filter (fun p => !p.2.buying)).map (fun p => g p.1 p.2.price) =
      (ts.filter (fun t => isSell df t.bid)).map (fun t => g t (priceOf df t.bid)) := by
  induction ts with
  | nil => rfl
  | cons t ts ih =>
    rw [joinBids_cons ht, List.filter_cons]
    cases h : df[t.bid]? with
    | none =>
      have : isSell df t.bid = false := by simp [isSell, h]
      simp only [this, ih]; rfl
    | some r =>
      have h1 : isSell df t.bid = !r.buying := by simp [isSell, h]
      have h2 : priceOf df t.bid = r.price := by simp [priceOf, h]
      simp only [h1, List.filter_cons]
      cases hb : r.buying with
      | false => simp only [Bool.not_false, if_true, List.map_cons, ih, h2]
      | true => simpa using ih

/-- The money moved by a log, without regard to sign. -/
def Spec.turnover (df : DF) (ts : List Transaction) : ℚ :=
  ((ts.filter (fun t => isBuy df t.bid)).map (fun t => |t.price * t.quantity|)).sum +
  ((ts.filter (fun t => isSell df t.bid)).map (fun t => |t.price * t.quantity|)).sum

/-- **C86, market.** The profit of the market maker is what is paid and not received, plus the fees, up to
a small multiple of the money moved. -/
theorem C86_market (F : Fmt) (s : Summer F) (g : List ℚ → ℚ) (df : DF) (ht : IsTable df)
    (ts : List Transaction) (res : Option ResPrices) (fees : List ℚ) :
    |(calculateProfitsF F s g df ts res (some fees)).1.market -
        (paid df ts - received df ts + fees.sum)| ≤
      ((1 + F.eps) ^ (max ts.length fees.length + 2) - 1) * (turnover df ts + absSum fees) := by
  have e0 := F.eps_nonneg
  set n := max ts.length fees.length with hn
  have hside : ∀ P : Transaction → Bool, Near ((1 + F.eps) * (1 + F.eps) ^ (n - 1))
      (s.sum ((ts.filter P).map (fun t => F.rnd (t.price * t.quantity))))
      ((ts.filter P).map (fun t => t.price * t.quantity)).sum
      (absSum ((ts.filter P).map (fun t => t.price * t.quantity))) := by
    intro P
    refine near_sum s _ _ _ (by linarith) ?_ ?_
    · intro t _
      have := (Near.refl (t.price * t.quantity)).rnd (F := F)
      rwa [one_mul] at this
    · have h1 : (ts.filter P).length ≤ ts.length := List.length_filter_le _ _
      have h2 : ts.length ≤ n := le_max_left _ _
      omega
  have hfee : Near ((1 + F.eps) ^ (n + 1)) (s.sum fees) fees.sum (absSum fees) := by
    have := near_sum s fees (fun x => x) (fun x => x) (E := 1) (le_refl _) (fun x _ => Near.refl x)
      (n := n + 1) (by have : fees.length ≤ n := le_max_right _ _; omega)
    simpa using this
  have hin := (hside (fun t => isBuy df t.bid)).sub (hside (fun t => isSell df t.bid))
  have hpow : (1 + F.eps) * (1 + F.eps) ^ (n - 1) ≤ (1 + F.eps) ^ n ∨ n = 0 := by
    rcases Nat.eq_zero_or_pos n with h | h
    · right; exact h
    · left; rw [← pow_succ', Nat.sub_add_cancel h]
  have hall : Near ((1 + F.eps) ^ (n + 1)) (F.rnd
      (s.sum ((ts.filter (fun t => isBuy df t.bid)).map (fun t => F.rnd (t.price * t.quantity))) -
        s.sum ((ts.filter (fun t => isSell df t.bid)).map (fun t => F.rnd (t.price * t.quantity)))))
      (paid df ts - received df ts) (turnover df ts) := by
    have e1 : ∀ P : Transaction → Bool, ((ts.filter P).map (fun t => t.price * t.quantity)).sum =
        ((ts.filter P).map (fun t => t.quantity * t.price)).sum := by
      intro P; congr 1; apply List.map_congr_left; intro t _; ring
    rw [e1, e1] at hin
    have e2 : ∀ P : Transaction → Bool, absSum ((ts.filter P).map (fun t => t.price * t.quantity)) =
        ((ts.filter P).map (fun t => |t.price * t.quantity|)).sum := by
      intro P; unfold absSum; rw [List.map_map]; rfl
    rw [e2, e2] at hin
    rcases hpow with h | h
    · have := (hin.mono h).rnd (F := F)
      rw [← pow_succ] at this
      exact this
    · have hts : ts = [] := by
        have : ts.length ≤ 0 := by rw [← h]; exact le_max_left _ _
        exact List.length_eq_zero_iff.mp (by omega)
      subst hts
      have h0 : s.sum [] = 0 := by
        have := (s.isSum []).err_abs
        simp only [absSum, List.map_nil, List.sum_nil, mul_zero, sub_zero] at this
        exact abs_eq_zero.mp (le_antisymm this (abs_nonneg _))
      refine ⟨one_le_pow₀ (by linarith), ?_, ?_⟩
      · simp [paid, received, turnover]
      · simp [paid, received, turnover, h0, F.rnd_zero]
  have hfin := (hall.add hfee).rnd (F := F)
  rw [← pow_succ] at hfin
  have hm : (calculateProfitsF F s g df ts res (some fees)).1.market = F.rnd (F.rnd
      (s.sum ((ts.filter (fun t => isBuy df t.bid)).map (fun t => F.rnd (t.price * t.quantity))) -
        s.sum ((ts.filter (fun t => isSell df t.bid)).map (fun t => F.rnd (t.price * t.quantity)))) +
      s.sum fees) := by
    have j1 := join_map_buy ht (fun t _ => F.rnd (t.price * t.quantity)) ts
    have j2 := join_map_sell ht (fun t _ => F.rnd (t.price * t.quantity)) ts
    unfold calculateProfitsF
    simp only [j1, j2, Option.getD_some]
  rw [hm]
  exact hfin.err

theorem sum_zeros {F : Fmt} (s : Summer F) (l : List ℚ) (h : ∀ x ∈ l, x = 0) : s.sum l = 0 := by
  have h1 : absSum l = 0 := by
    unfold absSum
    apply List.sum_eq_zero
    intro y hy
    obtain ⟨x, hx, rfl⟩ := List.mem_map.mp hy
    rw [h x hx, abs_zero]
  have h2 := (s.isSum l).err_abs
  rw [h1, mul_zero, List.sum_eq_zero h, sub_zero] at h2
  exact abs_eq_zero.mp (le_antisymm h2 (abs_nonneg _))

/-- Without fees the market maker's profit is computed as with an empty list of fees. -/
theorem market_no_fees (F : Fmt) (s : Summer F) (g : List ℚ → ℚ) (df : DF) (ts : List Transaction)
    (res : Option ResPrices) :
    (calculateProfitsF F s g df ts res none).1.market =
      (calculateProfitsF F s g df ts res (some [])).1.market := by
  unfold calculateProfitsF
  simp only [Option.getD_none, Option.getD_some]
  rw [sum_zeros s _ (fun x hx => (List.eq_of_mem_replicate hx)), sum_zeros s [] (by simp)]

/-! ## The percentages -/

/-- **C86, percentage traded.** Up to rounding the reported share is the traded volume divided by the
value of the solver. -/
theorem C86_traded (F : Fmt) (s : Summer F) (solve : Solver) (df : DF) (ts : List Transaction)
    (hq : ∀ t ∈ ts, 0 ≤ t.quantity) :
    (percentageTradedF F s solve df ts = none ∧ percentageTraded solve df ts = none) ∨
    ∃ x y, percentageTradedF F s solve df ts = some x ∧ percentageTraded solve df ts = some y ∧
      0 ≤ x ∧ |x - y| ≤ ((1 + F.eps) ^ (ts.length + 2) - 1) * y := by
  unfold percentageTradedF percentageTraded
  simp only
  by_cases h : 0 < solve (volumeLP df)
  swap
  · left; rw [if_neg h, if_neg h]; exact ⟨rfl, rfl⟩
  right
  rw [if_pos h, if_pos h]
  refine ⟨_, _, rfl, rfl, ?_, ?_⟩
  · apply F.rnd_nonneg
    apply div_nonneg _ h.le
    apply F.rnd_nonneg
    apply div_nonneg _ (by norm_num)
    apply (s.isSum _).nonneg
    intro x hx
    obtain ⟨t, ht, rfl⟩ := List.mem_map.mp hx
    exact hq t ht
  · have h1 := near_sum s ts (fun t => t.quantity) (fun t => t.quantity) (E := 1) (le_refl _)
      (fun t _ => Near.refl _) (n := ts.length) (by omega)
    have habs : absSum (ts.map (fun t => t.quantity)) = (ts.map (fun t => t.quantity)).sum :=
      absSum_of_nonneg (by
        intro x hx
        obtain ⟨t, ht, rfl⟩ := List.mem_map.mp hx
        exact hq t ht)
    rw [one_mul, habs] at h1
    have h2 := (((h1.div (by norm_num : (0 : ℚ) < 2)).rnd (F := F)).div h).rnd (F := F)
    rw [← pow_succ, ← pow_succ] at h2
    exact h2.err

/-- **C86, percentage of welfare.** The reported share is the welfare divided by the value of the solver,
up to a small multiple of the sum of all gains and losses. -/
theorem C86_welfare (F : Fmt) (s : Summer F) (solve : Solver) (df : DF) (ht : IsTable df)
    (ts : List Transaction) (res : Option ResPrices) :
    (percentageWelfareF F s solve df ts res = none ∧ percentageWelfare solve df ts res = none) ∨
    ∃ x y, percentageWelfareF F s solve df ts res = some x ∧ percentageWelfare solve df ts res = some y ∧
      |x - y| * solve (utilityLP df (fun _ => none)) ≤ ((1 + F.eps) ^ (ts.length + 4) - 1) *
        (((ts.filter (fun t => isBuy df t.bid)).map (fun t => |(priceOf df t.bid - t.price) * t.quantity|)).sum +
          ((ts.filter (fun t => isSell df t.bid)).map
            (fun t => |(t.price - priceOf df t.bid) * t.quantity|)).sum) := by
  have e0 := F.eps_nonneg
  unfold percentageWelfareF percentageWelfare
  simp only
  by_cases h : 0 < solve (utilityLP df (fun _ => none))
  swap
  · left; rw [if_neg h, if_neg h]; exact ⟨rfl, rfl⟩
  right
  rw [if_pos h, if_pos h]
  refine ⟨_, _, rfl, rfl, ?_⟩
  rw [join_map_buy ht (fun t p => F.rnd (F.rnd (p - t.price) * t.quantity)),
    join_map_sell ht (fun t p => F.rnd (F.rnd (t.price - p) * t.quantity)),
    join_map_buy ht (fun t p => (p - t.price) * t.quantity),
    join_map_sell ht (fun t p => (t.price - p) * t.quantity)]
  have hone : ∀ d q : ℚ, Near ((1 + F.eps) ^ 2) (F.rnd (F.rnd d * q)) (d * q) |d * q| := by
    intro d q
    have h1 := getGainF_err F ⟨0, q, 0, 0, false⟩ d true
    simp only [getGainF, getGain, Bool.not_true, Bool.false_eq_true, if_false, sub_zero] at h1
    exact ⟨one_le_pow₀ (by linarith), le_refl _, h1⟩
  have habs : ∀ (l : List Transaction) (f : Transaction → ℚ),
      absSum (l.map f) = (l.map (fun t => |f t|)).sum := by
    intro l f; unfold absSum; rw [List.map_map]; rfl
  have hlen : ∀ P : Transaction → Bool, (ts.filter P).length ≤ ts.length + 1 := fun P =>
    (List.length_filter_le _ _).trans (by omega)
  have h1 := near_sum s (ts.filter (fun t => isBuy df t.bid))
    (fun t => F.rnd (F.rnd (priceOf df t.bid - t.price) * t.quantity))
    (fun t => (priceOf df t.bid - t.price) * t.quantity) (one_le_pow₀ (by linarith))
    (fun t _ => hone _ _) (hlen _)
  have h2 := near_sum s (ts.filter (fun t => isSell df t.bid))
    (fun t => F.rnd (F.rnd (t.price - priceOf df t.bid) * t.quantity))
    (fun t => (t.price - priceOf df t.bid) * t.quantity) (one_le_pow₀ (by linarith))
    (fun t _ => hone _ _) (hlen _)
  have h3 := (((h1.add h2).rnd (F := F)).div h).rnd (F := F)
  rw [habs, habs, ← pow_add, ← pow_succ, ← pow_succ,
    show 2 + ts.length + 1 + 1 = ts.length + 4 by omega] at h3
  have h4 := h3.err
  rw [← mul_div_assoc, le_div_iff₀ h] at h4
  exact h4

end PyMarket
