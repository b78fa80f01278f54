import Verif.Lemmas.MarketBook
import Verif.Lemmas.TradingBids
import Verif.Lemmas.KnownBids
import Verif.Lemmas.Managers
import Verif.Spec.MudaMarketOrders

/-! # MUDA with infinite prices: a half -/

set_option autoImplicit false

namespace PyMarket

open Spec

/-! ## Sums that skip NaN -/

theorem sumSkip_cons (v : Val) (l : List Val) : sumSkip (v :: l) = if v = .nan then sumSkip l else v.add (sumSkip l) := by
  unfold sumSkip
  by_cases h : v = .nan
  · rw [if_pos h, List.filter_cons_of_neg (by simpa using h)]
  · rw [if_neg h, List.filter_cons_of_pos (by simpa using h)]
    rfl

/-- The gain of a bid at an infinite price, against those with two stand-ins. -/
def GapUp (v : Val) (a b : ℚ) : Prop :=
  0 ≤ a ∧ ((v = .fin a ∧ a = b) ∨ (v = .nan ∧ a = 0 ∧ b = 0) ∨ (v = .inf ∧ a < b))

/-- The same with negative gains. -/
def GapDown (v : Val) (a b : ℚ) : Prop :=
  a ≤ 0 ∧ ((v = .fin a ∧ a = b) ∨ (v = .nan ∧ a = 0 ∧ b = 0) ∨ (v = .ninf ∧ b < a))

theorem GapUp.times {v : Val} {a b k : ℚ} (h : GapUp v a b) (hk : 0 ≤ k) : GapUp (Val.times k v) (a * k) (b * k) := by
  refine ⟨mul_nonneg h.1 hk, ?_⟩
  rcases h.2 with ⟨rfl, rfl⟩ | ⟨rfl, rfl, rfl⟩ | ⟨rfl, h1⟩
  · exact Or.inl ⟨by rw [mul_comm]; rfl, rfl⟩
  · exact Or.inr (Or.inl ⟨rfl, zero_mul _, zero_mul _⟩)
  · rcases hk.lt_or_eq with h2 | h2
    · exact Or.inr (Or.inr ⟨if_pos h2, mul_lt_mul_of_pos_right h1 h2⟩)
    · subst h2
      exact Or.inr (Or.inl ⟨by simp [Val.times],
        mul_zero _, mul_zero _⟩)

theorem GapDown.times {v : Val} {a b k : ℚ} (h : GapDown v a b) (hk : 0 ≤ k) : GapDown (Val.times k v) (a * k) (b * k) := by
  refine ⟨mul_nonpos_of_nonpos_of_nonneg h.1 hk, ?_⟩
  rcases h.2 with ⟨rfl, rfl⟩ | ⟨rfl, rfl, rfl⟩ | ⟨rfl, h1⟩
  · exact Or.inl ⟨by rw [mul_comm]; rfl, rfl⟩
  · exact Or.inr (Or.inl ⟨rfl, zero_mul _, zero_mul _⟩)
  · rcases hk.lt_or_eq with h2 | h2
    · exact Or.inr (Or.inr ⟨if_pos h2, mul_lt_mul_of_pos_right h1 h2⟩)
    · subst h2
      exact Or.inr (Or.inl ⟨by simp [Val.times],
        mul_zero _, mul_zero _⟩)

theorem GapUp.add {v w : Val} {a b c d : ℚ} (h : GapUp v a b)
    (h2 : 0 ≤ c ∧ ((w = .fin c ∧ c = d) ∨ (w = .inf ∧ c < d))) :
    0 ≤ a + c ∧ (((if v = .nan then w else v.add w) = .fin (a + c) ∧ a + c = b + d) ∨
      ((if v = .nan then w else v.add w) = .inf ∧ a + c < b + d)) := by
  refine ⟨add_nonneg h.1 h2.1, ?_⟩
  rcases h.2 with ⟨rfl, rfl⟩ | ⟨rfl, rfl, rfl⟩ | ⟨rfl, h1⟩ <;> rcases h2.2 with ⟨rfl, rfl⟩ | ⟨rfl, h3⟩
  · exact Or.inl ⟨rfl, rfl⟩
  · exact Or.inr ⟨rfl, by linarith⟩
  · exact Or.inl ⟨by rw [if_pos rfl, zero_add], rfl⟩
  · exact Or.inr ⟨rfl, by linarith⟩
  · exact Or.inr ⟨rfl, by linarith⟩
  · exact Or.inr ⟨rfl, by linarith⟩

theorem GapDown.add {v w : Val} {a b c d : ℚ} (h : GapDown v a b)
    (h2 : c ≤ 0 ∧ ((w = .fin c ∧ c = d) ∨ (w = .ninf ∧ d < c))) :
    a + c ≤ 0 ∧ (((if v = .nan then w else v.add w) = .fin (a + c) ∧ a + c = b + d) ∨
      ((if v = .nan then w else v.add w) = .ninf ∧ b + d < a + c)) := by
  refine ⟨add_nonpos h.1 h2.1, ?_⟩
  rcases h.2 with ⟨rfl, rfl⟩ | ⟨rfl, rfl, rfl⟩ | ⟨rfl, h1⟩ <;> rcases h2.2 with ⟨rfl, rfl⟩ | ⟨rfl, h3⟩
  · exact Or.inl ⟨rfl, rfl⟩
  · exact Or.inr ⟨rfl, by linarith⟩
  · exact Or.inl ⟨by rw [if_pos rfl, zero_add], rfl⟩
  · exact Or.inr ⟨rfl, by linarith⟩
  · exact Or.inr ⟨rfl, by linarith⟩
  · exact Or.inr ⟨rfl, by linarith⟩

section

variable {α : Type*}

theorem sumSkip_up (l : List α) (v : α → Val) (a b : α → ℚ) (h : ∀ x ∈ l, GapUp (v x) (a x) (b x)) :
    0 ≤ (l.map a).sum ∧ ((sumSkip (l.map v) = .fin (l.map a).sum ∧ (l.map a).sum = (l.map b).sum) ∨
      (sumSkip (l.map v) = .inf ∧ (l.map a).sum < (l.map b).sum)) := by
  induction l with
  | nil => exact ⟨le_refl _, Or.inl ⟨rfl, rfl⟩⟩
  | cons x l ih =>
    simp only [List.map_cons, List.sum_cons, sumSkip_cons]
    exact (h x List.mem_cons_self).add (ih (fun y hy => h y (List.mem_cons_of_mem _ hy)))

theorem sumSkip_down (l : List α) (v : α → Val) (a b : α → ℚ) (h : ∀ x ∈ l, GapDown (v x) (a x) (b x)) :
    (l.map a).sum ≤ 0 ∧ ((sumSkip (l.map v) = .fin (l.map a).sum ∧ (l.map a).sum = (l.map b).sum) ∨
      (sumSkip (l.map v) = .ninf ∧ (l.map b).sum < (l.map a).sum)) := by
  induction l with
  | nil => exact ⟨le_refl _, Or.inl ⟨rfl, rfl⟩⟩
  | cons x l ih =>
    simp only [List.map_cons, List.sum_cons, sumSkip_cons]
    exact (h x List.mem_cons_self).add (ih (fun y hy => h y (List.mem_cons_of_mem _ hy)))

theorem abs_up (l : List α) (v : α → Val) (a b : α → ℚ) (h : ∀ x ∈ l, GapUp (v x) (a x) (b x)) :
    (sumSkip (l.map v)).abs = feeFor |(l.map a).sum| |(l.map b).sum| := by
  obtain ⟨h0, h1⟩ := sumSkip_up l v a b h
  unfold feeFor
  rcases h1 with ⟨h1, h2⟩ | ⟨h1, h2⟩
  · rw [h1, h2, if_pos rfl]
    rfl
  · rw [h1, if_neg]
    · rfl
    · rw [abs_of_nonneg h0, abs_of_nonneg (h0.trans h2.le)]
      exact h2.ne

theorem abs_down (l : List α) (v : α → Val) (a b : α → ℚ) (h : ∀ x ∈ l, GapDown (v x) (a x) (b x)) :
    (sumSkip (l.map v)).abs = feeFor |(l.map a).sum| |(l.map b).sum| := by
  obtain ⟨h0, h1⟩ := sumSkip_down l v a b h
  unfold feeFor
  rcases h1 with ⟨h1, h2⟩ | ⟨h1, h2⟩
  · rw [h1, h2, if_pos rfl]
    rfl
  · rw [h1, if_neg]
    · rfl
    · rw [abs_of_nonpos h0, abs_of_nonpos (h2.le.trans h0)]
      intro h3
      linarith

end

/-! ## The rows -/

section

variable (prc : ℕ → Ext) (P : ℚ)

theorem locLabels_price (df : DF) (l : List ℕ) : locLabels (atPrice prc P df) l = atPrice prc P (locLabels df l) := by
  unfold locLabels
  rw [atPrice_eq, atPrice_eq, List.map_filterMap]
  congr 1
  funext i
  rw [List.find?_map]
  rfl

theorem labels_price (df : DF) : (atPrice prc P df).map (fun r => r.label) = df.map (fun r => r.label) := by
  rw [atPrice_eq, List.map_map]
  rfl

theorem users_price (df : DF) : (atPrice prc P df).map (fun r => r.user) = df.map (fun r => r.user) := by
  rw [atPrice_eq, List.map_map]
  rfl

theorem qsum_price (rows : DF) : qsum (rows.map (priceRow prc P)) = qsum rows := by
  unfold qsum
  rw [qtys_price]

theorem getTradingBids_price (df : DF) (q : ℚ) :
    getTradingBids (df.map (priceRow prc P)) q =
      (getTradingBids df q).map (fun p => (p.1.map (priceRow prc P), p.2)) := by
  unfold getTradingBids
  rw [qtys_price]
  by_cases h : df = [] ∧ q < 0
  · rw [if_pos h, if_pos ⟨by rw [h.1]; rfl, h.2⟩]
    rfl
  · rw [if_neg h, if_neg (by rw [List.map_eq_nil_iff]; exact h)]
    simp only [List.getElem?_map]
    cases df[lastIndex (df.map (fun r => r.quantity)) q]? with
    | none => rfl
    | some row =>
      simp only [Option.map_some, ← List.map_take, qsum_price, ← List.map_drop]
      show (if q - _ < row.quantity then _ else _) = Except.map _ (if q - _ < row.quantity then _ else _)
      split
      · simp only [Except.map, List.map_append, List.map_cons]
        rfl
      · rfl

theorem tradingTrans_price (rows : DF) (i : ℕ) (p : ℚ) (v : Val) :
    (tradingTrans (rows.map (priceRow prc P)) i p).map (withPriceM v) = tradingTransM rows i v := by
  unfold tradingTrans tradingTransM
  rw [List.zipIdx_map, List.filter_map, List.map_map, List.map_map]
  rfl

theorem tradingUsers_price (rows : DF) (i : ℕ) : tradingUsers (rows.map (priceRow prc P)) i = tradingUsers rows i := by
  unfold tradingUsers
  rw [List.zipIdx_map, List.filter_map, List.map_map]
  rfl

theorem capLast_price (d : ℚ) (l : List (Row × ℕ)) :
    capLast d (l.map (Prod.map (priceRow prc P) id)) = (capLast d l).map (Prod.map (priceRow prc P) id) := by
  induction l with
  | nil => rfl
  | cons a l ih =>
    cases l with
    | nil =>
      simp only [List.map_cons, List.map_nil, capLast, Prod.map_fst]
      show (if d < a.1.quantity then _ else _) = _
      split <;> rfl
    | cons b l =>
      simp only [List.map_cons, capLast] at ih ⊢
      rw [ih]

end

/-- The bids that trade instead of the user's, in `computeFee`. -/
def pureNew (df : DF) (index : ℕ) (user : ℤ) (quantity : ℚ) : List (Row × ℕ) :=
  let others := withoutUser df user
  let newWinning := others.take (lastIndex (others.map (fun p => p.1.quantity)) quantity + 1)
  (capLast (quantity - (newWinning.dropLast.map (fun p => p.1.quantity)).sum) newWinning).filter
    (fun p => decide (index < p.2))

theorem withoutUser_price (prc : ℕ → Ext) (P : ℚ) (rows : DF) (u : ℤ) : withoutUser (rows.map (priceRow prc P)) u =
    (withoutUser rows u).map (Prod.map (priceRow prc P) id) := by
  unfold withoutUser
  rw [List.zipIdx_map, List.filter_map]
  rfl

theorem computeFee_price (prc : ℕ → Ext) (P : ℚ) (rows : DF) (i : ℕ) (u : ℤ) (q p : ℚ) :
    computeFee (rows.map (priceRow prc P)) i u q p = if withoutUser rows u = [] then 0 else
      |((pureNew rows i u q).map (fun x => ((prc x.1.label).untopD P - p) * x.1.quantity)).sum| := by
  have hq : ∀ l : List (Row × ℕ), (l.map (Prod.map (priceRow prc P) id)).map (fun p => p.1.quantity) =
      l.map (fun p => p.1.quantity) := by
    intro l
    rw [List.map_map]
    rfl
  unfold computeFee pureNew
  simp only [withoutUser_price, List.map_eq_nil_iff, hq, ← List.map_take, ← List.map_dropLast, capLast_price,
    List.filter_map, List.map_map]
  rfl

theorem capLast_mem {d : ℚ} {l : List (Row × ℕ)} {x : Row × ℕ} (h : x ∈ capLast d l) :
    ∃ y ∈ l, x.1.label = y.1.label ∧ (x.1.quantity = y.1.quantity ∨ x.1.quantity = d) := by
  induction l with
  | nil => cases h
  | cons a l ih =>
    cases l with
    | nil =>
      simp only [capLast] at h
      split at h
      · rw [List.mem_singleton.mp h]
        exact ⟨a, List.mem_singleton.mpr rfl, rfl, Or.inr rfl⟩
      · exact ⟨x, h, rfl, Or.inl rfl⟩
    | cons b l =>
      simp only [capLast] at h
      rcases List.mem_cons.mp h with rfl | h
      · exact ⟨x, List.mem_cons_self, rfl, Or.inl rfl⟩
      · obtain ⟨y, h1, h2⟩ := ih h
        exact ⟨y, List.mem_cons_of_mem _ h1, h2⟩

theorem pureNew_mem {rows : DF} {i : ℕ} {u : ℤ} {q : ℚ} (hq : ∀ r ∈ rows, 0 ≤ r.quantity) (h0 : 0 ≤ q)
    {x : Row × ℕ} (hx : x ∈ pureNew rows i u q) : 0 ≤ x.1.quantity ∧ ∃ r ∈ rows, x.1.label = r.label := by
  unfold pureNew at hx
  obtain ⟨y, h1, h2, h3⟩ := capLast_mem (List.mem_of_mem_filter hx)
  have hw : ∀ z ∈ withoutUser rows u, z.1 ∈ rows := by
    intro z hz
    unfold withoutUser at hz
    have := List.mem_of_mem_filter hz
    exact (List.mem_zipIdx' this).2 ▸ List.getElem_mem _
  have hy := hw y (List.mem_of_mem_take h1)
  refine ⟨?_, y.1, hy, h2⟩
  rcases h3 with h3 | h3
  · rw [h3]
    exact hq _ hy
  · rw [h3]
    have hne : withoutUser rows u ≠ [] := by
      intro h
      rw [h] at h1
      simp at h1
    obtain ⟨A, z, B, e1, e2, e3, _⟩ := lastIndex_spec (q := fun p : Row × ℕ => p.1.quantity) h0 hne
      (fun z hz => hq _ (hw z hz))
    rw [e2, e1]
    have : ((A ++ z :: B).take (A.length + 1)).dropLast = A := by
      rw [List.take_append, List.take_of_length_le (by simp)]
      simp
    rw [this]
    unfold total at e3
    linarith

section

variable {prc : ℕ → Ext} {P P' : ℚ} {rows : DF} {vM : Val} {p p' : ℚ}

/-- The fee with infinite prices, against those with two stand-ins. -/
theorem computeFeeM_eq (hq : ∀ r ∈ rows, 0 ≤ r.quantity)
    (hg : (∀ r ∈ rows, GapUp ((Val.ofExt (prc r.label)).sub vM) ((prc r.label).untopD P - p) ((prc r.label).untopD P' - p')) ∨
      (∀ r ∈ rows, GapDown ((Val.ofExt (prc r.label)).sub vM) ((prc r.label).untopD P - p) ((prc r.label).untopD P' - p')))
    (i : ℕ) (u : ℤ) {q : ℚ} (h0 : 0 ≤ q) :
    computeFeeM prc rows i u q vM = feeFor (computeFee (rows.map (priceRow prc P)) i u q p)
      (computeFee (rows.map (priceRow prc P')) i u q p') := by
  rw [computeFee_price, computeFee_price]
  have e : computeFeeM prc rows i u q vM = if withoutUser rows u = [] then .fin 0 else
    (sumSkip ((pureNew rows i u q).map (fun x => Val.times x.1.quantity ((Val.ofExt (prc x.1.label)).sub vM)))).abs := rfl
  rw [e]
  by_cases h : withoutUser rows u = []
  · rw [if_pos h, if_pos h, if_pos h]
    exact (if_pos rfl).symm
  · rw [if_neg h, if_neg h, if_neg h]
    rcases hg with hg | hg
    · apply abs_up
      intro x hx
      obtain ⟨h1, r, hr, h2⟩ := pureNew_mem hq h0 hx
      rw [h2]
      exact (hg r hr).times h1
    · apply abs_down
      intro x hx
      obtain ⟨h1, r, hr, h2⟩ := pureNew_mem hq h0 hx
      rw [h2]
      exact (hg r hr).times h1

theorem zipWith_set (f f' : List ℚ) (i : ℕ) (x y : ℚ) :
    (List.zipWith feeFor f f').set i (feeFor x y) = List.zipWith feeFor (f.set i x) (f'.set i y) := by
  induction f generalizing f' i with
  | nil => simp
  | cons a f ih =>
    cases f' with
    | nil => simp
    | cons b f' =>
      cases i with
      | zero => rfl
      | succ i => simp only [List.zipWith_cons_cons, List.set_cons_succ, ih]

/-- Equal outcomes, given equally long lists of fees. -/
theorem npSetM_eq (f f' : List ℚ) (hl : f.length = f'.length) (u : ℤ) (x y : ℚ) :
    (∃ g g', npSet f u x = .ok g ∧ npSet f' u y = .ok g' ∧ g.length = f.length ∧ g'.length = f.length ∧
      npSetM (List.zipWith feeFor f f') u (feeFor x y) = .ok (List.zipWith feeFor g g')) ∨
    (npSet f u x = .error .indexError ∧ npSet f' u y = .error .indexError ∧
      npSetM (List.zipWith feeFor f f') u (feeFor x y) = .error .indexError) := by
  have hz : (List.zipWith feeFor f f').length = f.length := by
    rw [List.length_zipWith, ← hl, min_self]
  unfold npSet npSetM
  rw [hz, ← hl, zipWith_set, zipWith_set]
  split_ifs
  · exact Or.inl ⟨_, _, rfl, rfl, List.length_set, by rw [List.length_set, hl], rfl⟩
  · exact Or.inl ⟨_, _, rfl, rfl, List.length_set, by rw [List.length_set, hl], rfl⟩
  · exact Or.inr ⟨rfl, rfl, rfl⟩

theorem feeLoopM_eq (hq : ∀ r ∈ rows, 0 ≤ r.quantity)
    (hg : (∀ r ∈ rows, GapUp ((Val.ofExt (prc r.label)).sub vM) ((prc r.label).untopD P - p) ((prc r.label).untopD P' - p')) ∨
      (∀ r ∈ rows, GapDown ((Val.ofExt (prc r.label)).sub vM) ((prc r.label).untopD P - p) ((prc r.label).untopD P' - p')))
    (i : ℕ) {q : ℚ} (h0 : 0 ≤ q) (us : List ℤ) (f f' : List ℚ) (hl : f.length = f'.length) :
    (∃ g g', feeLoop (rows.map (priceRow prc P)) i q p us f = .ok g ∧
      feeLoop (rows.map (priceRow prc P')) i q p' us f' = .ok g' ∧ g.length = f.length ∧ g'.length = f.length ∧
      feeLoopM prc rows i q vM us (List.zipWith feeFor f f') = .ok (List.zipWith feeFor g g')) ∨
    (feeLoop (rows.map (priceRow prc P)) i q p us f = .error .indexError ∧
      feeLoop (rows.map (priceRow prc P')) i q p' us f' = .error .indexError ∧
      feeLoopM prc rows i q vM us (List.zipWith feeFor f f') = .error .indexError) := by
  induction us generalizing f f' with
  | nil => exact Or.inl ⟨f, f', rfl, rfl, rfl, hl.symm, rfl⟩
  | cons u us ih =>
    simp only [feeLoop, feeLoopM, computeFeeM_eq hq hg i u h0]
    rcases npSetM_eq f f' hl u (computeFee (rows.map (priceRow prc P)) i u q p)
      (computeFee (rows.map (priceRow prc P')) i u q p') with ⟨g, g', h1, h2, h3, h4, h5⟩ | ⟨h1, h2, h3⟩
    · rw [h1, h2, h5]
      rcases ih g g' (h3.trans h4.symm) with ⟨k, k', k1, k2, k3, k4, k5⟩ | ⟨k1, k2, k3⟩
      · exact Or.inl ⟨k, k', k1, k2, k3.trans h3, k4.trans h3, k5⟩
      · exact Or.inr ⟨k1, k2, k3⟩
    · rw [h1, h2, h3]
      exact Or.inr ⟨rfl, rfl, rfl⟩

end

/-! ## A half at a price -/

/-- `p` is what stands for the price `v` of the half when `P` stands for infinity. -/
def StandIn (P : ℚ) (v : Val) (p : ℚ) : Prop := (p < P ∧ v = .fin p) ∨ (v = .inf ∧ p = P)

section

variable {prc : ℕ → Ext} {P P' : ℚ} {S : Sorter} {SE : ExtSorter} {H : DF} {v : Val} {p p' : ℚ}

theorem leExt_standIn {e : Ext} (he : e ≠ ⊤ → e < (P : Ext)) (hv : StandIn P v p) :
    v.leExt e = decide (p ≤ e.untopD P) := by
  rcases hv with ⟨h1, rfl⟩ | ⟨rfl, rfl⟩
  · induction e using WithTop.recTopCoe with
    | top =>
      show decide ((p : Ext) ≤ ⊤) = decide (p ≤ P)
      rw [decide_eq_true le_top, decide_eq_true h1.le]
    | coe x =>
      show decide ((p : Ext) ≤ (x : Ext)) = decide (p ≤ x)
      simp only [WithTop.coe_le_coe]
  · induction e using WithTop.recTopCoe with
    | top =>
      show decide ((⊤ : Ext) = ⊤) = decide (p ≤ p)
      simp
    | coe x =>
      have := WithTop.coe_lt_coe.mp (he WithTop.coe_ne_top)
      show decide ((x : Ext) = ⊤) = decide (p ≤ x)
      rw [decide_eq_false WithTop.coe_ne_top, decide_eq_false (not_le.mpr this)]

theorem extLe_standIn {e : Ext} (he : e ≠ ⊤ → e < (P : Ext)) (hv : StandIn P v p) :
    Val.extLe e v = decide (e.untopD P ≤ p) := by
  rcases hv with ⟨h1, rfl⟩ | ⟨rfl, rfl⟩
  · induction e using WithTop.recTopCoe with
    | top =>
      show decide ((⊤ : Ext) ≤ (p : Ext)) = decide (P ≤ p)
      rw [decide_eq_false (not_le.mpr (WithTop.coe_lt_top p)), decide_eq_false (not_le.mpr h1)]
    | coe x =>
      show decide ((x : Ext) ≤ (p : Ext)) = decide (x ≤ p)
      simp only [WithTop.coe_le_coe]
  · induction e using WithTop.recTopCoe with
    | top =>
      show true = decide (p ≤ p)
      simp
    | coe x =>
      have := WithTop.coe_lt_coe.mp (he WithTop.coe_ne_top)
      show true = decide (x ≤ p)
      rw [decide_eq_true this.le]

theorem willingDemand_price (hs : SortsAlike SE S P) (ha : AbovePrices prc H P) (hv : StandIn P v p) :
    willingDemand S (atPrice prc P H) (.fin p) = (willingDemandM SE prc H v).map (priceRow prc P) := by
  unfold willingDemand willingDemandM
  rw [buys_price, List.filter_map, ← sortDesc_price hs]
  · congr 2
    apply List.filter_congr
    intro r hr
    exact (leExt_standIn (ha.2 r (mem_buys.mp hr).1) hv).symm
  · intro r hr
    exact ha.2 r (mem_buys.mp (List.mem_of_mem_filter hr)).1

theorem willingSupply_price (hs : SortsAlike SE S P) (ha : AbovePrices prc H P) (hv : StandIn P v p) :
    willingSupply S (atPrice prc P H) (.fin p) = (willingSupplyM SE prc H v).map (priceRow prc P) := by
  unfold willingSupply willingSupplyM
  rw [sells_price, List.filter_map, ← sortAsc_price hs]
  · congr 2
    apply List.filter_congr
    intro r hr
    exact (extLe_standIn (ha.2 r (mem_sells.mp hr).1) hv).symm
  · intro r hr
    exact ha.2 r (mem_sells.mp (List.mem_of_mem_filter hr)).1

theorem mem_willingDemandM {r : Row} (h : r ∈ willingDemandM SE prc H v) :
    (r ∈ H ∧ r.buying = true) ∧ v.leExt (prc r.label) = true := by
  have := List.mem_filter.mp (mem_ofIdx (SE.desc_perm _) h)
  exact ⟨mem_buys.mp this.1, this.2⟩

theorem mem_willingSupplyM {r : Row} (h : r ∈ willingSupplyM SE prc H v) :
    (r ∈ H ∧ r.buying = false) ∧ Val.extLe (prc r.label) v = true := by
  have := List.mem_filter.mp (mem_ofIdx (SE.asc_perm _) h)
  exact ⟨mem_sells.mp this.1, this.2⟩

theorem gapUp_of {e : Ext} (he : e ≠ ⊤ → e < (P : Ext)) (hP : P < P')
    (hv : (p < P ∧ v = .fin p ∧ p' = p) ∨ (v = .inf ∧ p = P ∧ p' = P')) (h : v.leExt e = true) :
    GapUp ((Val.ofExt e).sub v) (e.untopD P - p) (e.untopD P' - p') := by
  rcases hv with ⟨h1, rfl, rfl⟩ | ⟨rfl, rfl, rfl⟩
  · induction e using WithTop.recTopCoe with
    | top =>
      refine ⟨sub_nonneg.mpr h1.le, Or.inr (Or.inr ⟨rfl, ?_⟩)⟩
      show P - p' < P' - p'
      linarith
    | coe x =>
      have h2 : p' ≤ x := WithTop.coe_le_coe.mp (of_decide_eq_true h)
      refine ⟨sub_nonneg.mpr h2, Or.inl ⟨?_, rfl⟩⟩
      show Val.fin (x + -p') = .fin (x - p')
      rw [sub_eq_add_neg]
  · have h2 : e = ⊤ := of_decide_eq_true h
    subst h2
    exact ⟨(sub_self p).ge, Or.inr (Or.inl ⟨rfl, sub_self p, sub_self p'⟩)⟩

theorem gapDown_of {e : Ext} (he : e ≠ ⊤ → e < (P : Ext)) (hP : P < P')
    (hv : (p < P ∧ v = .fin p ∧ p' = p) ∨ (v = .inf ∧ p = P ∧ p' = P')) (h : Val.extLe e v = true) :
    GapDown ((Val.ofExt e).sub v) (e.untopD P - p) (e.untopD P' - p') := by
  rcases hv with ⟨h1, rfl, rfl⟩ | ⟨rfl, rfl, rfl⟩
  · induction e using WithTop.recTopCoe with
    | top =>
      have h2 : (⊤ : Ext) ≤ (p' : Ext) := of_decide_eq_true h
      exact absurd h2 (not_le.mpr (WithTop.coe_lt_top p'))
    | coe x =>
      have h2 : x ≤ p' := WithTop.coe_le_coe.mp (of_decide_eq_true h)
      refine ⟨sub_nonpos.mpr h2, Or.inl ⟨?_, rfl⟩⟩
      show Val.fin (x + -p') = .fin (x - p')
      rw [sub_eq_add_neg]
  · induction e using WithTop.recTopCoe with
    | top => exact ⟨(sub_self p).le, Or.inr (Or.inl ⟨rfl, sub_self p, sub_self p'⟩)⟩
    | coe x =>
      have := WithTop.coe_lt_coe.mp (he WithTop.coe_ne_top)
      refine ⟨sub_nonpos.mpr this.le, Or.inr (Or.inr ⟨rfl, ?_⟩)⟩
      show x - p' < x - p
      linarith

theorem above_mono (ha : AbovePrices prc H P) (hP : P < P') : AbovePrices prc H P' :=
  ⟨ha.1.trans hP, fun r hr h => (ha.2 r hr h).trans (WithTop.coe_lt_coe.mpr hP)⟩

/-- A half at a price, with infinite prices and with two stand-ins. -/
theorem solveSideM_eq (hs : SortsAlike SE S P) (hs' : SortsAlike SE S P') (ha : AbovePrices prc H P) (hP : P < P')
    (hq : ∀ r ∈ H, 0 ≤ r.quantity) (hv : (p < P ∧ v = .fin p ∧ p' = p) ∨ (v = .inf ∧ p = P ∧ p' = P'))
    (f f' : List ℚ) (hl : f.length = f'.length) :
    (∃ tm g tm' g', solveSide S (atPrice prc P H) (.fin p) f = .ok (tm, g) ∧
      solveSide S (atPrice prc P' H) (.fin p') f' = .ok (tm', g') ∧ g.length = f.length ∧ g'.length = f.length ∧
      solveSideM SE prc H v (List.zipWith feeFor f f') =
        .ok (tm.trans.map (withPriceM v), List.zipWith feeFor g g')) ∨
    (solveSide S (atPrice prc P H) (.fin p) f = .error .indexError ∧
      solveSide S (atPrice prc P' H) (.fin p') f' = .error .indexError ∧
      solveSideM SE prc H v (List.zipWith feeFor f f') = .error .indexError) := by
  have ha' := above_mono ha hP
  have v1 : StandIn P v p := by
    rcases hv with ⟨h1, h2, _⟩ | ⟨h1, h2, _⟩
    · exact Or.inl ⟨h1, h2⟩
    · exact Or.inr ⟨h1, h2⟩
  have v2 : StandIn P' v p' := by
    rcases hv with ⟨h1, h2, h3⟩ | ⟨h1, h2, h3⟩
    · exact Or.inl ⟨h3 ▸ h1.trans hP, h3 ▸ h2⟩
    · exact Or.inr ⟨h1, h3⟩
  have key : ∀ (long short : DF) (Q : ℚ), 0 < Q → Q ≤ qsum long → Q ≤ qsum short →
      (∀ r ∈ long, r ∈ H) → (∀ r ∈ short, r ∈ H) →
      ((∀ r ∈ long, v.leExt (prc r.label) = true) ∨ (∀ r ∈ long, Val.extLe (prc r.label) v = true)) →
      ∀ X X' : Except PyErr (TransactionManager × List ℚ), ∀ Y : Except PyErr (List TransM × List Val),
      X = (do
        let (longRows, lIndex) ← getTradingBids (long.map (priceRow prc P)) Q
        let (shortRows, sIndex) ← getTradingBids (short.map (priceRow prc P)) Q
        let trans := TransactionManager.init.addAll (tradingTrans shortRows sIndex p ++ tradingTrans longRows lIndex p)
        let fees' ← feeLoop longRows lIndex Q p (tradingUsers longRows lIndex) f
        .ok (trans, fees')) →
      X' = (do
        let (longRows, lIndex) ← getTradingBids (long.map (priceRow prc P')) Q
        let (shortRows, sIndex) ← getTradingBids (short.map (priceRow prc P')) Q
        let trans := TransactionManager.init.addAll (tradingTrans shortRows sIndex p' ++ tradingTrans longRows lIndex p')
        let fees' ← feeLoop longRows lIndex Q p' (tradingUsers longRows lIndex) f'
        .ok (trans, fees')) →
      Y = (do
        let (longRows, lIndex) ← getTradingBids long Q
        let (shortRows, sIndex) ← getTradingBids short Q
        let trans := tradingTransM shortRows sIndex v ++ tradingTransM longRows lIndex v
        let fees' ← feeLoopM prc longRows lIndex Q v (tradingUsers longRows lIndex) (List.zipWith feeFor f f')
        .ok (trans, fees')) →
      (∃ tm g tm' g', X = .ok (tm, g) ∧ X' = .ok (tm', g') ∧ g.length = f.length ∧ g'.length = f.length ∧
        Y = .ok (tm.trans.map (withPriceM v), List.zipWith feeFor g g')) ∨
      (X = .error .indexError ∧ X' = .error .indexError ∧ Y = .error .indexError) := by
    intro long short Q hQ hQl hQs hlH hsH hw X X' Y eX eX' eY
    have hne : ∀ rows : DF, Q ≤ qsum rows → rows ≠ [] := by
      intro rows h1 h2
      rw [h2] at h1
      have : qsum [] = 0 := rfl
      linarith
    obtain ⟨lr, li, l1, l2⟩ := getTradingBids_spec hQ.le (hne _ hQl) (fun r hr => hq r (hlH r hr)) hQl
    obtain ⟨sr, si, s1, _⟩ := getTradingBids_spec hQ.le (hne _ hQs) (fun r hr => hq r (hsH r hr)) hQs
    have hlab := getTradingBids_label l1
    have hg : (∀ r ∈ lr, GapUp ((Val.ofExt (prc r.label)).sub v) ((prc r.label).untopD P - p)
        ((prc r.label).untopD P' - p')) ∨
      (∀ r ∈ lr, GapDown ((Val.ofExt (prc r.label)).sub v) ((prc r.label).untopD P - p)
        ((prc r.label).untopD P' - p')) := by
      rcases hw with hw | hw
      · left
        intro r hr
        obtain ⟨r', h1, h2⟩ := hlab r hr
        rw [← h2]
        exact gapUp_of (ha.2 r' (hlH r' h1)) hP hv (hw r' h1)
      · right
        intro r hr
        obtain ⟨r', h1, h2⟩ := hlab r hr
        rw [← h2]
        exact gapDown_of (ha.2 r' (hlH r' h1)) hP hv (hw r' h1)
    rw [getTradingBids_price, getTradingBids_price, l1, s1] at eX
    rw [getTradingBids_price, getTradingBids_price, l1, s1] at eX'
    rw [l1, s1] at eY
    simp only [Except.map, bind, Except.bind, tradingUsers_price] at eX eX' eY
    rcases feeLoopM_eq (l2.nonneg (fun r hr => hq r (hlH r hr))) hg li hQ.le (tradingUsers lr li) f f' hl with
      ⟨g, g', k1, k2, k3, k4, k5⟩ | ⟨k1, k2, k3⟩
    · rw [k1] at eX
      rw [k2] at eX'
      rw [k5] at eY
      refine Or.inl ⟨_, g, _, g', eX, eX', k3, k4, eY.trans ?_⟩
      simp only [TransactionManager.init_addAll_trans, List.map_append, tradingTrans_price]
    · rw [k1] at eX
      rw [k2] at eX'
      rw [k3] at eY
      exact Or.inr ⟨eX, eX', eY⟩
  have hd : ∀ r ∈ willingDemandM SE prc H v, r ∈ H := fun r hr => (mem_willingDemandM hr).1.1
  have hsu : ∀ r ∈ willingSupplyM SE prc H v, r ∈ H := fun r hr => (mem_willingSupplyM hr).1.1
  have hl1 : ∀ Q : ℚ, (buys (atPrice prc Q H)).length = (buys H).length := fun Q => by rw [buys_price, List.length_map]
  have hl2 : ∀ Q : ℚ, (sells (atPrice prc Q H)).length = (sells H).length := fun Q => by rw [sells_price, List.length_map]
  unfold solveSide solveSideM
  simp only [hl1, hl2, willingDemand_price hs ha v1, willingSupply_price hs ha v1, willingDemand_price hs' ha' v2,
    willingSupply_price hs' ha' v2, qsum_price, Val.toRat]
  by_cases c1 : (buys H).length = 0
  · simp only [if_pos c1]
    exact Or.inl ⟨_, _, _, _, rfl, rfl, rfl, hl.symm, rfl⟩
  simp only [if_neg c1]
  by_cases c2 : (sells H).length = 0
  · simp only [if_pos c2]
    exact Or.inl ⟨_, _, _, _, rfl, rfl, rfl, hl.symm, rfl⟩
  simp only [if_neg c2]
  by_cases c3 : qsum (willingDemandM SE prc H v) < qsum (willingSupplyM SE prc H v)
  · simp only [decide_eq_true c3, if_true]
    by_cases c4 : 0 < qsum (willingDemandM SE prc H v)
    · simp only [if_pos c4]
      exact key _ _ _ c4 c3.le (le_refl _) hsu hd (Or.inr (fun r hr => (mem_willingSupplyM hr).2)) _ _ _ rfl rfl rfl
    · simp only [if_neg c4]
      exact Or.inl ⟨_, _, _, _, rfl, rfl, rfl, hl.symm, rfl⟩
  · simp only [decide_eq_false c3, Bool.false_eq_true, if_false]
    by_cases c4 : 0 < qsum (willingSupplyM SE prc H v)
    · simp only [if_pos c4]
      exact key _ _ _ c4 (not_lt.mp c3) (le_refl _) hd hsu (Or.inl (fun r hr => (mem_willingDemandM hr).2)) _ _ _ rfl rfl rfl
    · simp only [if_neg c4]
      exact Or.inl ⟨_, _, _, _, rfl, rfl, rfl, hl.symm, rfl⟩

/-- The check of the decorator. -/
theorem dupOnSide_price {rows : DF} (hr : ∀ r ∈ rows, prc r.label ≠ ⊤ → prc r.label < (P : Ext)) :
    dupOnSide (rows.map (priceRow prc P)) = dupOnSideM prc rows := by
  have hi : ∀ r ∈ rows, ∀ r' ∈ rows, (prc r.label).untopD P = (prc r'.label).untopD P → prc r.label = prc r'.label := by
    intro r h r' h' he
    rw [← infFor_untop (hr r h), ← infFor_untop (hr r' h'), he]
  unfold dupOnSide dupOnSideM
  simp only [List.map_map]
  rw [List.any_map, List.any_map]
  apply Bool.eq_iff_iff.mpr
  simp only [List.any_eq_true, Function.comp, decide_eq_true_eq]
  refine exists_congr fun r => and_congr_right fun h => ?_
  have : List.count ((priceRow prc P r).price, (priceRow prc P r).user)
      (rows.map (fun r => ((priceRow prc P r).price, (priceRow prc P r).user))) =
      List.count (prc r.label, r.user) (rows.map (fun r => (prc r.label, r.user))) := by
    unfold List.count
    rw [List.countP_map, List.countP_map]
    apply List.countP_congr
    intro r' h'
    simp only [Function.comp, beq_iff_eq, Prod.mk.injEq, priceRow]
    exact and_congr_left' ⟨fun e => hi _ h' _ h e, fun e => by rw [e]⟩
  rw [← this]
  rfl

theorem checkEqualPrice_price {df : DF} (ha : AbovePrices prc df P) :
    checkEqualPriceRaises (atPrice prc P df) = checkEqualPriceRaisesM prc df := by
  unfold checkEqualPriceRaises checkEqualPriceRaisesM
  rw [buys_price, sells_price, dupOnSide_price (fun r hr => ha.2 r (mem_buys.mp hr).1),
    dupOnSide_price (fun r hr => ha.2 r (mem_sells.mp hr).1)]

end

end PyMarket
