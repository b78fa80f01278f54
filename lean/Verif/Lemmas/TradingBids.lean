import Verif.Lemmas.Fill
import Verif.Lemmas.Table

/-! # `lastIndex`, `getTradingBids` and `computeFee` as greedy filling -/

set_option autoImplicit false

namespace PyMarket

section index

variable {α : Type*} {q : α → ℚ}

theorem cumsum_first {Q : ℚ} : ∀ (a : ℚ) (l : List α), a ≤ Q → Q < a + total q l →
    ∃ A x B, l = A ++ x :: B ∧
      ((cumsumFrom a (l.map q)).map (fun c => decide (Q ≤ c))).findIdx? id = some A.length ∧
      a + total q A ≤ Q ∧ Q ≤ a + total q A + q x
  | a, [], h1, h2 => by simp at h2; linarith
  | a, x :: l, h1, h2 => by
    rw [total_cons] at h2
    simp only [List.map_cons, cumsumFrom]
    by_cases h : Q ≤ a + q x
    · exact ⟨[], x, l, rfl, by simp [List.findIdx?_cons, h], by simpa using h1, by simpa using h⟩
    · obtain ⟨A, y, B, rfl, hf, h3, h4⟩ :=
        cumsum_first (Q := Q) (a + q x) l (by linarith) (by linarith)
      refine ⟨x :: A, y, B, rfl, ?_, ?_, ?_⟩
      · simp only [List.findIdx?_cons, id_eq, decide_eq_true_eq, h, if_false, hf]
        rfl
      · rw [total_cons]; linarith
      · rw [total_cons]; linarith

/-- The last trading position cuts the list where the running total reaches the quantity. -/
theorem lastIndex_spec {Q : ℚ} (hQ : 0 ≤ Q) {l : List α} (hl : l ≠ []) (hq : ∀ x ∈ l, 0 ≤ q x) :
    ∃ A x B, l = A ++ x :: B ∧ lastIndex (l.map q) Q = A.length ∧ total q A ≤ Q ∧
      (Q ≤ total q A + q x ∨ B = []) := by
  unfold lastIndex
  by_cases h : Q < (l.map q).sum
  · rw [if_pos h]
    obtain ⟨A, x, B, rfl, hf, h1, h2⟩ := cumsum_first (q := q) (Q := Q) 0 l hQ
      (by rw [zero_add]; exact h)
    rw [zero_add] at h1 h2
    refine ⟨A, x, B, rfl, ?_, h1, Or.inl h2⟩
    unfold argmaxTrue cumsum
    rw [hf]; rfl
  · rw [if_neg h]
    push Not at h
    obtain ⟨A, x, rfl⟩ : ∃ A x, l = A ++ [x] := by
      rcases List.eq_nil_or_concat l with h' | ⟨A, x, h'⟩
      · exact absurd h' hl
      · exact ⟨A, x, by simpa using h'⟩
    refine ⟨A, x, [], rfl, by simp, ?_, Or.inr rfl⟩
    have hx := hq x (by simp)
    simp only [List.map_append, List.sum_append, List.map_cons, List.map_nil, List.sum_cons,
      List.sum_nil, add_zero] at h
    have : total q A = (A.map q).sum := rfl
    linarith

end index

theorem fillRows_append {Q : ℚ} {A B : DF} (hq : ∀ r ∈ A, 0 ≤ r.quantity) (h : qsum A ≤ Q) :
    fillRows Q (A ++ B) = A ++ fillRows (Q - qsum A) B := by
  induction A generalizing Q with
  | nil => simp [qsum]
  | cons r rs ih =>
    rw [qsum_cons] at h
    have h0 := qsum_nonneg (rows := rs) (fun r' hr' => hq r' (List.mem_cons_of_mem _ hr'))
    rw [List.cons_append, fillRows, min_eq_left (by linarith),
      ih (fun r' hr' => hq r' (List.mem_cons_of_mem _ hr')) (by linarith), qsum_cons]
    congr 3
    ring

/-- What `getTradingBids` returns: the bids before the marginal one, the trading part of the
marginal one, and the rest. -/
structure TradeCut (rows : DF) (Q : ℚ) (out : DF) (k : ℕ) : Prop where
  cut : ∃ (A : DF) (r : Row) (B E : DF), rows = A ++ r :: B ∧ k = A.length ∧
    out = A ++ { r with quantity := Q - qsum A } :: E ∧
    0 ≤ Q - qsum A ∧ Q - qsum A ≤ r.quantity ∧
    ((E = B ∧ Q - qsum A = r.quantity) ∨
      E = { r with quantity := r.quantity - (Q - qsum A) } :: B)

theorem total_quantity (rows : DF) : total (fun r : Row => r.quantity) rows = qsum rows := rfl

theorem getTradingBids_spec {rows : DF} {Q : ℚ} (hQ : 0 ≤ Q) (hne : rows ≠ [])
    (hq : ∀ r ∈ rows, 0 ≤ r.quantity) (hle : Q ≤ qsum rows) :
    ∃ out k, getTradingBids rows Q = .ok (out, k) ∧ TradeCut rows Q out k := by
  obtain ⟨A, r, B, rfl, hi, h1, h2⟩ := lastIndex_spec (q := fun r : Row => r.quantity) hQ hne hq
  have hle' : Q ≤ qsum A + r.quantity := by
    rcases h2 with h2 | rfl
    · exact h2
    · simpa [qsum] using hle
  rw [total_quantity] at h1
  unfold getTradingBids
  rw [if_neg (by simp), hi]
  simp only [List.getElem?_append_right (le_refl _), Nat.sub_self, List.getElem?_cons_zero,
    List.take_left', List.drop_append]
  by_cases hd : Q - qsum A < r.quantity
  · rw [if_pos hd]
    refine ⟨_, _, rfl, ⟨A, r, B, _, rfl, rfl, rfl, by linarith, hd.le, Or.inr ?_⟩⟩
    simp
  · rw [if_neg hd]
    have he : Q - qsum A = r.quantity := le_antisymm (by linarith) (not_lt.mp hd)
    refine ⟨_, _, rfl, ⟨A, r, B, B, rfl, rfl, ?_, by linarith, he.le, Or.inl ⟨rfl, he⟩⟩⟩
    rw [he]

/-- The trading rows: those up to position `k`. -/
theorem TradeCut.trading {rows out : DF} {Q : ℚ} {k : ℕ} (h : TradeCut rows Q out k)
    (hq : ∀ r ∈ rows, 0 ≤ r.quantity) :
    ∃ Z, fillRows Q rows = out.take (k + 1) ++ Z ∧ ∀ r ∈ Z, r.quantity = 0 := by
  obtain ⟨A, r, B, E, rfl, rfl, rfl, h0, h1, _⟩ := h.cut
  refine ⟨fillRows 0 B, ?_, fillRows_zero (fun r hr => hq r (by simp [hr]))⟩
  rw [fillRows_append (fun r hr => hq r (by simp [hr])) (by linarith), fillRows, min_eq_right h1,
    sub_self]
  have : (A ++ { r with quantity := Q - qsum A } :: E).take (A.length + 1) =
      A ++ [{ r with quantity := Q - qsum A }] := by
    rw [List.take_append, List.take_of_length_le (by simp)]; simp
  rw [this]
  simp

theorem TradeCut.nonneg {rows out : DF} {Q : ℚ} {k : ℕ} (h : TradeCut rows Q out k)
    (hq : ∀ r ∈ rows, 0 ≤ r.quantity) : ∀ r ∈ out, 0 ≤ r.quantity := by
  obtain ⟨A, r, B, E, rfl, rfl, rfl, h0, h1, h2⟩ := h.cut
  intro r' hr'
  rcases List.mem_append.mp hr' with h' | h'
  · exact hq r' (by simp [h'])
  · rcases List.mem_cons.mp h' with rfl | h'
    · exact h0
    · rcases h2 with ⟨rfl, _⟩ | rfl
      · exact hq r' (by simp [h'])
      · rcases List.mem_cons.mp h' with rfl | h'
        · show 0 ≤ r.quantity - (Q - qsum A); linarith
        · exact hq r' (by simp [h'])

theorem TradeCut.attr {rows out : DF} {Q : ℚ} {k : ℕ} (h : TradeCut rows Q out k) :
    ∀ r' ∈ out, ∃ r ∈ rows, r'.label = r.label ∧ r'.price = r.price ∧
      r'.user = r.user ∧ r'.buying = r.buying := by
  obtain ⟨A, r, B, E, rfl, rfl, rfl, h0, h1, h2⟩ := h.cut
  intro r' hr'
  rcases List.mem_append.mp hr' with h' | h'
  · exact ⟨r', by simp [h'], rfl, rfl, rfl, rfl⟩
  · rcases List.mem_cons.mp h' with rfl | h'
    · exact ⟨r, by simp, rfl, rfl, rfl, rfl⟩
    · rcases h2 with ⟨rfl, _⟩ | rfl
      · exact ⟨r', by simp [h'], rfl, rfl, rfl, rfl⟩
      · rcases List.mem_cons.mp h' with rfl | h'
        · exact ⟨r, by simp, rfl, rfl, rfl, rfl⟩
        · exact ⟨r', by simp [h'], rfl, rfl, rfl, rfl⟩

theorem TradeCut.lt {rows out : DF} {Q : ℚ} {k : ℕ} (h : TradeCut rows Q out k) :
    k < rows.length ∧ k < out.length := by
  obtain ⟨A, r, B, E, rfl, rfl, rfl, h0, h1, h2⟩ := h.cut
  constructor <;> simp

/-- The bids of the others in the output are as good as their bids in the input. -/
theorem TradeCut.greedy_others {rows out : DF} {Q Q' : ℚ} {k : ℕ} (h : TradeCut rows Q out k)
    (hq : ∀ r ∈ rows, 0 ≤ r.quantity) (hQ' : 0 ≤ Q') {g : Row → ℚ}
    (hg : ∀ (r : Row) (x : ℚ), g { r with quantity := x } = g r) (u : ℤ) :
    greedy (fun r => r.quantity) g Q' (out.filter (fun r => decide (r.user ≠ u))) =
      greedy (fun r => r.quantity) g Q' (rows.filter (fun r => decide (r.user ≠ u))) := by
  obtain ⟨A, r, B, E, rfl, rfl, rfl, h0, h1, h2⟩ := h.cut
  rcases h2 with ⟨rfl, he⟩ | rfl
  · rw [he]
  · by_cases hu : r.user ≠ u
    · rw [List.filter_append, List.filter_append, List.filter_cons_of_pos (by simpa using hu),
        List.filter_cons_of_pos (by simpa using hu), List.filter_cons_of_pos (by simpa using hu)]
      apply greedy_split hQ'
      · intro x hx
        exact hq x (by simp [(List.mem_filter.mp hx).1])
      · show 0 ≤ r.quantity - (Q - qsum A); linarith
      · show r.quantity = Q - qsum A + (r.quantity - (Q - qsum A)); ring
      · exact hg r _
      · exact hg r _
    · rw [List.filter_append, List.filter_append, List.filter_cons_of_neg (by simpa using hu),
        List.filter_cons_of_neg (by simpa using hu), List.filter_cons_of_neg (by simpa using hu)]

/-! ## The fee -/

theorem capLast_append (diff : ℚ) (A : List (Row × ℕ)) (x : Row × ℕ) :
    capLast diff (A ++ [x]) = A ++ [({ x.1 with quantity := min x.1.quantity diff }, x.2)] := by
  induction A with
  | nil =>
    simp only [List.nil_append, capLast]
    by_cases h : diff < x.1.quantity
    · rw [if_pos h, min_eq_right h.le]
    · rw [if_neg h, min_eq_left (not_lt.mp h)]
  | cons a A ih =>
    cases A with
    | nil =>
      have := ih
      simp only [List.nil_append] at this
      simp only [List.cons_append, List.nil_append, capLast] at *
      rw [this]
    | cons b A =>
      simp only [List.cons_append, capLast] at *
      rw [ih]

theorem zipIdx_filter_user (T E : DF) (u : ℤ) :
    withoutUser (T ++ E) u = ((T.zipIdx 0).filter (fun p => decide (p.1.user ≠ u))) ++
      ((E.zipIdx T.length).filter (fun p => decide (p.1.user ≠ u))) := by
  unfold withoutUser
  rw [List.zipIdx_append, List.filter_append, Nat.zero_add]

theorem map_fst_zipIdx_filter (T : DF) (n : ℕ) (u : ℤ) :
    ((T.zipIdx n).filter (fun p => decide (p.1.user ≠ u))).map Prod.fst =
      T.filter (fun r => decide (r.user ≠ u)) := by
  induction T generalizing n with
  | nil => rfl
  | cons r rs ih =>
    rw [List.zipIdx_cons]
    by_cases h : r.user ≠ u
    · rw [List.filter_cons_of_pos (by simpa using h), List.filter_cons_of_pos (by simpa using h),
        List.map_cons, ih]
    · rw [List.filter_cons_of_neg (by simpa using h), List.filter_cons_of_neg (by simpa using h), ih]

theorem total_fst {l : List (Row × ℕ)} : total (fun p : Row × ℕ => p.1.quantity) l =
    qsum (l.map Prod.fst) := by
  simp [total, qsum, Function.comp_def]

theorem value_filter {α : Type*} (q g : α → ℚ) (P : α → Bool) (l : List α) :
    value q g (l.filter P) = value q (fun x => if P x then g x else 0) l := by
  induction l with
  | nil => rfl
  | cons x l ih =>
    by_cases h : P x = true
    · rw [List.filter_cons_of_pos h, value_cons, value_cons, ih, if_pos h]
    · rw [List.filter_cons_of_neg h, value_cons, ih, if_neg h]; ring

theorem value_congr {α : Type*} {q g g' : α → ℚ} {l : List α} (h : ∀ x ∈ l, g x = g' x) :
    value q g l = value q g' l := by
  unfold value
  congr 1
  apply List.map_congr_left
  intro x hx
  rw [h x hx]

theorem greedy_congr_mem {α : Type*} {q g g' : α → ℚ} {Q : ℚ} {l : List α}
    (h : ∀ x ∈ l, g x = g' x) : greedy q g Q l = greedy q g' Q l := by
  apply greedy_congr
  apply List.map_congr_left
  intro x hx
  rw [h x hx]

/-- The rows selected by the capped prefix of `computeFee` realise greedy filling. -/
theorem capped_value {Q : ℚ} (hQ : 0 ≤ Q) {l : List (Row × ℕ)} (hl : l ≠ [])
    (hq : ∀ p ∈ l, 0 ≤ p.1.quantity) {g : Row × ℕ → ℚ}
    (hg : ∀ (r : Row) (n : ℕ) (x : ℚ), g ({ r with quantity := x }, n) = g (r, n)) :
    value (fun p : Row × ℕ => p.1.quantity) g
      (capLast (Q - (((l.take (lastIndex (l.map (fun p => p.1.quantity)) Q + 1)).dropLast).map
        (fun p => p.1.quantity)).sum)
        (l.take (lastIndex (l.map (fun p => p.1.quantity)) Q + 1))) =
      greedy (fun p : Row × ℕ => p.1.quantity) g Q l := by
  obtain ⟨A, x, B, rfl, hi, h1, h2⟩ :=
    lastIndex_spec (q := fun p : Row × ℕ => p.1.quantity) hQ hl hq
  have ht : (A ++ x :: B).take (A.length + 1) = A ++ [x] := by
    rw [List.take_append, List.take_of_length_le (by simp)]; simp
  have hqA : ∀ p ∈ A, 0 ≤ p.1.quantity := fun p hp => hq p (by simp [hp])
  rw [hi, ht, List.dropLast_concat, capLast_append, greedy_append hqA h1, value_append,
    value_cons, value_nil, add_zero, greedy]
  have hs : (A.map (fun p => p.1.quantity)).sum = total (fun p : Row × ℕ => p.1.quantity) A := rfl
  rw [hs]
  have hz : greedy (fun p : Row × ℕ => p.1.quantity) g
      (Q - total (fun p : Row × ℕ => p.1.quantity) A - min x.1.quantity
        (Q - total (fun p : Row × ℕ => p.1.quantity) A)) B = 0 := by
    rcases h2 with h2 | rfl
    · rw [min_eq_right (by linarith), sub_self]
      exact greedy_zero (fun p hp => hq p (by simp [hp]))
    · rfl
  rw [hz, add_zero, hg]

/-- The fee is the value the others would get from `Q`, minus what they get now. -/
theorem computeFee_eq {T E : DF} {index : ℕ} {u : ℤ} {Q p σ : ℚ} {w : Row → ℚ}
    (hlen : T.length = index + 1) (hQ : 0 ≤ Q)
    (hq : ∀ r ∈ T ++ E, 0 ≤ r.quantity) (hσ : σ = 1 ∨ σ = -1)
    (hw : ∀ r ∈ T ++ E, r.price - p = σ * w r) (hw0 : ∀ r ∈ T ++ E, 0 ≤ w r)
    (hT : qsum (T.filter (fun r => decide (r.user ≠ u))) ≤ Q) :
    computeFee (T ++ E) index u Q p =
      greedy (fun r => r.quantity) w Q ((T ++ E).filter (fun r => decide (r.user ≠ u))) -
        value (fun r => r.quantity) w (T.filter (fun r => decide (r.user ≠ u))) := by
  have hTq : ∀ r ∈ T.filter (fun r => decide (r.user ≠ u)), 0 ≤ r.quantity := fun r hr =>
    hq r (by simp [(List.mem_filter.mp hr).1])
  have hEq : ∀ r ∈ E.filter (fun r => decide (r.user ≠ u)), 0 ≤ r.quantity := fun r hr =>
    hq r (by simp [(List.mem_filter.mp hr).1])
  rw [List.filter_append, greedy_append hTq hT, add_sub_cancel_left]
  set q : Row × ℕ → ℚ := fun p => p.1.quantity with hqdef
  set OT := (T.zipIdx 0).filter (fun p => decide (p.1.user ≠ u)) with hOT
  set OE := (E.zipIdx T.length).filter (fun p => decide (p.1.user ≠ u)) with hOE
  have hoth : withoutUser (T ++ E) u = OT ++ OE := zipIdx_filter_user T E u
  have hOTm : OT.map Prod.fst = T.filter (fun r => decide (r.user ≠ u)) := map_fst_zipIdx_filter T 0 u
  have hOEm : OE.map Prod.fst = E.filter (fun r => decide (r.user ≠ u)) :=
    map_fst_zipIdx_filter E T.length u
  have hOTi : ∀ x ∈ OT, x.2 ≤ index := by
    intro x hx
    have := List.mem_zipIdx (List.mem_filter.mp hx).1
    omega
  have hOEi : ∀ x ∈ OE, index < x.2 := by
    intro x hx
    have := List.mem_zipIdx (List.mem_filter.mp hx).1
    omega
  have hOTr : ∀ x ∈ OT, x.1 ∈ T := by
    intro x hx
    have : x.1 ∈ OT.map Prod.fst := List.mem_map_of_mem hx
    rw [hOTm] at this
    exact (List.mem_filter.mp this).1
  have hOEr : ∀ x ∈ OE, x.1 ∈ E := by
    intro x hx
    have : x.1 ∈ OE.map Prod.fst := List.mem_map_of_mem hx
    rw [hOEm] at this
    exact (List.mem_filter.mp this).1
  have hallq : ∀ x ∈ OT ++ OE, 0 ≤ x.1.quantity := by
    intro x hx
    rcases List.mem_append.mp hx with h | h
    · exact hq _ (by simp [hOTr x h])
    · exact hq _ (by simp [hOEr x h])
  have hgoalE : greedy (fun r : Row => r.quantity) w
      (Q - total (fun r : Row => r.quantity) (T.filter (fun r => decide (r.user ≠ u))))
      (E.filter (fun r => decide (r.user ≠ u))) =
      greedy q (fun x => w x.1) (Q - total q OT) OE := by
    rw [← hOTm, ← hOEm, hqdef, total_fst, total_quantity]
    apply greedy_congr
    rw [List.map_map]; rfl
  rw [hgoalE]
  have hpos : 0 ≤ greedy q (fun x => w x.1) (Q - total q OT) OE := by
    have aux : ∀ (l : List (Row × ℕ)) (Q : ℚ), 0 ≤ Q → (∀ x ∈ l, 0 ≤ q x ∧ 0 ≤ w x.1) →
        0 ≤ greedy q (fun x => w x.1) Q l := by
      intro l
      induction l with
      | nil => intros; exact le_refl _
      | cons x l ih =>
        intro Q hQ h
        rw [greedy]
        have h1 := ih (Q - min (q x) Q) (by linarith [min_le_right (q x) Q])
          (fun y hy => h y (List.mem_cons_of_mem _ hy))
        have h2 := h x List.mem_cons_self
        have h3 : 0 ≤ w x.1 * min (q x) Q := mul_nonneg h2.2 (le_min h2.1 hQ)
        linarith
    refine aux _ _ ?_ ?_
    · have : total q OT = qsum (T.filter (fun r => decide (r.user ≠ u))) := by
        rw [hqdef, total_fst, hOTm]
      linarith
    · intro x hx
      exact ⟨hq _ (by simp [hOEr x hx]), hw0 _ (by simp [hOEr x hx])⟩
  unfold computeFee
  simp only [hoth]
  by_cases hnil : OT ++ OE = []
  · rw [if_pos hnil]
    have : OE = [] := (List.append_eq_nil_iff.mp hnil).2
    rw [this]; rfl
  · rw [if_neg hnil]
    have key := capped_value (Q := Q) hQ hnil hallq
      (g := fun x => if decide (index < x.2) = true then (x.1.price - p) else 0)
      (fun r n x => rfl)
    rw [← value_filter] at key
    unfold value at key
    rw [key, greedy_append (fun x hx => hallq x (by simp [hx])) (by
      show total q OT ≤ Q
      rw [hqdef, total_fst, hOTm]; exact hT)]
    have h1 : value (fun p : Row × ℕ => p.1.quantity)
        (fun x => if decide (index < x.2) = true then (x.1.price - p) else 0) OT = 0 := by
      apply List.sum_eq_zero
      intro v hv
      obtain ⟨x, hx, rfl⟩ := List.mem_map.mp hv
      have := hOTi x hx
      simp [not_lt.mpr this]
    have h2 : greedy (fun p : Row × ℕ => p.1.quantity)
        (fun x => if decide (index < x.2) = true then (x.1.price - p) else 0)
        (Q - total (fun p : Row × ℕ => p.1.quantity) OT) OE =
        σ * greedy q (fun x => w x.1) (Q - total q OT) OE := by
      have hmul : ∀ (l : List (Row × ℕ)) (Q : ℚ), greedy q (fun x => σ * w x.1) Q l =
          σ * greedy q (fun x => w x.1) Q l := by
        intro l
        induction l with
        | nil => intro Q; simp [greedy]
        | cons x l ih => intro Q; simp only [greedy, ih]; ring
      rw [← hmul]
      apply greedy_congr_mem
      intro x hx
      have := hOEi x hx
      simp only [this, decide_true, if_true]
      exact hw _ (by simp [hOEr x hx])
    rw [h1, h2, zero_add, abs_mul, abs_of_nonneg hpos]
    rcases hσ with rfl | rfl <;> simp

end PyMarket
