import Verif.Lemmas.UnlimitedBook
import Verif.Lemmas.Reprice

/-! # Peer to peer trading with unlimited bids -/

set_option autoImplicit false

namespace PyMarket

open Spec

/-- What is left of the limited bids. -/
def limitedLeft (qty : ℕ → Ext) (df : DF) (q : ℕ → ℚ) : ℚ :=
  (((df.filter (fun r => decide (qty r.label ≠ ⊤))).map (fun r => r.label)).map q).sum

/-- The floats `U` and the quantities `q` of the filled book: equal for limited bids; for an unlimited one `q` exceeds
what is left of all limited bids. -/
def SameLeft (qty : ℕ → Ext) (df : DF) (U : ℕ → Val) (q : ℕ → ℚ) : Prop :=
  ∀ r ∈ df, 0 ≤ q r.label ∧ ((qty r.label ≠ ⊤ ∧ U r.label = .fin (q r.label)) ∨
    (qty r.label = ⊤ ∧ U r.label = .inf ∧ limitedLeft qty df q < q r.label))

theorem sum_setQ (f : ℕ → ℚ) (i : ℕ) (t : ℚ) : ∀ {l : List ℕ}, l.Nodup →
    (l.map (setQ f i (f i - t))).sum = (l.map f).sum - (if i ∈ l then t else 0)
  | [], _ => by simp
  | j :: l, h => by
    rw [List.nodup_cons] at h
    have ih := sum_setQ f i t h.2
    rw [List.map_cons, List.map_cons, List.sum_cons, List.sum_cons, ih]
    by_cases hj : j = i
    · subst hj
      rw [if_neg h.1, if_pos List.mem_cons_self]
      unfold setQ
      rw [if_pos rfl]
      ring
    · have : setQ f i (f i - t) j = f j := by unfold setQ; rw [if_neg hj]
      rw [this]
      by_cases hi : i ∈ l
      · rw [if_pos hi, if_pos (List.mem_cons_of_mem _ hi)]
        ring
      · rw [if_neg hi, if_neg (fun h' => by
          rcases List.mem_cons.mp h' with h' | h'
          · exact hj h'.symm
          · exact hi h')]
        ring

section

variable {qty : ℕ → Ext} {df : DF} {U : ℕ → Val} {q : ℕ → ℚ}

theorem limitedLeft_nonneg (h : SameLeft qty df U q) : 0 ≤ limitedLeft qty df q := by
  apply List.sum_nonneg
  intro x hx
  obtain ⟨i, hi, rfl⟩ := List.mem_map.mp hx
  obtain ⟨r, hr, rfl⟩ := List.mem_map.mp hi
  exact (h r (List.mem_filter.mp hr).1).1

theorem limitedLeft_ge (h : SameLeft qty df U q) {r : Row} (hr : r ∈ df) (hl : qty r.label ≠ ⊤) :
    q r.label ≤ limitedLeft qty df q := by
  apply List.single_le_sum
  · intro x hx
    obtain ⟨i, hi, rfl⟩ := List.mem_map.mp hx
    obtain ⟨r', hr', rfl⟩ := List.mem_map.mp hi
    exact (h r' (List.mem_filter.mp hr').1).1
  · exact List.mem_map.mpr ⟨r.label, List.mem_map.mpr ⟨r, List.mem_filter.mpr ⟨hr, by simpa using hl⟩, rfl⟩, rfl⟩

theorem mem_limited {r : Row} (hr : r ∈ df) :
    r.label ∈ (df.filter (fun r => decide (qty r.label ≠ ⊤))).map (fun r => r.label) ↔ qty r.label ≠ ⊤ := by
  constructor
  · intro h
    obtain ⟨r', hr', e⟩ := List.mem_map.mp h
    have := (List.mem_filter.mp hr').2
    rw [e] at this
    simpa using this
  · intro h
    exact List.mem_map.mpr ⟨r, List.mem_filter.mpr ⟨hr, by simpa using h⟩, rfl⟩

/-- The prices allow no trade between two unlimited bids. -/
theorem tradeOne_same (ht : IsTable df) (h : SameLeft qty df U q) (prices : ℕ → ℚ) (c : ℚ) {b s : Row} (hb : b ∈ df)
    (hs : s ∈ df) (hbs : b.label ≠ s.label)
    (hn : qty b.label = ⊤ → qty s.label = ⊤ → prices b.label < prices s.label) :
    SameLeft qty df (tradeOneU prices c U (b.label, s.label)).1 (tradeOne prices c q (b.label, s.label)).1 ∧
      (tradeOneU prices c U (b.label, s.label)).2 = (tradeOne prices c q (b.label, s.label)).2.map ofTransaction := by
  unfold tradeOneU tradeOne
  by_cases hp : prices s.label ≤ prices b.label
  swap
  · simp only [if_neg hp]
    exact ⟨h, rfl⟩
  simp only [if_pos hp]
  have h0 := limitedLeft_nonneg h
  have hnd : ((df.filter (fun r => decide (qty r.label ≠ ⊤))).map (fun r => r.label)).Nodup :=
    (List.filter_sublist.map _).nodup ht.nodup
  obtain ⟨b0, hb'⟩ := h b hb
  obtain ⟨s0, hs'⟩ := h s hs
  -- the common quantity
  obtain ⟨t, ht0, hlim, eU, eq, hfb, hfs⟩ : ∃ t : ℚ, 0 ≤ t ∧ (qty b.label ≠ ⊤ ∨ qty s.label ≠ ⊤) ∧
      Val.pyMin (U b.label) (U s.label) = .fin t ∧ min (q b.label) (q s.label) = t ∧
      t ≤ q b.label ∧ t ≤ q s.label := by
    rcases hb' with ⟨b1, b2⟩ | ⟨b1, b2, b3⟩
    · rcases hs' with ⟨s1, s2⟩ | ⟨s1, s2, s3⟩
      · refine ⟨min (q b.label) (q s.label), le_min b0 s0, Or.inl b1, ?_, rfl, min_le_left _ _, min_le_right _ _⟩
        rw [b2, s2]
        show (if decide (q s.label < q b.label) = true then Val.fin (q s.label) else Val.fin (q b.label)) = _
        by_cases hlt : q s.label < q b.label
        · rw [min_eq_right hlt.le, decide_eq_true hlt]
          rfl
        · rw [min_eq_left (not_lt.mp hlt), decide_eq_false hlt]
          rfl
      · have := limitedLeft_ge h hb b1
        refine ⟨q b.label, b0, Or.inl b1, ?_, min_eq_left (by linarith), le_refl _, by linarith⟩
        rw [b2, s2]
        rfl
    · rcases hs' with ⟨s1, s2⟩ | ⟨s1, s2, s3⟩
      · have := limitedLeft_ge h hs s1
        refine ⟨q s.label, s0, Or.inr s1, ?_, min_eq_right (by linarith), by linarith, le_refl _⟩
        rw [b2, s2]
        rfl
      · exact absurd hp (not_le.mpr (hn b1 s1))
  rw [eU, eq]
  have es : setQ q b.label (q b.label - t) s.label = q s.label := by
    unfold setQ
    rw [if_neg (fun e => hbs e.symm)]
  have eUs : setU U b.label ((U b.label).sub (.fin t)) s.label = U s.label := by
    unfold setU
    rw [if_neg (fun e => hbs e.symm)]
  -- what is left of the limited bids
  have hT : limitedLeft qty df (setQ (setQ q b.label (q b.label - t)) s.label
      (setQ q b.label (q b.label - t) s.label - t)) ≤ limitedLeft qty df q - t := by
    unfold limitedLeft
    rw [sum_setQ _ _ _ hnd, sum_setQ _ _ _ hnd]
    rcases hlim with hl | hl
    · rw [if_pos ((mem_limited hb).mpr hl)]
      split <;> linarith
    · rw [if_pos ((mem_limited hs).mpr hl)]
      split <;> linarith
  constructor
  · intro r hr
    have e1 : setQ (setQ q b.label (q b.label - t)) s.label (setQ q b.label (q b.label - t) s.label - t) r.label =
        if r.label = s.label then q s.label - t else if r.label = b.label then q b.label - t else q r.label := by
      rw [es]
      rfl
    have e2 : setU (setU U b.label ((U b.label).sub (.fin t))) s.label
        ((setU U b.label ((U b.label).sub (.fin t)) s.label).sub (.fin t)) r.label =
        if r.label = s.label then (U s.label).sub (.fin t) else if r.label = b.label then (U b.label).sub (.fin t)
          else U r.label := by
      rw [eUs]
      rfl
    rw [e1, e2]
    have hsub : ∀ a : ℚ, (Val.fin a).sub (.fin t) = .fin (a - t) := fun a => by
      rw [sub_eq_add_neg]
      rfl
    by_cases hrs : r.label = s.label
    · rw [if_pos hrs, if_pos hrs, hrs]
      refine ⟨by linarith, ?_⟩
      rcases hs' with ⟨s1, s2⟩ | ⟨s1, s2, s3⟩
      · left
        rw [s2]
        exact ⟨s1, hsub _⟩
      · right
        rw [s2]
        exact ⟨s1, rfl, by linarith⟩
    · rw [if_neg hrs, if_neg hrs]
      by_cases hrb : r.label = b.label
      · rw [if_pos hrb, if_pos hrb, hrb]
        refine ⟨by linarith, ?_⟩
        rcases hb' with ⟨s1, s2⟩ | ⟨s1, s2, s3⟩
        · left
          rw [s2]
          exact ⟨s1, hsub _⟩
        · right
          rw [s2]
          exact ⟨s1, rfl, by linarith⟩
      · rw [if_neg hrb, if_neg hrb]
        obtain ⟨r0, hr'⟩ := h r hr
        refine ⟨r0, ?_⟩
        rcases hr' with hr' | ⟨r1, r2, r3⟩
        · exact Or.inl hr'
        · exact Or.inr ⟨r1, r2, by linarith⟩
  · have hact : ∀ {r : Row}, r ∈ df → (t ≤ q r.label) → (qty r.label = ⊤ → t ≤ limitedLeft qty df q) →
        Val.lt (.fin 0) ((U r.label).sub (.fin t)) = decide (0 < q r.label - t) := by
      intro r hr htr htl
      rcases (h r hr).2 with ⟨r1, r2⟩ | ⟨r1, r2, r3⟩
      · rw [r2, sub_eq_add_neg]
        rfl
      · have := htl r1
        rw [r2, decide_eq_true (by linarith)]
        rfl
    have htl : t ≤ limitedLeft qty df q := by
      rcases hlim with hl | hl
      · exact le_trans hfb (limitedLeft_ge h hb hl)
      · exact le_trans hfs (limitedLeft_ge h hs hl)
    rw [hact hb hfb (fun _ => htl), hact hs hfs (fun _ => htl)]
    rfl

/-- The pair belongs to the book. -/
def PairOk (qty : ℕ → Ext) (df : DF) (prices : ℕ → ℚ) (p : ℕ × ℕ) : Prop :=
  ∃ b ∈ df, ∃ s ∈ df, p = (b.label, s.label) ∧ b.label ≠ s.label ∧
    (qty b.label = ⊤ → qty s.label = ⊤ → prices b.label < prices s.label)

theorem tradeRound_same (ht : IsTable df) (prices : ℕ → ℚ) (c : ℚ) : ∀ {ps : List (ℕ × ℕ)} {U : ℕ → Val} {q : ℕ → ℚ},
    SameLeft qty df U q → (∀ p ∈ ps, PairOk qty df prices p) →
    SameLeft qty df (tradeRoundU prices c U ps).1 (tradeRound prices c q ps).1 ∧
      (tradeRoundU prices c U ps).2 = (tradeRound prices c q ps).2.map ofTransaction
  | [], _, _, h, _ => ⟨h, rfl⟩
  | p :: ps, U, q, h, hp => by
    obtain ⟨b, hb, s, hs, rfl, hbs, hn⟩ := hp p List.mem_cons_self
    obtain ⟨h1, h2⟩ := tradeOne_same ht h prices c hb hs hbs hn
    obtain ⟨h3, h4⟩ := tradeRound_same ht prices c h1 (fun p hp' => hp p (List.mem_cons_of_mem _ hp'))
    unfold tradeRoundU tradeRound
    refine ⟨h3, ?_⟩
    simp only
    rw [h2, h4, List.map_append]

theorem zero_same (h : SameLeft qty df U q) {r : Row} (hr : r ∈ df) : U r.label = .fin 0 ↔ q r.label = 0 := by
  have := limitedLeft_nonneg h
  rcases (h r hr).2 with ⟨_, h2⟩ | ⟨_, h2, h3⟩
  · rw [h2]
    exact ⟨fun e => Val.fin.inj e, fun e => by rw [e]⟩
  · rw [h2]
    exact ⟨fun e => (by cases e), fun e => by linarith⟩

theorem exhausted_same (h : SameLeft qty df U q) : exhaustedU df U = exhausted df q := by
  have side : ∀ {rows : DF}, (∀ r ∈ rows, r ∈ df) →
      (rows.map (fun r => r.label)).filter (fun i => decide (U i = .fin 0)) =
      (rows.map (fun r => r.label)).filter (fun i => decide (q i = 0)) := by
    intro rows hrows
    apply List.filter_congr
    intro i hi
    obtain ⟨r, hr, rfl⟩ := List.mem_map.mp hi
    exact decide_eq_decide.mpr (zero_same h (hrows r hr))
  unfold exhaustedU exhausted
  rw [side (fun r hr => (mem_buys.mp hr).1), side (fun r hr => (mem_sells.mp hr).1)]

theorem sumU_same (h : SameLeft qty df U q) : Val.lt (.fin 0) (sumU (df.map (fun r => U r.label))) =
    decide (0 < (df.map (fun r => q r.label)).sum) := by
  have h0 := limitedLeft_nonneg h
  have key : ∀ {rows : DF}, (∀ r ∈ rows, r ∈ df) →
      0 ≤ (rows.map (fun r => q r.label)).sum ∧
      (sumU (rows.map (fun r => U r.label)) = .fin (rows.map (fun r => q r.label)).sum ∨
        (sumU (rows.map (fun r => U r.label)) = .inf ∧ 0 < (rows.map (fun r => q r.label)).sum)) := by
    intro rows
    induction rows with
    | nil => exact fun _ => ⟨le_refl _, Or.inl rfl⟩
    | cons r rows ih =>
      intro hrows
      obtain ⟨i0, ih⟩ := ih (fun r' hr' => hrows r' (List.mem_cons_of_mem _ hr'))
      obtain ⟨r0, hr⟩ := h r (hrows r List.mem_cons_self)
      rw [List.map_cons, List.map_cons, List.sum_cons]
      have e : sumU (U r.label :: rows.map (fun r => U r.label)) =
          (U r.label).add (sumU (rows.map (fun r => U r.label))) := rfl
      rw [e]
      refine ⟨by linarith, ?_⟩
      rcases hr with ⟨_, r2⟩ | ⟨_, r2, r3⟩
      · rcases ih with i1 | ⟨i1, i2⟩
        · rw [r2, i1]
          exact Or.inl rfl
        · rw [r2, i1]
          exact Or.inr ⟨rfl, by linarith⟩
      · rcases ih with i1 | ⟨i1, i2⟩
        · rw [r2, i1]
          exact Or.inr ⟨rfl, by linarith⟩
        · rw [r2, i1]
          exact Or.inr ⟨rfl, by linarith⟩
  rcases (key (rows := df) (fun _ hr => hr)).2 with h1 | ⟨h1, h2⟩
  · rw [h1]
    rfl
  · rw [h1, decide_eq_true h2]
    rfl

theorem p2pLoop_same (ht : IsTable df) (prices : ℕ → ℚ) (c : ℚ) (choice : ℕ → ℕ) : ∀ (m : ℕ) {n : ℕ} {U : ℕ → Val}
    {q : ℕ → ℚ} {active : List (ℕ × ℕ)} {inactive : List ℕ} (df' : DF),
    active.length ≤ m → SameLeft qty df U q → (∀ p ∈ active, PairOk qty df prices p) →
    (df'.map (fun r => r.label) = df.map (fun r => r.label)) →
    (∀ q, exhausted df' q = exhausted df q) →
    (p2pLoopU df prices c choice n U active inactive).1 = (p2pLoop df' prices c choice n q active inactive).1 ∧
      (p2pLoopU df prices c choice n U active inactive).2 =
        (p2pLoop df' prices c choice n q active inactive).2.map ofTransaction := by
  intro m
  induction m with
  | zero =>
    intro n U q active inactive df' hm _ _ _ _
    have e : active = [] := List.length_eq_zero_iff.mp (Nat.le_zero.mp hm)
    subst e
    have e2 : maskOut [] inactive = [] := by
      have := (maskOut_sublist [] inactive).subset
      exact List.eq_nil_of_subset_nil this
    rw [p2pLoopU, p2pLoop]
    simp [e2]
  | succ m ih =>
    intro n U q active inactive df' hm h hp hl hex
    have es : df'.map (fun r => q r.label) = df.map (fun r => q r.label) := by
      have := congrArg (List.map q) hl
      rwa [List.map_map, List.map_map] at this
    rw [p2pLoopU, p2pLoop]
    simp only [es]
    by_cases hc : 0 < (df.map (fun r => q r.label)).sum ∧ maskOut active inactive ≠ []
    · have hcU : Val.lt (.fin 0) (sumU (df.map (fun r => U r.label))) = true ∧ maskOut active inactive ≠ [] := by
        rw [sumU_same h]
        exact ⟨decide_eq_true hc.1, hc.2⟩
      rw [dif_pos hc, dif_pos hcU]
      have hsub := meetLoop_mem choice n active (maskOut active inactive)
      have hlt := meetLoop_active_lt choice n active (maskOut active inactive) hc.2 (maskOut_sublist active inactive).subset
      obtain ⟨h1, h2⟩ := tradeRound_same ht prices c (ps := (meetLoop choice n active (maskOut active inactive)).2.2) h
        (fun p hp' => hp p ((maskOut_sublist active inactive).subset (hsub.2 hp')))
      rw [exhausted_same h1, hex]
      obtain ⟨h3, h4⟩ := ih (n := (meetLoop choice n active (maskOut active inactive)).1)
        (inactive := exhausted df (tradeRound prices c q (meetLoop choice n active (maskOut active inactive)).2.2).1)
        (active := (meetLoop choice n active (maskOut active inactive)).2.1) df' (by omega) h1
        (fun p hp' => hp p (hsub.1 hp')) hl hex
      refine ⟨?_, ?_⟩
      · show _ :: _ = _ :: _
        rw [h3]
      · show _ ++ _ = List.map _ (_ ++ _)
        rw [h2, h4, List.map_append]
    · have hcU : ¬ (Val.lt (.fin 0) (sumU (df.map (fun r => U r.label))) = true ∧ maskOut active inactive ≠ []) := by
        rw [sumU_same h]
        exact fun hh => hc ⟨of_decide_eq_true hh.1, hh.2⟩
      rw [dif_neg hc, dif_neg hcU]
      exact ⟨rfl, rfl⟩

end

end PyMarket
