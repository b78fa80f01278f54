import Verif.Model.Plot
import Verif.Lemmas.Accounting
import Verif.Props.P2P

/-! # Lemmas about the graph of trades -/

set_option autoImplicit false

namespace PyMarket

open Spec

section Dict

variable {α β : Type} [DecidableEq α]

theorem dictSet_keys (d : List (α × β)) (k : α) (v : β) :
    (dictSet d k v).map Prod.fst =
      if k ∈ d.map Prod.fst then d.map Prod.fst else d.map Prod.fst ++ [k] := by
  induction d with
  | nil => simp [dictSet]
  | cons x d ih =>
    obtain ⟨k', v'⟩ := x
    unfold dictSet
    by_cases h : k' = k
    · simp [h]
    · rw [if_neg h, List.map_cons, ih]
      simp only [List.map_cons, List.mem_cons]
      by_cases hk : k ∈ d.map Prod.fst
      · rw [if_pos hk, if_pos (Or.inr hk)]
      · rw [if_neg hk, if_neg (by rintro (h' | h'); exacts [h h'.symm, hk h'])]
        rfl

theorem dictSet_nodup {d : List (α × β)} (hd : (d.map Prod.fst).Nodup) (k : α) (v : β) :
    ((dictSet d k v).map Prod.fst).Nodup := by
  rw [dictSet_keys]
  split_ifs with h
  · exact hd
  · rw [List.nodup_append]
    refine ⟨hd, by simp, ?_⟩
    intro a ha b hb hab
    rw [List.mem_singleton] at hb
    exact h (hb ▸ hab ▸ ha)

theorem mem_dictSet {d : List (α × β)} (hd : (d.map Prod.fst).Nodup) (k k' : α) (v v' : β) :
    (k', v') ∈ dictSet d k v ↔ (k' = k ∧ v' = v) ∨ (k' ≠ k ∧ (k', v') ∈ d) := by
  induction d with
  | nil => simp [dictSet]
  | cons x d ih =>
    obtain ⟨k0, v0⟩ := x
    rw [List.map_cons, List.nodup_cons] at hd
    unfold dictSet
    by_cases h : k0 = k
    · subst h
      rw [if_pos rfl, List.mem_cons, List.mem_cons, Prod.mk.injEq, Prod.mk.injEq]
      have : (k', v') ∈ d → k' ≠ k0 := by
        rintro hm rfl
        exact hd.1 (List.mem_map.mpr ⟨_, hm, rfl⟩)
      tauto
    · rw [if_neg h, List.mem_cons, List.mem_cons, ih hd.2, Prod.mk.injEq]
      constructor
      · rintro (⟨rfl, rfl⟩ | h' | h')
        · exact Or.inr ⟨h, Or.inl ⟨rfl, rfl⟩⟩
        · exact Or.inl h'
        · exact Or.inr ⟨h'.1, Or.inr h'.2⟩
      · rintro (h' | ⟨h1, h2 | h2⟩)
        · exact Or.inr (Or.inl h')
        · exact Or.inl h2
        · exact Or.inr (Or.inr ⟨h1, h2⟩)

theorem toDict_append (l l' : List (α × β)) :
    toDict (l ++ l') = l'.foldl (fun d r => dictSet d r.1 r.2) (toDict l) := by
  unfold toDict; rw [List.foldl_append]

theorem toDict_nodup (l : List (α × β)) : ((toDict l).map Prod.fst).Nodup := by
  induction l using List.reverseRecOn with
  | nil => exact List.nodup_nil
  | append_singleton l x ih =>
    rw [toDict_append]
    exact dictSet_nodup ih _ _

/-- Every entry followed by its mirror image. -/
def mirror (E : List ((α × α) × β)) : List ((α × α) × β) :=
  E.flatMap (fun e => [(e.1, e.2), (e.1.swap, e.2)])

/-- The last entry of `E` for `k` or its mirror image has the value `v`. -/
def LastAt (E : List ((α × α) × β)) (k : α × α) (v : β) : Prop :=
  ∃ A e B, E = A ++ e :: B ∧ (e.1 = k ∨ e.1 = k.swap) ∧ e.2 = v ∧
    ∀ e' ∈ B, e'.1 ≠ k ∧ e'.1 ≠ k.swap

omit [DecidableEq α] in
theorem mirror_append (E E' : List ((α × α) × β)) : mirror (E ++ E') = mirror E ++ mirror E' := by
  unfold mirror; rw [List.flatMap_append]

omit [DecidableEq α] in
theorem swap_eq_comm {a b : α × α} : a.swap = b ↔ a = b.swap := by
  constructor
  · rintro rfl; rfl
  · rintro rfl; rfl

theorem toDict_mirror (E : List ((α × α) × β)) (k : α × α) (v : β)
    (h : (k, v) ∈ toDict (mirror E)) : LastAt E k v := by
  induction E using List.reverseRecOn with
  | nil => cases h
  | append_singleton E e ih =>
    rw [mirror_append, toDict_append] at h
    have e1 : mirror [e] = [(e.1, e.2), (e.1.swap, e.2)] := rfl
    rw [e1, List.foldl_cons, List.foldl_cons, List.foldl_nil,
      mem_dictSet (dictSet_nodup (toDict_nodup _) _ _), mem_dictSet (toDict_nodup _)] at h
    rcases h with ⟨h1, h2⟩ | ⟨h0, ⟨h1, h2⟩ | ⟨h1, h2⟩⟩
    · exact ⟨E, e, [], rfl, Or.inr (swap_eq_comm.mp h1.symm), h2.symm, by simp⟩
    · exact ⟨E, e, [], rfl, Or.inl h1.symm, h2.symm, by simp⟩
    · obtain ⟨A, a, B, rfl, h3, h4, h5⟩ := ih h2
      refine ⟨A, a, B ++ [e], by simp, h3, h4, ?_⟩
      intro e' he'
      rcases List.mem_append.mp he' with h | h
      · exact h5 e' h
      · rw [List.mem_singleton] at h
        subst h
        exact ⟨fun h => h1 h.symm, fun h => h0 (swap_eq_comm.mp h.symm ▸ rfl)⟩

theorem toDict_keys (l : List (α × β)) :
    ∀ k, k ∈ (toDict l).map Prod.fst ↔ k ∈ l.map Prod.fst := by
  induction l using List.reverseRecOn with
  | nil => intro k; rfl
  | append_singleton l x ih =>
    intro k
    rw [toDict_append, List.foldl_cons, List.foldl_nil, dictSet_keys]
    split_ifs with h
    · rw [ih, List.map_append, List.mem_append, List.map_cons, List.map_nil, List.mem_singleton]
      rw [ih] at h
      constructor
      · exact Or.inl
      · rintro (h' | rfl)
        exacts [h', h]
    · rw [List.mem_append, ih, List.map_append, List.mem_append]; rfl

theorem uniqueLabels_append (l : List ((α × α) × β)) (x : (α × α) × β) :
    uniqueLabels (l ++ [x]) =
      if x.1 ∉ (uniqueLabels l).map Prod.fst ∧ x.1.swap ∉ (uniqueLabels l).map Prod.fst then
        uniqueLabels l ++ [x] else uniqueLabels l := by
  unfold uniqueLabels
  rw [List.foldl_append]
  rfl

theorem uniqueLabels_subset (l : List ((α × α) × β)) : ∀ x ∈ uniqueLabels l, x ∈ l := by
  induction l using List.reverseRecOn with
  | nil => intro x h; cases h
  | append_singleton l x ih =>
    intro y hy
    rw [uniqueLabels_append] at hy
    split_ifs at hy
    · rcases List.mem_append.mp hy with h | h
      · exact List.mem_append_left _ (ih y h)
      · exact List.mem_append_right _ h
    · exact List.mem_append_left _ (ih y hy)

theorem uniqueLabels_cover (l : List ((α × α) × β)) : ∀ x ∈ l,
    x.1 ∈ (uniqueLabels l).map Prod.fst ∨ x.1.swap ∈ (uniqueLabels l).map Prod.fst := by
  induction l using List.reverseRecOn with
  | nil => intro x h; cases h
  | append_singleton l x ih =>
    intro y hy
    rw [uniqueLabels_append]
    rcases List.mem_append.mp hy with h | h
    · split_ifs
      · simp only [List.map_append, List.mem_append]
        rcases ih y h with h' | h'
        · exact Or.inl (Or.inl h')
        · exact Or.inr (Or.inl h')
      · exact ih y h
    · rw [List.mem_singleton] at h
      subst h
      split_ifs with hc
      · left; simp
      · rw [not_and_or, not_not, not_not] at hc
        exact hc

theorem uniqueLabels_unique (l : List ((α × α) × β)) : ∀ x ∈ uniqueLabels l, ∀ y ∈ uniqueLabels l,
    x.1 = y.1 ∨ x.1 = y.1.swap → x = y := by
  induction l using List.reverseRecOn with
  | nil => intro x h; cases h
  | append_singleton l a ih =>
    intro x hx y hy hxy
    rw [uniqueLabels_append] at hx hy
    split_ifs at hx hy with hc
    · rw [List.mem_append, List.mem_singleton] at hx hy
      rcases hx with hx | rfl <;> rcases hy with hy | rfl
      · exact ih x hx y hy hxy
      · exfalso
        have hm := List.mem_map_of_mem (f := Prod.fst) hx
        rcases hxy with h | h
        · exact hc.1 (h ▸ hm)
        · exact hc.2 (h ▸ hm)
      · exfalso
        have hm := List.mem_map_of_mem (f := Prod.fst) hy
        rcases hxy with h | h
        · exact hc.1 (h ▸ hm)
        · refine hc.2 ?_
          rw [h]; exact hm
      · rfl
    · exact ih x hx y hy hxy

end Dict

/-- The quantities of the meetings `M`, in order. -/
def meetQty (prices : ℕ → ℚ) (c : ℚ) : (ℕ → ℚ) → List (ℕ × ℕ) → List ((ℕ × ℕ) × ℚ)
  | _, [] => []
  | q, p :: M => (p, if prices p.2 ≤ prices p.1 then min (q p.1) (q p.2) else 0) ::
      meetQty prices c (tradeOne prices c q p).1 M

theorem meetQty_fst (prices : ℕ → ℚ) (c : ℚ) (q : ℕ → ℚ) (M : List (ℕ × ℕ)) :
    (meetQty prices c q M).map Prod.fst = M := by
  induction M generalizing q with
  | nil => rfl
  | cons p M ih => rw [meetQty, List.map_cons, ih]

theorem meetQty_append (prices : ℕ → ℚ) (c : ℚ) (q : ℕ → ℚ) (A B : List (ℕ × ℕ)) :
    meetQty prices c q (A ++ B) =
      meetQty prices c q A ++ meetQty prices c (tradeRound prices c q A).1 B := by
  induction A generalizing q with
  | nil => rfl
  | cons p A ih => rw [List.cons_append, meetQty, meetQty, List.cons_append, ih]; rfl

/-- Bid, source and quantity of the logged transactions. -/
theorem tradeRound_log (prices : ℕ → ℚ) (c : ℚ) (q : ℕ → ℚ) (M : List (ℕ × ℕ)) :
    (tradeRound prices c q M).2.map (fun t => (t.bid, t.source, t.quantity)) =
      (meetQty prices c q M).flatMap (fun m =>
        [(m.1.1, (m.1.2 : ℤ), m.2), (m.1.2, (m.1.1 : ℤ), m.2)]) := by
  induction M generalizing q with
  | nil => rfl
  | cons p M ih =>
    rw [meetQty, List.flatMap_cons, ← ih]
    simp only [tradeRound, List.map_append]
    congr 1
    rw [tradeOne_entries]
    split_ifs <;> rfl

theorem tradeOne_untouched (prices : ℕ → ℚ) (c : ℚ) (q : ℕ → ℚ) (p : ℕ × ℕ) {i : ℕ}
    (h1 : p.1 ≠ i) (h2 : p.2 ≠ i) : (tradeOne prices c q p).1 i = q i := by
  unfold tradeOne
  simp only
  split_ifs
  · simp [setQ, h1.symm, h2.symm]
  · rfl

theorem tradeRound_untouched (prices : ℕ → ℚ) (c : ℚ) (q : ℕ → ℚ) (M : List (ℕ × ℕ)) {i : ℕ}
    (h : ∀ p ∈ M, p.1 ≠ i ∧ p.2 ≠ i) : (tradeRound prices c q M).1 i = q i := by
  induction M generalizing q with
  | nil => rfl
  | cons p M ih =>
    simp only [tradeRound]
    rw [ih _ (fun p' hp' => h p' (List.mem_cons_of_mem _ hp'))]
    have := h p List.mem_cons_self
    exact tradeOne_untouched prices c q p this.1 this.2

theorem flatten_split {α : Type} (R : List (List α)) {A B : List α} {p : α}
    (h : R.flatten = A ++ p :: B) : ∃ pre A' B' post, R = pre ++ (A' ++ p :: B') :: post ∧
      A = pre.flatten ++ A' := by
  induction R generalizing A with
  | nil => cases A <;> cases h
  | cons r R ih =>
    rw [List.flatten_cons] at h
    rcases List.append_eq_append_iff.mp h with ⟨A', h1, h2⟩ | ⟨B', h1, h2⟩
    · obtain ⟨pre, A1, B1, post, h3, h4⟩ := ih h2
      exact ⟨r :: pre, A1, B1, post, by rw [h3]; rfl, by rw [h1, h4]; simp⟩
    · cases B' with
      | nil =>
        rw [List.nil_append] at h2
        obtain ⟨pre, A1, B1, post, h3, h4⟩ := ih (A := []) (by rw [← h2]; rfl)
        refine ⟨r :: pre, A1, B1, post, by rw [h3]; rfl, ?_⟩
        rw [List.append_nil] at h1
        rw [List.flatten_cons, List.append_assoc, ← h4, List.append_nil, h1]
      | cons b B' =>
        simp only [List.cons_append, List.cons.injEq] at h2
        obtain ⟨rfl, h2⟩ := h2
        exact ⟨[], A, B', R, by rw [h1]; rfl, rfl⟩

/-- Both bids of a meeting have quantity left before it. -/
theorem P2PRun.meeting_pos {df : DF} {c : ℚ} {R : List (List (ℕ × ℕ))} {ts : List Transaction}
    (ht : IsTable df) (hp : ∀ r ∈ df, 0 < r.quantity) (h : P2PRun df c R ts) {A B : List (ℕ × ℕ)} {p : ℕ × ℕ}
    (hs : R.flatten = A ++ p :: B) :
    0 < (tradeRound (priceOf df) c (qtyOf df) A).1 p.1 ∧
    0 < (tradeRound (priceOf df) c (qtyOf df) A).1 p.2 := by
  obtain ⟨pre, A', B', post, hR, rfl⟩ := flatten_split R hs
  obtain ⟨_, g1, g2, _⟩ := h.loop.round _ _ _ hR
  have hpair := h.pair p (by rw [hs]; simp)
  have hrow : ∀ i, isBuy df i = true ∨ isSell df i = true → ∃ r, df[i]? = some r := by
    intro i hi
    cases hr : df[i]? with
    | none => simp [isBuy, isSell, hr] at hi
    | some r => exact ⟨r, rfl⟩
  have hun : ∀ p' ∈ A', ¬ Touch p p' := by
    rw [List.pairwise_append] at g1
    intro p' hp'
    exact g1.2.2 p' hp' p List.mem_cons_self
  rw [tradeRound_append]
  have key : ∀ i, (i = p.1 ∨ i = p.2) →
      0 < (tradeRound (priceOf df) c (qtyOf df) pre.flatten).1 i := by
    intro i hi
    have hside : isBuy df i = true ∨ isSell df i = true := by
      rcases hi with rfl | rfl
      · exact Or.inl hpair.1
      · exact Or.inr hpair.2
    obtain ⟨r, hr⟩ := hrow i hside
    by_cases hpre : pre = []
    · subst hpre
      simp only [List.flatten_nil, tradeRound, qtyOf, hr, Option.map_some, Option.getD_some]
      exact hp r (List.mem_of_getElem? hr)
    · have hex := g2 p (by simp)
      rw [if_neg hpre] at hex
      have hb := (tradeRound_bounds (priceOf df) c (qtyOf df) pre.flatten (by
        intro p' hp'
        exact h.ne p' (by rw [hs]; simp [hp'])) (qtyOf_nonneg (fun r hr => (hp r hr).le)) i).1
      refine lt_of_le_of_ne hb ?_
      intro h0
      have := hex i (mem_exhausted.mpr ⟨⟨r, List.mem_of_getElem? hr, ht.label hr⟩, h0.symm⟩)
      rcases hi with rfl | rfl
      · exact this.1 rfl
      · exact this.2 rfl
  constructor
  · rw [tradeRound_untouched]
    · exact key _ (Or.inl rfl)
    · intro p' hp'
      have := hun p' hp'
      simp only [Touch, not_or] at this
      exact ⟨Ne.symm this.1, Ne.symm this.2.1⟩
  · rw [tradeRound_untouched]
    · exact key _ (Or.inr rfl)
    · intro p' hp'
      have := hun p' hp'
      simp only [Touch, not_or] at this
      exact ⟨Ne.symm this.2.2.1, Ne.symm this.2.2.2⟩

/-- A meeting trades a positive quantity exactly if the prices are compatible. -/
theorem P2PRun.meetQty_pos {df : DF} {c : ℚ} {R : List (List (ℕ × ℕ))} {ts : List Transaction}
    (ht : IsTable df) (hp : ∀ r ∈ df, 0 < r.quantity) (h : P2PRun df c R ts) :
    ∀ m ∈ meetQty (priceOf df) c (qtyOf df) R.flatten,
      0 ≤ m.2 ∧ (0 < m.2 ↔ priceOf df m.1.2 ≤ priceOf df m.1.1) := by
  intro m hm
  obtain ⟨A, B, hAB⟩ := List.append_of_mem hm
  have hfst := congrArg (List.map Prod.fst) hAB
  rw [meetQty_fst, List.map_append, List.map_cons] at hfst
  obtain ⟨h1, h2⟩ := h.meeting_pos ht hp hfst
  have hq := hAB
  rw [hfst, meetQty_append, meetQty] at hq
  have hlen : (meetQty (priceOf df) c (qtyOf df) (A.map Prod.fst)).length = A.length := by
    rw [← List.length_map (f := Prod.fst), meetQty_fst, List.length_map]
  have := (List.append_inj hq hlen).2
  rw [List.cons.injEq] at this
  have hm2 := congrArg Prod.snd this.1
  simp only at hm2
  rw [← hm2]
  split_ifs with hc
  · have := lt_min h1 h2
    exact ⟨this.le, fun _ => hc, fun _ => this⟩
  · exact ⟨le_refl _, fun h => absurd h (lt_irrefl _), fun h => absurd h hc⟩

theorem userAt_eq {df : DF} (ht : IsTable df) (i : ℕ) :
    userAt df (i : ℤ) = (df[i]?).map (fun r => r.user) := by
  rw [← find_label ht]
  unfold userAt
  have : (fun r : Row => decide ((r.label : ℤ) = (i : ℤ))) = fun r => r.label == i := by
    funext r
    rw [Bool.eq_iff_iff, decide_eq_true_eq, beq_iff_eq, Nat.cast_inj]
  rw [this]

end PyMarket
