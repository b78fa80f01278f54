import Verif.Lemmas.P2PExec
import Mathlib.Data.Nat.Factorial.Basic
import Mathlib.SetTheory.Cardinal.Finite
import Mathlib.Algebra.BigOperators.Fin
import Mathlib.Data.Fintype.BigOperators

/-! # C87: all runs of peer to peer trading, and how likely they are -/

set_option autoImplicit false

namespace PyMarket

open Spec

/-- **C87, all runs.** The possible values of `trading_list` are exactly the sequences of rounds in which
every round is a maximal matching of the pairs that have not met and have something left, in any order. -/
theorem C87_runs (c : ℚ) (df : DF) (ht : IsTable df) (R : List (List (ℕ × ℕ))) :
    (∃ choice tm, p2pRandom c choice df = .ok (tm, .p2p R)) ↔ Process df (qtyOf df) [] true R := by
  simp only [p2pRandom_iff]
  constructor
  · rintro ⟨choice, h⟩
    exact h.process ht (StateRel.init ht)
  · intro h
    exact exists_loopIdx ht (StateRel.init ht) h

/-- **C87, draws.** The `k`-th draw of a run is among as many pairs as `options` says, and two sequences of
draws lead to the same `trading_list` exactly if they agree modulo these numbers: a run consists of
independent draws, one per meeting, each of which determines one of the possible pairs. -/
theorem C87_draws (c : ℚ) (df : DF) (ht : IsTable df) (R : List (List (ℕ × ℕ))) (choice : ℕ → ℕ)
    (tm : TransactionManager) (h : p2pRandom c choice df = .ok (tm, .p2p R)) :
    (options df (qtyOf df) [] true R).length = R.flatten.length ∧
    ∀ choice', (∃ tm', p2pRandom c choice' df = .ok (tm', .p2p R)) ↔
      ∀ k w, (options df (qtyOf df) [] true R)[k]? = some w → choice' k ≡ choice k [MOD w] := by
  refine ⟨options_length _ _ _ _ _, fun choice' => ?_⟩
  have h' := (p2pRandom_iff c choice df R).mp ⟨tm, h⟩
  rw [p2pRandom_iff, LoopIdx.fibre ht (StateRel.init ht) h']
  simp only [Nat.zero_add]

/-- The draws `d`, continued by zeros. -/
def Spec.extend {m L : ℕ} (d : Fin m → Fin L) (k : ℕ) : ℕ := if h : k < m then (d ⟨k, h⟩ : ℕ) else 0

theorem card_residue {L w : ℕ} (hw : 0 < w) (hd : w ∣ L) (v : ℕ) :
    Fintype.card {x : Fin L // (x : ℕ) ≡ v [MOD w]} * w = L := by
  have h1 : Fintype.card {x : Fin L // (x : ℕ) ≡ v [MOD w]} = L.count (· ≡ v [MOD w]) := by
    rw [Fintype.card_subtype, Nat.count_eq_card_filter_range]
    rw [← Finset.card_map Fin.valEmbedding]
    congr 1
    ext x
    simp only [Finset.mem_map, Finset.mem_filter, Finset.mem_univ, true_and, Fin.valEmbedding_apply,
      Finset.mem_range]
    constructor
    · rintro ⟨a, ha, rfl⟩; exact ⟨a.2, ha⟩
    · rintro ⟨hx, hm⟩; exact ⟨⟨x, hx⟩, hm, rfl⟩
  rw [h1, Nat.count_modEq_card _ hw, Nat.mod_eq_zero_of_dvd hd]
  simp [Nat.div_mul_cancel hd]

/-- **C87, probability.** If every draw is uniform and independent of the others, the probability of a
`trading_list` is one over the product of the numbers of options at its draws: of all `L ^ m` sequences of
`m` draws below a common multiple `L` of these numbers, that many lead to it. -/
theorem C87_probability (c : ℚ) (df : DF) (ht : IsTable df) (R : List (List (ℕ × ℕ)))
    (hR : Process df (qtyOf df) [] true R) (m L : ℕ) (hm : R.flatten.length ≤ m)
    (hL : ∀ w ∈ options df (qtyOf df) [] true R, w ∣ L) :
    Nat.card {d : Fin m → Fin L // ∃ tm, p2pRandom c (extend d) df = .ok (tm, .p2p R)} *
      (options df (qtyOf df) [] true R).prod = L ^ m := by
  obtain ⟨choice, tm, h⟩ := (C87_runs c df ht R).mpr hR
  obtain ⟨hlen, hf⟩ := C87_draws c df ht R choice tm h
  set W := options df (qtyOf df) [] true R with hW
  have hpos : ∀ w ∈ W, 0 < w := options_pos hR
  let w' : Fin m → ℕ := fun k => W.getD k 1
  have hw' : ∀ k, 0 < w' k ∧ w' k ∣ L := by
    intro k
    simp only [w', List.getD_eq_getElem?_getD]
    cases hk : W[(k : ℕ)]? with
    | none => exact ⟨Nat.one_pos, one_dvd _⟩
    | some w => exact ⟨hpos w (List.mem_of_getElem? hk), hL w (List.mem_of_getElem? hk)⟩
  have hequiv : ∀ d : Fin m → Fin L, (∃ tm, p2pRandom c (extend d) df = .ok (tm, .p2p R)) ↔
      ∀ k, (d k : ℕ) ≡ choice k [MOD w' k] := by
    intro d
    rw [hf]
    constructor
    · intro g k
      simp only [w', List.getD_eq_getElem?_getD]
      cases hk : W[(k : ℕ)]? with
      | none => exact Nat.modEq_one
      | some w =>
        have := g k w hk
        unfold extend at this
        rw [dif_pos k.2] at this
        exact this
    · intro g k w hk
      have hkm : k < m := by
        have := (List.getElem?_eq_some_iff.mp hk).1
        omega
      have := g ⟨k, hkm⟩
      simp only [w', List.getD_eq_getElem?_getD, hk, Option.getD_some] at this
      unfold extend
      rw [dif_pos hkm]
      exact this
  have hcard : Nat.card {d : Fin m → Fin L // ∃ tm, p2pRandom c (extend d) df = .ok (tm, .p2p R)} =
      ∏ k, Fintype.card {x : Fin L // (x : ℕ) ≡ choice k [MOD w' k]} := by
    rw [← Fintype.card_pi, ← Nat.card_eq_fintype_card]
    refine Nat.card_congr ?_
    refine (Equiv.subtypeEquivRight hequiv).trans ?_
    exact Equiv.subtypePiEquivPi (p := fun (k : Fin m) (x : Fin L) => (x : ℕ) ≡ choice k [MOD w' k])
  have hprod : W.prod = ∏ k, w' k := by
    have h1 : ∏ k, w' k = ∏ k ∈ Finset.range m, W.getD k 1 := (Finset.prod_range (fun k => W.getD k 1)).symm
    rw [h1]
    have h2 : ∀ (l : List ℕ) (n : ℕ), l.length ≤ n → ∏ k ∈ Finset.range n, l.getD k 1 = l.prod := by
      intro l
      induction l with
      | nil => intro n _; simp
      | cons a l ih =>
        intro n hn
        obtain ⟨n, rfl⟩ : ∃ n', n = n' + 1 := ⟨n - 1, by simp at hn; omega⟩
        rw [Finset.prod_range_succ', List.prod_cons, mul_comm]
        congr 1
        rw [← ih n (by simpa using hn)]
        apply Finset.prod_congr rfl
        intro k _
        simp
    rw [h2 W m (by omega)]
  rw [hcard, hprod, ← Finset.prod_mul_distrib]
  rw [Finset.prod_congr rfl (fun k _ => card_residue (hw' k).1 (hw' k).2 (choice k))]
  simp

theorem roundOptions_le (A : Finset (ℕ × ℕ)) (rd : List (ℕ × ℕ)) : ∀ w ∈ roundOptions A rd, w ≤ A.card := by
  induction rd generalizing A with
  | nil => intro w hw; cases hw
  | cons p rd ih =>
    intro w hw
    rcases List.mem_cons.mp hw with rfl | hw
    · exact le_refl _
    · exact (ih _ w hw).trans (Finset.card_filter_le _ _)

theorem openPairs_card {df : DF} (ht : IsTable df) (q : ℕ → ℚ) (met : List (ℕ × ℕ)) (first : Bool) :
    (openPairs df q met first).card ≤
      (df.filter (fun r => r.buying)).length * (df.filter (fun r => !r.buying)).length := by
  have h1 : openPairs df q met first ⊆ (allPairs df).toFinset := by
    intro p hp
    rw [List.mem_toFinset]
    exact (mem_allPairs_iff ht).mpr (mem_openPairs.mp hp).1
  refine (Finset.card_le_card h1).trans ((List.toFinset_card_le _).trans ?_)
  rw [allPairs_length]
  rfl

theorem options_le {df : DF} (ht : IsTable df) (q : ℕ → ℚ) (met : List (ℕ × ℕ)) (first : Bool)
    (R : List (List (ℕ × ℕ))) : ∀ w ∈ options df q met first R, w ≤
      (df.filter (fun r => r.buying)).length * (df.filter (fun r => !r.buying)).length := by
  induction R generalizing q met first with
  | nil => intro w hw; cases hw
  | cons rd R ih =>
    intro w hw
    rw [options, List.mem_append] at hw
    rcases hw with hw | hw
    · exact (roundOptions_le _ _ w hw).trans (openPairs_card ht _ _ _)
    · exact ih _ _ _ w hw

/-- **C87, probability, for one choice of `m` and `L`.** With `N` pairs of a buying and a selling bid, `N`
draws below `N!` are always enough. -/
theorem C87_probability_factorial (c : ℚ) (df : DF) (ht : IsTable df)
    (R : List (List (ℕ × ℕ))) (hR : Process df (qtyOf df) [] true R) (N : ℕ)
    (hN : N = (df.filter (fun r => r.buying)).length * (df.filter (fun r => !r.buying)).length) :
    Nat.card {d : Fin N → Fin N.factorial // ∃ tm, p2pRandom c (extend d) df = .ok (tm, .p2p R)} *
      (options df (qtyOf df) [] true R).prod = N.factorial ^ N := by
  refine C87_probability c df ht R hR N _ ?_ ?_
  · obtain ⟨choice, tm, h⟩ := (C87_runs c df ht R).mpr hR
    obtain ⟨tm', R', h', hr⟩ := p2p_run c choice df ht
    rw [h] at h'
    injection h' with h'
    obtain ⟨-, h'⟩ := Prod.mk.inj h'
    injection h' with h'
    subst h'
    have h1 := (hr.loop.nodup.subperm hr.loop.subset).length_le
    rw [allPairs_length] at h1
    rw [hN]; exact h1
  · intro w hw
    exact Nat.dvd_factorial (options_pos hR w hw) (hN ▸ options_le ht _ _ _ _ w hw)

/-! ## The order of submission -/

/-- `df'` has the bids of `df` in another order: bid `i` of `df` is bid `σ i` of `df'`. -/
def Spec.Renamed (σ : Equiv.Perm ℕ) (df df' : DF) : Prop :=
  df'.length = df.length ∧ ∀ i, (df'[σ i]?).map (fun r => (r.quantity, r.price, r.buying)) =
    (df[i]?).map (fun r => (r.quantity, r.price, r.buying))

/-- Renaming the bids of a pair. -/
def Spec.rename (σ : Equiv.Perm ℕ) (p : ℕ × ℕ) : ℕ × ℕ := (σ p.1, σ p.2)

/-- Renaming the bids in an entry of the log. -/
def Spec.renameTrans (σ : Equiv.Perm ℕ) (t : Transaction) : Transaction :=
  ⟨σ t.bid, t.quantity, t.price, (σ t.source.toNat : ℕ), t.active⟩

section
variable {σ : Equiv.Perm ℕ} {df df' : DF}

theorem renamed_fields (h : Renamed σ df df') (i : ℕ) :
    isBuy df' (σ i) = isBuy df i ∧ isSell df' (σ i) = isSell df i ∧ qtyOf df' (σ i) = qtyOf df i ∧
    priceOf df' (σ i) = priceOf df i ∧ (σ i < df'.length ↔ i < df.length) := by
  have := h.2 i
  unfold isBuy isSell qtyOf priceOf
  cases h1 : df'[σ i]? with
  | none =>
    rw [h1] at this
    cases h2 : df[i]? with
    | none =>
      rw [List.getElem?_eq_none_iff] at h1 h2
      refine ⟨rfl, rfl, rfl, rfl, by omega⟩
    | some r => rw [h2] at this; cases this
  | some r =>
    rw [h1] at this
    cases h2 : df[i]? with
    | none => rw [h2] at this; cases this
    | some r' =>
      rw [h2] at this
      simp only [Option.map_some, Option.some.injEq, Prod.mk.injEq] at this
      have l1 := (List.getElem?_eq_some_iff.mp h1).1
      have l2 := (List.getElem?_eq_some_iff.mp h2).1
      simp [this, l1, l2]

theorem rename_inj {p p' : ℕ × ℕ} : rename σ p = rename σ p' ↔ p = p' := by
  unfold rename
  rw [Prod.mk.injEq, σ.injective.eq_iff, σ.injective.eq_iff, Prod.ext_iff]

/-- Renaming as an embedding, for sets of pairs. -/
def renameEmb (σ : Equiv.Perm ℕ) : (ℕ × ℕ) ↪ (ℕ × ℕ) := ⟨rename σ, fun _ _ h => rename_inj.mp h⟩

theorem apart_rename {p p' : ℕ × ℕ} : Apart (rename σ p) (rename σ p') ↔ Apart p p' := by
  unfold Apart rename
  rw [Ne, Ne, σ.injective.eq_iff, σ.injective.eq_iff]

theorem openPairs_rename (h : Renamed σ df df') {q q' : ℕ → ℚ} (hq : ∀ i, q' (σ i) = q i)
    (met : List (ℕ × ℕ)) (first : Bool) :
    openPairs df' q' (met.map (rename σ)) first = (openPairs df q met first).map (renameEmb σ) := by
  ext p
  obtain ⟨p0, rfl⟩ : ∃ p0, rename σ p0 = p := ⟨(σ.symm p.1, σ.symm p.2), by simp [rename]⟩
  have hr : rename σ p0 ∈ (openPairs df q met first).map (renameEmb σ) ↔ p0 ∈ openPairs df q met first := by
    rw [Finset.mem_map]
    constructor
    · rintro ⟨a, ha, he⟩
      rw [← rename_inj.mp (show rename σ a = rename σ p0 from he)]; exact ha
    · intro ha; exact ⟨p0, ha, rfl⟩
  rw [hr, mem_openPairs, mem_openPairs]
  have hm : rename σ p0 ∈ met.map (rename σ) ↔ p0 ∈ met := by
    rw [List.mem_map]
    constructor
    · rintro ⟨a, ha, he⟩; rw [← rename_inj.mp he]; exact ha
    · intro ha; exact ⟨p0, ha, rfl⟩
  rw [hm]
  unfold IsPair
  simp only [rename, (renamed_fields h p0.1).1, (renamed_fields h p0.2).2.1, hq]

theorem filter_rename (A : Finset (ℕ × ℕ)) (p : ℕ × ℕ) :
    (A.map (renameEmb σ)).filter (fun p' => Apart p' (rename σ p)) =
      (A.filter (fun p' => Apart p' p)).map (renameEmb σ) := by
  rw [Finset.filter_map]
  congr 1
  apply Finset.filter_congr
  intro a _
  exact apart_rename

theorem matching_rename (A : Finset (ℕ × ℕ)) (rd : List (ℕ × ℕ)) :
    MaximalMatching (A.map (renameEmb σ)) (rd.map (rename σ)) ↔ MaximalMatching A rd := by
  induction rd generalizing A with
  | nil => rw [List.map_nil, matching_nil, matching_nil, Finset.map_eq_empty]
  | cons p rd ih =>
    rw [List.map_cons, matching_cons, matching_cons, filter_rename, ih]
    apply and_congr_left
    intro _
    exact Finset.mem_map' (renameEmb σ)

theorem roundOptions_rename (A : Finset (ℕ × ℕ)) (rd : List (ℕ × ℕ)) :
    roundOptions (A.map (renameEmb σ)) (rd.map (rename σ)) = roundOptions A rd := by
  induction rd generalizing A with
  | nil => rfl
  | cons p rd ih =>
    rw [List.map_cons, roundOptions, roundOptions, filter_rename, ih, Finset.card_map]

theorem leftover_rename (h : Renamed σ df df') {q q' : ℕ → ℚ} (hq : ∀ i, q' (σ i) = q i)
    (rd : List (ℕ × ℕ)) (i : ℕ) : leftover df' q' (rd.map (rename σ)) (σ i) = leftover df q rd i := by
  unfold leftover
  rw [hq, List.map_map]
  congr 2
  apply List.map_congr_left
  intro p _
  simp only [Function.comp, rename, hq, (fun i => (renamed_fields h i).2.2.2.1 : ∀ i, priceOf df' (σ i) = priceOf df i), σ.injective.eq_iff]

theorem totalLeft_rename (h : Renamed σ df df') {q q' : ℕ → ℚ} (hq : ∀ i, q' (σ i) = q i) :
    totalLeft df' q' = totalLeft df q := by
  have hs : ∀ (n : ℕ) (f : ℕ → ℚ), ((List.range n).map f).sum = ∑ i ∈ Finset.range n, f i := by
    intro n f
    induction n with
    | zero => rfl
    | succ n ih => rw [List.range_succ, List.map_append, List.sum_append, ih, Finset.sum_range_succ]; simp
  unfold totalLeft
  rw [hs, hs]
  symm
  refine Finset.sum_equiv σ ?_ ?_
  · intro i
    rw [Finset.mem_range, Finset.mem_range, (renamed_fields h i).2.2.2.2]
  · intro i _
    rw [hq]

theorem process_rename (h : Renamed σ df df') {q q' : ℕ → ℚ} (hq : ∀ i, q' (σ i) = q i)
    (met : List (ℕ × ℕ)) (first : Bool) (R : List (List (ℕ × ℕ))) :
    (Process df' q' (met.map (rename σ)) first (R.map (List.map (rename σ))) ↔ Process df q met first R) ∧
    options df' q' (met.map (rename σ)) first (R.map (List.map (rename σ))) = options df q met first R := by
  induction R generalizing q q' met first with
  | nil =>
    refine ⟨?_, rfl⟩
    simp only [List.map_nil, Process]
    rw [totalLeft_rename h hq, openPairs_rename h hq, Finset.map_eq_empty]
  | cons rd R ih =>
    obtain ⟨i1, i2⟩ := ih (leftover_rename h hq rd) (met ++ rd) false
    rw [List.map_append] at i1 i2
    constructor
    · simp only [List.map_cons, Process]
      rw [totalLeft_rename h hq, openPairs_rename h hq, matching_rename, i1, Ne, Ne, List.map_eq_nil_iff]
    · simp only [List.map_cons, options]
      rw [openPairs_rename h hq, roundOptions_rename, i2]

theorem tradeRound_rename (h : Renamed σ df df') (c : ℚ) {q q' : ℕ → ℚ} (hq : ∀ i, q' (σ i) = q i)
    (M : List (ℕ × ℕ)) :
    (∀ i, (tradeRound (priceOf df') c q' (M.map (rename σ))).1 (σ i) = (tradeRound (priceOf df) c q M).1 i) ∧
    (tradeRound (priceOf df') c q' (M.map (rename σ))).2 =
      (tradeRound (priceOf df) c q M).2.map (renameTrans σ) := by
  induction M generalizing q q' with
  | nil => exact ⟨hq, rfl⟩
  | cons p M ih =>
    have h1 : ∀ i, (tradeOne (priceOf df') c q' (rename σ p)).1 (σ i) = (tradeOne (priceOf df) c q p).1 i := by
      intro i
      unfold tradeOne
      simp only [rename, (fun i => (renamed_fields h i).2.2.2.1 : ∀ i, priceOf df' (σ i) = priceOf df i), hq]
      split_ifs
      · simp only [setQ, σ.injective.eq_iff, hq]
      · exact hq i
    obtain ⟨i1, i2⟩ := ih h1
    simp only [List.map_cons, tradeRound]
    refine ⟨i1, ?_⟩
    rw [i2, List.map_append, tradeOne_entries, tradeOne_entries]
    simp only [rename, (fun i => (renamed_fields h i).2.2.2.1 : ∀ i, priceOf df' (σ i) = priceOf df i), hq]
    split_ifs <;> simp [renameTrans]

end

/-- **C87, order of submission.** Whatever can happen to the bids can happen, with the same probability and
the same transactions, when the bids are submitted in another order. -/
theorem C87_reorder (σ : Equiv.Perm ℕ) (c : ℚ) (df df' : DF) (ht : IsTable df) (ht' : IsTable df')
    (h : Renamed σ df df') (choice : ℕ → ℕ) (tm : TransactionManager) (R : List (List (ℕ × ℕ)))
    (hr : p2pRandom c choice df = .ok (tm, .p2p R)) :
    (∃ choice' tm', p2pRandom c choice' df' = .ok (tm', .p2p (R.map (List.map (rename σ)))) ∧
      tm'.trans = tm.trans.map (renameTrans σ)) ∧
    options df' (qtyOf df') [] true (R.map (List.map (rename σ))) = options df (qtyOf df) [] true R ∧
    ∀ m L, R.flatten.length ≤ m → (∀ w ∈ options df (qtyOf df) [] true R, w ∣ L) →
      Nat.card {d : Fin m → Fin L // ∃ tm', p2pRandom c (extend d) df' =
          .ok (tm', .p2p (R.map (List.map (rename σ))))} =
        Nat.card {d : Fin m → Fin L // ∃ tm', p2pRandom c (extend d) df = .ok (tm', .p2p R)} := by
  have hp := (C87_runs c df ht R).mp ⟨choice, tm, hr⟩
  obtain ⟨h1, h2⟩ := process_rename h (fun i => (renamed_fields h i).2.2.1) [] true R
  have hp' := h1.mpr hp
  refine ⟨?_, h2, ?_⟩
  · obtain ⟨choice', tm', hr'⟩ := (C87_runs c df' ht' _).mpr hp'
    refine ⟨choice', tm', hr', ?_⟩
    have key : ∀ (df : DF) (choice : ℕ → ℕ) (tm : TransactionManager) (R : List (List (ℕ × ℕ))), IsTable df →
        p2pRandom c choice df = .ok (tm, .p2p R) →
        tm.trans = (tradeRound (priceOf df) c (qtyOf df) R.flatten).2 := by
      intro df choice tm R ht hr
      obtain ⟨tm0, R0, h0, hrun⟩ := p2p_run c choice df ht
      rw [hr] at h0
      injection h0 with h0
      obtain ⟨e1, e2⟩ := Prod.mk.inj h0
      injection e2 with e2
      rw [e1, e2]
      exact hrun.loop.trans
    rw [key df' choice' tm' _ ht' hr', key df choice tm R ht hr, ← List.map_flatten]
    exact (tradeRound_rename h c (fun i => (renamed_fields h i).2.2.1) R.flatten).2
  · intro m L hm hL
    have e1 := C87_probability c df ht R hp m L hm hL
    have e2 := C87_probability c df' ht' _ hp' m L (by rw [← List.map_flatten, List.length_map]; exact hm)
      (by rw [List.map_nil] at h2; rw [h2]; exact hL)
    rw [List.map_nil] at h2
    rw [h2, ← e1] at e2
    have hpos : 0 < (options df (qtyOf df) [] true R).prod :=
      Nat.pos_of_ne_zero (List.prod_ne_zero (fun h0 => (options_pos hp 0 h0).ne' rfl))
    exact Nat.eq_of_mul_eq_mul_right hpos e2

/-- Renaming that leaves `0` alone. -/
def shiftPerm (σ : Equiv.Perm ℕ) : Equiv.Perm ℕ where
  toFun n := match n with | 0 => 0 | n + 1 => σ n + 1
  invFun n := match n with | 0 => 0 | n + 1 => σ.symm n + 1
  left_inv n := by cases n <;> simp
  right_inv n := by cases n <;> simp

theorem exists_perm {α : Type} {l l' : List α} (h : l.Perm l') :
    ∃ σ : Equiv.Perm ℕ, ∀ i, l'[σ i]? = l[i]? := by
  induction h with
  | nil => exact ⟨Equiv.refl _, fun i => by simp⟩
  | cons a h ih =>
    obtain ⟨σ, hσ⟩ := ih
    refine ⟨shiftPerm σ, fun i => ?_⟩
    cases i with
    | zero => rfl
    | succ i => exact hσ i
  | swap a b l =>
    refine ⟨Equiv.swap 0 1, fun i => ?_⟩
    match i with
    | 0 => rfl
    | 1 => rfl
    | i + 2 => rw [Equiv.swap_apply_of_ne_of_ne (by omega) (by omega)]; rfl
  | trans h1 h2 ih1 ih2 =>
    obtain ⟨σ1, h1⟩ := ih1
    obtain ⟨σ2, h2⟩ := ih2
    exact ⟨σ1.trans σ2, fun i => by rw [Equiv.trans_apply, h2, h1]⟩

/-- **C87, order of submission.** Submitting the same bids, whoever they belong to, in another order renames
the bids in the sense of `C87_reorder`. -/
theorem C87_submission (bs bs' : List Bid)
    (h : (bs.map (fun b => (b.quantity, b.price, b.buying))).Perm
      (bs'.map (fun b => (b.quantity, b.price, b.buying)))) :
    ∃ σ, Renamed σ (labelFrom 0 bs) (labelFrom 0 bs') := by
  obtain ⟨σ, hσ⟩ := exists_perm h
  have key : ∀ (l : List Bid) (n i : ℕ), ((labelFrom n l)[i]?).map (fun r => (r.quantity, r.price, r.buying)) =
      (l.map (fun b => (b.quantity, b.price, b.buying)))[i]? := by
    intro l
    induction l with
    | nil => intro n i; rfl
    | cons b l ih =>
      intro n i
      cases i with
      | zero => rfl
      | succ i => exact ih (n + 1) i
  have hlen : ∀ (l : List Bid) (n : ℕ), (labelFrom n l).length = l.length := by
    intro l
    induction l with
    | nil => intro n; rfl
    | cons b l ih => intro n; simp only [labelFrom, List.length_cons, ih]
  refine ⟨σ, ?_, fun i => ?_⟩
  · rw [hlen, hlen]
    simpa using h.length_eq.symm
  · rw [key, key]; exact hσ i

/-! ## A concrete case -/

/-- Two buyers and two sellers, quantities 1, 2, 1, 3. -/
def twoByTwo : DF := labelFrom 0
  [⟨1, 3, 0, true, 0, true⟩, ⟨2, 5, 1, true, 0, true⟩, ⟨1, 1, 2, false, 0, true⟩, ⟨3, 2, 3, false, 0, true⟩]

/-- The same market with the sellers first. -/
def twoByTwo' : DF := labelFrom 0
  [⟨1, 1, 2, false, 0, true⟩, ⟨3, 2, 3, false, 0, true⟩, ⟨1, 3, 0, true, 0, true⟩, ⟨2, 5, 1, true, 0, true⟩]

/-- In this market a run has two rounds or one; the rounds `(0,2), (1,3)` have probability 1/4, as there are
four pairs at the first draw and one at the second. The same rounds with `(1,3)` drawn first are another
`trading_list`. -/
example : IsTable twoByTwo ∧ IsTable twoByTwo' ∧
    (p2pRandom (1 / 2) (fun _ => 0) twoByTwo).toOption.map (fun x => x.2) = some (.p2p [[(0, 2), (1, 3)]]) ∧
    options twoByTwo (qtyOf twoByTwo) [] true [[(0, 2), (1, 3)]] = [4, 1] ∧
    (p2pRandom (1 / 2) (fun _ => 1) twoByTwo).toOption.map (fun x => x.2) =
      some (.p2p [[(0, 3), (1, 2)], [(1, 3)]]) ∧
    options twoByTwo (qtyOf twoByTwo) [] true [[(0, 3), (1, 2)], [(1, 3)]] = [4, 1, 1] := by
  decide +kernel

/-- The two tables are reorderings of each other. -/
example : ∃ σ, Renamed σ twoByTwo twoByTwo' :=
  C87_submission _ _ (by decide +kernel)

end PyMarket
