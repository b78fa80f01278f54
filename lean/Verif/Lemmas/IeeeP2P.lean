import Verif.Lemmas.Ieee
import Verif.Lemmas.FloatP2P
import Verif.Lemmas.Managers

/-! # P2P trading and the bounded exponent -/

set_option autoImplicit false

namespace PyMarket

open Spec

variable {A : Arith}

theorem tradeOneF_bin (hA : IsIeee A) {prices : ℕ → ℚ} {c : ℚ} {q : ℕ → ℚ} {p : ℕ × ℕ}
    (hp : ∀ i, Bd 200 260 1 (prices i)) (hc : Bd 200 200 1 c) (hq : ∀ i, 0 ≤ q i ∧ Bd 200 260 1 (q i))
    (hne : p.1 ≠ p.2) :
    tradeOneF A prices c q p = tradeOneF float64 prices c q p ∧
      (∀ i, 0 ≤ (tradeOneF float64 prices c q p).1 i ∧ Bd 200 260 1 ((tradeOneF float64 prices c q p).1 i)) ∧
      ∀ t ∈ (tradeOneF float64 prices c q p).2, Bd 200 260 1 t.quantity := by
  have h1 : Bd 400 460 1 (prices p.1 * c) := by simpa using (hp p.1).mul hc
  have h2 : Bd 200 200 2 (1 - c) := by
    have : Bd 200 200 1 (1 : ℚ) := ⟨by simpa using Grid.int 200 1, by norm_num⟩
    exact this.sub hc
  have h2' := h2.rnd (by norm_num)
  have h3 : Bd 400 460 2 (float64.rnd (1 - c) * prices p.2) := by simpa using h2'.mul (hp p.2)
  have h4 := (h1.rnd (by norm_num)).add (h3.rnd (by norm_num))
  have hm : Bd 200 260 1 (min (q p.1) (q p.2)) := (hq _).2.min (hq _).2
  have hd : ∀ i, min (q p.1) (q p.2) ≤ q i → Bd 200 260 1 (q i - min (q p.1) (q p.2)) := by
    intro i hi
    refine Bd.of_le ((hq i).2.grid.sub hm.grid) (by linarith) ?_ (hq i).2
    have : 0 ≤ min (q p.1) (q p.2) := le_min (hq _).1 (hq _).1
    linarith
  have hb := hd p.1 (min_le_left _ _)
  have hs := hd p.2 (min_le_right _ _)
  have eb : A.rnd (q p.1 - min (q p.1) (q p.2)) = _ := hA.rnd (hb.safe (by norm_num) (by norm_num) (by norm_num))
  have es : A.rnd (q p.2 - min (q p.1) (q p.2)) = _ := hA.rnd (hs.safe (by norm_num) (by norm_num) (by norm_num))
  have e1 : A.rnd (prices p.1 * c) = _ := hA.rnd (h1.safe (by norm_num) (by norm_num) (by norm_num))
  have e2 : A.rnd (1 - c) = _ := hA.rnd (h2.safe (by norm_num) (by norm_num) (by norm_num))
  have e3 : A.rnd (float64.rnd (1 - c) * prices p.2) = _ :=
    hA.rnd (h3.safe (by norm_num) (by norm_num) (by norm_num))
  have e4 : A.rnd (float64.rnd (prices p.1 * c) + float64.rnd (float64.rnd (1 - c) * prices p.2)) = _ :=
    hA.rnd (h4.safe (by norm_num) (by norm_num) (by norm_num))
  have eset : ∀ v, setQ q p.1 v p.2 = q p.2 := fun v => by
    unfold setQ; rw [if_neg (fun h => hne h.symm)]
  refine ⟨?_, ?_, ?_⟩
  · unfold tradeOneF
    simp only [eset, eb, es, e1, e2, e3, e4]
  · unfold tradeOneF
    simp only [eset]
    split
    · intro i
      unfold setQ
      simp only
      split
      · exact ⟨float64.rnd_nonneg (by linarith [min_le_right (q p.1) (q p.2)]), hs.rnd (by norm_num)⟩
      · split
        · exact ⟨float64.rnd_nonneg (by linarith [min_le_left (q p.1) (q p.2)]), hb.rnd (by norm_num)⟩
        · exact hq i
    · exact hq
  · unfold tradeOneF
    simp only
    split
    · intro t ht
      simp only [List.mem_cons, List.not_mem_nil, or_false] at ht
      rcases ht with rfl | rfl <;> exact hm
    · intro t ht
      simp only [List.mem_cons, List.not_mem_nil, or_false] at ht
      rcases ht with rfl | rfl <;> exact Bd.zero _ _ _

theorem tradeRoundF_bin (hA : IsIeee A) {prices : ℕ → ℚ} {c : ℚ}
    (hp : ∀ i, Bd 200 260 1 (prices i)) (hc : Bd 200 200 1 c) (M : List (ℕ × ℕ)) (hne : ∀ p ∈ M, p.1 ≠ p.2)
    (q : ℕ → ℚ) (hq : ∀ i, 0 ≤ q i ∧ Bd 200 260 1 (q i)) :
    tradeRoundF A prices c q M = tradeRoundF float64 prices c q M ∧
      (∀ i, 0 ≤ (tradeRoundF float64 prices c q M).1 i ∧
        Bd 200 260 1 ((tradeRoundF float64 prices c q M).1 i)) ∧
      ∀ t ∈ (tradeRoundF float64 prices c q M).2, Bd 200 260 1 t.quantity := by
  induction M generalizing q with
  | nil => exact ⟨rfl, hq, by simp [tradeRoundF]⟩
  | cons p M ih =>
    obtain ⟨a1, a2, a3⟩ := tradeOneF_bin hA hp hc hq (hne p List.mem_cons_self)
    obtain ⟨b1, b2, b3⟩ := ih (fun p h => hne p (List.mem_cons_of_mem _ h)) _ a2
    refine ⟨by simp only [tradeRoundF, a1, b1], b2, ?_⟩
    intro t ht
    simp only [tradeRoundF, List.mem_append] at ht
    exact ht.elim (a3 t) (b3 t)

theorem p2pLoopF_bin (hA : IsIeee A) (s : Summer A) (bids : DF) {prices : ℕ → ℚ} {c : ℚ}
    (hlen : bids.length ≤ 2 ^ 50) (hp : ∀ i, Bd 200 260 1 (prices i)) (hc : Bd 200 200 1 c) (choice : ℕ → ℕ)
    (n : ℕ) (q : ℕ → ℚ) (active : List (ℕ × ℕ)) (inactive : List ℕ) (hn : active.Nodup)
    (hne : ∀ p ∈ active, p.1 ≠ p.2) (hq : ∀ i, 0 ≤ q i ∧ Bd 200 260 1 (q i)) :
    p2pLoopF A s bids prices c choice n q active inactive =
      p2pLoopF float64 s.toBin bids prices c choice n q active inactive ∧
      ∀ t ∈ (p2pLoopF float64 s.toBin bids prices c choice n q active inactive).2, Bd 200 260 1 t.quantity := by
  fun_induction p2pLoopF float64 s.toBin bids prices c choice n q active inactive with
  | case1 n q active inactive tmp hcond m t rest ih =>
    have hs := meetLoop_spec choice n active tmp hn
    have hact : ∀ p ∈ m.2.2, p ∈ active := fun p hp => (mem_maskOut.mp (hs.subset p hp)).1
    obtain ⟨a1, a2, a3⟩ := tradeRoundF_bin hA hp hc m.2.2 (fun p h => hne p (hact p h)) q hq
    obtain ⟨b1, b2⟩ := ih hs.nodup (fun p h => hne p ((hs.mem p).mp h).1) a2
    have hsum : s.sum (bids.map (fun r => q r.label)) = s.toBin.sum (bids.map (fun r => q r.label)) := by
      refine s.toBin_sum hA (e := 200) (m := 260) (by norm_num) (by norm_num) ?_ ?_
      · intro x hx
        obtain ⟨r, _, rfl⟩ := List.mem_map.mp hx
        exact (hq _).2
      · rw [List.length_map]; exact hlen.trans (by norm_num)
    refine ⟨?_, ?_⟩
    · conv_lhs => unfold p2pLoopF
      simp only [hsum]
      rw [dif_pos hcond]
      have a1' : tradeRoundF A prices c q (meetLoop choice n active (maskOut active inactive)).2.2 = t := a1
      have b1' : p2pLoopF A s bids prices c choice m.1 t.1 m.2.1 (exhausted bids t.1) = rest := b1
      rw [a1']
      exact congrArg₂ Prod.mk (congrArg₂ List.cons rfl (congrArg Prod.fst b1'))
        (congrArg₂ List.append rfl (congrArg Prod.snd b1'))
    · intro t' ht'
      rcases List.mem_append.mp ht' with h | h
      · exact a3 t' h
      · exact b2 t' h
  | case2 n q active inactive tmp hcond =>
    have hsum : s.sum (bids.map (fun r => q r.label)) = s.toBin.sum (bids.map (fun r => q r.label)) := by
      refine s.toBin_sum hA (e := 200) (m := 260) (by norm_num) (by norm_num) ?_ ?_
      · intro x hx
        obtain ⟨r, _, rfl⟩ := List.mem_map.mp hx
        exact (hq _).2
      · rw [List.length_map]; exact hlen.trans (by norm_num)
    refine ⟨?_, by simp⟩
    conv_lhs => unfold p2pLoopF
    simp only [hsum]
    rw [dif_neg hcond]

/-- The bids that the mechanisms get: prices and quantities on a grid and bounded. -/
structure BookBd (df : DF) : Prop where
  len : df.length ≤ 2 ^ 50
  price : ∀ r ∈ df, Bd 200 260 1 r.price
  qty : ∀ r ∈ df, Bd 200 260 1 r.quantity

theorem p2pRandomF_bin (hA : IsIeee A) (s : Summer A) {df : DF} (ht : IsTable df) (hb : BookBd df)
    (hq : ∀ r ∈ df, 0 ≤ r.quantity) {c : ℚ} (hc : Bd 200 200 1 c) (choice : ℕ → ℕ) :
    p2pRandomF A s c choice df = p2pRandomF float64 s.toBin c choice df ∧
      ∀ tm x, p2pRandomF float64 s.toBin c choice df = .ok (tm, x) → ∀ t ∈ tm.trans, Bd 302 320 1 t.quantity := by
  have hv : ∀ (f : Row → ℚ), (∀ r ∈ df, Bd 200 260 1 (f r)) → ∀ i, Bd 200 260 1 (valueAt df f i) := by
    intro f hf i
    unfold valueAt
    cases h : df[i]? with
    | none => exact Bd.zero _ _ _
    | some r => exact hf r (List.mem_of_getElem? h)
  have h0 : ∀ i, 0 ≤ valueAt df (fun r => r.quantity) i := by
    intro i
    unfold valueAt
    cases h : df[i]? with
    | none => exact le_refl _
    | some r => exact hq r (List.mem_of_getElem? h)
  obtain ⟨a1, a2⟩ := p2pLoopF_bin hA s df hb.len (hv (fun r => r.price) hb.price) hc choice 0
    (valueAt df (fun r => r.quantity)) (allPairs df) [] (allPairs_nodup ht)
    (fun p h => allPairs_ne ht h) (fun i => ⟨h0 i, hv _ hb.qty i⟩)
  unfold p2pRandomF
  refine ⟨by simp only [a1], ?_⟩
  intro tm x h t htm
  cases h
  have : t ∈ (p2pLoopF float64 s.toBin df (valueAt df (fun r => r.price)) c choice 0
      (valueAt df (fun r => r.quantity)) (allPairs df) []).2 := by
    rwa [TransactionManager.init_addAll_trans] at htm
  exact (a2 t this).mono (by norm_num) (by norm_num) le_rfl

end PyMarket
