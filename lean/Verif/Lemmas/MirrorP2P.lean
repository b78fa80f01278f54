import Verif.Lemmas.Mirror
import Verif.Props.P2PDistribution

/-! # The peer-to-peer market commutes with exchanging buyers and sellers -/

set_option autoImplicit false

namespace PyMarket

open Spec

section

variable (M : ℚ) (df : DF)

theorem isTable_mirror (ht : IsTable df) : IsTable (mirror M df) := by
  unfold IsTable at *
  rw [labels_mirror, length_mirror]
  exact ht

theorem mirror_get (i : ℕ) : (mirror M df)[i]? = (df[i]?).map (mirrorRow M) := List.getElem?_map ..

theorem isBuy_mirror (i : ℕ) : isBuy (mirror M df) i = isSell df i := by
  unfold isBuy isSell
  rw [mirror_get, Option.map_map]
  rfl

theorem isSell_mirror (i : ℕ) : isSell (mirror M df) i = isBuy df i := by
  unfold isBuy isSell
  rw [mirror_get, Option.map_map]
  congr 2
  funext r
  exact Bool.not_not _

theorem qtyOf_mirror : qtyOf (mirror M df) = qtyOf df := by
  funext i
  unfold qtyOf
  rw [mirror_get, Option.map_map]
  rfl

theorem priceOf_mirror {i : ℕ} (hi : i < df.length) : priceOf (mirror M df) i = M - priceOf df i := by
  unfold priceOf
  rw [mirror_get, Option.map_map, List.getElem?_eq_getElem hi]
  rfl

/-- Exchanging the two bids of a pair, for sets of pairs. -/
def swapEmb : (ℕ × ℕ) ↪ (ℕ × ℕ) := ⟨Prod.swap, Prod.swap_injective⟩

theorem openPairs_swap (q : ℕ → ℚ) (met : List (ℕ × ℕ)) (first : Bool) :
    openPairs (mirror M df) q (met.map Prod.swap) first = (openPairs df q met first).map swapEmb := by
  ext p
  obtain ⟨p0, rfl⟩ : ∃ p0 : ℕ × ℕ, p0.swap = p := ⟨p.swap, Prod.swap_swap p⟩
  have hr : p0.swap ∈ (openPairs df q met first).map swapEmb ↔ p0 ∈ openPairs df q met first :=
    Finset.mem_map' swapEmb
  rw [hr, mem_openPairs, mem_openPairs, List.mem_map_of_injective Prod.swap_injective]
  unfold IsPair
  simp only [Prod.fst_swap, Prod.snd_swap, isBuy_mirror, isSell_mirror]
  rw [and_comm (a := isSell df p0.2 = true), and_comm (a := q p0.2 ≠ 0)]

end

theorem apart_swap {p p' : ℕ × ℕ} : Apart p.swap p'.swap ↔ Apart p p' := by
  unfold Apart
  exact and_comm

theorem filter_swap (A : Finset (ℕ × ℕ)) (p : ℕ × ℕ) :
    (A.map swapEmb).filter (fun p' => Apart p' p.swap) = (A.filter (fun p' => Apart p' p)).map swapEmb := by
  rw [Finset.filter_map]
  congr 1
  apply Finset.filter_congr
  intro a _
  exact apart_swap

theorem matching_swap (A : Finset (ℕ × ℕ)) (rd : List (ℕ × ℕ)) :
    MaximalMatching (A.map swapEmb) (rd.map Prod.swap) ↔ MaximalMatching A rd := by
  induction rd generalizing A with
  | nil => rw [List.map_nil, matching_nil, matching_nil, Finset.map_eq_empty]
  | cons p rd ih =>
    rw [List.map_cons, matching_cons, matching_cons, filter_swap, ih]
    apply and_congr_left
    intro _
    exact Finset.mem_map' swapEmb

theorem roundOptions_swap (A : Finset (ℕ × ℕ)) (rd : List (ℕ × ℕ)) :
    roundOptions (A.map swapEmb) (rd.map Prod.swap) = roundOptions A rd := by
  induction rd generalizing A with
  | nil => rfl
  | cons p rd ih =>
    rw [List.map_cons, roundOptions, roundOptions, filter_swap, ih, Finset.card_map]

section

variable (M : ℚ) (df : DF)

theorem leftover_swap (q : ℕ → ℚ) (rd : List (ℕ × ℕ)) (hrd : ∀ p ∈ rd, p.1 < df.length ∧ p.2 < df.length) :
    leftover (mirror M df) q (rd.map Prod.swap) = leftover df q rd := by
  funext i
  unfold leftover
  rw [List.map_map]
  congr 2
  apply List.map_congr_left
  intro p hp
  simp only [Function.comp, Prod.fst_swap, Prod.snd_swap, priceOf_mirror M df (hrd p hp).1,
    priceOf_mirror M df (hrd p hp).2, sub_le_sub_iff_left, or_comm (a := p.2 = i), min_comm (q p.2)]

theorem openPairs_lt {q : ℕ → ℚ} {met : List (ℕ × ℕ)} {first : Bool} {p : ℕ × ℕ}
    (h : p ∈ openPairs df q met first) : p.1 < df.length ∧ p.2 < df.length := by
  unfold openPairs at h
  rw [Finset.mem_filter, Finset.mem_product, Finset.mem_range, Finset.mem_range] at h
  exact h.1

theorem process_swap (q : ℕ → ℚ) (met : List (ℕ × ℕ)) (first : Bool) (R : List (List (ℕ × ℕ)))
    (h : Process df q met first R) :
    Process (mirror M df) q (met.map Prod.swap) first (R.map (List.map Prod.swap)) ∧
    options (mirror M df) q (met.map Prod.swap) first (R.map (List.map Prod.swap)) = options df q met first R ∧
    ∀ p ∈ R.flatten, p.1 < df.length ∧ p.2 < df.length := by
  have ht : ∀ q, totalLeft (mirror M df) q = totalLeft df q := by
    intro q
    unfold totalLeft
    rw [length_mirror]
  induction R generalizing q met first with
  | nil =>
    refine ⟨?_, rfl, by intro p hp; cases hp⟩
    simp only [List.map_nil, Process] at h ⊢
    rw [ht, openPairs_swap, Finset.map_eq_empty]
    exact h
  | cons rd R ih =>
    simp only [Process] at h
    obtain ⟨h1, h2, h3, h4⟩ := h
    have hrd : ∀ p ∈ rd, p.1 < df.length ∧ p.2 < df.length := fun p hp => openPairs_lt df (h3.mem p hp)
    obtain ⟨i1, i2, i3⟩ := ih _ _ _ h4
    rw [List.map_append] at i1 i2
    refine ⟨?_, ?_, ?_⟩
    · simp only [List.map_cons, Process]
      rw [ht, openPairs_swap, matching_swap, leftover_swap M df q rd hrd]
      exact ⟨h1, by rw [Ne, List.map_eq_nil_iff]; exact h2, h3, i1⟩
    · simp only [List.map_cons, options]
      rw [openPairs_swap, roundOptions_swap, leftover_swap M df q rd hrd, i2]
    · intro p hp
      rw [List.flatten_cons, List.mem_append] at hp
      rcases hp with hp | hp
      · exact hrd p hp
      · exact i3 p hp

theorem tradeRound_swap (h : Mirrorable M df) {c : ℚ} (hc0 : 0 ≤ c) (hc1 : c ≤ 1) (q : ℕ → ℚ) (L : List (ℕ × ℕ))
    (hL : ∀ p ∈ L, p.1 < df.length ∧ p.2 < df.length) (hne : ∀ p ∈ L, p.1 ≠ p.2) :
    (tradeRound (priceOf (mirror M df)) (1 - c) q (L.map Prod.swap)).2.Perm
      ((tradeRound (priceOf df) c q L).2.map (mirrorMeeting M)) := by
  induction L generalizing q with
  | nil => exact List.Perm.refl _
  | cons p L ih =>
    have e1 := priceOf_mirror M df (hL p List.mem_cons_self).1
    have e2 := priceOf_mirror M df (hL p List.mem_cons_self).2
    have h1 : (tradeOne (priceOf (mirror M df)) (1 - c) q p.swap).1 = (tradeOne (priceOf df) c q p).1 := by
      unfold tradeOne
      simp only [Prod.fst_swap, Prod.snd_swap, e1, e2, sub_le_sub_iff_left, min_comm (q p.2)]
      have hp := hne p List.mem_cons_self
      split_ifs
      · funext i
        simp only [setQ, if_neg hp, if_neg hp.symm]
        split_ifs with a b
        · exact absurd (a.symm.trans b) hp
        · rfl
        · rfl
        · rfl
      · rfl
    simp only [List.map_cons, tradeRound]
    rw [h1, List.map_append]
    refine List.Perm.append ?_ (ih _ (fun p hp => hL p (List.mem_cons_of_mem _ hp))
      (fun p hp => hne p (List.mem_cons_of_mem _ hp)))
    rw [tradeOne_entries, tradeOne_entries]
    simp only [Prod.fst_swap, Prod.snd_swap, e1, e2, sub_le_sub_iff_left, min_comm (q p.2)]
    have hpos : ∀ i < df.length, 0 < priceOf df i := by
      intro i hi
      unfold priceOf
      rw [List.getElem?_eq_getElem hi]
      exact (h _ (List.getElem_mem hi)).2.1
    have p1 := hpos _ (hL p List.mem_cons_self).1
    have p2 := hpos _ (hL p List.mem_cons_self).2
    split_ifs
    · have hpr : priceOf df p.1 * c + (1 - c) * priceOf df p.2 ≠ 0 := by
        rcases hc0.lt_or_eq with hc | hc
        · have a1 := mul_pos p1 hc
          have a2 := mul_nonneg (sub_nonneg.mpr hc1) p2.le
          linarith
        · rw [← hc]
          simp only [mul_zero, zero_add, sub_zero, one_mul]
          exact p2.ne'
      have he : (M - priceOf df p.2) * (1 - c) + (1 - (1 - c)) * (M - priceOf df p.1) =
          M - (priceOf df p.1 * c + (1 - c) * priceOf df p.2) := by ring
      simp only [List.map_cons, List.map_nil, mirrorMeeting, if_neg hpr, he]
      exact List.Perm.swap ..
    · simp only [List.map_cons, List.map_nil, mirrorMeeting, if_true]
      exact List.Perm.swap ..

/-- The peer-to-peer market on the mirrored book. -/
theorem p2p_mirror (ht : IsTable df) (h : Mirrorable M df) {c : ℚ} (hc0 : 0 ≤ c) (hc1 : c ≤ 1) (choice : ℕ → ℕ)
    (tm : TransactionManager) (R : List (List (ℕ × ℕ))) (hr : p2pRandom c choice df = .ok (tm, .p2p R)) :
    (∃ choice' tm', p2pRandom (1 - c) choice' (mirror M df) = .ok (tm', .p2p (R.map (List.map Prod.swap))) ∧
      tm'.trans.Perm (tm.trans.map (mirrorMeeting M))) ∧
    ∀ m L, R.flatten.length ≤ m → (∀ w ∈ options df (qtyOf df) [] true R, w ∣ L) →
      Nat.card {d : Fin m → Fin L // ∃ tm', p2pRandom (1 - c) (extend d) (mirror M df) =
          .ok (tm', .p2p (R.map (List.map Prod.swap)))} =
        Nat.card {d : Fin m → Fin L // ∃ tm', p2pRandom c (extend d) df = .ok (tm', .p2p R)} := by
  have ht' := isTable_mirror M df ht
  have hp := (C87_runs c df ht R).mp ⟨choice, tm, hr⟩
  obtain ⟨h1, h2, h3⟩ := process_swap M df (qtyOf df) [] true R hp
  rw [← qtyOf_mirror M df, List.map_nil] at h1
  refine ⟨?_, ?_⟩
  · obtain ⟨choice', tm', hr'⟩ := (C87_runs (1 - c) (mirror M df) ht' _).mpr h1
    refine ⟨choice', tm', hr', ?_⟩
    have key : ∀ (c : ℚ) (df : DF) (choice : ℕ → ℕ) (tm : TransactionManager) (R : List (List (ℕ × ℕ))),
        IsTable df → p2pRandom c choice df = .ok (tm, .p2p R) →
        tm.trans = (tradeRound (priceOf df) c (qtyOf df) R.flatten).2 ∧
          ∀ p ∈ R.flatten, IsPair df p.1 p.2 := by
      intro c df choice tm R ht hr
      obtain ⟨tm0, R0, h0, hrun⟩ := p2p_run c choice df ht
      rw [hr] at h0
      injection h0 with h0
      obtain ⟨e1, e2⟩ := Prod.mk.inj h0
      injection e2 with e2
      rw [e1, e2]
      exact ⟨hrun.loop.trans, hrun.pair⟩
    rw [(key _ _ choice' tm' _ ht' hr').1, (key _ df choice tm R ht hr).1, ← List.map_flatten, qtyOf_mirror]
    refine tradeRound_swap M df h hc0 hc1 _ _ h3 ?_
    intro p hpR he
    obtain ⟨b1, b2⟩ := (key _ df choice tm R ht hr).2 p hpR
    rw [he] at b1
    unfold isBuy at b1
    unfold isSell at b2
    cases hg : df[p.2]? with
    | none => rw [hg] at b1; cases b1
    | some r =>
      rw [hg] at b1 b2
      simp only [Option.map_some, Option.getD_some, Bool.not_eq_true'] at b1 b2
      rw [b1] at b2
      cases b2
  · intro m L hm hL
    have e1 := C87_probability c df ht R hp m L hm hL
    rw [List.map_nil, ← qtyOf_mirror M df] at h2
    have e2 := C87_probability (1 - c) (mirror M df) ht' _ h1 m L
      (by rw [← List.map_flatten, List.length_map]; exact hm)
      (by rw [h2, qtyOf_mirror]; exact hL)
    rw [h2, qtyOf_mirror, ← e1] at e2
    have hpos : 0 < (options df (qtyOf df) [] true R).prod :=
      Nat.pos_of_ne_zero (List.prod_ne_zero (fun h0 => (options_pos hp 0 h0).ne' rfl))
    exact Nat.eq_of_mul_eq_mul_right hpos e2

end

end PyMarket
