import Verif.Model.RandomState
import Mathlib.Data.Set.Card
import Mathlib.Data.Set.Card.Arithmetic

/-! # Lemmas about the draws of a `RandomState` (C92) -/

set_option autoImplicit false

namespace PyMarket

/-! ## One draw -/

theorem bitMask_mod (m w : ℕ) : w &&& bitMask m = w % 2 ^ (Nat.log2 m + 1) := by
  simp [bitMask, Nat.and_two_pow_sub_one_eq_mod]

theorem and_bitMask_of_le {m x : ℕ} (h : x ≤ m) : x &&& bitMask m = x := by
  rw [bitMask_mod, Nat.mod_eq_of_lt (lt_of_le_of_lt h Nat.lt_log2_self)]

theorem reject_le (m : ℕ) (ws : List ℕ) (x : ℕ) (ws' : List ℕ) (h : reject m ws = some (x, ws')) :
    x ≤ m := by
  induction ws with
  | nil => simp [reject] at h
  | cons w ws ih =>
    unfold reject at h
    split at h
    · next hw => simp at h; omega
    · exact ih h

theorem interval_le (m : ℕ) (ws : List ℕ) (x : ℕ) (ws' : List ℕ) (h : interval m ws = some (x, ws')) :
    x ≤ m := by
  unfold interval at h
  split at h
  · simp at h; omega
  · exact reject_le _ _ _ _ h

/-- The words that make a draw from `0, …, m` return `x`. -/
def wordsFor (m x : ℕ) : List ℕ := if m = 0 then [] else [x]

theorem interval_wordsFor {m x : ℕ} (h : x ≤ m) (more : List ℕ) :
    interval m (wordsFor m x ++ more) = some (x, more) := by
  unfold interval wordsFor
  by_cases h0 : m = 0
  · simp [h0]; omega
  · simp [h0, reject, and_bitMask_of_le h, h]

/-! ## Peer to peer trading -/

theorem meetLoopR_sound (ws : List ℕ) (active tmp : List (ℕ × ℕ)) (ws' : List ℕ)
    (active' rd : List (ℕ × ℕ)) (h : meetLoopR ws active tmp = some (ws', active', rd)) :
    ∃ idx : List ℕ, ∀ (choice : ℕ → ℕ) (n : ℕ),
      (∀ k (hk : k < idx.length), choice (n + k) = idx[k]) →
      meetLoop choice n active tmp = (n + idx.length, active', rd) := by
  induction hl : tmp.length using Nat.strong_induction_on generalizing ws active tmp ws' active' rd with
  | _ l ih =>
  unfold meetLoopR at h
  split at h
  · next h0 =>
    simp at h
    obtain ⟨rfl, rfl, rfl⟩ := h
    refine ⟨[], fun choice n _ => ?_⟩
    subst h0
    unfold meetLoop
    simp
  · next h0 =>
    simp only [Option.bind_eq_bind, Option.bind_eq_some_iff] at h
    obtain ⟨⟨x, ws1⟩, hx, h⟩ := h
    have hpos : 0 < tmp.length := List.length_pos_of_ne_nil h0
    have hxl : x < tmp.length := by have := interval_le _ _ _ _ hx; omega
    simp only at h
    split at h
    · next hn => simp at hn; omega
    · next trade ht =>
      simp only [Option.bind_eq_some_iff] at h
      obtain ⟨⟨ws2, a2, r2⟩, h2, h3⟩ := h
      simp at h3
      obtain ⟨rfl, rfl, rfl⟩ := h3
      have hlt := maskTrade_length_lt trade tmp (List.mem_of_getElem? ht)
      obtain ⟨idx, hidx⟩ := ih _ (hl ▸ hlt) _ _ _ _ _ _ h2 rfl
      refine ⟨x :: idx, fun choice n hc => ?_⟩
      have hc0 : choice n = x := hc 0 (by simp)
      have hrec := hidx choice (n + 1) (fun k hk => by
        have := hc (k + 1) (by simp; omega)
        simpa [Nat.add_assoc, Nat.add_comm 1 k] using this)
      unfold meetLoop
      split
      · next hnone => rw [hc0, Nat.mod_eq_of_lt hxl, ht] at hnone; simp at hnone
      · next trade' hs =>
        rw [hc0, Nat.mod_eq_of_lt hxl, ht] at hs
        simp only [Option.some.injEq] at hs
        subst hs
        rw [hrec]
        simp [Nat.add_assoc, Nat.add_comm 1]

theorem meetLoopR_complete (choice : ℕ → ℕ) (n : ℕ) (active tmp : List (ℕ × ℕ)) :
    ∃ ws : List ℕ, (∀ w ∈ ws, w < tmp.length) ∧ ∀ more : List ℕ,
      meetLoopR (ws ++ more) active tmp =
        some (more, (meetLoop choice n active tmp).2.1, (meetLoop choice n active tmp).2.2) := by
  induction hl : tmp.length using Nat.strong_induction_on generalizing n active tmp with
  | _ l ih =>
  by_cases h0 : tmp = []
  · refine ⟨[], by simp, fun more => ?_⟩
    subst h0
    unfold meetLoopR meetLoop
    simp
  · have hpos : 0 < tmp.length := List.length_pos_of_ne_nil h0
    have hx := Nat.mod_lt (choice n) hpos
    obtain ⟨trade, ht⟩ : ∃ t, tmp[choice n % tmp.length]? = some t :=
      ⟨_, List.getElem?_eq_getElem hx⟩
    have hlt := maskTrade_length_lt trade tmp (List.mem_of_getElem? ht)
    obtain ⟨ws, hws, hrun⟩ := ih _ (hl ▸ hlt) (n + 1) (active.erase trade) (maskTrade trade tmp) rfl
    refine ⟨wordsFor (tmp.length - 1) (choice n % tmp.length) ++ ws, ?_, fun more => ?_⟩
    · intro w hw
      rcases List.mem_append.1 hw with hw | hw
      · unfold wordsFor at hw
        split at hw
        · simp at hw
        · simp at hw; omega
      · have := hws w hw; omega
    · have hm : meetLoop choice n active tmp =
          ((meetLoop choice (n + 1) (active.erase trade) (maskTrade trade tmp)).1,
           (meetLoop choice (n + 1) (active.erase trade) (maskTrade trade tmp)).2.1,
           trade :: (meetLoop choice (n + 1) (active.erase trade) (maskTrade trade tmp)).2.2) := by
        conv_lhs => unfold meetLoop
        split
        · next hnone => rw [ht] at hnone; simp at hnone
        · next t' hs =>
          rw [ht] at hs
          simp only [Option.some.injEq] at hs
          subst hs
          rfl
      rw [hm]
      unfold meetLoopR
      rw [if_neg h0, List.append_assoc, interval_wordsFor (by omega)]
      simp only [Option.bind_eq_bind, Option.bind_some]
      split
      · next hnone => rw [ht] at hnone; simp at hnone
      · next t' hs =>
        rw [ht] at hs
        simp only [Option.some.injEq] at hs
        subst hs
        rw [hrun more]
        simp

theorem p2pLoopR_sound (bids : DF) (prices : ℕ → ℚ) (c : ℚ) (fuel : ℕ) (ws : List ℕ) (q : ℕ → ℚ)
    (active : List (ℕ × ℕ)) (inactive : List ℕ) (hf : active.length ≤ fuel)
    (R : List (List (ℕ × ℕ))) (ts : List Transaction) (ws' : List ℕ)
    (h : p2pLoopR bids prices c fuel ws q active inactive = some (R, ts, ws')) :
    ∃ idx : List ℕ, ∀ (choice : ℕ → ℕ) (n : ℕ),
      (∀ k (hk : k < idx.length), choice (n + k) = idx[k]) →
      p2pLoop bids prices c choice n q active inactive = (R, ts) := by
  induction fuel generalizing ws q active inactive R ts ws' with
  | zero =>
    have : active = [] := List.length_eq_zero_iff.1 (by omega)
    subst this
    simp [p2pLoopR] at h
    obtain ⟨rfl, rfl, rfl⟩ := h
    refine ⟨[], fun choice n _ => ?_⟩
    have hs : maskOut [] inactive = [] := List.sublist_nil.1 (maskOut_sublist [] inactive)
    unfold p2pLoop
    simp [hs]
  | succ fuel ih =>
    unfold p2pLoopR at h
    simp only at h
    split at h
    · next hc =>
      simp only [Option.bind_eq_bind, Option.bind_eq_some_iff] at h
      obtain ⟨⟨ws1, a1, rd⟩, hm, ⟨R1, ts1, ws2⟩, hr, h⟩ := h
      simp at h
      obtain ⟨rfl, rfl, rfl⟩ := h
      obtain ⟨i1, h1⟩ := meetLoopR_sound _ _ _ _ _ _ hm
      have hlen : a1.length < active.length := by
        let ch : ℕ → ℕ := fun k => i1.getD k 0
        have he := h1 ch 0 (fun k hk => by simp [ch, hk])
        have := meetLoop_active_lt ch 0 active _ hc.2 (maskOut_sublist active inactive).subset
        rwa [he] at this
      obtain ⟨i2, h2⟩ := ih ws1 _ a1 _ (by omega) _ _ _ hr
      refine ⟨i1 ++ i2, fun choice n hk => ?_⟩
      have e1 := h1 choice n (fun k hk' => by
        have := hk k (by simp; omega)
        rwa [List.getElem_append_left hk'] at this)
      have e2 := h2 choice (n + i1.length) (fun k hk' => by
        have := hk (i1.length + k) (by simp; omega)
        rw [List.getElem_append_right (by omega)] at this
        simpa [Nat.add_assoc] using this)
      unfold p2pLoop
      simp only [dif_pos hc]
      rw [e1]
      simp only
      rw [e2]
    · next hc =>
      simp at h
      obtain ⟨rfl, rfl, rfl⟩ := h
      refine ⟨[], fun choice n _ => ?_⟩
      unfold p2pLoop
      simp only [dif_neg hc]

theorem p2pLoopR_complete (bids : DF) (prices : ℕ → ℚ) (c : ℚ) (choice : ℕ → ℕ) (fuel : ℕ) (n : ℕ)
    (q : ℕ → ℚ) (active : List (ℕ × ℕ)) (inactive : List ℕ) (hf : active.length ≤ fuel) :
    ∃ ws : List ℕ, (∀ w ∈ ws, w < active.length) ∧ ∀ more : List ℕ,
      p2pLoopR bids prices c fuel (ws ++ more) q active inactive =
        some ((p2pLoop bids prices c choice n q active inactive).1,
          (p2pLoop bids prices c choice n q active inactive).2, more) := by
  induction fuel generalizing n q active inactive with
  | zero =>
    have : active = [] := List.length_eq_zero_iff.1 (by omega)
    subst this
    refine ⟨[], by simp, fun more => ?_⟩
    have hs : maskOut [] inactive = [] := List.sublist_nil.1 (maskOut_sublist [] inactive)
    unfold p2pLoop
    simp [hs, p2pLoopR]
  | succ fuel ih =>
    by_cases hc : 0 < (bids.map (fun r => q r.label)).sum ∧ maskOut active inactive ≠ []
    · obtain ⟨w1, b1, h1⟩ := meetLoopR_complete choice n active (maskOut active inactive)
      have hlt := meetLoop_active_lt choice n active _ hc.2 (maskOut_sublist active inactive).subset
      obtain ⟨w2, b2, h2⟩ := ih (meetLoop choice n active (maskOut active inactive)).1
        (tradeRound prices c q (meetLoop choice n active (maskOut active inactive)).2.2).1
        (meetLoop choice n active (maskOut active inactive)).2.1
        (exhausted bids
          (tradeRound prices c q (meetLoop choice n active (maskOut active inactive)).2.2).1) (by omega)
      refine ⟨w1 ++ w2, ?_, fun more => ?_⟩
      · intro w hw
        rcases List.mem_append.1 hw with hw | hw
        · exact lt_of_lt_of_le (b1 w hw) (maskOut_sublist active inactive).length_le
        · exact lt_trans (b2 w hw) hlt
      · have hp : p2pLoop bids prices c choice n q active inactive =
            ((meetLoop choice n active (maskOut active inactive)).2.2 ::
              (p2pLoop bids prices c choice (meetLoop choice n active (maskOut active inactive)).1
                (tradeRound prices c q (meetLoop choice n active (maskOut active inactive)).2.2).1
                (meetLoop choice n active (maskOut active inactive)).2.1
                (exhausted bids (tradeRound prices c q
                  (meetLoop choice n active (maskOut active inactive)).2.2).1)).1,
             (tradeRound prices c q (meetLoop choice n active (maskOut active inactive)).2.2).2 ++
              (p2pLoop bids prices c choice (meetLoop choice n active (maskOut active inactive)).1
                (tradeRound prices c q (meetLoop choice n active (maskOut active inactive)).2.2).1
                (meetLoop choice n active (maskOut active inactive)).2.1
                (exhausted bids (tradeRound prices c q
                  (meetLoop choice n active (maskOut active inactive)).2.2).1)).2) := by
          conv_lhs => unfold p2pLoop
          simp only [dif_pos hc]
        rw [hp]
        unfold p2pLoopR
        simp only [if_pos hc]
        rw [List.append_assoc, h1 (w2 ++ more)]
        simp only [Option.bind_eq_bind, Option.bind_some]
        rw [h2 more]
        simp
    · refine ⟨[], by simp, fun more => ?_⟩
      unfold p2pLoopR p2pLoop
      simp only [if_neg hc, dif_neg hc, List.nil_append]

/-! ## Sampling without replacement -/

namespace Spec

/-- `l` after entry `i` has been exchanged with the entry given by the list, for `i` from the length of the
list down to 1. -/
def exchanges : List ℕ → List ℕ → List ℕ
  | l, [] => l
  | l, j :: js => exchanges ((l.set (js.length + 1) (l.getD j 0)).set j (l.getD (js.length + 1) 0)) js

/-- The entry for `i` is at most `i`. -/
def Admissible : List ℕ → Prop
  | [] => True
  | j :: js => j ≤ js.length + 1 ∧ Admissible js

end Spec

open Spec

theorem swapAt_perm (l : List ℕ) (i j : ℕ) (hi : i < l.length) (hj : j < l.length) :
    (swapAt l i j).Perm l := by
  have := List.set_set_perm (as := l) hi hj
  simpa [swapAt, hi, hj] using this

theorem swapAt_length (l : List ℕ) (i j : ℕ) : (swapAt l i j).length = l.length := by simp [swapAt]

theorem exchanges_perm (l js : List ℕ) (hl : js.length < l.length) (ha : Admissible js) :
    (exchanges l js).Perm l := by
  induction js generalizing l with
  | nil => exact List.Perm.refl _
  | cons j js ih =>
    obtain ⟨h1, h2⟩ := ha
    simp only [List.length_cons] at hl
    have hp := swapAt_perm l (js.length + 1) j hl (by omega)
    have := ih (swapAt l (js.length + 1) j) (by rw [swapAt_length]; omega) h2
    exact this.trans hp

theorem exchanges_ge (l js : List ℕ) (ha : Admissible js) (k : ℕ) (hk : js.length < k) :
    (exchanges l js)[k]? = l[k]? := by
  induction js generalizing l with
  | nil => rfl
  | cons j js ih =>
    obtain ⟨h1, h2⟩ := ha
    simp only [List.length_cons] at hk
    unfold exchanges
    rw [ih _ h2 (by omega), List.getElem?_set_ne (by omega), List.getElem?_set_ne (by omega)]

theorem exchanges_top (l js : List ℕ) (j : ℕ) (hl : js.length + 1 < l.length) (ha : Admissible (j :: js)) :
    (exchanges l (j :: js))[js.length + 1]? = l[j]? := by
  obtain ⟨h1, h2⟩ := ha
  have hj : j < l.length := by omega
  unfold exchanges
  rw [exchanges_ge _ _ h2 _ (by omega)]
  by_cases h : j = js.length + 1
  · subst h
    simp [hl]
  · rw [List.getElem?_set_ne h, List.getElem?_set_self hl]
    simp [hj]

theorem exchanges_injective (l js js' : List ℕ) (hn : l.Nodup) (hlen : js.length = js'.length)
    (hl : js.length < l.length) (ha : Admissible js) (ha' : Admissible js')
    (h : exchanges l js = exchanges l js') : js = js' := by
  induction js generalizing l js' with
  | nil => cases js' with
    | nil => rfl
    | cons _ _ => simp at hlen
  | cons j js ih =>
    cases js' with
    | nil => simp at hlen
    | cons j' js' =>
      simp only [List.length_cons, Nat.add_right_cancel_iff] at hlen
      simp only [List.length_cons] at hl
      have e1 := exchanges_top l js j hl ha
      have e2 := exchanges_top l js' j' (by omega) ha'
      have hj := ha.1
      have hj' := ha'.1
      have he : l[j]? = l[j']? := by rw [← e1, ← e2, h, hlen]
      have hjj : j = j' := (List.getElem?_inj (by omega) hn).1 he
      subst hjj
      have hp := swapAt_perm l (js.length + 1) j hl (by omega)
      have : js = js' := by
        refine ih (swapAt l (js.length + 1) j) js' (hp.nodup_iff.2 hn) hlen (by rw [swapAt_length]; omega)
          ha.2 ha'.2 ?_
        simpa [exchanges, swapAt, hlen] using h
      rw [this]

theorem exchanges_surjective (i : ℕ) (l t : List ℕ) (hn : l.Nodup) (hp : t.Perm l) (hl : i < l.length)
    (hk : ∀ k, i < k → t[k]? = l[k]?) :
    ∃ js : List ℕ, js.length = i ∧ Admissible js ∧ exchanges l js = t := by
  induction i generalizing l with
  | zero =>
    refine ⟨[], rfl, trivial, ?_⟩
    have hlen := hp.length_eq
    show l = t
    cases l with
    | nil => simp at hl
    | cons a l =>
      cases t with
      | nil => simp at hlen
      | cons b t =>
        have : t = l := List.ext_getElem? (fun k => by simpa using hk (k + 1) (by omega))
        subst this
        have hb : b ∈ a :: t := hp.subset (by simp)
        rcases List.mem_cons.1 hb with rfl | hb
        · rfl
        · have := (hp.nodup_iff.2 hn)
          simp [hb] at this
  | succ i ih =>
    have hlen := hp.length_eq
    have hnt := hp.nodup_iff.2 hn
    obtain ⟨x, hx⟩ : ∃ x, t[i + 1]? = some x := ⟨_, List.getElem?_eq_getElem (by omega)⟩
    obtain ⟨j, hj, hjx⟩ := List.getElem_of_mem (hp.subset (List.mem_of_getElem? hx))
    have hji : j ≤ i + 1 := by
      by_contra hc
      have h1 : t[j]? = some x := by rw [hk j (by omega), List.getElem?_eq_getElem hj, hjx]
      have := (List.getElem?_inj (by omega : i + 1 < t.length) hnt).1 (hx.trans h1.symm)
      omega
    have hp' := swapAt_perm l (i + 1) j hl hj
    obtain ⟨js, h1, h2, h3⟩ := ih (swapAt l (i + 1) j) (hp'.nodup_iff.2 hn) (hp.trans hp'.symm)
      (by rw [swapAt_length]; omega) (fun k hik => by
        unfold swapAt
        by_cases hki : k = i + 1
        · subst hki
          rw [hx]
          by_cases h : j = i + 1
          · subst h
            simp [hl, hjx]
          · rw [List.getElem?_set_ne h, List.getElem?_set_self hl]
            simp [hj, hjx]
        · rw [hk k (by omega), List.getElem?_set_ne (by omega), List.getElem?_set_ne (by omega)])
    refine ⟨j :: js, by simp [h1], ⟨by omega, h2⟩, ?_⟩
    rw [← h3]
    simp [exchanges, swapAt, h1]

theorem shuffleFrom_sound (i : ℕ) (l ws t ws' : List ℕ) (h : shuffleFrom i l ws = some (t, ws')) :
    ∃ js : List ℕ, js.length = i ∧ Admissible js ∧ exchanges l js = t := by
  induction i generalizing l ws with
  | zero =>
    simp [shuffleFrom] at h
    exact ⟨[], rfl, trivial, h.1⟩
  | succ i ih =>
    simp only [shuffleFrom, Option.bind_eq_bind, Option.bind_eq_some_iff] at h
    obtain ⟨⟨j, ws1⟩, hj, h⟩ := h
    obtain ⟨js, h1, h2, h3⟩ := ih _ _ h
    refine ⟨j :: js, by simp [h1], ⟨by have := interval_le _ _ _ _ hj; omega, h2⟩, ?_⟩
    rw [← h3]
    simp [exchanges, swapAt, h1]

theorem shuffleFrom_complete (js l : List ℕ) (ha : Admissible js) :
    ∃ ws : List ℕ, (∀ w ∈ ws, w ≤ js.length) ∧ ∀ more : List ℕ,
      shuffleFrom js.length l (ws ++ more) = some (exchanges l js, more) := by
  induction js generalizing l with
  | nil => exact ⟨[], by simp, fun more => rfl⟩
  | cons j js ih =>
    obtain ⟨ws, h1, h2⟩ := ih (swapAt l (js.length + 1) j) ha.2
    have hj := ha.1
    refine ⟨wordsFor (js.length + 1) j ++ ws, ?_, fun more => ?_⟩
    · intro w hw
      rcases List.mem_append.1 hw with hw | hw
      · simp [wordsFor] at hw; simp; omega
      · have := h1 w hw; simp; omega
    · rw [List.length_cons, shuffleFrom, List.append_assoc, interval_wordsFor hj]
      simp only [Option.bind_eq_bind, Option.bind_some]
      rw [h2 more]
      rfl

end PyMarket
