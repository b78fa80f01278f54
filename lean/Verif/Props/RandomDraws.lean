import Verif.Lemmas.RandomState
import Verif.Props.MudaPartition

/-! # C92: the mechanisms driven by a `RandomState`

A generator is the list of the 32-bit words it is going to produce. -/

set_option autoImplicit false

namespace PyMarket

open Spec

namespace Spec

/-- The lists of `L` words of 32 bits. -/
def words (L : ℕ) : Set (List ℕ) := {ws | ws.length = L ∧ ∀ w ∈ ws, w < 2 ^ 32}

end Spec

/-! ## Counting -/

theorem ncard_cons (A : Set ℕ) (B : Set (List ℕ)) :
    {l : List ℕ | ∃ a ∈ A, ∃ b ∈ B, l = a :: b}.ncard = A.ncard * B.ncard := by
  have : {l : List ℕ | ∃ a ∈ A, ∃ b ∈ B, l = a :: b} = (fun p : ℕ × List ℕ => p.1 :: p.2) '' (A ×ˢ B) := by
    ext l
    constructor
    · rintro ⟨a, ha, b, hb, rfl⟩
      exact ⟨(a, b), ⟨ha, hb⟩, rfl⟩
    · rintro ⟨⟨a, b⟩, ⟨ha, hb⟩, rfl⟩
      exact ⟨a, ha, b, hb, rfl⟩
  rw [this, Set.ncard_image_of_injective _ (fun p q h => by
    simp only [List.cons.injEq] at h; exact Prod.ext h.1 h.2), Set.ncard_prod]

theorem words_succ (L : ℕ) :
    words (L + 1) = {l : List ℕ | ∃ a ∈ {w : ℕ | w < 2 ^ 32}, ∃ b ∈ words L, l = a :: b} := by
  ext l
  constructor
  · rintro ⟨h1, h2⟩
    cases l with
    | nil => simp at h1
    | cons a l =>
      exact ⟨a, h2 a (by simp), l, ⟨by simpa using h1, fun w hw => h2 w (by simp [hw])⟩, rfl⟩
  · rintro ⟨a, ha, b, ⟨h1, h2⟩, rfl⟩
    refine ⟨by simp [h1], fun w hw => ?_⟩
    rcases List.mem_cons.1 hw with rfl | hw
    · exact ha
    · exact h2 w hw

theorem ncard_below (n : ℕ) : {w : ℕ | w < n}.ncard = n := by
  rw [show {w : ℕ | w < n} = ((Finset.range n : Finset ℕ) : Set ℕ) by ext; simp, Set.ncard_coe_finset]
  simp

/-- There are `(2^32)^L` lists of `L` words. -/
theorem ncard_words (L : ℕ) : (words L).ncard = (2 ^ 32) ^ L := by
  induction L with
  | zero =>
    have : words 0 = {[]} := by
      ext l
      simp only [words, Set.mem_setOf_eq, List.length_eq_zero_iff, Set.mem_singleton_iff]
      constructor
      · exact fun h => h.1
      · rintro rfl; simp
    rw [this]
    simp
  | succ L ih => rw [words_succ, ncard_cons, ncard_below, ih, pow_succ' (2 ^ 32) L]

theorem words_finite (L : ℕ) : (words L).Finite :=
  Set.finite_of_ncard_ne_zero (by rw [ncard_words]; positivity)

/-- Exchange the values `v` and `v'` in the low bits of a word. -/
def swapLow (B v v' w : ℕ) : ℕ :=
  w / B * B + (if w % B = v then v' else if w % B = v' then v else w % B)

theorem swapLow_mod {B v v' : ℕ} (hv : v < B) (hv' : v' < B) (w : ℕ) :
    swapLow B v v' w % B = (if w % B = v then v' else if w % B = v' then v else w % B) := by
  have hB : 0 < B := by omega
  have := Nat.mod_lt w hB
  unfold swapLow
  rw [Nat.mul_add_mod', Nat.mod_eq_of_lt]
  split_ifs <;> omega

theorem swapLow_div {B v v' : ℕ} (hv : v < B) (hv' : v' < B) (w : ℕ) : swapLow B v v' w / B = w / B := by
  have hB : 0 < B := by omega
  have := Nat.mod_lt w hB
  unfold swapLow
  rw [Nat.add_comm, Nat.add_mul_div_right _ _ hB, Nat.div_eq_of_lt, Nat.zero_add]
  split_ifs <;> omega

theorem swapLow_swapLow {B v v' : ℕ} (hv : v < B) (hv' : v' < B) (w : ℕ) :
    swapLow B v v' (swapLow B v v' w) = w := by
  have hm := swapLow_mod hv hv' w
  have hd := swapLow_div hv hv' w
  have he := Nat.div_add_mod' w B
  rw [swapLow, hd, hm]
  split_ifs <;> omega

theorem swapLow_lt {b v v' : ℕ} (hb : b ≤ 32) (hv : v < 2 ^ b) (hv' : v' < 2 ^ b) (w : ℕ)
    (hw : w < 2 ^ 32) : swapLow (2 ^ b) v v' w < 2 ^ 32 := by
  have hd := swapLow_div hv hv' w
  have e : 2 ^ 32 = 2 ^ (32 - b) * 2 ^ b := by rw [← pow_add]; congr 1; omega
  have h1 : w / 2 ^ b < 2 ^ (32 - b) := Nat.div_lt_of_lt_mul (by rw [mul_comm, ← e]; exact hw)
  rw [← hd] at h1
  have := (Nat.div_lt_iff_lt_mul (by positivity)).1 h1
  rwa [← e] at this

/-- Exchange `v` and `v'` in the word that is accepted. -/
def swapAccepted (m v v' : ℕ) : List ℕ → List ℕ
  | [] => []
  | w :: ws =>
    if w % 2 ^ (Nat.log2 m + 1) ≤ m then swapLow (2 ^ (Nat.log2 m + 1)) v v' w :: ws
    else w :: swapAccepted m v v' ws

theorem swapAccepted_length (m v v' : ℕ) (ws : List ℕ) :
    (swapAccepted m v v' ws).length = ws.length := by
  induction ws with
  | nil => rfl
  | cons w ws ih => unfold swapAccepted; split <;> simp [ih]

theorem accepted_swapLow {m v v' : ℕ} (hv : v ≤ m) (hv' : v' ≤ m) (w : ℕ) :
    swapLow (2 ^ (Nat.log2 m + 1)) v v' w % 2 ^ (Nat.log2 m + 1) ≤ m ↔
      w % 2 ^ (Nat.log2 m + 1) ≤ m := by
  have hm : m < 2 ^ (Nat.log2 m + 1) := Nat.lt_log2_self
  rw [swapLow_mod (by omega) (by omega)]
  split_ifs <;> omega

theorem swapAccepted_swapAccepted {m v v' : ℕ} (hv : v ≤ m) (hv' : v' ≤ m) (ws : List ℕ) :
    swapAccepted m v v' (swapAccepted m v v' ws) = ws := by
  have hm : m < 2 ^ (Nat.log2 m + 1) := Nat.lt_log2_self
  induction ws with
  | nil => rfl
  | cons w ws ih =>
    conv_lhs => arg 4; unfold swapAccepted
    split
    · next h =>
      unfold swapAccepted
      rw [if_pos ((accepted_swapLow hv hv' w).2 h), swapLow_swapLow (by omega) (by omega)]
    · next h =>
      unfold swapAccepted
      rw [if_neg h, ih]

theorem swapAccepted_words {m v v' L : ℕ} (hm : m < 2 ^ 32) (h0 : m ≠ 0) (hv : v ≤ m) (hv' : v' ≤ m)
    (ws : List ℕ) (hw : ws ∈ words L) : swapAccepted m v v' ws ∈ words L := by
  refine ⟨by rw [swapAccepted_length, hw.1], ?_⟩
  have hw2 := hw.2
  have hm' : m < 2 ^ (Nat.log2 m + 1) := Nat.lt_log2_self
  have hb : Nat.log2 m + 1 ≤ 32 := (Nat.log2_lt h0).2 hm
  clear hw
  induction ws with
  | nil => simp [swapAccepted]
  | cons w ws ih =>
    unfold swapAccepted
    split
    · intro x hx
      rcases List.mem_cons.1 hx with rfl | hx
      · exact swapLow_lt hb (by omega) (by omega) w (hw2 w (by simp))
      · exact hw2 x (by simp [hx])
    · intro x hx
      rcases List.mem_cons.1 hx with rfl | hx
      · exact hw2 x (by simp)
      · exact ih (fun y hy => hw2 y (by simp [hy])) x hx

theorem reject_swapAccepted {m v v' : ℕ} (hv : v ≤ m) (hv' : v' ≤ m) (ws rest : List ℕ)
    (h : reject m ws = some (v, rest)) : reject m (swapAccepted m v v' ws) = some (v', rest) := by
  have hm : m < 2 ^ (Nat.log2 m + 1) := Nat.lt_log2_self
  induction ws with
  | nil => simp [reject] at h
  | cons w ws ih =>
    unfold reject at h
    rw [bitMask_mod] at h
    unfold swapAccepted
    split at h
    · next hw =>
      simp only [Option.some.injEq, Prod.mk.injEq] at h
      rw [if_pos hw]
      unfold reject
      rw [bitMask_mod, if_pos ((accepted_swapLow hv hv' w).2 hw), swapLow_mod (by omega) (by omega),
        if_pos h.1, h.2]
    · next hw =>
      rw [if_neg hw]
      unfold reject
      rw [bitMask_mod, if_neg hw]
      exact ih h

/-- **C92, one draw is uniform.** A draw from `0, …, m` never exceeds `m`, and every value is returned, with
the same words left over, for equally many lists of words. So all values are equally likely, independently
of the later draws. -/
theorem C92_uniform (m : ℕ) (hm : m < 2 ^ 32) (L : ℕ) :
    (∀ ws x rest, interval m ws = some (x, rest) → x ≤ m) ∧
    ∀ v v', v ≤ m → v' ≤ m → ∀ rest : List ℕ,
      {ws | ws ∈ words L ∧ interval m ws = some (v, rest)}.ncard =
        {ws | ws ∈ words L ∧ interval m ws = some (v', rest)}.ncard := by
  refine ⟨fun ws x rest h => interval_le m ws x rest h, fun v v' hv hv' rest => ?_⟩
  by_cases h0 : m = 0
  · rw [show v = v' by omega]
  refine Set.ncard_congr (fun ws _ => swapAccepted m v v' ws) ?_ ?_ ?_
  · rintro ws ⟨h1, h2⟩
    refine ⟨swapAccepted_words hm h0 hv hv' ws h1, ?_⟩
    simp only [interval, if_neg h0] at h2 ⊢
    exact reject_swapAccepted hv hv' ws rest h2
  · intro ws ws' _ _ h
    rw [← swapAccepted_swapAccepted hv hv' ws, h, swapAccepted_swapAccepted hv hv' ws']
  · rintro ws ⟨h1, h2⟩
    refine ⟨swapAccepted m v v' ws, ⟨swapAccepted_words hm h0 hv hv' ws h1, ?_⟩,
      swapAccepted_swapAccepted hv hv' ws⟩
    simp only [interval, if_neg h0] at h2 ⊢
    have hsymm : swapAccepted m v v' ws = swapAccepted m v' v ws := by
      clear h1 h2
      induction ws with
      | nil => rfl
      | cons w ws ih =>
        unfold swapAccepted
        rw [ih]
        have : swapLow (2 ^ (Nat.log2 m + 1)) v v' w = swapLow (2 ^ (Nat.log2 m + 1)) v' v w := by
          unfold swapLow
          split_ifs <;> omega
        rw [this]
    rw [hsymm]
    exact reject_swapAccepted hv' hv ws rest h2

theorem rejected_card (m : ℕ) (h0 : m ≠ 0) (hm : m < 2 ^ 32) :
    {w : ℕ | w < 2 ^ 32 ∧ ¬ w % 2 ^ (Nat.log2 m + 1) ≤ m}.ncard * 2 ≤ 2 ^ 32 := by
  set A := {w : ℕ | w < 2 ^ 32 ∧ ¬ w % 2 ^ (Nat.log2 m + 1) ≤ m} with hA
  have hfin : ∀ S : Set ℕ, S ⊆ {w : ℕ | w < 2 ^ 32} → S.Finite := fun S hS =>
    (Set.finite_lt_nat _).subset hS
  have hle := Nat.log2_self_le h0
  have key : ∀ w ∈ A, 2 ^ Nat.log2 m ≤ w ∧
      (w - 2 ^ Nat.log2 m) % 2 ^ (Nat.log2 m + 1) ≤ m := by
    rintro w ⟨_, hw⟩
    have h1 : 2 ^ Nat.log2 m ≤ w % 2 ^ (Nat.log2 m + 1) := by omega
    have h2 : w % 2 ^ (Nat.log2 m + 1) ≤ w := Nat.mod_le _ _
    have h3 : w % 2 ^ (Nat.log2 m + 1) < 2 ^ (Nat.log2 m + 1) := Nat.mod_lt _ (by positivity)
    have hd := Nat.div_add_mod' w (2 ^ (Nat.log2 m + 1))
    refine ⟨by omega, ?_⟩
    have : w - 2 ^ Nat.log2 m = w / 2 ^ (Nat.log2 m + 1) * 2 ^ (Nat.log2 m + 1) +
        (w % 2 ^ (Nat.log2 m + 1) - 2 ^ Nat.log2 m) := by omega
    rw [this, Nat.mul_add_mod', Nat.mod_eq_of_lt (by omega)]
    rw [pow_succ] at h3
    omega
  have himg : ((fun w => w - 2 ^ Nat.log2 m) '' A).ncard = A.ncard :=
    Set.InjOn.ncard_image (fun x hx y hy h => by
      have := (key x hx).1
      have := (key y hy).1
      have h : x - 2 ^ Nat.log2 m = y - 2 ^ Nat.log2 m := h
      omega)
  have hdisj : Disjoint A ((fun w => w - 2 ^ Nat.log2 m) '' A) := by
    rw [Set.disjoint_left]
    rintro x hx ⟨y, hy, rfl⟩
    exact hx.2 (key y hy).2
  have hsub : A ∪ ((fun w => w - 2 ^ Nat.log2 m) '' A) ⊆ {w : ℕ | w < 2 ^ 32} := by
    rintro x (hx | ⟨y, hy, rfl⟩)
    · exact hx.1
    · exact lt_of_le_of_lt (Nat.sub_le _ _) hy.1
  have hc := Set.ncard_le_ncard hsub (Set.finite_lt_nat _)
  rw [Set.ncard_union_eq hdisj (hfin _ (Set.subset_union_left.trans hsub))
    (hfin _ (Set.subset_union_right.trans hsub)), himg, ncard_below] at hc
  omega

/-- **C92, a draw ends.** At most the `2^-L`-th part of all lists of `L` words is too short for a draw. So
the rejection loop ends with probability one. -/
theorem C92_terminates (m : ℕ) (hm : m < 2 ^ 32) (L : ℕ) :
    (words L).ncard = (2 ^ 32) ^ L ∧
    {ws | ws ∈ words L ∧ interval m ws = none}.ncard * 2 ^ L ≤ (words L).ncard := by
  refine ⟨ncard_words L, ?_⟩
  rw [ncard_words]
  by_cases h0 : m = 0
  · have : {ws | ws ∈ words L ∧ interval m ws = none} = ∅ := by
      ext ws
      simp [interval, h0]
    rw [this]
    simp
  have hkey : ∀ L, {ws | ws ∈ words L ∧ reject m ws = none}.ncard * 2 ^ L ≤ (2 ^ 32) ^ L := by
    intro L
    induction L with
    | zero =>
      have := Set.ncard_le_ncard (s := {ws | ws ∈ words 0 ∧ reject m ws = none}) (t := words 0)
        (fun ws h => h.1) (words_finite 0)
      rw [ncard_words] at this
      simpa using this
    | succ L ih =>
      have : {ws | ws ∈ words (L + 1) ∧ reject m ws = none} =
          {l : List ℕ | ∃ a ∈ {w : ℕ | w < 2 ^ 32 ∧ ¬ w % 2 ^ (Nat.log2 m + 1) ≤ m},
            ∃ b ∈ {ws | ws ∈ words L ∧ reject m ws = none}, l = a :: b} := by
        ext l
        rw [words_succ]
        constructor
        · rintro ⟨⟨a, ha, b, hb, rfl⟩, hr⟩
          unfold reject at hr
          rw [bitMask_mod] at hr
          split at hr
          · simp at hr
          · next hn => exact ⟨a, ⟨ha, hn⟩, b, ⟨hb, hr⟩, rfl⟩
        · rintro ⟨a, ⟨ha, hn⟩, b, ⟨hb, hr⟩, rfl⟩
          refine ⟨⟨a, ha, b, hb, rfl⟩, ?_⟩
          unfold reject
          rw [bitMask_mod, if_neg hn]
          exact hr
      rw [this, ncard_cons, pow_succ 2 L, pow_succ (2 ^ 32) L]
      have h2 := rejected_card m h0 hm
      calc _ = ({ws | ws ∈ words L ∧ reject m ws = none}.ncard * 2 ^ L) *
            ({w : ℕ | w < 2 ^ 32 ∧ ¬ w % 2 ^ (Nat.log2 m + 1) ≤ m}.ncard * 2) := by ring
        _ ≤ _ := Nat.mul_le_mul ih h2
  have := hkey L
  simpa [interval, h0] using this

/-- **C92, permutations.** Shuffling `0, …, n - 1` gives a permutation, and every permutation is given by
exactly one sequence of exchanges. As the draws for the exchanges are uniform, all permutations are equally
likely. -/
theorem C92_permutation (n : ℕ) (hn : 0 < n) :
    (∀ ws l ws', shuffleFrom (n - 1) (List.range n) ws = some (l, ws') →
      l.Perm (List.range n) ∧ ∃ js, js.length = n - 1 ∧ Admissible js ∧ exchanges (List.range n) js = l) ∧
    (∀ l : List ℕ, l.Perm (List.range n) →
      ∃! js : List ℕ, js.length = n - 1 ∧ Admissible js ∧ exchanges (List.range n) js = l) ∧
    (∀ js : List ℕ, js.length = n - 1 → Admissible js →
      ∃ ws : List ℕ, (∀ w ∈ ws, w < n) ∧ ∀ more,
        shuffleFrom (n - 1) (List.range n) (ws ++ more) = some (exchanges (List.range n) js, more)) := by
  refine ⟨fun ws l ws' h => ?_, fun l hl => ?_, fun js hlen ha => ?_⟩
  · obtain ⟨js, h1, h2, h3⟩ := shuffleFrom_sound _ _ _ _ _ h
    refine ⟨?_, js, h1, h2, h3⟩
    rw [← h3]
    exact exchanges_perm _ _ (by simp; omega) h2
  · obtain ⟨js, h1, h2, h3⟩ := exchanges_surjective (n - 1) (List.range n) l List.nodup_range hl
      (by simp; omega) (fun k hk => by
        rw [List.getElem?_eq_none (by rw [hl.length_eq]; simp; omega), List.getElem?_eq_none (by simp; omega)])
    refine ⟨js, ⟨h1, h2, h3⟩, ?_⟩
    rintro js' ⟨h1', h2', h3'⟩
    exact exchanges_injective (List.range n) js' js List.nodup_range (by omega) (by simp; omega) h2' h2
      (by rw [h3, h3'])
  · obtain ⟨ws, h1, h2⟩ := shuffleFrom_complete js (List.range n) ha
    refine ⟨ws, fun w hw => ?_, fun more => ?_⟩
    · have := h1 w hw
      omega
    · rw [← hlen]
      exact h2 more

/-- **C92, sampling without replacement.** `choice(_, q, replace=False)` returns `q` different positions,
and every such selection can come out. -/
theorem C92_choice (n q : ℕ) (hq : q ≤ n) :
    (∀ ws l ws', choosePositions n q ws = some (l, ws') → l.length = q ∧ l.Nodup ∧ ∀ i ∈ l, i < n) ∧
    (∀ l : List ℕ, l.length = q → l.Nodup → (∀ i ∈ l, i < n) →
      ∃ ws : List ℕ, (∀ w ∈ ws, w < n) ∧ ∀ more, choosePositions n q (ws ++ more) = some (l, more)) := by
  rcases Nat.eq_zero_or_pos n with rfl | hn
  · obtain rfl : q = 0 := by omega
    refine ⟨fun ws l ws' h => ?_, fun l hl _ _ => ⟨[], by simp, fun more => ?_⟩⟩
    · simp [choosePositions, shuffleFrom] at h
      obtain ⟨rfl, _⟩ := h
      simp
    · rw [List.length_eq_zero_iff.1 hl]
      simp [choosePositions, shuffleFrom]
  obtain ⟨p1, p2, p3⟩ := C92_permutation n hn
  refine ⟨fun ws l ws' h => ?_, fun l hl hnd hlt => ?_⟩
  · simp only [choosePositions, Option.bind_eq_bind, Option.bind_eq_some_iff] at h
    obtain ⟨⟨p, ws1⟩, hp, h⟩ := h
    simp at h
    obtain ⟨rfl, rfl⟩ := h
    have hperm := (p1 _ _ _ hp).1
    refine ⟨by simp [hperm.length_eq]; omega, ?_, fun i hi => ?_⟩
    · exact (List.take_sublist _ _).nodup (hperm.nodup_iff.2 List.nodup_range)
    · simpa using hperm.subset (List.take_subset _ _ hi)
  · have hp : (l ++ (List.range n).filter (fun i => decide (i ∉ l))).Perm (List.range n) := by
      refine (List.perm_ext_iff_of_nodup ?_ List.nodup_range).2 (fun a => ?_)
      · refine List.Nodup.append hnd (List.nodup_range.filter _) ?_
        intro a h1 h2
        simp at h2
        exact h2.2 h1
      · simp only [List.mem_append, List.mem_filter, List.mem_range, decide_eq_true_eq]
        constructor
        · rintro (h | h)
          · exact hlt a h
          · exact h.1
        · intro h
          by_cases ha : a ∈ l
          · exact Or.inl ha
          · exact Or.inr ⟨h, ha⟩
    obtain ⟨js, ⟨h1, h2, h3⟩, _⟩ := p2 _ hp
    obtain ⟨ws, hw, hrun⟩ := p3 js h1 h2
    refine ⟨ws, hw, fun more => ?_⟩
    unfold choosePositions
    rw [hrun more, h3]
    simp [← hl]

/-- **C92, peer to peer trading.** Driven by a generator, the mechanism does what it does for some sequence
of choices; and every sequence of choices is what some generator makes it do. -/
theorem C92_p2p (c : ℚ) (df : DF) :
    (∀ ws tm e ws', p2pFrom c ws df = some (tm, e, ws') →
      ∃ choice, p2pRandom c choice df = .ok (tm, e)) ∧
    (∀ choice, ∃ ws tm e, (∀ w ∈ ws, w < (allPairs df).length) ∧ p2pFrom c ws df = some (tm, e, []) ∧
      p2pRandom c choice df = .ok (tm, e)) := by
  refine ⟨fun ws tm e ws' h => ?_, fun choice => ?_⟩
  · simp only [p2pFrom, Option.bind_eq_bind, Option.bind_eq_some_iff] at h
    obtain ⟨⟨R, ts, ws1⟩, hr, h⟩ := h
    simp at h
    obtain ⟨rfl, rfl, rfl⟩ := h
    obtain ⟨idx, hidx⟩ := p2pLoopR_sound _ _ _ _ _ _ _ _ le_rfl _ _ _ hr
    refine ⟨fun k => idx.getD k 0, ?_⟩
    have := hidx (fun k => idx.getD k 0) 0 (fun k hk => by simp [hk])
    simp only [p2pRandom, this]
  · obtain ⟨ws, hw, hrun⟩ := p2pLoopR_complete df (valueAt df (fun r => r.price)) c choice
      (allPairs df).length 0 (valueAt df (fun r => r.quantity)) (allPairs df) [] le_rfl
    have := hrun []
    rw [List.append_nil] at this
    refine ⟨ws, _, _, hw, ?_, rfl⟩
    simp only [p2pFrom, this]
    rfl

theorem coinsFrom_length (n : ℕ) (ws : List ℕ) (cs : List Bool) (ws' : List ℕ)
    (h : coinsFrom n ws = some (cs, ws')) : cs.length = n := by
  induction n generalizing ws cs with
  | zero => simp [coinsFrom] at h; simp [← h.1]
  | succ n ih =>
    simp only [coinsFrom, Option.bind_eq_bind, Option.bind_eq_some_iff] at h
    obtain ⟨⟨x, w1⟩, _, ⟨cs1, w2⟩, h2, h⟩ := h
    simp at h
    obtain ⟨rfl, rfl⟩ := h
    simp [ih _ _ h2]

/-- **C92, MUDA.** Driven by a generator, the mechanism does what it does for some coins; every way the coins
can fall is what some generator makes it do; and it needs two words per bid. -/
theorem C92_muda (S : Sorter) (df : DF) (ht : IsTable df) :
    (∀ ws r ws', mudaFrom S ws df = some (r, ws') → ∃ coin, r = muda S coin df) ∧
    (∀ coin, ∃ ws, (∀ w ∈ ws, w < 2 ^ 32) ∧ ws.length = 2 * df.length ∧ ∃ ws',
      mudaFrom S ws df = some (muda S coin df, ws')) ∧
    (∀ ws, 2 * df.length ≤ ws.length → ∃ r, mudaFrom S ws df = some r) := by
  have hcoins : ∀ (n : ℕ) (coin : ℕ → Bool), ∃ ws : List ℕ, (∀ w ∈ ws, w < 2 ^ 32) ∧
      ws.length = 2 * n ∧ coinsFrom n ws = some ((List.range n).map coin, []) := by
    intro n
    induction n with
    | zero => intro coin; exact ⟨[], by simp, rfl, rfl⟩
    | succ n ih =>
      intro coin
      obtain ⟨ws, h1, h2, h3⟩ := ih (fun k => coin (k + 1))
      refine ⟨(if coin 0 then 2 ^ 32 - 1 else 0) :: 0 :: ws, ?_, by simp [h2]; omega, ?_⟩
      · intro w hw
        simp only [List.mem_cons] at hw
        rcases hw with rfl | rfl | hw
        · split <;> norm_num
        · norm_num
        · exact h1 w hw
      · simp only [coinsFrom, randFrom, Option.bind_eq_bind, Option.bind_some, h3]
        rw [List.range_succ_eq_map]
        cases hc : coin 0
        · simp [randBits, hc, Function.comp_def]
        · norm_num [randBits, hc, Function.comp_def, Nat.shiftRight_eq_div_pow]
  have hlong : ∀ (n : ℕ) (ws : List ℕ), 2 * n ≤ ws.length → ∃ r, coinsFrom n ws = some r := by
    intro n
    induction n with
    | zero => intro ws _; exact ⟨_, rfl⟩
    | succ n ih =>
      intro ws hl
      match ws, hl with
      | a :: b :: ws, hl =>
        obtain ⟨⟨cs, w⟩, h⟩ := ih ws (by simp at hl; omega)
        refine ⟨(decide (1 / 2 < (randBits a b : ℚ) / 2 ^ 53) :: cs, w), ?_⟩
        simp only [coinsFrom, randFrom, Option.bind_eq_bind, Option.bind_some, h]
      | [a], hl => simp at hl; omega
      | [], hl => simp at hl
  refine ⟨fun ws r ws' h => ?_, fun coin => ?_, fun ws hl => ?_⟩
  · unfold mudaFrom at h
    split at h
    · next hc =>
      simp at h
      exact ⟨fun _ => true, by rw [← h.1]; simp [muda, hc]⟩
    · next hc =>
      simp only [Option.bind_eq_bind, Option.bind_eq_some_iff] at h
      obtain ⟨⟨cs, w1⟩, _, h⟩ := h
      simp at h
      refine ⟨fun k => cs.getD k false, ?_⟩
      rw [← h.1]
      simp [muda, hc]
  · obtain ⟨ws, h1, h2, h3⟩ := hcoins df.length coin
    refine ⟨ws, h1, h2, ?_⟩
    unfold mudaFrom
    by_cases hc : checkEqualPriceRaises df
    · exact ⟨ws, by simp [muda, hc]⟩
    · refine ⟨[], ?_⟩
      rw [if_neg hc, h3]
      have := C68_coins S (fun k => ((List.range df.length).map coin).getD k false) coin df ht
        (fun i hi => by simp [hi])
      simp only [muda, if_neg hc] at this
      simp only [Option.bind_eq_bind, Option.bind_some, this]
      simp [muda, hc]
  · unfold mudaFrom
    split
    · exact ⟨_, rfl⟩
    · obtain ⟨⟨cs, w⟩, h⟩ := hlong df.length ws hl
      exact ⟨_, by rw [h]; rfl⟩

/-- The chooser that selects the given positions. -/
def chooserOf (ls : ℕ → List ℕ) : Chooser where
  pick c n q := if (ls c).length = q ∧ (ls c).Nodup ∧ ∀ i ∈ ls c, i < n then ls c else List.range q
  length_eq c n q _ := by
    split
    · next h => exact h.1
    · simp
  nodup c n q _ := by
    split
    · next h => exact h.2.1
    · exact List.nodup_range
  lt c n q hq := by
    split
    · next h => exact h.2.2
    · intro i hi
      simp at hi
      omega

theorem chooserOf_pick (ls : ℕ → List ℕ) (c n q : ℕ) (ws ws' : List ℕ) (hq : q ≤ n)
    (h : choosePositions n q ws = some (ls c, ws')) : (chooserOf ls).pick c n q = ls c :=
  if_pos ((C92_choice n q hq).1 _ _ _ h)

/-- **C92, the bid generator.** Driven by a generator of random numbers, `generate` does what it does for
some selections; and all selections can come out. -/
theorem C92_generate (cb cs : ℕ) (offS offB eps : ℚ) :
    (∀ ws r ws', generateFrom ws cb cs offS offB eps = some (r, ws') →
      ∃ ch : Chooser, r = generate ch cb cs offS offB eps) ∧
    (∀ ch : Chooser, ∃ ws, generateFrom ws cb cs offS offB eps =
      some (generate ch cb cs offS offB eps, [])) := by
  refine ⟨fun ws r ws' h => ?_, fun ch => ?_⟩
  · unfold generateFrom at h
    cases he : adjustEps cb cs eps with
    | error e =>
      rw [he] at h
      simp at h
      refine ⟨chooserOf (fun _ => []), ?_⟩
      rw [← h.1]
      simp [generate, bind, Except.bind, he]
    | ok e =>
      rw [he] at h
      simp only at h
      split at h
      · next hb =>
        simp at h
        refine ⟨chooserOf (fun _ => []), ?_⟩
        rw [← h.1]
        simp [generate, bind, Except.bind, he, chooseFrom, not_le.2 hb]
      · next hb =>
        simp only [Option.bind_eq_bind, Option.bind_eq_some_iff] at h
        obtain ⟨⟨qb, w1⟩, h1, ⟨vb, w2⟩, h2, h⟩ := h
        simp only at h
        split at h
        · next hs =>
          simp at h
          let ls : ℕ → List ℕ := fun c => if c = 0 then qb else vb
          refine ⟨chooserOf ls, ?_⟩
          rw [← h.1]
          simp [generate, bind, Except.bind, he, chooseFrom, not_lt.1 hb, not_le.2 hs]
        · next hs =>
          simp only [Option.bind_eq_some_iff] at h
          obtain ⟨⟨qs, w3⟩, h3, ⟨vs, w4⟩, h4, h⟩ := h
          simp at h
          let ls : ℕ → List ℕ := fun c => if c = 0 then qb else if c = 1 then vb else if c = 2 then qs else vs
          have p0 := chooserOf_pick ls 0 _ _ _ _ (not_lt.1 hb) h1
          have p1 := chooserOf_pick ls 1 _ _ _ _ (not_lt.1 hb) h2
          have p2 := chooserOf_pick ls 2 _ _ _ _ (not_lt.1 hs) h3
          have p3 := chooserOf_pick ls 3 _ _ _ _ (not_lt.1 hs) h4
          refine ⟨chooserOf ls, ?_⟩
          rw [← h.1]
          simp [generate, bind, Except.bind, he, chooseFrom, not_lt.1 hb, not_lt.1 hs, p0, p1, p2, p3, ls]
  · cases he : adjustEps cb cs eps with
    | error e => exact ⟨[], by simp [generateFrom, generate, bind, Except.bind, he]⟩
    | ok e =>
      by_cases hb : cb ≤ (arange01 e).length
      · have pick := fun (c q : ℕ) (hq : q ≤ (arange01 e).length) =>
          (C92_choice (arange01 e).length q hq).2 (ch.pick c (arange01 e).length q)
            (ch.length_eq c _ q hq) (ch.nodup c _ q hq) (ch.lt c _ q hq)
        obtain ⟨w0, _, h0⟩ := pick 0 cb hb
        obtain ⟨w1, _, h1⟩ := pick 1 cb hb
        by_cases hs : cs ≤ (arange01 e).length
        · obtain ⟨w2, _, h2⟩ := pick 2 cs hs
          obtain ⟨w3, _, h3⟩ := pick 3 cs hs
          refine ⟨w0 ++ (w1 ++ (w2 ++ (w3 ++ []))), ?_⟩
          simp only [generateFrom, he, if_neg (not_lt.2 hb), if_neg (not_lt.2 hs), h0, h1, h2, h3,
            Option.bind_eq_bind, Option.bind_some]
          simp [generate, bind, Except.bind, he, chooseFrom, hb, hs]
        · refine ⟨w0 ++ (w1 ++ []), ?_⟩
          simp only [generateFrom, he, if_neg (not_lt.2 hb), if_pos (not_le.1 hs), h0, h1,
            Option.bind_eq_bind, Option.bind_some]
          simp [generate, bind, Except.bind, he, chooseFrom, hb, hs]
      · exact ⟨[], by simp [generateFrom, generate, bind, Except.bind, he, chooseFrom, hb, not_le.1 hb]⟩

/-! ## The Mersenne twister -/

theorem temper_lt (x : ℕ) (h : x < 2 ^ 32) : temper x < 2 ^ 32 := by
  have sh : ∀ y k : ℕ, y < 2 ^ 32 → y >>> k < 2 ^ 32 := fun y k hy =>
    lt_of_le_of_lt (Nat.shiftRight_le y k) hy
  have an : ∀ y c : ℕ, c < 2 ^ 32 → y &&& c < 2 ^ 32 := fun y c hc => Nat.and_lt_two_pow y hc
  unfold temper
  have h1 := Nat.xor_lt_two_pow h (sh x 11 h)
  have h2 := Nat.xor_lt_two_pow h1 (an ((x ^^^ x >>> 11) <<< 7) 0x9d2c5680 (by norm_num))
  have h3 := Nat.xor_lt_two_pow h2 (an ((x ^^^ x >>> 11 ^^^
    ((x ^^^ x >>> 11) <<< 7 &&& 0x9d2c5680)) <<< 15) 0xefc60000 (by norm_num))
  exact Nat.xor_lt_two_pow h3 (sh _ 18 h3)

theorem mtNext_lt (l : List ℕ) (h : ∀ w ∈ l, w < 2 ^ 32) : mtNext l < 2 ^ 32 := by
  have hg : ∀ k, l.getD k 0 < 2 ^ 32 := by
    intro k
    rw [List.getD_eq_getElem?_getD]
    cases hk : l[k]? with
    | none => simp
    | some x => simpa using h x (List.mem_of_getElem? hk)
  unfold mtNext
  have hy : ((l.getD 0 0 &&& 0x80000000) ||| (l.getD 1 0 &&& 0x7fffffff)) < 2 ^ 32 :=
    Nat.or_lt_two_pow (Nat.and_lt_two_pow _ (by norm_num)) (Nat.and_lt_two_pow _ (by norm_num))
  refine Nat.xor_lt_two_pow (Nat.xor_lt_two_pow (hg 397) ?_) ?_
  · exact lt_of_le_of_lt (Nat.shiftRight_le _ _) hy
  · split <;> norm_num

/-- **C92, words.** `RandomState(seed)` produces as many 32-bit words as asked for, the shorter lists being
the beginnings of the longer ones. -/
theorem C92_words (seed n : ℕ) :
    randomWords seed n ∈ words n ∧ ∀ k ≤ n, randomWords seed k = (randomWords seed n).take k := by
  have hinit : ∀ n i x, x < 2 ^ 32 → ∀ w ∈ mtInitFrom i x n, w < 2 ^ 32 := by
    intro n
    induction n with
    | zero => intro i x _ w hw; simp [mtInitFrom] at hw
    | succ n ih =>
      intro i x hx w hw
      simp only [mtInitFrom, List.mem_cons] at hw
      rcases hw with rfl | hw
      · exact hx
      · exact ih _ _ (Nat.mod_lt _ (by norm_num)) w hw
  have hstream : ∀ n l, (∀ w ∈ l, w < 2 ^ 32) → mtStream n l ∈ words n := by
    intro n
    induction n with
    | zero => intro l _; exact ⟨rfl, by simp [mtStream]⟩
    | succ n ih =>
      intro l hl
      have hn := mtNext_lt l hl
      have := ih (l.tail ++ [mtNext l]) (fun w hw => by
        rcases List.mem_append.1 hw with hw | hw
        · exact hl w (List.mem_of_mem_tail hw)
        · simp at hw; omega)
      refine ⟨by simp [mtStream, this.1], fun w hw => ?_⟩
      simp only [mtStream, List.mem_cons] at hw
      rcases hw with rfl | hw
      · exact temper_lt _ hn
      · exact this.2 w hw
  have htake : ∀ n k l, k ≤ n → mtStream k l = (mtStream n l).take k := by
    intro n
    induction n with
    | zero => intro k l hk; obtain rfl : k = 0 := by omega
              rfl
    | succ n ih =>
      intro k l hk
      cases k with
      | zero => simp [mtStream]
      | succ k => simp only [mtStream, List.take_succ_cons]; rw [ih k _ (by omega)]
  exact ⟨hstream n _ (hinit _ _ _ (Nat.mod_lt _ (by norm_num))), fun k hk => htake n k _ hk⟩

/-- Two draws among six: the second word is rejected. -/
example : interval 5 [3, 7, 4] = some (3, [7, 4]) ∧ interval 5 [7, 4] = some (4, []) := by
  decide +kernel

/-- A shuffle of four with its exchanges; the second word is rejected. -/
example : shuffleFrom 3 (List.range 4) [1, 3, 2, 0] = some ([3, 0, 2, 1], []) ∧
    Admissible [1, 2, 0] ∧ exchanges (List.range 4) [1, 2, 0] = [3, 0, 2, 1] :=
  ⟨by decide +kernel, by simp [Admissible], by decide +kernel⟩

end PyMarket
