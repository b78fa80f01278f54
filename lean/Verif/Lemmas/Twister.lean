import Verif.Spec.Twister
import Verif.Props.RandomDraws

/-! # Lemmas about the Mersenne twister -/

set_option autoImplicit false

namespace PyMarket

open Spec

theorem mask31 (a : ℕ) (i : ℕ) : (a &&& 0x80000000).testBit i = (decide (i = 31) && a.testBit i) := by
  rw [Nat.testBit_and, show (0x80000000 : ℕ) = 2 ^ 31 by norm_num, Nat.testBit_two_pow]
  by_cases h : i = 31
  · subst h; simp
  · have : ¬ 31 = i := fun e => h e.symm
    simp [h, this]

theorem mask30 (a : ℕ) (i : ℕ) : (a &&& 0x7fffffff).testBit i = (decide (i < 31) && a.testBit i) := by
  rw [Nat.testBit_and, show (0x7fffffff : ℕ) = 2 ^ 31 - 1 by norm_num, Nat.testBit_two_pow_sub_one, Bool.and_comm]

/-- The words of the twister from the `n`-th state on. -/
def mtWord (l : List ℕ) : ℕ → ℕ
  | 0 => l.getD 0 0
  | n + 1 => mtWord (l.tail ++ [mtNext l]) n

theorem mtWord_lt (l : List ℕ) (i : ℕ) (hi : i < l.length) : mtWord l i = l.getD i 0 := by
  induction i generalizing l with
  | zero => rfl
  | succ i ih =>
    rw [mtWord, ih]
    · cases l with
      | nil => simp at hi
      | cons a l =>
        simp only [List.length_cons, Nat.add_lt_add_iff_right] at hi
        simp [List.getElem?_append_left hi]
    · simp; omega

theorem mtWord_length (l : List ℕ) (k j : ℕ) (hl : l ≠ []) (hj : j = k + l.length) :
    mtWord l j = mtNext ((List.range l.length).map (fun i => mtWord l (k + i))) := by
  induction k generalizing l j with
  | zero =>
    have hl' : 0 < l.length := List.length_pos_iff.2 hl
    have e : (List.range l.length).map (fun i => mtWord l (0 + i)) = l := by
      apply List.ext_getElem
      · simp
      · intro i h1 h2
        simp only [List.getElem_map, List.getElem_range, Nat.zero_add]
        rw [mtWord_lt l i h2]; simp [h2]
    rw [e]
    obtain ⟨m, rfl⟩ : ∃ m, j = m + 1 := ⟨j - 1, by omega⟩
    rw [mtWord, mtWord_lt _ _ (by simp; omega)]
    have : m = l.tail.length := by simp; omega
    subst this
    simp
  | succ k ih =>
    obtain ⟨m, rfl⟩ : ∃ m, j = m + 1 := ⟨j - 1, by omega⟩
    have hl' : 0 < l.length := List.length_pos_iff.2 hl
    have hlen : (l.tail ++ [mtNext l]).length = l.length := by simp; omega
    rw [mtWord, ih (l.tail ++ [mtNext l]) m (by simp) (by rw [hlen]; omega), hlen]
    congr 1
    apply List.map_congr_left
    intro i _
    rw [show k + 1 + i = (k + i) + 1 by omega]
    rfl

theorem mtInitFrom_length (i x n : ℕ) : (mtInitFrom i x n).length = n := by
  induction n generalizing i x with
  | zero => rfl
  | succ n ih => simp [mtInitFrom, ih]

theorem mtInitFrom_zero (i x n : ℕ) : (mtInitFrom i x (n + 1)).getD 0 0 = x := by simp [mtInitFrom]

theorem mtInitFrom_succ (i x n j : ℕ) (hj : j + 1 < n) :
    (mtInitFrom i x n).getD (j + 1) 0 =
      (1812433253 * ((mtInitFrom i x n).getD j 0 ^^^ (mtInitFrom i x n).getD j 0 / 2 ^ 30) + (i + j + 1)) % 2 ^ 32 := by
  induction j generalizing i x n with
  | zero =>
    obtain ⟨m, rfl⟩ : ∃ m, n = m + 2 := ⟨n - 2, by omega⟩
    simp [mtInitFrom, Nat.shiftRight_eq_div_pow]
  | succ j ih =>
    obtain ⟨m, rfl⟩ : ∃ m, n = m + 1 := ⟨n - 1, by omega⟩
    simp only [mtInitFrom, List.getD_cons_succ]
    rw [ih _ _ _ (by omega), show i + 1 + j + 1 = i + (j + 1) + 1 by omega]

theorem mtStream_eq (n : ℕ) (l : List ℕ) (hl : l ≠ []) :
    mtStream n l = (List.range n).map (fun k => temper (mtWord l (k + l.length))) := by
  induction n generalizing l with
  | zero => rfl
  | succ n ih =>
    have hl' : 0 < l.length := List.length_pos_iff.2 hl
    have hlen : (l.tail ++ [mtNext l]).length = l.length := by simp; omega
    rw [mtStream, ih _ (by simp), List.range_succ_eq_map, List.map_cons, List.map_map, hlen]
    congr 1
    · congr 1
      rw [mtWord_length l 0 _ hl rfl]
      congr 1
      apply List.ext_getElem
      · simp
      · intro i h1 h2
        simp only [List.getElem_map, List.getElem_range, Nat.zero_add]
        rw [mtWord_lt l i h1]; simp [h1]
    · apply List.map_congr_left
      intro k _
      simp only [Function.comp]
      rw [show k.succ + l.length = (k + l.length) + 1 by omega]
      rfl

/-! ## The output transformation -/

theorem xor_shr_inj {s x y : ℕ} (hs : 0 < s) (h : x ^^^ x >>> s = y ^^^ y >>> s) : x = y := by
  apply Nat.eq_of_testBit_eq
  by_contra hne
  push Not at hne
  obtain ⟨i₀, h₀⟩ := hne
  have hb : ∀ i, (x.testBit i ≠ y.testBit i) → x.testBit (s + i) ≠ y.testBit (s + i) := by
    intro i hi he
    have := congrArg (fun z => z.testBit i) h
    simp only [Nat.testBit_xor, Nat.testBit_shiftRight, he] at this
    exact hi (by simpa using this)
  have hk : ∀ k, x.testBit (k * s + i₀) ≠ y.testBit (k * s + i₀) := by
    intro k
    induction k with
    | zero => simpa using h₀
    | succ k ih =>
      have := hb _ ih
      rwa [show s + (k * s + i₀) = (k + 1) * s + i₀ by ring] at this
  have hbig : ∀ z : ℕ, z ≤ x + y → z.testBit ((x + y) * s + i₀) = false := by
    intro z hz
    apply Nat.testBit_lt_two_pow
    calc z < 2 ^ z := Nat.lt_two_pow_self
      _ ≤ 2 ^ ((x + y) * s + i₀) := Nat.pow_le_pow_right (by norm_num) (by nlinarith)
  exact hk (x + y) (by rw [hbig x (by omega), hbig y (by omega)])

theorem xor_shl_inj {s m x y : ℕ} (hs : 0 < s) (h : x ^^^ (x <<< s &&& m) = y ^^^ (y <<< s &&& m)) : x = y := by
  apply Nat.eq_of_testBit_eq
  intro i
  induction i using Nat.strong_induction_on with
  | _ i ih =>
    have := congrArg (fun z => z.testBit i) h
    simp only [Nat.testBit_xor, Nat.testBit_and, Nat.testBit_shiftLeft] at this
    by_cases hi : s ≤ i
    · rw [ih (i - s) (by omega)] at this
      simpa using this
    · simpa [hi] using this

theorem temper_inj {x y : ℕ} (h : temper x = temper y) : x = y := by
  unfold temper at h
  exact xor_shr_inj (by norm_num) (xor_shl_inj (by norm_num) (xor_shl_inj (by norm_num) (xor_shr_inj (by norm_num) h)))

theorem mtWord_lt_two_pow (l : List ℕ) (h : ∀ w ∈ l, w < 2 ^ 32) (k : ℕ) : mtWord l k < 2 ^ 32 := by
  induction k generalizing l with
  | zero =>
    rw [mtWord, List.getD_eq_getElem?_getD]
    cases hk : l[0]? with
    | none => simp
    | some x => simpa using h x (List.mem_of_getElem? hk)
  | succ k ih =>
    apply ih
    intro w hw
    rcases List.mem_append.1 hw with hw | hw
    · exact h w (List.mem_of_mem_tail hw)
    · simp at hw; rw [hw]; exact mtNext_lt l h

theorem Spec.IsTwister.unique {seed : ℕ} {x x' : ℕ → ℕ} (h : IsTwister seed x) (h' : IsTwister seed x') : x = x' := by
  funext k
  induction k using Nat.strong_induction_on with
  | _ k ih =>
    rcases Nat.lt_or_ge k 624 with hk | hk
    · cases k with
      | zero => rw [h.1, h'.1]
      | succ k => rw [h.2.1 k (by omega), h'.2.1 k (by omega), ih k (by omega)]
    · obtain ⟨m, rfl⟩ : ∃ m, k = m + 624 := ⟨k - 624, by omega⟩
      obtain ⟨y, hy, e⟩ := h.2.2 m
      obtain ⟨y', hy', e'⟩ := h'.2.2 m
      have : y = y' := by
        apply Nat.eq_of_testBit_eq
        intro i
        rw [hy, hy', ih m (by omega), ih (m + 1) (by omega)]
      rw [e, e', this, ih (m + 397) (by omega)]

theorem temper_tempered (w : ℕ) : Tempered w (temper w) := by
  have hr : ∀ x s i : ℕ, (x ^^^ x >>> s).testBit i = (x.testBit i ^^ x.testBit (i + s)) := fun x s i => by
    rw [Nat.testBit_xor, Nat.testBit_shiftRight, Nat.add_comm]
  have hl : ∀ x s m i : ℕ, (x ^^^ (x <<< s &&& m)).testBit i =
      (x.testBit i ^^ ((decide (s ≤ i) && x.testBit (i - s)) && m.testBit i)) := fun x s m i => by
    rw [Nat.testBit_xor, Nat.testBit_and, Nat.testBit_shiftLeft]
  exact ⟨_, _, _, fun i => hr w 11 i, fun i => hl _ 7 _ i, fun i => hl _ 15 _ i, fun i => hr _ 18 i⟩

end PyMarket
