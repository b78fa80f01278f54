import Verif.Lemmas.Twister

/-! # C92: the generator is the Mersenne twister -/

set_option autoImplicit false

namespace PyMarket

open Spec

/-- **C92, the twister.** The words of `RandomState(seed)` are those of MT19937: there is exactly one sequence with the
seeding and the recurrence of the definition, its members are 32-bit words, and the words delivered are its members
from the 624th on, passed through the output transformation, which is a bijection of the 32-bit words. -/
theorem C92_twister (seed : ℕ) :
    ∃ x, IsTwister seed x ∧ (∀ x', IsTwister seed x' → x' = x) ∧ (∀ k, x k < 2 ^ 32) ∧
      ∃ f : ℕ → ℕ, (∀ w, Tempered w (f w)) ∧ Set.BijOn f {w | w < 2 ^ 32} {w | w < 2 ^ 32} ∧
      ∀ n, randomWords seed n = (List.range n).map (fun k => f (x (k + 624))) := by
  have hlen : (mtInit seed).length = 624 := mtInitFrom_length _ _ _
  have hne : mtInit seed ≠ [] := by intro h; rw [h] at hlen; simp at hlen
  have htw : IsTwister seed (mtWord (mtInit seed)) := by
    refine ⟨?_, ?_, ?_⟩
    · rw [mtWord_lt _ _ (by omega)]; exact mtInitFrom_zero _ _ _
    · intro i hi
      rw [mtWord_lt _ _ (by omega), mtWord_lt _ _ (by omega)]
      have := mtInitFrom_succ 0 (seed % 2 ^ 32) 624 i (by omega)
      rwa [Nat.zero_add] at this
    · intro k
      refine ⟨(mtWord (mtInit seed) k &&& 0x80000000) ||| (mtWord (mtInit seed) (k + 1) &&& 0x7fffffff), ?_, ?_⟩
      · intro i
        rw [Nat.testBit_or, mask31, mask30]
        by_cases h : i < 31
        · have : ¬ i = 31 := by omega
          simp [h, this]
        · simp [h]
      · rw [mtWord_length _ k _ hne (by rw [hlen]), hlen, mtNext]
        have hg : ∀ i < 624, ((List.range 624).map (fun i => mtWord (mtInit seed) (k + i))).getD i 0 =
            mtWord (mtInit seed) (k + i) := by
          intro i hi; simp [hi]
        rw [hg 0 (by norm_num), hg 1 (by norm_num), hg 397 (by norm_num)]
        simp only [Nat.add_zero, Nat.shiftRight_one]
        congr 1
        rcases Nat.mod_two_eq_zero_or_one
          ((mtWord (mtInit seed) k &&& 0x80000000) ||| (mtWord (mtInit seed) (k + 1) &&& 0x7fffffff)) with h | h <;> simp [h]
  have hw : ∀ w ∈ mtInit seed, w < 2 ^ 32 := by
    have hinit : ∀ n i x, x < 2 ^ 32 → ∀ w ∈ mtInitFrom i x n, w < 2 ^ 32 := by
      intro n
      induction n with
      | zero => intro i x _ w hw; simp [mtInitFrom] at hw
      | succ n ih =>
        intro i x hx w hw
        simp only [mtInitFrom, List.mem_cons] at hw
        rcases hw with rfl | hw
        · exact hx
        · exact ih _ _ (Nat.mod_lt _ (by norm_num)) w hw
    exact hinit _ _ _ (Nat.mod_lt _ (by norm_num))
  refine ⟨_, htw, fun x' h => h.unique htw, mtWord_lt_two_pow _ hw, temper, temper_tempered, ⟨?_, ?_, ?_⟩, ?_⟩
  · intro w hw; exact temper_lt w hw
  · intro w _ w' _ h; exact temper_inj h
  · have : Set.SurjOn temper (↑(Finset.range (2 ^ 32)) : Set ℕ) ↑(Finset.range (2 ^ 32)) :=
      Finset.surjOn_of_injOn_of_card_le temper
        (fun w hw => by
          have : w < 2 ^ 32 := Finset.mem_range.1 (Finset.mem_coe.1 hw)
          exact Finset.mem_coe.2 (Finset.mem_range.2 (temper_lt w this)))
        (fun w _ w' _ h => temper_inj h) le_rfl
    intro w hw
    obtain ⟨v, hv, e⟩ := this (Finset.mem_coe.2 (Finset.mem_range.2 hw))
    exact ⟨v, Finset.mem_range.1 (Finset.mem_coe.1 hv), e⟩
  · intro n
    rw [randomWords, mtStream_eq n _ hne, hlen]

/-- The first word of `RandomState(1234)`. -/
example : randomWords 1234 1 = [822569775] := by decide +kernel
end PyMarket
