import Verif.Props.Muda

/-! # C68: MUDA's partition is uniform -/

set_option autoImplicit false

namespace PyMarket

open Spec

/-- The coin sequence that starts with the coins `c`. -/
def Spec.coinsOf {n : ℕ} (c : Fin n → Bool) (k : ℕ) : Bool := if h : k < n then c ⟨k, h⟩ else false

/-- **C68, coins.** Only as many coins are thrown as there are bids: two coin sequences that agree on
them give the same result. -/
theorem C68_coins (S : Sorter) (coin coin' : ℕ → Bool) (df : DF) (ht : IsTable df)
    (h : ∀ i < df.length, coin i = coin' i) : muda S coin df = muda S coin' df := by
  have e1 : (List.range df.length).filter coin = (List.range df.length).filter coin' :=
    List.filter_congr (fun i hi => h i (List.mem_range.mp hi))
  have e2 : (List.range df.length).filter (fun i => !coin i) =
      (List.range df.length).filter (fun i => !coin' i) :=
    List.filter_congr (fun i hi => by rw [h i (List.mem_range.mp hi)])
  unfold muda
  rw [mudaBody_halves ht, mudaBody_halves ht, e1, e2]

/-- **C68, partition.** For every set of bids there is exactly one way the coins can fall that makes
it the left half, and then the right half is the rest. Under fair coins all partitions are equally
likely. -/
theorem C68_uniform (S : Sorter) (df : DF) (ht : IsTable df) (hq : ∀ r ∈ df, 0 ≤ r.quantity)
    (hu : UsersInRange df) (htwin : ¬ HasTwin df) (A : ℕ → Prop) :
    ∃! c : Fin df.length → Bool, ∃ tm left right pl pr fees,
      muda S (coinsOf c) df = .ok (tm, .muda left right pl pr fees) ∧
      (∀ i, i ∈ left ↔ i < df.length ∧ A i) ∧ (∀ i, i ∈ right ↔ i < df.length ∧ ¬ A i) := by
  classical
  refine ⟨fun i => decide (A i), ?_, ?_⟩
  · obtain ⟨tm, left, right, pl, pr, fees, h⟩ := C32_total_partial S
      (coinsOf (fun i : Fin df.length => decide (A i))) df ht hq hu htwin
    obtain ⟨_, h1, h2, _⟩ := C24_halves S _ df ht hq tm left right pl pr fees h
    refine ⟨tm, left, right, pl, pr, fees, h, ?_, ?_⟩
    · intro i
      rw [h1]
      apply and_congr_right
      intro hi
      simp [coinsOf, hi]
    · intro i
      rw [h2]
      apply and_congr_right
      intro hi
      simp [coinsOf, hi]
  · rintro c ⟨tm, left, right, pl, pr, fees, h, hl, _⟩
    obtain ⟨_, h1, _⟩ := C24_halves S _ df ht hq tm left right pl pr fees h
    funext i
    have := (h1 i).symm.trans (hl i)
    simp only [i.isLt, true_and, coinsOf, dif_pos] at this
    rw [Bool.eq_iff_iff, this]
    simp

theorem solveSide_trans {S : Sorter} {H : DF} (hn : (H.map (fun r => r.label)).Nodup)
    (hq : ∀ r ∈ H, 0 ≤ r.quantity) {v : Val} {f f' g g' : List ℚ} {tm tm' : TransactionManager}
    (h : solveSide S H v f = .ok (tm, f')) (h' : solveSide S H v g = .ok (tm', g')) : tm = tm' := by
  rcases solveSide_cases S hn hq v with ⟨he, _⟩ | ⟨p, out, k, tm0, _, _, _, _, _, _, _, _, he⟩
  · rw [he] at h h'; cases h; cases h'; rfl
  · rw [he] at h h'
    cases hf : feeLoop out k (halfQty S H p) p (tradingUsers out k) f with
    | error e => rw [hf] at h; cases h
    | ok f1 =>
      cases hg : feeLoop out k (halfQty S H p) p (tradingUsers out k) g with
      | error e => rw [hg] at h'; cases h'
      | ok g1 => rw [hf] at h; rw [hg] at h'; cases h; cases h'; rfl

/-- **C68, symmetry.** The names of the halves are exchangeable: with every coin reversed the halves
and their prices swap and the same transactions are made. -/
theorem C68_symmetric (S : Sorter) (coin : ℕ → Bool) (df : DF) (ht : IsTable df)
    (hq : ∀ r ∈ df, 0 ≤ r.quantity) (tm tm' : TransactionManager) (left right left' right' : List ℕ)
    (pl pr pl' pr' : Val) (fees fees' : List ℚ)
    (h : muda S coin df = .ok (tm, .muda left right pl pr fees))
    (h' : muda S (fun i => !coin i) df = .ok (tm', .muda left' right' pl' pr' fees')) :
    left' = right ∧ right' = left ∧ pl' = pr ∧ pr' = pl ∧ tm'.trans.Perm tm.trans := by
  have hr := muda_run' ht h
  have hr' := muda_run' ht h'
  have e1 : left' = right := by rw [hr'.left_eq, hr.right_eq]
  have e2 : right' = left := by
    rw [hr'.right_eq, hr.left_eq]
    apply List.filter_congr
    intro i _
    simp
  subst e1 e2
  have e3 : pl' = pr := Except.ok.inj (hr'.priceLeft.symm.trans hr.priceRight)
  have e4 : pr' = pl := Except.ok.inj (hr'.priceRight.symm.trans hr.priceLeft)
  subst e3 e4
  refine ⟨rfl, rfl, rfl, rfl, ?_⟩
  obtain ⟨tl, tr, f, h1, h2, h3⟩ := hr.sides
  obtain ⟨tl', tr', f', h1', h2', h3'⟩ := hr'.sides
  have g1 := solveSide_trans (half_nodup ht _) (fun r hr => hq r (half_sub r hr)) h1 h2'
  have g2 := solveSide_trans (half_nodup ht _) (fun r hr => hq r (half_sub r hr)) h2 h1'
  rw [h3, h3', ← g1, ← g2]
  exact List.perm_append_comm

/-- The hypotheses hold for `mudaBook`, for the coins `mudaCoin` and the reversed ones. -/
example : IsTable mudaBook ∧ (∀ r ∈ mudaBook, 0 ≤ r.quantity) ∧ UsersInRange mudaBook ∧
    ¬ HasTwin mudaBook ∧
    muda stableSorter mudaCoin mudaBook = .ok (⟨4, mudaTrans⟩,
      .muda [0, 1, 2, 3, 5, 7] [4, 6, 8, 9] (.fin 6) (.fin (7 / 2)) [11, 0, 0, 3, 0, 0, 0, 0]) ∧
    muda stableSorter (fun i => !mudaCoin i) mudaBook = .ok
      (⟨4, mudaTrans.drop 2 ++ mudaTrans.take 2⟩,
      .muda [4, 6, 8, 9] [0, 1, 2, 3, 5, 7] (.fin (7 / 2)) (.fin 6) [11, 0, 0, 3, 0, 0, 0, 0]) := by
  refine ⟨by decide +kernel, by decide +kernel, by decide +kernel, ?_, by decide +kernel,
    by decide +kernel⟩
  rw [← checkEqualPrice_iff]; decide +kernel

end PyMarket
