import Verif.Lemmas.FloatMudaRun
import Verif.Props.FloatHuang
import Verif.Props.Muda

/-! # C79: MUDA in floating point arithmetic

C24 – C32 are about exact numbers. Here every operation of `muda_auction.py` is rounded and the sums
are computed in any order. -/

set_option autoImplicit false

namespace PyMarket

open Spec

section

variable {F : Fmt} {s o : Summer F} {S : Sorter} {coin : ℕ → Bool} {df : DF}
  {tm : TransactionManager} {left right : List ℕ} {pl pr : Val} {fees : List ℚ}

theorem mudaF_run' (ht : IsTable df)
    (h : mudaF F s o S coin df = .ok (tm, .muda left right pl pr fees)) :
    MudaRunF F s o S coin df tm left right pl pr fees := by
  obtain ⟨_, _, _, _, _, he, hr⟩ := mudaF_run ht h
  cases he
  exact hr

theorem mudaF_mem (ht : IsTable df) (hq : ∀ r ∈ df, 0 ≤ r.quantity)
    (h : MudaRunF F s o S coin df tm left right pl pr fees) {t : Transaction} (htt : t ∈ tm.trans) :
    ∃ r ∈ df, t.bid = r.label ∧ t.quantity ≤ r.quantity ∧ t.source = -1 ∧ t.active = false ∧
      (r.buying = true → t.price ≤ r.price) ∧ (r.buying = false → r.price ≤ t.price) ∧
      ((t.bid ∈ left ∧ pr = .fin t.price) ∨ (t.bid ∈ right ∧ pl = .fin t.price)) := by
  obtain ⟨hsplit, hl, hrr, _⟩ := h.halves ht hq
  rw [hsplit] at htt
  rcases List.mem_append.mp htt with h1 | h1
  · have hb := hl.bids t h1
    rcases hl with ⟨he, _⟩ | ⟨p, hp, hh⟩
    · rw [he] at h1; cases h1
    · obtain ⟨r, h2, h3, h4, h5, h6, h7, h8, h9⟩ := hh.mem t h1
      exact ⟨r, half_sub r h2, h3, h4, h6, h7, by rw [h5]; exact h8, by rw [h5]; exact h9,
        Or.inl ⟨hb, by rw [h5]; exact hp⟩⟩
  · have hb := hrr.bids t h1
    rcases hrr with ⟨he, _⟩ | ⟨p, hp, hh⟩
    · rw [he] at h1; cases h1
    · obtain ⟨r, h2, h3, h4, h5, h6, h7, h8, h9⟩ := hh.mem t h1
      exact ⟨r, half_sub r h2, h3, h4, h6, h7, by rw [h5]; exact h8, by rw [h5]; exact h9,
        Or.inr ⟨hb, by rw [h5]; exact hp⟩⟩

/-- **C79 (prices).** The bids are split by the coins. Each half's price is the rounded competitive
price of a table whose quantities differ from those of the half by a rounding error of its total, and
every bid trades at the price of the other half. -/
theorem C79_prices (F : Fmt) (s o : Summer F) (S : Sorter) (coin : ℕ → Bool) (df : DF)
    (ht : IsTable df) (hq : ∀ r ∈ df, 0 ≤ r.quantity) (hrep : RepBook F df)
    (tm : TransactionManager) (left right : List ℕ) (pl pr : Val) (fees : List ℚ)
    (h : mudaF F s o S coin df = .ok (tm, .muda left right pl pr fees)) :
    (∀ i, i ∈ left ↔ i < df.length ∧ coin i = true) ∧
    (∀ i, i ∈ right ↔ i < df.length ∧ coin i = false) ∧
    (∀ ids v, (ids = left ∧ v = pl) ∨ (ids = right ∧ v = pr) → ∃ H v', (∀ r ∈ H, 0 ≤ r.quantity) ∧
      Nearby (F.eps * ((1 + F.eps) ^ (half df ids).length * totalQty (half df ids))) (half df ids) H ∧
      findCompetitivePrice S H = .ok v' ∧ v = v'.round F) ∧
    ∀ t ∈ tm.trans, (t.bid ∈ left ∧ pr = .fin t.price) ∨ (t.bid ∈ right ∧ pl = .fin t.price) := by
  have hr := mudaF_run' ht h
  refine ⟨?_, ?_, ?_, ?_⟩
  · intro i; rw [hr.left_eq]; simp
  · intro i; rw [hr.right_eq]; simp
  · intro ids v hor
    obtain ⟨w, v', h1, h2, h3, h4⟩ := findCompetitivePriceF_nearby F S (half_nodup ht ids)
      (fun r h => hq r (half_sub r h)) (fun r hm => (hrep r (half_sub r hm)).2)
    refine ⟨requant w (half df ids), v', h1, h2, h3, ?_⟩
    rcases hor with ⟨rfl, rfl⟩ | ⟨rfl, rfl⟩
    · have := hr.priceLeft
      rw [h4] at this
      cases this; rfl
    · have := hr.priceRight
      rw [h4] at this
      cases this; rfl
  · intro t htt
    obtain ⟨_, _, _, _, _, _, _, _, h9⟩ := mudaF_mem ht hq hr htt
    exact h9

/-- **C79 (no influence).** Rounding gives a bidder no influence on the split or on the price at
which the own bid trades. -/
theorem C79_own_price (F : Fmt) (s o : Summer F) (S : Sorter) (coin : ℕ → Bool) (df : DF) (i : ℕ)
    (row : Row) (ht : IsTable df) (hl : row.label = i) (ht' : IsTable (df.set i row))
    (tm tm' : TransactionManager) (left right left' right' : List ℕ) (pl pr pl' pr' : Val)
    (fees fees' : List ℚ)
    (h : mudaF F s o S coin df = .ok (tm, .muda left right pl pr fees))
    (h' : mudaF F s o S coin (df.set i row) = .ok (tm', .muda left' right' pl' pr' fees')) :
    left' = left ∧ right' = right ∧ (i ∈ left → pr' = pr) ∧ (i ∈ right → pl' = pl) := by
  have hr := mudaF_run' ht h
  have hr' := mudaF_run' ht' h'
  have e1 : left' = left := by rw [hr.left_eq, hr'.left_eq, List.length_set]
  have e2 : right' = right := by rw [hr.right_eq, hr'.right_eq, List.length_set]
  have hd : ∀ j ∈ left, j ∉ right := by
    intro j hj hj'
    rw [hr.left_eq] at hj
    rw [hr.right_eq] at hj'
    have h1 := (List.mem_filter.mp hj).2
    have h2 := (List.mem_filter.mp hj').2
    simp [h1] at h2
  refine ⟨e1, e2, ?_, ?_⟩
  · intro hi
    have h1 := hr.priceRight
    have h2 := hr'.priceRight
    rw [e2, half_set ht hl (hd i hi), h1] at h2
    cases h2; rfl
  · intro hi
    have h1 := hr.priceLeft
    have h2 := hr'.priceLeft
    rw [e1, half_set ht hl (fun hc => hd i hc hi), h1] at h2
    cases h2; rfl

/-- **C79 (trades and fees).** Whatever the rounding and the order of summation: nobody trades at a
price worse than the bid, nobody trades more than offered, every bid has at most one transaction, and
there is one non-negative fee per user. -/
theorem C79_rational (F : Fmt) (s o : Summer F) (S : Sorter) (coin : ℕ → Bool) (df : DF)
    (ht : IsTable df) (hq : ∀ r ∈ df, 0 ≤ r.quantity)
    (tm : TransactionManager) (left right : List ℕ) (pl pr : Val) (fees : List ℚ)
    (h : mudaF F s o S coin df = .ok (tm, .muda left right pl pr fees)) :
    (∀ t ∈ tm.trans, t.bid < df.length ∧ t.quantity ≤ qtyOf df t.bid ∧ t.source = -1 ∧
      t.active = false ∧ (isBuy df t.bid = true → t.price ≤ priceOf df t.bid) ∧
      (isSell df t.bid = true → priceOf df t.bid ≤ t.price)) ∧
    (tm.trans.map (fun t => t.bid)).Nodup ∧
    fees.length = (df.map (fun r => r.user)).dedup.length ∧ ∀ x ∈ fees, 0 ≤ x := by
  have hr := mudaF_run' ht h
  obtain ⟨hsplit, hl, hrr, hd, hfl, hf0⟩ := hr.halves ht hq
  refine ⟨?_, ?_, hfl, hf0⟩
  · intro t htt
    obtain ⟨r, hm, h3, h4, h6, h7, h8, h9, _⟩ := mudaF_mem ht hq hr htt
    rw [h3, ht.isBuy_eq hm, ht.isSell_eq hm, ht.price_eq hm, ht.qty_eq hm]
    refine ⟨ht.label_lt hm, h4, h6, h7, h8, ?_⟩
    intro hc
    exact h9 (by simpa using hc)
  · rw [hsplit, List.map_append, List.nodup_append]
    refine ⟨?_, ?_, ?_⟩
    · rcases hl with ⟨he, _⟩ | ⟨p, _, hh⟩
      · rw [he]; simp
      · exact hh.nodup (half_nodup ht left)
    · rcases hrr with ⟨he, _⟩ | ⟨p, _, hh⟩
      · rw [he]; simp
      · exact hh.nodup (half_nodup ht right)
    · intro a ha b hb hab
      obtain ⟨t, h1, rfl⟩ := List.mem_map.mp ha
      obtain ⟨t', h1', rfl⟩ := List.mem_map.mp hb
      exact hd _ (hl.bids t h1) (hab ▸ hrr.bids t' h1')

/-- **C79 (returns).** Whatever the rounding and the order of summation, a table without twins whose
user ids are `0, …, n-1` is cleared; a table with twins is rejected. -/
theorem C79_returns (F : Fmt) (s o : Summer F) (S : Sorter) (coin : ℕ → Bool) (df : DF)
    (ht : IsTable df) (hq : ∀ r ∈ df, 0 ≤ r.quantity) (hu : UsersInRange df) :
    (HasTwin df → mudaF F s o S coin df = .error .notImplementedError) ∧
    (¬ HasTwin df →
      ∃ tm left right pl pr fees, mudaF F s o S coin df = .ok (tm, .muda left right pl pr fees)) := by
  constructor
  · intro htw
    unfold mudaF
    rw [if_pos ((checkEqualPrice_iff df).mpr htw)]
  · intro htwin
    have hc : checkEqualPriceRaises df = false := by
      rw [← Bool.not_eq_true]
      exact fun h => htwin ((checkEqualPrice_iff df).mp h)
    obtain ⟨pl, hpl⟩ := findCompetitivePriceF_total F S
      (half_nodup ht ((List.range df.length).filter coin)) (fun r h => hq r (half_sub r h))
    obtain ⟨pr, hpr⟩ := findCompetitivePriceF_total F S
      (half_nodup ht ((List.range df.length).filter (fun i => !coin i))) (fun r h => hq r (half_sub r h))
    obtain ⟨tl, f1, hl⟩ := solveSideF_total F s o S
      (half_nodup ht ((List.range df.length).filter coin))
      (fun r h => hq r (half_sub r h)) pr
      (fees := List.replicate (df.map (fun r => r.user)).dedup.length (0 : ℚ))
      (by rw [List.length_replicate]; exact fun r h => hu r (half_sub r h))
    obtain ⟨_, hlen, _⟩ := solveSideF_out (half_nodup ht ((List.range df.length).filter coin))
      (fun r h => hq r (half_sub r h)) hl (fun x hx => (List.eq_of_mem_replicate hx).ge)
    obtain ⟨tr, f2, hr⟩ := solveSideF_total F s o S
      (half_nodup ht ((List.range df.length).filter (fun i => !coin i)))
      (fun r h => hq r (half_sub r h)) pl (fees := f1)
      (by rw [hlen, List.length_replicate]; exact fun r h => hu r (half_sub r h))
    exact ⟨_, _, _, _, _, _, mudaF_ok ht hc hpl hpr hl hr⟩

/-- **C79, partial (balance).** When `sum()` adds from left to right (NumPy does so for less than eight
entries, `leftToRight_pairSummer`), no traded quantity is negative, the bought and the sold quantity
of a half differ by a rounding error of the quantities in it, and so does the bought quantity from the
volume both sides are willing to trade. Missing: eight or more bids on a side, where `sum()` and
`cumsum()` disagree and the claim fails by much more than a rounding error (`C79_balance_refuted`). -/
theorem C79_balance_partial (F : Fmt) (s o : Summer F) (S : Sorter) (coin : ℕ → Bool) (df : DF)
    (ht : IsTable df) (hq : ∀ r ∈ df, 0 ≤ r.quantity) (hrep : RepBook F df) (n : ℕ)
    (hs : LeftToRight s n) (hb : (df.filter (fun r => r.buying)).length ≤ n)
    (hsl : (df.filter (fun r => !r.buying)).length ≤ n)
    (tm : TransactionManager) (left right : List ℕ) (pl pr : Val) (fees : List ℚ)
    (h : mudaF F s o S coin df = .ok (tm, .muda left right pl pr fees)) :
    (∀ t ∈ tm.trans, 0 ≤ t.quantity) ∧
    ∀ ids v, (ids = left ∧ v = pr) ∨ (ids = right ∧ v = pl) →
      |boughtQty df (tradesIn ids tm.trans) - soldQty df (tradesIn ids tm.trans)| ≤
        slack F n * totalQty (half df ids) ∧
      ∀ p, v = .fin p → |boughtQty df (tradesIn ids tm.trans) - volumeAt (half df ids) p| ≤
        2 * (slack F n * totalQty (half df ids)) := by
  have e0 := F.eps_nonneg
  have hr := mudaF_run' ht h
  obtain ⟨hsplit, hl, hrr, hd, _⟩ := hr.halves ht hq
  have key : ∀ ids v, HalfOutcomeF F s S (half df ids) v (tradesIn ids tm.trans) →
      (∀ t ∈ tradesIn ids tm.trans, 0 ≤ t.quantity) ∧
      |boughtQty df (tradesIn ids tm.trans) - soldQty df (tradesIn ids tm.trans)| ≤
        slack F n * totalQty (half df ids) ∧
      ∀ p, v = .fin p → |boughtQty df (tradesIn ids tm.trans) - volumeAt (half df ids) p| ≤
        2 * (slack F n * totalQty (half df ids)) := by
    intro ids v ho
    have hqH : ∀ r ∈ half df ids, 0 ≤ r.quantity := fun r hr => hq r (half_sub r hr)
    have hP : 1 ≤ (1 + F.eps) ^ n := one_le_pow₀ (by linarith)
    have hsl0 : (1 + F.eps) ^ n - 1 ≤ slack F n := by
      unfold slack
      have : 0 ≤ ((n : ℚ) + 1) * (F.eps * (1 + F.eps) ^ n) := by positivity
      linarith
    have hB : 0 ≤ slack F n * totalQty (half df ids) :=
      mul_nonneg (by linarith) (totalQty_nonneg hqH)
    rcases ho with ⟨he, hz⟩ | ⟨p, hp, hh⟩
    · rw [he]
      have hb0 : boughtQty df [] = 0 := rfl
      have hs0 : soldQty df [] = 0 := rfl
      rw [hb0, hs0]
      refine ⟨by simp, by simpa using hB, ?_⟩
      intro p hp
      have hz' := hz p hp
      have ld : (willingDemand S (half df ids) (.fin p)).length ≤ n := by
        refine le_trans ?_ hb
        unfold willingDemand
        rw [(sortDesc_perm S _).length_eq]
        exact (List.length_filter_le _ _).trans ((List.filter_sublist.filter _).length_le)
      have ls : (willingSupply S (half df ids) (.fin p)).length ≤ n := by
        refine le_trans ?_ hsl
        unfold willingSupply
        rw [(sortAsc_perm S _).length_eq]
        exact (List.length_filter_le _ _).trans ((List.filter_sublist.filter _).length_le)
      have h1 := halfQtyF_err s S hqH p ld ls
      have h2 := willing_total_le S hqH (.fin p)
      rw [hz'] at h1
      have h3 := mul_le_mul_of_nonneg_left h2 (by linarith : 0 ≤ (1 + F.eps) ^ n - 1)
      have h4 := mul_le_mul_of_nonneg_right hsl0 (totalQty_nonneg hqH)
      linarith
    · obtain ⟨h1, h2, h3⟩ := hh.sums ht half_sub hq (fun r hm => (hrep r hm).1) hs hb hsl
        List.filter_sublist
      refine ⟨h1, h2, ?_⟩
      intro p' hp'
      rw [hp] at hp'
      cases hp'
      exact h3
  refine ⟨?_, ?_⟩
  · intro t htt
    rw [hsplit] at htt
    rcases List.mem_append.mp htt with h1 | h1
    · exact (key left pr hl).1 t h1
    · exact (key right pl hrr).1 t h1
  · rintro ids v (⟨rfl, rfl⟩ | ⟨rfl, rfl⟩)
    · exact (key _ _ hl).2
    · exact (key _ _ hrr).2

end

/-- NumPy adds less than eight entries from left to right. -/
theorem leftToRight_pairSummer (F : Fmt) : LeftToRight (pairSummer F) 7 := by
  intro l hl
  show pairSum F l = seqSum F l
  unfold pairSum
  rw [if_pos (Or.inl (by omega))]

theorem leftToRight_seqSummer (F : Fmt) (n : ℕ) : LeftToRight (seqSummer F) n := fun _ _ => rfl

/-! ## Instances -/

/-- `mudaBook` satisfies the hypotheses in float64, with NumPy's order of summation. -/
example : IsTable mudaBook ∧ NonNeg mudaBook ∧ RepBook float64 mudaBook ∧ UsersInRange mudaBook ∧
    LeftToRight (pairSummer float64) 7 ∧ (mudaBook.filter (fun r => r.buying)).length ≤ 7 ∧
    (mudaBook.filter (fun r => !r.buying)).length ≤ 7 ∧ slack float64 7 < 1 / 10 ^ 14 ∧
    mudaF float64 (pairSummer float64) (seqSummer float64) stableSorter mudaCoin mudaBook =
      .ok (⟨4, mudaTrans⟩, .muda [0, 1, 2, 3, 5, 7] [4, 6, 8, 9] (.fin 6) (.fin (7 / 2))
        [11, 0, 0, 3, 0, 0, 0, 0]) := by
  refine ⟨by decide +kernel, by decide +kernel, ?_, by decide +kernel, leftToRight_pairSummer _,
    by decide +kernel, by decide +kernel, by decide +kernel, by decide +kernel⟩
  unfold RepBook Fmt.Rep
  decide +kernel

/-- Eight buyers who want 5.7 together and a seller of 5.7, all at price 5; the last two bids form the
other half and set that price. -/
def oddBook : DF := labelFrom 0
  [⟨f64 (13 / 10), 5, 0, true, 0, true⟩, ⟨f64 (1 / 10), 5, 1, true, 0, true⟩,
   ⟨f64 (6 / 10), 5, 2, true, 0, true⟩, ⟨f64 (9 / 10), 5, 3, true, 0, true⟩,
   ⟨f64 (3 / 10), 5, 4, true, 0, true⟩, ⟨f64 (11 / 10), 5, 5, true, 0, true⟩,
   ⟨f64 (13 / 10), 5, 6, true, 0, true⟩, ⟨f64 (1 / 10), 5, 7, true, 0, true⟩,
   ⟨f64 (57 / 10), 5, 8, false, 0, true⟩,
   ⟨1, 6, 9, true, 0, true⟩, ⟨1, 4, 10, false, 0, true⟩]

/-- `oddBook` with a ninth buyer. -/
def oddBook' : DF := labelFrom 0
  [⟨f64 (13 / 10), 5, 0, true, 0, true⟩, ⟨f64 (1 / 10), 5, 1, true, 0, true⟩,
   ⟨f64 (6 / 10), 5, 2, true, 0, true⟩, ⟨f64 (9 / 10), 5, 3, true, 0, true⟩,
   ⟨f64 (3 / 10), 5, 4, true, 0, true⟩, ⟨f64 (11 / 10), 5, 5, true, 0, true⟩,
   ⟨f64 (13 / 10), 5, 6, true, 0, true⟩, ⟨f64 (1 / 10), 5, 7, true, 0, true⟩,
   ⟨f64 (57 / 10), 5, 8, false, 0, true⟩,
   ⟨1, 6, 9, true, 0, true⟩, ⟨1, 4, 10, false, 0, true⟩, ⟨1, 5, 11, true, 0, true⟩]

/-- The left half. -/
def oddCoin (i : ℕ) : Bool := decide (i ≠ 9 ∧ i ≠ 10)

/-- **C79, refuted part (balance).** In float64 with NumPy's `sum()`, the eight buyers of `oddBook` sum
up to slightly more than 5.7 but their running total ends slightly below it. `np.argmax` finds no
position and returns 0: the seller sells 5.7, only the first buyer buys (1.3), and the market maker
loses 22 although the fees are counted in. -/
theorem C79_balance_refuted :
    IsTable oddBook ∧ NonNeg oddBook ∧ RepBook float64 oddBook ∧ UsersInRange oddBook ∧
    ¬ HasTwin oddBook ∧
    ∃ tm left right pl pr fees, mudaF float64 (pairSummer float64) (seqSummer float64) stableSorter
        oddCoin oddBook = .ok (tm, .muda left right pl pr fees) ∧
      soldQty oddBook (tradesIn left tm.trans) = f64 (57 / 10) ∧
      boughtQty oddBook (tradesIn left tm.trans) = f64 (13 / 10) ∧
      paid oddBook tm.trans + fees.sum + 21 < received oddBook tm.trans := by
  refine ⟨by decide +kernel, by decide +kernel, ?_, by decide +kernel, ?_, ?_⟩
  · unfold RepBook Fmt.Rep
    decide +kernel
  · rw [← checkEqualPrice_iff]; decide +kernel
  · have h : (mudaF float64 (pairSummer float64) (seqSummer float64) stableSorter
        oddCoin oddBook).toOption.any (fun r => match r.2 with
          | .muda left _ _ _ fees => decide (soldQty oddBook (tradesIn left r.1.trans) = f64 (57 / 10) ∧
              boughtQty oddBook (tradesIn left r.1.trans) = f64 (13 / 10) ∧
              paid oddBook r.1.trans + fees.sum + 21 < received oddBook r.1.trans)
          | _ => false) = true := by decide +kernel
    cases hr : mudaF float64 (pairSummer float64) (seqSummer float64) stableSorter oddCoin oddBook with
    | error e => rw [hr] at h; cases h
    | ok r =>
      rw [hr] at h
      obtain ⟨tm, ex⟩ := r
      cases ex with
      | muda left right pl pr fees => exact ⟨tm, left, right, pl, pr, fees, rfl, of_decide_eq_true h⟩
      | _ => cases h

/-- **C79, refuted part (sign).** With a ninth buyer the running total does reach 5.7, but by then
`sum()` of the first eight exceeds it: the ninth buyer buys a negative quantity. -/
theorem C79_negative_refuted :
    IsTable oddBook' ∧ NonNeg oddBook' ∧ RepBook float64 oddBook' ∧ UsersInRange oddBook' ∧
    ¬ HasTwin oddBook' ∧
    ∃ tm ex, mudaF float64 (pairSummer float64) (seqSummer float64) stableSorter
        oddCoin oddBook' = .ok (tm, ex) ∧
      ∃ t ∈ tm.trans, t.bid = 11 ∧ t.quantity < 0 := by
  refine ⟨by decide +kernel, by decide +kernel, ?_, by decide +kernel, ?_, ?_⟩
  · unfold RepBook Fmt.Rep
    decide +kernel
  · rw [← checkEqualPrice_iff]; decide +kernel
  · have h : (mudaF float64 (pairSummer float64) (seqSummer float64) stableSorter
        oddCoin oddBook').toOption.any (fun r =>
          decide (∃ t ∈ r.1.trans, t.bid = 11 ∧ t.quantity < 0)) = true := by decide +kernel
    cases hr : mudaF float64 (pairSummer float64) (seqSummer float64) stableSorter oddCoin oddBook' with
    | error e => rw [hr] at h; cases h
    | ok r => rw [hr] at h; exact ⟨r.1, r.2, rfl, of_decide_eq_true h⟩

end PyMarket
