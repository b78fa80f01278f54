import Verif.Lemmas.Accounting
import Verif.Spec.Profit

/-! # C40, C41, C42: the profit statistic -/

set_option autoImplicit false

namespace PyMarket

open Spec

theorem sortedUsers_spec (df : DF) : UsersOf df (sortedUsers df) := by
  unfold sortedUsers
  have hperm := List.perm_insertionSort (fun a b : ℤ => a ≤ b) ((df.map (fun r => r.user)).dedup)
  constructor
  · have hs := List.pairwise_insertionSort (fun a b : ℤ => a ≤ b) ((df.map (fun r => r.user)).dedup)
    have hn : (((df.map (fun r => r.user)).dedup).insertionSort (fun a b => a ≤ b)).Nodup :=
      hperm.nodup_iff.mpr (List.nodup_dedup _)
    exact (hs.and hn).imp (fun h => lt_of_le_of_ne h.1 h.2)
  · intro u
    rw [hperm.mem_iff, List.mem_dedup, List.mem_map]

/-- One user's profit is their surplus. -/
theorem userProfit_eq {df : DF} (ht : IsTable df) (price : ℕ → ℚ) (ts : List Transaction) (u : ℤ) :
    userProfit (joinBids df ts) (fun r => price r.label) u = surplusOf df price u ts := by
  induction ts with
  | nil => simp [userProfit, joinBids, surplusOf, boughtValue, soldValue, paid, received, transOf]
  | cons t ts ih =>
    unfold userProfit at ih ⊢
    rw [joinBids_cons ht]
    have hsplit : surplusOf df price u (t :: ts) = surplusOf df price u [t] +
        surplusOf df price u ts := by
      simp only [surplusOf, transOf, boughtValue, soldValue, paid, received]
      by_cases ho : ownedBy df u t.bid = true <;> by_cases hb : isBuy df t.bid = true <;>
        by_cases hs : isSell df t.bid = true <;>
        simp [ho, hb, hs] <;> ring
    rw [hsplit, ← ih]
    cases h : df[t.bid]? with
    | none =>
      have : ownedBy df u t.bid = false := by simp [ownedBy, h]
      simp [surplusOf, transOf, this, boughtValue, soldValue, paid, received]
    | some r =>
      have hl := ht.label h
      by_cases hu : r.user = u
      · have ho : ownedBy df u t.bid = true := by simp [ownedBy, h, hu]
        have h1 : isBuy df t.bid = r.buying := by simp [isBuy, h]
        have h2 : isSell df t.bid = !r.buying := by simp [isSell, h]
        cases hb : r.buying <;>
          simp [surplusOf, transOf, ho, boughtValue, soldValue, paid, received, hu, h1, h2, hb,
            getGain, hl] <;> ring
      · have ho : ownedBy df u t.bid = false := by simp [ownedBy, h, hu]
        simp [surplusOf, transOf, ho, boughtValue, soldValue, paid, received, hu]

theorem map_label_price {df : DF} (ht : IsTable df) {ts : List Transaction} (u : ℤ) :
    userProfit (joinBids df ts) (fun r => r.price) u =
      userProfit (joinBids df ts) (fun r => priceOf df r.label) u := by
  unfold userProfit
  congr 1
  apply List.map_congr_left
  intro p hp
  have hp' := (List.mem_filter.mp hp).1
  unfold joinBids at hp'
  obtain ⟨t, _, h⟩ := List.mem_filterMap.mp hp'
  rw [find_label ht] at h
  cases h2 : df[t.bid]? with
  | none => rw [h2] at h; cases h
  | some r =>
    rw [h2] at h
    cases h
    show getGain t r.price r.buying = getGain t (priceOf df r.label) r.buying
    rw [ht.price_eq (List.mem_of_getElem? h2)]

/-- **C40, players.** The profit of each player at bid prices is exactly: bid value of what was
bought minus what was paid for it, plus what was received minus the bid value of what was sold. The
players are listed by increasing user id. -/
theorem C40_player (df : DF) (ht : IsTable df) (ts : List Transaction) (res : Option ResPrices)
    (fees : Option (List ℚ)) :
    ∃ us, UsersOf df us ∧ (calculateProfits df ts res fees).1.playerBid =
      us.map (fun u => surplusOf df (priceOf df) u ts) := by
  refine ⟨sortedUsers df, sortedUsers_spec df, ?_⟩
  unfold calculateProfits
  apply List.map_congr_left
  intro u _
  rw [map_label_price ht, userProfit_eq ht]

/-- **C40, market.** Without fees the market maker keeps what is paid and not received. -/
theorem C40_market (df : DF) (ht : IsTable df) (ts : List Transaction) (res : Option ResPrices) :
    (calculateProfits df ts res none).1.market = paid df ts - received df ts := by
  rw [market_profit ht]; simp

theorem sum_over_users {df : DF} {us : List ℤ} (hus : UsersOf df us) (price : ℕ → ℚ)
    (ts : List Transaction) :
    (us.map (fun u => surplusOf df price u ts)).sum =
      boughtValue df price ts - paid df ts + (received df ts - soldValue df price ts) := by
  induction ts with
  | nil => simp [surplusOf, boughtValue, soldValue, paid, received, transOf]
  | cons t ts ih =>
    have hsplit : ∀ u, surplusOf df price u (t :: ts) = surplusOf df price u [t] +
        surplusOf df price u ts := by
      intro u
      simp only [surplusOf, transOf, boughtValue, soldValue, paid, received]
      by_cases ho : ownedBy df u t.bid = true <;> by_cases hb : isBuy df t.bid = true <;>
        by_cases hs : isSell df t.bid = true <;>
        simp [ho, hb, hs] <;> ring
    simp only [hsplit, List.sum_map_add, ih]
    have hone : (us.map (fun u => surplusOf df price u [t])).sum =
        boughtValue df price [t] - paid df [t] + (received df [t] - soldValue df price [t]) := by
      cases h : df[t.bid]? with
      | none =>
        have h1 : isBuy df t.bid = false := by simp [isBuy, h]
        have h2 : isSell df t.bid = false := by simp [isSell, h]
        have ho : ∀ u, ownedBy df u t.bid = false := by intro u; simp [ownedBy, h]
        simp [surplusOf, transOf, ho, boughtValue, soldValue, paid, received, h1, h2]
      | some r =>
        have hmem : r.user ∈ us := (hus.2 r.user).mpr ⟨r, List.mem_of_getElem? h, rfl⟩
        have hnd : us.Nodup := hus.1.imp (fun h => ne_of_lt h)
        have hval : ∀ u, surplusOf df price u [t] = if u = r.user then
            boughtValue df price [t] - paid df [t] + (received df [t] - soldValue df price [t])
            else 0 := by
          intro u
          by_cases hu : u = r.user
          · have : ownedBy df u t.bid = true := by simp [ownedBy, h, hu]
            subst hu
            rw [if_pos rfl]
            simp [surplusOf, transOf, this]
          · have : ownedBy df u t.bid = false := by
              simp [ownedBy, h]; exact fun h => hu h.symm
            simp [surplusOf, transOf, this, hu, boughtValue, soldValue, paid, received]
        simp only [hval]
        clear ih hsplit hval hus
        induction us with
        | nil => cases hmem
        | cons v vs ih2 =>
          rw [List.nodup_cons] at hnd
          rw [List.map_cons, List.sum_cons]
          rcases List.mem_cons.mp hmem with rfl | hm
          · have hz : (vs.map (fun u => if u = r.user then
                boughtValue df price [t] - paid df [t] + (received df [t] - soldValue df price [t])
                else 0)).sum = 0 := by
              apply List.sum_eq_zero
              intro x hx
              obtain ⟨w, hw, rfl⟩ := List.mem_map.mp hx
              rw [if_neg]
              rintro rfl
              exact hnd.1 hw
            rw [hz, if_pos rfl, add_zero]
          · rw [ih2 hm hnd.2, if_neg, zero_add]
            rintro rfl
            exact hnd.1 hm
    rw [hone]
    simp only [boughtValue, soldValue, paid, received]
    by_cases hb : isBuy df t.bid = true <;> by_cases hs : isSell df t.bid = true <;>
      simp [hb, hs] <;> ring

/-- **C40.** All players' profits plus the market maker's profit are the gains from trade: the bid
value of the goods bought minus the bid value of the goods sold. -/
theorem C40_accounting (df : DF) (ht : IsTable df) (ts : List Transaction) (res : Option ResPrices) :
    (calculateProfits df ts res none).1.playerBid.sum +
      (calculateProfits df ts res none).1.market =
      boughtValue df (priceOf df) ts - soldValue df (priceOf df) ts := by
  obtain ⟨us, hus, he⟩ := C40_player df ht ts res none
  rw [he, C40_market df ht, sum_over_users hus]
  ring

/-- The book and the log of the docstring of `calculate_profits`. -/
def profitBook : DF := labelFrom 0
  [⟨1, 3, 0, true, 0, true⟩, ⟨1, 2, 1, true, 0, true⟩, ⟨3/2, 1, 2, false, 0, true⟩]

@[inherit_doc profitBook]
def profitLog : List Transaction := [⟨0, 1, 2, 2, false⟩, ⟨2, 1, 2, 0, false⟩]

example : IsTable profitBook := by decide +kernel

/-- Non-vacuity: the docstring's numbers. -/
example : (calculateProfits profitBook profitLog (some (fun j => if j = 2 then some 0 else none))
    none).1 = ⟨[1, 0, 1], [1, 0, 2], 0⟩ := by decide +kernel

example : boughtValue profitBook (priceOf profitBook) profitLog -
    soldValue profitBook (priceOf profitBook) profitLog = 2 := by decide +kernel

/-- **C41** (full statement): each player's reported profit is their surplus net of their fee. Fees
are indexed by user id. -/
def Spec.FeesCharged (df : DF) (ts : List Transaction) (fees : List ℚ) : Prop :=
  ∃ us, UsersOf df us ∧ (calculateProfits df ts none (some fees)).1.playerBid =
    us.map (fun u => surplusOf df (priceOf df) u ts - (fees[u.toNat]?).getD 0)

/-- **C41, partial.** What the code does with fees: they are added to the market maker's profit and
not taken from the players, so total profit exceeds the gains from trade by the fees. Missing: the
fees are not subtracted from the players' profits, see `C41_refuted`. -/
theorem C41_fees_partial (df : DF) (ht : IsTable df) (ts : List Transaction)
    (res : Option ResPrices) (fees : List ℚ) :
    (calculateProfits df ts res (some fees)).1.market =
      (calculateProfits df ts res none).1.market + fees.sum ∧
    (calculateProfits df ts res (some fees)).1.playerBid =
      (calculateProfits df ts res none).1.playerBid ∧
    (calculateProfits df ts res (some fees)).1.playerReservation =
      (calculateProfits df ts res none).1.playerReservation ∧
    (calculateProfits df ts res (some fees)).1.playerBid.sum +
      (calculateProfits df ts res (some fees)).1.market =
      boughtValue df (priceOf df) ts - soldValue df (priceOf df) ts + fees.sum := by
  have e1 : (calculateProfits df ts res (some fees)).1.market =
      (calculateProfits df ts res none).1.market + fees.sum := by
    rw [market_profit ht, market_profit ht]; simp
  have e2 : (calculateProfits df ts res (some fees)).1.playerBid =
      (calculateProfits df ts res none).1.playerBid := rfl
  refine ⟨e1, e2, rfl, ?_⟩
  rw [e1, e2, ← C40_accounting df ht ts res]
  ring

theorem usersOf_unique {df : DF} {us us' : List ℤ} (h : UsersOf df us) (h' : UsersOf df us') :
    us = us' := by
  apply List.Perm.eq_of_pairwise (le := fun a b : ℤ => a < b)
  · intro a b _ _ hab hba; exact absurd hab (not_lt.mpr hba.le)
  · exact h.1
  · exact h'.1
  · rw [List.perm_ext_iff_of_nodup (h.1.imp (fun h => ne_of_lt h)) (h'.1.imp (fun h => ne_of_lt h))]
    intro u; rw [h.2, h'.2]

/-- **C41 is violated** by the code: a fee of `1/2` for user 0 does not lower the profit reported for
user 0. -/
theorem C41_refuted : IsTable profitBook ∧
    ¬ FeesCharged profitBook profitLog [1/2, 0, 0] := by
  refine ⟨by decide +kernel, ?_⟩
  rintro ⟨us, hus, he⟩
  have hus' : us = [0, 1, 2] := by
    rw [usersOf_unique hus (sortedUsers_spec profitBook)]; decide +kernel
  subst hus'
  revert he
  decide +kernel

theorem fillRes_get (res : ResPrices) (df : DF) (hn : (df.map (fun r => r.label)).Nodup) (j : ℕ) :
    fillRes res df j = match res j with
      | some v => some v
      | none => (df.find? (fun r => r.label == j)).map (fun r => r.price) := by
  induction df generalizing res with
  | nil => cases h : res j <;> simp [fillRes, h]
  | cons r df ih =>
    rw [List.map_cons, List.nodup_cons] at hn
    rw [fillRes, ih _ hn.2, List.find?_cons]
    by_cases hj : r.label = j
    · subst hj
      cases h : res r.label with
      | some v => simp [h]
      | none => simp
    · have hj' : (r.label == j) = false := by simpa using hj
      rw [hj']
      cases h : res r.label with
      | some v => simp
      | none => simp [Ne.symm hj]

/-- **C42, dictionary.** The caller's dictionary is extended with the bid prices of exactly the bids
that were missing; given entries are kept and no other key is added. -/
theorem C42_dictionary (df : DF) (ht : IsTable df) (ts : List Transaction) (res : ResPrices)
    (fees : Option (List ℚ)) :
    ∃ res', (calculateProfits df ts (some res) fees).2 = some res' ∧
      (∀ j v, res j = some v → res' j = some v) ∧
      (∀ r ∈ df, res r.label = none → res' r.label = some r.price) ∧
      (∀ j, res j = none → df.length ≤ j → res' j = none) := by
  refine ⟨fillRes res df, rfl, ?_, ?_, ?_⟩
  · intro j v h; rw [fillRes_get _ _ ht.nodup, h]
  · intro r hr h
    rw [fillRes_get _ _ ht.nodup, h, find_label ht, ht.get_label hr]; rfl
  · intro j h hj
    rw [fillRes_get _ _ ht.nodup, h, find_label ht, List.getElem?_eq_none hj]; rfl

/-- The price at which bid `i` is valued: the reservation price if one is given for that bid id, else
the bid price. -/
def Spec.reservationOf (df : DF) (res : ResPrices) (i : ℕ) : ℚ := (res i).getD (priceOf df i)

/-- **C42, values.** `player_reservation` is the surplus of each player with the bids valued at the
given reservation prices (bid prices where none is given). -/
theorem C42_player_reservation (df : DF) (ht : IsTable df) (ts : List Transaction)
    (res : Option ResPrices) (fees : Option (List ℚ)) :
    ∃ us, UsersOf df us ∧ (calculateProfits df ts res fees).1.playerReservation =
      us.map (fun u => surplusOf df (reservationOf df (res.getD (fun _ => none))) u ts) := by
  refine ⟨sortedUsers df, sortedUsers_spec df, ?_⟩
  unfold calculateProfits
  apply List.map_congr_left
  intro u _
  rw [← userProfit_eq ht]
  unfold userProfit
  congr 1
  apply List.map_congr_left
  intro p hp
  have hp' := (List.mem_filter.mp hp).1
  unfold joinBids at hp'
  obtain ⟨t, _, h⟩ := List.mem_filterMap.mp hp'
  rw [find_label ht] at h
  cases h2 : df[t.bid]? with
  | none => rw [h2] at h; cases h
  | some r =>
    rw [h2] at h
    cases h
    have hr := List.mem_of_getElem? h2
    simp only [reservationOf]
    congr 1
    rw [fillRes_get _ _ ht.nodup, find_label ht, ht.get_label hr, ht.price_eq hr]
    cases res.getD (fun _ => none) r.label <;> rfl

/-- **C42, default.** Without reservation prices both profits coincide. -/
theorem C42_default (df : DF) (ht : IsTable df) (ts : List Transaction) (fees : Option (List ℚ)) :
    (calculateProfits df ts none fees).1.playerReservation =
      (calculateProfits df ts none fees).1.playerBid := by
  obtain ⟨us, hus, he⟩ := C42_player_reservation df ht ts none fees
  obtain ⟨us', hus', he'⟩ := C40_player df ht ts none fees
  rw [he, he', usersOf_unique hus hus']
  rfl

theorem surplus_frame {df : DF} {i : ℕ} {r : Row} (hr : df[i]? = some r) (v : ℚ) (u : ℤ)
    (ts : List Transaction) :
    surplusOf df (reservationOf df (fun j => if j = i then some v else none)) u ts =
      surplusOf df (priceOf df) u ts + if r.user = u then
        (if r.buying then v - r.price else r.price - v) * tradedBy ts i else 0 := by
  induction ts with
  | nil => simp [surplusOf, boughtValue, soldValue, paid, received, transOf, tradedBy]
  | cons t ts ih =>
    have hsplit : ∀ price, surplusOf df price u (t :: ts) = surplusOf df price u [t] +
        surplusOf df price u ts := by
      intro price
      simp only [surplusOf, transOf, boughtValue, soldValue, paid, received]
      by_cases ho : ownedBy df u t.bid = true <;> by_cases hb : isBuy df t.bid = true <;>
        by_cases hs : isSell df t.bid = true <;>
        simp [ho, hb, hs] <;> ring
    have htr : tradedBy (t :: ts) i = tradedBy [t] i + tradedBy ts i := tradedBy_append [t] ts i
    rw [hsplit, ih, hsplit, htr]
    suffices h1 : surplusOf df (reservationOf df (fun j => if j = i then some v else none)) u [t] =
        surplusOf df (priceOf df) u [t] + if r.user = u then
        (if r.buying then v - r.price else r.price - v) * tradedBy [t] i else 0 by
      rw [h1]; split_ifs <;> ring
    by_cases hti : t.bid = i
    · subst hti
      have h1 : isBuy df t.bid = r.buying := by simp [isBuy, hr]
      have h2 : isSell df t.bid = !r.buying := by simp [isSell, hr]
      have h3 : ownedBy df u t.bid = decide (r.user = u) := by simp [ownedBy, hr]
      have h4 : priceOf df t.bid = r.price := by simp [priceOf, hr]
      have h5 : reservationOf df (fun j => if j = t.bid then some v else none) t.bid = v := by
        simp [reservationOf]
      by_cases hu : r.user = u <;> cases hb : r.buying <;>
        simp [surplusOf, transOf, boughtValue, soldValue, paid, received, tradedBy, h1, h2, h3, h4,
          h5, hu, hb] <;> ring
    · have h5 : reservationOf df (fun j => if j = i then some v else none) t.bid =
          priceOf df t.bid := by
        simp [reservationOf, hti]
      have h6 : tradedBy [t] i = 0 := by simp [tradedBy, hti]
      rw [h6]
      simp only [mul_zero, ite_self, add_zero]
      by_cases ho : ownedBy df u t.bid = true <;> by_cases hb : isBuy df t.bid = true <;>
        by_cases hs : isSell df t.bid = true <;>
        simp [surplusOf, transOf, boughtValue, soldValue, paid, received, ho, hb, hs, h5]

/-- **C42, frame.** A reservation price given for one bid id changes only that bid's user's profit,
by the price difference times that bid's traded quantity (negated for a seller). -/
theorem C42_frame (df : DF) (ht : IsTable df) (ts : List Transaction) (fees : Option (List ℚ))
    (i : ℕ) (r : Row) (hr : df[i]? = some r) (v : ℚ) :
    ∃ us, UsersOf df us ∧
      (calculateProfits df ts (some (fun j => if j = i then some v else none)) fees).1.playerReservation
      = us.map (fun u => surplusOf df (priceOf df) u ts + if r.user = u then
        (if r.buying then v - r.price else r.price - v) * tradedBy ts i else 0) := by
  obtain ⟨us, hus, he⟩ := C42_player_reservation df ht ts
    (some (fun j => if j = i then some v else none)) fees
  refine ⟨us, hus, ?_⟩
  rw [he]
  apply List.map_congr_left
  intro u _
  exact surplus_frame hr v u ts

example : profitBook[2]? = some ⟨⟨3/2, 1, 2, false, 0, true⟩, 2⟩ := by decide +kernel

end PyMarket
