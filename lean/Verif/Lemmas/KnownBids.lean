import Verif.Props.P2P
import Verif.Props.MergedRuns

/-! # Transactions refer to existing bids, whatever the mechanism and the book -/

set_option autoImplicit false

namespace PyMarket

open Spec

theorem tradeRound_bid (prices : ℕ → ℚ) (c : ℚ) (q : ℕ → ℚ) (M : List (ℕ × ℕ)) :
    ∀ t ∈ (tradeRound prices c q M).2, ∃ p ∈ M, t.bid = p.1 ∨ t.bid = p.2 := by
  induction M generalizing q with
  | nil => intro t h; cases h
  | cons p M ih =>
    intro t h
    simp only [tradeRound] at h
    rcases List.mem_append.mp h with h | h
    · refine ⟨p, List.mem_cons_self, ?_⟩
      rw [tradeOne_entries] at h
      split_ifs at h <;> simp only [List.mem_cons, List.not_mem_nil, or_false] at h <;>
        rcases h with rfl | rfl <;> simp
    · obtain ⟨p', h1, h2⟩ := ih _ t h
      exact ⟨p', List.mem_cons_of_mem _ h1, h2⟩

theorem lt_of_isBuy {df : DF} {i : ℕ} (h : isBuy df i = true) : i < df.length := by
  by_contra hc
  simp [isBuy, List.getElem?_eq_none (not_lt.mp hc)] at h

theorem lt_of_isSell {df : DF} {i : ℕ} (h : isSell df i = true) : i < df.length := by
  by_contra hc
  simp [isSell, List.getElem?_eq_none (not_lt.mp hc)] at h

theorem p2p_known {c : ℚ} {choice : ℕ → ℕ} {df : DF} (ht : IsTable df) {tm : TransactionManager}
    {ex : Extra} (h : p2pRandom c choice df = .ok (tm, ex)) : ∀ t ∈ tm.trans, t.bid < df.length := by
  obtain ⟨tm', R, h1, hR⟩ := p2p_run c choice df ht
  rw [h] at h1
  cases h1
  intro t htt
  rw [hR.loop.trans] at htt
  obtain ⟨p, hp, h2⟩ := tradeRound_bid _ _ _ _ t htt
  have h3 := hR.pair p hp
  rcases h2 with h2 | h2 <;> rw [h2]
  · exact lt_of_isBuy h3.1
  · exact lt_of_isSell h3.2

theorem getTradingBids_label {bids rows : DF} {q : ℚ} {k : ℕ}
    (h : getTradingBids bids q = .ok (rows, k)) : ∀ r ∈ rows, ∃ r' ∈ bids, r'.label = r.label := by
  unfold getTradingBids at h
  split at h
  · cases h
  simp only at h
  split at h
  · cases h
  · rename_i row hrow
    split at h
    · cases h
      intro r hr
      simp only [List.mem_append, List.mem_cons] at hr
      rcases hr with hr | rfl | rfl | hr
      · exact ⟨r, List.mem_of_mem_take hr, rfl⟩
      · exact ⟨row, List.mem_of_getElem? hrow, rfl⟩
      · exact ⟨row, List.mem_of_getElem? hrow, rfl⟩
      · exact ⟨r, List.mem_of_mem_drop hr, rfl⟩
    · cases h
      exact fun r hr => ⟨r, hr, rfl⟩

theorem tradingTrans_label {rows : DF} {k : ℕ} {p : ℚ} :
    ∀ t ∈ tradingTrans rows k p, ∃ r ∈ rows, t.bid = r.label := by
  intro t h
  rw [tradingTrans_eq] at h
  unfold mkTrans at h
  obtain ⟨r, hr, rfl⟩ := List.mem_map.mp h
  exact ⟨r, List.mem_of_mem_take hr, rfl⟩

theorem solveSide_label {S : Sorter} {bids : DF} {price : Val} {fees fees' : List ℚ}
    {tm : TransactionManager} (h : solveSide S bids price fees = .ok (tm, fees')) :
    ∀ t ∈ tm.trans, ∃ r ∈ bids, t.bid = r.label := by
  have hd : ∀ r ∈ willingDemand S bids price, r ∈ bids := by
    intro r hr
    unfold willingDemand at hr
    rw [(sortDesc_perm S _).mem_iff] at hr
    exact (List.mem_filter.mp (List.mem_filter.mp hr).1).1
  have hs : ∀ r ∈ willingSupply S bids price, r ∈ bids := by
    intro r hr
    unfold willingSupply at hr
    rw [(sortAsc_perm S _).mem_iff] at hr
    exact (List.mem_filter.mp (List.mem_filter.mp hr).1).1
  unfold solveSide at h
  split at h
  · cases h; intro t ht; cases ht
  split at h
  · cases h; intro t ht; cases ht
  have hl : ∀ b : Bool, ∀ r ∈ (if b then willingSupply S bids price else willingDemand S bids price),
      r ∈ bids := by
    intro b r hr
    cases b
    · exact hd r hr
    · exact hs r hr
  have hsh : ∀ b : Bool, ∀ r ∈ (if b then willingDemand S bids price else willingSupply S bids price),
      r ∈ bids := by
    intro b r hr
    cases b
    · exact hs r hr
    · exact hd r hr
  simp only at h
  have hl' := hl (decide (qsum (willingDemand S bids price) < qsum (willingSupply S bids price)))
  have hsh' := hsh (decide (qsum (willingDemand S bids price) < qsum (willingSupply S bids price)))
  generalize (if decide (qsum (willingDemand S bids price) < qsum (willingSupply S bids price))
    then willingSupply S bids price else willingDemand S bids price) = L at h hl'
  generalize (if decide (qsum (willingDemand S bids price) < qsum (willingSupply S bids price))
    then willingDemand S bids price else willingSupply S bids price) = L' at h hsh'
  generalize (if decide (qsum (willingDemand S bids price) < qsum (willingSupply S bids price))
    then qsum (willingDemand S bids price) else qsum (willingSupply S bids price)) = q at h
  have key : ∀ (l : DF), (∀ r ∈ l, r ∈ bids) → ∀ (q : ℚ) (x : DF × ℕ),
      getTradingBids l q = .ok x → ∀ (p : ℚ), ∀ t ∈ tradingTrans x.1 x.2 p,
        ∃ r ∈ bids, t.bid = r.label := by
    intro l hl q x hx p t htt
    obtain ⟨r, h1, h2⟩ := tradingTrans_label t htt
    obtain ⟨r', h3, h4⟩ := getTradingBids_label hx r h1
    exact ⟨r', hl r' h3, by rw [h2, h4]⟩
  split at h
  · simp only [bind, Except.bind] at h
    split at h
    · cases h
    · rename_i o ho
      split at h
      · cases h
      · rename_i o' ho'
        split at h
        · cases h
        · cases h
          intro t htt
          rw [TransactionManager.init_addAll_trans] at htt
          rcases List.mem_append.mp htt with htt | htt
          · exact key _ hsh' _ _ ho' _ t htt
          · exact key _ hl' _ _ ho _ t htt
  · cases h; intro t ht; cases ht

theorem muda_known {S : Sorter} {coin : ℕ → Bool} {df : DF} (ht : IsTable df)
    {tm : TransactionManager} {ex : Extra} (h : muda S coin df = .ok (tm, ex)) :
    ∀ t ∈ tm.trans, t.bid < df.length := by
  obtain ⟨left, right, pl, pr, fees, _, hr⟩ := muda_run ht h
  obtain ⟨tl, tr, f, h1, h2, h3⟩ := hr.sides
  intro t htt
  rw [h3] at htt
  rcases List.mem_append.mp htt with htt | htt
  · obtain ⟨r, hm, he⟩ := solveSide_label h1 t htt
    rw [he]; exact ht.label_lt (half_sub r hm)
  · obtain ⟨r, hm, he⟩ := solveSide_label h2 t htt
    rw [he]; exact ht.label_lt (half_sub r hm)

theorem splitAll_known {df : DF} {mp : List (List ℕ)} {ts ts' : List Transaction}
    (h : splitAll df mp ts = .ok ts') : ∀ t ∈ ts', t.bid < df.length := by
  induction ts generalizing ts' with
  | nil => cases h; intro t ht; cases ht
  | cons t ts ih =>
    simp only [splitAll, bind, Except.bind] at h
    split at h
    · cases h
    · rename_i l hl
      split at h
      · cases h
      · rename_i l' hl'
        cases h
        intro x hx
        rcases List.mem_append.mp hx with hx | hx
        · unfold splitOne at hl
          split at hl
          · cases hl
          · rename_i rows hrows
            simp only at hl
            split at hl
            · cases hl
            · rename_i hlen
              split at hl
              · cases hl
              · cases hl
                obtain ⟨p, hp, rfl⟩ := List.mem_map.mp hx
                have hmem := (List.of_mem_zip hp).1
                have hlen' : (rows.filterMap (fun i => df[i]?)).length = rows.length :=
                  not_not.mp hlen
                rw [List.length_filterMap_eq_countP, List.countP_eq_length] at hlen'
                have := hlen' p.1 hmem
                simpa using this
        · exact ih hl' x hx

theorem mechanism_known {smp : Sampler} {merge : Bool} {algo : Algo} {df : DF}
    (hmerge : merge = false → ∀ tm ex, algo df = .ok (tm, ex) → ∀ t ∈ tm.trans, t.bid < df.length)
    {tm : TransactionManager} {ex : Extra} (h : mechanism smp merge algo df = .ok (tm, ex)) :
    ∀ t ∈ tm.trans, t.bid < df.length := by
  unfold mechanism at h
  cases merge with
  | false =>
    simp only [Bool.false_eq_true, if_false] at h
    unfold mechRun at h
    simp only at h
    split at h
    · exact hmerge rfl tm ex h
    · cases h; intro t ht; cases ht
  | true =>
    simp only [if_true, bind, Except.bind] at h
    split at h
    · cases h
    · split at h
      · cases h
      · split at h
        · cases h
        · rename_i tm' htm'
          cases h
          unfold splitTransactions at htm'
          simp only [bind, Except.bind] at htm'
          split at htm'
          · cases htm'
          · rename_i ts' hts'
            cases htm'
            rw [TransactionManager.init_addAll_trans]
            exact splitAll_known hts'

/-- Whatever the book, every transaction of a run refers to a row of the bid table. -/
theorem run_known {S : Sorter} {smp : Sampler} {call : AlgoCall} {df : DF} (ht : IsTable df)
    {tm : TransactionManager} {ex : Extra} (h : runAlgo S smp call df = .ok (tm, ex)) :
    ∀ t ∈ tm.trans, t.bid < df.length := by
  cases call with
  | huang => exact mechanism_known (by intro hc; cases hc) h
  | muda merge coin => exact mechanism_known (fun _ tm ex h => muda_known ht h) h
  | p2p merge c choice => exact mechanism_known (fun _ tm ex h => p2p_known ht h) h
  | other name => cases h

end PyMarket
