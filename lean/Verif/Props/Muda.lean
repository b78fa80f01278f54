import Verif.Lemmas.MudaFees
import Verif.Lemmas.MudaReject
import Verif.Props.Profits
import Verif.Spec.Muda

/-! # C24–C32: MUDA -/

set_option autoImplicit false

namespace PyMarket

open Spec

/-- A book with users 0..7 (2 and 3 with several bids), split by `mudaCoin` in two halves that both
trade: the demand is long on the left, the supply on the right. -/
def mudaBook : DF :=
  [⟨⟨2, 10, 0, true, 0, true⟩, 0⟩, ⟨⟨1, 8, 1, true, 0, true⟩, 1⟩, ⟨⟨1, 7, 2, true, 0, true⟩, 2⟩,
   ⟨⟨2, 2, 3, false, 0, true⟩, 3⟩, ⟨⟨2, 3, 4, false, 0, true⟩, 4⟩,
   ⟨⟨2, 9, 5, true, 0, true⟩, 5⟩, ⟨⟨1, 6, 2, true, 0, true⟩, 6⟩, ⟨⟨3, 4, 6, false, 0, true⟩, 7⟩,
   ⟨⟨3, 5, 7, false, 0, true⟩, 8⟩, ⟨⟨1, 1, 3, false, 0, true⟩, 9⟩]

/-- See `mudaBook`. -/
def mudaCoin (i : ℕ) : Bool := decide (i ∈ [0, 1, 2, 3, 5, 7])

/-- The transactions of `mudaBook`. -/
def mudaTrans : List Transaction :=
  [⟨3, 2, 7 / 2, -1, false⟩, ⟨0, 2, 7 / 2, -1, false⟩, ⟨6, 1, 6, -1, false⟩, ⟨9, 1, 6, -1, false⟩]

/-- The hypotheses of the theorems below hold for `mudaBook`. -/
example : IsTable mudaBook ∧ NonNeg mudaBook ∧
    (∀ r ∈ mudaBook, 0 ≤ r.user ∧ r.user < ((mudaBook.map (fun r => r.user)).dedup.length : ℤ)) ∧
    muda stableSorter mudaCoin mudaBook = .ok (⟨4, mudaTrans⟩,
      .muda [0, 1, 2, 3, 5, 7] [4, 6, 8, 9] (.fin 6) (.fin (7 / 2)) [11, 0, 0, 3, 0, 0, 0, 0]) := by
  decide +kernel

section

variable {S : Sorter} {coin : ℕ → Bool} {df : DF} {tm : TransactionManager}
  {left right : List ℕ} {pl pr : Val} {fees : List ℚ}

theorem muda_run' (ht : IsTable df)
    (h : muda S coin df = .ok (tm, .muda left right pl pr fees)) :
    MudaRun S coin df tm left right pl pr fees := by
  obtain ⟨_, _, _, _, _, he, hr⟩ := muda_run ht h
  cases he
  exact hr

/-! ## C24 -/

/-- **C24.** The two halves partition the bid ids (bid `i` goes left exactly when the `i`-th coin
says so), the prices are the competitive prices of the halves alone, and a left bid trades at the
right price and a right bid at the left price. -/
theorem C24_halves (S : Sorter) (coin : ℕ → Bool) (df : DF) (ht : IsTable df) (hq : ∀ r ∈ df, 0 ≤ r.quantity)
    (tm : TransactionManager) (left right : List ℕ) (pl pr : Val) (fees : List ℚ)
    (h : muda S coin df = .ok (tm, .muda left right pl pr fees)) :
    (left ++ right).Perm (List.range df.length) ∧
    (∀ i, i ∈ left ↔ i < df.length ∧ coin i = true) ∧
    (∀ i, i ∈ right ↔ i < df.length ∧ coin i = false) ∧
    findCompetitivePrice S (half df left) = .ok pl ∧
    findCompetitivePrice S (half df right) = .ok pr ∧
    ∀ t ∈ tm.trans, (t.bid ∈ left ∧ pr = .fin t.price) ∨ (t.bid ∈ right ∧ pl = .fin t.price) := by
  have hr := muda_run' ht h
  obtain ⟨hsplit, hl, hrr⟩ := hr.halves ht hq
  refine ⟨?_, ?_, ?_, hr.priceLeft, hr.priceRight, ?_⟩
  · rw [hr.left_eq, hr.right_eq]
    exact List.filter_append_perm coin (List.range df.length)
  · intro i; rw [hr.left_eq]; simp
  · intro i; rw [hr.right_eq]; simp
  · intro t htt
    rw [hsplit] at htt
    rcases List.mem_append.mp htt with h1 | h1
    · left
      refine ⟨hl.bids t h1, ?_⟩
      rcases hl with ⟨he, _⟩ | ⟨p, hp, hh⟩
      · rw [he] at h1; cases h1
      · obtain ⟨_, _, _, _, _, h5, _⟩ := hh.mem t h1
        rw [h5]; exact hp
    · right
      refine ⟨hrr.bids t h1, ?_⟩
      rcases hrr with ⟨he, _⟩ | ⟨p, hp, hh⟩
      · rw [he] at h1; cases h1
      · obtain ⟨_, _, _, _, _, h5, _⟩ := hh.mem t h1
        rw [h5]; exact hp

theorem half_set {df : DF} {i : ℕ} {row : Row} {ids : List ℕ} (ht : IsTable df)
    (hl : row.label = i) (hi : i ∉ ids) : half (df.set i row) ids = half df ids := by
  unfold half
  rw [List.set_eq_take_append_cons_drop]
  split
  · rename_i hlt
    conv_rhs => rw [← List.take_append_drop i df, List.drop_eq_getElem_cons hlt]
    rw [List.filter_append, List.filter_append, List.filter_cons_of_neg (by simp [hl, hi]),
      List.filter_cons_of_neg]
    have := ht.label (List.getElem?_eq_getElem hlt)
    simp [this, hi]
  · rfl

/-- **C24, no influence.** Changing one's own bid in any way changes neither the split nor the price
at which the bid trades. -/
theorem C24_own_price (S : Sorter) (coin : ℕ → Bool) (df : DF) (i : ℕ) (row : Row) (ht : IsTable df)
    (hl : row.label = i) (ht' : IsTable (df.set i row))
    (tm tm' : TransactionManager) (left right left' right' : List ℕ) (pl pr pl' pr' : Val)
    (fees fees' : List ℚ)
    (h : muda S coin df = .ok (tm, .muda left right pl pr fees))
    (h' : muda S coin (df.set i row) = .ok (tm', .muda left' right' pl' pr' fees')) :
    left' = left ∧ right' = right ∧ (i ∈ left → pr' = pr) ∧ (i ∈ right → pl' = pl) := by
  have hr := muda_run' ht h
  have hr' := muda_run' ht' h'
  have e1 : left' = left := by rw [hr.left_eq, hr'.left_eq, List.length_set]
  have e2 : right' = right := by rw [hr.right_eq, hr'.right_eq, List.length_set]
  refine ⟨e1, e2, ?_, ?_⟩
  · intro hi
    have h1 := hr'.priceRight
    rw [e2, half_set ht hl (hr.disjoint i hi), hr.priceRight] at h1
    exact (Except.ok.inj h1).symm
  · intro hi
    have h1 := hr'.priceLeft
    rw [e1, half_set ht hl (fun hc => hr.disjoint i hc hi), hr.priceLeft] at h1
    exact (Except.ok.inj h1).symm

/-- The two reports of `C24_own_price`: bid 0 of `mudaBook` (left half) changed to 6 units at 9 still
sees the price 7/2, while the price of the other half changes from 6 to 9. -/
example : IsTable (mudaBook.set 0 ⟨⟨6, 9, 0, true, 0, true⟩, 0⟩) ∧
    muda stableSorter mudaCoin (mudaBook.set 0 ⟨⟨6, 9, 0, true, 0, true⟩, 0⟩) = .ok
      (⟨2, [⟨3, 2, 7 / 2, -1, false⟩, ⟨0, 2, 7 / 2, -1, false⟩]⟩,
        .muda [0, 1, 2, 3, 5, 7] [4, 6, 8, 9] (.fin 9) (.fin (7 / 2)) [11, 0, 0, 0, 0, 0, 0, 0]) := by
  decide +kernel

/-! ## C25 -/

theorem half_volume (ht : IsTable df) {ids : List ℕ} {v : Val} {ts : List Transaction}
    (h : HalfOutcome S (half df ids) v ts) :
    boughtQty df ts = soldQty df ts ∧ paid df ts = received df ts := by
  rcases h with ⟨rfl, _⟩ | ⟨p, _, hh⟩
  · exact ⟨rfl, rfl⟩
  · obtain ⟨h1, h2, h3, h4⟩ := hh.sums ht half_sub
    rw [h1, h2, h3, h4]; exact ⟨rfl, rfl⟩

/-- **C25.** In each half the bought quantity equals the sold quantity; every bid has at most one
transaction, with a quantity between 0 and that of the bid. -/
theorem C25_balance (S : Sorter) (coin : ℕ → Bool) (df : DF) (ht : IsTable df) (hq : ∀ r ∈ df, 0 ≤ r.quantity)
    (tm : TransactionManager) (left right : List ℕ) (pl pr : Val) (fees : List ℚ)
    (h : muda S coin df = .ok (tm, .muda left right pl pr fees)) :
    boughtQty df (tradesIn left tm.trans) = soldQty df (tradesIn left tm.trans) ∧
    boughtQty df (tradesIn right tm.trans) = soldQty df (tradesIn right tm.trans) ∧
    boughtQty df tm.trans = soldQty df tm.trans ∧
    (tm.trans.map (fun t => t.bid)).Nodup ∧
    ∀ t ∈ tm.trans, t.bid < df.length ∧ 0 ≤ t.quantity ∧ t.quantity ≤ qtyOf df t.bid ∧
      t.source = -1 ∧ t.active = false := by
  have hr := muda_run' ht h
  obtain ⟨hsplit, hl, hrr⟩ := hr.halves ht hq
  have v1 := half_volume ht hl
  have v2 := half_volume ht hrr
  refine ⟨v1.1, v2.1, ?_, ?_, ?_⟩
  · rw [hsplit, boughtQty_append, soldQty_append, v1.1, v2.1]
  · rw [hsplit, List.map_append, List.nodup_append]
    refine ⟨?_, ?_, ?_⟩
    · rcases hl with ⟨he, _⟩ | ⟨p, _, hh⟩
      · rw [he]; simp
      · exact hh.nodup (half_nodup ht left)
    · rcases hrr with ⟨he, _⟩ | ⟨p, _, hh⟩
      · rw [he]; simp
      · exact hh.nodup (half_nodup ht right)
    · intro a ha b hb hab
      obtain ⟨t, h1, rfl⟩ := List.mem_map.mp ha
      obtain ⟨t', h1', rfl⟩ := List.mem_map.mp hb
      exact hr.disjoint _ (hl.bids t h1) (hab ▸ hrr.bids t' h1')
  · intro t htt
    have key : ∃ r ∈ df, t.bid = r.label ∧ 0 ≤ t.quantity ∧ t.quantity ≤ r.quantity ∧
        t.source = -1 ∧ t.active = false := by
      rw [hsplit] at htt
      rcases List.mem_append.mp htt with h1 | h1
      · rcases hl with ⟨he, _⟩ | ⟨p, _, hh⟩
        · rw [he] at h1; cases h1
        · obtain ⟨r, h2, h3, h4, h5, _, h7, h8, _⟩ := hh.mem t h1
          exact ⟨r, half_sub r h2, h3, h4, h5, h7, h8⟩
      · rcases hrr with ⟨he, _⟩ | ⟨p, _, hh⟩
        · rw [he] at h1; cases h1
        · obtain ⟨r, h2, h3, h4, h5, _, h7, h8, _⟩ := hh.mem t h1
          exact ⟨r, half_sub r h2, h3, h4, h5, h7, h8⟩
    obtain ⟨r, h2, h3, h4, h5, h7, h8⟩ := key
    rw [h3, ht.qty_eq h2]
    exact ⟨ht.label_lt h2, h4, h5, h7, h8⟩

/-! ## C26 -/

/-- **C26, individual rationality.** A trading buyer bid at least, a trading seller at most the
price of the transaction. -/
theorem C26_rational (S : Sorter) (coin : ℕ → Bool) (df : DF) (ht : IsTable df) (hq : ∀ r ∈ df, 0 ≤ r.quantity)
    (tm : TransactionManager) (left right : List ℕ) (pl pr : Val) (fees : List ℚ)
    (h : muda S coin df = .ok (tm, .muda left right pl pr fees)) :
    ∀ t ∈ tm.trans, (isBuy df t.bid = true → t.price ≤ priceOf df t.bid) ∧
      (isSell df t.bid = true → priceOf df t.bid ≤ t.price) ∧
      (isBuy df t.bid = true ∨ isSell df t.bid = true) := by
  have hr := muda_run' ht h
  obtain ⟨hsplit, hl, hrr⟩ := hr.halves ht hq
  intro t htt
  have key : ∃ r ∈ df, t.bid = r.label ∧ (r.buying = true → t.price ≤ r.price) ∧
      (r.buying = false → r.price ≤ t.price) := by
    rw [hsplit] at htt
    rcases List.mem_append.mp htt with h1 | h1
    · rcases hl with ⟨he, _⟩ | ⟨p, _, hh⟩
      · rw [he] at h1; cases h1
      · obtain ⟨r, h2, h3, _, _, h6, _, _, h9⟩ := hh.mem t h1
        rw [h6]; exact ⟨r, half_sub r h2, h3, h9⟩
    · rcases hrr with ⟨he, _⟩ | ⟨p, _, hh⟩
      · rw [he] at h1; cases h1
      · obtain ⟨r, h2, h3, _, _, h6, _, _, h9⟩ := hh.mem t h1
        rw [h6]; exact ⟨r, half_sub r h2, h3, h9⟩
  obtain ⟨r, h2, h3, h4, h5⟩ := key
  rw [h3, ht.isBuy_eq h2, ht.isSell_eq h2, ht.price_eq h2]
  cases hb : r.buying
  · exact ⟨fun hc => absurd hc (by simp), fun _ => h5 hb, Or.inr rfl⟩
  · exact ⟨fun _ => h4 hb, fun hc => absurd hc (by simp), Or.inl rfl⟩

theorem tradedBy_tradesIn {ids : List ℕ} {ts : List Transaction} {i : ℕ} (hi : i ∈ ids) :
    tradedBy (tradesIn ids ts) i = tradedBy ts i := by
  unfold tradedBy tradesIn
  rw [List.filter_filter]
  congr 2
  apply List.filter_congr
  intro t _
  by_cases h : t.bid = i
  · simp [h, hi]
  · simp [h]

theorem half_label {ids : List ℕ} {r : Row} (hr : r ∈ half df ids) : r.label ∈ ids :=
  of_decide_eq_true (List.mem_filter.mp hr).2

theorem half_outcome_efficiency (ht : IsTable df) {ids : List ℕ} {p : ℚ}
    {ts : List Transaction} (h : HalfOutcome S (half df ids) (.fin p) (tradesIn ids ts)) :
    boughtQty df (tradesIn ids ts) = volumeAt (half df ids) p ∧
    ((tradesIn ids ts = [] ∧ volumeAt (half df ids) p = 0) ∨
    ((((willingBuyers (half df ids) p).map (fun r => r.quantity)).sum ≤
        ((willingSellers (half df ids) p).map (fun r => r.quantity)).sum →
      ∀ r ∈ willingBuyers (half df ids) p, tradedBy ts r.label = r.quantity) ∧
    (((willingSellers (half df ids) p).map (fun r => r.quantity)).sum ≤
        ((willingBuyers (half df ids) p).map (fun r => r.quantity)).sum →
      ∀ r ∈ willingSellers (half df ids) p, tradedBy ts r.label = r.quantity) ∧
    (∀ r ∈ willingBuyers (half df ids) p, ∀ r' ∈ willingBuyers (half df ids) p,
      r.price < r'.price → 0 < tradedBy ts r.label → tradedBy ts r'.label = r'.quantity) ∧
    (∀ r ∈ willingSellers (half df ids) p, ∀ r' ∈ willingSellers (half df ids) p,
      r'.price < r.price → 0 < tradedBy ts r.label → tradedBy ts r'.label = r'.quantity))) := by
  rcases h.finite rfl with ⟨h1, h2⟩ | hh
  · rw [h1, h2]
    exact ⟨rfl, Or.inl ⟨rfl, rfl⟩⟩
  · refine ⟨(hh.sums ht half_sub).1, Or.inr ?_⟩
    obtain ⟨tb, ob, eb⟩ := hh.tradedBy_buy (half_nodup ht ids)
    obtain ⟨tl, os, es⟩ := hh.tradedBy_sell (half_nodup ht ids)
    have pb := willingDemand_perm S (half df ids) p
    have ps := willingSupply_perm S (half df ids) p
    have hidb : ∀ r ∈ willingBuyers (half df ids) p, r.label ∈ ids := fun r hr =>
      half_label (List.mem_filter.mp hr).1
    have hids : ∀ r ∈ willingSellers (half df ids) p, r.label ∈ ids := fun r hr =>
      half_label (List.mem_filter.mp hr).1
    have hb' : ∀ r ∈ willingBuyers (half df ids) p,
        r ∈ willingDemand S (half df ids) (.fin p) ∧ tradedBy ts r.label = tradedBy tb r.label := by
      intro r hr
      have hm := pb.mem_iff.mpr hr
      exact ⟨hm, by rw [← eb r hm, tradedBy_tradesIn (hidb r hr)]⟩
    have hs' : ∀ r ∈ willingSellers (half df ids) p,
        r ∈ willingSupply S (half df ids) (.fin p) ∧ tradedBy ts r.label = tradedBy tl r.label := by
      intro r hr
      have hm := ps.mem_iff.mpr hr
      exact ⟨hm, by rw [← es r hm, tradedBy_tradesIn (hids r hr)]⟩
    have qb := qsum_perm pb
    have qs := qsum_perm ps
    refine ⟨?_, ?_, ?_, ?_⟩
    · intro hle r hr
      rw [(hb' r hr).2]
      apply ob.full _ r (hb' r hr).1
      unfold halfQty
      apply min_eq_left
      rw [qb, qs]; exact hle
    · intro hle r hr
      rw [(hs' r hr).2]
      apply os.full _ r (hs' r hr).1
      unfold halfQty
      apply min_eq_right
      rw [qb, qs]; exact hle
    · intro r hr r' hr' hlt hpos
      rw [(hb' r hr).2] at hpos
      rw [(hb' r' hr').2]
      exact ob.best r (hb' r hr).1 r' (hb' r' hr').1 (by unfold buyGain; linarith) hpos
    · intro r hr r' hr' hlt hpos
      rw [(hs' r hr).2] at hpos
      rw [(hs' r' hr').2]
      exact os.best r (hs' r hr).1 r' (hs' r' hr').1 (by unfold sellGain; linarith) hpos

/-- **C26, volume and priority.** A half trades exactly the volume both sides are willing to trade at
its price (nothing if the price is not a finite number). All willing bids of a side that is not longer
than the other trade in full, and a bid trades only when every strictly better priced bid of its side
trades in full. -/
theorem C26_efficient (S : Sorter) (coin : ℕ → Bool) (df : DF) (ht : IsTable df) (hq : ∀ r ∈ df, 0 ≤ r.quantity)
    (tm : TransactionManager) (left right : List ℕ) (pl pr : Val) (fees : List ℚ)
    (h : muda S coin df = .ok (tm, .muda left right pl pr fees)) (ids : List ℕ) (v : Val)
    (hids : (ids = left ∧ v = pr) ∨ (ids = right ∧ v = pl)) :
    ((∀ p, v ≠ .fin p) → tradesIn ids tm.trans = []) ∧
    ∀ p, v = .fin p →
      boughtQty df (tradesIn ids tm.trans) = volumeAt (half df ids) p ∧
      ((tradesIn ids tm.trans = [] ∧ volumeAt (half df ids) p = 0) ∨
      ((((willingBuyers (half df ids) p).map (fun r => r.quantity)).sum ≤
          ((willingSellers (half df ids) p).map (fun r => r.quantity)).sum →
        ∀ r ∈ willingBuyers (half df ids) p, tradedBy tm.trans r.label = r.quantity) ∧
      (((willingSellers (half df ids) p).map (fun r => r.quantity)).sum ≤
          ((willingBuyers (half df ids) p).map (fun r => r.quantity)).sum →
        ∀ r ∈ willingSellers (half df ids) p, tradedBy tm.trans r.label = r.quantity) ∧
      (∀ r ∈ willingBuyers (half df ids) p, ∀ r' ∈ willingBuyers (half df ids) p,
        r.price < r'.price → 0 < tradedBy tm.trans r.label →
          tradedBy tm.trans r'.label = r'.quantity) ∧
      (∀ r ∈ willingSellers (half df ids) p, ∀ r' ∈ willingSellers (half df ids) p,
        r'.price < r.price → 0 < tradedBy tm.trans r.label →
          tradedBy tm.trans r'.label = r'.quantity))) := by
  have hr := muda_run' ht h
  obtain ⟨hsplit, hl, hrr⟩ := hr.halves ht hq
  have ho : HalfOutcome S (half df ids) v (tradesIn ids tm.trans) := by
    rcases hids with ⟨rfl, rfl⟩ | ⟨rfl, rfl⟩
    · exact hl
    · exact hrr
  refine ⟨?_, ?_⟩
  · intro hv
    rcases ho with ⟨he, _⟩ | ⟨p, hp, _⟩
    · exact he
    · exact absurd hp (hv p)
  · rintro p rfl
    exact half_outcome_efficiency ht ho

/-- In `mudaBook` the left half is willing to buy 6 and to sell 2 at 7/2 (bid 0 at price 10 takes it
all), the right half is willing to buy 1 and to sell 6 at 6. -/
example : volumeAt (half mudaBook [0, 1, 2, 3, 5, 7]) (7 / 2) = 2 ∧
    qsum (willingBuyers (half mudaBook [0, 1, 2, 3, 5, 7]) (7 / 2)) = 6 ∧
    volumeAt (half mudaBook [4, 6, 8, 9]) 6 = 1 ∧
    qsum (willingSellers (half mudaBook [4, 6, 8, 9]) 6) = 6 := by
  decide +kernel

end

/-! ## C27 -/

theorem halfTrade_of_ne_nil {S : Sorter} {H : DF} {v : Val} {ts : List Transaction}
    (h : HalfOutcome S H v ts) (hne : ts ≠ []) {p : ℚ} (hv : v = .fin p) : HalfTrade S H p ts := by
  rcases h.finite hv with ⟨h1, _⟩ | h1
  · exact absurd h1 hne
  · exact h1

theorem tradesLong_iff {S : Sorter} {H : DF} {p : ℚ} {ts : List Transaction} {u : ℤ} :
    TradesLong H p ts u ↔ ∃ t ∈ ts, ∃ r ∈ longRows S H p, r.label = t.bid ∧ r.user = u := by
  unfold TradesLong
  simp only [(longRows_perm S H p).mem_iff]

theorem halfFees_spec {S : Sorter} {H : DF} (hn : (H.map (fun r => r.label)).Nodup)
    (hq : ∀ r ∈ H, 0 ≤ r.quantity) {v : Val} {ts : List Transaction} {fees fees' : List ℚ}
    (hf : HalfFees S H v ts fees fees') (ho : HalfOutcome S H v ts) {p : ℚ} (hv : v = .fin p)
    (u : ℕ) (hu : u < fees.length) :
    (TradesLong H p ts u → ∃ x, fees'[u]? = some x ∧ IsExternality H p ts u x) ∧
    (¬ TradesLong H p ts u → fees'[u]? = fees[u]?) := by
  by_cases hne : ts = []
  · subst hne
    refine ⟨?_, fun _ => by rw [hf.none rfl]⟩
    rintro ⟨t, ht, _⟩
    cases ht
  · have hh := halfTrade_of_ne_nil ho hne hv
    have e := hf.fee p hv hh u hu
    constructor
    · intro ht
      rw [if_pos (tradesLong_iff.mp ht)] at e
      exact ⟨_, e, sideExt_isExternality hn hq p ts u⟩
    · intro ht
      rw [if_neg (fun hc => ht (tradesLong_iff.mpr hc))] at e
      exact e

/-- **C27, one half.** `solve_market_side_with_exogenous_price`, for any price and any fee array in
which the users of the half have a position: the half returns; nobody's fee changes unless the user
has a transaction on the long side, and such a user's fee becomes the externality, which is
non-negative. (For users without transaction on the long side the externality is 0, so charging them
nothing is also the Vickrey fee.) -/
theorem C27_half (S : Sorter) (H : DF) (hn : (H.map (fun r => r.label)).Nodup)
    (hq : ∀ r ∈ H, 0 ≤ r.quantity) (v : Val) (fees : List ℚ)
    (hu : ∀ r ∈ H, 0 ≤ r.user ∧ r.user < fees.length) :
    ∃ tm fees', solveSide S H v fees = .ok (tm, fees') ∧ fees'.length = fees.length ∧
      (tm.trans = [] → fees' = fees) ∧
      ∀ p, v = .fin p → tm.trans ≠ [] → ∀ u : ℕ, u < fees.length →
        (TradesLong H p tm.trans u →
          ∃ x, fees'[u]? = some x ∧ IsExternality H p tm.trans u x ∧ 0 ≤ x) ∧
        (¬ TradesLong H p tm.trans u →
          fees'[u]? = fees[u]? ∧ IsExternality H p tm.trans u 0) := by
  obtain ⟨tm, fees', h1, h2⟩ := solveSide_fees S hn hq v hu
  refine ⟨tm, fees', h1, h2.length, h2.none, ?_⟩
  intro p hv hne u huu
  have ho : HalfOutcome S H v tm.trans := by
    rcases solveSide_trades S hn hq h1 with ⟨e1, _, e2⟩ | e1
    · exact Or.inl ⟨e1, fun p hp => by rw [← halfQty_eq S]; exact e2 p hp⟩
    · exact Or.inr e1
  have hh := halfTrade_of_ne_nil ho hne hv
  obtain ⟨f1, f2⟩ := halfFees_spec hn hq h2 ho hv u huu
  constructor
  · intro ht
    obtain ⟨x, hx1, hx2⟩ := f1 ht
    exact ⟨x, hx1, hx2, (externality_nonneg hn hq hh hx2).1⟩
  · intro ht
    refine ⟨f2 ht, ?_⟩
    have hx := sideExt_isExternality (S := S) hn hq p tm.trans u
    have hz := (externality_nonneg hn hq hh hx).2.2 ht
    rw [hz] at hx
    exact hx

/-- Without competition, i.e. when all other bids of the long side trade in full anyway, the
externality is 0. -/
theorem C27_no_competition (H : DF) (p : ℚ) (ts : List Transaction) (u : ℤ) (x : ℚ)
    (hx : IsExternality H p ts u x) (hx0 : 0 ≤ x)
    (hfull : ∀ r ∈ longSide H p, r.user ≠ u → tradedBy ts r.label = r.quantity) : x = 0 := by
  obtain ⟨W, hW, rfl⟩ := hx
  refine le_antisymm ?_ hx0
  obtain ⟨a, ha1, _, rfl⟩ := hW.1
  have : ((others (longSide H p) u).map (fun r => unitGain p r * a r.label)).sum ≤
      gainIn (others (longSide H p) u) p ts := by
    apply List.sum_le_sum
    intro r hr
    have hm := List.mem_filter.mp hr
    have hf := hfull r hm.1 (of_decide_eq_true hm.2)
    have hg : 0 ≤ unitGain p r := by
      have hl := hm.1
      unfold longSide at hl
      split at hl
      · have := (List.mem_filter.mp hl).2
        simp only [Bool.and_eq_true, Bool.not_eq_true', decide_eq_true_eq] at this
        unfold unitGain; rw [this.1]; simp only [Bool.false_eq_true, if_false]; linarith [this.2]
      · have := (List.mem_filter.mp hl).2
        simp only [Bool.and_eq_true, decide_eq_true_eq] at this
        unfold unitGain; rw [this.1]; simp only [if_true]; linarith [this.2]
    rw [hf]
    exact mul_le_mul_of_nonneg_left (ha1 r hr).2 hg
  linarith

/-- User ids that are valid positions of the fee array: `0 ≤ user < number of users`. -/
def Spec.UsersInRange (df : DF) : Prop :=
  ∀ r ∈ df, 0 ≤ r.user ∧ r.user < ((df.map (fun r => r.user)).dedup.length : ℤ)

instance (df : DF) : Decidable (UsersInRange df) := by unfold UsersInRange; infer_instance

/-- What the fees of a run are, half by half. -/
theorem muda_fees {S : Sorter} {coin : ℕ → Bool} {df : DF} (ht : IsTable df) (hq : ∀ r ∈ df, 0 ≤ r.quantity)
    (hu : UsersInRange df) {tm : TransactionManager} {left right : List ℕ} {pl pr : Val}
    {fees : List ℚ} (hr : MudaRun S coin df tm left right pl pr fees) :
    ∃ fees', HalfFees S (half df left) pr (tradesIn left tm.trans)
        (List.replicate (df.map (fun r => r.user)).dedup.length (0 : ℚ)) fees' ∧
      HalfFees S (half df right) pl (tradesIn right tm.trans) fees' fees := by
  obtain ⟨hsplit, ol, or⟩ := hr.halves ht hq
  obtain ⟨tl, tr, f', hl, hrr, he⟩ := hr.sides
  obtain ⟨tl', f1, e1, e2⟩ := solveSide_fees S (half_nodup ht left)
    (fun r h => hq r (half_sub r h)) pr
    (fees := List.replicate (df.map (fun r => r.user)).dedup.length (0 : ℚ))
    (by rw [List.length_replicate]; exact fun r h => hu r (half_sub r h))
  rw [hl] at e1
  cases e1
  obtain ⟨tr', f2, e3, e4⟩ := solveSide_fees S (half_nodup ht right)
    (fun r h => hq r (half_sub r h)) pl (fees := f')
    (by rw [e2.length, List.length_replicate]; exact fun r h => hu r (half_sub r h))
  rw [hrr] at e3
  cases e3
  have hbl : ∀ t ∈ tl.trans, t.bid ∈ left := by
    rcases solveSide_trades S (half_nodup ht left) (fun r h => hq r (half_sub r h)) hl with
      ⟨e, _⟩ | ⟨p, _, e⟩
    · rw [e]; intro t h; cases h
    · intro t h
      obtain ⟨r, h1, h2, _⟩ := e.mem t h
      rw [h2]; exact half_label h1
  have hbr : ∀ t ∈ tr.trans, t.bid ∈ right := by
    rcases solveSide_trades S (half_nodup ht right) (fun r h => hq r (half_sub r h)) hrr with
      ⟨e, _⟩ | ⟨p, _, e⟩
    · rw [e]; intro t h; cases h
    · intro t h
      obtain ⟨r, h1, h2, _⟩ := e.mem t h
      rw [h2]; exact half_label h1
  have hd := hr.disjoint
  have x1 : tradesIn left tm.trans = tl.trans := by
    unfold tradesIn
    rw [he, List.filter_append, List.filter_eq_self.mpr (fun t ht => decide_eq_true (hbl t ht)),
      List.filter_eq_nil_iff.mpr, List.append_nil]
    intro t ht
    simp only [decide_eq_true_eq]
    exact fun hc => hd _ hc (hbr t ht)
  have x2 : tradesIn right tm.trans = tr.trans := by
    unfold tradesIn
    rw [he, List.filter_append, List.filter_eq_self.mpr (fun t ht => decide_eq_true (hbr t ht)),
      List.filter_eq_nil_iff.mpr, List.nil_append]
    intro t ht
    simp only [decide_eq_true_eq]
    exact fun hc => hd _ (hbl t ht) hc
  rw [x1, x2]
  exact ⟨f', e2, e4⟩

/-- User `u` owes `x` for the half `H` trading `ts` at the price `v`. -/
def Spec.Owes (H : DF) (v : Val) (ts : List Transaction) (u : ℤ) (x : ℚ) : Prop :=
  (∃ p, v = .fin p ∧ TradesLong H p ts u ∧ IsExternality H p ts u x) ∨
  ((∀ p, v = .fin p → ¬ TradesLong H p ts u) ∧ x = 0)

/-- **C27, run.** The reported fees: one per user; user `u`'s fee is what `u` owes for the right half
if `u` has a transaction on the long side there, and otherwise what `u` owes for the left half. -/
theorem C27_fees (S : Sorter) (coin : ℕ → Bool) (df : DF) (ht : IsTable df) (hq : ∀ r ∈ df, 0 ≤ r.quantity)
    (hu : UsersInRange df)
    (tm : TransactionManager) (left right : List ℕ) (pl pr : Val) (fees : List ℚ)
    (h : muda S coin df = .ok (tm, .muda left right pl pr fees)) :
    fees.length = (df.map (fun r => r.user)).dedup.length ∧
    ∀ u : ℕ, u < fees.length → ∃ x, fees[u]? = some x ∧ 0 ≤ x ∧
      ((∃ p, pl = .fin p ∧ TradesLong (half df right) p (tradesIn right tm.trans) u ∧
          IsExternality (half df right) p (tradesIn right tm.trans) u x) ∨
       ((∀ p, pl = .fin p → ¬ TradesLong (half df right) p (tradesIn right tm.trans) u) ∧
          Owes (half df left) pr (tradesIn left tm.trans) u x)) := by
  have hr := muda_run' ht h
  obtain ⟨hsplit, ol, or⟩ := hr.halves ht hq
  obtain ⟨fees', f1, f2⟩ := muda_fees ht hq hu hr
  have hlen : fees.length = (df.map (fun r => r.user)).dedup.length := by
    rw [f2.length, f1.length, List.length_replicate]
  refine ⟨hlen, ?_⟩
  intro u huu
  have hget : ∃ x, fees[u]? = some x ∧ 0 ≤ x :=
    ⟨_, List.getElem?_eq_getElem huu, hr.fees_nonneg ht hq _ (List.getElem_mem huu)⟩
  obtain ⟨x, hx, hx0⟩ := hget
  refine ⟨x, hx, hx0, ?_⟩
  have hnone : ∀ {H : DF} {v : Val} {ts : List Transaction} {f f' : List ℚ},
      HalfFees S H v ts f f' → HalfOutcome S H v ts → (∀ p, v ≠ .fin p) → f' = f := by
    intro H v ts f f' hf ho hv
    apply hf.none
    rcases ho with ⟨e, _⟩ | ⟨p, hp, _⟩
    · exact e
    · exact absurd hp (hv p)
  have hright : (∃ p, pl = .fin p ∧ TradesLong (half df right) p (tradesIn right tm.trans) u ∧
      IsExternality (half df right) p (tradesIn right tm.trans) u x) ∨
      ((∀ p, pl = .fin p → ¬ TradesLong (half df right) p (tradesIn right tm.trans) u) ∧
        fees'[u]? = some x) := by
    by_cases hfin : ∃ p, pl = .fin p
    · obtain ⟨p, hp⟩ := hfin
      obtain ⟨g1, g2⟩ := halfFees_spec (half_nodup ht right) (fun r h => hq r (half_sub r h)) f2 or hp u
        (by rw [← f2.length]; exact huu)
      by_cases htl : TradesLong (half df right) p (tradesIn right tm.trans) u
      · left
        obtain ⟨y, hy1, hy2⟩ := g1 htl
        rw [hx] at hy1
        cases hy1
        exact ⟨p, hp, htl, hy2⟩
      · right
        refine ⟨?_, by rw [← g2 htl]; exact hx⟩
        intro p' hp'
        rw [hp] at hp'
        cases hp'
        exact htl
    · right
      push Not at hfin
      refine ⟨fun p hp => absurd hp (hfin p), ?_⟩
      rw [← hnone f2 or hfin]; exact hx
  rcases hright with h1 | ⟨h1, h2⟩
  · exact Or.inl h1
  · right
    refine ⟨h1, ?_⟩
    have hz : (List.replicate (df.map (fun r => r.user)).dedup.length (0 : ℚ))[u]? = some 0 := by
      rw [List.getElem?_replicate, if_pos (by rw [← hlen]; exact huu)]
    by_cases hfin : ∃ p, pr = .fin p
    · obtain ⟨p, hp⟩ := hfin
      obtain ⟨g1, g2⟩ := halfFees_spec (half_nodup ht left) (fun r h => hq r (half_sub r h)) f1 ol hp u
        (by rw [List.length_replicate, ← hlen]; exact huu)
      by_cases htl : TradesLong (half df left) p (tradesIn left tm.trans) u
      · left
        obtain ⟨y, hy1, hy2⟩ := g1 htl
        rw [h2] at hy1
        cases hy1
        exact ⟨p, hp, htl, hy2⟩
      · right
        refine ⟨?_, ?_⟩
        · intro p' hp'
          rw [hp] at hp'
          cases hp'
          exact htl
        · have := g2 htl
          rw [h2, hz] at this
          exact Option.some.inj this
    · right
      push Not at hfin
      refine ⟨fun p hp => absurd hp (hfin p), ?_⟩
      rw [hnone f1 ol hfin, hz] at h2
      exact (Option.some.inj h2).symm

/-- In the left half of `mudaBook` user 0 takes the whole volume 2 at price 7/2; the best others could
do with it is bid 5 at price 9, a gain of 11; they now gain nothing. -/
example : TradesLong (half mudaBook [0, 1, 2, 3, 5, 7]) (7 / 2) mudaTrans 0 ∧
    gainIn (others (longSide (half mudaBook [0, 1, 2, 3, 5, 7]) (7 / 2)) 0) (7 / 2) mudaTrans = 0 := by
  refine ⟨⟨⟨0, 2, 7 / 2, -1, false⟩, by decide +kernel, ⟨⟨2, 10, 0, true, 0, true⟩, 0⟩, ?_⟩, ?_⟩ <;>
    decide +kernel

/-! ## C28 -/

/-- The surplus of a user, transaction by transaction. -/
theorem surplusOf_eq (df : DF) (price : ℕ → ℚ) (u : ℤ) (ts : List Transaction) :
    surplusOf df price u ts = (ts.map (fun t => if ownedBy df u t.bid then
      (if isBuy df t.bid then t.quantity * (price t.bid - t.price) else 0) +
      (if isSell df t.bid then t.quantity * (t.price - price t.bid) else 0) else 0)).sum := by
  induction ts with
  | nil => simp [surplusOf, boughtValue, soldValue, paid, received, transOf]
  | cons t ts ih =>
    rw [List.map_cons, List.sum_cons, ← ih]
    simp only [surplusOf, transOf, boughtValue, soldValue, paid, received]
    by_cases ho : ownedBy df u t.bid = true <;> by_cases hb : isBuy df t.bid = true <;>
      by_cases hs : isSell df t.bid = true <;>
      simp [ho, hb, hs] <;> ring

theorem half_surplus {S : Sorter} {df : DF} (ht : IsTable df) {ids : List ℕ} {p : ℚ}
    {ts : List Transaction} (hh : HalfTrade S (half df ids) p ts) (u : ℤ) :
    gainIn (own (longSide (half df ids) p) u) p ts ≤ surplusOf df (priceOf df) u ts ∧
    0 ≤ surplusOf df (priceOf df) u ts := by
  have hterm : ∀ t ∈ ts, 0 ≤ (if isBuy df t.bid then t.quantity * (priceOf df t.bid - t.price) else 0) +
      (if isSell df t.bid then t.quantity * (t.price - priceOf df t.bid) else 0) := by
    intro t htt
    obtain ⟨r, hr, h1, h2, _, h4, _, _, h7, h8⟩ := hh.mem t htt
    have hr' := half_sub r hr
    rw [h1, ht.isBuy_eq hr', ht.isSell_eq hr', ht.price_eq hr', h4]
    cases hb : r.buying
    · have := mul_nonneg h2 (sub_nonneg.mpr (h8 hb)); simpa using this
    · have := mul_nonneg h2 (sub_nonneg.mpr (h7 hb)); simpa using this
  have hlong : ∀ r ∈ longSide (half df ids) p, r ∈ half df ids := by
    intro r hr
    unfold longSide at hr
    split at hr <;> exact (List.mem_filter.mp hr).1
  rw [surplusOf_eq]
  constructor
  · have hG : gainIn (own (longSide (half df ids) p) u) p ts =
        ((own (longSide (half df ids) p) u).map (fun r =>
          (fun i => if isBuy df i then priceOf df i - p else p - priceOf df i) r.label *
            tradedBy ts r.label)).sum := by
      unfold gainIn
      congr 1
      apply List.map_congr_left
      intro r hr
      have hr' := half_sub r (hlong r (List.mem_filter.mp hr).1)
      simp only [ht.isBuy_eq hr', ht.price_eq hr']
      rfl
    have hnd : ((own (longSide (half df ids) p) u).map (fun r => r.label)).Nodup := by
      have : ((longSide (half df ids) p).map (fun r => r.label)).Nodup := by
        unfold longSide
        split <;> exact (half_nodup ht ids).sublist (List.filter_sublist.map _)
      exact this.sublist (List.filter_sublist.map _)
    rw [hG, sum_tradedBy hnd (fun i => if isBuy df i then priceOf df i - p else p - priceOf df i)]
    apply List.sum_le_sum
    intro t htt
    by_cases hm : t.bid ∈ (own (longSide (half df ids) p) u).map (fun r => r.label)
    · rw [if_pos hm]
      obtain ⟨r, hr, hl⟩ := List.mem_map.mp hm
      have hr2 := List.mem_filter.mp hr
      have hr' := half_sub r (hlong r hr2.1)
      obtain ⟨_, _, _, _, _, h4, _⟩ := hh.mem t htt
      have ho : ownedBy df u t.bid = true := by
        rw [← hl]
        unfold ownedBy
        rw [ht.get_label hr']
        simpa using hr2.2
      rw [if_pos ho, ← hl, ht.isBuy_eq hr', ht.isSell_eq hr', h4]
      cases hb : r.buying
      · simp; linarith
      · simp; linarith
    · rw [if_neg hm]
      split
      · exact hterm t htt
      · exact le_refl _
  · apply List.sum_nonneg
    intro v hv
    obtain ⟨t, htt, rfl⟩ := List.mem_map.mp hv
    split
    · exact hterm t htt
    · exact le_refl _

/-- **C28, one half.** The fee of a half never exceeds the gain of the user's own bids there. -/
theorem C28_half (S : Sorter) (H : DF) (hn : (H.map (fun r => r.label)).Nodup)
    (hq : ∀ r ∈ H, 0 ≤ r.quantity) (v : Val) (fees fees' : List ℚ) (tm : TransactionManager)
    (h : solveSide S H v fees = .ok (tm, fees')) (p : ℚ) (hv : v = .fin p) (hne : tm.trans ≠ [])
    (u : ℤ) (x : ℚ) (hx : IsExternality H p tm.trans u x) :
    x ≤ gainIn (own (longSide H p) u) p tm.trans := by
  have ho : HalfOutcome S H v tm.trans := by
    rcases solveSide_trades S hn hq h with ⟨e1, _, e2⟩ | e1
    · exact Or.inl ⟨e1, fun p hp => by rw [← halfQty_eq S]; exact e2 p hp⟩
    · exact Or.inr e1
  exact (externality_nonneg hn hq (halfTrade_of_ne_nil ho hne hv) hx).2.1

theorem surplusOf_append (df : DF) (price : ℕ → ℚ) (u : ℤ) (l l' : List Transaction) :
    surplusOf df price u (l ++ l') = surplusOf df price u l + surplusOf df price u l' := by
  simp only [surplusOf_eq, List.map_append, List.sum_append]

/-- **C28.** After a MUDA run no user pays a fee above the surplus obtained (at bid prices): a user
who bids the true values is never worse off than by not participating. -/
theorem C28_participation (S : Sorter) (coin : ℕ → Bool) (df : DF) (ht : IsTable df) (hq : ∀ r ∈ df, 0 ≤ r.quantity)
    (hu : UsersInRange df)
    (tm : TransactionManager) (left right : List ℕ) (pl pr : Val) (fees : List ℚ)
    (h : muda S coin df = .ok (tm, .muda left right pl pr fees)) (u : ℕ) (x : ℚ)
    (hx : fees[u]? = some x) : 0 ≤ surplusOf df (priceOf df) u tm.trans - x := by
  have hr := muda_run' ht h
  obtain ⟨hsplit, ol, or⟩ := hr.halves ht hq
  have huu : u < fees.length := by
    by_contra hc
    rw [List.getElem?_eq_none (not_lt.mp hc)] at hx
    cases hx
  obtain ⟨_, hall⟩ := C27_fees S coin df ht hq hu tm left right pl pr fees h
  obtain ⟨y, hy1, _, hy2⟩ := hall u huu
  rw [hx] at hy1
  cases hy1
  have hsur : ∀ {ids : List ℕ} {v : Val} {ts : List Transaction},
      HalfOutcome S (half df ids) v ts → 0 ≤ surplusOf df (priceOf df) u ts := by
    intro ids v ts ho
    rcases ho with ⟨rfl, _⟩ | ⟨p, _, hh⟩
    · rw [surplusOf_eq]; simp
    · exact (half_surplus ht hh u).2
  have hfee : ∀ {ids : List ℕ} {v : Val} {ts : List Transaction} {p : ℚ},
      HalfOutcome S (half df ids) v ts → v = .fin p → TradesLong (half df ids) p ts u →
      IsExternality (half df ids) p ts u x → x ≤ surplusOf df (priceOf df) u ts := by
    intro ids v ts p ho hv htl hext
    have hne : ts ≠ [] := by
      rintro rfl
      obtain ⟨t, h1, _⟩ := htl
      cases h1
    have hh := halfTrade_of_ne_nil ho hne hv
    exact ((externality_nonneg (half_nodup ht ids) (fun r h => hq r (half_sub r h)) hh hext).2.1).trans
      (half_surplus ht hh u).1
  rw [hsplit, surplusOf_append]
  have s1 := hsur ol
  have s2 := hsur or
  rcases hy2 with ⟨p, hp, htl, hext⟩ | ⟨_, ⟨p, hp, htl, hext⟩ | ⟨_, rfl⟩⟩
  · have := hfee or hp htl hext; linarith
  · have := hfee ol hp htl hext; linarith
  · linarith

/-- User 0 of `mudaBook` pays a fee of 11 out of a surplus of 13, user 3 pays 3 out of 8. -/
example : surplusOf mudaBook (priceOf mudaBook) 0 mudaTrans = 13 ∧
    surplusOf mudaBook (priceOf mudaBook) 3 mudaTrans = 8 := by decide +kernel

/-! ## C29 -/

/-- **C29.** The market maker's profit after a MUDA run is exactly the sum of the fees, and it is
non-negative. -/
theorem C29_market_profit (S : Sorter) (coin : ℕ → Bool) (df : DF) (ht : IsTable df) (hq : ∀ r ∈ df, 0 ≤ r.quantity)
    (tm : TransactionManager) (left right : List ℕ) (pl pr : Val) (fees : List ℚ)
    (h : muda S coin df = .ok (tm, .muda left right pl pr fees)) (res : Option ResPrices) :
    (calculateProfits df tm.trans res (some fees)).1.market = fees.sum ∧ 0 ≤ fees.sum ∧
      ∀ x ∈ fees, 0 ≤ x := by
  have hr := muda_run' ht h
  obtain ⟨hsplit, ol, or⟩ := hr.halves ht hq
  have h0 := hr.fees_nonneg ht hq
  refine ⟨?_, List.sum_nonneg h0, h0⟩
  rw [market_profit ht, hsplit, paid_append, received_append, (half_volume ht ol).2,
    (half_volume ht or).2]
  simp

example : (calculateProfits mudaBook mudaTrans none (some [11, 0, 0, 3, 0, 0, 0, 0])).1.market =
    14 := by decide +kernel

/-! ## C30 -/

/-- The full claim of C30: every user's reported fee is the sum of what the user owes for the two
halves. -/
def Spec.ChargesBothHalves (df : DF) (tm : TransactionManager) (left right : List ℕ) (pl pr : Val)
    (fees : List ℚ) : Prop :=
  ∀ u : ℕ, u < fees.length → ∃ xl xr, Owes (half df left) pr (tradesIn left tm.trans) u xl ∧
    Owes (half df right) pl (tradesIn right tm.trans) u xr ∧ fees[u]? = some (xl + xr)

theorem externality_unique {H : DF} {p : ℚ} {ts : List Transaction} {u : ℤ} {x y : ℚ}
    (hx : IsExternality H p ts u x) (hy : IsExternality H p ts u y) : x = y := by
  obtain ⟨W, hW, rfl⟩ := hx
  obtain ⟨W', hW', rfl⟩ := hy
  rw [hW.unique hW']

/-- **C30, partial.** The claim holds for every user who does not trade on the long side of both
halves. Missing: users who do (see `C30_refuted`): the code overwrites the fee of the left half. -/
theorem C30_fee_total_partial (S : Sorter) (coin : ℕ → Bool) (df : DF) (ht : IsTable df)
    (hq : ∀ r ∈ df, 0 ≤ r.quantity) (hu : UsersInRange df)
    (tm : TransactionManager) (left right : List ℕ) (pl pr : Val) (fees : List ℚ)
    (h : muda S coin df = .ok (tm, .muda left right pl pr fees)) (u : ℕ) (huu : u < fees.length)
    (hone : ¬ ((∃ p, pr = .fin p ∧ TradesLong (half df left) p (tradesIn left tm.trans) u) ∧
      (∃ p, pl = .fin p ∧ TradesLong (half df right) p (tradesIn right tm.trans) u))) :
    ∃ xl xr, Owes (half df left) pr (tradesIn left tm.trans) u xl ∧
      Owes (half df right) pl (tradesIn right tm.trans) u xr ∧ fees[u]? = some (xl + xr) := by
  obtain ⟨_, hall⟩ := C27_fees S coin df ht hq hu tm left right pl pr fees h
  obtain ⟨x, hx1, _, hx2⟩ := hall u huu
  rcases hx2 with ⟨p, hp, htl, hext⟩ | ⟨hno, howe⟩
  · refine ⟨0, x, Or.inr ⟨?_, rfl⟩, Or.inl ⟨p, hp, htl, hext⟩, by rw [zero_add]; exact hx1⟩
    intro p' hp' htl'
    exact hone ⟨⟨p', hp', htl'⟩, ⟨p, hp, htl⟩⟩
  · exact ⟨x, 0, howe, Or.inr ⟨hno, rfl⟩, by rw [add_zero]; exact hx1⟩

theorem Spec.Owes.unique {H : DF} {v : Val} {ts : List Transaction} {u : ℤ} {x y : ℚ}
    (hx : Owes H v ts u x) (hy : Owes H v ts u y) : x = y := by
  rcases hx with ⟨p, hp, h1, h2⟩ | ⟨h1, rfl⟩
  · rcases hy with ⟨p', hp', h1', h2'⟩ | ⟨h1', _⟩
    · rw [hp] at hp'
      cases hp'
      exact externality_unique h2 h2'
    · exact absurd h1 (h1' p hp)
  · rcases hy with ⟨p', hp', h1', h2'⟩ | ⟨_, rfl⟩
    · exact absurd h1' (h1 p' hp')
    · rfl

/-- **C30, exactly.** What a user is charged differs from what the user owes for both halves by
exactly the amount owed for the left half, if the user trades on the long side of the right half, and
not at all otherwise. So the claim fails exactly for the users who trade on the long side of the right
half and owe something for the left one. -/
theorem C30_exact (S : Sorter) (coin : ℕ → Bool) (df : DF) (ht : IsTable df)
    (hq : ∀ r ∈ df, 0 ≤ r.quantity) (hu : UsersInRange df)
    (tm : TransactionManager) (left right : List ℕ) (pl pr : Val) (fees : List ℚ)
    (h : muda S coin df = .ok (tm, .muda left right pl pr fees)) (u : ℕ) (huu : u < fees.length)
    (xl xr : ℚ) (hxl : Owes (half df left) pr (tradesIn left tm.trans) u xl)
    (hxr : Owes (half df right) pl (tradesIn right tm.trans) u xr) :
    ((∃ p, pl = .fin p ∧ TradesLong (half df right) p (tradesIn right tm.trans) u) →
      fees[u]? = some xr) ∧
    ((∀ p, pl = .fin p → ¬ TradesLong (half df right) p (tradesIn right tm.trans) u) →
      fees[u]? = some (xl + xr)) := by
  obtain ⟨_, hall⟩ := C27_fees S coin df ht hq hu tm left right pl pr fees h
  obtain ⟨x, hx1, _, hx2⟩ := hall u huu
  constructor
  · rintro ⟨p, hp, htl⟩
    rcases hx2 with ⟨p', hp', htl', hext⟩ | ⟨hno, _⟩
    · rw [hx1, Spec.Owes.unique hxr (Or.inl ⟨p', hp', htl', hext⟩)]
    · exact absurd htl (hno p hp)
  · intro hno
    rcases hx2 with ⟨p', hp', htl', hext⟩ | ⟨_, howe⟩
    · exact absurd htl' (hno p' hp')
    · rw [hx1, Spec.Owes.unique hxl howe, Spec.Owes.unique hxr (Or.inr ⟨hno, rfl⟩), add_zero]

/-- The partial theorem applies to user 0 of `mudaBook`, who trades on the long side of the left half
only. -/
example : ∀ t ∈ mudaTrans, t.bid ∈ [4, 6, 8, 9] → ownedBy mudaBook 0 t.bid = false := by
  decide +kernel

/-- A book in which user 0 buys on the long side of both halves: left `[0, 1, 2]`, right `[3, 4, 5]`. -/
def twiceBook : DF :=
  [⟨⟨1, 10, 0, true, 0, true⟩, 0⟩, ⟨⟨1, 9, 1, true, 0, true⟩, 1⟩, ⟨⟨1, 1, 2, false, 0, true⟩, 2⟩,
   ⟨⟨1, 12, 0, true, 0, true⟩, 3⟩, ⟨⟨1, 8, 1, true, 0, true⟩, 4⟩, ⟨⟨1, 2, 3, false, 0, true⟩, 5⟩]

def twiceTrans : List Transaction :=
  [⟨2, 1, 7, -1, false⟩, ⟨0, 1, 7, -1, false⟩, ⟨5, 1, 11 / 2, -1, false⟩, ⟨3, 1, 11 / 2, -1, false⟩]

theorem twice_run : muda stableSorter (fun i => decide (i < 3)) twiceBook = .ok (⟨4, twiceTrans⟩,
    .muda [0, 1, 2] [3, 4, 5] (.fin (11 / 2)) (.fin 7) [5 / 2, 0, 0, 0]) := by
  decide +kernel

/-- **C30 fails.** In `twiceBook` user 0 owes 2 for the left half and 5/2 for the right half; the
reported fee is 5/2 (`fees[user] = …` in the second half overwrites the first, muda.py 215-224). -/
theorem C30_refuted : ¬ (∀ (S : Sorter) (coin : ℕ → Bool) (df : DF), IsTable df → NonNeg df →
    UsersInRange df → ∀ tm left right pl pr fees,
    muda S coin df = .ok (tm, .muda left right pl pr fees) →
      ChargesBothHalves df tm left right pl pr fees) := by
  intro hall
  obtain ⟨xl, xr, hl, hr, hs⟩ := hall stableSorter _ twiceBook (by decide +kernel)
    (by decide +kernel) (by decide +kernel) _ _ _ _ _ _ twice_run 0 (by decide)
  have hL : solveSide stableSorter (half twiceBook [0, 1, 2]) (.fin 7) [0, 0, 0, 0] =
      .ok (⟨2, tradesIn [0, 1, 2] twiceTrans⟩, [2, 0, 0, 0]) := by decide +kernel
  have hR : solveSide stableSorter (half twiceBook [3, 4, 5]) (.fin (11 / 2)) [0, 0, 0, 0] =
      .ok (⟨2, tradesIn [3, 4, 5] twiceTrans⟩, [5 / 2, 0, 0, 0]) := by decide +kernel
  have tL : TradesLong (half twiceBook [0, 1, 2]) 7 (tradesIn [0, 1, 2] twiceTrans) 0 :=
    ⟨⟨0, 1, 7, -1, false⟩, by decide +kernel, ⟨⟨1, 10, 0, true, 0, true⟩, 0⟩, by decide +kernel,
      by decide +kernel⟩
  have tR : TradesLong (half twiceBook [3, 4, 5]) (11 / 2) (tradesIn [3, 4, 5] twiceTrans) 0 :=
    ⟨⟨3, 1, 11 / 2, -1, false⟩, by decide +kernel, ⟨⟨1, 12, 0, true, 0, true⟩, 3⟩,
      by decide +kernel, by decide +kernel⟩
  have eL : IsExternality (half twiceBook [0, 1, 2]) 7 (tradesIn [0, 1, 2] twiceTrans) 0 2 := by
    obtain ⟨tm, f, h1, _, _, h2⟩ := C27_half stableSorter (half twiceBook [0, 1, 2])
      (by decide +kernel) (by decide +kernel) (.fin 7) [0, 0, 0, 0] (by decide +kernel)
    rw [hL] at h1
    cases h1
    obtain ⟨x, hx1, hx2, _⟩ := (h2 7 rfl (by decide +kernel) 0 (by decide)).1 tL
    cases hx1
    exact hx2
  have eR : IsExternality (half twiceBook [3, 4, 5]) (11 / 2) (tradesIn [3, 4, 5] twiceTrans) 0
      (5 / 2) := by
    obtain ⟨tm, f, h1, _, _, h2⟩ := C27_half stableSorter (half twiceBook [3, 4, 5])
      (by decide +kernel) (by decide +kernel) (.fin (11 / 2)) [0, 0, 0, 0] (by decide +kernel)
    rw [hR] at h1
    cases h1
    obtain ⟨x, hx1, hx2, _⟩ := (h2 (11 / 2) rfl (by decide +kernel) 0 (by decide)).1 tR
    cases hx1
    exact hx2
  have vL : xl = 2 := by
    rcases hl with ⟨p, hp, _, he⟩ | ⟨hno, _⟩
    · cases hp; exact externality_unique he eL
    · exact absurd tL (hno 7 rfl)
  have vR : xr = 5 / 2 := by
    rcases hr with ⟨p, hp, _, he⟩ | ⟨hno, _⟩
    · cases hp; exact externality_unique he eR
    · exact absurd tR (hno (11 / 2) rfl)
  rw [vL, vR] at hs
  exact absurd hs (by decide +kernel)

/-! ## C31 -/

/-- **C31.** `muda` raises `NotImplementedError` exactly when two different bids of the book have the
same user, price and side; for every book, coin sequence and sorting order, so no random choice
matters. In particular bids of different users may share a price. -/
theorem C31_rejects (S : Sorter) (coin : ℕ → Bool) (df : DF) :
    muda S coin df = .error .notImplementedError ↔ HasTwin df := by
  rw [← checkEqualPrice_iff]
  unfold muda
  constructor
  · intro h
    by_contra hc
    rw [if_neg hc] at h
    exact mudaBody_notRejected S coin df h
  · intro h
    rw [if_pos h]

/-- Same user, price and side: rejected; same user and price on different sides, or same price and
side for different users: not. -/
example : HasTwin [⟨⟨1, 2, 0, true, 0, true⟩, 0⟩, ⟨⟨3, 2, 0, true, 0, true⟩, 1⟩] :=
  ⟨0, 1, _, _, by decide, rfl, rfl, rfl, rfl, rfl⟩
example : ¬ HasTwin [⟨⟨1, 2, 0, true, 0, true⟩, 0⟩, ⟨⟨3, 2, 0, false, 0, true⟩, 1⟩,
    ⟨⟨3, 2, 1, true, 0, true⟩, 2⟩] := by
  rw [← checkEqualPrice_iff]; decide +kernel

/-! ## C32 -/

/-- **C32, partial.** When the user ids are `0, …, n-1` (`n` the number of users), `muda` returns a
result for every book it does not reject, for every coin sequence and sorting order. Missing: other
user ids, see `C32_refuted`. -/
theorem C32_total_partial (S : Sorter) (coin : ℕ → Bool) (df : DF) (ht : IsTable df)
    (hq : ∀ r ∈ df, 0 ≤ r.quantity) (hu : UsersInRange df) (htwin : ¬ HasTwin df) :
    ∃ tm left right pl pr fees, muda S coin df = .ok (tm, .muda left right pl pr fees) := by
  have hc : checkEqualPriceRaises df = false := by
    rw [← Bool.not_eq_true]
    exact fun h => htwin ((checkEqualPrice_iff df).mp h)
  have hh : ∀ ids, ∃ v, findCompetitivePrice S (half df ids) = .ok v := by
    intro ids
    obtain ⟨i, hi⟩ := intersect_total S (df := half df ids) (fun r h => hq r (half_sub r h)) (1 / 2)
    exact ⟨i.v, by unfold findCompetitivePrice; rw [hi]; rfl⟩
  obtain ⟨pl, hpl⟩ := hh ((List.range df.length).filter coin)
  obtain ⟨pr, hpr⟩ := hh ((List.range df.length).filter (fun i => !coin i))
  obtain ⟨tl, f1, hl, f1'⟩ := solveSide_fees S (half_nodup ht ((List.range df.length).filter coin))
    (fun r h => hq r (half_sub r h)) pr
    (fees := List.replicate (df.map (fun r => r.user)).dedup.length (0 : ℚ))
    (by rw [List.length_replicate]; exact fun r h => hu r (half_sub r h))
  obtain ⟨tr, f2, hr, _⟩ := solveSide_fees S
    (half_nodup ht ((List.range df.length).filter (fun i => !coin i)))
    (fun r h => hq r (half_sub r h)) pl (fees := f1)
    (by rw [f1'.length, List.length_replicate]; exact fun r h => hu r (half_sub r h))
  exact ⟨_, _, _, _, _, _, muda_ok ht hc hpl hpr hl hr⟩

example : IsTable mudaBook ∧ NonNeg mudaBook ∧ UsersInRange mudaBook ∧ ¬ HasTwin mudaBook := by
  refine ⟨by decide +kernel, by decide +kernel, by decide +kernel, ?_⟩
  rw [← checkEqualPrice_iff]; decide +kernel

/-- `twiceBook` with user 0 renamed to 7: four users, but an id beyond the fee array. -/
def gapBook : DF := twiceBook.map (fun r => if r.user = 0 then { r with user := 7 } else r)

/-- **C32 fails** for user ids with gaps: `fees[7] = …` on an array of length 4. -/
theorem C32_refuted : ¬ (∀ (S : Sorter) (coin : ℕ → Bool) (df : DF), IsTable df → NonNeg df →
    ¬ HasTwin df → ∃ o, muda S coin df = .ok o) := by
  intro hall
  obtain ⟨o, ho⟩ := hall stableSorter (fun i => decide (i < 3)) gapBook (by decide +kernel)
    (by decide +kernel) (by rw [← checkEqualPrice_iff]; decide +kernel)
  have : muda stableSorter (fun i => decide (i < 3)) gapBook = .error .indexError := by
    decide +kernel
  rw [this] at ho
  cases ho

end PyMarket
