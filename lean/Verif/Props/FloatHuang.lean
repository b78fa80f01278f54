import Verif.Lemmas.FloatHuangOut
import Verif.Props.FloatP2P
import Verif.Props.Huang

/-! # C78: curves and Huang's auction in floating point arithmetic

C06 – C18 are about exact numbers. Here every operation of `demand_curves.py` and of
`huang_auction.py` is rounded and the sums are computed in any order. -/

set_option autoImplicit false

namespace PyMarket

open Spec

/-- **C78 (backward stability of the curves).** The curves computed with rounding are the exact
curves of a table whose quantities differ by a rounding error of the total quantity; the marginal
positions and the quantity found by `intersect_stepwise` are exactly those of that table. -/
theorem C78_nearby (F : Fmt) (S : Sorter) (df : DF) (ht : IsTable df) (hq : NonNeg df) :
    ∃ df', IsTable df' ∧ NonNeg df' ∧
      Nearby (F.eps * ((1 + F.eps) ^ df.length * totalQty df)) df df' ∧
      demandCurveF F S df = (demandCurve S df').1 ∧ supplyCurveF F S df = (supplyCurve S df').1 ∧
      ∀ k, ∃ i i', intersectStepwiseF F (demandCurveF F S df) (supplyCurveF F S df) k = .ok i ∧
        intersectStepwise (demandCurve S df').1 (supplyCurve S df').1 k = .ok i' ∧
        i.x = i'.x ∧ i.f = i'.f ∧ i.g = i'.g := by
  obtain ⟨w, hw, hnear, hd, hs⟩ := exists_nearby F S ht.nodup (fun r h => (hq r h).1)
  replace hw := requant_nonNeg hq hw
  refine ⟨requant w df, requant_isTable ht, hw, hnear, hd, hs, ?_⟩
  · intro k
    rw [hd, hs]
    rcases intersect_cases S hw k with ⟨x, _, he⟩ | ⟨he, _⟩
    · obtain ⟨v', hv'⟩ := intersectStepwiseF_eq F _ _ _ he
      exact ⟨_, _, hv', he, rfl, rfl, rfl⟩
    · obtain ⟨v', hv'⟩ := intersectStepwiseF_eq F _ _ _ he
      exact ⟨_, _, hv', he, rfl, rfl, rfl⟩


/-- One row of a side and what it trades. -/
theorem zip_good {F : Fmt} {rows : DF} {qs : List ℚ}
    (h : List.Forall₂ (fun x y => 0 ≤ y ∧ y ≤ x ∧ F.Rep y) (rows.map (fun r => r.quantity)) qs)
    {r : Row} {q : ℚ} (hm : (r, q) ∈ rows.zip qs) : 0 ≤ q ∧ q ≤ r.quantity ∧ F.Rep q := by
  rw [List.forall₂_map_left_iff] at h
  exact (List.forall₂_iff_zip.mp h).2 hm

theorem clear_hyps {F : Fmt} {df A B : DF} {ms mb : Row} (hq : NonNeg df) (hr : RepBook F df)
    (h : Fronts df A B ms mb) : (∀ r ∈ A, 0 ≤ r.quantity ∧ F.Rep r.quantity) ∧
      ∀ r ∈ B, 0 ≤ r.quantity ∧ F.Rep r.quantity :=
  ⟨fun r hr' => ⟨(hq r (h.sell r hr').1).1, (hr r (h.sell r hr').1).1⟩,
   fun r hr' => ⟨(hq r (h.buy r hr').1).1, (hr r (h.buy r hr').1).1⟩⟩

/-- Everything about a run that returns. -/
theorem huangF_out (F : Fmt) (s : Summer F) (S : Sorter) {df : DF} (ht : IsTable df) (hq : NonNeg df)
    (hr : RepBook F df) {tm : TransactionManager} {ex : Extra} (h : huangAuctionF F s S df = .ok (tm, ex)) :
    (tm.trans = [] ∧ ex = .empty) ∨ ∃ A B ms mb, Fronts df A B ms mb ∧
      ((tm.trans = [] ∧ ∃ q, ex = .huang ((ms.price : ℚ) : Ext) ((mb.price : ℚ) : Ext) q) ∨
        (A ≠ [] ∧ B ≠ [] ∧ ClearOut F s A B ms.price mb.price df.length tm ex)) := by
  rcases huangF_fronts F s S ht hq with h' | ⟨A, B, ms, mb, hf, h'⟩
  · rw [h] at h'; cases h'; exact Or.inl ⟨rfl, rfl⟩
  · right
    refine ⟨A, B, ms, mb, hf, ?_⟩
    rw [h] at h'
    obtain ⟨hA, hB⟩ := clear_hyps hq hr hf
    rcases huangClearF_ok hA hB hf.length h'.symm with ⟨h1, _, h2⟩ | h1
    · exact Or.inl ⟨h1, _, h2⟩
    · exact Or.inr h1

/-- **C78 (rationality).** Whenever the auction returns, and whatever the rounding: all buyers pay the
same price, all sellers receive the same lower price, and nobody trades at a price worse than their
own. -/
theorem C78_rational (F : Fmt) (s : Summer F) (S : Sorter) (df : DF) (ht : IsTable df) (hq : NonNeg df)
    (hr : RepBook F df) (tm : TransactionManager) (ex : Extra)
    (h : huangAuctionF F s S df = .ok (tm, ex)) :
    (tm.trans = [] ∧ ex = .empty) ∨
      ∃ ps pb q : ℚ, ex = .huang (ps : Ext) (pb : Ext) q ∧ RationalAt df ps pb tm.trans := by
  rcases huangF_out F s S ht hq hr h with h1 | ⟨A, B, ms, mb, hf, ⟨h1, q, h2⟩ | ⟨_, _, qs, qb, h1, h2, _⟩⟩
  · exact Or.inl h1
  · refine Or.inr ⟨_, _, q, h2, hf.lt, ?_⟩
    rw [h1]; intro t htm; cases htm
  · refine Or.inr ⟨_, _, _, h1, hf.lt, ?_⟩
    rw [h2]
    intro t htm
    rcases List.mem_append.mp htm with hm | hm
    · obtain ⟨r, q, hz, rfl⟩ := mem_huangSideTrans hm
      obtain ⟨a1, a2, a3⟩ := hf.sell r (List.of_mem_zip hz).1
      exact ⟨r, ht.get_label a1, Or.inr ⟨a2, rfl, a3⟩⟩
    · obtain ⟨r, q, hz, rfl⟩ := mem_huangSideTrans hm
      obtain ⟨a1, a2, a3⟩ := hf.buy r (List.of_mem_zip hz).1
      exact ⟨r, ht.get_label a1, Or.inl ⟨a2, rfl, a3⟩⟩

/-- **C78 (quantities).** Whenever the auction returns, every bid trades at most once, a non-negative
number of the format, no more than its quantity; and on at least one side every traded bid trades
exactly its quantity. -/
theorem C78_quantities (F : Fmt) (s : Summer F) (S : Sorter) (df : DF) (ht : IsTable df) (hq : NonNeg df)
    (hr : RepBook F df) (tm : TransactionManager) (ex : Extra)
    (h : huangAuctionF F s S df = .ok (tm, ex)) :
    (tm.trans.map (fun t => t.bid)).Nodup ∧
    (∀ t ∈ tm.trans, 0 ≤ t.quantity ∧ t.quantity ≤ qtyOf df t.bid ∧ F.Rep t.quantity) ∧
    ((∀ t ∈ tm.trans, isSell df t.bid = true → t.quantity = qtyOf df t.bid) ∨
      (∀ t ∈ tm.trans, isBuy df t.bid = true → t.quantity = qtyOf df t.bid)) := by
  have nil : tm.trans = [] → _ := fun h1 => (by
    rw [h1]; simp : (tm.trans.map (fun t => t.bid)).Nodup ∧
      (∀ t ∈ tm.trans, 0 ≤ t.quantity ∧ t.quantity ≤ qtyOf df t.bid ∧ F.Rep t.quantity) ∧
      ((∀ t ∈ tm.trans, isSell df t.bid = true → t.quantity = qtyOf df t.bid) ∨
        (∀ t ∈ tm.trans, isBuy df t.bid = true → t.quantity = qtyOf df t.bid)))
  rcases huangF_out F s S ht hq hr h with h1 |
    ⟨A, B, ms, mb, hf, ⟨h1, q, h2⟩ | ⟨_, _, qs, qb, h1, h2, h3, h4, h5, _⟩⟩
  · exact nil h1.1
  · exact nil h1
  · have lA : A.length = qs.length := by have := h3.length_eq; rwa [List.length_map] at this
    have lB : B.length = qb.length := by have := h4.length_eq; rwa [List.length_map] at this
    refine ⟨?_, ?_, ?_⟩
    · rw [h2, List.map_append, huangSideTrans_bids lA, huangSideTrans_bids lB, ← List.map_append]
      exact hf.nodup
    · intro t htm
      rw [h2] at htm
      rcases List.mem_append.mp htm with hm | hm
      · obtain ⟨r, q, hz, rfl⟩ := mem_huangSideTrans hm
        rw [qtyOf_some (ht.get_label (hf.sell r (List.of_mem_zip hz).1).1)]
        exact zip_good h3 hz
      · obtain ⟨r, q, hz, rfl⟩ := mem_huangSideTrans hm
        rw [qtyOf_some (ht.get_label (hf.buy r (List.of_mem_zip hz).1).1)]
        exact zip_good h4 hz
    · have full : ∀ (rows : DF) (r : Row) (q : ℚ), (r, q) ∈ rows.zip (rows.map (fun r => r.quantity)) →
          q = r.quantity := by
        intro rows r q hz
        rw [List.zip_map_right, List.mem_map] at hz
        obtain ⟨⟨a, b⟩, hab, he⟩ := hz
        have h1 : a = b := by
          have := (List.forall₂_iff_zip.mp (List.forall₂_same.mpr (fun x (_ : x ∈ rows) => (rfl : x = x)))).2 hab
          exact this
        cases he
        rw [h1]; rfl
      rcases h5 with h5 | h5
      · left
        intro t htm hs
        rw [h2] at htm
        rcases List.mem_append.mp htm with hm | hm
        · obtain ⟨r, q, hz, rfl⟩ := mem_huangSideTrans hm
          rw [h5] at hz
          rw [qtyOf_some (ht.get_label (hf.sell r (List.of_mem_zip hz).1).1)]
          exact full A r q hz
        · obtain ⟨r, q, hz, rfl⟩ := mem_huangSideTrans hm
          have := hf.buy r (List.of_mem_zip hz).1
          rw [ht.isSell_eq this.1, this.2.1] at hs
          cases hs
      · right
        intro t htm hs
        rw [h2] at htm
        rcases List.mem_append.mp htm with hm | hm
        · obtain ⟨r, q, hz, rfl⟩ := mem_huangSideTrans hm
          have := hf.sell r (List.of_mem_zip hz).1
          rw [ht.isBuy_eq this.1, this.2.1] at hs
          cases hs
        · obtain ⟨r, q, hz, rfl⟩ := mem_huangSideTrans hm
          rw [h5] at hz
          rw [qtyOf_some (ht.get_label (hf.buy r (List.of_mem_zip hz).1).1)]
          exact full B r q hz

/-- **C78 (price setters).** Whenever the auction returns with trades, the reported prices are prices
of submitted bids that do not trade, and every bid with a strictly better price is in the log. -/
theorem C78_price_setters (F : Fmt) (s : Summer F) (S : Sorter) (df : DF) (ht : IsTable df) (hq : NonNeg df)
    (hr : RepBook F df) (tm : TransactionManager) (ex : Extra)
    (h : huangAuctionF F s S df = .ok (tm, ex)) (hne : tm.trans ≠ []) :
    ∃ ps pb q : ℚ, ex = .huang (ps : Ext) (pb : Ext) q ∧
      (∃ m ∈ df, m.buying = true ∧ m.price = pb ∧ ∀ t ∈ tm.trans, t.bid ≠ m.label) ∧
      (∃ m ∈ df, m.buying = false ∧ m.price = ps ∧ ∀ t ∈ tm.trans, t.bid ≠ m.label) ∧
      ∀ r ∈ df, (if r.buying then pb < r.price else r.price < ps) → ∃ t ∈ tm.trans, t.bid = r.label := by
  rcases huangF_out F s S ht hq hr h with h1 |
    ⟨A, B, ms, mb, hf, ⟨h1, q, h2⟩ | ⟨_, _, qs, qb, h1, h2, h3, h4, h5, _⟩⟩
  · exact absurd h1.1 hne
  · exact absurd h1 hne
  · have lA : A.length = qs.length := by have := h3.length_eq; rwa [List.length_map] at this
    have lB : B.length = qb.length := by have := h4.length_eq; rwa [List.length_map] at this
    have hbids : tm.trans.map (fun t => t.bid) = A.map (fun r => r.label) ++ B.map (fun r => r.label) := by
      rw [h2, List.map_append, huangSideTrans_bids lA, huangSideTrans_bids lB]
    have hlab : ∀ {a b : Row}, a ∈ df → b ∈ df → a.label = b.label → a = b := by
      intro a b ha hb he
      have h1 := ht.get_label ha
      rw [he, ht.get_label hb] at h1
      exact (Option.some.inj h1).symm
    refine ⟨_, _, _, h1, ⟨mb, hf.marg_buy.1, hf.marg_buy.2.1, rfl, ?_⟩,
      ⟨ms, hf.marg_sell.1, hf.marg_sell.2.1, rfl, ?_⟩, ?_⟩
    · intro t htm he
      have hm : t.bid ∈ tm.trans.map (fun t => t.bid) := List.mem_map_of_mem htm
      rw [hbids, he] at hm
      rcases List.mem_append.mp hm with hm | hm
      · obtain ⟨r, hr1, hr2⟩ := List.mem_map.mp hm
        have := hf.sell r hr1
        rw [hlab this.1 hf.marg_buy.1 hr2, hf.marg_buy.2.1] at this
        exact absurd this.2.1 (by decide)
      · exact hf.marg_buy.2.2 hm
    · intro t htm he
      have hm : t.bid ∈ tm.trans.map (fun t => t.bid) := List.mem_map_of_mem htm
      rw [hbids, he] at hm
      rcases List.mem_append.mp hm with hm | hm
      · exact hf.marg_sell.2.2 hm
      · obtain ⟨r, hr1, hr2⟩ := List.mem_map.mp hm
        have := hf.buy r hr1
        rw [hlab this.1 hf.marg_sell.1 hr2, hf.marg_sell.2.1] at this
        exact absurd this.2.1 (by decide)
    · intro r hrd hc
      have : r.label ∈ tm.trans.map (fun t => t.bid) := by
        rw [hbids]
        cases hb : r.buying with
        | true =>
          rw [hb, if_pos rfl] at hc
          exact List.mem_append_right _ (List.mem_map_of_mem (hf.buy_all r hrd hb hc))
        | false =>
          rw [hb, if_neg (by decide)] at hc
          exact List.mem_append_left _ (List.mem_map_of_mem (hf.sell_all r hrd hb hc))
      obtain ⟨t, ht1, ht2⟩ := List.mem_map.mp this
      exact ⟨t, ht1, ht2⟩

/-- **C78 (balance), partial.** Full statement: as much is bought as sold, and the reported quantity is
the one bought. With rounding both hold up to about `2n` units in the last place of the total
quantity. -/
theorem C78_balance_partial (F : Fmt) (s : Summer F) (S : Sorter) (df : DF) (ht : IsTable df) (hq : NonNeg df)
    (hr : RepBook F df) (tm : TransactionManager) (ex : Extra)
    (h : huangAuctionF F s S df = .ok (tm, ex)) :
    |boughtQty df tm.trans - soldQty df tm.trans| ≤ slack F df.length * totalQty df ∧
    (tm.trans ≠ [] → ∃ ps pb q, ex = .huang ps pb q ∧
      |q - boughtQty df tm.trans| ≤ slack F df.length * totalQty df) := by
  have e0 := F.eps_nonneg
  have hT : 0 ≤ totalQty df := totalQty_nonneg (fun r hr => (hq r hr).1)
  have hP1 : 1 ≤ (1 + F.eps) ^ df.length := one_le_pow₀ (by linarith)
  have hs0 : (1 + F.eps) ^ df.length - 1 ≤ slack F df.length := by
    unfold slack
    have : 0 ≤ ((df.length : ℚ) + 1) * (F.eps * (1 + F.eps) ^ df.length) := by positivity
    linarith
  have hnil : tm.trans = [] → |boughtQty df tm.trans - soldQty df tm.trans| ≤ slack F df.length * totalQty df := by
    intro h1
    rw [h1]
    simp only [boughtQty, soldQty, List.filter_nil, List.map_nil, List.sum_nil, sub_self, abs_zero]
    exact mul_nonneg (by linarith) hT
  rcases huangF_out F s S ht hq hr h with h1 |
    ⟨A, B, ms, mb, hf, ⟨h1, q, h2⟩ | ⟨hA, hB, qs, qb, h1, h2, h3, h4, h5, h6⟩⟩
  · exact ⟨hnil h1.1, fun hne => absurd h1.1 hne⟩
  · exact ⟨hnil h1, fun hne => absurd h1 hne⟩
  · have lA : A.length = qs.length := by have := h3.length_eq; rwa [List.length_map] at this
    have lB : B.length = qb.length := by have := h4.length_eq; rwa [List.length_map] at this
    obtain ⟨a1, a2⟩ := huangSideTrans_sells (p := ms.price) ht
      (fun r hr' => ⟨(hf.sell r hr').1, (hf.sell r hr').2.1⟩) lA
    obtain ⟨b1, b2⟩ := huangSideTrans_buys (p := mb.price) ht
      (fun r hr' => ⟨(hf.buy r hr').1, (hf.buy r hr').2.1⟩) lB
    have hbought : boughtQty df tm.trans = qb.sum := by
      rw [h2]
      unfold boughtQty at *
      rw [List.filter_append, List.map_append, List.sum_append, a2, b1, zero_add]
    have hsold : soldQty df tm.trans = qs.sum := by
      rw [h2]
      unfold soldQty at *
      rw [List.filter_append, List.map_append, List.sum_append, a1, b2, add_zero]
    have htot := mul_le_mul_of_nonneg_left hf.total (by linarith : 0 ≤ slack F df.length)
    rw [hbought, hsold]
    refine ⟨?_, fun _ => ⟨_, _, _, h1, ?_⟩⟩
    · rw [abs_sub_comm]
      exact h6.trans htot
    · have nn : ∀ x ∈ qb, 0 ≤ x := by
        intro x hx
        obtain ⟨k, hk, rfl⟩ := List.getElem_of_mem hx
        exact ((List.forall₂_iff_get.mp h4).2 k (by rw [List.length_map]; omega) hk).1
      refine ((s.isSum qb).err nn).trans ?_
      have hle : qb.sum ≤ totalQty B := by
        have := h4.imp (fun _ _ h' => h'.2.1)
        exact this.flip.sum_le_sum
      have hqb : 0 ≤ qb.sum := List.sum_nonneg nn
      have hA0 : 0 ≤ totalQty A := totalQty_nonneg (fun r hr' => (hq r (hf.sell r hr').1).1)
      have hlen := hf.length
      have hp : (1 + F.eps) ^ (qb.length - 1) ≤ (1 + F.eps) ^ df.length :=
        pow_le_pow_right₀ (by linarith) (by omega)
      have ht' := hf.total
      exact mul_le_mul (by linarith) (by linarith) hqb (by linarith)

/-- **C78 (termination), partial.** Full statement: the auction returns. It may only fail with the
`ValueError` of `nanargmin`, and does not when every quantity is at least about `2n` units in the last
place of the total quantity. -/
theorem C78_returns_partial (F : Fmt) (s : Summer F) (S : Sorter) (df : DF) (ht : IsTable df) (hq : NonNeg df)
    (hr : RepBook F df) :
    (∀ e, huangAuctionF F s S df = .error e → e = .valueError) ∧
    ((∀ r ∈ df, slack F df.length * totalQty df ≤ r.quantity) →
      ∃ tm ex, huangAuctionF F s S df = .ok (tm, ex)) := by
  have e0 := F.eps_nonneg
  rcases huangF_fronts F s S ht hq with h' | ⟨A, B, ms, mb, hf, h'⟩
  · rw [h']
    exact ⟨fun e he => (by cases he), fun _ => ⟨_, _, rfl⟩⟩
  rw [h']
  unfold huangClearF
  by_cases hc : B ≠ [] ∧ A ≠ []
  swap
  · rw [if_neg hc]
    exact ⟨fun e he => (by cases he), fun _ => ⟨_, _, rfl⟩⟩
  rw [if_pos hc]
  simp only [bind, Except.bind]
  obtain ⟨hA, hB⟩ := clear_hyps hq hr hf
  have qA : ∀ x ∈ A.map (fun r => r.quantity), 0 ≤ x := by
    intro x hx; obtain ⟨r, hr', rfl⟩ := List.mem_map.mp hx; exact (hA r hr').1
  have qB : ∀ x ∈ B.map (fun r => r.quantity), 0 ≤ x := by
    intro x hx; obtain ⟨r, hr', rfl⟩ := List.mem_map.mp hx; exact (hB r hr').1
  have la := List.length_pos_of_ne_nil hc.2
  have lb := List.length_pos_of_ne_nil hc.1
  have hlen := hf.length
  obtain ⟨g1, g2⟩ := gap_err s qA qB (n := df.length - 1)
    (by rw [List.length_map]; omega) (by rw [List.length_map]; omega)
  rw [show df.length - 1 + 1 = df.length by omega] at g1 g2
  have sa : 0 ≤ totalQty A := totalQty_nonneg (fun r hr' => (hA r hr').1)
  have sb : 0 ≤ totalQty B := totalQty_nonneg (fun r hr' => (hB r hr').1)
  change |_ - (totalQty A - totalQty B)| ≤ _ * (totalQty A + totalQty B) at g1
  change |_| ≤ _ * (totalQty A + totalQty B) at g2
  set gap := F.rnd (s.sum (A.map (fun r => r.quantity)) - s.sum (B.map (fun r => r.quantity))) with hgap
  have hbig : ∀ l : DF, l ≠ [] → (∀ r ∈ l, r ∈ df) →
      (∀ r ∈ df, slack F df.length * totalQty df ≤ r.quantity) →
      slack F df.length * totalQty df ≤ totalQty l := by
    intro l hl hsub hb
    obtain ⟨r, l', rfl⟩ := List.exists_cons_of_ne_nil hl
    have h1 := hb r (hsub r List.mem_cons_self)
    have h2 := totalQty_nonneg (df := l') (fun r' hr' => (hq r' (hsub r' (List.mem_cons_of_mem _ hr'))).1)
    have h3 : totalQty (r :: l') = r.quantity + totalQty l' := by simp [totalQty]
    linarith
  have hP1 : 1 ≤ (1 + F.eps) ^ df.length := one_le_pow₀ (by linarith)
  have hS0 : 0 ≤ slack F df.length := by
    unfold slack
    have : 0 ≤ ((df.length : ℚ) + 1) * (F.eps * (1 + F.eps) ^ df.length) := by positivity
    linarith
  have htot := mul_le_mul_of_nonneg_left hf.total hS0
  constructor
  · intro e he
    split_ifs at he
    · cases hu : updateQuantityF F (A.map (fun r => r.quantity)) gap with
      | error e' => rw [hu] at he; cases he; exact updateQuantityF_valueError F _ _ _ hu
      | ok r => rw [hu] at he; cases he
    · cases hu : updateQuantityF F (B.map (fun r => r.quantity)) (-gap) with
      | error e' => rw [hu] at he; cases he; exact updateQuantityF_valueError F _ _ _ hu
      | ok r => rw [hu] at he; cases he
  · intro hb
    have bA := hbig A hc.2 (fun r hr' => (hf.sell r hr').1) hb
    have bB := hbig B hc.1 (fun r hr' => (hf.buy r hr').1) hb
    split_ifs with hg
    · rw [abs_of_pos hg] at g2
      have hstep := slack_step (F := F) (l := A.length) (n := df.length) (by omega) (le_refl 0)
        (by linarith : (0 : ℚ) ≤ totalQty A + totalQty B) g2 hg.le g1
      obtain ⟨r, hr'⟩ := updateQuantityF_total F (q := A.map (fun r => r.quantity)) (gap := gap)
        (by simpa using hc.2) qA hg.le (F.rep_rnd _) (by
          rw [List.length_map]
          change _ ≤ totalQty A
          have := (abs_le.mp (le_refl |gap - (totalQty A - totalQty B)|)).2
          have h2 : 0 ≤ F.eps * gap := mul_nonneg e0 hg.le
          nlinarith)
      rw [hr']
      exact ⟨_, _, rfl⟩
    · have hg' : gap ≤ 0 := not_lt.mp hg
      rw [abs_of_nonpos hg'] at g2
      have hstep := slack_step (F := F) (l := B.length) (n := df.length) (by omega) (le_refl 0)
        (by linarith : (0 : ℚ) ≤ totalQty A + totalQty B) g2 (by linarith) g1
      obtain ⟨r, hr'⟩ := updateQuantityF_total F (q := B.map (fun r => r.quantity)) (gap := -gap)
        (by simpa using hc.1) qB (by linarith) (F.rep_neg (F.rep_rnd _)) (by
          rw [List.length_map]
          change _ ≤ totalQty B
          have := (abs_le.mp (le_refl |gap - (totalQty A - totalQty B)|)).1
          have h2 : 0 ≤ F.eps * -gap := mul_nonneg e0 (by linarith)
          nlinarith)
      rw [hr']
      exact ⟨_, _, rfl⟩

/-! ## Witnesses in float64 -/

/-- The nearest float64. -/
def f64 (x : ℚ) : ℚ := roundBin 53 x

/-- Three sellers of 0.1 against a buyer of 10^-20. -/
def dustBook : DF := labelFrom 0
  [⟨f64 (1 / 10 ^ 20), 10, 0, true, 0, true⟩, ⟨1, 9, 1, true, 0, true⟩,
   ⟨f64 (1 / 10), 1, 2, false, 0, true⟩, ⟨f64 (1 / 10), 2, 3, false, 0, true⟩,
   ⟨f64 (1 / 10), 3, 4, false, 0, true⟩, ⟨1, 4, 5, false, 0, true⟩]

/-- A seller of 0.8 against a buyer of 0.3, with marginal prices that are neighbours. -/
def tightBook : DF := labelFrom 0
  [⟨f64 (3 / 10), 5, 0, true, 0, true⟩, ⟨5, 4 - 1 / 2 ^ 51, 1, true, 0, true⟩,
   ⟨f64 (8 / 10), 1, 2, false, 0, true⟩, ⟨5, 4 - 1 / 2 ^ 50, 3, false, 0, true⟩]

example : IsTable tightBook ∧ NonNeg tightBook ∧ RepBook float64 tightBook ∧
    ∀ r ∈ tightBook, slack float64 tightBook.length * totalQty tightBook ≤ r.quantity := by
  refine ⟨by decide +kernel, by decide +kernel, ?_, by decide +kernel⟩
  unfold RepBook Fmt.Rep
  decide +kernel

/-- **C78, refuted part.** In float64 the auction may raise `ValueError` on a table of ordinary bids:
0.1 + 0.1 + 0.1 is rounded up, and the curtailment wants to take more from the three sellers than they
offer. -/
theorem C78_returns_refuted :
    IsTable dustBook ∧ NonNeg dustBook ∧ RepBook float64 dustBook ∧ (∀ r ∈ dustBook, 0 < r.quantity) ∧
    huangAuctionF float64 (pairSummer float64) stableSorter dustBook = .error .valueError := by
  refine ⟨by decide +kernel, by decide +kernel, ?_, by decide +kernel, by decide +kernel⟩
  unfold RepBook Fmt.Rep
  decide +kernel

/-- **C78, refuted part.** In float64 the seller of 0.8 facing a buyer of 0.3 sells
0.30000000000000004: more is sold than bought, and the market maker pays out more than it takes in. -/
theorem C78_balance_refuted :
    ∃ tm ex, huangAuctionF float64 (pairSummer float64) stableSorter tightBook = .ok (tm, ex) ∧
      boughtQty tightBook tm.trans < soldQty tightBook tm.trans ∧
      paid tightBook tm.trans < received tightBook tm.trans := by
  have h : (huangAuctionF float64 (pairSummer float64) stableSorter tightBook).toOption.any (fun r =>
      decide (boughtQty tightBook r.1.trans < soldQty tightBook r.1.trans ∧
        paid tightBook r.1.trans < received tightBook r.1.trans)) = true := by decide +kernel
  cases hr : huangAuctionF float64 (pairSummer float64) stableSorter tightBook with
  | error e => rw [hr] at h; cases h
  | ok r => rw [hr] at h; exact ⟨r.1, r.2, rfl, of_decide_eq_true h⟩

end PyMarket
