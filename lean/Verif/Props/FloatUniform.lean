import Verif.Lemmas.FloatUniform
import Verif.Props.FloatMuda

/-! # C123: the uniform price mechanism of the documentation in floating point arithmetic -/

set_option autoImplicit false

namespace PyMarket

open Spec

/-- **C123 (exact arithmetic).** Without rounding errors the floating point model is the exact model, whatever the
order of summation. -/
theorem C123_exact (s : Summer exactFmt) (S : Sorter) (df : DF) :
    uniformPriceF exactFmt s S df = uniformPrice S df := uniformPriceF_exact s S df

/-- **C123 (backward stability).** The mechanism raises `TypeError` exactly when the exact mechanism does so on a
table whose quantities differ by a rounding error of the total quantity; otherwise the reported quantity is
that of this table and the reported price is its price, rounded. -/
theorem C123_nearby (F : Fmt) (s : Summer F) (S : Sorter) (df : DF) (ht : IsTable df) (hq : NonNeg df)
    (hr : RepBook F df) : ∃ df', IsTable df' ∧ NonNeg df' ∧
      Nearby (F.eps * ((1 + F.eps) ^ df.length * totalQty df)) df df' ∧
      ((uniformPriceF F s S df = .error .typeError ∧ uniformPrice S df' = .error .typeError) ∨
        ∃ (tm tm' : TransactionManager) (x p : ℚ),
          uniformPriceF F s S df = .ok (tm, some (x : Ext), .fin (F.rnd p)) ∧
          uniformPrice S df' = .ok (tm', some (x : Ext), .fin p)) := by
  obtain ⟨w, h1, h2, h | ⟨x, p, b, g, mb, ms, tm', _, _, _, _, _, _, _, _, _, _, hev, hF⟩⟩ :=
    uniformF_eval F s S ht hq hr
  · exact ⟨_, requant_isTable ht, h1, h2, Or.inl h⟩
  · exact ⟨_, requant_isTable ht, h1, h2, Or.inr ⟨_, tm', x, p, hF, hev⟩⟩

section

variable {F : Fmt} {s : Summer F} {S : Sorter} {df : DF}

/-- The log of a run: two sides, of which one is served in full. -/
structure UniformSidesF (F : Fmt) (s : Summer F) (df A B : DF) (ms mb : Row) (x p : ℚ)
    (ts : List Transaction) : Prop where
  fronts : Fronts df A B ms mb
  seller : ms.price ≤ p
  buyer : p ≤ mb.price
  rep : F.Rep p
  nodup : ((A ++ [ms] ++ (B ++ [mb])).map (fun r => r.label)).Nodup
  total : totalQty (A ++ [ms]) + totalQty (B ++ [mb]) ≤ totalQty df
  length : (A ++ [ms]).length ≤ (df.filter (fun r => !r.buying)).length ∧
    (B ++ [mb]).length ≤ (df.filter (fun r => r.buying)).length
  runB : runF F B ≤ x ∧ x ≤ runF F (B ++ [mb])
  runA : runF F A ≤ x ∧ x ≤ runF F (A ++ [ms])
  reach : runF F (B ++ [mb]) = x ∨ runF F (A ++ [ms]) = x
  log : (s.sum ((A ++ [ms]).map (fun r => r.quantity)) < s.sum ((B ++ [mb]).map (fun r => r.quantity)) ∧
      ts = huangSideTrans (A ++ [ms]) ((A ++ [ms]).map (fun r => r.quantity)) p ++
        huangSideTrans (B ++ [mb])
          (longQty F (s.sum ((A ++ [ms]).map (fun r => r.quantity))) 0 (B ++ [mb])) p) ∨
    (s.sum ((B ++ [mb]).map (fun r => r.quantity)) ≤ s.sum ((A ++ [ms]).map (fun r => r.quantity)) ∧
      ts = huangSideTrans (B ++ [mb]) ((B ++ [mb]).map (fun r => r.quantity)) p ++
        huangSideTrans (A ++ [ms])
          (longQty F (s.sum ((B ++ [mb]).map (fun r => r.quantity))) 0 (A ++ [ms])) p)

theorem uniformF_sides (ht : IsTable df) (hq : NonNeg df) (hr : RepBook F df) {tm : TransactionManager}
    {xe : Option Ext} {v : Val} (h : uniformPriceF F s S df = .ok (tm, xe, v)) :
    ∃ (x p : ℚ) (A B : DF) (ms mb : Row), xe = some (x : Ext) ∧ v = .fin p ∧
      UniformSidesF F s df A B ms mb x p tm.trans := by
  obtain ⟨w, h1, h2, h' | ⟨x, p, b, g, mb, ms, tm', hb, hs, hlt, p1, p2, c1, c3, c2, c4, hex, hev, hF⟩⟩ :=
    uniformF_eval F s S ht hq hr
  · rw [h] at h'; cases h'.1
  · rw [h] at hF
    cases hF
    have hp := sides_perm S df
    have q1 : ∀ r ∈ sortDesc S (buys df), 0 ≤ r.quantity :=
      fun r hr => (hq r (hp.mem_iff.mp (List.mem_append_left _ hr))).1
    have q2 : ∀ r ∈ sortAsc S (sells df), 0 ≤ r.quantity :=
      fun r hr => (hq r (hp.mem_iff.mp (List.mem_append_right _ hr))).1
    have tb := take_succ_of_getElem? hb
    have ts := take_succ_of_getElem? hs
    have hn : ((sortDesc S (buys df) ++ sortAsc S (sells df)).map (fun r => r.label)).Nodup :=
      (hp.map _).nodup_iff.mpr ht.nodup
    refine ⟨x, F.rnd p, _, _, ms, mb, rfl, rfl, fronts_of S ht hq hb hs hlt, p1, p2, F.rep_rnd _, ?_, ?_, ?_,
      ⟨c1, c2⟩, ⟨c3, c4⟩, hex, ?_⟩
    · rw [← tb, ← ts]
      rw [List.map_append] at hn ⊢
      have hsub := hn.sublist ((((sortDesc S (buys df)).take_sublist (b + 1)).map (fun r => r.label)).append
        (((sortAsc S (sells df)).take_sublist (g + 1)).map (fun r => r.label)))
      exact (List.perm_append_comm.nodup_iff).mp hsub
    · rw [← tb, ← ts]
      have := totalQty_sides S df
      have := totalQty_take_le q1 (b + 1)
      have := totalQty_take_le q2 (g + 1)
      linarith
    · rw [← tb, ← ts]
      exact ⟨(List.length_take_le' _ _).trans (sortAsc_perm S (sells df)).length_eq.le,
        (List.length_take_le' _ _).trans (sortDesc_perm S (buys df)).length_eq.le⟩
    · rw [TransactionManager.init_addAll_trans]
      split_ifs with hc
      · left
        refine ⟨hc, ?_⟩
        rw [uniformShort_side, uniformLongF_side]
      · right
        refine ⟨not_lt.mp hc, ?_⟩
        rw [uniformShort_side, uniformLongF_side]

theorem zip_map_self {rows : DF} {r : Row} {q : ℚ} (h : (r, q) ∈ rows.zip (rows.map (fun r => r.quantity))) :
    q = r.quantity := by
  rw [List.zip_map_right, List.mem_map] at h
  obtain ⟨⟨a, b⟩, hab, he⟩ := h
  have : a = b :=
    (List.forall₂_iff_zip.mp (List.forall₂_same.mpr (fun x (_ : x ∈ rows) => (rfl : x = x)))).2 hab
  cases he
  rw [this]; rfl

namespace UniformSidesF

variable {A B : DF} {ms mb : Row} {x p : ℚ} {ts : List Transaction}

theorem memA (h : UniformSidesF F s df A B ms mb x p ts) {r : Row} (hr : r ∈ A ++ [ms]) :
    r ∈ df ∧ r.buying = false ∧ r.price ≤ ms.price := by
  rcases List.mem_append.mp hr with h' | h'
  · exact h.fronts.sell r h'
  · rw [List.mem_singleton.mp h']
    exact ⟨h.fronts.marg_sell.1, h.fronts.marg_sell.2.1, le_refl _⟩

theorem memB (h : UniformSidesF F s df A B ms mb x p ts) {r : Row} (hr : r ∈ B ++ [mb]) :
    r ∈ df ∧ r.buying = true ∧ mb.price ≤ r.price := by
  rcases List.mem_append.mp hr with h' | h'
  · exact h.fronts.buy r h'
  · rw [List.mem_singleton.mp h']
    exact ⟨h.fronts.marg_buy.1, h.fronts.marg_buy.2.1, le_refl _⟩

/-- What the log of a run looks like: `qa` and `qb` are traded by the two sides. -/
theorem out (h : UniformSidesF F s df A B ms mb x p ts) (hr : RepBook F df) : ∃ qa qb : List ℚ,
    List.Forall₂ (fun r q => q ≤ r.quantity ∧ F.Rep q) (A ++ [ms]) qa ∧
    List.Forall₂ (fun r q => q ≤ r.quantity ∧ F.Rep q) (B ++ [mb]) qb ∧
    ts.Perm (huangSideTrans (A ++ [ms]) qa p ++ huangSideTrans (B ++ [mb]) qb p) ∧
    (qa = (A ++ [ms]).map (fun r => r.quantity) ∨ qb = (B ++ [mb]).map (fun r => r.quantity)) := by
  have rA : ∀ r ∈ A ++ [ms], F.Rep r.quantity := fun r hm => (hr r (h.memA hm).1).1
  have rB : ∀ r ∈ B ++ [mb], F.Rep r.quantity := fun r hm => (hr r (h.memB hm).1).1
  have full : ∀ l : DF, (∀ r ∈ l, F.Rep r.quantity) →
      List.Forall₂ (fun r q => q ≤ r.quantity ∧ F.Rep q) l (l.map (fun r => r.quantity)) := by
    intro l hl
    rw [List.forall₂_map_right_iff, List.forall₂_same]
    exact fun r hm => ⟨le_refl _, hl r hm⟩
  have rep : ∀ l : DF, (∀ r ∈ l, F.Rep r.quantity) → F.Rep (s.sum (l.map (fun r => r.quantity))) := by
    intro l hl
    exact (s.isSum _).rep (by intro y hy; obtain ⟨r, hm, rfl⟩ := List.mem_map.mp hy; exact hl r hm)
  rcases h.log with ⟨_, e⟩ | ⟨_, e⟩
  · exact ⟨_, _, full _ rA, longQty_le (rep _ rA) rB, by rw [e], Or.inl rfl⟩
  · exact ⟨_, _, longQty_le (rep _ rB) rA, full _ rB, by rw [e]; exact List.perm_append_comm, Or.inr rfl⟩

end UniformSidesF

end

/-- **C123 (prices and quantities).** Whenever the mechanism returns, whatever the rounding and the order of
summation: there is one price, a number of the format, at which everybody trades; nobody pays more or receives
less than the own price; every bid trades at most once and no more than its quantity; on one side every traded
bid trades its whole quantity; and all bids better than some buyer and some seller on the right sides of the
price are served before any worse one. -/
theorem C123_rational (F : Fmt) (s : Summer F) (S : Sorter) (df : DF) (ht : IsTable df) (hq : NonNeg df)
    (hr : RepBook F df) (tm : TransactionManager) (xe : Option Ext) (v : Val)
    (h : uniformPriceF F s S df = .ok (tm, xe, v)) :
    ∃ p : ℚ, v = .fin p ∧ F.Rep p ∧ (tm.trans.map (fun t => t.bid)).Nodup ∧
      (∀ t ∈ tm.trans, t.price = p ∧ t.source = -1 ∧ t.active = false ∧ F.Rep t.quantity ∧
        ∃ r ∈ df, t.bid = r.label ∧ t.quantity ≤ r.quantity ∧
          (if r.buying then p ≤ r.price else r.price ≤ p)) ∧
      ((∀ t ∈ tm.trans, isSell df t.bid = true → t.quantity = qtyOf df t.bid) ∨
        (∀ t ∈ tm.trans, isBuy df t.bid = true → t.quantity = qtyOf df t.bid)) ∧
      ∃ pb ps : ℚ, ps ≤ p ∧ p ≤ pb ∧ ps < pb ∧
        (∀ r ∈ df, (if r.buying then pb < r.price else r.price < ps) → ∃ t ∈ tm.trans, t.bid = r.label) ∧
        ∀ t ∈ tm.trans, ∃ r ∈ df, t.bid = r.label ∧ if r.buying then pb ≤ r.price else r.price ≤ ps := by
  obtain ⟨x, p, A, B, ms, mb, rfl, rfl, hs⟩ := uniformF_sides ht hq hr h
  obtain ⟨qa, qb, ha, hb, hperm, hfull⟩ := hs.out hr
  have la : (A ++ [ms]).length = qa.length := ha.length_eq
  have lb : (B ++ [mb]).length = qb.length := hb.length_eq
  have hmem : ∀ t ∈ tm.trans, ∃ r q, t = ⟨r.label, q, p, -1, false⟩ ∧ r ∈ df ∧ q ≤ r.quantity ∧ F.Rep q ∧
      ((r.buying = false ∧ r.price ≤ ms.price ∧ (r, q) ∈ (A ++ [ms]).zip qa) ∨
        (r.buying = true ∧ mb.price ≤ r.price ∧ (r, q) ∈ (B ++ [mb]).zip qb)) := by
    intro t htm
    rcases List.mem_append.mp (hperm.mem_iff.mp htm) with hm | hm
    · obtain ⟨r, q, hz, rfl⟩ := mem_huangSideTrans hm
      have h1 := hs.memA (List.of_mem_zip hz).1
      have h2 := (List.forall₂_iff_zip.mp ha).2 hz
      exact ⟨r, q, rfl, h1.1, h2.1, h2.2, Or.inl ⟨h1.2.1, h1.2.2, hz⟩⟩
    · obtain ⟨r, q, hz, rfl⟩ := mem_huangSideTrans hm
      have h1 := hs.memB (List.of_mem_zip hz).1
      have h2 := (List.forall₂_iff_zip.mp hb).2 hz
      exact ⟨r, q, rfl, h1.1, h2.1, h2.2, Or.inr ⟨h1.2.1, h1.2.2, hz⟩⟩
  have hbids : (tm.trans.map (fun t => t.bid)).Perm ((A ++ [ms] ++ (B ++ [mb])).map (fun r => r.label)) := by
    refine (hperm.map _).trans ?_
    rw [List.map_append, huangSideTrans_bids la, huangSideTrans_bids lb, ← List.map_append]
  refine ⟨p, rfl, hs.rep, hbids.nodup_iff.mpr hs.nodup, ?_, ?_, mb.price, ms.price, hs.seller, hs.buyer,
    hs.fronts.lt, ?_, ?_⟩
  · intro t htm
    obtain ⟨r, q, rfl, h1, h2, h3, h4⟩ := hmem t htm
    refine ⟨rfl, rfl, rfl, h3, r, h1, rfl, h2, ?_⟩
    rcases h4 with ⟨h5, h6, _⟩ | ⟨h5, h6, _⟩
    · rw [h5, if_neg (by decide)]; exact h6.trans hs.seller
    · rw [h5, if_pos rfl]; exact hs.buyer.trans h6
  · rcases hfull with hf | hf
    · left
      intro t htm hsell
      obtain ⟨r, q, rfl, h1, h2, h3, h4⟩ := hmem t htm
      rcases h4 with ⟨h5, h6, hz⟩ | ⟨h5, h6, _⟩
      · rw [hf] at hz
        rw [qtyOf_some (ht.get_label h1)]
        exact zip_map_self hz
      · rw [ht.isSell_eq h1, h5] at hsell
        cases hsell
    · right
      intro t htm hbuy
      obtain ⟨r, q, rfl, h1, h2, h3, h4⟩ := hmem t htm
      rcases h4 with ⟨h5, h6, hz⟩ | ⟨h5, h6, hz⟩
      · rw [ht.isBuy_eq h1, h5] at hbuy
        cases hbuy
      · rw [hf] at hz
        rw [qtyOf_some (ht.get_label h1)]
        exact zip_map_self hz
  · intro r hrd hc
    have : r.label ∈ tm.trans.map (fun t => t.bid) := by
      rw [hbids.mem_iff]
      apply List.mem_map_of_mem
      cases hbb : r.buying with
      | true =>
        rw [hbb, if_pos rfl] at hc
        exact List.mem_append_right _ (List.mem_append_left _ (hs.fronts.buy_all r hrd hbb hc))
      | false =>
        rw [hbb, if_neg (by decide)] at hc
        exact List.mem_append_left _ (List.mem_append_left _ (hs.fronts.sell_all r hrd hbb hc))
    obtain ⟨t, h1, h2⟩ := List.mem_map.mp this
    exact ⟨t, h1, h2⟩
  · intro t htm
    obtain ⟨r, q, rfl, h1, _, _, h4⟩ := hmem t htm
    refine ⟨r, h1, rfl, ?_⟩
    rcases h4 with ⟨h5, h6, _⟩ | ⟨h5, h6, _⟩
    · rw [h5, if_neg (by decide)]; exact h6
    · rw [h5, if_pos rfl]; exact h6

/-- **C123 (balance), partial.** Full statement: all quantities are non-negative, as much is bought as sold, and
this is the reported quantity. When the sums are computed from left to right, quantities are
non-negative and the rest holds up to about `2n` units in the last place of the total quantity. -/
theorem C123_balance_partial (F : Fmt) (s : Summer F) (S : Sorter) (df : DF) (ht : IsTable df) (hq : NonNeg df)
    (hr : RepBook F df) (n : ℕ) (hs : LeftToRight s n) (hb : (df.filter (fun r => r.buying)).length ≤ n)
    (hsl : (df.filter (fun r => !r.buying)).length ≤ n)
    (tm : TransactionManager) (xe : Option Ext) (v : Val)
    (h : uniformPriceF F s S df = .ok (tm, xe, v)) :
    (∀ t ∈ tm.trans, 0 ≤ t.quantity) ∧
    |boughtQty df tm.trans - soldQty df tm.trans| ≤ slack F n * totalQty df ∧
    ∃ x : ℚ, xe = some (x : Ext) ∧ |boughtQty df tm.trans - x| ≤ slack F n * totalQty df ∧
      |soldQty df tm.trans - x| ≤ slack F n * totalQty df := by
  have e0 := F.eps_nonneg
  obtain ⟨x, p, A, B, ms, mb, rfl, rfl, hS⟩ := uniformF_sides ht hq hr h
  have hP : 1 ≤ (1 + F.eps) ^ n := one_le_pow₀ (by linarith)
  have rA : ∀ r ∈ A ++ [ms], 0 ≤ r.quantity ∧ F.Rep r.quantity :=
    fun r hm => ⟨(hq r (hS.memA hm).1).1, (hr r (hS.memA hm).1).1⟩
  have rB : ∀ r ∈ B ++ [mb], 0 ≤ r.quantity ∧ F.Rep r.quantity :=
    fun r hm => ⟨(hq r (hS.memB hm).1).1, (hr r (hS.memB hm).1).1⟩
  have lA : (A ++ [ms]).length ≤ n := hS.length.1.trans hsl
  have lB : (B ++ [mb]).length ≤ n := hS.length.2.trans hb
  -- the sums are the running totals
  have run : ∀ l : DF, l.length ≤ n → (∀ r ∈ l, 0 ≤ r.quantity ∧ F.Rep r.quantity) →
      s.sum (l.map (fun r => r.quantity)) = runF F l ∧
      |runF F l - totalQty l| ≤ ((1 + F.eps) ^ n - 1) * totalQty l := by
    intro l hl hx
    have e : s.sum (l.map (fun r => r.quantity)) = runF F l := by
      rw [hs _ (by rw [List.length_map]; exact hl), seqSum_addFrom]
      · rfl
      · intro y hy; obtain ⟨r, hm, rfl⟩ := List.mem_map.mp hy; exact (hx r hm).2
    refine ⟨e, ?_⟩
    have := (s.isSum (l.map (fun r => r.quantity))).err (by
      intro y hy; obtain ⟨r, hm, rfl⟩ := List.mem_map.mp hy; exact (hx r hm).1)
    rw [e] at this
    refine this.trans (mul_le_mul_of_nonneg_right (sub_le_sub_right ?_ 1) (totalQty_nonneg (fun r hm => (hx r hm).1)))
    exact pow_le_pow_right₀ (by linarith) (by rw [List.length_map]; omega)
  obtain ⟨sA, eA⟩ := run _ lA rA
  obtain ⟨sB, eB⟩ := run _ lB rB
  have tA := totalQty_nonneg (fun r hm => (rA r hm).1)
  have tB := totalQty_nonneg (fun r hm => (rB r hm).1)
  have hx0 : 0 ≤ x := le_trans (le_addFrom F.rep_zero (by
    intro y hy; obtain ⟨r, hm, rfl⟩ := List.mem_map.mp hy
    exact (rA r (List.mem_append_left _ hm)).1)) hS.runA.1
  -- the bounds on the errors
  have fin : ∀ (a b T t1 t2 : ℚ), T = x → 0 ≤ t1 → 0 ≤ t2 → t1 + t2 ≤ totalQty df → a = t1 →
      |T - t1| ≤ ((1 + F.eps) ^ n - 1) * t1 → |b - T| ≤ ((1 + F.eps) ^ n - 1) * t2 + F.eps * T →
      |b - a| ≤ slack F n * totalQty df ∧ |b - x| ≤ slack F n * totalQty df ∧
        |a - x| ≤ slack F n * totalQty df := by
    rintro a b T t1 t2 rfl h1 h2 h3 rfl h4 h5
    have hT : T ≤ (1 + F.eps) ^ n * a := by have := (abs_le.mp h4).2; linarith
    have k1 : F.eps * T ≤ F.eps * (1 + F.eps) ^ n * totalQty df := by
      rw [mul_assoc]
      refine mul_le_mul_of_nonneg_left (hT.trans (mul_le_mul_of_nonneg_left (by linarith) (by linarith))) e0
    have k2 : ((1 + F.eps) ^ n - 1) * (a + t2) ≤ ((1 + F.eps) ^ n - 1) * totalQty df :=
      mul_le_mul_of_nonneg_left h3 (by linarith)
    have k3 : 0 ≤ ((1 + F.eps) ^ n - 1) * a := mul_nonneg (by linarith) h1
    have k4 : 0 ≤ ((1 + F.eps) ^ n - 1) * t2 := mul_nonneg (by linarith) h2
    have k5 : 0 ≤ F.eps * T := mul_nonneg e0 hx0
    have k6 : 0 ≤ (n : ℚ) * (F.eps * (1 + F.eps) ^ n) * totalQty df :=
      mul_nonneg (by positivity) (by linarith)
    have hsl : slack F n * totalQty df = ((1 + F.eps) ^ n - 1) * totalQty df +
        F.eps * (1 + F.eps) ^ n * totalQty df + (n : ℚ) * (F.eps * (1 + F.eps) ^ n) * totalQty df := by
      unfold slack; ring
    rw [hsl]
    have j4 := abs_le.mp h4
    have j5 := abs_le.mp h5
    simp only [abs_le]
    refine ⟨⟨?_, ?_⟩, ⟨?_, ?_⟩, ⟨?_, ?_⟩⟩ <;> linarith [j4.1, j4.2, j5.1, j5.2]
  have bA : ∀ qs : List ℚ, (A ++ [ms]).length = qs.length →
      soldQty df (huangSideTrans (A ++ [ms]) qs p) = qs.sum ∧ boughtQty df (huangSideTrans (A ++ [ms]) qs p) = 0 :=
    fun qs hl => huangSideTrans_sells ht (fun r hm => ⟨(hS.memA hm).1, (hS.memA hm).2.1⟩) hl
  have bB : ∀ qs : List ℚ, (B ++ [mb]).length = qs.length →
      boughtQty df (huangSideTrans (B ++ [mb]) qs p) = qs.sum ∧ soldQty df (huangSideTrans (B ++ [mb]) qs p) = 0 :=
    fun qs hl => huangSideTrans_buys ht (fun r hm => ⟨(hS.memB hm).1, (hS.memB hm).2.1⟩) hl
  have pos : ∀ (rows : DF) (qs : List ℚ), (∀ q ∈ qs, 0 ≤ q) → ∀ t ∈ huangSideTrans rows qs p, 0 ≤ t.quantity := by
    intro rows qs hqs t htm
    obtain ⟨r, q, hz, rfl⟩ := mem_huangSideTrans htm
    exact hqs q (List.of_mem_zip hz).2
  have posq : ∀ l : DF, (∀ r ∈ l, 0 ≤ r.quantity ∧ F.Rep r.quantity) →
      ∀ q ∈ l.map (fun r => r.quantity), 0 ≤ q := by
    intro l hl q hm
    obtain ⟨r, hm', rfl⟩ := List.mem_map.mp hm
    exact (hl r hm').1
  rcases hS.log with ⟨hlt, e⟩ | ⟨hle, e⟩
  · rw [sA, sB] at hlt
    rw [sA] at e
    have hT : runF F (A ++ [ms]) = x := by
      rcases hS.reach with h1 | h1
      · exact absurd hS.runA.2 (by linarith)
      · exact h1
    obtain ⟨g1, g2⟩ := sum_longQty_err (n := n) (T := runF F (A ++ [ms])) (fun r hm => (rB r hm).1)
      (fun r hm => (rB r hm).2) (by omega) (by rw [hT]; exact hS.runB.1) (by rw [hT]; exact hS.runB.2)
    have l1 := bA _ (List.length_map (as := A ++ [ms]) (fun r => r.quantity)).symm
    have l2 := bB _ (longQty_length (F := F) (runF F (A ++ [ms])) 0 (B ++ [mb])).symm
    have := fin _ _ _ _ _ hT tA tB hS.total (rfl : ((A ++ [ms]).map (fun r => r.quantity)).sum = _) eA g2
    rw [e, boughtQty_append, soldQty_append, l1.1, l1.2, l2.1, l2.2, zero_add, add_zero]
    refine ⟨?_, this.1, x, rfl, this.2⟩
    intro t htm
    rcases List.mem_append.mp htm with hm | hm
    · exact pos _ _ (posq _ rA) t hm
    · exact pos _ _ g1 t hm
  · rw [sA, sB] at hle
    rw [sB] at e
    have hT : runF F (B ++ [mb]) = x := by
      rcases hS.reach with h1 | h1
      · exact h1
      · exact le_antisymm (by linarith) hS.runB.2
    obtain ⟨g1, g2⟩ := sum_longQty_err (n := n) (T := runF F (B ++ [mb])) (fun r hm => (rA r hm).1)
      (fun r hm => (rA r hm).2) (by omega) (by rw [hT]; exact hS.runA.1) (by rw [hT]; exact hS.runA.2)
    have l1 := bB _ (List.length_map (as := B ++ [mb]) (fun r => r.quantity)).symm
    have l2 := bA _ (longQty_length (F := F) (runF F (B ++ [mb])) 0 (A ++ [ms])).symm
    have htot := hS.total
    have := fin _ _ _ _ _ hT tB tA (by linarith) (rfl : ((B ++ [mb]).map (fun r => r.quantity)).sum = _) eB g2
    rw [e, boughtQty_append, soldQty_append, l1.1, l1.2, l2.1, l2.2, zero_add, add_zero]
    refine ⟨?_, ?_, x, rfl, this.2.2, this.2.1⟩
    · intro t htm
      rcases List.mem_append.mp htm with hm | hm
      · exact pos _ _ (posq _ rB) t hm
      · exact pos _ _ g1 t hm
    · rw [abs_sub_comm]; exact this.1

/-! ## Witnesses in float64 -/

/-- Buyers of 0.1 and 0.7 and a seller of 0.4. -/
def tenthsBook : DF := labelFrom 0
  [⟨f64 (1 / 10), 10, 0, true, 0, true⟩, ⟨f64 (7 / 10), 9, 1, true, 0, true⟩,
   ⟨f64 (4 / 10), 1, 2, false, 0, true⟩]

/-- Eight buyers who want 2.6 together, a seller of 2.6 and another seller. -/
def eightBook : DF := labelFrom 0
  [⟨f64 (3 / 10), 20, 0, true, 0, true⟩, ⟨f64 (5 / 10), 19, 1, true, 0, true⟩,
   ⟨f64 (5 / 10), 18, 2, true, 0, true⟩, ⟨f64 (1 / 10), 17, 3, true, 0, true⟩,
   ⟨f64 (1 / 10), 16, 4, true, 0, true⟩, ⟨f64 (4 / 10), 15, 5, true, 0, true⟩,
   ⟨f64 (2 / 10), 14, 6, true, 0, true⟩, ⟨f64 (5 / 10), 13, 7, true, 0, true⟩,
   ⟨f64 (26 / 10), 1, 8, false, 0, true⟩, ⟨1, 2, 9, false, 0, true⟩]

/-- The hypotheses can be met in float64, with NumPy's order of summation. -/
example : IsTable tenthsBook ∧ NonNeg tenthsBook ∧ RepBook float64 tenthsBook ∧
    LeftToRight (pairSummer float64) 7 ∧ (tenthsBook.filter (fun r => r.buying)).length ≤ 7 ∧
    (tenthsBook.filter (fun r => !r.buying)).length ≤ 7 ∧ slack float64 7 < 1 / 10 ^ 14 ∧
    (uniformPriceF float64 (pairSummer float64) stableSorter tenthsBook).toOption.any (fun r =>
      decide (r.2 = (some ((f64 (4 / 10) : ℚ) : Ext), .fin 9))) = true := by
  refine ⟨by decide +kernel, by decide +kernel, ?_, leftToRight_pairSummer _, by decide +kernel,
    by decide +kernel, by decide +kernel, by decide +kernel⟩
  unfold RepBook Fmt.Rep
  decide +kernel

/-- **C123, refuted part (balance).** In float64 the buyer of 0.7, who is to buy what is left of 0.4 after 0.1,
buys 0.30000000000000004: more is bought than sold. -/
theorem C123_balance_refuted :
    IsTable tenthsBook ∧ NonNeg tenthsBook ∧ RepBook float64 tenthsBook ∧
    ∃ tm x v, uniformPriceF float64 (pairSummer float64) stableSorter tenthsBook = .ok (tm, x, v) ∧
      soldQty tenthsBook tm.trans < boughtQty tenthsBook tm.trans := by
  refine ⟨by decide +kernel, by decide +kernel, ?_, ?_⟩
  · unfold RepBook Fmt.Rep
    decide +kernel
  · have h : (uniformPriceF float64 (pairSummer float64) stableSorter tenthsBook).toOption.any (fun r =>
        decide (soldQty tenthsBook r.1.trans < boughtQty tenthsBook r.1.trans)) = true := by decide +kernel
    cases hr : uniformPriceF float64 (pairSummer float64) stableSorter tenthsBook with
    | error e => rw [hr] at h; cases h
    | ok r => rw [hr] at h; exact ⟨r.1, r.2.1, r.2.2, rfl, of_decide_eq_true h⟩

/-- **C123, refuted part (sign).** In float64 with NumPy's `sum()` the running total of the eight buyers exceeds
2.6, so the second seller is needed, but `sum()` gives less than 2.6: the second seller sells a negative
quantity. -/
theorem C123_refuted :
    IsTable eightBook ∧ NonNeg eightBook ∧ RepBook float64 eightBook ∧
    ∃ tm x v, uniformPriceF float64 (pairSummer float64) stableSorter eightBook = .ok (tm, x, v) ∧
      ∃ t ∈ tm.trans, t.bid = 9 ∧ t.quantity < 0 := by
  refine ⟨by decide +kernel, by decide +kernel, ?_, ?_⟩
  · unfold RepBook Fmt.Rep
    decide +kernel
  · have h : (uniformPriceF float64 (pairSummer float64) stableSorter eightBook).toOption.any (fun r =>
        decide (∃ t ∈ r.1.trans, t.bid = 9 ∧ t.quantity < 0)) = true := by decide +kernel
    cases hr : uniformPriceF float64 (pairSummer float64) stableSorter eightBook with
    | error e => rw [hr] at h; cases h
    | ok r => rw [hr] at h; exact ⟨r.1, r.2.1, r.2.2, rfl, of_decide_eq_true h⟩

end PyMarket
