import Verif.Props.FloatRun
import Verif.Props.FloatP2P
import Verif.Props.FloatMuda
import Verif.Lemmas.KnownBids

/-! # C89: peer to peer trading and MUDA with merging, in floating point arithmetic

C77 and C79 are about the functions `p2p_random` and `muda`. With `merge=True` the class merges the bids
first and splits the log afterwards (C81). -/

set_option autoImplicit false

namespace PyMarket

open Spec

section

variable {F : Fmt} {prec : ℕ} {df nb : DF} {mp : List (List ℕ)}

/-- What one merged transaction becomes for one of the merged bids. -/
def partF (F : Fmt) (s : Summer F) (df : DF) (ids : List ℕ) (i : ℕ) (t : Transaction) : Transaction :=
  ⟨i, F.rnd (t.quantity * F.rnd (qtyOf df i / s.sum (ids.map (qtyOf df)))), t.price, t.source, t.active⟩

theorem filter_beq_of_nodup {ids : List ℕ} (hn : ids.Nodup) {i : ℕ} (hi : i ∈ ids) :
    ids.filter (fun j => j == i) = [i] := by
  induction ids with
  | nil => cases hi
  | cons a l ih =>
    rw [List.nodup_cons] at hn
    rcases List.mem_cons.mp hi with rfl | hi
    · rw [List.filter_cons, if_pos (by simp)]
      have : l.filter (fun j => j == i) = [] := by
        rw [List.filter_eq_nil_iff]
        intro j hj h
        exact hn.1 (by simpa [beq_iff_eq.mp h] using hj)
      rw [this]
    · rw [List.filter_cons, if_neg, ih hn.2 hi]
      intro h
      exact hn.1 (by simpa [beq_iff_eq.mp h] using hi)

/-- The transactions of a bid are those of its group, scaled. -/
theorem MergeSpecF.filter_bid (h : MergeSpecF F prec df nb mp) {s : Summer F} {ts : List Transaction}
    (hts : ∀ t ∈ ts, t.bid < nb.length) {k i : ℕ} {ids : List ℕ} (hk : mp[k]? = some ids) (hi : i ∈ ids) :
    (ts.flatMap (splitTF F s df mp)).filter (fun t => t.bid == i) =
      (ts.filter (fun t => t.bid == k)).map (partF F s df ids i) := by
  have hnd : ids.Nodup := (List.nodup_flatten.mp (h.perm.nodup_iff.mpr List.nodup_range)).1 ids
    (List.mem_of_getElem? hk)
  induction ts with
  | nil => rfl
  | cons t ts ih =>
    rw [List.flatMap_cons, List.filter_append, ih (fun t ht => hts t (List.mem_cons_of_mem _ ht)),
      List.filter_cons]
    obtain ⟨row, ids', _, hi'⟩ := h.get (hts t List.mem_cons_self)
    have hsplit : splitTF F s df mp t = ids'.map (fun j => partF F s df ids' j t) := by
      unfold splitTF partF; rw [hi', Option.getD_some]
    rw [hsplit, List.filter_map]
    have e : (fun u : Transaction => u.bid == i) ∘ (fun j => partF F s df ids' j t) = fun j => j == i := rfl
    rw [e]
    by_cases htk : t.bid = k
    · rw [if_pos (by simpa using htk)]
      rw [htk, hk] at hi'
      cases hi'
      rw [filter_beq_of_nodup hnd hi]
      rfl
    · rw [if_neg (by simpa using htk)]
      have : ids'.filter (fun j => j == i) = [] := by
        rw [List.filter_eq_nil_iff]
        intro j hj hji
        rw [beq_iff_eq] at hji
        subst hji
        exact htk (h.ids_inj hi' hk hj hi)
      rw [this]
      rfl

/-- A bid trades its share of what its group trades, up to rounding. -/
theorem MergeSpecF.traded_lift (h : MergeSpecF F prec df nb mp) (hq : ∀ i, 0 ≤ qtyOf df i) {s : Summer F}
    {ts : List Transaction} (hts : ∀ t ∈ ts, t.bid < nb.length ∧
      s.sum (((mp[t.bid]?).getD []).map (qtyOf df)) ≠ 0 ∧ 0 ≤ t.quantity) {k i : ℕ} {ids : List ℕ}
    (hk : mp[k]? = some ids) (hi : i ∈ ids) :
    meetingsOf (ts.flatMap (splitTF F s df mp)) i = meetingsOf ts k ∧
    ∀ c, 0 ≤ c → tradedBy ts k ≤ qtyOf nb k * c →
      tradedBy (ts.flatMap (splitTF F s df mp)) i ≤ spread F (2 * df.length + 1) * (qtyOf df i * c) := by
  have hf := h.filter_bid (s := s) (fun t ht => (hts t ht).1) hk hi
  refine ⟨by unfold meetingsOf; rw [hf, List.length_map], ?_⟩
  intro c hc hcap
  have e0 := F.eps_nonneg
  obtain ⟨row, hrow⟩ := h.row hk
  obtain ⟨hne, g2, _⟩ := h.group _ row ids hrow hk
  rw [qtyOf_some hrow] at hcap
  have hl' : ∀ x ∈ ids.map (qtyOf df), 0 ≤ x := by
    intro x hx; obtain ⟨i, _, rfl⟩ := List.mem_map.mp hx; exact hq i
  set A := (ids.map (qtyOf df)).sum with hA
  have hA0 : 0 ≤ A := List.sum_nonneg hl'
  have hS := one_le_spread F (df.length + 1)
  have hS2 := one_le_spread F (2 * df.length + 1)
  have hsum : tradedBy (ts.flatMap (splitTF F s df mp)) i =
      ((ts.filter (fun t => t.bid == k)).map (fun t => (partF F s df ids i t).quantity)).sum := by
    unfold tradedBy; rw [hf, List.map_map]; rfl
  have hstep : tradedBy (ts.flatMap (splitTF F s df mp)) i * A ≤
      spread F (df.length + 1) * (tradedBy ts k * qtyOf df i) := by
    rw [hsum]
    unfold tradedBy
    rw [← List.sum_map_mul_right, ← List.sum_map_mul_right, ← List.sum_map_mul_left]
    apply List.sum_le_sum
    intro t ht
    rw [List.mem_filter, beq_iff_eq] at ht
    obtain ⟨h1, h2, h3⟩ := hts t ht.1
    rw [ht.2, hk, Option.getD_some] at h2
    have hT : 0 < s.sum (ids.map (qtyOf df)) := lt_of_le_of_ne ((s.isSum _).nonneg hl') (Ne.symm h2)
    exact (part_bounds (s.isSum (ids.map (qtyOf df))) hl' hT (hq i) h3
      (n := df.length) (by rw [List.length_map]; exact h.ids_length hk) (by simpa using hne)).2.2.1
  by_cases hA1 : A = 0
  · -- then nothing is traded
    have hz : ts.filter (fun t => t.bid == k) = [] := by
      rw [List.filter_eq_nil_iff]
      intro t ht htk
      rw [beq_iff_eq] at htk
      have h2 := (hts t ht).2.1
      rw [htk, hk, Option.getD_some] at h2
      have hb := ((s.isSum (ids.map (qtyOf df))).bounds hl')
      rw [← hA, hA1, mul_zero, mul_zero] at hb
      exact h2 (le_antisymm hb.2 hb.1)
    rw [hsum, hz]
    have := mul_nonneg (hq i) hc
    simpa using mul_nonneg (by linarith : 0 ≤ spread F (2 * df.length + 1)) this
  · have hApos : 0 < A := lt_of_le_of_ne hA0 (Ne.symm hA1)
    have hQ : row.quantity ≤ spread F df.length * A := by
      refine (g2.bounds hl').2.trans ?_
      apply mul_le_mul_of_nonneg_right _ hA0
      apply pow_up_le_spread
      rw [List.length_map]
      have := h.ids_length hk
      omega
    have hm : spread F (2 * df.length + 1) = spread F (df.length + 1) * spread F df.length := by
      unfold spread
      rw [← pow_add]
      congr 1
      omega
    refine le_of_mul_le_mul_right ?_ hApos
    calc tradedBy (ts.flatMap (splitTF F s df mp)) i * A
        ≤ spread F (df.length + 1) * (tradedBy ts k * qtyOf df i) := hstep
      _ ≤ spread F (df.length + 1) * ((spread F df.length * A * c) * qtyOf df i) := by
          apply mul_le_mul_of_nonneg_left _ (by linarith)
          apply mul_le_mul_of_nonneg_right _ (hq i)
          exact hcap.trans (mul_le_mul_of_nonneg_right hQ hc)
      _ = spread F (2 * df.length + 1) * (qtyOf df i * c) * A := by rw [hm]; ring

/-- The money of one split transaction. -/
theorem money_split (df' : DF) (s : Summer F) (t : Transaction) :
    paid df' (splitTF F s df mp t) = t.price * boughtQty df' (splitTF F s df mp t) ∧
    received df' (splitTF F s df mp t) = t.price * soldQty df' (splitTF F s df mp t) := by
  have hp : ∀ u ∈ splitTF F s df mp t, u.price = t.price := by
    intro u hu
    unfold splitTF at hu
    obtain ⟨i, _, rfl⟩ := List.mem_map.mp hu
    rfl
  unfold paid received boughtQty soldQty
  rw [← List.sum_map_mul_left, ← List.sum_map_mul_left]
  constructor <;>
  · congr 1
    apply List.map_congr_left
    intro u hu
    rw [hp u (List.mem_filter.mp hu).1]
    ring

/-- The money paid and received hardly changes when the log is split. -/
theorem MergeSpecF.money_lift (h : MergeSpecF F prec df nb mp) (hq : ∀ i, 0 ≤ qtyOf df i) {s : Summer F}
    {ts : List Transaction} (hts : ∀ t ∈ ts, t.bid < nb.length ∧
      s.sum (((mp[t.bid]?).getD []).map (qtyOf df)) ≠ 0 ∧ 0 ≤ t.quantity ∧ (t.quantity ≠ 0 → 0 ≤ t.price)) :
    |paid df (ts.flatMap (splitTF F s df mp)) - paid nb ts| ≤
      (spread F (df.length + 1) - 1) * paid nb ts ∧
    |received df (ts.flatMap (splitTF F s df mp)) - received nb ts| ≤
      (spread F (df.length + 1) - 1) * received nb ts := by
  induction ts with
  | nil => simp [paid, received]
  | cons t ts ih =>
    obtain ⟨h1, h2, h3, h4⟩ := hts t List.mem_cons_self
    obtain ⟨a1, a2⟩ := h.side_split hq h1 h2 h3
    obtain ⟨b1, b2⟩ := ih (fun t ht => hts t (List.mem_cons_of_mem _ ht))
    have e1 : paid nb (t :: ts) = t.price * boughtQty nb [t] + paid nb ts := by
      have := paid_append nb [t] ts
      rw [List.singleton_append] at this
      rw [this]
      congr 1
      unfold paid boughtQty
      simp only [List.filter_cons, List.filter_nil]
      split <;> simp [mul_comm]
    have e2 : received nb (t :: ts) = t.price * soldQty nb [t] + received nb ts := by
      have := received_append nb [t] ts
      rw [List.singleton_append] at this
      rw [this]
      congr 1
      unfold received soldQty
      simp only [List.filter_cons, List.filter_nil]
      split <;> simp [mul_comm]
    obtain ⟨m1, m2⟩ := money_split (F := F) (df := df) (mp := mp) df s t
    rw [List.flatMap_cons, paid_append, received_append, e1, e2, m1, m2]
    have c : |t.price * boughtQty df (splitTF F s df mp t) - t.price * boughtQty nb [t]| ≤
          t.price * ((spread F (df.length + 1) - 1) * boughtQty nb [t]) ∧
        |t.price * soldQty df (splitTF F s df mp t) - t.price * soldQty nb [t]| ≤
          t.price * ((spread F (df.length + 1) - 1) * soldQty nb [t]) := by
      by_cases h0 : t.quantity = 0
      · have z : boughtQty nb [t] = 0 ∧ soldQty nb [t] = 0 := by
          unfold boughtQty soldQty
          simp only [List.filter_cons, List.filter_nil]
          constructor <;> split <;> simp [h0]
        rw [z.1] at a1
        rw [z.2] at a2
        rw [z.1, z.2]
        simp only [sub_zero, mul_zero, abs_nonpos_iff] at a1 a2 ⊢
        rw [a1, a2]
        simp
      · have h4 := h4 h0
        rw [← mul_sub, ← mul_sub, abs_mul, abs_mul, abs_of_nonneg h4]
        exact ⟨mul_le_mul_of_nonneg_left a1 h4, mul_le_mul_of_nonneg_left a2 h4⟩
    obtain ⟨c1, c2⟩ := c
    rw [abs_le] at b1 b2 c1 c2 ⊢
    rw [abs_le]
    constructor <;> constructor <;> linarith [b1.1, b1.2, b2.1, b2.2, c1.1, c1.2, c2.1, c2.2]

end

/-! ## Peer to peer trading -/

/-- A run of the class with merging, seen from the merged table. -/
theorem p2pRunF_inv {F : Fmt} {s g o : Summer F} {S : Sorter} {smp : Sampler} {c : ℚ} {choice : ℕ → ℕ}
    {df : DF} (ht : IsTable df) (hq : NonNeg df) (hr : RepBook F df) {tm : TransactionManager} {ex : Extra}
    (h : runAlgoF F s g o S smp (.p2p true c choice) df = .ok (tm, ex)) :
    ∃ nb mp tm₀, MergeSpecF F 5 df nb mp ∧
      (∀ t ∈ tm₀.trans, t.bid < nb.length ∧ s.sum (((mp[t.bid]?).getD []).map (qtyOf df)) ≠ 0) ∧
      tm.trans = tm₀.trans.flatMap (splitTF F s df mp) ∧ IsTable nb ∧ NonNeg nb ∧ RepBook F nb ∧
      (tm₀.trans = [] ∨ p2pRandomF F s c choice nb = .ok (tm₀, ex)) := by
  obtain ⟨nb, mp, tm₀, _, hM, hrun, hk, htr⟩ := mechanismF_inv ht h
  refine ⟨nb, mp, tm₀, hM, hk, htr, hM.table, hM.nonNeg hq, hM.repBook hr, ?_⟩
  unfold mechRun at hrun
  simp only at hrun
  split at hrun
  · exact Or.inr hrun
  · cases hrun
    exact Or.inl rfl

/-- The merged log of peer to peer trading has non-negative quantities and, for coefficients in `[0, 1]`,
prices. -/
theorem p2pF_nonneg {F : Fmt} {s : Summer F} {c : ℚ} {choice : ℕ → ℕ} {df : DF} (ht : IsTable df)
    (hq : NonNeg df) (hr : RepBook F df) {tm : TransactionManager} {ex : Extra}
    (h : p2pRandomF F s c choice df = .ok (tm, ex)) : ∀ t ∈ tm.trans, 0 ≤ t.quantity := by
  obtain ⟨tm', R, h1, h2, h3⟩ := C77_log F s c choice df ht hq hr
  rw [h] at h1
  cases h1
  intro t htm
  obtain ⟨j, hj⟩ := List.getElem?_of_mem htm
  have hlt := (List.getElem?_eq_some_iff.mp hj).1
  rcases Nat.even_or_odd' j with ⟨m, rfl | rfl⟩
  · obtain ⟨q, price, a, a', k1, k2, k3, _⟩ := h3 m _ (List.getElem?_eq_getElem (by omega))
    rw [hj] at k1
    cases k1
    exact k3
  · obtain ⟨q, price, a, a', k1, k2, k3, _⟩ := h3 m _ (List.getElem?_eq_getElem (by omega))
    rw [hj] at k2
    cases k2
    exact k3

/-- A transaction with a quantity in the final log: what its merged transaction is about. -/
theorem p2pRunF_trade {F : Fmt} {s g o : Summer F} {S : Sorter} {smp : Sampler} {c : ℚ} {choice : ℕ → ℕ}
    {df : DF} (ht : IsTable df) (hq : NonNeg df) (hr : RepBook F df) {tm : TransactionManager} {ex : Extra}
    (h : runAlgoF F s g o S smp (.p2p true c choice) df = .ok (tm, ex)) (lo hi : ℚ)
    (hlohi : ∀ nb, IsTable nb → NonNeg nb → RepBook F nb → ∃ tm R, p2pRandomF F s c choice nb = .ok (tm, .p2p R) ∧
      ∀ t ∈ tm.trans, t.quantity ≠ 0 → ∃ b r, (b, r) ∈ R.flatten ∧ IsPair nb b r ∧
        ((t.bid = b ∧ t.source = (r : ℤ)) ∨ (t.bid = r ∧ t.source = (b : ℤ))) ∧
        lo * priceOf nb r ≤ t.price ∧ t.price ≤ hi * priceOf nb b)
    {u : Transaction} (hu : u ∈ tm.trans) (hu0 : u.quantity ≠ 0) :
    ∃ r, df[u.bid]? = some r ∧ (r.buying = true → u.price ≤ hi * npRoundF F 5 r.price) ∧
      (r.buying = false → lo * npRoundF F 5 r.price ≤ u.price) := by
  obtain ⟨nb, mp, tm₀, hM, hk, htr, h1, h2, h3, hcase⟩ := p2pRunF_inv ht hq hr h
  rw [htr] at hu
  obtain ⟨t, htm, row, ids, r, c1, c2, c3, c4, c5, c6, c7, c8⟩ := hM.mem_lift (fun t ht => (hk t ht).1) hu
  refine ⟨r, c4, ?_⟩
  rcases hcase with hcase | hcase
  · rw [hcase] at htm; cases htm
  obtain ⟨tm', R, d1, d2⟩ := hlohi nb h1 h2 h3
  rw [hcase] at d1
  cases d1
  have ht0 : t.quantity ≠ 0 := by
    intro h0
    rw [c8, h0, zero_mul] at hu0
    exact hu0 F.rep_zero
  obtain ⟨b, l, _, ⟨p1, p2⟩, hwho, hlo, hhi⟩ := d2 t htm ht0
  rw [c5, c6, c7]
  rcases hwho with ⟨w, -⟩ | ⟨w, -⟩
  · rw [← w] at p1 hhi
    rw [isBuy_some c1] at p1
    rw [priceOf_some c1] at hhi
    refine ⟨fun _ => hhi, fun hb => ?_⟩
    rw [p1] at hb; cases hb
  · rw [← w] at p2 hlo
    rw [isSell_some c1] at p2
    rw [priceOf_some c1] at hlo
    refine ⟨fun hb => ?_, fun _ => hlo⟩
    rw [hb] at p2; cases p2

/-- **C89, peer to peer trading (prices).** With merging and the default coefficient ½, nobody trades at a
price worse than their own by more than the rounding of a price to five decimals; if the prices have at most
five decimals, nobody trades at a worse price at all. -/
theorem C89_p2p_rational (F : Fmt) (s g o : Summer F) (S : Sorter) (smp : Sampler) (choice : ℕ → ℕ) (df : DF)
    (ht : IsTable df) (hq : NonNeg df) (hr : RepBook F df) (tm : TransactionManager) (ex : Extra)
    (h : runAlgoF F s g o S smp (.p2p true (1 / 2) choice) df = .ok (tm, ex)) :
    ∀ t ∈ tm.trans, t.quantity ≠ 0 → ∃ r, df[t.bid]? = some r ∧
      (r.buying = true → t.price ≤ r.price + tick F r.price) ∧
      (r.buying = false → r.price - tick F r.price ≤ t.price) ∧
      (FiveDecimalsF F df → (r.buying = true → t.price ≤ r.price) ∧ (r.buying = false → r.price ≤ t.price)) := by
  intro u hu hu0
  obtain ⟨r, c1, c2, c3⟩ := p2pRunF_trade ht hq hr h 1 1 (fun nb h1 h2 h3 => by
    simpa only [one_mul] using C77_prices F s choice nb h1 h3) hu hu0
  rw [one_mul] at c2 c3
  have hnear := abs_le.mp (npRoundF_near F 5 r.price)
  refine ⟨r, c1, fun hb => ?_, fun hb => ?_, fun h5 => ?_⟩
  · unfold tick; linarith [hnear.2, c2 hb]
  · unfold tick; linarith [hnear.1, c3 hb]
  · rw [npRoundF_five h5 (List.mem_of_getElem? c1)] at c2 c3
    exact ⟨c2, c3⟩

/-- **C89, peer to peer trading (prices, other coefficients), partial.** For any `p_coef` in `[0, 1]` three
relative rounding errors come on top. Full statement: as for the coefficient ½. Missing: the computed mean may
be outside the interval between the two prices (`C77_prices_refuted`). -/
theorem C89_p2p_rational_partial (F : Fmt) (s g o : Summer F) (S : Sorter) (smp : Sampler) (c : ℚ) (hc0 : 0 ≤ c)
    (hc1 : c ≤ 1) (choice : ℕ → ℕ) (df : DF)
    (ht : IsTable df) (hq : NonNeg df) (hr : RepBook F df) (tm : TransactionManager) (ex : Extra)
    (h : runAlgoF F s g o S smp (.p2p true c choice) df = .ok (tm, ex)) :
    ∀ t ∈ tm.trans, t.quantity ≠ 0 → ∃ r, df[t.bid]? = some r ∧
      (r.buying = true → t.price ≤ (1 + F.eps) ^ 3 * (r.price + tick F r.price)) ∧
      (r.buying = false → (1 - F.eps) ^ 3 * (r.price - tick F r.price) ≤ t.price) := by
  intro u hu hu0
  obtain ⟨r, c1, c2, c3⟩ := p2pRunF_trade ht hq hr h ((1 - F.eps) ^ 3) ((1 + F.eps) ^ 3) (fun nb h1 h2 h3 =>
    C77_prices_partial F s c hc0 hc1 choice nb h1 h2) hu hu0
  have hnear := abs_le.mp (npRoundF_near F 5 r.price)
  have e0 := F.eps_nonneg
  have e1 := one_sub_eps_pos F
  refine ⟨r, c1, fun hb => (c2 hb).trans ?_, fun hb => le_trans ?_ (c3 hb)⟩
  · apply mul_le_mul_of_nonneg_left _ (by positivity)
    unfold tick; linarith [hnear.2]
  · apply mul_le_mul_of_nonneg_left _ (by positivity)
    unfold tick; linarith [hnear.1]

/-- **C89, peer to peer trading (quantities and money), partial.** Full statement: no bid trades more than its
quantity, as much is bought as sold and as much is paid as received. With rounding and merging this holds up to
about `4n` units in the last place (and the number of meetings) of the bid's quantity, and up to about `2n` units
in the last place of the volume and of the turnover. -/
theorem C89_p2p_quantities_partial (F : Fmt) (s g o : Summer F) (S : Sorter) (smp : Sampler) (c : ℚ)
    (hc0 : 0 ≤ c) (hc1 : c ≤ 1) (choice : ℕ → ℕ) (df : DF)
    (ht : IsTable df) (hq : NonNeg df) (hr : RepBook F df) (tm : TransactionManager) (ex : Extra)
    (h : runAlgoF F s g o S smp (.p2p true c choice) df = .ok (tm, ex)) :
    (∀ t ∈ tm.trans, t.bid < df.length ∧ 0 ≤ t.quantity ∧ F.Rep t.quantity) ∧
    (∀ i < df.length, tradedBy tm.trans i ≤
      spread F (2 * df.length + 1) * (qtyOf df i * (1 + meetingsOf tm.trans i * F.eps))) ∧
    (∃ V, 0 ≤ V ∧ |boughtQty df tm.trans - V| ≤ (spread F (df.length + 1) - 1) * V ∧
      |soldQty df tm.trans - V| ≤ (spread F (df.length + 1) - 1) * V) ∧
    (∃ M, 0 ≤ M ∧ |paid df tm.trans - M| ≤ (spread F (df.length + 1) - 1) * M ∧
      |received df tm.trans - M| ≤ (spread F (df.length + 1) - 1) * M) := by
  have e0 := F.eps_nonneg
  have e1 := one_sub_eps_pos F
  obtain ⟨nb, mp, tm₀, hM, hk, htr, h1, h2, h3, hcase⟩ := p2pRunF_inv ht hq hr h
  have hqty : ∀ i, 0 ≤ qtyOf df i := qtyOf_nonneg hq.qty
  have hS2 := one_le_spread F (2 * df.length + 1)
  have hnn : ∀ t ∈ tm₀.trans, 0 ≤ t.quantity := by
    rcases hcase with hcase | hcase
    · rw [hcase]; simp
    · exact p2pF_nonneg h1 h2 h3 hcase
  have hpr : ∀ t ∈ tm₀.trans, t.quantity ≠ 0 → 0 ≤ t.price := by
    rcases hcase with hcase | hcase
    · rw [hcase]; simp
    · intro t htm ht0
      obtain ⟨tm', R, d1, d2⟩ := C77_prices_partial F s c hc0 hc1 choice nb h1 h2
      rw [hcase] at d1
      cases d1
      obtain ⟨b, r, _, _, _, hlo, _⟩ := d2 t htm ht0
      refine le_trans (mul_nonneg (by positivity) ?_) hlo
      unfold priceOf
      cases hi : nb[r]? with
      | none => exact le_refl _
      | some r => exact (h2 r (List.mem_of_getElem? hi)).2
  have hbal : boughtQty nb tm₀.trans = soldQty nb tm₀.trans ∧ paid nb tm₀.trans = received nb tm₀.trans := by
    rcases hcase with hcase | hcase
    · rw [hcase]; simp [boughtQty, soldQty, paid, received]
    · obtain ⟨tm', R, d1, d2, d3⟩ := C77_balance F s c choice nb h1
      rw [hcase] at d1
      cases d1
      exact ⟨d2, d3⟩
  refine ⟨?_, ?_, ?_, ?_⟩
  · intro u hu
    rw [htr] at hu
    obtain ⟨t, htm, row, ids, r, c1, c2, c3, c4, c5, c6, c7, c8⟩ := hM.mem_lift (fun t ht => (hk t ht).1) hu
    refine ⟨(List.getElem?_eq_some_iff.mp c4).1, ?_, ?_⟩
    · rw [c8]
      have hl' : ∀ x ∈ ids.map (qtyOf df), 0 ≤ x := by
        intro x hx; obtain ⟨i, _, rfl⟩ := List.mem_map.mp hx; exact hqty i
      exact F.rnd_nonneg (mul_nonneg (hnn t htm) (F.rnd_nonneg (div_nonneg (hqty _) ((s.isSum _).nonneg hl'))))
    · rw [c8]; exact F.rep_rnd _
  · intro i hi
    have hmem : i ∈ mp.flatten := hM.perm.mem_iff.mpr (List.mem_range.mpr hi)
    obtain ⟨ids, hids, hii⟩ := List.mem_flatten.mp hmem
    obtain ⟨k, hkk⟩ := List.getElem?_of_mem hids
    obtain ⟨m1, m2⟩ := hM.traded_lift hqty (s := s) (ts := tm₀.trans)
      (fun t ht => ⟨(hk t ht).1, (hk t ht).2, hnn t ht⟩) hkk hii
    rw [htr, m1]
    apply m2 _ (by positivity)
    rcases hcase with hcase | hcase
    · have : 0 ≤ qtyOf nb k := qtyOf_nonneg h2.qty k
      rw [hcase]
      simpa [tradedBy, meetingsOf] using this
    · obtain ⟨tm', R, d1, d2, _⟩ := C77_capacity_partial F s c choice nb h1 h2 h3
      rw [hcase] at d1
      cases d1
      exact d2 k
  · obtain ⟨l1, l2⟩ := hM.side_lift hqty (s := s) (ts := tm₀.trans)
      (fun t ht => ⟨(hk t ht).1, (hk t ht).2, hnn t ht⟩)
    rw [← htr, ← hbal.1] at l2
    rw [← htr] at l1
    refine ⟨_, ?_, l1, l2⟩
    unfold boughtQty
    apply List.sum_nonneg
    intro x hx
    obtain ⟨t, ht, rfl⟩ := List.mem_map.mp hx
    exact hnn t (List.mem_filter.mp ht).1
  · obtain ⟨l1, l2⟩ := hM.money_lift hqty (s := s) (ts := tm₀.trans)
      (fun t ht => ⟨(hk t ht).1, (hk t ht).2, hnn t ht, hpr t ht⟩)
    rw [← htr, ← hbal.2] at l2
    rw [← htr] at l1
    refine ⟨_, ?_, l1, l2⟩
    unfold paid
    apply List.sum_nonneg
    intro x hx
    obtain ⟨t, ht, rfl⟩ := List.mem_map.mp hx
    by_cases h0 : t.quantity = 0
    · rw [h0, zero_mul]
    · exact mul_nonneg (hnn t (List.mem_filter.mp ht).1) (hpr t (List.mem_filter.mp ht).1 h0)

/-- **C89, peer to peer trading (returns).** If all quantities are positive, peer to peer trading with merging
returns, whatever the rounding. -/
theorem C89_p2p_returns (F : Fmt) (s g o : Summer F) (S : Sorter) (smp : Sampler) (c : ℚ) (choice : ℕ → ℕ)
    (df : DF) (ht : IsTable df) (hq : ∀ r ∈ df, 0 < r.quantity) :
    ∃ tm ex, runAlgoF F s g o S smp (.p2p true c choice) df = .ok (tm, ex) := by
  obtain ⟨nb, mp, hm, hM⟩ := mergeF_spec F g smp 5 ht
  have hrun : ∃ tm ex, mechRun (p2pRandomF F s c choice) nb = .ok (tm, ex) ∧
      ∀ t ∈ tm.trans, t.bid < nb.length := by
    unfold mechRun
    simp only
    split
    · obtain ⟨tm, R, h1, h2⟩ := p2pF_run F s c choice nb hM.table
      refine ⟨tm, _, h1, ?_⟩
      intro t htm
      rw [h2.loop.trans] at htm
      obtain ⟨p, hp, hor, -⟩ := tradeRoundF_price F t htm
      obtain ⟨p1, p2⟩ := h2.pair p hp
      rcases hor with ⟨w, -⟩ | ⟨w, -⟩
      · rw [w]; exact lt_of_isBuy p1
      · rw [w]; exact lt_of_isSell p2
    · exact ⟨_, _, rfl, by simp [TransactionManager.init]⟩
  obtain ⟨tm, ex, hr, hb⟩ := hrun
  have hpos : ∀ t ∈ tm.trans, s.sum (((mp[t.bid]?).getD []).map (qtyOf df)) ≠ 0 := by
    intro t htm
    obtain ⟨row, ids, h1, h2⟩ := hM.get (hb t htm)
    rw [h2, Option.getD_some]
    obtain ⟨hne, _, _⟩ := hM.group _ row ids h1 h2
    have hp : ∀ i ∈ ids, 0 < qtyOf df i := by
      intro i hi
      have hlt := hM.lt h2 i hi
      rw [qtyOf_some (List.getElem?_eq_getElem hlt)]
      exact hq _ (List.getElem_mem hlt)
    have hl' : ∀ x ∈ ids.map (qtyOf df), 0 ≤ x := by
      intro x hx; obtain ⟨i, hi, rfl⟩ := List.mem_map.mp hx; exact (hp i hi).le
    have hb := ((s.isSum (ids.map (qtyOf df))).bounds hl').1
    have hs : 0 < (ids.map (qtyOf df)).sum := by
      apply List.sum_pos
      · intro x hx; obtain ⟨i, hi, rfl⟩ := List.mem_map.mp hx; exact hp i hi
      · simpa using hne
    have := one_sub_eps_pos F
    have : 0 < (1 - F.eps) ^ ((ids.map (qtyOf df)).length - 1) * (ids.map (qtyOf df)).sum := by positivity
    exact (lt_of_lt_of_le this hb).ne'
  have hs := splitTransactionsF_eq s hM (tm := tm) hb
  rw [if_neg] at hs
  · refine ⟨TransactionManager.init.addAll (tm.trans.flatMap (splitTF F s df mp)), ex, ?_⟩
    show mechanismF F s g smp true (p2pRandomF F s c choice) df = _
    unfold mechanismF
    simp only [if_true, hm, bind, Except.bind, hr, hs]
  · rintro ⟨t, htm, h0⟩
    exact hpos t htm h0

/-! ## MUDA -/

/-- A run of the class with merging, seen from the merged table. -/
theorem mudaRunF_inv {F : Fmt} {s g o : Summer F} {S : Sorter} {smp : Sampler} {coin : ℕ → Bool}
    {df : DF} (ht : IsTable df) (hq : NonNeg df) (hr : RepBook F df) {tm : TransactionManager} {ex : Extra}
    (h : runAlgoF F s g o S smp (.muda true coin) df = .ok (tm, ex)) :
    ∃ nb mp tm₀, MergeSpecF F 5 df nb mp ∧
      (∀ t ∈ tm₀.trans, t.bid < nb.length ∧ s.sum (((mp[t.bid]?).getD []).map (qtyOf df)) ≠ 0) ∧
      tm.trans = tm₀.trans.flatMap (splitTF F s df mp) ∧ IsTable nb ∧ NonNeg nb ∧ RepBook F nb ∧
      ((tm₀.trans = [] ∧ ex = .empty) ∨ ∃ left right pl pr fees, ex = .muda left right pl pr fees ∧
        mudaF F s o S coin nb = .ok (tm₀, .muda left right pl pr fees)) := by
  obtain ⟨nb, mp, tm₀, _, hM, hrun, hk, htr⟩ := mechanismF_inv ht h
  refine ⟨nb, mp, tm₀, hM, hk, htr, hM.table, hM.nonNeg hq, hM.repBook hr, ?_⟩
  unfold mechRun at hrun
  simp only at hrun
  split at hrun
  · obtain ⟨_, _, _, _, _, he, -⟩ := mudaF_run hM.table hrun
    subst he
    exact Or.inr ⟨_, _, _, _, _, rfl, hrun⟩
  · cases hrun
    exact Or.inl ⟨rfl, rfl⟩

/-- **C89, MUDA (trades and fees).** Whenever MUDA with merging returns, whatever the rounding and the order of
summation: nobody trades at a price worse than their own by more than the rounding of a price to five decimals
(not at all if the prices have at most five decimals), every bid has at most one transaction, about no more than
its quantity, and no fee is negative. -/
theorem C89_muda_rational (F : Fmt) (s g o : Summer F) (S : Sorter) (smp : Sampler) (coin : ℕ → Bool) (df : DF)
    (ht : IsTable df) (hq : NonNeg df) (hr : RepBook F df) (tm : TransactionManager) (ex : Extra)
    (h : runAlgoF F s g o S smp (.muda true coin) df = .ok (tm, ex)) :
    (tm.trans.map (fun t => t.bid)).Nodup ∧
    (∀ t ∈ tm.trans, ∃ r, df[t.bid]? = some r ∧
      t.quantity ≤ spread F (df.length + 1) * r.quantity ∧
      (r.buying = true → t.price ≤ r.price + tick F r.price) ∧
      (r.buying = false → r.price - tick F r.price ≤ t.price) ∧
      (FiveDecimalsF F df → (r.buying = true → t.price ≤ r.price) ∧ (r.buying = false → r.price ≤ t.price))) ∧
    ((tm.trans = [] ∧ ex = .empty) ∨ ∃ left right pl pr fees, ex = .muda left right pl pr fees ∧ ∀ x ∈ fees, 0 ≤ x) := by
  obtain ⟨nb, mp, tm₀, hM, hk, htr, h1, h2, h3, hcase⟩ := mudaRunF_inv ht hq hr h
  have hqty : ∀ i, 0 ≤ qtyOf df i := qtyOf_nonneg hq.qty
  rcases hcase with ⟨hc, he⟩ | ⟨left, right, pl, pr, fees, he, hrun⟩
  · rw [htr, hc]
    exact ⟨by simp, by simp, Or.inl ⟨rfl, he⟩⟩
  obtain ⟨d1, d2, d3, d4⟩ := C79_rational F s o S coin nb h1 (fun r hr => (h2 r hr).1) tm₀ left right pl pr fees hrun
  refine ⟨?_, ?_, Or.inr ⟨left, right, pl, pr, fees, he, d4⟩⟩
  · rw [htr]
    exact hM.nodup_lift d2 (fun t ht => (hk t ht).1)
  · intro u hu
    rw [htr] at hu
    obtain ⟨t, htm, row, ids, r, c1, c2, c3, c4, c5, c6, c7, c8⟩ := hM.mem_lift (fun t ht => (hk t ht).1) hu
    obtain ⟨hne, g2, _⟩ := hM.group _ row ids c1 c2
    obtain ⟨_, f2, _, _, f5, f6⟩ := d1 t htm
    rw [isBuy_some c1, priceOf_some c1, ← c5, ← c6, ← c7] at f5
    rw [isSell_some c1, priceOf_some c1, ← c5, ← c6, ← c7] at f6
    have hnear := abs_le.mp (npRoundF_near F 5 r.price)
    refine ⟨r, c4, ?_, fun hb => ?_, fun hb => ?_, fun h5 => ?_⟩
    · have hl' : ∀ x ∈ ids.map (qtyOf df), 0 ≤ x := by
        intro x hx; obtain ⟨i, _, rfl⟩ := List.mem_map.mp hx; exact hqty i
      have hz := (hk t htm).2
      rw [c2, Option.getD_some] at hz
      have hT : 0 < s.sum (ids.map (qtyOf df)) := lt_of_le_of_ne ((s.isSum _).nonneg hl') (Ne.symm hz)
      rw [← qtyOf_some c4, c8]
      rcases le_or_gt 0 t.quantity with h0 | h0
      · obtain ⟨-, -, -, p4⟩ := part_bounds (s.isSum (ids.map (qtyOf df))) hl' hT (hqty u.bid) h0
          (n := df.length) (by rw [List.length_map]; exact hM.ids_length c2) (by simpa using hne)
        refine p4 row.quantity g2 ?_
        rwa [qtyOf_some c1] at f2
      · have hS1 := one_le_spread F (df.length + 1)
        have hneg : F.rnd (t.quantity * F.rnd (qtyOf df u.bid / s.sum (ids.map (qtyOf df)))) ≤ 0 := by
          have := F.mono _ _ (mul_nonpos_of_nonpos_of_nonneg h0.le
            (F.rnd_nonneg (div_nonneg (hqty u.bid) hT.le)))
          rwa [F.rep_zero] at this
        exact hneg.trans (mul_nonneg (by linarith) (hqty _))
    · unfold tick; linarith [hnear.2, f5 hb]
    · unfold tick; linarith [hnear.1, f6 (by rw [hb]; rfl)]
    · rw [npRoundF_five h5 (List.mem_of_getElem? c4)] at f5 f6
      exact ⟨f5, fun hb => f6 (by rw [hb]; rfl)⟩

/-- The distinct prices of a side are at most as many as the bids. -/
theorem MergeSpecF.side_length {F : Fmt} {df nb : DF} {mp : List (List ℕ)} {prec : ℕ}
    (h : MergeSpecF F prec df nb mp) (side : Bool) :
    (nb.filter (fun r => r.buying == side)).length ≤ (df.filter (fun r => r.buying == side)).length := by
  obtain ⟨nbuy, nsell, e, hb, hs, pb, ps⟩ := h.sides
  have hnd : ((nb.filter (fun r => r.buying == side)).map (fun r => r.price)).Nodup := by
    rw [e, List.filter_append]
    cases side with
    | true =>
      rw [List.filter_eq_self.mpr (fun r hr => by rw [hb r hr]; rfl),
        List.filter_eq_nil_iff.mpr (fun r hr => by rw [hs r hr]; simp), List.append_nil,
        List.nodup_iff_pairwise_ne, List.pairwise_map]
      exact pb.imp (fun h => h.ne)
    | false =>
      rw [List.filter_eq_nil_iff.mpr (fun r hr => by rw [hb r hr]; simp),
        List.filter_eq_self.mpr (fun r hr => by rw [hs r hr]; rfl), List.nil_append,
        List.nodup_iff_pairwise_ne, List.pairwise_map]
      exact ps.imp (fun h => h.ne)
  have hsub : ((nb.filter (fun r => r.buying == side)).map (fun r => r.price)) ⊆
      (df.filter (fun r => r.buying == side)).map (fun r => npRoundF F prec r.price) := by
    intro x hx
    obtain ⟨row, hrow, rfl⟩ := List.mem_map.mp hx
    rw [List.mem_filter] at hrow
    obtain ⟨k, hk⟩ := List.getElem?_of_mem hrow.1
    obtain ⟨_, ids, h1, h2⟩ := h.get (List.getElem?_eq_some_iff.mp hk).1
    rw [hk] at h1
    cases h1
    obtain ⟨hne, _, g3⟩ := h.group k row ids hk h2
    obtain ⟨i, hi⟩ := List.exists_mem_of_ne_nil _ hne
    obtain ⟨r, r1, r2, r3⟩ := (g3 i).mp hi
    refine List.mem_map.mpr ⟨r, List.mem_filter.mpr ⟨List.mem_of_getElem? r1, ?_⟩, r3⟩
    rw [r2]
    exact hrow.2
  have := (List.subperm_of_subset hnd hsub).length_le
  simpa using this

theorem totalQty_halves {df : DF} (ht : IsTable df) (P : ℕ → Bool) :
    totalQty (half df ((List.range df.length).filter P)) +
      totalQty (half df ((List.range df.length).filter (fun i => !P i))) = totalQty df := by
  rw [half_filter ht, half_filter ht]
  unfold totalQty
  generalize df = l
  induction l with
  | nil => simp
  | cons r l ih =>
    simp only [List.filter_cons]
    cases P r.label <;> simp <;> linarith

/-- **C89, MUDA (quantities), partial.** Full statement: no traded quantity is negative and as much is bought as
sold, up to rounding. Missing: eight or more bids on a side, where `sum()` and `cumsum()` disagree
(`C79_balance_refuted`). -/
theorem C89_muda_quantities_partial (F : Fmt) (s g o : Summer F) (S : Sorter) (smp : Sampler) (coin : ℕ → Bool)
    (df : DF) (ht : IsTable df) (hq : NonNeg df) (hr : RepBook F df) (n : ℕ) (hs : LeftToRight s n)
    (hb : (df.filter (fun r => r.buying == true)).length ≤ n)
    (hsl : (df.filter (fun r => r.buying == false)).length ≤ n) (tm : TransactionManager) (ex : Extra)
    (h : runAlgoF F s g o S smp (.muda true coin) df = .ok (tm, ex)) :
    (∀ t ∈ tm.trans, 0 ≤ t.quantity) ∧
    |boughtQty df tm.trans - soldQty df tm.trans| ≤
      (slack F n + (spread F (df.length + 1) - 1)) * (spread F df.length * totalQty df) := by
  have e0 := F.eps_nonneg
  obtain ⟨nb, mp, tm₀, hM, hk, htr, h1, h2, h3, hcase⟩ := mudaRunF_inv ht hq hr h
  have hqty : ∀ i, 0 ≤ qtyOf df i := qtyOf_nonneg hq.qty
  have hT0 : 0 ≤ totalQty df := totalQty_nonneg (fun r hr => (hq r hr).1)
  have hS1 := one_le_spread F (df.length + 1)
  have hS2 := one_le_spread F df.length
  have hslack0 : 0 ≤ slack F n := by
    unfold slack
    have : 1 ≤ (1 + F.eps) ^ n := one_le_pow₀ (by linarith)
    have : 0 ≤ ((n : ℚ) + 1) * (F.eps * (1 + F.eps) ^ n) := by positivity
    linarith
  have hB0 : 0 ≤ (slack F n + (spread F (df.length + 1) - 1)) * (spread F df.length * totalQty df) := by
    apply mul_nonneg (by linarith) (mul_nonneg (by linarith) hT0)
  rcases hcase with ⟨hc, he⟩ | ⟨left, right, pl, pr, fees, he, hrun⟩
  · rw [htr, hc]
    simpa [boughtQty, soldQty] using hB0
  have hnb : ∀ r ∈ nb, 0 ≤ r.quantity := fun r hr => (h2 r hr).1
  obtain ⟨d1, d2, d3, d4⟩ := C79_rational F s o S coin nb h1 hnb tm₀ left right pl pr fees hrun
  have s1 := hM.side_length true
  have s2 := hM.side_length false
  have f1 : (nb.filter (fun r => r.buying)) = nb.filter (fun r => r.buying == true) := by
    congr 1; funext r; cases r.buying <;> rfl
  have f2 : (nb.filter (fun r => !r.buying)) = nb.filter (fun r => r.buying == false) := by
    congr 1; funext r; cases r.buying <;> rfl
  obtain ⟨b1, b2⟩ := C79_balance_partial F s o S coin nb h1 hnb h3 n hs (by rw [f1]; omega) (by rw [f2]; omega)
    tm₀ left right pl pr fees hrun
  have bl := (b2 left pr (Or.inl ⟨rfl, rfl⟩)).1
  have br := (b2 right pl (Or.inr ⟨rfl, rfl⟩)).1
  have hR := mudaF_run' h1 hrun
  obtain ⟨hsplit, -⟩ := hR.halves h1 hnb
  have htot2 : totalQty (half nb left) + totalQty (half nb right) = totalQty nb := by
    rw [hR.left_eq, hR.right_eq]
    exact totalQty_halves h1 coin
  constructor
  · intro u hu
    rw [htr] at hu
    obtain ⟨t, htm, row, ids, r, c1, c2, c3, c4, c5, c6, c7, c8⟩ := hM.mem_lift (fun t ht => (hk t ht).1) hu
    have hl' : ∀ x ∈ ids.map (qtyOf df), 0 ≤ x := by
      intro x hx; obtain ⟨i, _, rfl⟩ := List.mem_map.mp hx; exact hqty i
    rw [c8]
    exact F.rnd_nonneg (mul_nonneg (b1 t htm) (F.rnd_nonneg (div_nonneg (hqty _) ((s.isSum _).nonneg hl'))))
  · obtain ⟨l1, l2⟩ := hM.side_lift hqty (s := s) (ts := tm₀.trans)
      (fun t ht => ⟨(hk t ht).1, (hk t ht).2, b1 t ht⟩)
    rw [← htr] at l1 l2
    have htot := traded_le_total (df := nb) (ts := tm₀.trans) hnb d2 (fun t ht => ⟨(hk t ht).1, (d1 t ht).2.1⟩)
    have hmt := hM.total_le hqty
    have hnb0 : 0 ≤ totalQty nb := totalQty_nonneg hnb
    have e1 := boughtQty_append nb (tradesIn left tm₀.trans) (tradesIn right tm₀.trans)
    have e2 := soldQty_append nb (tradesIn left tm₀.trans) (tradesIn right tm₀.trans)
    rw [← hsplit] at e1 e2
    have q3 : |boughtQty nb tm₀.trans - soldQty nb tm₀.trans| ≤ slack F n * totalQty nb := by
      rw [e1, e2, ← htot2]
      rw [abs_le] at bl br ⊢
      constructor <;> linarith [bl.1, bl.2, br.1, br.2]
    have a2 : (spread F (df.length + 1) - 1) * (boughtQty nb tm₀.trans + soldQty nb tm₀.trans) ≤
        (spread F (df.length + 1) - 1) * totalQty nb := mul_le_mul_of_nonneg_left htot (by linarith)
    have a3 : (slack F n + (spread F (df.length + 1) - 1)) * totalQty nb ≤
        (slack F n + (spread F (df.length + 1) - 1)) * (spread F df.length * totalQty df) :=
      mul_le_mul_of_nonneg_left hmt (by linarith)
    rw [abs_le] at l1 l2 q3 ⊢
    constructor <;> nlinarith [l1.1, l1.2, l2.1, l2.2, q3.1, q3.2]

/-! ## Concrete cases -/

/-- Two buyers of 0.1 and 0.7 at the same price. -/
def tenths : DF := labelFrom 0 [⟨f64 (1 / 10), 10, 0, true, 0, true⟩, ⟨f64 (7 / 10), 10, 1, true, 0, true⟩,
  ⟨1, 8, 2, true, 0, true⟩, ⟨1, 1, 3, false, 0, true⟩, ⟨1, 2, 4, false, 0, true⟩]

example : IsTable tenths ∧ NonNeg tenths ∧ (∀ r ∈ tenths, 0 < r.quantity) ∧ RepBook float64 tenths ∧
    FiveDecimalsF float64 tenths ∧ LeftToRight (pairSummer float64) 7 ∧
    (tenths.filter (fun r => r.buying == true)).length ≤ 7 ∧
    (tenths.filter (fun r => r.buying == false)).length ≤ 7 := by
  refine ⟨by decide +kernel, by decide +kernel, by decide +kernel, ?_, ?_, leftToRight_pairSummer _,
    by decide +kernel, by decide +kernel⟩
  · unfold RepBook Fmt.Rep
    decide +kernel
  · intro r hr
    have : r.price = 10 ∨ r.price = 8 ∨ r.price = 1 ∨ r.price = 2 := by
      revert r
      decide +kernel
    rcases this with h | h | h | h
    · exact ⟨1000000, by rw [h]; decide +kernel, by decide +kernel⟩
    · exact ⟨800000, by rw [h]; decide +kernel, by decide +kernel⟩
    · exact ⟨100000, by rw [h]; decide +kernel, by decide +kernel⟩
    · exact ⟨200000, by rw [h]; decide +kernel, by decide +kernel⟩

/-- **C89, refuted part (peer to peer trading).** With merging, in float64, a bid may trade more than its
quantity and more may be bought than sold: the buyers of `tenths` get 0.8 together, the share of the buyer of 0.1
is 0.10000000000000002, and the shares add up to more than 0.8. Without merging as much is bought as sold
(`C77_balance`). -/
theorem C89_p2p_refuted :
    ∃ tm ex, runAlgoF float64 (pairSummer float64) (seqSummer float64) (seqSummer float64) stableSorter
        headSampler (.p2p true (1 / 2) (fun _ => 0)) tenths = .ok (tm, ex) ∧
      qtyOf tenths 0 < tradedBy tm.trans 0 ∧ soldQty tenths tm.trans < boughtQty tenths tm.trans := by
  have h : (runAlgoF float64 (pairSummer float64) (seqSummer float64) (seqSummer float64)
      stableSorter headSampler (.p2p true (1 / 2) (fun _ => 0)) tenths).toOption.any (fun r =>
      decide (qtyOf tenths 0 < tradedBy r.1.trans 0 ∧
        soldQty tenths r.1.trans < boughtQty tenths r.1.trans)) = true := by decide +kernel
  cases hr : runAlgoF float64 (pairSummer float64) (seqSummer float64) (seqSummer float64)
      stableSorter headSampler (.p2p true (1 / 2) (fun _ => 0)) tenths with
  | error e => rw [hr] at h; cases h
  | ok r => rw [hr] at h; exact ⟨r.1, r.2, rfl, of_decide_eq_true h⟩

/-- **C89, refuted part (MUDA).** Likewise; without merging nobody trades more than offered
(`C79_rational`). -/
theorem C89_muda_refuted :
    ∃ tm ex, runAlgoF float64 (pairSummer float64) (seqSummer float64) (seqSummer float64) stableSorter
        headSampler (.muda true (fun i => decide (i = 1 ∨ i = 2))) tenths = .ok (tm, ex) ∧
      (∃ t ∈ tm.trans, qtyOf tenths t.bid < t.quantity) ∧
      soldQty tenths tm.trans < boughtQty tenths tm.trans := by
  have h : (runAlgoF float64 (pairSummer float64) (seqSummer float64) (seqSummer float64)
      stableSorter headSampler (.muda true (fun i => decide (i = 1 ∨ i = 2))) tenths).toOption.any (fun r =>
      decide ((∃ t ∈ r.1.trans, qtyOf tenths t.bid < t.quantity) ∧
        soldQty tenths r.1.trans < boughtQty tenths r.1.trans)) = true := by decide +kernel
  cases hr : runAlgoF float64 (pairSummer float64) (seqSummer float64) (seqSummer float64)
      stableSorter headSampler (.muda true (fun i => decide (i = 1 ∨ i = 2))) tenths with
  | error e => rw [hr] at h; cases h
  | ok r => rw [hr] at h; exact ⟨r.1, r.2, rfl, of_decide_eq_true h⟩

end PyMarket
