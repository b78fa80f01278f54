import Verif.Model.FloatMuda
import Verif.Lemmas.FloatHuangOut
import Verif.Lemmas.MudaRun

/-! # MUDA in floating point arithmetic: prices, cuts and fees -/

set_option autoImplicit false

namespace PyMarket

open Spec

/-! ## Without rounding -/

theorem findCompetitivePriceF_exact (S : Sorter) (df : DF) :
    findCompetitivePriceF exactFmt S df = findCompetitivePrice S df := by
  unfold findCompetitivePriceF findCompetitivePrice
  rw [demandCurveF_exact, supplyCurveF_exact, intersectStepwiseF_exact]

theorem lastIndexF_exact (s : Summer exactFmt) (l : List ℚ) (q : ℚ) :
    lastIndexF exactFmt s l q = lastIndex l q := by
  unfold lastIndexF lastIndex
  rw [Summer.exact, cumsumF_exact]

theorem getTradingBidsF_exact (s : Summer exactFmt) (rows : DF) (q : ℚ) :
    getTradingBidsF exactFmt s rows q = getTradingBids rows q := by
  unfold getTradingBidsF getTradingBids
  simp only [lastIndexF_exact, Summer.exact, exactFmt_rnd]
  rfl

theorem computeFeeF_exact (o : Summer exactFmt) (rows : DF) (k : ℕ) (u : ℤ) (q p : ℚ) :
    computeFeeF exactFmt o rows k u q p = computeFee rows k u q p := by
  unfold computeFeeF computeFee
  simp only [lastIndexF_exact, Summer.exact, exactFmt_rnd]

theorem feeLoopF_exact (o : Summer exactFmt) (rows : DF) (k : ℕ) (q p : ℚ) (us : List ℤ)
    (fees : List ℚ) : feeLoopF exactFmt o rows k q p us fees = feeLoop rows k q p us fees := by
  induction us generalizing fees with
  | nil => rfl
  | cons u us ih =>
    simp only [feeLoopF, feeLoop, computeFeeF_exact, ih]

theorem solveSideF_exact (s o : Summer exactFmt) (S : Sorter) (df : DF) (v : Val) (fees : List ℚ) :
    solveSideF exactFmt s o S df v fees = solveSide S df v fees := by
  unfold solveSideF solveSide
  simp only [Summer.exact, getTradingBidsF_exact, feeLoopF_exact]
  rfl

/-- With exact numbers the rounded model is the model of `Verif/Model/Muda.lean`. -/
theorem mudaF_exact (s o : Summer exactFmt) (S : Sorter) (coin : ℕ → Bool) (df : DF) :
    mudaF exactFmt s o S coin df = muda S coin df := by
  unfold mudaF muda mudaBodyF mudaBody
  simp only [findCompetitivePriceF_exact, solveSideF_exact]

/-! ## The price -/

/-- The finite values of a curve are numbers of the format. -/
def RepCurve (F : Fmt) (f : Curve) : Prop := ∀ s ∈ f, ∀ q : ℚ, s.2 = (q : Ext) → F.Rep q

theorem stepLookup_mem {x : Ext} {f : Curve} {v : Ext} (h : stepLookup x f = some v) :
    ∃ s ∈ f, s.2 = v := by
  induction f with
  | nil => simp [stepLookup] at h
  | cons s f ih =>
    unfold stepLookup at h
    split at h
    · cases h; exact ⟨s, by simp, rfl⟩
    · obtain ⟨s', h1, h2⟩ := ih h
      exact ⟨s', by simp [h1], h2⟩

theorem ofExt_round {F : Fmt} {e : Ext} (h : ∀ q : ℚ, e = (q : Ext) → F.Rep q) :
    (Val.ofExt e).round F = Val.ofExt e := by
  cases e with
  | none => rfl
  | some q => exact congrArg Val.fin (h q rfl)

theorem kMixF_half {F : Fmt} {g f : Ext} (hg : ∀ q : ℚ, g = (q : Ext) → F.Rep q)
    (hf : ∀ q : ℚ, f = (q : Ext) → F.Rep q) : kMixF F (1 / 2) g f = (kMix (1 / 2) g f).round F := by
  have h2 : F.rnd (1 - 1 / 2) = 1 - 1 / 2 := by
    have := F.rep_half F.rep_one
    unfold Fmt.Rep at this
    rw [show (1 : ℚ) - 1 / 2 = 1 / 2 by norm_num, this]
  have h1 : ∀ e : Ext, (∀ q : ℚ, e = (q : Ext) → F.Rep q) →
      (Val.scale (1 / 2) e).round F = Val.scale (1 / 2) e := by
    intro e he
    cases e with
    | none =>
      have : Val.scale (1 / 2) none = .inf := if_pos (by norm_num)
      rw [this]; rfl
    | some q =>
      have := F.rep_half (he q rfl)
      unfold Fmt.Rep at this
      show Val.fin (F.rnd (1 / 2 * q)) = Val.fin (1 / 2 * q)
      rw [show 1 / 2 * q = q / 2 by ring, this]
  unfold kMixF kMix
  rw [h2, h1 g hg, show (1 : ℚ) - 1 / 2 = 1 / 2 by norm_num, h1 f hf]

/-- With representable prices the only rounding of the price is that of the final midpoint. -/
theorem intersectStepwiseF_half {F : Fmt} {f g : Curve} (hf : RepCurve F f) (hg : RepCurve F g)
    {i : Intersection} (h : intersectStepwise f g (1 / 2) = .ok i) :
    intersectStepwiseF F f g (1 / 2) = .ok { i with v := i.v.round F } := by
  unfold intersectStepwise at h
  unfold intersectStepwiseF
  cases h1 : maxX f with
  | error e => rw [h1] at h; cases h
  | ok mf =>
    cases h2 : maxX g with
    | error e => rw [h1, h2] at h; cases h
    | ok mg =>
      rw [h1, h2] at h
      simp only [bind, Except.bind] at h ⊢
      cases h3 : crossLoop f g (gridXs f g (min mf mg)) none with
      | error e => rw [h3] at h; cases h
      | ok o =>
        rw [h3] at h
        simp only at h ⊢
        cases o with
        | some y =>
          simp only at h ⊢
          cases h4 : g[argmaxTrue (g.map (fun s => decide (y ≤ s.1)))]? with
          | none => rw [h4] at h; cases h
          | some r1 =>
            cases h5 : f[argmaxTrue (f.map (fun s => decide (y ≤ s.1)))]? with
            | none => rw [h4, h5] at h; cases h
            | some r2 =>
              rw [h4, h5] at h
              simp only at h ⊢
              have e1 := hg r1 (List.mem_of_getElem? h4)
              have e2 := hf r2 (List.mem_of_getElem? h5)
              rw [kMixF_half e1 e2]
              cases h
              simp only [Except.ok.injEq, Intersection.mk.injEq, true_and]
              split
              · split
                · exact (ofExt_round e1).symm
                · exact (ofExt_round e2).symm
              · rfl
        | none =>
          simp only at h ⊢
          generalize (gridXs f g (min mf mg)).getLast? = o1 at h ⊢
          cases o1 with
          | none => cases h
          | some xl =>
            simp only at h ⊢
            cases h4 : getValueStepwise xl g with
            | none => rw [h4] at h; cases h
            | some r1 =>
              cases h5 : getValueStepwise xl f with
              | none => rw [h4, h5] at h; cases h
              | some r2 =>
                rw [h4, h5] at h
                simp only at h ⊢
                have m1 : ∃ s ∈ g, s.2 = r1 := by
                  unfold getValueStepwise at h4
                  split at h4
                  · cases h4
                  · exact stepLookup_mem h4
                have m2 : ∃ s ∈ f, s.2 = r2 := by
                  unfold getValueStepwise at h5
                  split at h5
                  · cases h5
                  · exact stepLookup_mem h5
                obtain ⟨s1, hs1, rfl⟩ := m1
                obtain ⟨s2, hs2, rfl⟩ := m2
                rw [kMixF_half (hg s1 hs1) (hf s2 hs2)]
                cases h
                rfl

theorem demandCurveF_rep {F : Fmt} (S : Sorter) {df : DF} (h : ∀ r ∈ df, F.Rep r.price) :
    RepCurve F (demandCurveF F S df) := by
  intro s hs q hq
  unfold demandCurveF at hs
  rcases List.mem_append.mp hs with h1 | h1
  · obtain ⟨p, hp, rfl⟩ := List.mem_map.mp h1
    have := (List.of_mem_zip hp).2
    obtain ⟨r, hr, he⟩ := List.mem_map.mp this
    have : p.2 = q := by simpa using hq
    rw [← this, ← he]
    exact h r (mem_buys.mp (mem_sortDesc.mp hr)).1
  · simp only [List.mem_singleton] at h1
    subst h1
    have : q = 0 := by simpa using hq
    rw [this]; exact F.rep_zero

theorem supplyCurveF_rep {F : Fmt} (S : Sorter) {df : DF} (h : ∀ r ∈ df, F.Rep r.price) :
    RepCurve F (supplyCurveF F S df) := by
  intro s hs q hq
  unfold supplyCurveF at hs
  rcases List.mem_append.mp hs with h1 | h1
  · obtain ⟨p, hp, rfl⟩ := List.mem_map.mp h1
    have := (List.of_mem_zip hp).2
    obtain ⟨r, hr, he⟩ := List.mem_map.mp this
    have : p.2 = q := by simpa using hq
    rw [← this, ← he]
    exact h r (mem_sells.mp (mem_sortAsc.mp hr)).1
  · simp only [List.mem_singleton] at h1
    subst h1
    cases hq

/-- The competitive price computed with rounding is the rounded competitive price of a nearby
table. -/
theorem findCompetitivePriceF_nearby (F : Fmt) (S : Sorter) {H : DF}
    (hn : (H.map (fun r => r.label)).Nodup) (hq : ∀ r ∈ H, 0 ≤ r.quantity) (hr : ∀ r ∈ H, F.Rep r.price) :
    ∃ w v, (∀ r ∈ requant w H, 0 ≤ r.quantity) ∧
      Nearby (F.eps * ((1 + F.eps) ^ H.length * totalQty H)) H (requant w H) ∧
      findCompetitivePrice S (requant w H) = .ok v ∧ findCompetitivePriceF F S H = .ok (v.round F) := by
  obtain ⟨w, hw, hnear, hd, hs⟩ := exists_nearby F S hn hq
  obtain ⟨i, hi⟩ := intersect_total S (df := requant w H) hw (1 / 2)
  refine ⟨w, i.v, hw, hnear, ?_, ?_⟩
  · unfold findCompetitivePrice; rw [hi]; rfl
  · have := intersectStepwiseF_half (f := demandCurveF F S H) (g := supplyCurveF F S H)
      (demandCurveF_rep S hr) (supplyCurveF_rep S hr) (i := i) (by rw [hd, hs]; exact hi)
    unfold findCompetitivePriceF
    rw [this]; rfl

/-- Without any assumption on the prices a price is found. -/
theorem findCompetitivePriceF_total (F : Fmt) (S : Sorter) {H : DF}
    (hn : (H.map (fun r => r.label)).Nodup) (hq : ∀ r ∈ H, 0 ≤ r.quantity) :
    ∃ v, findCompetitivePriceF F S H = .ok v := by
  obtain ⟨w, hw, _, hd, hs⟩ := exists_nearby F S hn hq
  obtain ⟨⟨x, a, b, v⟩, hi⟩ := intersect_total S (df := requant w H) hw (1 / 2)
  obtain ⟨v', hv'⟩ := intersectStepwiseF_eq F _ _ _ hi
  refine ⟨v', ?_⟩
  unfold findCompetitivePriceF
  rw [hd, hs, hv']; rfl

/-! ## `get_trading_bids` -/

theorem argmaxTrue_lt {l : List Bool} (h : l ≠ []) : argmaxTrue l < l.length := by
  unfold argmaxTrue
  cases hf : l.findIdx? id with
  | none => exact List.length_pos_iff.mpr h
  | some i => exact (List.findIdx?_eq_some_iff_getElem.mp hf).1

theorem lastIndexF_lt (F : Fmt) (s : Summer F) {l : List ℚ} (h : l ≠ []) (q : ℚ) :
    lastIndexF F s l q < l.length := by
  unfold lastIndexF
  split
  · have := argmaxTrue_lt (l := (cumsumF F l).map (fun c => decide (q ≤ c))) (by
      intro hc
      have := congrArg List.length hc
      rw [List.length_map, cumsumF, cumsumFromF_length] at this
      exact h (List.length_eq_zero_iff.mp this))
    rw [List.length_map, cumsumF, cumsumFromF_length] at this
    exact this
  · have := List.length_pos_iff.mpr h
    omega

/-- What `getTradingBidsF` returns: the bids before the marginal one, the trading part of the
marginal one, and some rest. -/
structure CutF (F : Fmt) (s : Summer F) (rows : DF) (Q : ℚ) (A : DF) (r : Row) (B : DF) : Prop where
  eq : rows = A ++ r :: B
  index : A.length = lastIndexF F s (rows.map (fun r => r.quantity)) Q

/-- The traded quantity of the marginal bid. -/
def cutQty (F : Fmt) (s : Summer F) (A : DF) (r : Row) (Q : ℚ) : ℚ :=
  min (F.rnd (Q - s.sum (A.map (fun r => r.quantity)))) r.quantity

theorem getTradingBidsF_cut (F : Fmt) (s : Summer F) {rows : DF} (h : rows ≠ []) (Q : ℚ) :
    ∃ A r B out k, getTradingBidsF F s rows Q = .ok (out, k) ∧ CutF F s rows Q A r B ∧
      out.take (k + 1) = A ++ [{ r with quantity := cutQty F s A r Q }] := by
  have hlt := lastIndexF_lt F s (l := rows.map (fun r => r.quantity)) (by simpa using h) Q
  rw [List.length_map] at hlt
  set k := lastIndexF F s (rows.map (fun r => r.quantity)) Q with hk
  have hsplit : rows = rows.take k ++ rows[k] :: rows.drop (k + 1) := by
    conv_lhs => rw [← List.take_append_drop k rows, List.drop_eq_getElem_cons hlt]
  have hlen : (rows.take k).length = k := by rw [List.length_take]; omega
  unfold getTradingBidsF
  rw [if_neg (fun hc => h hc.1), ← hk]
  simp only [List.getElem?_eq_getElem hlt]
  by_cases hd : F.rnd (Q - s.sum ((rows.take k).map (fun r => r.quantity))) < rows[k].quantity
  · rw [if_pos hd]
    refine ⟨_, _, _, _, _, rfl, ⟨hsplit, hlen⟩, ?_⟩
    have e : cutQty F s (rows.take k) rows[k] Q =
        F.rnd (Q - s.sum ((rows.take k).map (fun r => r.quantity))) := min_eq_left hd.le
    rw [e, List.take_append, hlen, List.take_of_length_le (by omega)]
    simp
  · rw [if_neg hd]
    refine ⟨_, _, _, _, _, rfl, ⟨hsplit, hlen⟩, ?_⟩
    have e : cutQty F s (rows.take k) rows[k] Q = rows[k].quantity := min_eq_right (not_lt.mp hd)
    rw [e, List.take_succ_eq_append_getElem hlt]

/-- The order of summation is from left to right for up to `n` entries. For NumPy this is so for
`n = 7`. -/
def Spec.LeftToRight {F : Fmt} (s : Summer F) (n : ℕ) : Prop :=
  ∀ l : List ℚ, l.length ≤ n → s.sum l = seqSum F l

theorem addFrom_cons (F : Fmt) (a x : ℚ) (l : List ℚ) :
    addFrom F a (x :: l) = addFrom F (F.rnd (a + x)) l := rfl

theorem seqSum_addFrom {F : Fmt} {l : List ℚ} (h : ∀ x ∈ l, F.Rep x) :
    seqSum F l = addFrom F 0 l := by
  cases l with
  | nil => rfl
  | cons x l =>
    rw [addFrom_cons, zero_add, h x (by simp)]; rfl

theorem cumsumF_first {F : Fmt} {Q : ℚ} : ∀ (a : ℚ) (l : List ℚ), a ≤ Q → Q < addFrom F a l →
    ∃ A x B, l = A ++ x :: B ∧
      ((cumsumFromF F a l).map (fun c => decide (Q ≤ c))).findIdx? id = some A.length ∧
      addFrom F a A ≤ Q ∧ Q ≤ F.rnd (addFrom F a A + x)
  | a, [], h1, h2 => absurd (lt_of_le_of_lt h1 h2) (lt_irrefl _)
  | a, x :: l, h1, h2 => by
    simp only [cumsumFromF, List.map_cons]
    by_cases h : Q ≤ F.rnd (a + x)
    · exact ⟨[], x, l, rfl, by simp [List.findIdx?_cons, h], h1, h⟩
    · obtain ⟨A, y, B, rfl, hf, h3, h4⟩ := cumsumF_first (F.rnd (a + x)) l (not_le.mp h).le h2
      refine ⟨x :: A, y, B, rfl, ?_, h3, h4⟩
      simp only [List.findIdx?_cons, id_eq, decide_eq_true_eq, h, if_false, hf]
      rfl

theorem addFrom_append (F : Fmt) (a : ℚ) (l m : List ℚ) :
    addFrom F a (l ++ m) = addFrom F (addFrom F a l) m := List.foldl_append

theorem append_cons_inj {α : Type*} {A A' B B' : List α} {x y : α} (h : A ++ x :: B = A' ++ y :: B')
    (hl : A.length = A'.length) : A = A' ∧ x = y ∧ B = B' := by
  obtain ⟨h1, h2⟩ := List.append_inj h hl
  simp only [List.cons.injEq] at h2
  exact ⟨h1, h2⟩

/-- When the sums are computed from left to right, the marginal bid is where the running total
reaches the quantity. -/
theorem CutF.between {F : Fmt} {s : Summer F} {rows A B : DF} {r : Row} {Q : ℚ}
    (h : CutF F s rows Q A r B) (hs : LeftToRight s rows.length)
    (hq : ∀ r ∈ rows, 0 ≤ r.quantity ∧ F.Rep r.quantity) (hQ : 0 ≤ Q)
    (hle : Q ≤ s.sum (rows.map (fun r => r.quantity))) :
    s.sum (A.map (fun r => r.quantity)) ≤ Q ∧
      Q ≤ F.rnd (s.sum (A.map (fun r => r.quantity)) + r.quantity) := by
  have hrep : ∀ x ∈ rows.map (fun r => r.quantity), F.Rep x := by
    intro x hx
    obtain ⟨r, hr, rfl⟩ := List.mem_map.mp hx
    exact (hq r hr).2
  have hA : s.sum (A.map (fun r => r.quantity)) = addFrom F 0 (A.map (fun r => r.quantity)) := by
    rw [hs _ (by rw [List.length_map, h.eq]; simp), seqSum_addFrom]
    intro x hx
    apply hrep
    rw [h.eq, List.map_append]
    exact List.mem_append_left _ hx
  have hall : s.sum (rows.map (fun r => r.quantity)) = addFrom F 0 (rows.map (fun r => r.quantity)) := by
    rw [hs _ (by simp), seqSum_addFrom hrep]
  have hidx := h.index
  unfold lastIndexF at hidx
  rw [hA]
  by_cases hc : Q < s.sum (rows.map (fun r => r.quantity))
  · rw [if_pos hc] at hidx
    rw [hall] at hc
    obtain ⟨A', x, B', he, hf, h3, h4⟩ := cumsumF_first 0 _ hQ hc
    unfold argmaxTrue cumsumF at hidx
    rw [hf, Option.getD_some] at hidx
    rw [h.eq, List.map_append, List.map_cons] at he
    obtain ⟨e1, e2, _⟩ := append_cons_inj he (by rw [List.length_map]; exact hidx)
    rw [e1, e2]
    exact ⟨h3, h4⟩
  · rw [if_neg hc] at hidx
    have heq : Q = s.sum (rows.map (fun r => r.quantity)) := le_antisymm hle (not_lt.mp hc)
    have hB : B = [] := by
      rw [h.eq] at hidx
      simp only [List.map_append, List.length_append, List.length_map, List.map_cons,
        List.length_cons] at hidx
      exact List.length_eq_zero_iff.mp (by omega)
    have : Q = F.rnd (addFrom F 0 (A.map (fun r => r.quantity)) + r.quantity) := by
      rw [heq, hall, h.eq, hB, List.map_append, addFrom_append]
      rfl
    have hAr : F.Rep (addFrom F 0 (A.map (fun r => r.quantity))) := by
      rw [← hA]
      apply (s.isSum _).rep
      intro x hx
      apply hrep
      rw [h.eq, List.map_append]
      exact List.mem_append_left _ hx
    have hr0 := (hq r (by rw [h.eq]; simp)).1
    refine ⟨?_, this.le⟩
    rw [this]
    exact F.le_rnd hAr (by linarith)

/-- What the cut trades is the quantity up to rounding. -/
theorem CutF.fill {F : Fmt} {s : Summer F} {rows A B : DF} {r : Row} {Q : ℚ}
    (h : CutF F s rows Q A r B) (hq : ∀ r ∈ rows, 0 ≤ r.quantity) {n : ℕ} (hn : rows.length ≤ n)
    (h1 : s.sum (A.map (fun r => r.quantity)) ≤ Q)
    (h2 : Q ≤ F.rnd (s.sum (A.map (fun r => r.quantity)) + r.quantity)) :
    0 ≤ cutQty F s A r Q ∧
      |totalQty A + cutQty F s A r Q - Q| ≤ slack F n * totalQty rows := by
  have e0 := F.eps_nonneg
  have hqA : ∀ x ∈ A.map (fun r => r.quantity), 0 ≤ x := by
    intro x hx
    obtain ⟨r, hr, rfl⟩ := List.mem_map.mp hx
    exact hq r (by rw [h.eq]; simp [hr])
  have hqr : 0 ≤ r.quantity := hq r (by rw [h.eq]; simp)
  have hqB : 0 ≤ totalQty B := totalQty_nonneg (fun r hr => hq r (by rw [h.eq]; simp [hr]))
  have hTA : 0 ≤ totalQty A := List.sum_nonneg hqA
  have herr := (s.isSum (A.map (fun r => r.quantity))).err hqA
  have hbd := ((s.isSum (A.map (fun r => r.quantity))).bounds hqA).2
  have hc0 := (s.isSum (A.map (fun r => r.quantity))).nonneg hqA
  rw [List.length_map] at herr hbd
  change |_ - totalQty A| ≤ _ * totalQty A at herr
  change _ ≤ _ * totalQty A at hbd
  set c := s.sum (A.map (fun r => r.quantity)) with hc
  have hT : totalQty rows = totalQty A + (r.quantity + totalQty B) := by
    rw [h.eq]; unfold totalQty; simp
  set T := totalQty rows with hTdef
  have hlen : A.length + 1 ≤ n := by
    have : rows.length = A.length + (B.length + 1) := by rw [h.eq]; simp
    omega
  set P := (1 + F.eps) ^ n with hP
  have hP1 : 1 ≤ P := one_le_pow₀ (by linarith)
  have hPA : (1 + F.eps) ^ (A.length - 1) ≤ (1 + F.eps) ^ (n - 1) :=
    pow_le_pow_right₀ (by linarith) (by omega)
  have hPn : (1 + F.eps) ^ (n - 1) * (1 + F.eps) = P := by
    rw [hP, ← pow_succ]; congr 1; omega
  set R := (1 + F.eps) ^ (n - 1) with hR
  have hR1 : 1 ≤ R := one_le_pow₀ (by linarith)
  have hcq : c + r.quantity ≤ R * T := by
    have : c ≤ R * totalQty A := hbd.trans (mul_le_mul_of_nonneg_right hPA hTA)
    rw [hT]
    nlinarith
  have e1 : |c - totalQty A| ≤ (P - 1) * T := by
    have hRP : R ≤ P := by rw [← hPn]; nlinarith
    refine herr.trans ?_
    exact mul_le_mul (by linarith) (by linarith) hTA (by linarith)
  have hd0 : 0 ≤ Q - c := by linarith
  have hru := F.err (c + r.quantity)
  rw [abs_of_nonneg (by linarith : 0 ≤ c + r.quantity), abs_le] at hru
  have hd1 : Q - c ≤ r.quantity + F.eps * (c + r.quantity) := by linarith [hru.2]
  have hdr := F.err (Q - c)
  rw [abs_of_nonneg hd0, abs_le] at hdr
  have hx0 : 0 ≤ cutQty F s A r Q := le_min (F.rnd_nonneg hd0) hqr
  refine ⟨hx0, ?_⟩
  have hek : F.eps * (Q - c) ≤ F.eps * ((1 + F.eps) * (c + r.quantity)) := by
    apply mul_le_mul_of_nonneg_left _ e0
    linarith
  have hek' : F.eps * (c + r.quantity) ≤ F.eps * ((1 + F.eps) * (c + r.quantity)) := by
    apply mul_le_mul_of_nonneg_left _ e0
    nlinarith [mul_nonneg e0 (by linarith : 0 ≤ c + r.quantity)]
  have e2 : |cutQty F s A r Q - (Q - c)| ≤ F.eps * ((1 + F.eps) * (c + r.quantity)) := by
    unfold cutQty
    rw [← hc, abs_le]
    rcases le_total (F.rnd (Q - c)) r.quantity with hle | hle
    · rw [min_eq_left hle]
      constructor <;> linarith [hdr.1, hdr.2]
    · rw [min_eq_right hle]
      constructor <;> linarith [hdr.1, hdr.2]
  have e3 : F.eps * ((1 + F.eps) * (c + r.quantity)) ≤ F.eps * (P * T) := by
    apply mul_le_mul_of_nonneg_left _ e0
    rw [← hPn]
    nlinarith
  have hT0 : 0 ≤ T := by linarith
  have e4 : F.eps * (P * T) ≤ (n + 1) * (F.eps * P) * T := by
    have : 0 ≤ F.eps * (P * T) := by positivity
    have hn0 : (0 : ℚ) ≤ n := by positivity
    nlinarith [mul_nonneg hn0 this]
  have key : totalQty A + cutQty F s A r Q - Q =
      (cutQty F s A r Q - (Q - c)) - (c - totalQty A) := by ring
  rw [key]
  refine (abs_sub _ _).trans ?_
  unfold slack
  rw [← hP]
  linarith

/-! ## The fee loop -/

theorem computeFeeF_nonneg (F : Fmt) (o : Summer F) (rows : DF) (k : ℕ) (u : ℤ) (q p : ℚ) :
    0 ≤ computeFeeF F o rows k u q p := by
  unfold computeFeeF
  simp only
  split
  · exact le_refl _
  · exact abs_nonneg _

theorem npSet_spec {fees fees' : List ℚ} {u : ℤ} {x : ℚ} (h : npSet fees u x = .ok fees')
    (h0 : ∀ y ∈ fees, 0 ≤ y) (hx : 0 ≤ x) : fees'.length = fees.length ∧ ∀ y ∈ fees', 0 ≤ y := by
  have key : ∀ i, ∀ y ∈ fees.set i x, 0 ≤ y := by
    intro i y hy
    rcases List.mem_or_eq_of_mem_set hy with h | h
    · exact h0 y h
    · rw [h]; exact hx
  unfold npSet at h
  split at h
  · cases h; exact ⟨List.length_set, key _⟩
  · split at h
    · cases h; exact ⟨List.length_set, key _⟩
    · cases h

theorem feeLoopF_spec {F : Fmt} {o : Summer F} {rows : DF} {k : ℕ} {q p : ℚ} {us : List ℤ}
    {fees fees' : List ℚ} (h : feeLoopF F o rows k q p us fees = .ok fees')
    (h0 : ∀ y ∈ fees, 0 ≤ y) : fees'.length = fees.length ∧ ∀ y ∈ fees', 0 ≤ y := by
  induction us generalizing fees with
  | nil => cases h; exact ⟨rfl, h0⟩
  | cons u us ih =>
    unfold feeLoopF at h
    cases hs : npSet fees u (computeFeeF F o rows k u q p) with
    | error e => rw [hs] at h; cases h
    | ok f =>
      rw [hs] at h
      obtain ⟨h1, h2⟩ := npSet_spec hs h0 (computeFeeF_nonneg ..)
      obtain ⟨h3, h4⟩ := ih h h2
      exact ⟨h3.trans h1, h4⟩

theorem feeLoopF_total (F : Fmt) (o : Summer F) (rows : DF) (k : ℕ) (q p : ℚ) {us : List ℤ}
    {fees : List ℚ} (hu : ∀ u ∈ us, 0 ≤ u ∧ u < fees.length) :
    ∃ fees', feeLoopF F o rows k q p us fees = .ok fees' := by
  induction us generalizing fees with
  | nil => exact ⟨fees, rfl⟩
  | cons u us ih =>
    have hset : npSet fees u (computeFeeF F o rows k u q p) =
        .ok (fees.set u.toNat (computeFeeF F o rows k u q p)) := by
      unfold npSet; rw [if_pos (hu u List.mem_cons_self)]
    obtain ⟨fees', e1⟩ := ih (fees := fees.set u.toNat (computeFeeF F o rows k u q p))
      (by rw [List.length_set]; exact fun u' hu' => hu u' (List.mem_cons_of_mem _ hu'))
    exact ⟨fees', by rw [feeLoopF, hset]; exact e1⟩

theorem feeLoopF_error {F : Fmt} {o : Summer F} {rows : DF} {k : ℕ} {q p : ℚ} {us : List ℤ}
    {fees : List ℚ} {e : PyErr} (h : feeLoopF F o rows k q p us fees = .error e) : e = .indexError := by
  induction us generalizing fees with
  | nil => cases h
  | cons u us ih =>
    unfold feeLoopF at h
    cases hs : npSet fees u (computeFeeF F o rows k u q p) with
    | error e' =>
      rw [hs] at h
      cases h
      unfold npSet at hs
      split at hs
      · cases hs
      · split at hs
        · cases hs
        · cases hs; rfl
    | ok f => rw [hs] at h; exact ih h

/-! ## One half -/

/-- What one side of a half trades, for any order of summation. -/
structure SideOutF (F : Fmt) (s : Summer F) (rows : DF) (p Q : ℚ) (ts : List Transaction) : Prop where
  mem : ∀ t ∈ ts, ∃ r ∈ rows, t.bid = r.label ∧ t.quantity ≤ r.quantity ∧
    t.price = p ∧ t.source = -1 ∧ t.active = false
  nodup : (ts.map (fun t => t.bid)).Nodup
  fill : ∀ n, rows.length ≤ n → LeftToRight s n → (∀ r ∈ rows, F.Rep r.quantity) →
    (∀ t ∈ ts, 0 ≤ t.quantity) ∧
    |(ts.map (fun t => t.quantity)).sum - Q| ≤ slack F n * totalQty rows

theorem CutF.sideOut {F : Fmt} {s : Summer F} {rows A B : DF} {r : Row} {Q : ℚ}
    (h : CutF F s rows Q A r B) (hn : (rows.map (fun r => r.label)).Nodup)
    (hq : ∀ r ∈ rows, 0 ≤ r.quantity) (hQ : 0 ≤ Q)
    (hle : Q ≤ s.sum (rows.map (fun r => r.quantity))) (p : ℚ) :
    SideOutF F s rows p Q (mkTrans p (A ++ [{ r with quantity := cutQty F s A r Q }])) where
  mem := by
    intro t ht
    obtain ⟨r', hr', rfl⟩ := List.mem_map.mp ht
    rcases List.mem_append.mp hr' with h' | h'
    · exact ⟨r', by rw [h.eq]; simp [h'], rfl, le_refl _, rfl, rfl, rfl⟩
    · rw [List.mem_singleton] at h'
      subst h'
      exact ⟨r, by rw [h.eq]; simp, rfl, min_le_right _ _, rfl, rfl, rfl⟩
  nodup := by
    have : (mkTrans p (A ++ [{ r with quantity := cutQty F s A r Q }])).map (fun t => t.bid) =
        (A ++ [r]).map (fun r => r.label) := by
      simp [mkTrans]
    rw [this]
    refine List.Nodup.sublist (List.Sublist.map _ ?_) hn
    rw [h.eq]
    exact List.Sublist.append (List.Sublist.refl _) (by simp)
  fill := by
    intro n hln hs hrep
    obtain ⟨h1, h2⟩ := h.between (fun l hl => hs l (hl.trans hln)) (fun r hr => ⟨hq r hr, hrep r hr⟩)
      hQ hle
    obtain ⟨h3, h4⟩ := h.fill hq hln h1 h2
    constructor
    · intro t ht
      obtain ⟨r', hr', rfl⟩ := List.mem_map.mp ht
      rcases List.mem_append.mp hr' with h' | h'
      · exact hq r' (by rw [h.eq]; simp [h'])
      · rw [List.mem_singleton] at h'
        subst h'
        exact h3
    · have : ((mkTrans p (A ++ [{ r with quantity := cutQty F s A r Q }])).map
          (fun t => t.quantity)).sum = totalQty A + cutQty F s A r Q := by
        unfold mkTrans totalQty
        rw [List.map_map]
        simp [Function.comp_def]
      rw [this]
      exact h4

/-- The quantity a half trades at price `p`, as computed. -/
def halfQtyF (F : Fmt) (s : Summer F) (S : Sorter) (H : DF) (p : ℚ) : ℚ :=
  min (s.sum ((willingDemand S H (.fin p)).map (fun r => r.quantity)))
    (s.sum ((willingSupply S H (.fin p)).map (fun r => r.quantity)))

/-- The trades of a half at price `p`. -/
structure HalfTradeF (F : Fmt) (s : Summer F) (S : Sorter) (H : DF) (p : ℚ) (ts : List Transaction) :
    Prop where
  pos : 0 < halfQtyF F s S H p
  sides : ∃ tb tl, (ts = tb ++ tl ∨ ts = tl ++ tb) ∧
    SideOutF F s (willingDemand S H (.fin p)) p (halfQtyF F s S H p) tb ∧
    SideOutF F s (willingSupply S H (.fin p)) p (halfQtyF F s S H p) tl

theorem sum_pos_ne_nil {F : Fmt} {s : Summer F} {rows : DF}
    (h : 0 < s.sum (rows.map (fun r => r.quantity))) : rows ≠ [] := by
  rintro rfl
  have h2 := ((s.isSum []).bounds (by simp)).2
  rw [List.map_nil] at h
  simp at h2
  linarith

/-- All outcomes of one half. -/
theorem solveSideF_cases (F : Fmt) (s o : Summer F) (S : Sorter) {H : DF}
    (hn : (H.map (fun r => r.label)).Nodup) (hq : ∀ r ∈ H, 0 ≤ r.quantity) (v : Val) :
    ((∀ fees, solveSideF F s o S H v fees = .ok (TransactionManager.init, fees)) ∧
      ∀ p, v = .fin p → halfQtyF F s S H p = 0) ∨
    ∃ p rows k us tm, v = .fin p ∧ HalfTradeF F s S H p tm.trans ∧ (∀ u ∈ us, ∃ r ∈ H, r.user = u) ∧
      ∀ fees, solveSideF F s o S H v fees =
        (feeLoopF F o rows k (halfQtyF F s S H p) p us fees).map (fun f => (tm, f)) := by
  have nd : ∀ v, ∀ x ∈ (willingDemand S H v).map (fun r => r.quantity), 0 ≤ x := by
    intro v x hx
    obtain ⟨r, hr, rfl⟩ := List.mem_map.mp hx
    exact hq r (mem_willingDemand.mp hr).1
  have ns : ∀ v, ∀ x ∈ (willingSupply S H v).map (fun r => r.quantity), 0 ≤ x := by
    intro v x hx
    obtain ⟨r, hr, rfl⟩ := List.mem_map.mp hx
    exact hq r (mem_willingSupply.mp hr).1
  have hdq := (s.isSum _).nonneg (nd v)
  have hsq := (s.isSum _).nonneg (ns v)
  by_cases hb : (buys H).length = 0
  · left
    refine ⟨fun fees => by unfold solveSideF; rw [if_pos hb], ?_⟩
    rintro p rfl
    have : willingDemand S H (.fin p) = [] := by
      rw [List.eq_nil_iff_forall_not_mem]
      intro r hr
      have := mem_willingDemand.mp hr
      have hm : r ∈ buys H := mem_buys.mpr ⟨this.1, this.2.1⟩
      rw [List.length_eq_zero_iff.mp hb] at hm
      cases hm
    by_contra hc
    have : 0 < halfQtyF F s S H p := lt_of_le_of_ne (le_min hdq hsq) (Ne.symm hc)
    exact sum_pos_ne_nil (lt_min_iff.mp this).1 (by assumption)
  by_cases hs : (sells H).length = 0
  · left
    refine ⟨fun fees => by unfold solveSideF; rw [if_neg hb, if_pos hs], ?_⟩
    rintro p rfl
    have : willingSupply S H (.fin p) = [] := by
      rw [List.eq_nil_iff_forall_not_mem]
      intro r hr
      have := mem_willingSupply.mp hr
      have hm : r ∈ sells H := mem_sells.mpr ⟨this.1, this.2.1⟩
      rw [List.length_eq_zero_iff.mp hs] at hm
      cases hm
    by_contra hc
    have : 0 < halfQtyF F s S H p := lt_of_le_of_ne (le_min hdq hsq) (Ne.symm hc)
    exact sum_pos_ne_nil (lt_min_iff.mp this).2 (by assumption)
  set D := s.sum ((willingDemand S H v).map (fun r => r.quantity)) with hD
  set U := s.sum ((willingSupply S H v).map (fun r => r.quantity)) with hU
  have htot : (if decide (D < U) = true then D else U) = min D U := by
    by_cases h : D < U
    · rw [if_pos (decide_eq_true h), min_eq_left h.le]
    · rw [if_neg (by simpa using h), min_eq_right (not_lt.mp h)]
  have hsolve : ∀ fees, solveSideF F s o S H v fees =
      if 0 < min D U then do
        let (longRows, lIndex) ← getTradingBidsF F s
          (if decide (D < U) then willingSupply S H v else willingDemand S H v) (min D U)
        let (shortRows, sIndex) ← getTradingBidsF F s
          (if decide (D < U) then willingDemand S H v else willingSupply S H v) (min D U)
        let fees' ← feeLoopF F o longRows lIndex (min D U) v.toRat (tradingUsers longRows lIndex) fees
        .ok (TransactionManager.init.addAll (tradingTrans shortRows sIndex v.toRat ++
          tradingTrans longRows lIndex v.toRat), fees')
      else .ok (TransactionManager.init, fees) := by
    intro fees
    rw [← htot]
    unfold solveSideF
    rw [if_neg hb, if_neg hs]
  by_cases hpos : 0 < min D U
  · right
    simp only [if_pos hpos] at hsolve
    have hd' := sum_pos_ne_nil (lt_min_iff.mp hpos).1
    have hs' := sum_pos_ne_nil (lt_min_iff.mp hpos).2
    obtain ⟨p, rfl⟩ := finite_of_both hd' hs'
    have hmin : min D U = halfQtyF F s S H p := rfl
    have hQD : halfQtyF F s S H p ≤ D := min_le_left _ _
    have hQS : halfQtyF F s S H p ≤ U := min_le_right _ _
    rw [hmin] at hsolve hpos
    obtain ⟨A, r, B, od, kd, ed, cd, td⟩ := getTradingBidsF_cut F s hd' (halfQtyF F s S H p)
    obtain ⟨A', r', B', os, ks, es, cs, ts⟩ := getTradingBidsF_cut F s hs' (halfQtyF F s S H p)
    have outd := cd.sideOut (willingDemand_side hn hq p).nodup (willingDemand_side hn hq p).nonneg
      hpos.le hQD p
    have outs := cs.sideOut (willingSupply_side hn hq p).nodup (willingSupply_side hn hq p).nonneg
      hpos.le hQS p
    rw [← td, ← tradingTrans_eq] at outd
    rw [← ts, ← tradingTrans_eq] at outs
    have usd : ∀ u ∈ tradingUsers od kd, ∃ r ∈ H, r.user = u := by
      intro u hu
      obtain ⟨x, hx, rfl⟩ := mem_tradingUsers.mp hu
      rw [td] at hx
      rcases List.mem_append.mp hx with h' | h'
      · exact ⟨x, (mem_willingDemand.mp (by rw [cd.eq]; simp [h'] : x ∈ willingDemand S H (.fin p))).1, rfl⟩
      · rw [List.mem_singleton] at h'
        subst h'
        exact ⟨r, (mem_willingDemand.mp (by rw [cd.eq]; simp : r ∈ willingDemand S H (.fin p))).1, rfl⟩
    have uss : ∀ u ∈ tradingUsers os ks, ∃ r ∈ H, r.user = u := by
      intro u hu
      obtain ⟨x, hx, rfl⟩ := mem_tradingUsers.mp hu
      rw [ts] at hx
      rcases List.mem_append.mp hx with h' | h'
      · exact ⟨x, (mem_willingSupply.mp (by rw [cs.eq]; simp [h'] : x ∈ willingSupply S H (.fin p))).1, rfl⟩
      · rw [List.mem_singleton] at h'
        subst h'
        exact ⟨r', (mem_willingSupply.mp (by rw [cs.eq]; simp : r' ∈ willingSupply S H (.fin p))).1, rfl⟩
    by_cases hl : D < U
    · refine ⟨p, os, ks, tradingUsers os ks, TransactionManager.init.addAll
        (tradingTrans od kd p ++ tradingTrans os ks p), rfl, ?_, uss, ?_⟩
      · rw [TransactionManager.init_addAll_trans]
        exact ⟨hpos, _, _, Or.inl rfl, outd, outs⟩
      · intro fees
        simp only [hsolve fees, hl, decide_true, if_true, es, ed, bind, Except.bind, Val.toRat]
        cases feeLoopF F o os ks (halfQtyF F s S H p) p (tradingUsers os ks) fees <;> rfl
    · refine ⟨p, od, kd, tradingUsers od kd, TransactionManager.init.addAll
        (tradingTrans os ks p ++ tradingTrans od kd p), rfl, ?_, usd, ?_⟩
      · rw [TransactionManager.init_addAll_trans]
        exact ⟨hpos, _, _, Or.inr rfl, outd, outs⟩
      · intro fees
        simp only [hsolve fees, hl, decide_false, Bool.false_eq_true, if_false, es, ed, bind,
          Except.bind, Val.toRat]
        cases feeLoopF F o od kd (halfQtyF F s S H p) p (tradingUsers od kd) fees <;> rfl
  · left
    refine ⟨fun fees => by rw [hsolve fees, if_neg hpos], ?_⟩
    rintro p rfl
    exact le_antisymm (not_lt.mp hpos) (le_min hdq hsq)

end PyMarket
