import Verif.Lemmas.WholeMuda

/-! # Whole quantities and whole prices: nothing is rounded in MUDA and in peer to peer trading -/

set_option autoImplicit false

namespace PyMarket

open Spec

/-- The arithmetic is exact on quantities up to `M*g`, on prices and midpoints up to `P*h` and on their
products. -/
structure Spec.ExactMoney (A : Arith) (g h : ℚ) (M P : ℕ) : Prop where
  half : A.rnd (1 / 2) = 1 / 2
  qty : ExactOn A g M
  price : ExactOn A (h / 2) (2 * P)
  value : ExactOn A (h / 2 * g) (2 * P * M)

/-- Prices that are multiples of the unit `h`, at most `P*h`. -/
def Spec.WholePrices (h : ℚ) (P : ℕ) (df : DF) : Prop := ∀ r ∈ df, Multiple h r.price ∧ r.price ≤ P * h

/-- A multiple of half the price unit, at most `P*h`. -/
def MidPrice (h : ℚ) (P : ℕ) (x : ℚ) : Prop := Multiple (h / 2) x ∧ x ≤ P * h

variable {A : Arith} {g h : ℚ} {M P : ℕ}

theorem Spec.Multiple.half {x : ℚ} (hx : Multiple h x) : Multiple (h / 2) (1 / 2 * x) := by
  obtain ⟨k, rfl⟩ := hx; exact ⟨k, by ring⟩

theorem Spec.Multiple.double {x : ℚ} (hx : Multiple h x) : Multiple (h / 2) x := by
  obtain ⟨k, rfl⟩ := hx; exact ⟨2 * k, by push_cast; ring⟩

theorem Spec.ExactMoney.hpos (hA : ExactMoney A g h M P) : 0 < h := by
  have := hA.price.1; linarith

theorem Spec.ExactMoney.mid (hA : ExactMoney A g h M P) {x : ℚ} (hx : MidPrice h P x) : A.rnd x = x :=
  hA.price.rnd hx.1 (by have := hx.2; push_cast; linarith)

theorem MidPrice.of_half (hA : ExactMoney A g h M P) {x : ℚ} (hx : Multiple h x) (hP : x ≤ P * h) :
    MidPrice h P (1 / 2 * x) :=
  ⟨hx.half, by have := hx.nonneg hA.hpos; linarith⟩

theorem MidPrice.mid {x y : ℚ} (hx : Multiple h x) (hxP : x ≤ P * h)
    (hy : Multiple h y) (hyP : y ≤ P * h) : MidPrice h P (1 / 2 * x + 1 / 2 * y) :=
  ⟨hx.half.add hy.half, by linarith⟩

/-! ## The competitive price -/

/-- The finite ordinates of a curve are whole prices. -/
def WholeCurve (h : ℚ) (P : ℕ) (f : Curve) : Prop :=
  ∀ s ∈ f, ∀ q : ℚ, s.2 = (q : Ext) → Multiple h q ∧ q ≤ P * h

theorem demandCurve_whole (hh : 0 < h) (S : Sorter) {df : DF} (hp : WholePrices h P df) :
    WholeCurve h P (demandCurve S df).1 := by
  intro s hs q hq
  unfold demandCurve at hs
  rcases List.mem_append.mp hs with h1 | h1
  · obtain ⟨p, hpm, rfl⟩ := List.mem_map.mp h1
    have := (List.of_mem_zip hpm).2
    obtain ⟨r, hr, he⟩ := List.mem_map.mp this
    have : p.2 = q := by simpa using hq
    rw [← this, ← he]
    exact hp r (mem_buys.mp (mem_sortDesc.mp hr)).1
  · simp only [List.mem_singleton] at h1
    subst h1
    have : q = 0 := by simpa using hq
    rw [this]
    exact ⟨Multiple.zero h, by positivity⟩

theorem supplyCurve_whole (S : Sorter) {df : DF} (hp : WholePrices h P df) :
    WholeCurve h P (supplyCurve S df).1 := by
  intro s hs q hq
  unfold supplyCurve at hs
  rcases List.mem_append.mp hs with h1 | h1
  · obtain ⟨p, hpm, rfl⟩ := List.mem_map.mp h1
    have := (List.of_mem_zip hpm).2
    obtain ⟨r, hr, he⟩ := List.mem_map.mp this
    have : p.2 = q := by simpa using hq
    rw [← this, ← he]
    exact hp r (mem_sells.mp (mem_sortAsc.mp hr)).1
  · simp only [List.mem_singleton] at h1
    subst h1
    cases hq

theorem MidPrice.zero (hh : 0 < h) : MidPrice h P 0 := ⟨Multiple.zero _, by positivity⟩

theorem ofExt_mid (hh : 0 < h) {e : Ext} (he : ∀ q : ℚ, e = (q : Ext) → Multiple h q ∧ q ≤ P * h) :
    MidPrice h P (Val.ofExt e).toRat := by
  cases e with
  | none => exact MidPrice.zero hh
  | some q => exact ⟨(he q rfl).1.double, (he q rfl).2⟩

theorem kMixF_whole (hA : ExactMoney A g h M P) {a b : Ext}
    (ha : ∀ q : ℚ, a = (q : Ext) → Multiple h q ∧ q ≤ P * h)
    (hb : ∀ q : ℚ, b = (q : Ext) → Multiple h q ∧ q ≤ P * h) :
    kMixF A (1 / 2) a b = kMix (1 / 2) a b ∧ MidPrice h P (kMix (1 / 2) a b).toRat := by
  have h2 : (1 : ℚ) - 1 / 2 = 1 / 2 := by norm_num
  have hinf : Val.scale (1 / 2) none = .inf := if_pos (by norm_num)
  unfold kMixF kMix
  rw [h2, hA.half]
  cases a with
  | none =>
    rw [hinf]
    cases b with
    | none => rw [hinf]; exact ⟨rfl, MidPrice.zero hA.hpos⟩
    | some y => exact ⟨rfl, MidPrice.zero hA.hpos⟩
  | some x =>
    obtain ⟨x1, x2⟩ := ha x rfl
    have e1 : (Val.scale (1 / 2) (some x)).round A = .fin (1 / 2 * x) :=
      congrArg Val.fin (hA.mid (MidPrice.of_half hA x1 x2))
    cases b with
    | none => rw [hinf]; exact ⟨rfl, MidPrice.zero hA.hpos⟩
    | some y =>
      obtain ⟨y1, y2⟩ := hb y rfl
      have e2 : (Val.scale (1 / 2) (some y)).round A = .fin (1 / 2 * y) :=
        congrArg Val.fin (hA.mid (MidPrice.of_half hA y1 y2))
      have hm := MidPrice.mid (P := P) x1 x2 y1 y2
      rw [e1, e2]
      exact ⟨congrArg Val.fin (hA.mid hm), hm⟩

theorem intersectStepwiseF_whole (hA : ExactMoney A g h M P) {f k : Curve} (hf : WholeCurve h P f)
    (hk : WholeCurve h P k) :
    intersectStepwiseF A f k (1 / 2) = intersectStepwise f k (1 / 2) ∧
    ∀ i, intersectStepwise f k (1 / 2) = .ok i → MidPrice h P i.v.toRat := by
  unfold intersectStepwiseF intersectStepwise
  simp only [bind, Except.bind]
  cases maxX f with
  | error e => exact ⟨rfl, fun i hi => by cases hi⟩
  | ok mf =>
    cases maxX k with
    | error e => exact ⟨rfl, fun i hi => by cases hi⟩
    | ok mk =>
      simp only
      cases crossLoop f k (gridXs f k (min mf mk)) none with
      | error e => exact ⟨rfl, fun i hi => by cases hi⟩
      | ok o =>
        cases o with
        | some y =>
          simp only
          cases h4 : k[argmaxTrue (k.map (fun s => decide (y ≤ s.1)))]? with
          | none => exact ⟨rfl, fun i hi => by cases hi⟩
          | some r1 =>
            cases h5 : f[argmaxTrue (f.map (fun s => decide (y ≤ s.1)))]? with
            | none => exact ⟨rfl, fun i hi => by cases hi⟩
            | some r2 =>
              simp only
              have e1 := hk r1 (List.mem_of_getElem? h4)
              have e2 := hf r2 (List.mem_of_getElem? h5)
              obtain ⟨k1, k2⟩ := kMixF_whole hA e1 e2
              rw [k1]
              refine ⟨rfl, ?_⟩
              intro i hi
              cases hi
              simp only
              split
              · split
                · exact ofExt_mid hA.hpos e1
                · exact ofExt_mid hA.hpos e2
              · exact k2
        | none =>
          simp only
          generalize (gridXs f k (min mf mk)).getLast? = o1
          cases o1 with
          | none => exact ⟨rfl, fun i hi => by cases hi⟩
          | some xl =>
            simp only
            cases h4 : getValueStepwise xl k with
            | none => exact ⟨rfl, fun i hi => by cases hi⟩
            | some r1 =>
              cases h5 : getValueStepwise xl f with
              | none => exact ⟨rfl, fun i hi => by cases hi⟩
              | some r2 =>
                simp only
                have m1 : ∃ s ∈ k, s.2 = r1 := by
                  unfold getValueStepwise at h4
                  split at h4
                  · cases h4
                  · exact stepLookup_mem h4
                have m2 : ∃ s ∈ f, s.2 = r2 := by
                  unfold getValueStepwise at h5
                  split at h5
                  · cases h5
                  · exact stepLookup_mem h5
                obtain ⟨s1, hs1, rfl⟩ := m1
                obtain ⟨s2, hs2, rfl⟩ := m2
                obtain ⟨k1, k2⟩ := kMixF_whole hA (hk s1 hs1) (hf s2 hs2)
                rw [k1]
                refine ⟨rfl, ?_⟩
                intro i hi
                cases hi
                exact k2

theorem findCompetitivePriceF_whole (hA : ExactMoney A g h M P) (S : Sorter) {df : DF}
    (hb : WholeBook g M df) (hp : WholePrices h P df) :
    findCompetitivePriceF A S df = findCompetitivePrice S df ∧
    ∀ v, findCompetitivePrice S df = .ok v → MidPrice h P v.toRat := by
  unfold findCompetitivePriceF findCompetitivePrice
  rw [demandCurveF_whole hA.qty S hb, supplyCurveF_whole hA.qty S hb]
  obtain ⟨h1, h2⟩ := intersectStepwiseF_whole hA (demandCurve_whole hA.hpos S hp) (supplyCurve_whole S hp)
  rw [h1]
  refine ⟨rfl, ?_⟩
  intro v hv
  cases hi : intersectStepwise (demandCurve S df).1 (supplyCurve S df).1 (1 / 2) with
  | error e => rw [hi] at hv; cases hv
  | ok i => rw [hi] at hv; cases hv; exact h2 i hi

/-! ## Fees -/

theorem fee_terms (hA : ExactMoney A g h M P) (o : Summer A) {l : List (Row × ℕ)} {p : ℚ}
    (hl : Whole g M (l.map (fun x => x.1.quantity))) (hpr : ∀ x ∈ l, Multiple h x.1.price ∧ x.1.price ≤ P * h)
    (hp : MidPrice h P p) :
    o.sum (l.map (fun x => A.rnd (A.rnd (x.1.price - p) * x.1.quantity))) =
      (l.map (fun x => (x.1.price - p) * x.1.quantity)).sum := by
  have hh := hA.hpos
  have hg := hA.qty.1
  have h2 : 0 < h / 2 := hA.price.1
  have hPp : (0 : ℚ) ≤ P * h := by positivity
  have key : ∀ x ∈ l, A.rnd (x.1.price - p) = x.1.price - p ∧ |x.1.price - p| ≤ P * h ∧
      ZMultiple (h / 2 * g) ((x.1.price - p) * x.1.quantity) ∧
      |(x.1.price - p) * x.1.quantity| ≤ P * h * x.1.quantity := by
    intro x hx
    obtain ⟨x1, x2⟩ := hpr x hx
    have q1 := hl.1 _ (List.mem_map_of_mem hx)
    have q0 := q1.nonneg hg
    have x0 := x1.nonneg hh
    have p0 := hp.1.nonneg h2
    have hab : |x.1.price - p| ≤ P * h := by
      rw [abs_le]; have := hp.2; constructor <;> linarith
    refine ⟨?_, hab, (x1.double.toInt.sub hp.1.toInt).mul q1.toInt, ?_⟩
    · exact hA.price.rnd_sub x1.double hp.1 (by push_cast; linarith) (by have := hp.2; push_cast; linarith)
    · rw [abs_mul, abs_of_nonneg q0]
      exact mul_le_mul_of_nonneg_right hab q0
  have hsum : ∀ m : List (Row × ℕ), (∀ x ∈ m, x ∈ l) →
      ((m.map (fun x => (x.1.price - p) * x.1.quantity)).map (fun x => |x|)).sum ≤
        P * h * (m.map (fun x => x.1.quantity)).sum := by
    intro m
    induction m with
    | nil => intro _; simp
    | cons x m ih =>
      intro hm
      have := ih (fun y hy => hm y (List.mem_cons_of_mem _ hy))
      have := (key x (hm x List.mem_cons_self)).2.2.2
      simp only [List.map_cons, List.sum_cons]
      linarith
  have e : l.map (fun x => A.rnd (A.rnd (x.1.price - p) * x.1.quantity)) =
      l.map (fun x => (x.1.price - p) * x.1.quantity) := by
    apply List.map_congr_left
    intro x hx
    obtain ⟨k1, k2, k3, k4⟩ := key x hx
    rw [k1]
    refine hA.value.rnd_int k3 (k4.trans ?_)
    have := mul_le_mul_of_nonneg_left (hl.le hg (List.mem_map_of_mem hx)) hPp
    push_cast
    nlinarith
  rw [e]
  refine (o.isSum _).whole_int hA.value ?_ ?_
  · intro y hy
    obtain ⟨x, hx, rfl⟩ := List.mem_map.mp hy
    exact (key x hx).2.2.1
  · refine (hsum l (fun _ hx => hx)).trans ?_
    have := mul_le_mul_of_nonneg_left hl.2 hPp
    push_cast
    nlinarith

theorem computeFeeF_whole (hA : ExactMoney A g h M P) (o : Summer A) {rows : DF} (hb : WholeBook g M rows)
    (hpr : ∀ r ∈ rows, Multiple h r.price ∧ r.price ≤ P * h) (k : ℕ) (u : ℤ) {Q p : ℚ}
    (hQ : Multiple g Q) (hQM : Q ≤ M * g) (hp : MidPrice h P p) :
    computeFeeF A o rows k u Q p = computeFee rows k u Q p := by
  have hg := hA.qty.1
  unfold computeFeeF computeFee
  simp only
  by_cases hne : withoutUser rows u = []
  · rw [if_pos hne, if_pos hne]
  rw [if_neg hne, if_neg hne]
  have hmem : ∀ x ∈ withoutUser rows u, x.1 ∈ rows := fun x hx =>
    List.fst_mem_of_mem_zipIdx (List.mem_filter.mp hx).1
  have hw : Whole g M ((withoutUser rows u).map (fun x => x.1.quantity)) := by
    have h1 : ((withoutUser rows u).map (fun x => x.1.quantity)).Sublist
        (rows.zipIdx.map (fun x => x.1.quantity)) := (List.filter_sublist).map _
    have h2 : rows.zipIdx.map (fun x => x.1.quantity) = rows.map (fun r => r.quantity) := by
      conv_rhs => rw [← List.zipIdx_map_fst 0 rows]
      rw [List.map_map]; rfl
    rw [h2] at h1
    exact Whole.sublist hg hb h1
  rw [lastIndexF_whole hA.qty o hw]
  obtain ⟨T, x, B, he, hi, ht, _⟩ := lastIndex_spec (q := fun p : Row × ℕ => p.1.quantity)
    (hQ.nonneg hg) hne (fun y hy => (hw.1 _ (List.mem_map_of_mem hy)).nonneg hg)
  rw [hi]
  have htake : (withoutUser rows u).take (T.length + 1) = T ++ [x] := by
    rw [he, List.take_append]; simp
  rw [htake, List.dropLast_concat]
  have wT : Whole g M (T.map (fun p => p.1.quantity)) := by
    refine Whole.sublist hg hw ?_
    rw [he, List.map_append]; exact List.sublist_append_left _ _
  have wTx : Whole g M ((T ++ [x]).map (fun p => p.1.quantity)) := by
    refine Whole.sublist hg hw ?_
    rw [← htake]; exact (List.take_sublist _ _).map _
  have hsT : o.sum (T.map (fun p => p.1.quantity)) = (T.map (fun p => p.1.quantity)).sum := o.whole hA.qty wT
  have hd : A.rnd (Q - (T.map (fun p => p.1.quantity)).sum) = Q - (T.map (fun p => p.1.quantity)).sum :=
    hA.qty.rnd_sub hQ (Multiple.sum wT.1) hQM wT.2
  have hdm : Multiple g (Q - (T.map (fun p => p.1.quantity)).sum) := hQ.sub hg (Multiple.sum wT.1) ht
  rw [hsT, hd, capLast_append]
  have hsub : ∀ y ∈ T ++ [x], y ∈ withoutUser rows u := by
    intro y hy; rw [← htake] at hy; exact List.mem_of_mem_take hy
  have hxq : Multiple g x.1.quantity := wTx.1 _ (List.mem_map_of_mem (by simp))
  rw [fee_terms hA o (p := p) ?_ ?_ hp]
  · refine Whole.sublist hg (m := (T ++ [(({ x.1 with quantity := min x.1.quantity (Q -
      (T.map (fun p => p.1.quantity)).sum) } : Row), x.2)]).map (fun p => p.1.quantity)) ?_
      (List.filter_sublist.map _)
    constructor
    · intro y hy
      rw [List.map_append] at hy
      rcases List.mem_append.mp hy with hy | hy
      · exact wT.1 y hy
      · simp only [List.map_cons, List.map_nil, List.mem_singleton] at hy
        rw [hy]; exact hxq.min hdm
    · refine le_trans ?_ wTx.2
      simp only [List.map_append, List.sum_append, List.map_cons, List.map_nil, List.sum_cons, List.sum_nil]
      have := min_le_left x.1.quantity (Q - (T.map (fun p => p.1.quantity)).sum)
      linarith
  · intro y hy
    rcases List.mem_append.mp (List.mem_filter.mp hy).1 with hy | hy
    · exact hpr _ (hmem _ (hsub y (List.mem_append_left _ hy)))
    · rw [List.mem_singleton] at hy
      rw [hy]
      exact hpr x.1 (hmem _ (hsub x (by simp)))

theorem feeLoopF_whole (hA : ExactMoney A g h M P) (o : Summer A) {rows : DF} (hb : WholeBook g M rows)
    (hpr : ∀ r ∈ rows, Multiple h r.price ∧ r.price ≤ P * h) (k : ℕ) {Q p : ℚ}
    (hQ : Multiple g Q) (hQM : Q ≤ M * g) (hp : MidPrice h P p) (us : List ℤ) (fees : List ℚ) :
    feeLoopF A o rows k Q p us fees = feeLoop rows k Q p us fees := by
  induction us generalizing fees with
  | nil => rfl
  | cons u us ih => simp only [feeLoopF, feeLoop, computeFeeF_whole hA o hb hpr k u hQ hQM hp, ih]

/-! ## Halves and the whole auction -/

theorem solveSideF_whole (hA : ExactMoney A g h M P) (s o : Summer A) (S : Sorter) {H : DF}
    (hb : WholeBook g M H) (hpr : WholePrices h P H) {v : Val} (hv : MidPrice h P v.toRat)
    (fees : List ℚ) : solveSideF A s o S H v fees = solveSide S H v fees := by
  have hg := hA.qty.1
  obtain ⟨wd, ws⟩ := willing_whole hg S hb v
  have md : ∀ r ∈ willingDemand S H v, r ∈ H := fun r hr =>
    (mem_buys.mp (List.mem_filter.mp (mem_sortDesc.mp hr)).1).1
  have ms : ∀ r ∈ willingSupply S H v, r ∈ H := fun r hr =>
    (mem_sells.mp (List.mem_filter.mp (mem_sortAsc.mp hr)).1).1
  unfold solveSideF solveSide
  split
  · rfl
  split
  · rfl
  have ed : s.sum ((willingDemand S H v).map (fun r => r.quantity)) = qsum (willingDemand S H v) :=
    s.whole hA.qty wd
  have es : s.sum ((willingSupply S H v).map (fun r => r.quantity)) = qsum (willingSupply S H v) :=
    s.whole hA.qty ws
  simp only [ed, es]
  have key : ∀ (L R : DF) (Q : ℚ), WholeBook g M L → WholeBook g M R → (∀ r ∈ L, r ∈ H) → Multiple g Q →
      0 < Q → Q ≤ qsum L → Q ≤ M * g →
        (do
          let (longRows, lIndex) ← getTradingBidsF A s L Q
          let (shortRows, sIndex) ← getTradingBidsF A s R Q
          let trans := TransactionManager.init.addAll
            (tradingTrans shortRows sIndex v.toRat ++ tradingTrans longRows lIndex v.toRat)
          let f ← feeLoopF A o longRows lIndex Q v.toRat (tradingUsers longRows lIndex) fees
          Except.ok (trans, f)) =
        (do
          let (longRows, lIndex) ← getTradingBids L Q
          let (shortRows, sIndex) ← getTradingBids R Q
          let trans := TransactionManager.init.addAll
            (tradingTrans shortRows sIndex v.toRat ++ tradingTrans longRows lIndex v.toRat)
          let f ← feeLoop longRows lIndex Q v.toRat (tradingUsers longRows lIndex) fees
          Except.ok (trans, f)) := by
    intro L R Q hL hR hLH hQ hQ0 hQL hQM
    rw [getTradingBidsF_whole hA.qty s hL hQ hQM, getTradingBidsF_whole hA.qty s hR hQ hQM]
    have hne : L ≠ [] := by
      rintro rfl
      simp [qsum] at hQL; linarith
    obtain ⟨out, k, hout, hcut⟩ := getTradingBids_spec hQ0.le hne (hL.nonneg hg) hQL
    have hfee := feeLoopF_whole hA o (hcut.whole hg hL hQ) (fun r hr => by
      obtain ⟨r', h1, _, h2, _⟩ := hcut.attr r hr
      rw [h2]; exact hpr r' (hLH r' h1)) k hQ hQM hv (tradingUsers out k) fees
    simp only [hout, bind, Except.bind]
    cases getTradingBids R Q with
    | error e => rfl
    | ok b => simp only [hfee]
  by_cases hlt : qsum (willingDemand S H v) < qsum (willingSupply S H v)
  · simp only [hlt, decide_true, if_true]
    split
    · rename_i h0
      exact key _ _ _ ws wd ms (Multiple.sum wd.1) h0 hlt.le wd.2
    · rfl
  · simp only [hlt, decide_false, Bool.false_eq_true, if_false]
    split
    · rename_i h0
      exact key _ _ _ wd ws md (Multiple.sum ws.1) h0 (not_lt.mp hlt) ws.2
    · rfl

theorem mudaBodyF_halves' {s o : Summer A} {S : Sorter} {coin : ℕ → Bool} {df : DF} (ht : IsTable df) :
    mudaBodyF A s o S coin df = (do
      let left := (List.range df.length).filter coin
      let right := (List.range df.length).filter (fun i => !coin i)
      let pl ← findCompetitivePriceF A S (half df left)
      let pr ← findCompetitivePriceF A S (half df right)
      let fees := List.replicate (df.map (fun r => r.user)).dedup.length (0 : ℚ)
      let (transLeft, fees) ← solveSideF A s o S (half df left) pr fees
      let (transRight, fees) ← solveSideF A s o S (half df right) pl fees
      .ok (transLeft.merge transRight, .muda left right pl pr fees)) := by
  have hlab : df.map (fun r => r.label) = List.range df.length := ht
  have hr : (List.range df.length).filter (fun i => decide (i ∉ (List.range df.length).filter coin)) =
      (List.range df.length).filter (fun i => !coin i) := by
    apply List.filter_congr
    intro i hi
    by_cases hc : coin i = true
    · simp [hc]; exact List.mem_range.mp hi
    · simp [hc]
  unfold mudaBodyF
  simp only [hlab, coinLeft_range, hr, filterMap_find_labels ht, half_filter ht]

theorem half_wholeBook (hg : 0 < g) {df : DF} (hb : WholeBook g M df) (ids : List ℕ) :
    WholeBook g M (half df ids) := hb.sublist hg List.filter_sublist

theorem mudaF_whole (hA : ExactMoney A g h M P) (s o : Summer A) (S : Sorter) (coin : ℕ → Bool) {df : DF}
    (ht : IsTable df) (hb : WholeBook g M df) (hpr : WholePrices h P df) :
    mudaF A s o S coin df = muda S coin df := by
  unfold mudaF muda
  split
  · rfl
  rw [mudaBodyF_halves' ht, mudaBody_halves ht]
  simp only
  have hbH := half_wholeBook hA.qty.1 hb
  have hpH : ∀ ids, WholePrices h P (half df ids) := fun ids r hr => hpr r (half_sub r hr)
  obtain ⟨l1, l2⟩ := findCompetitivePriceF_whole hA S (hbH ((List.range df.length).filter coin)) (hpH _)
  obtain ⟨r1, r2⟩ := findCompetitivePriceF_whole hA S
    (hbH ((List.range df.length).filter (fun i => !coin i))) (hpH _)
  rw [l1, r1]
  simp only [bind, Except.bind]
  cases hpl : findCompetitivePrice S (half df ((List.range df.length).filter coin)) with
  | error e => rfl
  | ok pl =>
    cases hpr' : findCompetitivePrice S (half df ((List.range df.length).filter (fun i => !coin i))) with
    | error e => rfl
    | ok pr =>
      simp only
      rw [solveSideF_whole hA s o S (hbH _) (hpH _) (r2 pr hpr')]
      cases solveSide S (half df ((List.range df.length).filter coin)) pr
          (List.replicate (df.map (fun r => r.user)).dedup.length (0 : ℚ)) with
      | error e => rfl
      | ok x =>
        simp only
        rw [solveSideF_whole hA s o S (hbH _) (hpH _) (l2 pl hpl)]

/-! ## Peer to peer trading with equal weights -/

theorem tradeOneF_money (hA : ExactMoney A g h M P) {q : ℕ → ℚ} (hq : WholeQ g M q) {prices : ℕ → ℚ}
    (hpr : ∀ i, Multiple h (prices i) ∧ prices i ≤ P * h) (p : ℕ × ℕ) (hp : p.1 ≠ p.2) :
    tradeOneF A prices (1 / 2) q p = tradeOne prices (1 / 2) q p := by
  obtain ⟨h1, _, _, _⟩ := tradeOneF_whole hA.qty hq prices (1 / 2) p hp
  refine Prod.ext h1 ?_
  obtain ⟨b, s⟩ := p
  obtain ⟨b1, b2⟩ := hpr b
  obtain ⟨s1, s2⟩ := hpr s
  have hm := (hq b).1.min (hq s).1
  have e1 : A.rnd (q b - min (q b) (q s)) = q b - min (q b) (q s) :=
    hA.qty.rnd_sub (hq b).1 hm (hq b).2 (le_trans (min_le_left _ _) (hq b).2)
  have e2 : A.rnd (q s - min (q b) (q s)) = q s - min (q b) (q s) :=
    hA.qty.rnd_sub (hq s).1 hm (hq s).2 (le_trans (min_le_left _ _) (hq b).2)
  have e3 : A.rnd (prices b * (1 / 2)) = 1 / 2 * prices b := by
    rw [mul_comm]; exact hA.mid (MidPrice.of_half hA b1 b2)
  have e4 : A.rnd (1 / 2 * prices s) = 1 / 2 * prices s := hA.mid (MidPrice.of_half hA s1 s2)
  have e5 : A.rnd (1 / 2 * prices b + 1 / 2 * prices s) = 1 / 2 * prices b + 1 / 2 * prices s :=
    hA.mid (MidPrice.mid b1 b2 s1 s2)
  have h2 : (1 : ℚ) - 1 / 2 = 1 / 2 := by norm_num
  unfold tradeOneF tradeOne
  simp only [e1, e2, h2, hA.half, e3, e4, e5]
  split
  · simp only [mul_comm (prices b)]
  · rfl

theorem tradeRoundF_money (hA : ExactMoney A g h M P) {prices : ℕ → ℚ}
    (hpr : ∀ i, Multiple h (prices i) ∧ prices i ≤ P * h) : ∀ (ps : List (ℕ × ℕ)) (q : ℕ → ℚ),
    WholeQ g M q → (∀ p ∈ ps, p.1 ≠ p.2) →
    tradeRoundF A prices (1 / 2) q ps = tradeRound prices (1 / 2) q ps := by
  intro ps
  induction ps with
  | nil => intro q _ _; rfl
  | cons p ps ih =>
    intro q hq hps
    obtain ⟨_, _, h3, _⟩ := tradeOneF_whole hA.qty hq prices (1 / 2) p (hps p List.mem_cons_self)
    rw [tradeRoundF, tradeRound]
    simp only [tradeOneF_money hA hq hpr p (hps p List.mem_cons_self)]
    rw [ih _ h3 (fun p' hp' => hps p' (List.mem_cons_of_mem _ hp'))]

theorem p2pLoopF_money (hA : ExactMoney A g h M P) (s : Summer A) (df : DF) {prices : ℕ → ℚ}
    (hpr : ∀ i, Multiple h (prices i) ∧ prices i ≤ P * h)
    (choice : ℕ → ℕ) (n : ℕ) (q : ℕ → ℚ) (active : List (ℕ × ℕ)) (inactive : List ℕ)
    (hq : WholeQ g M q) (hsum : (df.map (fun r => q r.label)).sum ≤ M * g)
    (hne : ∀ p ∈ active, p.1 ≠ p.2) :
    p2pLoopF A s df prices (1 / 2) choice n q active inactive =
      p2pLoop df prices (1 / 2) choice n q active inactive := by
  have hsm : ∀ q : ℕ → ℚ, WholeQ g M q → (df.map (fun r => q r.label)).sum ≤ M * g →
      s.sum (df.map (fun r => q r.label)) = (df.map (fun r => q r.label)).sum := by
    intro q hq hsum
    refine s.whole hA.qty ⟨?_, hsum⟩
    intro x hx
    obtain ⟨r, _, rfl⟩ := List.mem_map.mp hx
    exact (hq _).1
  fun_induction p2pLoop df prices (1 / 2) choice n q active inactive with
  | case1 n q active inactive tmp hcond m t rest ih =>
    have hm : m = meetLoop choice n active (maskOut active inactive) := rfl
    have hpairs : ∀ p ∈ m.2.2, p.1 ≠ p.2 := fun p hp =>
      hne p ((maskOut_sublist active inactive).subset ((meetLoop_incl choice n active _).2 p hp))
    obtain ⟨_, _, h3, h4⟩ := tradeRoundF_whole hA.qty prices (1 / 2) m.2.2 q hq hpairs
    have ih' := ih h3 (le_trans (List.sum_le_sum (fun r _ => h4 r.label)) hsum)
      (fun p hp => hne p ((meetLoop_incl choice n active _).1 p hp))
    rw [p2pLoopF]
    have hcond' : 0 < s.sum (df.map (fun r => q r.label)) ∧ maskOut active inactive ≠ [] := by
      rw [hsm q hq hsum]; exact hcond
    simp only [dif_pos hcond']
    rw [← hm, tradeRoundF_money hA hpr m.2.2 q hq hpairs]
    change (m.2.2 :: (p2pLoopF A s df prices (1 / 2) choice m.1 t.1 m.2.1 (exhausted df t.1)).1,
      t.2 ++ (p2pLoopF A s df prices (1 / 2) choice m.1 t.1 m.2.1 (exhausted df t.1)).2) = _
    rw [ih']
  | case2 n q active inactive tmp hcond =>
    rw [p2pLoopF]
    have hcond' : ¬ (0 < s.sum (df.map (fun r => q r.label)) ∧ maskOut active inactive ≠ []) := by
      rw [hsm q hq hsum]; exact hcond
    simp only [dif_neg hcond']

/-! ## The start of the loop -/

theorem valueAt_prop {df : DF} {f : Row → ℚ} {R : ℚ → Prop} (h0 : R 0) (hr : ∀ r ∈ df, R (f r)) (i : ℕ) :
    R (valueAt df f i) := by
  unfold valueAt
  cases hi : df[i]? with
  | none => exact h0
  | some r => exact hr r (List.mem_of_getElem? hi)

theorem valueAt_wholeQ (hg : 0 < g) {df : DF} (hb : WholeBook g M df) :
    WholeQ g M (valueAt df (fun r => r.quantity)) := fun i =>
  valueAt_prop (R := fun x => Multiple g x ∧ x ≤ M * g) ⟨Multiple.zero g, by positivity⟩
    (fun r hr => ⟨hb.1 _ (List.mem_map_of_mem hr), Whole.le hg hb (List.mem_map_of_mem hr)⟩) i

theorem valueAt_sum {df : DF} (ht : IsTable df) :
    df.map (fun r => valueAt df (fun r => r.quantity) r.label) = df.map (fun r => r.quantity) := by
  apply List.map_congr_left
  intro r hr
  unfold valueAt
  rw [ht.get_label hr]; rfl

theorem p2pRandomF_money (hA : ExactMoney A g h M P) (s : Summer A) (choice : ℕ → ℕ) {df : DF}
    (ht : IsTable df) (hb : WholeBook g M df) (hpr : WholePrices h P df) :
    p2pRandomF A s (1 / 2) choice df = p2pRandom (1 / 2) choice df := by
  have hh := hA.hpos
  unfold p2pRandomF p2pRandom
  simp only
  rw [p2pLoopF_money hA s df (valueAt_prop (R := fun x => Multiple h x ∧ x ≤ P * h)
    ⟨Multiple.zero h, by positivity⟩ hpr) choice 0 _ (allPairs df) [] (valueAt_wholeQ hA.qty.1 hb)
    (by rw [valueAt_sum ht]; exact hb.2) (fun p hp => allPairs_ne ht hp)]

end PyMarket
