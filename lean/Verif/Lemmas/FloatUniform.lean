import Verif.Model.FloatUniform
import Verif.Lemmas.FloatMuda
import Verif.Lemmas.Uniform
import Verif.Props.FloatP2P

/-! # The outcome of the uniform price mechanism in floating point arithmetic -/

set_option autoImplicit false

namespace PyMarket

open Spec

theorem uniformLongF_exact (p T a : ℚ) (rows : DF) :
    uniformLongF exactFmt p T a rows = uniformLong p T a rows := by
  induction rows generalizing a with
  | nil => rfl
  | cons r rows ih =>
    simp only [uniformLongF, uniformLong, exactFmt_rnd, ih]
    rfl

theorem uniformPriceF_exact (s : Summer exactFmt) (S : Sorter) (df : DF) :
    uniformPriceF exactFmt s S df = uniformPrice S df := by
  unfold uniformPriceF uniformPrice
  simp only [demandCurveF_exact, supplyCurveF_exact, intersectStepwiseF_exact, Summer.exact,
    uniformLongF_exact]
  rfl

/-- The running total of the quantities of some rows. -/
def runF (F : Fmt) (rows : DF) : ℚ := addFrom F 0 (rows.map (fun r => r.quantity))

section

variable {F : Fmt}

theorem stepsF_sum (a : ℚ) (l : List ℚ) : a + (stepsF F a l).sum = addFrom F a l := by
  induction l generalizing a with
  | nil => simp [stepsF, addFrom]
  | cons x l ih =>
    rw [addFrom_cons, ← ih]
    simp only [stepsF, List.sum_cons]
    ring

theorem stepsF_take (a : ℚ) (l : List ℚ) (n : ℕ) : (stepsF F a l).take n = stepsF F a (l.take n) := by
  induction l generalizing a n with
  | nil => simp [stepsF]
  | cons x l ih =>
    cases n with
    | zero => rfl
    | succ n => simp only [stepsF, List.take_succ_cons, ih]

theorem le_addFrom {a : ℚ} (ha : F.Rep a) {l : List ℚ} (hl : ∀ x ∈ l, 0 ≤ x) : a ≤ addFrom F a l := by
  induction l generalizing a with
  | nil => exact le_refl _
  | cons x l ih =>
    rw [addFrom_cons]
    exact le_trans (F.le_rnd ha (by linarith [hl x List.mem_cons_self]))
      (ih (F.rep_rnd _) (fun y hy => hl y (List.mem_cons_of_mem _ hy)))

theorem runF_snoc (rows : DF) (m : Row) : runF F (rows ++ [m]) = F.rnd (runF F rows + m.quantity) := by
  unfold runF
  rw [List.map_append, addFrom_append]
  rfl

theorem qsum_requant_take {w : ℕ → ℚ} {l : DF}
    (h : l.map (fun r => w r.label) = stepsF F 0 (l.map (fun r => r.quantity))) (n : ℕ) :
    qsum ((requant w l).take n) = runF F (l.take n) := by
  have e : ((requant w l).take n).map (fun r => r.quantity) = (l.map (fun r => w r.label)).take n := by
    unfold requant
    rw [← List.map_take, List.map_map, ← List.map_take]
    rfl
  unfold qsum runF
  rw [e, h, stepsF_take, ← List.map_take, ← stepsF_sum, zero_add]

theorem getElem?_requant {w : ℕ → ℚ} {l : DF} {n : ℕ} {m' : Row} (h : (requant w l)[n]? = some m') :
    ∃ m, l[n]? = some m ∧ m' = { m with quantity := w m.label } := by
  unfold requant at h
  rw [List.getElem?_map] at h
  cases hm : l[n]? with
  | none => rw [hm] at h; cases h
  | some m => rw [hm] at h; cases h; exact ⟨m, rfl, rfl⟩

/-- What the mechanism computes: it fails like on a nearby book, or the two sides up to the marginal bids are
those of a nearby book. -/
theorem uniformF_eval (F : Fmt) (s : Summer F) (S : Sorter) {df : DF} (ht : IsTable df) (hq : NonNeg df)
    (hr : RepBook F df) : ∃ w, NonNeg (requant w df) ∧
      Nearby (F.eps * ((1 + F.eps) ^ df.length * totalQty df)) df (requant w df) ∧
      ((uniformPriceF F s S df = .error .typeError ∧ uniformPrice S (requant w df) = .error .typeError) ∨
      ∃ (x p : ℚ) (b g : ℕ) (mb ms : Row) (tm' : TransactionManager),
        (sortDesc S (buys df))[b]? = some mb ∧ (sortAsc S (sells df))[g]? = some ms ∧
        ms.price < mb.price ∧ ms.price ≤ F.rnd p ∧ F.rnd p ≤ mb.price ∧
        runF F ((sortDesc S (buys df)).take b) ≤ x ∧ runF F ((sortAsc S (sells df)).take g) ≤ x ∧
        x ≤ runF F ((sortDesc S (buys df)).take b ++ [mb]) ∧
        x ≤ runF F ((sortAsc S (sells df)).take g ++ [ms]) ∧
        (runF F ((sortDesc S (buys df)).take b ++ [mb]) = x ∨
          runF F ((sortAsc S (sells df)).take g ++ [ms]) = x) ∧
        uniformPrice S (requant w df) = .ok (tm', some (x : Ext), .fin p) ∧
        uniformPriceF F s S df = .ok (TransactionManager.init.addAll
          (if s.sum (((sortAsc S (sells df)).take g ++ [ms]).map (fun r => r.quantity)) <
              s.sum (((sortDesc S (buys df)).take b ++ [mb]).map (fun r => r.quantity))
            then uniformShort (F.rnd p) ((sortAsc S (sells df)).take g ++ [ms]) ++ uniformLongF F (F.rnd p)
              (s.sum (((sortAsc S (sells df)).take g ++ [ms]).map (fun r => r.quantity))) 0
              ((sortDesc S (buys df)).take b ++ [mb])
            else uniformShort (F.rnd p) ((sortDesc S (buys df)).take b ++ [mb]) ++ uniformLongF F (F.rnd p)
              (s.sum (((sortDesc S (buys df)).take b ++ [mb]).map (fun r => r.quantity))) 0
              ((sortAsc S (sells df)).take g ++ [ms])),
          some (x : Ext), .fin (F.rnd p))) := by
  obtain ⟨w, h1, h2, hw, hd, hs⟩ := exists_backward F S ht.nodup (fun r h => (hq r h).1)
  replace hw := requant_nonNeg hq hw
  have hnear : Nearby (F.eps * ((1 + F.eps) ^ df.length * totalQty df)) df (requant w df) :=
    nearby_of_steps F S (fun r h => (hq r h).1) h1 h2
  refine ⟨w, hw, hnear, ?_⟩
  have hrc1 := demandCurveF_rep S (df := df) (fun r h => (hr r h).2)
  have hrc2 := supplyCurveF_rep S (df := df) (fun r h => (hr r h).2)
  rcases intersect_cases S hw (1 / 2) with ⟨x, hc, he⟩ | ⟨he, _⟩
  · right
    obtain ⟨mb', ms', p, hb', hs', hpb, hps, hp, p1, p2, c1, c2, c3, c4, hev⟩ := uniform_eval S hw hc
    have eb : sortDesc S (buys (requant w df)) = requant w (sortDesc S (buys df)) := by
      rw [buys_requant, sortDesc_requant]
    have es : sortAsc S (sells (requant w df)) = requant w (sortAsc S (sells df)) := by
      rw [sells_requant, sortAsc_requant]
    have hqb : ∀ r ∈ sortDesc S (buys (requant w df)), 0 ≤ r.quantity :=
      fun r hr => (hw r (mem_buys.mp (mem_sortDesc.mp hr)).1).1
    have hqs : ∀ r ∈ sortAsc S (sells (requant w df)), 0 ≤ r.quantity :=
      fun r hr => (hw r (mem_sells.mp (mem_sortAsc.mp hr)).1).1
    have hex : qsum (huangB S (requant w df) x) + mb'.quantity = x ∨
        qsum (huangA S (requant w df) x) + ms'.quantity = x := by
      rcases hc.mem with hm | hm
      · left
        rw [demandCurve_eq] at hm
        have := stepIdx_exact hqb hm hb'
        rwa [zero_add] at this
      · right
        rw [supplyCurve_eq] at hm
        have := stepIdx_exact hqs hm hs'
        rwa [zero_add] at this
    have tb : qsum (huangB S (requant w df) x) + mb'.quantity =
        qsum ((sortDesc S (buys (requant w df))).take (demandIdx S (requant w df) x + 1)) := by
      rw [take_succ_of_getElem? hb']
      simp [qsum, huangB]
    have ts : qsum (huangA S (requant w df) x) + ms'.quantity =
        qsum ((sortAsc S (sells (requant w df))).take (supplyIdx S (requant w df) x + 1)) := by
      rw [take_succ_of_getElem? hs']
      simp [qsum, huangA]
    rw [tb] at c2 hex
    rw [ts] at c4 hex
    unfold huangB at c1
    unfold huangA at c3
    rw [eb, qsum_requant_take h1] at c1 c2 hex
    rw [es, qsum_requant_take h2] at c3 c4 hex
    rw [eb] at hb'
    rw [es] at hs'
    obtain ⟨mb, hb, rfl⟩ := getElem?_requant hb'
    obtain ⟨ms, hs0, rfl⟩ := getElem?_requant hs'
    have mb1 := (mem_buys.mp (mem_sortDesc.mp (List.mem_of_getElem? hb))).1
    have ms1 := (mem_sells.mp (mem_sortAsc.mp (List.mem_of_getElem? hs0))).1
    have tb' := take_succ_of_getElem? hb
    have ts' := take_succ_of_getElem? hs0
    rw [tb'] at c2 hex
    rw [ts'] at c4 hex
    have hlt : ms.price < mb.price := by
      have := hc.at_x
      rw [hpb, hps] at this
      exact WithTop.coe_lt_coe.mp this
    refine ⟨x, p, _, _, mb, ms, _, hb, hs0, hlt, F.le_rnd (hr ms ms1).2 p1, F.rnd_le (hr mb mb1).2 p2, c1, c3,
      c2, c4, hex, hev, ?_⟩
    have hF := intersectStepwiseF_half hrc1 hrc2 (by rw [hd, hs]; exact he)
    unfold uniformPriceF
    simp only [hF, bind, Except.bind, tb', ts', hp, Val.round, Val.toRat]
    split_ifs <;> rfl
  · left
    have hF := intersectStepwiseF_half hrc1 hrc2 (by rw [hd, hs]; exact he)
    constructor
    · unfold uniformPriceF
      simp only [hF, bind, Except.bind]
    · unfold uniformPrice
      simp only [he, bind, Except.bind]

/-! ## The quantities of the two sides -/

/-- The quantities of the long side. -/
def longQty (F : Fmt) (T : ℚ) : ℚ → DF → List ℚ
  | _, [] => []
  | a, r :: rows => (if F.rnd (r.quantity + a) ≤ T then r.quantity else F.rnd (T - a)) ::
      longQty F T (F.rnd (a + r.quantity)) rows

theorem longQty_length (T a : ℚ) (rows : DF) : (longQty F T a rows).length = rows.length := by
  induction rows generalizing a with
  | nil => rfl
  | cons r rows ih => simp [longQty, ih]

theorem uniformLongF_side (p T a : ℚ) (rows : DF) :
    uniformLongF F p T a rows = huangSideTrans rows (longQty F T a rows) p := by
  induction rows generalizing a with
  | nil => rfl
  | cons r rows ih =>
    simp only [uniformLongF, longQty, ih]
    rfl

theorem uniformShort_side (p : ℚ) (rows : DF) :
    uniformShort p rows = huangSideTrans rows (rows.map (fun r => r.quantity)) p := by
  induction rows with
  | nil => rfl
  | cons r rows ih =>
    simp only [uniformShort, List.map_cons] at ih ⊢
    rw [ih]
    rfl

/-- Whatever the sums are, no bid trades more than its quantity. -/
theorem longQty_le {T a : ℚ} (hT : F.Rep T) {rows : DF} (hr : ∀ r ∈ rows, F.Rep r.quantity) :
    List.Forall₂ (fun r q => q ≤ r.quantity ∧ F.Rep q) rows (longQty F T a rows) := by
  induction rows generalizing a with
  | nil => exact List.Forall₂.nil
  | cons r rows ih =>
    have h0 := hr r List.mem_cons_self
    refine List.Forall₂.cons ?_ (ih (fun r' h' => hr r' (List.mem_cons_of_mem _ h')))
    split_ifs with hc
    · exact ⟨le_refl _, h0⟩
    · refine ⟨F.rnd_le h0 ?_, F.rep_rnd _⟩
      by_contra hlt
      exact hc (F.rnd_le hT (by linarith))

theorem longQty_served {T a : ℚ} {rows : DF} {m : Row}
    (hq : ∀ r ∈ rows, 0 ≤ r.quantity) (hle : addFrom F a (rows.map (fun r => r.quantity)) ≤ T) :
    longQty F T a (rows ++ [m]) = rows.map (fun r => r.quantity) ++
      [if F.rnd (m.quantity + addFrom F a (rows.map (fun r => r.quantity))) ≤ T then m.quantity
        else F.rnd (T - addFrom F a (rows.map (fun r => r.quantity)))] := by
  induction rows generalizing a with
  | nil => rfl
  | cons r rows ih =>
    have hq' : ∀ r' ∈ rows, 0 ≤ r'.quantity := fun r' h' => hq r' (List.mem_cons_of_mem _ h')
    rw [List.map_cons, addFrom_cons] at hle ⊢
    have h1 : F.rnd (a + r.quantity) ≤ T := le_trans (le_addFrom (F.rep_rnd _) (by
      intro x hx
      obtain ⟨r', hr', rfl⟩ := List.mem_map.mp hx
      exact hq' r' hr')) hle
    simp only [List.cons_append, longQty]
    rw [if_pos (by rw [add_comm]; exact h1), ih hq' hle]

theorem sum_longQty_err {n : ℕ} {T : ℚ} {rows : DF} {m : Row} (hq : ∀ r ∈ rows ++ [m], 0 ≤ r.quantity)
    (hr : ∀ r ∈ rows ++ [m], F.Rep r.quantity) (hn : (rows ++ [m]).length ≤ n + 1)
    (h1 : runF F rows ≤ T) (h2 : T ≤ runF F (rows ++ [m])) :
    (∀ q ∈ longQty F T 0 (rows ++ [m]), 0 ≤ q) ∧
    |(longQty F T 0 (rows ++ [m])).sum - T| ≤ ((1 + F.eps) ^ n - 1) * totalQty (rows ++ [m]) + F.eps * T := by
  have e0 := F.eps_nonneg
  have hq1 : ∀ r ∈ rows, 0 ≤ r.quantity := fun r h => hq r (List.mem_append_left _ h)
  have hm := hq m (List.mem_append_right _ List.mem_cons_self)
  have hx1 : ∀ x ∈ rows.map (fun r => r.quantity), 0 ≤ x := by
    intro x hx; obtain ⟨r, h, rfl⟩ := List.mem_map.mp hx; exact hq1 r h
  have hA0 : 0 ≤ runF F rows := le_addFrom F.rep_zero hx1
  have hP : 1 ≤ (1 + F.eps) ^ n := one_le_pow₀ (by linarith)
  have ht1 : 0 ≤ totalQty rows := totalQty_nonneg hq1
  have htot : totalQty (rows ++ [m]) = totalQty rows + m.quantity := by simp [totalQty]
  have hrep : ∀ l : DF, (∀ r ∈ l, F.Rep r.quantity) → IsFSum F (l.map (fun r => r.quantity)) (runF F l) := by
    intro l hl
    have := seqSum_isFSum F (l.map (fun r => r.quantity))
    rwa [seqSum_addFrom (by intro x hx; obtain ⟨r, h, rfl⟩ := List.mem_map.mp hx; exact hl r h)] at this
  have err1 := (hrep rows (fun r h => hr r (List.mem_append_left _ h))).err hx1
  have err2 := (hrep (rows ++ [m]) hr).err (by
    intro x hx; obtain ⟨r, h, rfl⟩ := List.mem_map.mp hx; exact hq r h)
  change |runF F rows - totalQty rows| ≤ _ * totalQty rows at err1
  change |runF F (rows ++ [m]) - totalQty (rows ++ [m])| ≤ _ * totalQty (rows ++ [m]) at err2
  rw [List.length_map] at err1 err2
  have hl : rows.length + 1 ≤ n + 1 := by simpa using hn
  have g1 : (1 + F.eps) ^ (rows.length - 1) ≤ (1 + F.eps) ^ n := pow_le_pow_right₀ (by linarith) (by omega)
  have g2 : (1 + F.eps) ^ ((rows ++ [m]).length - 1) ≤ (1 + F.eps) ^ n :=
    pow_le_pow_right₀ (by linarith) (by omega)
  have k1 := mul_le_mul_of_nonneg_right (sub_le_sub_right g1 1) ht1
  have k2 := mul_le_mul_of_nonneg_right (sub_le_sub_right g2 1) (by linarith : 0 ≤ totalQty (rows ++ [m]))
  have k3 : 0 ≤ ((1 + F.eps) ^ n - 1) * m.quantity := mul_nonneg (by linarith) hm
  rw [longQty_served hq1 h1]
  change (∀ q ∈ _ ++ [if F.rnd (m.quantity + runF F rows) ≤ T then m.quantity else F.rnd (T - runF F rows)], 0 ≤ q) ∧
    |(_ ++ [if F.rnd (m.quantity + runF F rows) ≤ T then m.quantity else F.rnd (T - runF F rows)]).sum - T| ≤ _
  rw [List.sum_append, List.sum_singleton]
  change _ ∧ |totalQty rows + _ - T| ≤ _
  rw [runF_snoc, add_comm] at h2
  split_ifs with hc
  · have hT' : T = F.rnd (m.quantity + runF F rows) := le_antisymm h2 hc
    refine ⟨?_, ?_⟩
    · intro q hqm
      rcases List.mem_append.mp hqm with h | h
      · exact hx1 q h
      · rw [List.mem_singleton.mp h]; exact hm
    · rw [runF_snoc, add_comm (runF F rows), ← hT', htot, abs_sub_comm] at err2
      rw [htot] at k2 ⊢
      have : 0 ≤ F.eps * T := mul_nonneg e0 (le_trans hA0 h1)
      linarith
  · refine ⟨?_, ?_⟩
    · intro q hqm
      rcases List.mem_append.mp hqm with h | h
      · exact hx1 q h
      · rw [List.mem_singleton.mp h]; exact F.rnd_nonneg (by linarith)
    · have hr' := F.err (T - runF F rows)
      rw [abs_of_nonneg (by linarith : 0 ≤ T - runF F rows)] at hr'
      have : F.eps * (T - runF F rows) ≤ F.eps * T := mul_le_mul_of_nonneg_left (by linarith) e0
      rw [htot]
      rw [abs_le] at *
      constructor <;> nlinarith
end

end PyMarket
