import Verif.Lemmas.Whole

/-! # Huang's auction on whole quantities -/

set_option autoImplicit false

namespace PyMarket

open Spec

variable {F : Fmt} {g : ℚ} {M : ℕ}

/-- With whole numbers the gap shrinks by exactly what is removed, so that the loop ends. -/
theorem uqLoopF_whole (hA : ExactOn F.toArith g M) (q : List (Option ℚ)) (N : ℕ) (gap : ℚ)
    (hN : N = q.countP Option.isSome) (hN1 : 1 ≤ N) (hq : ∀ v, some v ∈ q → Multiple g v ∧ v ≤ M * g)
    (hg : Multiple g gap) (hgM : gap ≤ M * g) (hs : gap ≤ sumSome q) :
    ∃ r, uqLoopF F q N gap = .ok r := by
  induction hn : q.countP Option.isSome generalizing q N gap with
  | zero => omega
  | succ n ih =>
    cases hv : nanArgMin q with
    | none => rw [nanArgMin_none] at hv; omega
    | some iv =>
      obtain ⟨i, v⟩ := iv
      rw [uqLoopF_some F N gap hv]
      have hget := nanArgMin_getElem? q i v hv
      have hc := countP_set_none_eq q i v hget
      have hss := sumSome_set_none q i v hget
      obtain ⟨v1, v2⟩ := hq v (List.mem_of_getElem? hget)
      have v0 := v1.nonneg hA.1
      have h0 := hg.nonneg hA.1
      have hNq : (1 : ℚ) ≤ N := by exact_mod_cast hN1
      have hrep : F.Rep gap := hA.rnd hg hgM
      split_ifs with hlt
      · have hgN : F.rnd (gap / N) ≤ gap := F.rnd_le hrep (div_le_self h0 hNq)
        have hvg : v ≤ gap := (hlt.trans_le hgN).le
        have e : F.rnd (gap - v) = gap - v := hA.rnd_sub hg v1 hgM v2
        rw [e]
        by_cases hN2 : 2 ≤ N
        · exact ih (q.set i none) (N - 1) (gap - v) (by omega) (by omega)
            (fun w hw => hq w (mem_set_none hw)) (hg.sub hA.1 v1 hvg) (by linarith)
            (by rw [hss]; linarith) (by omega)
        · exfalso
          have hN' : N = 1 := by omega
          subst hN'
          have hz : (q.set i none).countP Option.isSome = 0 := by omega
          have : sumSome (q.set i none) = 0 := by
            rw [List.countP_eq_zero] at hz
            unfold sumSome
            apply List.sum_eq_zero
            intro x hx
            obtain ⟨o, ho, rfl⟩ := List.mem_map.mp hx
            cases o with
            | none => rfl
            | some w => exact absurd rfl (hz _ ho)
          rw [this] at hss
          simp only [Nat.cast_one, div_one] at hlt
          rw [hrep] at hlt
          linarith
      · exact ⟨_, rfl⟩

theorem updateQuantityF_whole (hA : ExactOn F.toArith g M) {q : List ℚ} {gap : ℚ} (hne : q ≠ [])
    (hq : Whole g M q) (hg : Multiple g gap) (hs : gap ≤ q.sum) :
    ∃ r, updateQuantityF F q gap = .ok r ∧ q.length = r.length := by
  have hgM : gap ≤ M * g := hs.trans hq.2
  have hall : ∀ x ∈ q, Multiple g x ∧ x ≤ M * g := fun x hx => ⟨hq.1 x hx, hq.le hA.1 hx⟩
  obtain ⟨⟨a, b, c⟩, h⟩ := uqLoopF_whole hA (q.map some) q.length gap (countP_map_some q).symm
    (List.length_pos_of_ne_nil hne) (by
      intro v hv
      obtain ⟨x, hx, he⟩ := List.mem_map.mp hv
      cases he
      exact hall v hx) hg hgM (by rw [sumSome_map_some]; exact hs)
  have hok : ∃ r, updateQuantityF F q gap = .ok r := by
    unfold updateQuantityF
    simp only [bind, Except.bind, h]
    exact ⟨_, rfl⟩
  obtain ⟨r, hr⟩ := hok
  exact ⟨r, hr, (updateQuantityF_ok F (fun x hx => ⟨(hall x hx).1.nonneg hA.1, hA.rnd (hall x hx).1 (hall x hx).2⟩)
    (hg.nonneg hA.1) (hA.rnd hg hgM) hr).1.length_eq⟩

/-- The exact arithmetic is exact. -/
theorem exactFmt_exactOn (hg : 0 < g) (M : ℕ) : ExactOn exactFmt.toArith g M := ⟨hg, fun _ _ => rfl⟩

theorem updateQuantity_whole (hg0 : 0 < g) {q : List ℚ} {gap : ℚ} (hne : q ≠ [])
    (hq : Whole g M q) (hg : Multiple g gap) (hs : gap ≤ q.sum) :
    ∃ r, updateQuantity q gap = .ok r ∧ q.length = r.length := by
  obtain ⟨r, hr, hl⟩ := updateQuantityF_whole (exactFmt_exactOn hg0 M) hne hq hg hs
  rw [updateQuantityF_exact] at hr
  exact ⟨r, hr, hl⟩

/-- What both runs do: the same bids at the same prices, the short side in full. -/
theorem huangF_whole (hA : ExactOn F.toArith g M) (s : Summer F.toArith) (S : Sorter) {df : DF}
    (hq : NonNeg df) (hb : WholeBook g M df) :
    (huangAuctionF F s S df = .ok (TransactionManager.init, .empty) ∧
      huangAuction S df = .ok (TransactionManager.init, .empty)) ∨
    ∃ ps pb, (∃ x, huangAuctionF F s S df = .ok (TransactionManager.init, .huang ps pb x) ∧
        huangAuction S df = .ok (TransactionManager.init, .huang ps pb x)) ∨
      ∃ (U V : DF) (qs qb qs' qb' : List ℚ) (x x' : ℚ), U.Sublist (sortAsc S (sells df)) ∧
        V.Sublist (sortDesc S (buys df)) ∧
        huangAuctionF F s S df = .ok (TransactionManager.init.addAll (huangSideTrans U qs (ps.untopD 0) ++
          huangSideTrans V qb (pb.untopD 0)), .huang ps pb x) ∧
        huangAuction S df = .ok (TransactionManager.init.addAll (huangSideTrans U qs' (ps.untopD 0) ++
          huangSideTrans V qb' (pb.untopD 0)), .huang ps pb x') ∧
        U.length = qs.length ∧ U.length = qs'.length ∧ V.length = qb.length ∧ V.length = qb'.length ∧
        (qs = qs' ∨ (qb = qb' ∧ x = x')) := by
  have hg := hA.1
  unfold huangAuctionF huangAuction
  rw [demandCurveF_whole hA S hb, supplyCurveF_whole hA S hb]
  simp only [bind, Except.bind]
  have hint : ∃ i i', intersectStepwiseF F (demandCurve S df).1 (supplyCurve S df).1 (1 / 2) = .ok i ∧
      intersectStepwise (demandCurve S df).1 (supplyCurve S df).1 (1 / 2) = .ok i' ∧ i.f = i'.f ∧ i.g = i'.g ∧
      (∀ b, i'.f = some b → ∃ y, (demandCurve S df).1[b]? = some y) ∧
      (∀ b, i'.g = some b → ∃ y, (supplyCurve S df).1[b]? = some y) := by
    rcases intersect_cases S hq (1 / 2) with ⟨x, hc, he⟩ | ⟨he, _⟩
    · obtain ⟨v', hv'⟩ := intersectStepwiseF_eq F _ _ _ he
      obtain ⟨bg, _, hbg⟩ := stepCurve_get_idx (x : Ext) 0 (sortAsc S (sells df)) ⊤
      obtain ⟨bf, _, hbf⟩ := stepCurve_get_idx (x : Ext) 0 (sortDesc S (buys df)) ((0 : ℚ) : Ext)
      refine ⟨_, _, hv', he, rfl, rfl, ?_, ?_⟩
      · intro b hb'
        cases hb'
        rw [demandCurve_eq]
        exact ⟨_, hbf⟩
      · intro b hb'
        cases hb'
        rw [supplyCurve_eq]
        exact ⟨_, hbg⟩
    · obtain ⟨v', hv'⟩ := intersectStepwiseF_eq F _ _ _ he
      exact ⟨_, _, hv', he, rfl, rfl, fun b hb' => (by cases hb'), fun b hb' => (by cases hb')⟩
  obtain ⟨i, i', h1, h2, hf, hgi, hfb, hgb⟩ := hint
  rw [h1, h2]
  simp only [hf, hgi]
  cases hif : i'.f with
  | none => exact Or.inl ⟨rfl, rfl⟩
  | some b =>
    cases hig : i'.g with
    | none => exact Or.inl ⟨rfl, rfl⟩
    | some k =>
      right
      obtain ⟨bRow, hbr⟩ := hfb b hif
      obtain ⟨sRow, hsr⟩ := hgb k hig
      simp only [hbr, hsr]
      refine ⟨sRow.2, bRow.2, ?_⟩
      set U := (sortAsc S (sells df)).take k with hU
      set V := (sortDesc S (buys df)).take b with hV
      have sU : U.Sublist (sortAsc S (sells df)) := List.take_sublist _ _
      have sV : V.Sublist (sortDesc S (buys df)) := List.take_sublist _ _
      have wU : WholeBook g M U :=
        ((hb.sublist hg List.filter_sublist).perm (sortAsc_perm S (sells df))).sublist hg sU
      have wV : WholeBook g M V :=
        ((hb.sublist hg List.filter_sublist).perm (sortDesc_perm S (buys df))).sublist hg sV
      have eU : s.sum (U.map (fun r => r.quantity)) = (U.map (fun r => r.quantity)).sum := s.whole hA wU
      have eV : s.sum (V.map (fun r => r.quantity)) = (V.map (fun r => r.quantity)).sum := s.whole hA wV
      by_cases hpos : 0 < b ∧ 0 < k
      swap
      · rw [if_neg hpos, if_neg hpos, eV]
        exact Or.inl ⟨_, rfl, rfl⟩
      rw [if_pos hpos, if_pos hpos, eU, eV]
      have mU : Multiple g (U.map (fun r => r.quantity)).sum := Multiple.sum wU.1
      have mV : Multiple g (V.map (fun r => r.quantity)).sum := Multiple.sum wV.1
      have nU := mU.nonneg hg
      have nV := mV.nonneg hg
      have hgap : F.rnd ((U.map (fun r => r.quantity)).sum - (V.map (fun r => r.quantity)).sum) =
          (U.map (fun r => r.quantity)).sum - (V.map (fun r => r.quantity)).sum :=
        hA.rnd_sub mU mV wU.2 wV.2
      simp only [hgap]
      have hblt : b ≤ (sortDesc S (buys df)).length := by
        have := (List.getElem?_eq_some_iff.mp hbr).1
        rw [demandCurve_eq] at this
        simp [stepCurve_length] at this
        omega
      have hklt : k ≤ (sortAsc S (sells df)).length := by
        have := (List.getElem?_eq_some_iff.mp hsr).1
        rw [supplyCurve_eq] at this
        simp [stepCurve_length] at this
        omega
      have neU : U.map (fun r => r.quantity) ≠ [] := by
        intro hc
        have := congrArg List.length hc
        simp only [hU, List.length_map, List.length_take, List.length_nil] at this
        omega
      have neV : V.map (fun r => r.quantity) ≠ [] := by
        intro hc
        have := congrArg List.length hc
        simp only [hV, List.length_map, List.length_take, List.length_nil] at this
        omega
      right
      by_cases hlt : 0 < (U.map (fun r => r.quantity)).sum - (V.map (fun r => r.quantity)).sum
      · rw [if_pos hlt, if_pos hlt]
        have mg := mU.sub hg mV (by linarith)
        obtain ⟨r, hr, hl⟩ := updateQuantityF_whole hA neU wU mg (by linarith)
        obtain ⟨r', hr', hl'⟩ := updateQuantity_whole hg neU wU mg (by linarith)
        simp only [hr, hr']
        rw [List.length_map] at hl hl'
        exact ⟨U, V, r, _, r', _, _, _, sU, sV, rfl, rfl, hl, hl', by simp, by simp, Or.inr ⟨rfl, rfl⟩⟩
      · rw [if_neg hlt, if_neg hlt]
        have mg : Multiple g (-((U.map (fun r => r.quantity)).sum - (V.map (fun r => r.quantity)).sum)) := by
          rw [neg_sub]; exact mV.sub hg mU (by linarith)
        obtain ⟨r, hr, hl⟩ := updateQuantityF_whole hA neV wV mg (by linarith)
        obtain ⟨r', hr', hl'⟩ := updateQuantity_whole hg neV wV mg (by linarith)
        simp only [hr, hr']
        rw [List.length_map] at hl hl'
        exact ⟨U, V, _, r, _, r', _, _, sU, sV, rfl, rfl, by simp, by simp, hl, hl', Or.inl rfl⟩

end PyMarket
