import Verif.Lemmas.Call
import Verif.Props.P2P

/-! # C102: the arguments of `Market.run` -/

set_option autoImplicit false

namespace PyMarket

open Spec

/-- **C102, clashing keywords.** A keyword that clashes with a parameter on the way raises `TypeError`, whatever the bids
are, and an unknown mechanism raises `KeyError`; the market does not change. -/
theorem C102_clash (m : Market) (S : Sorter) (smp : Sampler) (fresh : Gen) (name : String) (args : List PyArg)
    (kw : List (String × PyArg)) :
    (name = "huang" ∨ name = "muda" ∨ name = "p2p" → Clash name kw →
      m.runArgs S smp fresh name args kw = (m, .error .typeError)) ∧
    (name ≠ "huang" → name ≠ "muda" → name ≠ "p2p" → ¬ Named kw "self" → ¬ Named kw "algo" →
      m.runArgs S smp fresh name args kw = (m, .error .keyError)) := by
  constructor
  · intro hname hc
    have : runAlgoArgs S smp fresh name args kw m.bm.getDf = .error .typeError := by
      unfold runAlgoArgs
      simp only
      by_cases h0 : ((kw.lookup "self").isSome || (kw.lookup "algo").isSome) = true
      · rw [if_pos h0]
      · rw [if_neg h0]
        simp only [Bool.or_eq_true, lookup_isSome_iff, not_or] at h0
        rcases hc with h | h | h | ⟨rfl, h⟩
        · exact absurd h h0.1
        · exact absurd h h0.2
        · rcases hname with rfl | rfl | rfl <;> simp [lookup_isSome_iff.2 h]
        · simp [lookup_isSome_iff.2 h]
    simp [Market.runArgs, this]
  · intro h1 h2 h3 h4 h5
    have h4' : (kw.lookup "self").isSome = false := by rw [← Bool.not_eq_true, lookup_isSome_iff]; exact h4
    have h5' : (kw.lookup "algo").isSome = false := by rw [← Bool.not_eq_true, lookup_isSome_iff]; exact h5
    simp [Market.runArgs, runAlgoArgs, h1, h2, h3, h4', h5']

/-- **C102, Huang's auction.** It takes no arguments: without any it is the auction, with some it raises `TypeError`
if there are bids on both sides. -/
theorem C102_huang_partial (m : Market) (S : Sorter) (smp : Sampler) (fresh : Gen) (args : List PyArg)
    (kw : List (String × PyArg)) :
    m.runArgs S smp fresh "huang" [] [] = m.run S smp .huang ∧
    (¬ (args = [] ∧ kw = []) → (∃ b ∈ m.bm.getDf, b.buying = true) → (∃ s ∈ m.bm.getDf, s.buying = false) →
      m.runArgs S smp fresh "huang" args kw = (m, .error .typeError)) := by
  constructor
  · have : ∀ df, runAlgoArgs S smp fresh "huang" [] [] df = runAlgo S smp .huang df := by
      intro df
      simp only [runAlgoArgs, List.lookup_nil, Option.isSome_none, Bool.or_self, Bool.false_eq_true, if_false,
        if_true, runAlgo]
      exact mechanism_congr _ _ _ _ _ (fun df => by simp [callAlgo, bindParams])
    simp only [Market.runArgs, Market.run, this]
    rfl
  · rintro hne ⟨b, hb, hbb⟩ ⟨s, hs, hss⟩
    by_cases hc : Clash "huang" kw
    · exact (C102_clash m S smp fresh "huang" args kw).1 (by simp) hc
    · obtain ⟨h1, h2, h3, h4⟩ := no_clash hc
      have h5 := h4 rfl
      have hacc : ¬ Accepts [] args kw := by
        rintro ⟨ha, hk⟩
        apply hne
        refine ⟨by simpa using ha, ?_⟩
        rw [List.eq_nil_iff_forall_not_mem]
        rintro ⟨k, v⟩ hm
        obtain ⟨i, _, e⟩ := hk k v hm
        simp at e
      have : runAlgoArgs S smp fresh "huang" args kw m.bm.getDf = .error .typeError := by
        simp only [runAlgoArgs, h1, h2, h3, h5, Bool.or_self, Bool.false_eq_true, if_false, if_true]
        exact mechanism_raises _ _ _ _ b s hb hs hbb hss _ (fun df => by simp [callAlgo, bindParams_error hacc])
      simp [Market.runArgs, this]

/-- The merge flag of a call: the truth value of the keyword, `False` without it. -/
theorem merge_flag {kw : List (String × PyArg)} (hn : (kw.map (fun p => p.1)).Nodup) {merge : Bool}
    (hm : ∀ v, ("merge", v) ∈ kw → v.truthy = merge) (hm' : ¬ Named kw "merge" → merge = false) :
    ((kw.lookup "merge").getD (.flag false)).truthy = merge := by
  cases h : kw.lookup "merge" with
  | none =>
    have : ¬ Named kw "merge" := by rw [← lookup_isSome_iff, h]; simp
    rw [hm' this]; rfl
  | some v => exact hm v ((lookup_eq_some_iff hn).1 h)

theorem genOf_of {fresh g : Gen} {o : Option PyArg} (h : ∀ v, o = some v → v = .gen g ∨ (v = .none ∧ g = fresh))
    (h' : (∀ v, o ≠ some v) → g = fresh) : genOf fresh o = some g := by
  cases o with
  | none => simp [genOf, h' (by simp)]
  | some v =>
    rcases h v rfl with rfl | ⟨rfl, rfl⟩ <;> rfl

/-- **C102, peer to peer trading.** Arguments that fit `(p_coef, r)` give the run with these values (by position or by
name, 1/2 and a fresh generator if they are missing), merging as the keyword `merge` says. Arguments that do not fit
raise `TypeError` if there are bids on both sides. -/
theorem C102_p2p_partial (m : Market) (S : Sorter) (smp : Sampler) (fresh : Gen) (args : List PyArg) (kw : List (String × PyArg))
    (hn : (kw.map (fun p => p.1)).Nodup) (hc : ¬ Clash "p2p" kw) :
    (∀ (c : ℚ) (g : Gen) (merge : Bool), Accepts ["p_coef", "r"] args (Rest kw) →
      (∀ v, Gets ["p_coef", "r"] args (Rest kw) "p_coef" v → AsNumber v c) →
      ((∀ v, ¬ Gets ["p_coef", "r"] args (Rest kw) "p_coef" v) → c = 1 / 2) →
      (∀ v, Gets ["p_coef", "r"] args (Rest kw) "r" v → v = .gen g ∨ (v = .none ∧ g = fresh)) →
      ((∀ v, ¬ Gets ["p_coef", "r"] args (Rest kw) "r" v) → g = fresh) →
      (∀ v, ("merge", v) ∈ kw → Truth v merge) → (¬ Named kw "merge" → merge = false) →
      m.runArgs S smp fresh "p2p" args kw = m.run S smp (.p2p merge c g.choice)) ∧
    (¬ Accepts ["p_coef", "r"] args (Rest kw) →
      (∃ b ∈ m.bm.getDf, b.buying = true) → (∃ s ∈ m.bm.getDf, s.buying = false) →
      m.runArgs S smp fresh "p2p" args kw = (m, .error .typeError)) := by
  obtain ⟨h1, h2, h3, -⟩ := no_clash hc
  constructor
  · intro c g merge hacc hp hp' hr hr' hm hm'
    simp only [asNumber_iff] at hp
    simp only [truth_iff] at hm
    have hb0 := fun v => bound_iff (by decide) (rest_nodup hn) hacc (i := 0) (k := "p_coef") rfl v
    have hb1 := fun v => bound_iff (by decide) (rest_nodup hn) hacc (i := 1) (k := "r") rfl v
    have key : ∀ df, callAlgo S fresh "p2p" args (Rest kw) df = p2pRandom c g.choice df := by
      intro df
      simp only [callAlgo, show ("p2p" = "huang") = False by decide, show ("p2p" = "muda") = False by decide,
        if_false, bindParams_ok hacc, p2pCall]
      rw [genOf_of (fun v hv => hr v ((hb1 v).1 hv)) (fun hv => hr' (fun v h => hv v ((hb1 v).2 h)))]
      have : ((((args.map some ++ (["p_coef", "r"].drop args.length).map (fun k => (Rest kw).lookup k))[0]?.getD
          Option.none).getD (PyArg.num (1 / 2))).number) = some c := by
        cases ho : ((args.map some ++ (["p_coef", "r"].drop args.length).map (fun k => (Rest kw).lookup k))[0]?.getD
          Option.none) with
        | none => rw [hp' (fun v h => by have := (hb0 v).2 h; rw [ho] at this; simp at this)]; rfl
        | some v => exact hp v ((hb0 v).1 ho)
      simp only [this]
    have : ∀ df, runAlgoArgs S smp fresh "p2p" args kw df = runAlgo S smp (.p2p merge c g.choice) df := by
      intro df
      simp only [runAlgoArgs, h1, h2, h3, Bool.or_self, Bool.false_eq_true, if_false,
        show ("p2p" = "huang") = False by decide, decide_true, Bool.or_true, if_true, runAlgo, rest_eq,
        merge_flag hn hm hm']
      exact mechanism_congr _ _ _ _ _ key
    simp only [Market.runArgs, Market.run, this]
    rfl
  · rintro hacc ⟨b, hb, hbb⟩ ⟨s, hs, hss⟩
    have : runAlgoArgs S smp fresh "p2p" args kw m.bm.getDf = .error .typeError := by
      simp only [runAlgoArgs, h1, h2, h3, Bool.or_self, Bool.false_eq_true, if_false,
        show ("p2p" = "huang") = False by decide, decide_true, Bool.or_true, if_true, rest_eq]
      exact mechanism_raises _ _ _ _ b s hb hs hbb hss _ (fun df => by
        simp only [callAlgo, show ("p2p" = "huang") = False by decide, show ("p2p" = "muda") = False by decide,
          if_false, bindParams_error hacc])
    simp [Market.runArgs, this]

/-- **C102, MUDA.** Arguments that fit `(r)` give the run with this generator. Arguments that do not fit raise
`TypeError` if there are bids on both sides, unless the run raises `NotImplementedError` anyway. -/
theorem C102_muda_partial (m : Market) (S : Sorter) (smp : Sampler) (fresh : Gen) (args : List PyArg) (kw : List (String × PyArg))
    (hn : (kw.map (fun p => p.1)).Nodup) (hc : ¬ Clash "muda" kw) (merge : Bool)
    (hm : ∀ v, ("merge", v) ∈ kw → Truth v merge) (hm' : ¬ Named kw "merge" → merge = false) :
    (∀ (g : Gen), Accepts ["r"] args (Rest kw) →
      (∀ v, Gets ["r"] args (Rest kw) "r" v → v = .gen g ∨ (v = .none ∧ g = fresh)) →
      ((∀ v, ¬ Gets ["r"] args (Rest kw) "r" v) → g = fresh) →
      m.runArgs S smp fresh "muda" args kw = m.run S smp (.muda merge g.coin)) ∧
    (¬ Accepts ["r"] args (Rest kw) →
      (∃ b ∈ m.bm.getDf, b.buying = true) → (∃ s ∈ m.bm.getDf, s.buying = false) →
      m.runArgs S smp fresh "muda" args kw = (m, .error .typeError) ∨
      m.runArgs S smp fresh "muda" args kw = (m, .error .notImplementedError) ∧
        ∀ coin, m.run S smp (.muda merge coin) = (m, .error .notImplementedError)) := by
  simp only [truth_iff] at hm
  obtain ⟨h1, h2, h3, -⟩ := no_clash hc
  have hrun : ∀ df, runAlgoArgs S smp fresh "muda" args kw df =
      mechanism smp merge (callAlgo S fresh "muda" args (Rest kw)) df := by
    intro df
    simp only [runAlgoArgs, h1, h2, h3, Bool.or_self, Bool.false_eq_true, if_false,
      show ("muda" = "huang") = False by decide, decide_true, Bool.true_or, if_true, rest_eq, merge_flag hn hm hm']
  constructor
  · intro g hacc hr hr'
    have hb1 := fun v => bound_iff (by decide) (rest_nodup hn) hacc (i := 0) (k := "r") rfl v
    have key : ∀ df, callAlgo S fresh "muda" args (Rest kw) df = muda S g.coin df := by
      intro df
      simp only [callAlgo, show ("muda" = "huang") = False by decide, if_false, if_true, bindParams_ok hacc]
      rw [genOf_of (fun v hv => hr v ((hb1 v).1 hv)) (fun hv => hr' (fun v h => hv v ((hb1 v).2 h)))]
      by_cases hd : checkEqualPriceRaises df = true
      · simp [hd, muda]
      · simp [hd]
    have : ∀ df, runAlgoArgs S smp fresh "muda" args kw df = runAlgo S smp (.muda merge g.coin) df := by
      intro df
      rw [hrun]
      exact mechanism_congr _ _ _ _ _ key
    simp only [Market.runArgs, Market.run, this]
    rfl
  · rintro hacc ⟨b, hb, hbb⟩ ⟨s, hs, hss⟩
    have key : ∀ df, callAlgo S fresh "muda" args (Rest kw) df =
        if checkEqualPriceRaises df = true then .error .notImplementedError else .error .typeError := by
      intro df
      simp only [callAlgo, show ("muda" = "huang") = False by decide, if_false, if_true, bindParams_error hacc]
    obtain ⟨nb, mp, hmg, ⟨b', hb', e1⟩, ⟨s', hs', e2⟩⟩ := merge_two_sided smp m.bm.getDf b s hb hs hbb hss
    have htwo : ∀ algo : Algo, mechanism smp merge algo m.bm.getDf =
        if merge then (match algo nb with
          | .error e => .error e
          | .ok r => (splitTransactions r.1 m.bm.getDf mp).map (fun tm => (tm, r.2)))
        else algo m.bm.getDf := by
      intro algo
      unfold mechanism
      cases merge with
      | false => simp only [Bool.false_eq_true, if_false]; exact C04_two_sided_invokes algo _ b s hb hs hbb hss
      | true =>
        simp only [if_true, hmg, bind, Except.bind]
        rw [C04_two_sided_invokes algo nb b' s' hb' hs' e1 e2]
        cases algo nb with
        | error e => rfl
        | ok r =>
          simp only
          cases splitTransactions r.1 m.bm.getDf mp <;> rfl
    by_cases hd : checkEqualPriceRaises (if merge then nb else m.bm.getDf) = true
    · right
      have e1 : ∀ algo : Algo, (algo (if merge then nb else m.bm.getDf) = .error .notImplementedError) →
          mechanism smp merge algo m.bm.getDf = .error .notImplementedError := by
        intro algo ha
        rw [htwo]
        cases merge with
        | false => simpa using ha
        | true => simp only [if_true] at ha ⊢; rw [ha]
      refine ⟨?_, fun coin => ?_⟩
      · simp only [Market.runArgs, hrun]
        rw [e1 _ (by rw [key, if_pos hd])]
      · simp only [Market.run, runAlgo]
        rw [e1 _ (by rw [muda, if_pos hd])]
    · left
      have : mechanism smp merge (callAlgo S fresh "muda" args (Rest kw)) m.bm.getDf = .error .typeError := by
        rw [htwo]
        have ha : callAlgo S fresh "muda" args (Rest kw) (if merge then nb else m.bm.getDf) = .error .typeError := by
          rw [key, if_neg hd]
        cases merge with
        | false => simpa using ha
        | true => simp only [if_true] at ha ⊢; rw [ha]
      simp only [Market.runArgs, hrun, this]

/-- **C102, a wrong coefficient.** A `p_coef` that is not a number is noticed exactly if some buyer bids at least what
some seller asks. -/
theorem C102_coefficient (m : Market) (S : Sorter) (smp : Sampler) (fresh : Gen) (v : PyArg) (hv : ∀ c, ¬ AsNumber v c)
    (ht : IsTable m.bm.getDf) (hq : ∀ r ∈ m.bm.getDf, 0 < r.quantity) :
    ((∃ b s, IsPair m.bm.getDf b s ∧ priceOf m.bm.getDf s ≤ priceOf m.bm.getDf b) →
      m.runArgs S smp fresh "p2p" [v] [] = (m, .error .typeError)) ∧
    ((∀ b s, IsPair m.bm.getDf b s → priceOf m.bm.getDf b < priceOf m.bm.getDf s) →
      m.runArgs S smp fresh "p2p" [v] [] = m.run S smp (.p2p false 0 fresh.choice)) := by
  replace hv := not_asNumber hv
  generalize hdf : m.bm.getDf = df at *
  have hq0 : ∀ r ∈ df, 0 ≤ r.quantity := fun r hr => (hq r hr).le
  obtain ⟨tm, R, h1, h2⟩ := C21_price_rule 0 fresh.choice df ht
  obtain ⟨tm', R', h1', -, h3⟩ := C22_complete 0 fresh.choice df ht hq0
  obtain ⟨tm'', R'', h1'', h4, -⟩ := C19_rounds 0 fresh.choice df ht hq0
  obtain ⟨rfl, rfl⟩ : tm = tm' ∧ R = R' := by rw [h1] at h1'; simpa using h1'
  obtain ⟨rfl, rfl⟩ : tm = tm'' ∧ R = R'' := by rw [h1] at h1''; simpa using h1''
  have hcall : runAlgoArgs S smp fresh "p2p" [v] [] df = mechRun (fun bids => p2pCall fresh (some v) Option.none bids) df := by
    simp only [runAlgoArgs, mechanism]
    simp [PyArg.truthy]
    congr 1
  constructor
  · rintro ⟨b, s, hp, hle⟩
    obtain ⟨rb, hb, hbb⟩ : ∃ r, df[b]? = some r ∧ r.buying = true := by
      have := hp.1
      unfold isBuy at this
      cases h : df[b]? with
      | none => rw [h] at this; simp at this
      | some r => rw [h] at this; exact ⟨r, rfl, by simpa using this⟩
    obtain ⟨rs, hs, hss⟩ : ∃ r, df[s]? = some r ∧ r.buying = false := by
      have := hp.2
      unfold isSell at this
      cases h : df[s]? with
      | none => rw [h] at this; simp at this
      | some r => rw [h] at this; exact ⟨r, rfl, by simpa using this⟩
    have hany : R.flatten.any (fun p => decide (valueAt df (fun r => r.price) p.2 ≤ valueAt df (fun r => r.price) p.1)) =
        true := by
      by_contra hno
      rw [List.any_eq_true] at hno
      push Not at hno
      have hz : ∀ t ∈ tm.trans, t.quantity = 0 := by
        intro t htm
        by_contra hne
        obtain ⟨b', s', hm, -, -, -, himp⟩ := h2 t htm
        exact hno _ hm (decide_eq_true (himp hne).1)
      have hz' : ∀ i, tradedBy tm.trans i = 0 := by
        intro i
        apply List.sum_eq_zero
        intro x hx
        obtain ⟨t, ht', rfl⟩ := List.mem_map.1 hx
        exact hz t (List.mem_of_mem_filter ht')
      have hpos : ∀ i r, df[i]? = some r → 0 < qtyOf df i := by
        intro i r hr
        simp only [qtyOf, hr, Option.map_some, Option.getD_some]
        exact hq r (List.mem_of_getElem? hr)
      rcases h3 b s hp hle with h | h <;> rw [hz'] at h
      · exact absurd h (ne_of_lt (hpos b rb hb))
      · exact absurd h (ne_of_lt (hpos s rs hs))
    have : runAlgoArgs S smp fresh "p2p" [v] [] df = .error .typeError := by
      rw [hcall, C04_two_sided_invokes _ df rb rs (List.mem_of_getElem? hb) (List.mem_of_getElem? hs) hbb hss]
      simp only [p2pCall, genOf, Option.getD_some, hv, h1, hany, if_true]
    simp [Market.runArgs, hdf, this]
  · intro hno
    have hany : R.flatten.any (fun p => decide (valueAt df (fun r => r.price) p.2 ≤ valueAt df (fun r => r.price) p.1)) =
        false := by
      rw [List.any_eq_false]
      intro p hp
      rw [decide_eq_true_iff, not_le]
      exact hno _ _ (h4 p hp)
    have : runAlgoArgs S smp fresh "p2p" [v] [] df = runAlgo S smp (.p2p false 0 fresh.choice) df := by
      rw [hcall]
      simp only [runAlgo, mechanism, Bool.false_eq_true, if_false, mechRun, p2pCall, genOf, Option.getD_some, hv, h1, hany]
    simp only [Market.runArgs, Market.run, hdf, this]
    rfl

/-- **C102, a wrong generator.** An `r` that is neither `None` nor a generator is noticed if there are bids on both
sides, unless MUDA raises `NotImplementedError` anyway. -/
theorem C102_generator (m : Market) (S : Sorter) (smp : Sampler) (fresh : Gen) (c v : PyArg) (hv : v ≠ .none)
    (hv' : ∀ g, v ≠ .gen g) (hq : ∀ r ∈ m.bm.getDf, 0 < r.quantity)
    (hb : ∃ b ∈ m.bm.getDf, b.buying = true) (hs : ∃ s ∈ m.bm.getDf, s.buying = false) :
    m.runArgs S smp fresh "p2p" [c, v] [] = (m, .error .attributeError) ∧
    (m.runArgs S smp fresh "muda" [v] [] = (m, .error .attributeError) ∨
      m.runArgs S smp fresh "muda" [v] [] = (m, .error .notImplementedError) ∧
        ∀ coin, m.run S smp (.muda false coin) = (m, .error .notImplementedError)) := by
  obtain ⟨b, hb, hbb⟩ := hb
  obtain ⟨s, hs, hss⟩ := hs
  generalize hdf : m.bm.getDf = df at *
  have hg : genOf fresh (some v) = Option.none := by
    cases v with
    | none => exact absurd rfl hv
    | gen g => exact absurd rfl (hv' g)
    | num q => rfl
    | flag b => rfl
    | obj b => rfl
  constructor
  · have : runAlgoArgs S smp fresh "p2p" [c, v] [] df = .error .attributeError := by
      have e : runAlgoArgs S smp fresh "p2p" [c, v] [] df = mechRun (fun bids => p2pCall fresh (some c) (some v) bids) df := by
        simp only [runAlgoArgs, mechanism]
        simp [PyArg.truthy]
        congr 1
      rw [e, C04_two_sided_invokes _ df b s hb hs hbb hss]
      simp only [p2pCall, hg]
      rw [if_pos]
      constructor
      · apply List.sum_pos
        · intro x hx
          obtain ⟨r, hr, rfl⟩ := List.mem_map.1 hx
          exact hq r hr
        · intro h
          rw [List.map_eq_nil_iff] at h
          subst h
          simp at hb
      · apply List.ne_nil_of_mem (a := (b.label, s.label))
        rw [allPairs, List.mem_flatMap]
        exact ⟨b, mem_buys.2 ⟨hb, hbb⟩, List.mem_map.2 ⟨s, mem_sells.2 ⟨hs, hss⟩, rfl⟩⟩
    simp [Market.runArgs, hdf, this]
  · have e : runAlgoArgs S smp fresh "muda" [v] [] df = callAlgo S fresh "muda" [v] [] df := by
      simp [runAlgoArgs, mechanism, PyArg.truthy, C04_two_sided_invokes _ df b s hb hs hbb hss]
    have hne : df ≠ [] := List.ne_nil_of_mem hb
    by_cases hd : checkEqualPriceRaises df = true
    · right
      have e1 : runAlgoArgs S smp fresh "muda" [v] [] df = .error .notImplementedError := by
        rw [e]; simp [callAlgo, hd]
      refine ⟨by simp [Market.runArgs, hdf, e1], fun coin => ?_⟩
      have e2 : runAlgo S smp (.muda false coin) df = .error .notImplementedError := by
        simp only [runAlgo, mechanism, Bool.false_eq_true, if_false]
        rw [C04_two_sided_invokes _ df b s hb hs hbb hss, muda, if_pos hd]
      simp [Market.run, hdf, e2]
    · left
      have e1 : runAlgoArgs S smp fresh "muda" [v] [] df = .error .attributeError := by
        rw [e]; simp [callAlgo, hd, bindParams, hg, hne]
      simp [Market.runArgs, hdf, e1]

/-- **C102, one side only.** With bids on one side only every argument is accepted, unless its keyword clashes. -/
theorem C102_one_sided (m : Market) (S : Sorter) (smp : Sampler) (fresh : Gen) (name : String) (args : List PyArg)
    (kw : List (String × PyArg)) (hname : name = "huang" ∨ name = "muda" ∨ name = "p2p") (hc : ¬ Clash name kw)
    (hone : (∀ r ∈ m.bm.getDf, r.buying = true) ∨ (∀ r ∈ m.bm.getDf, r.buying = false)) :
    m.runArgs S smp fresh name args kw =
      ({ m with transactions := ⟨0, []⟩, extra := .empty }, .ok (⟨0, []⟩, .empty)) := by
  obtain ⟨h1, h2, h3, h4⟩ := no_clash hc
  have hm : ∀ (merge : Bool) (algo : Algo), mechanism smp merge algo m.bm.getDf = .ok (⟨0, []⟩, .empty) := by
    intro merge algo
    unfold mechanism
    cases merge with
    | false => simp only [Bool.false_eq_true, if_false]; exact mechRun_one_sided algo _ hone
    | true =>
      obtain ⟨nb, mp, hmerge, hone'⟩ := merge_one_sided smp m.bm.getDf hone
      simp only [if_true, hmerge, bind, Except.bind, mechRun_one_sided algo nb hone']
      rfl
  have : runAlgoArgs S smp fresh name args kw m.bm.getDf = .ok (⟨0, []⟩, .empty) := by
    simp only [runAlgoArgs, h1, h2, h3, Bool.or_self, Bool.false_eq_true, if_false]
    rcases hname with rfl | rfl | rfl
    · simp [h4 rfl, hm]
    · simp [hm]
    · simp [hm]
  simp [Market.runArgs, this]

/-- The full claim: arguments that the mechanism does not take raise `TypeError`. -/
def WrongArgumentsRaise : Prop :=
  ∀ (m : Market) (S : Sorter) (smp : Sampler) (fresh : Gen) (args : List PyArg) (kw : List (String × PyArg)),
    ¬ Accepts ["p_coef", "r"] args (Rest kw) → (m.runArgs S smp fresh "p2p" args kw).2 = .error .typeError

/-- **C102, refuted part.** On a market without sellers `run('p2p', p_coeff=1)` is accepted. -/
theorem C102_refuted : ¬ WrongArgumentsRaise := by
  intro h
  have := h (Market.init.acceptBid 1 1 0).1 stableSorter headSampler ⟨fun _ => false, fun _ => 0⟩ []
    [("p_coeff", .num 1)] (by
      rintro ⟨-, h⟩
      obtain ⟨i, -, e⟩ := h "p_coeff" (.num 1) (by simp [Rest])
      rcases i with _ | _ | i <;> simp at e)
  revert this
  rw [C102_one_sided _ _ _ _ _ _ _ (by simp) (by rintro (⟨v, h⟩ | ⟨v, h⟩ | ⟨v, h⟩ | ⟨h, -⟩) <;> simp at h)
    (Or.inl (by decide))]
  simp

/-- A market with both sides. -/
def callMarket : Market := ((Market.init.acceptBid 1 3 0).1.acceptBid 1 2 1 false).1

example : IsTable callMarket.bm.getDf ∧ (∀ r ∈ callMarket.bm.getDf, 0 < r.quantity) ∧
    (∃ b ∈ callMarket.bm.getDf, b.buying = true) ∧ (∃ s ∈ callMarket.bm.getDf, s.buying = false) ∧
    ∃ b s, IsPair callMarket.bm.getDf b s ∧ priceOf callMarket.bm.getDf s ≤ priceOf callMarket.bm.getDf b :=
  ⟨by decide +kernel, by decide +kernel, by decide +kernel, by decide +kernel, 0, 1, by unfold IsPair; decide +kernel⟩

/-- The hypotheses can be met: `run('p2p', 1, merge=True)` trades at the buyer's price ... -/
example : (callMarket.runArgs stableSorter headSampler ⟨fun _ => false, fun _ => 0⟩ "p2p" [.num 1]
    [("merge", .flag true)]).1.transactions.getDf =
    [⟨0, 1, 3, 1, false⟩, ⟨1, 1, 3, 0, false⟩] := by decide +kernel

/-- ... `run('p2p', 1, p_coef=1)`, `run('huang', merge=True)` and `run('muda', None, 0)` raise, ... -/
example : (callMarket.runArgs stableSorter headSampler ⟨fun _ => false, fun _ => 0⟩ "p2p" [.num 1]
    [("p_coef", .num 1)]).2 = .error .typeError ∧
    (callMarket.runArgs stableSorter headSampler ⟨fun _ => false, fun _ => 0⟩ "huang" []
      [("merge", .flag true)]).2 = .error .typeError ∧
    (callMarket.runArgs stableSorter headSampler ⟨fun _ => false, fun _ => 0⟩ "muda" [.none, .num 0] []).2 =
      .error .typeError := by decide +kernel

/-- ... and so do a coefficient that is not a number and a generator that is not one. -/
example : (callMarket.runArgs stableSorter headSampler ⟨fun _ => false, fun _ => 0⟩ "p2p" [.none] []).2 =
      .error .typeError ∧
    (callMarket.runArgs stableSorter headSampler ⟨fun _ => false, fun _ => 0⟩ "p2p" [] [("r", .num 7)]).2 =
      .error .attributeError := by decide +kernel

end PyMarket
