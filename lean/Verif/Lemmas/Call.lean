import Verif.Spec.Call
import Verif.Model.Call
import Verif.Props.MarketHistory

/-! # Lemmas about the arguments of `Market.run` -/

set_option autoImplicit false

namespace PyMarket

open Spec

theorem lookup_eq_some_iff {α : Type} {kw : List (String × α)} (hn : (kw.map (fun p => p.1)).Nodup) {k : String} {v : α} :
    kw.lookup k = some v ↔ (k, v) ∈ kw := by
  induction kw with
  | nil => simp
  | cons p kw ih =>
    obtain ⟨a, b⟩ := p
    simp only [List.map_cons, List.nodup_cons] at hn
    by_cases h : k = a
    · subst h
      rw [List.lookup_cons_self]
      constructor
      · intro e; cases e; simp
      · intro e
        rcases List.mem_cons.1 e with e | e
        · cases e; rfl
        · exact absurd (List.mem_map.2 ⟨(k, v), e, rfl⟩) hn.1
    · have h' : (k == a) = false := by simpa using h
      rw [List.lookup_cons, h']
      simp only [ih hn.2, List.mem_cons, Prod.mk.injEq, h, false_and, false_or]

theorem lookup_isSome_iff {α : Type} {kw : List (String × α)} {k : String} :
    (kw.lookup k).isSome = true ↔ Named kw k := by
  induction kw with
  | nil => simp [Named]
  | cons p kw ih =>
    obtain ⟨a, b⟩ := p
    by_cases h : k = a
    · subst h
      rw [List.lookup_cons_self]
      exact ⟨fun _ => ⟨b, by simp⟩, fun _ => rfl⟩
    · have h' : (k == a) = false := by simpa using h
      rw [List.lookup_cons, h']
      simp only [ih, Named, List.mem_cons, Prod.mk.injEq, h, false_and, false_or]

theorem bindParams_error {params : List String} {args : List PyArg} {kw : List (String × PyArg)}
    (h : ¬ Accepts params args kw) : bindParams params args kw = .error .typeError := by
  unfold bindParams
  split
  · rfl
  · rename_i hl
    rw [if_pos]
    by_contra hc
    apply h
    refine ⟨not_lt.1 hl, fun k v hm => ?_⟩
    have h1 : ¬ (kw.any fun p => !(params.drop args.length).contains p.1) = true := hc
    rw [List.any_eq_true] at h1
    push Not at h1
    have h2 := h1 (k, v) hm
    simp only [ne_eq, Bool.not_eq_true', Bool.not_eq_false, List.contains_iff_mem] at h2
    obtain ⟨i, hi⟩ := List.getElem?_of_mem h2
    rw [List.getElem?_drop] at hi
    exact ⟨_, Nat.le_add_right _ _, hi⟩

theorem bindParams_ok {params : List String} {args : List PyArg} {kw : List (String × PyArg)}
    (h : Accepts params args kw) : bindParams params args kw =
      .ok (args.map some ++ (params.drop args.length).map (fun k => kw.lookup k)) := by
  unfold bindParams
  rw [if_neg (not_lt.2 h.1), if_neg]
  rw [List.any_eq_true]
  push Not
  rintro ⟨k, v⟩ hm
  obtain ⟨i, hi, e⟩ := h.2 k v hm
  simp only [ne_eq, Bool.not_eq_true', Bool.not_eq_false, List.contains_iff_mem]
  apply List.mem_of_getElem? (i := i - args.length)
  rw [List.getElem?_drop, Nat.add_sub_cancel' hi]
  exact e

/-- The value bound to the `i`-th parameter. -/
theorem bound_iff {params : List String} {args : List PyArg} {kw : List (String × PyArg)}
    (hp : params.Nodup) (hn : (kw.map (fun p => p.1)).Nodup) (h : Accepts params args kw)
    {i : ℕ} {k : String} (hi : params[i]? = some k) (v : PyArg) :
    ((args.map some ++ (params.drop args.length).map (fun k => kw.lookup k))[i]?.getD Option.none) = some v ↔
      Gets params args kw k v := by
  have hil : i < params.length := (List.getElem?_eq_some_iff.1 hi).1
  have huniq : ∀ j, params[j]? = some k → j = i := by
    intro j hj
    obtain ⟨h1, e1⟩ := List.getElem?_eq_some_iff.1 hi
    obtain ⟨h2, e2⟩ := List.getElem?_eq_some_iff.1 hj
    exact (List.Nodup.getElem_inj_iff hp).1 (e2.trans e1.symm)
  by_cases ha : i < args.length
  · rw [List.getElem?_append_left (by simpa using ha)]
    simp only [List.getElem?_map, List.getElem?_eq_getElem ha, Option.map_some, Option.getD_some, Option.some.injEq]
    constructor
    · intro e; exact Or.inl ⟨i, hi, by rw [List.getElem?_eq_getElem ha, e]⟩
    · rintro (⟨j, hj, e⟩ | hm)
      · obtain rfl := huniq j hj
        rw [List.getElem?_eq_getElem ha] at e
        exact Option.some.inj e
      · obtain ⟨j, hj, e⟩ := h.2 k v hm
        have := huniq j e
        omega
  · rw [List.getElem?_append_right (by simpa using not_lt.1 ha)]
    simp only [List.length_map, List.getElem?_map, List.getElem?_drop]
    rw [Nat.add_sub_cancel' (not_lt.1 ha), hi]
    simp only [Option.map_some, Option.getD_some]
    rw [lookup_eq_some_iff hn]
    constructor
    · exact Or.inr
    · rintro (⟨j, hj, e⟩ | hm)
      · obtain rfl := huniq j hj
        have := (List.getElem?_eq_some_iff.1 e).1
        omega
      · exact hm

theorem rest_nodup {α : Type} {kw : List (String × α)} (hn : (kw.map (fun p => p.1)).Nodup) :
    ((Rest kw).map (fun p => p.1)).Nodup :=
  hn.sublist (List.filter_sublist.map _)

theorem rest_eq (kw : List (String × PyArg)) : kw.filter (fun p => decide (p.1 ≠ "merge")) = Rest kw := by
  unfold Rest
  apply List.filter_congr
  intro p _
  by_cases h : p.1 = "merge" <;> simp [h]

theorem no_clash {name : String} {kw : List (String × PyArg)} (h : ¬ Clash name kw) :
    (kw.lookup "self").isSome = false ∧ (kw.lookup "algo").isSome = false ∧ (kw.lookup "bids").isSome = false ∧
      (name = "huang" → (kw.lookup "merge").isSome = false) := by
  simp only [Clash, not_or, ← lookup_isSome_iff, Bool.not_eq_true, not_and] at h
  exact h

theorem merge_two_sided (smp : Sampler) (df : DF) (b s : Row) (hb : b ∈ df) (hs : s ∈ df) (hbb : b.buying = true)
    (hss : s.buying = false) : ∃ nb mp, mergeSamePrice smp df = .ok (nb, mp) ∧
      (∃ b' ∈ nb, b'.buying = true) ∧ ∃ s' ∈ nb, s'.buying = false := by
  obtain ⟨gb, i₁, gs, i₂, ab, as, heq⟩ := mergeSamePrice_ok smp df 5
  have key : ∀ {l : List (Bid × List ℕ)} {g : Bid × List ℕ}, g ∈ l →
      ∃ r ∈ labelFrom 0 (l.map (fun p => p.1)), r.toBid = g.1 := by
    intro l g hg
    have : g.1 ∈ (labelFrom 0 (l.map (fun p => p.1))).map (fun r => r.toBid) := by
      rw [labelFrom_map_toBid]; exact List.mem_map_of_mem hg
    obtain ⟨r, hr, e⟩ := List.mem_map.1 this
    exact ⟨r, hr, e⟩
  have hgb : ∃ g, g ∈ gb := by
    have : npRound 5 b.price ∈ groupKeys 5 (buys df) := mem_groupKeys.2 ⟨b, mem_buys.2 ⟨hb, hbb⟩, rfl⟩
    rw [← ab.price] at this
    obtain ⟨g, hg, _⟩ := List.mem_map.1 this
    exact ⟨g, hg⟩
  have hgs : ∃ g, g ∈ gs := by
    have : npRound 5 s.price ∈ groupKeys 5 (sells df) := mem_groupKeys.2 ⟨s, mem_sells.2 ⟨hs, hss⟩, rfl⟩
    rw [← as.price] at this
    obtain ⟨g, hg, _⟩ := List.mem_map.1 this
    exact ⟨g, hg⟩
  obtain ⟨g, hg⟩ := hgb
  obtain ⟨g', hg'⟩ := hgs
  obtain ⟨r, hr, e⟩ := key (List.mem_append_left gs hg)
  obtain ⟨r', hr', e'⟩ := key (List.mem_append_right gb hg')
  refine ⟨_, _, heq, ⟨r, hr, ?_⟩, ⟨r', hr', ?_⟩⟩
  · rw [e]; exact ab.side_eq g hg
  · rw [e']; exact as.side_eq g' hg'

/-- An algorithm that always raises is noticed on two-sided books. -/
theorem mechanism_raises (smp : Sampler) (merge : Bool) (algo : Algo) (df : DF) (b s : Row) (hb : b ∈ df) (hs : s ∈ df)
    (hbb : b.buying = true) (hss : s.buying = false) (e : PyErr) (h : ∀ df, algo df = .error e) :
    mechanism smp merge algo df = .error e := by
  unfold mechanism
  cases merge with
  | false => simp only [Bool.false_eq_true, if_false]; rw [C04_two_sided_invokes algo df b s hb hs hbb hss, h]
  | true =>
    obtain ⟨nb, mp, hm, ⟨b', hb', e1⟩, ⟨s', hs', e2⟩⟩ := merge_two_sided smp df b s hb hs hbb hss
    simp only [if_true, hm, bind, Except.bind]
    rw [C04_two_sided_invokes algo nb b' s' hb' hs' e1 e2, h]

/-- Two algorithms that agree give the same mechanism. -/
theorem mechanism_congr (smp : Sampler) (merge : Bool) (algo algo' : Algo) (df : DF) (h : ∀ df, algo df = algo' df) :
    mechanism smp merge algo df = mechanism smp merge algo' df := by
  rw [show algo = algo' from funext h]

theorem truth_iff (v : PyArg) (b : Bool) : Spec.Truth v b ↔ v.truthy = b := by
  constructor
  · intro h
    cases h with
    | number q h => simp [PyArg.truthy, h]
    | _ => simp [PyArg.truthy]
  · rintro rfl
    rcases v with q | b | _ | g | b
    · by_cases h : q = 0
      · subst h; exact .zero
      · have : (PyArg.num q).truthy = true := by simp [PyArg.truthy, h]
        rw [this]; exact .number q h
    · cases b
      · exact .no
      · exact .yes
    · exact .none
    · exact .generator g
    · cases b
      · exact .empty
      · exact .other

theorem asNumber_iff (v : PyArg) (c : ℚ) : Spec.AsNumber v c ↔ v.number = some c := by
  constructor
  · rintro (_ | _ | _) <;> rfl
  · intro h
    rcases v with q | b | _ | g | b
    · cases h; exact .number _
    · cases b
      · cases h; exact .no
      · cases h; exact .yes
    · cases h
    · cases h
    · cases h

theorem not_asNumber {v : PyArg} (h : ∀ c, ¬ Spec.AsNumber v c) : v.number = none := by
  cases hv : v.number with
  | none => rfl
  | some c => exact absurd ((asNumber_iff v c).2 hv) (h c)

end PyMarket
