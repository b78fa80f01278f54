import Verif.Lemmas.FloatMerge
import Verif.Props.FloatHuang

/-! # Errors of the shares of a group, and what a run with merging returns -/

set_option autoImplicit false

namespace PyMarket

open Spec

section spread

variable (F : Fmt)

theorem one_sub_eps_pos : 0 < 1 - F.eps := by have := F.eps_lt; linarith

theorem spread_base : 1 ≤ (1 + F.eps) / (1 - F.eps) := by
  rw [le_div_iff₀ (one_sub_eps_pos F)]
  have := F.eps_nonneg
  linarith

theorem one_le_spread (n : ℕ) : 1 ≤ spread F n := one_le_pow₀ (spread_base F)

theorem spread_pos (n : ℕ) : 0 < spread F n := lt_of_lt_of_le one_pos (one_le_spread F n)

theorem spread_mono {m n : ℕ} (h : m ≤ n) : spread F m ≤ spread F n :=
  pow_le_pow_right₀ (spread_base F) h

theorem pow_up_le_spread {m n : ℕ} (h : m ≤ n) : (1 + F.eps) ^ m ≤ spread F n := by
  refine le_trans ?_ (spread_mono F h)
  unfold spread
  have e0 := F.eps_nonneg
  apply pow_le_pow_left₀ (by linarith)
  rw [le_div_iff₀ (one_sub_eps_pos F)]
  nlinarith

end spread

/-- A share of a group, up to rounding. -/
theorem part_bounds {F : Fmt} {l : List ℚ} {T : ℚ} (hT : IsFSum F l T) (hl : ∀ x ∈ l, 0 ≤ x) (hpos : 0 < T)
    {a q : ℚ} (ha : 0 ≤ a) (hq : 0 ≤ q) {n : ℕ} (hn : l.length ≤ n) (hne : l ≠ []) :
    0 ≤ F.rnd (q * F.rnd (a / T)) ∧
    q * a ≤ spread F (n + 1) * (F.rnd (q * F.rnd (a / T)) * l.sum) ∧
    F.rnd (q * F.rnd (a / T)) * l.sum ≤ spread F (n + 1) * (q * a) ∧
    ∀ m, IsFSum F l m → q ≤ m → F.rnd (q * F.rnd (a / T)) ≤ spread F (n + 1) * a := by
  have e0 := F.eps_nonneg
  have hD := one_sub_eps_pos F
  have hU : 0 < 1 + F.eps := by linarith
  have hA : 0 ≤ l.sum := List.sum_nonneg hl
  obtain ⟨b1, b2⟩ := hT.bounds hl
  have hx0 : 0 ≤ a / T := div_nonneg ha hpos.le
  obtain ⟨u1, u2⟩ := F.rnd_bounds hx0
  set u := F.rnd (a / T)
  have hu0 : 0 ≤ u := F.rnd_nonneg hx0
  have hqu : 0 ≤ q * u := mul_nonneg hq hu0
  obtain ⟨p1, p2⟩ := F.rnd_bounds hqu
  set p := F.rnd (q * u)
  have hp0 : 0 ≤ p := F.rnd_nonneg hqu
  have hk : 1 ≤ l.length := List.length_pos_of_ne_nil hne
  set k := l.length - 1 with hkdef
  -- bounds on `p * T`
  have up : p * T ≤ (1 + F.eps) ^ 2 * (q * a) := by
    have h1 : q * u ≤ q * ((1 + F.eps) * (a / T)) := mul_le_mul_of_nonneg_left u2 hq
    have h2 : p ≤ (1 + F.eps) * (q * ((1 + F.eps) * (a / T))) :=
      p2.trans (mul_le_mul_of_nonneg_left h1 hU.le)
    have h3 := mul_le_mul_of_nonneg_right h2 hpos.le
    have h4 : (1 + F.eps) * (q * ((1 + F.eps) * (a / T))) * T = (1 + F.eps) ^ 2 * (q * a) := by
      field_simp
    linarith
  have lo : (1 - F.eps) ^ 2 * (q * a) ≤ p * T := by
    have h1 : q * ((1 - F.eps) * (a / T)) ≤ q * u := mul_le_mul_of_nonneg_left u1 hq
    have h2 : (1 - F.eps) * (q * ((1 - F.eps) * (a / T))) ≤ p :=
      (mul_le_mul_of_nonneg_left h1 hD.le).trans p1
    have h3 := mul_le_mul_of_nonneg_right h2 hpos.le
    have h4 : (1 - F.eps) * (q * ((1 - F.eps) * (a / T))) * T = (1 - F.eps) ^ 2 * (q * a) := by
      field_simp
    linarith
  have hDk : 0 < (1 - F.eps) ^ k := pow_pos hD k
  have hUk : 0 < (1 + F.eps) ^ k := pow_pos hU k
  have hD1 : 1 - F.eps ≤ 1 := by linarith
  have hU1 : 1 ≤ 1 + F.eps := by linarith
  have hqa : 0 ≤ q * a := mul_nonneg hq ha
  have hsp : (1 + F.eps) ^ 2 * (1 + F.eps) ^ k ≤ spread F (n + 1) * ((1 - F.eps) ^ 2 * (1 - F.eps) ^ k) := by
    have h1 : spread F (k + 2) ≤ spread F (n + 1) := spread_mono F (by omega)
    have h2 : spread F (k + 2) * ((1 - F.eps) ^ 2 * (1 - F.eps) ^ k) = (1 + F.eps) ^ 2 * (1 + F.eps) ^ k := by
      unfold spread
      rw [div_pow, ← pow_add, ← pow_add, Nat.add_comm 2 k]
      field_simp
    rw [← h2]
    exact mul_le_mul_of_nonneg_right h1 (by positivity)
  have hD2 : (1 - F.eps) ^ 2 ≤ 1 := pow_le_one₀ hD.le hD1
  have hU2 : 1 ≤ (1 + F.eps) ^ 2 := one_le_pow₀ hU1
  have hUk1 : 1 ≤ (1 + F.eps) ^ k := one_le_pow₀ hU1
  have hDk1 : (1 - F.eps) ^ k ≤ 1 := pow_le_one₀ hD.le hD1
  have hS := spread_pos F (n + 1)
  refine ⟨hp0, ?_, ?_, ?_⟩
  · -- `q a ≤ S p A`
    have h1 : p * T ≤ p * ((1 + F.eps) ^ k * l.sum) := mul_le_mul_of_nonneg_left b2 hp0
    have h2 : (1 - F.eps) ^ 2 * (q * a) ≤ (1 + F.eps) ^ k * (p * l.sum) := by linarith
    have h3 : (1 + F.eps) ^ k ≤ spread F (n + 1) * (1 - F.eps) ^ 2 := by
      have c1 : (1 + F.eps) ^ k ≤ (1 + F.eps) ^ 2 * (1 + F.eps) ^ k := by nlinarith
      have c2 : spread F (n + 1) * ((1 - F.eps) ^ 2 * (1 - F.eps) ^ k) ≤ spread F (n + 1) * (1 - F.eps) ^ 2 := by
        apply mul_le_mul_of_nonneg_left _ hS.le
        nlinarith [pow_pos hD 2]
      linarith
    have h4 : (1 + F.eps) ^ k * (p * l.sum) ≤ spread F (n + 1) * (1 - F.eps) ^ 2 * (p * l.sum) :=
      mul_le_mul_of_nonneg_right h3 (mul_nonneg hp0 hA)
    have h5 : (1 - F.eps) ^ 2 * (q * a) ≤ (1 - F.eps) ^ 2 * (spread F (n + 1) * (p * l.sum)) := by linarith
    exact le_of_mul_le_mul_left h5 (pow_pos hD 2)
  · have h1 : p * ((1 - F.eps) ^ k * l.sum) ≤ p * T := mul_le_mul_of_nonneg_left b1 hp0
    have h2 : (1 - F.eps) ^ k * (p * l.sum) ≤ (1 + F.eps) ^ 2 * (q * a) := by linarith
    have h3 : (1 + F.eps) ^ 2 ≤ spread F (n + 1) * (1 - F.eps) ^ k := by
      have c1 : (1 + F.eps) ^ 2 ≤ (1 + F.eps) ^ 2 * (1 + F.eps) ^ k := by nlinarith
      have c2 : spread F (n + 1) * ((1 - F.eps) ^ 2 * (1 - F.eps) ^ k) ≤ spread F (n + 1) * (1 - F.eps) ^ k := by
        apply mul_le_mul_of_nonneg_left _ hS.le
        nlinarith
      linarith
    have h4 := mul_le_mul_of_nonneg_right h3 hqa
    have h5 : (1 - F.eps) ^ k * (p * l.sum) ≤ (1 - F.eps) ^ k * (spread F (n + 1) * (q * a)) := by linarith
    exact le_of_mul_le_mul_left h5 hDk
  · intro m hm hqm
    obtain ⟨_, m2⟩ := hm.bounds hl
    have h1 : q * a ≤ (1 + F.eps) ^ k * l.sum * a := mul_le_mul_of_nonneg_right (hqm.trans m2) ha
    have h2 : p * T ≤ (1 + F.eps) ^ 2 * ((1 + F.eps) ^ k * l.sum * a) :=
      up.trans (mul_le_mul_of_nonneg_left h1 (by positivity))
    have h3 : (1 - F.eps) ^ k * ((1 + F.eps) ^ 2 * ((1 + F.eps) ^ k * l.sum * a)) ≤
        (1 + F.eps) ^ 2 * (1 + F.eps) ^ k * a * T := by
      have := mul_le_mul_of_nonneg_left b1 (show 0 ≤ (1 + F.eps) ^ 2 * (1 + F.eps) ^ k * a by positivity)
      linarith
    have h4 : (1 - F.eps) ^ k * p * T ≤ (1 + F.eps) ^ 2 * (1 + F.eps) ^ k * a * T := by
      have := mul_le_mul_of_nonneg_left h2 hDk.le
      linarith
    have h5 : (1 - F.eps) ^ k * p ≤ (1 + F.eps) ^ 2 * (1 + F.eps) ^ k * a := le_of_mul_le_mul_right h4 hpos
    have h6 : (1 + F.eps) ^ 2 * (1 + F.eps) ^ k * a ≤ (1 - F.eps) ^ k * (spread F (n + 1) * a) := by
      have c1 := mul_le_mul_of_nonneg_right hsp ha
      have c2 : spread F (n + 1) * ((1 - F.eps) ^ 2 * (1 - F.eps) ^ k) * a ≤
          (1 - F.eps) ^ k * (spread F (n + 1) * a) := by
        have : 0 ≤ spread F (n + 1) * (1 - F.eps) ^ k * a := by positivity
        nlinarith
      linarith
    exact le_of_mul_le_mul_left (h5.trans h6) hDk

/-! ## A run with merging -/

section run

variable {F : Fmt} {prec : ℕ} {df nb : DF} {mp : List (List ℕ)}

theorem MergeSpecF.get (h : MergeSpecF F prec df nb mp) {k : ℕ} (hk : k < nb.length) :
    ∃ row ids, nb[k]? = some row ∧ mp[k]? = some ids :=
  ⟨_, _, List.getElem?_eq_getElem hk, List.getElem?_eq_getElem (h.length ▸ hk)⟩

theorem MergeSpecF.row (h : MergeSpecF F prec df nb mp) {k : ℕ} {ids : List ℕ} (hk : mp[k]? = some ids) :
    ∃ row, nb[k]? = some row :=
  ⟨_, List.getElem?_eq_getElem (h.length ▸ (List.getElem?_eq_some_iff.mp hk).1)⟩

theorem MergeSpecF.lt (h : MergeSpecF F prec df nb mp) {k : ℕ} {ids : List ℕ} (hk : mp[k]? = some ids) :
    ∀ i ∈ ids, i < df.length := by
  intro i hi
  have : i ∈ mp.flatten := List.mem_flatten.mpr ⟨ids, List.mem_of_getElem? hk, hi⟩
  exact List.mem_range.mp (h.perm.subset this)

theorem MergeSpecF.ids_length (h : MergeSpecF F prec df nb mp) {k : ℕ} {ids : List ℕ}
    (hk : mp[k]? = some ids) : ids.length ≤ df.length := by
  have h1 : ids.Sublist mp.flatten := List.sublist_flatten_of_mem (List.mem_of_getElem? hk)
  have h2 := h1.length_le
  rwa [h.perm.length_eq, List.length_range] at h2

theorem MergeSpecF.nonNeg (h : MergeSpecF F prec df nb mp) (hq : NonNeg df) : NonNeg nb := by
  intro row hrow
  obtain ⟨k, hk⟩ := List.getElem?_of_mem hrow
  obtain ⟨_, ids, h1, h2⟩ := h.get (List.getElem?_eq_some_iff.mp hk).1
  obtain ⟨g1, g2, g3⟩ := h.group k row ids hk h2
  constructor
  · apply g2.nonneg
    intro x hx
    obtain ⟨i, hi, rfl⟩ := List.mem_map.mp hx
    obtain ⟨r, hr, _⟩ := (g3 i).mp hi
    rw [qtyOf_some hr]
    exact (hq r (List.mem_of_getElem? hr)).1
  · obtain ⟨i, hi⟩ := List.exists_mem_of_ne_nil _ g1
    obtain ⟨r, hr, _, hp⟩ := (g3 i).mp hi
    rw [← hp]
    exact npRoundF_nonneg F prec (hq r (List.mem_of_getElem? hr)).2

theorem MergeSpecF.repBook (h : MergeSpecF F prec df nb mp) (hr : RepBook F df) : RepBook F nb := by
  intro row hrow
  obtain ⟨k, hk⟩ := List.getElem?_of_mem hrow
  obtain ⟨_, ids, h1, h2⟩ := h.get (List.getElem?_eq_some_iff.mp hk).1
  obtain ⟨g1, g2, g3⟩ := h.group k row ids hk h2
  constructor
  · apply g2.rep
    intro x hx
    obtain ⟨i, hi, rfl⟩ := List.mem_map.mp hx
    exact qtyOf_rep hr i
  · obtain ⟨i, hi⟩ := List.exists_mem_of_ne_nil _ g1
    obtain ⟨r, hr, _, hp⟩ := (g3 i).mp hi
    rw [← hp]
    exact npRoundF_rep F prec _

theorem MergeSpecF.length_le (h : MergeSpecF F prec df nb mp) : nb.length ≤ df.length := by
  have h1 : mp.length ≤ mp.flatten.length := by
    have : ∀ l : List (List ℕ), (∀ x ∈ l, x ≠ []) → l.length ≤ l.flatten.length := by
      intro l
      induction l with
      | nil => simp
      | cons a l ih =>
        intro hx
        have h1 := List.length_pos_of_ne_nil (hx a List.mem_cons_self)
        have h2 := ih (fun x h => hx x (List.mem_cons_of_mem _ h))
        simp only [List.length_cons, List.flatten_cons, List.length_append]
        omega
    apply this
    intro x hx
    obtain ⟨k, hk⟩ := List.getElem?_of_mem hx
    obtain ⟨row, hrow⟩ := h.row hk
    exact (h.group k row x hrow hk).1
  rw [h.perm.length_eq, List.length_range, h.length] at h1
  exact h1

theorem splitOneF_known {s : Summer F} {t : Transaction} {l : List Transaction}
    (h : splitOneF F s df mp t = .ok l) : ∃ ids, mp[t.bid]? = some ids := by
  unfold splitOneF at h
  cases hm : mp[t.bid]? with
  | none => rw [hm] at h; cases h
  | some ids => exact ⟨ids, rfl⟩

theorem splitAllF_known {s : Summer F} {ts l : List Transaction} (h : splitAllF F s df mp ts = .ok l) :
    ∀ t ∈ ts, ∃ ids, mp[t.bid]? = some ids := by
  induction ts generalizing l with
  | nil => simp
  | cons t ts ih =>
    unfold splitAllF at h
    cases h1 : splitOneF F s df mp t with
    | error e => rw [h1] at h; cases h
    | ok r =>
      rw [h1] at h
      cases h2 : splitAllF F s df mp ts with
      | error e => rw [h2] at h; cases h
      | ok rs =>
        intro t' ht'
        rcases List.mem_cons.mp ht' with rfl | ht'
        · exact splitOneF_known h1
        · exact ih h2 t' ht'

/-- The split of the log of a run on the merged table. -/
theorem splitTransactionsF_eq (s : Summer F) (h : MergeSpecF F prec df nb mp) {tm : TransactionManager}
    (hk : ∀ t ∈ tm.trans, t.bid < nb.length) :
    splitTransactionsF F s tm df mp =
      if ∃ t ∈ tm.trans, s.sum (((mp[t.bid]?).getD []).map (qtyOf df)) = 0 then .error .nanQuantity
      else .ok (TransactionManager.init.addAll (tm.trans.flatMap (splitTF F s df mp))) := by
  have h1 : splitAllF F s df mp tm.getDf = _ := splitAllF_ok F s df mp tm.trans (by
    intro t ht
    obtain ⟨row, ids, hr, hi⟩ := h.get (hk t ht)
    exact ⟨ids, hi, h.lt hi, (h.group _ row ids hr hi).1⟩)
  unfold splitTransactionsF
  rw [h1]
  split <;> rfl

/-- A run with merging: the run on the merged table, then the split. -/
theorem mechanismF_inv {s g : Summer F} {smp : Sampler} {algo : Algo} (ht : IsTable df)
    {tm' : TransactionManager} {ex : Extra} (h : mechanismF F s g smp true algo df = .ok (tm', ex)) :
    ∃ nb mp tm, mergeSamePriceF F g smp df = .ok (nb, mp) ∧ MergeSpecF F 5 df nb mp ∧
      mechRun algo nb = .ok (tm, ex) ∧ (∀ t ∈ tm.trans, t.bid < nb.length ∧
        s.sum (((mp[t.bid]?).getD []).map (qtyOf df)) ≠ 0) ∧
      tm'.trans = tm.trans.flatMap (splitTF F s df mp) := by
  obtain ⟨nb, mp, hm, hM⟩ := mergeF_spec F g smp 5 ht
  unfold mechanismF at h
  simp only [if_true, hm, bind, Except.bind] at h
  cases hr : mechRun algo nb with
  | error e => rw [hr] at h; cases h
  | ok r =>
    rw [hr] at h
    simp only at h
    cases hs : splitTransactionsF F s r.1 df mp with
    | error e => rw [hs] at h; cases h
    | ok tm₁ =>
      rw [hs] at h
      simp only [Except.ok.injEq, Prod.mk.injEq] at h
      obtain ⟨rfl, rfl⟩ := h
      have hk : ∀ t ∈ r.1.trans, t.bid < nb.length := by
        intro t ht'
        have hs' := hs
        unfold splitTransactionsF at hs'
        cases hl : splitAllF F s df mp r.1.getDf with
        | error e => rw [hl] at hs'; cases hs'
        | ok l =>
          obtain ⟨ids, hi⟩ := splitAllF_known hl t ht'
          rw [← hM.length]
          exact (List.getElem?_eq_some_iff.mp hi).1
      rw [splitTransactionsF_eq s hM hk] at hs
      split at hs
      · cases hs
      · rename_i hz
        push Not at hz
        cases hs
        exact ⟨nb, mp, r.1, hm, hM, hr, fun t ht' => ⟨hk t ht', hz t ht'⟩, TransactionManager.init_addAll_trans _⟩

end run

end PyMarket
