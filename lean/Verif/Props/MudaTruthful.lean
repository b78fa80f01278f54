import Verif.Lemmas.MudaVcg
import Verif.Props.Muda

/-! # C33: reporting the truth to MUDA -/

set_option autoImplicit false

namespace PyMarket

open Spec

theorem sum_others_own (L : DF) (u : ℤ) (f : Row → ℚ) :
    (L.map f).sum = ((others L u).map f).sum + ((own L u).map f).sum := by
  unfold others own
  induction L with
  | nil => simp
  | cons r l ih =>
    by_cases h : r.user = u
    · simp only [List.map_cons, List.sum_cons, h, ne_eq, not_true_eq_false, decide_false,
        Bool.false_eq_true, not_false_eq_true, List.filter_cons_of_neg, decide_true,
        List.filter_cons_of_pos, ih]; ring
    · simp only [List.map_cons, List.sum_cons, h, ne_eq, not_false_eq_true, decide_true,
        List.filter_cons_of_pos, decide_false, Bool.false_eq_true, List.filter_cons_of_neg, ih]
      ring

theorem own_single {L : DF} (hn : (L.map (fun r => r.label)).Nodup) {r : Row} (hr : r ∈ L)
    (hs : ∀ r' ∈ L, r'.user = r.user → r' = r) : own L r.user = [r] := by
  have hmem : r ∈ own L r.user := List.mem_filter.mpr ⟨hr, by simp⟩
  have hall : ∀ r' ∈ own L r.user, r' = r := fun r' h =>
    hs r' (List.mem_filter.mp h).1 (of_decide_eq_true (List.mem_filter.mp h).2)
  have hnd : (own L r.user).Nodup := (List.Nodup.of_map _ hn).sublist List.filter_sublist
  match h : own L r.user, hmem, hall, hnd with
  | [a], _, h2, _ => rw [h2 a List.mem_cons_self]
  | a :: a' :: l, _, h2, h3 =>
    have e1 := h2 a List.mem_cons_self
    have e2 := h2 a' (List.mem_cons_of_mem _ List.mem_cons_self)
    rw [List.nodup_cons] at h3
    exact absurd (by rw [e1, e2]; exact List.mem_cons_self) h3.1

/-- One half: a user with the single bid `r`, worth `r.price` per unit up to `r.quantity`, compared
with any report `r'` on the same side. -/
theorem half_truthful {H H' : DF} (hn : (H.map (fun r => r.label)).Nodup)
    (hn' : (H'.map (fun r => r.label)).Nodup) (hq : ∀ r ∈ H, 0 ≤ r.quantity)
    {r r' : Row} (hr : r ∈ H) (hr' : r' ∈ H') (hlab : r'.label = r.label) (husr : r'.user = r.user)
    (hbuy : r'.buying = r.buying) (hs : ∀ a ∈ H, a.user = r.user → a = r)
    (hs' : ∀ a ∈ H', a.user = r.user → a = r') {p : ℚ}
    (hoth : others (willingOf H' r.buying p) r.user = others (willingOf H r.buying p) r.user)
    (hopp : qsum (willingOf H' (!r.buying) p) = qsum (willingOf H (!r.buying) p))
    {ts ts' : List Transaction} (hv : Vcg H r.buying p ts) (hv' : Vcg H' r.buying p ts') {x x' : ℚ}
    (hx : (TradesLong H p ts r.user ∧ IsExternality H p ts r.user x) ∨
      (¬ TradesLong H p ts r.user ∧ x = 0))
    (hx' : (TradesLong H' p ts' r.user ∧ IsExternality H' p ts' r.user x') ∨
      (¬ TradesLong H' p ts' r.user ∧ x' = 0)) :
    unitGain p r * min (tradedBy ts' r.label) r.quantity - x' ≤
      unitGain p r * tradedBy ts r.label - x := by
  obtain ⟨W, hW, ex⟩ := hv.fee r.user x (fun a ha hu => by rw [hs a ha hu]) hx
  obtain ⟨W', hW', ex'⟩ := hv'.fee r.user x' (fun a ha hu => by rw [hs' a ha hu, hbuy]) hx'
  rw [hoth, hopp] at hW'
  have hWW : W' = W := hW'.unique hW
  subst hWW
  rw [hoth] at ex'
  have hmO : ∀ a ∈ others (willingOf H r.buying p) r.user,
      a ∈ willingOf H' r.buying p := fun a ha => by
    rw [← hoth] at ha
    exact (List.mem_filter.mp ha).1
  have hndL : ((willingOf H r.buying p).map (fun r => r.label)).Nodup := by
    rw [willingOf_eq]; exact hn.sublist (List.filter_sublist.map _)
  have hndL' : ((willingOf H' r.buying p).map (fun r => r.label)).Nodup := by
    rw [willingOf_eq]; exact hn'.sublist (List.filter_sublist.map _)
  -- the reported run
  have hrun' : 0 ≤ tradedBy ts' r.label ∧
      ((others (willingOf H r.buying p) r.user).map (fun a => tradedBy ts' a.label)).sum +
        tradedBy ts' r.label ≤ qsum (willingOf H (!r.buying) p) := by
    have htot := hv'.total
    rw [sum_others_own _ r.user, hoth, hopp] at htot
    by_cases hw : 0 ≤ unitGain p r'
    · have hmem : r' ∈ willingOf H' r.buying p := mem_willingOf.mpr ⟨hr', hbuy, hw⟩
      have hown : own (willingOf H' r.buying p) r.user = [r'] := by
        have := own_single hndL' hmem (fun a ha hu => hs' a (mem_willingOf.mp ha).1 (by rw [hu, husr]))
        rw [husr] at this
        exact this
      rw [hown] at htot
      simp only [List.map_cons, List.map_nil, List.sum_cons, List.sum_nil, add_zero, hlab] at htot
      have := (hv'.bound r' hmem).1
      rw [hlab] at this
      exact ⟨this, htot⟩
    · have hz := hv'.zero r' hr' hbuy (not_le.mp hw)
      rw [hlab] at hz
      have hown : own (willingOf H' r.buying p) r.user = [] := by
        unfold own
        rw [List.filter_eq_nil_iff]
        intro a ha hc
        have hm := mem_willingOf.mp ha
        rw [hs' a hm.1 (of_decide_eq_true hc)] at hm
        exact hw hm.2.2
      rw [hown] at htot
      simp only [List.map_nil, List.sum_nil] at htot
      rw [hz]
      exact ⟨le_refl _, htot⟩
  obtain ⟨ht0, htot⟩ := hrun'
  by_cases hw : 0 ≤ unitGain p r
  · have hmem : r ∈ willingOf H r.buying p := mem_willingOf.mpr ⟨hr, rfl, hw⟩
    have hown : own (willingOf H r.buying p) r.user = [r] :=
      own_single hndL hmem (fun a ha hu => hs a (mem_willingOf.mp ha).1 hu)
    have hne : ∀ a ∈ others (willingOf H r.buying p) r.user, a.label ≠ r.label := by
      intro a ha he
      have h1 := List.mem_filter.mp ha
      have := List.inj_on_of_nodup_map hndL h1.1 hmem he
      subst this
      simp at h1
    have hval : unitGain p r * min (tradedBy ts' r.label) r.quantity +
        gainIn (others (willingOf H r.buying p) r.user) p ts' ≤
        gainIn (willingOf H r.buying p) p ts := by
      refine hv.best.2 ⟨fun k => if k = r.label then
          min (tradedBy ts' r.label) r.quantity else tradedBy ts' k, ?_, ?_, ?_⟩
      · intro a ha
        simp only
        split
        · rename_i he
          have := List.inj_on_of_nodup_map hndL ha hmem he
          subst this
          exact ⟨le_min ht0 (hq a hr), min_le_right _ _⟩
        · rename_i he
          have hO : a ∈ others (willingOf H r.buying p) r.user := by
            refine List.mem_filter.mpr ⟨ha, decide_eq_true ?_⟩
            intro hu
            exact he (by rw [hs a (mem_willingOf.mp ha).1 hu])
          exact hv'.bound a (hmO a hO)
      · rw [sum_others_own _ r.user, hown]
        have e : (others (willingOf H r.buying p) r.user).map (fun a => if a.label = r.label then
            min (tradedBy ts' r.label) r.quantity else tradedBy ts' a.label) =
            (others (willingOf H r.buying p) r.user).map (fun a => tradedBy ts' a.label) :=
          List.map_congr_left (fun a ha => if_neg (hne a ha))
        rw [e]
        simp only [List.map_cons, List.map_nil, List.sum_cons, List.sum_nil, add_zero, if_true]
        have := min_le_left (tradedBy ts' r.label) r.quantity
        linarith
      · rw [sum_others_own _ r.user, hown]
        have e : (others (willingOf H r.buying p) r.user).map (fun a => unitGain p a *
            (if a.label = r.label then min (tradedBy ts' r.label) r.quantity else tradedBy ts' a.label)) =
            (others (willingOf H r.buying p) r.user).map (fun a => unitGain p a * tradedBy ts' a.label) :=
          List.map_congr_left (fun a ha => by rw [if_neg (hne a ha)])
        rw [e]
        simp only [List.map_cons, List.map_nil, List.sum_cons, List.sum_nil, add_zero, if_true]
        unfold gainIn
        ring
    unfold gainIn at hval ex ex'
    rw [sum_others_own (willingOf H r.buying p) r.user, hown] at hval
    simp only [List.map_cons, List.map_nil, List.sum_cons, List.sum_nil, add_zero] at hval
    linarith
  · have hg := not_le.mp hw
    rw [hv.zero r hr rfl hg]
    have hothL : others (willingOf H r.buying p) r.user = willingOf H r.buying p := by
      unfold others
      rw [List.filter_eq_self]
      intro a ha
      refine decide_eq_true ?_
      intro hu
      have hm := mem_willingOf.mp ha
      rw [hs a hm.1 hu] at hm
      exact hw hm.2.2
    have hx0 : x = 0 := by
      rw [hothL] at hW ex
      rw [ex, hW.unique hv.best, sub_self]
    have hx0' : 0 ≤ x' := by
      rw [ex', sub_nonneg]
      apply hW.2
      refine ⟨tradedBy ts', fun a ha => hv'.bound a (hmO a ha), ?_, rfl⟩
      linarith
    have hm := mul_nonneg (neg_nonneg.mpr hg.le) (le_min ht0 (hq r hr))
    rw [hx0]
    linarith

/-! ## The whole market -/

/-- The half of a bid, with its price and what the bid's user owes. -/
theorem muda_single {S : Sorter} {coin : ℕ → Bool} {df : DF} (ht : IsTable df)
    (hq : ∀ r ∈ df, 0 ≤ r.quantity) (hu : UsersInRange df)
    {tm : TransactionManager} {left right : List ℕ} {pl pr : Val} {fees : List ℚ}
    (h : muda S coin df = .ok (tm, .muda left right pl pr fees)) {i u : ℕ} {r : Row}
    (hi : df[i]? = some r) (hru : r.user = u) (hs : ∀ a ∈ df, a.user = r.user → a = r) {x : ℚ}
    (hx : fees[u]? = some x) {ids : List ℕ} {v : Val}
    (hids : (i ∈ left ∧ ids = left ∧ v = pr) ∨ (i ∈ right ∧ ids = right ∧ v = pl)) :
    HalfOutcome S (half df ids) v (tradesIn ids tm.trans) ∧
    Owes (half df ids) v (tradesIn ids tm.trans) u x := by
  have hr := muda_run' ht h
  obtain ⟨_, ol, or⟩ := hr.halves ht hq
  have huu : u < fees.length := by
    by_contra hc
    rw [List.getElem?_eq_none (not_lt.mp hc)] at hx
    cases hx
  have hlab := ht.label hi
  obtain ⟨y, hy1, _, hy2⟩ := (C27_fees S coin df ht hq hu tm left right pl pr fees h).2 u huu
  rw [hx] at hy1
  cases hy1
  have hno : ∀ {ids : List ℕ} {p : ℚ} {ts : List Transaction}, i ∉ ids →
      ¬ TradesLong (half df ids) p ts u := by
    rintro ids p ts hni ⟨t, _, a, ha, _, hau⟩
    have ham : a ∈ half df ids := by
      unfold longSide at ha
      split at ha <;> exact (List.mem_filter.mp ha).1
    have := hs a (half_sub a ham) (by rw [hau, hru])
    subst this
    have := half_label ham
    rw [hlab] at this
    exact hni this
  rcases hids with ⟨hm, rfl, rfl⟩ | ⟨hm, rfl, rfl⟩
  · refine ⟨ol, ?_⟩
    rcases hy2 with ⟨p, _, htl, _⟩ | ⟨_, h2⟩
    · exact absurd htl (hno (hr.disjoint i hm))
    · exact h2
  · refine ⟨or, ?_⟩
    rcases hy2 with ⟨p, hp, htl, hext⟩ | ⟨h1, h2⟩
    · exact Or.inl ⟨p, hp, htl, hext⟩
    · right
      refine ⟨h1, ?_⟩
      rcases h2 with ⟨p, _, htl, _⟩ | ⟨_, h2⟩
      · exact absurd htl (hno (fun hc => hr.disjoint i hc hm))
      · exact h2

/-- The surplus of a user with a single bid trading at one price. -/
theorem surplus_single {df : DF} {i : ℕ} {u : ℤ} {r : Row} (hi : df[i]? = some r) (hru : r.user = u)
    (hs : ∀ a ∈ df, a.user = u → a = r) (ht : IsTable df) {ts : List Transaction} {p : ℚ}
    (hp : ∀ t ∈ ts, t.bid = i → t.price = p) :
    surplusOf df (priceOf df) u ts = unitGain p r * tradedBy ts i := by
  have hrm : r ∈ df := List.mem_of_getElem? hi
  have hlab := ht.label hi
  have hown : ∀ k, ownedBy df u k = decide (k = i) := by
    intro k
    unfold ownedBy
    by_cases hk : k = i
    · subst hk; rw [hi]; simp [hru]
    · cases hd : df[k]? with
      | none => simp [hk]
      | some a =>
        have : a.user ≠ u := by
          intro hc
          have := hs a (List.mem_of_getElem? hd) hc
          subst this
          exact hk ((ht.label hd).symm.trans hlab)
        simp [hk, this]
  rw [surplusOf_eq]
  induction ts with
  | nil => simp [tradedBy]
  | cons t ts ih =>
    rw [List.map_cons, List.sum_cons, ih (fun t' h' => hp t' (List.mem_cons_of_mem _ h')),
      show t :: ts = [t] ++ ts from rfl, tradedBy_append, hown]
    by_cases hk : t.bid = i
    · have hb : isBuy df i = r.buying := by rw [← hlab]; exact ht.isBuy_eq hrm
      have hsl : isSell df i = !r.buying := by rw [← hlab]; exact ht.isSell_eq hrm
      have hpr : priceOf df i = r.price := by rw [← hlab]; exact ht.price_eq hrm
      have h1 : tradedBy [t] i = t.quantity := by simp [tradedBy, hk]
      rw [h1, hp t List.mem_cons_self hk, hk, hb, hsl, hpr]
      unfold unitGain
      cases r.buying
      · simp; ring
      · simp; ring
    · have h1 : tradedBy [t] i = 0 := by simp [tradedBy, hk]
      rw [h1]
      simp [hk]

theorem filter_map_fix {l : DF} {e : Row → Row} {P : Row → Bool}
    (h : ∀ r ∈ l, e r = r ∨ (P r = false ∧ P (e r) = false)) : (l.map e).filter P = l.filter P := by
  induction l with
  | nil => rfl
  | cons a l ih =>
    have ih' := ih (fun r hr => h r (List.mem_cons_of_mem _ hr))
    rw [List.map_cons]
    rcases h a List.mem_cons_self with h1 | ⟨h1, h2⟩
    · rw [h1]
      by_cases hp : P a = true
      · rw [List.filter_cons_of_pos hp, List.filter_cons_of_pos hp, ih']
      · rw [List.filter_cons_of_neg hp, List.filter_cons_of_neg hp, ih']
    · rw [List.filter_cons_of_neg (by rw [h2]; simp), List.filter_cons_of_neg (by rw [h1]; simp), ih']

theorem set_eq_map {df : DF} (ht : IsTable df) {i : ℕ} {row : Row} :
    df.set i row = df.map (fun r => if r.label = i then row else r) := by
  apply List.ext_getElem
  · simp
  · intro k h1 h2
    rw [List.getElem_set, List.getElem_map]
    have hk : k < df.length := by simpa using h1
    have := ht.label (List.getElem?_eq_getElem hk)
    rw [this]
    by_cases h : i = k
    · rw [if_pos h, if_pos h.symm]
    · rw [if_neg h, if_neg (fun hc => h hc.symm)]

theorem isTable_set {df : DF} (ht : IsTable df) {i : ℕ} {r' : Row} (hlab : r'.label = i) :
    IsTable (df.set i r') := by
  have e : (df.set i r').map (fun r => r.label) = df.map (fun r => r.label) := by
    rw [set_eq_map ht, List.map_map]
    apply List.map_congr_left
    intro a _
    simp only [Function.comp_apply]
    split
    · rename_i he; rw [hlab, he]
    · rfl
  have h1 : df.map (fun r => r.label) = List.range df.length := ht
  change (df.set i r').map (fun r => r.label) = List.range (df.set i r').length
  rw [e, h1, List.length_set]

/-- The two runs of a user whose only bid is `r`, reported as it is and as `r'`. -/
theorem muda_truthful {S : Sorter} {coin : ℕ → Bool} {df : DF} (ht : IsTable df)
    (hq : ∀ r ∈ df, 0 ≤ r.quantity) (hu : UsersInRange df) {i u : ℕ} {r r' : Row}
    (hi : df[i]? = some r) (hru : r.user = u) (hs : ∀ a ∈ df, a.user = r.user → a = r)
    (hlab' : r'.label = r.label) (hru' : r'.user = r.user) (hbuy : r'.buying = r.buying)
    (hq' : 0 ≤ r'.quantity)
    {tm tm' : TransactionManager} {left right left' right' : List ℕ} {pl pr pl' pr' : Val}
    {fees fees' : List ℚ}
    (h : muda S coin df = .ok (tm, .muda left right pl pr fees))
    (h' : muda S coin (df.set i r') = .ok (tm', .muda left' right' pl' pr' fees')) {x x' : ℚ}
    (hx : fees[u]? = some x) (hx' : fees'[u]? = some x') :
    ∃ v : Val, ((v = pr ∧ coin i = true) ∨ (v = pl ∧ coin i = false)) ∧
      (∀ t ∈ tm.trans, t.bid = i → v = .fin t.price) ∧
      (∀ t ∈ tm'.trans, t.bid = i → v = .fin t.price) ∧
      ((∀ p, v ≠ .fin p) → x = 0 ∧ x' = 0) ∧
      ∀ p, v = .fin p → unitGain p r * min (tradedBy tm'.trans i) r.quantity - x' ≤
        unitGain p r * tradedBy tm.trans i - x := by
  have hlt : i < df.length := by
    by_contra hc
    rw [List.getElem?_eq_none (not_lt.mp hc)] at hi
    cases hi
  have hlab := ht.label hi
  have hrm : r ∈ df := List.mem_of_getElem? hi
  have hset := set_eq_map ht (i := i) (row := r')
  have ht' : IsTable (df.set i r') := isTable_set ht (hlab'.trans hlab)
  have huser : (df.set i r').map (fun r => r.user) = df.map (fun r => r.user) := by
    rw [hset, List.map_map]
    apply List.map_congr_left
    intro a ha
    simp only [Function.comp_apply]
    split
    · rename_i he
      have : a = r := List.inj_on_of_nodup_map ht.nodup ha hrm (by rw [he, hlab])
      rw [hru', this]
    · rfl
  have hmem' : ∀ a ∈ df.set i r', a = r' ∨ (a ∈ df ∧ a.label ≠ i) := by
    intro a ha
    rw [hset] at ha
    obtain ⟨b, hb, rfl⟩ := List.mem_map.mp ha
    split
    · exact Or.inl rfl
    · exact Or.inr ⟨hb, by assumption⟩
  have hqq : ∀ a ∈ df.set i r', 0 ≤ a.quantity := by
    intro a ha
    rcases hmem' a ha with rfl | ⟨h1, _⟩
    · exact hq'
    · exact hq a h1
  have hu' : UsersInRange (df.set i r') := by
    intro a ha
    have : a.user ∈ df.map (fun r => r.user) := by
      rw [← huser]; exact List.mem_map_of_mem ha
    obtain ⟨b, hb, he⟩ := List.mem_map.mp this
    rw [huser, ← he]
    exact hu b hb
  have hs' : ∀ a ∈ df.set i r', a.user = r.user → a = r' := by
    intro a ha hau
    rcases hmem' a ha with h1 | ⟨h1, h2⟩
    · exact h1
    · exfalso
      apply h2
      rw [hs a h1 hau, hlab]
  have hi' : (df.set i r')[i]? = some r' := by
    rw [List.getElem?_set_self hlt]
  have hrun := muda_run' ht h
  have hrun' := muda_run' ht' h'
  obtain ⟨e1, e2, e3, e4⟩ := C24_own_price S coin df i r' ht (by rw [hlab', hlab]) ht' tm tm' left right
    left' right' pl pr pl' pr' fees fees' h h'
  subst e1 e2
  have hC := C24_halves S coin df ht hq tm left' right' pl pr fees h
  have hC' := C24_halves S coin (df.set i r') ht' hqq tm' left' right' pl' pr' fees' h'
  obtain ⟨ids, v, hids, hids', hcase⟩ : ∃ (ids : List ℕ) (v : Val),
      ((i ∈ left' ∧ ids = left' ∧ v = pr) ∨ (i ∈ right' ∧ ids = right' ∧ v = pl)) ∧
      ((i ∈ left' ∧ ids = left' ∧ v = pr') ∨ (i ∈ right' ∧ ids = right' ∧ v = pl')) ∧
      ((v = pr ∧ coin i = true) ∨ (v = pl ∧ coin i = false)) := by
    by_cases hc : coin i = true
    · have hm : i ∈ left' := (hC.2.1 i).mpr ⟨hlt, hc⟩
      exact ⟨left', pr, Or.inl ⟨hm, rfl, rfl⟩, Or.inl ⟨hm, rfl, (e3 hm).symm⟩, Or.inl ⟨rfl, hc⟩⟩
    · have hm : i ∈ right' := (hC.2.2.1 i).mpr ⟨hlt, by simpa using hc⟩
      exact ⟨right', pl, Or.inr ⟨hm, rfl, rfl⟩, Or.inr ⟨hm, rfl, (e4 hm).symm⟩,
        Or.inr ⟨rfl, by simpa using hc⟩⟩
  have him : i ∈ ids := by
    rcases hids with ⟨hm, rfl, _⟩ | ⟨hm, rfl, _⟩ <;> exact hm
  have hprice : ∀ t ∈ tm.trans, t.bid = i → v = .fin t.price := by
    intro t htt hb
    rcases hC.2.2.2.2.2 t htt with ⟨h1, h2⟩ | ⟨h1, h2⟩
    · rcases hids with ⟨_, _, h3⟩ | ⟨h3, _, _⟩
      · rw [h3, h2]
      · exact absurd h3 (hrun.disjoint i (hb ▸ h1))
    · rcases hids with ⟨h3, _, _⟩ | ⟨_, _, h3⟩
      · exact absurd (hb ▸ h1) (hrun.disjoint i h3)
      · rw [h3, h2]
  have hprice' : ∀ t ∈ tm'.trans, t.bid = i → v = .fin t.price := by
    intro t htt hb
    rcases hC'.2.2.2.2.2 t htt with ⟨h1, h2⟩ | ⟨h1, h2⟩
    · rcases hids' with ⟨_, _, h3⟩ | ⟨h3, _, _⟩
      · rw [h3, h2]
      · exact absurd h3 (hrun.disjoint i (hb ▸ h1))
    · rcases hids' with ⟨h3, _, _⟩ | ⟨_, _, h3⟩
      · exact absurd (hb ▸ h1) (hrun.disjoint i h3)
      · rw [h3, h2]
  obtain ⟨ho, hw⟩ := muda_single ht hq hu h hi hru hs hx hids
  obtain ⟨ho', hw'⟩ := muda_single ht' hqq hu' h' hi' (hru'.trans hru)
    (fun a ha hau => hs' a ha (by rw [hau, hru'])) hx' hids'
  refine ⟨v, hcase, hprice, hprice', ?_, ?_⟩
  · intro hv
    constructor
    · rcases hw with ⟨p, hp, _⟩ | ⟨_, h0⟩
      · exact absurd hp (hv p)
      · exact h0
    · rcases hw' with ⟨p, hp, _⟩ | ⟨_, h0⟩
      · exact absurd hp (hv p)
      · exact h0
  · rintro p rfl
    rw [← tradedBy_tradesIn (ts := tm.trans) him, ← tradedBy_tradesIn (ts := tm'.trans) him]
    have hrH : r ∈ half df ids := List.mem_filter.mpr ⟨hrm, by rw [hlab]; exact decide_eq_true him⟩
    have hrH' : r' ∈ half (df.set i r') ids :=
      List.mem_filter.mpr ⟨List.mem_of_getElem? hi', by rw [hlab', hlab]; exact decide_eq_true him⟩
    have hhalf : half (df.set i r') ids = (half df ids).map (fun a => if a.label = i then r' else a) := by
      unfold half
      rw [hset, List.filter_map]
      congr 1
      apply List.filter_congr
      intro a _
      simp only [Function.comp_apply]
      split
      · rename_i he; rw [hlab', hlab, he]
      · rfl
    have hfix : ∀ P : Row → Bool, P r = false → P r' = false →
        (half (df.set i r') ids).filter P = (half df ids).filter P := by
      intro P h1 h2
      rw [hhalf]
      apply filter_map_fix
      intro a ha
      split
      · rename_i he
        right
        have : a = r := List.inj_on_of_nodup_map ht.nodup (half_sub a ha) hrm (by rw [he, hlab])
        rw [this]
        exact ⟨h1, h2⟩
      · exact Or.inl rfl
    have hoth : others (willingOf (half (df.set i r') ids) r.buying p) r.user =
        others (willingOf (half df ids) r.buying p) r.user := by
      unfold others
      rw [willingOf_eq, willingOf_eq, List.filter_filter, List.filter_filter]
      exact hfix _ (by simp) (by simp [hru'])
    have hopp : qsum (willingOf (half (df.set i r') ids) (!r.buying) p) =
        qsum (willingOf (half df ids) (!r.buying) p) := by
      rw [willingOf_eq, willingOf_eq]
      rw [hfix _ (by cases r.buying <;> simp) (by rw [hbuy]; cases r.buying <;> simp)]
    have howes : ∀ {H : DF} {ts : List Transaction} {y : ℚ}, Owes H (.fin p) ts (u : ℤ) y →
        (TradesLong H p ts r.user ∧ IsExternality H p ts r.user y) ∨
        (¬ TradesLong H p ts r.user ∧ y = 0) := by
      rintro H ts y (⟨p', hp, h1, h2⟩ | ⟨h1, h2⟩)
      · cases hp
        rw [hru]; exact Or.inl ⟨h1, h2⟩
      · rw [hru]; exact Or.inr ⟨h1 p rfl, h2⟩
    have key := half_truthful (half_nodup ht ids) (half_nodup ht' ids)
      (fun a ha => hq a (half_sub a ha)) hrH hrH' hlab' hru' hbuy
      (fun a ha hau => hs a (half_sub a ha) hau) (fun a ha hau => hs' a (half_sub a ha) hau)
      hoth hopp (half_vcg (half_nodup ht ids) (fun a ha => hq a (half_sub a ha)) ho r.buying)
      (half_vcg (half_nodup ht' ids) (fun a ha => hqq a (half_sub a ha)) ho' r.buying)
      (howes hw) (howes hw')
    rw [hlab] at key
    exact key

theorem set_quantity_nonneg {df : DF} (hq : ∀ r ∈ df, 0 ≤ r.quantity) {i : ℕ} {r' : Row}
    (hq' : 0 ≤ r'.quantity) : ∀ a ∈ df.set i r', 0 ≤ a.quantity := by
  intro a ha
  rcases List.mem_or_eq_of_mem_set ha with h | rfl
  · exact hq a h
  · exact hq'

/-- A bid trades at most its quantity. -/
theorem muda_tradedBy_le {S : Sorter} {coin : ℕ → Bool} {df : DF} (ht : IsTable df)
    (hq : ∀ r ∈ df, 0 ≤ r.quantity) {i : ℕ} {r r' : Row} (hi : df[i]? = some r)
    (hlab : r'.label = i) (hq' : 0 ≤ r'.quantity) {tm : TransactionManager}
    {left right : List ℕ} {pl pr : Val} {fees : List ℚ}
    (h : muda S coin (df.set i r') = .ok (tm, .muda left right pl pr fees)) :
    0 ≤ tradedBy tm.trans i ∧ tradedBy tm.trans i ≤ r'.quantity := by
  have ht' := isTable_set ht hlab
  have hlt : i < df.length := (List.getElem?_eq_some_iff.mp hi).1
  obtain ⟨_, _, _, hnd, hb⟩ := C25_balance S coin (df.set i r') ht' (set_quantity_nonneg hq hq') tm left
    right pl pr fees h
  by_cases hex : ∃ t ∈ tm.trans, t.bid = i
  · obtain ⟨t, htt, rfl⟩ := hex
    rw [tradedBy_nodup hnd htt]
    obtain ⟨_, h1, h2, _⟩ := hb t htt
    refine ⟨h1, h2.trans (le_of_eq ?_)⟩
    have hm : r' ∈ df.set t.bid r' := List.mem_of_getElem? (List.getElem?_set_self hlt)
    have := ht'.qty_eq hm
    rw [hlab] at this
    exact this
  · push Not at hex
    rw [tradedBy_not_mem hex]
    exact ⟨le_refl _, hq'⟩

/-- **C33.** A user whose only bid in the book is `r`, and to whom each of the `r.quantity` units is
worth `r.price`, reports `w` as price and `q` as quantity (at most what the user has) instead. For
every coin sequence and all other bids, the surplus minus the fee is not larger than with the
true report. -/
theorem C33_truthful (S : Sorter) (coin : ℕ → Bool) (df : DF) (ht : IsTable df)
    (hq : ∀ r ∈ df, 0 ≤ r.quantity) (hu : UsersInRange df) (i u : ℕ) (r : Row)
    (hi : df[i]? = some r) (hru : r.user = u) (hs : ∀ a ∈ df, a.user = r.user → a = r)
    (w q : ℚ) (hq0 : 0 ≤ q) (hqr : q ≤ r.quantity)
    (tm tm' : TransactionManager) (left right left' right' : List ℕ) (pl pr pl' pr' : Val)
    (fees fees' : List ℚ)
    (h : muda S coin df = .ok (tm, .muda left right pl pr fees))
    (h' : muda S coin (df.set i { r with price := w, quantity := q }) =
      .ok (tm', .muda left' right' pl' pr' fees')) (x x' : ℚ)
    (hx : fees[u]? = some x) (hx' : fees'[u]? = some x') :
    surplusOf df (priceOf df) u tm'.trans - x' ≤ surplusOf df (priceOf df) u tm.trans - x := by
  have hlab := ht.label hi
  obtain ⟨v, _, h2, h3, h4, h5⟩ := muda_truthful (r' := { r with price := w, quantity := q }) ht hq hu hi
    hru hs rfl rfl rfl hq0 h h' hx hx'
  have hs' : ∀ a ∈ df, a.user = (u : ℤ) → a = r := fun a ha hau => hs a ha (by rw [hau, hru])
  by_cases hv : ∃ p, v = .fin p
  · obtain ⟨p, rfl⟩ := hv
    have key := h5 p rfl
    rw [surplus_single hi hru hs' ht (p := p) (fun t htt hb => by have := h3 t htt hb; cases this; rfl),
      surplus_single hi hru hs' ht (p := p) (fun t htt hb => by have := h2 t htt hb; cases this; rfl)]
    have hle : tradedBy tm'.trans i ≤ r.quantity :=
      (muda_tradedBy_le (r' := { r with price := w, quantity := q }) ht hq hi hlab hq0 h').2.trans hqr
    rw [min_eq_left hle] at key
    exact key
  · push Not at hv
    obtain ⟨rfl, rfl⟩ := h4 hv
    have hz : ∀ {ts : List Transaction}, (∀ t ∈ ts, t.bid = i → v = .fin t.price) →
        surplusOf df (priceOf df) u ts = 0 := by
      intro ts hts
      have hno : ∀ t ∈ ts, t.bid ≠ i := fun t htt hb => hv _ (hts t htt hb)
      rw [surplus_single hi hru hs' ht (p := 0) (fun t htt hb => absurd hb (hno t htt)),
        tradedBy_not_mem hno, mul_zero]
    rw [hz h2, hz h3]

theorem ownedBy_single {df : DF} (ht : IsTable df) {i : ℕ} {u : ℤ} {r : Row} (hi : df[i]? = some r)
    (hru : r.user = u) (hs : ∀ a ∈ df, a.user = u → a = r) (k : ℕ) :
    ownedBy df u k = decide (k = i) := by
  unfold ownedBy
  by_cases hk : k = i
  · subst hk; rw [hi]; simp [hru]
  · cases hd : df[k]? with
    | none => simp [hk]
    | some a =>
      have : a.user ≠ u := by
        intro hc
        have := hs a (List.mem_of_getElem? hd) hc
        subst this
        exact hk ((ht.label hd).symm.trans (ht.label hi))
      simp [hk, this]

theorem paid_single {df : DF} {i : ℕ} {u : ℤ} {r : Row} (hi : df[i]? = some r) (hru : r.user = u)
    (hs : ∀ a ∈ df, a.user = u → a = r) (ht : IsTable df) (hb : r.buying = true)
    {ts : List Transaction} {p : ℚ} (hp : ∀ t ∈ ts, t.bid = i → t.price = p) :
    paid df (transOf df u ts) = p * tradedBy ts i := by
  have hbi : isBuy df i = true := by
    rw [← ht.label hi, ht.isBuy_eq (List.mem_of_getElem? hi)]; exact hb
  induction ts with
  | nil => simp [paid, transOf, tradedBy]
  | cons t ts ih =>
    have ih' := ih (fun t' h' => hp t' (List.mem_cons_of_mem _ h'))
    rw [show t :: ts = [t] ++ ts from rfl, tradedBy_append, mul_add, ← ih']
    by_cases hk : t.bid = i
    · have h1 : tradedBy [t] i = t.quantity := by simp [tradedBy, hk]
      rw [h1]
      simp [paid, transOf, ownedBy_single ht hi hru hs, hk, hbi, hp t List.mem_cons_self hk]
      ring
    · have h1 : tradedBy [t] i = 0 := by simp [tradedBy, hk]
      rw [h1]
      simp [paid, transOf, ownedBy_single ht hi hru hs, hk]

/-- **C33, reporting too much.** A buyer may also report a larger quantity than the units that are of
value: neither does this pay. -/
theorem C33_overreport (S : Sorter) (coin : ℕ → Bool) (df : DF) (ht : IsTable df) (hn : NonNeg df)
    (hu : UsersInRange df) (i u : ℕ) (r : Row)
    (hi : df[i]? = some r) (hru : r.user = u) (hs : ∀ a ∈ df, a.user = r.user → a = r)
    (hb : r.buying = true) (w q : ℚ) (hq0 : 0 ≤ q)
    (tm tm' : TransactionManager) (left right left' right' : List ℕ) (pl pr pl' pr' : Val)
    (fees fees' : List ℚ)
    (h : muda S coin df = .ok (tm, .muda left right pl pr fees))
    (h' : muda S coin (df.set i { r with price := w, quantity := q }) =
      .ok (tm', .muda left' right' pl' pr' fees')) (x x' : ℚ)
    (hx : fees[u]? = some x) (hx' : fees'[u]? = some x') :
    r.price * min (tradedBy tm'.trans i) r.quantity - paid df (transOf df u tm'.trans) - x' ≤
      surplusOf df (priceOf df) u tm.trans - x := by
  have hq : ∀ r ∈ df, 0 ≤ r.quantity := fun r hr => (hn r hr).1
  have hlab := ht.label hi
  have hrun := muda_run' ht h
  obtain ⟨v, h1, h2, h3, h4, h5⟩ := muda_truthful (r' := { r with price := w, quantity := q }) ht hq hu hi
    hru hs rfl rfl rfl hq0 h h' hx hx'
  have hs' : ∀ a ∈ df, a.user = (u : ℤ) → a = r := fun a ha hau => hs a ha (by rw [hau, hru])
  have ht0 := (muda_tradedBy_le (r' := { r with price := w, quantity := q }) ht hq hi hlab hq0 h').1
  by_cases hv : ∃ p, v = .fin p
  · obtain ⟨p, rfl⟩ := hv
    have hp0 : 0 ≤ p := by
      have aux : ∀ ids, findCompetitivePrice S (half df ids) = .ok (.fin p) → 0 ≤ p := by
        intro ids he
        obtain ⟨v, hv1, hv2⟩ := C10_competitive_price S (half df ids) (half_nonNeg hn ids)
        rw [he] at hv1
        cases hv1
        rcases hv2 with ⟨_, p', _, e, h0, _⟩ | ⟨e, _⟩
        · cases e; exact h0
        · cases e
      rcases h1 with ⟨e, _⟩ | ⟨e, _⟩
      · exact aux right (e ▸ hrun.priceRight)
      · exact aux left (e ▸ hrun.priceLeft)
    have key := h5 p rfl
    rw [surplus_single hi hru hs' ht (p := p) (fun t htt hb => by have := h2 t htt hb; cases this; rfl),
      paid_single hi hru hs' ht hb (p := p) (fun t htt hb => by have := h3 t htt hb; cases this; rfl)]
    have e : unitGain p r = r.price - p := by unfold unitGain; rw [hb]; rfl
    rw [e] at key ⊢
    have hm := mul_le_mul_of_nonneg_left (min_le_left (tradedBy tm'.trans i) r.quantity) hp0
    linarith
  · push Not at hv
    obtain ⟨rfl, rfl⟩ := h4 hv
    have hno : ∀ t ∈ tm.trans, t.bid ≠ i := fun t htt hb => hv _ (h2 t htt hb)
    have hno' : ∀ t ∈ tm'.trans, t.bid ≠ i := fun t htt hb => hv _ (h3 t htt hb)
    rw [surplus_single hi hru hs' ht (p := 0) (fun t htt hb => absurd hb (hno t htt)),
      paid_single hi hru hs' ht hb (p := 0) (fun t htt hb => absurd hb (hno' t htt)),
      tradedBy_not_mem hno, tradedBy_not_mem hno', min_eq_left (hq r (List.mem_of_getElem? hi))]
    simp

/-- A book in which user 0 has one bid (bid 0, left half, long side): with the true report it buys 2
units at 7/2 and pays a fee of 11, keeping 2; reporting a price of 17/2 it is second behind bid 5 and gets
nothing. -/
example : (∀ a ∈ mudaBook, a.user = 0 → a = ⟨⟨2, 10, 0, true, 0, true⟩, 0⟩) ∧
    surplusOf mudaBook (priceOf mudaBook) 0 mudaTrans - 11 = 2 ∧
    muda stableSorter mudaCoin (mudaBook.set 0 ⟨⟨2, 17 / 2, 0, true, 0, true⟩, 0⟩) = .ok
      (⟨4, [⟨3, 2, 7 / 2, -1, false⟩, ⟨5, 2, 7 / 2, -1, false⟩, ⟨6, 1, 6, -1, false⟩,
        ⟨9, 1, 6, -1, false⟩]⟩, .muda [0, 1, 2, 3, 5, 7] [4, 6, 8, 9] (.fin 6)
          (.fin (7 / 2)) [0, 0, 0, 3, 0, 10, 0, 0]) := by
  decide +kernel

/-! ## Users with several bids -/

/-- Truthfulness for all users: no user can gain by changing the price of one of the user's bids. -/
def Spec.TruthfulForAll (S : Sorter) (coin : ℕ → Bool) (df : DF) : Prop :=
  ∀ (i : ℕ) (r : Row) (u : ℕ) (w : ℚ), df[i]? = some r → r.user = u → 0 ≤ w →
    ∀ tm tm' left right left' right' pl pr pl' pr' fees fees' (x x' : ℚ),
    muda S coin df = .ok (tm, .muda left right pl pr fees) →
    muda S coin (df.set i { r with price := w }) = .ok (tm', .muda left' right' pl' pr' fees') →
    fees[u]? = some x → fees'[u]? = some x' →
    surplusOf df (priceOf df) u tm'.trans - x' ≤ surplusOf df (priceOf df) u tm.trans - x

/-- User 0 buys one unit in each half. -/
def twoHalves : DF :=
  [⟨⟨1, 10, 0, true, 0, true⟩, 0⟩, ⟨⟨1, 2, 1, false, 0, true⟩, 1⟩,
   ⟨⟨1, 11, 0, true, 0, true⟩, 2⟩, ⟨⟨1, 1, 2, false, 0, true⟩, 3⟩]

/-- **C33, several bids.** Truthfulness does not extend to users with several bids: user 0 of
`twoHalves` lowers the price of the right half, where bid 2 buys, by reporting 7 instead of 10 for
bid 0 in the left half. -/
theorem C33_several_bids : IsTable twoHalves ∧ NonNeg twoHalves ∧ UsersInRange twoHalves ∧
    ¬ TruthfulForAll stableSorter (fun i => decide (i < 2)) twoHalves := by
  refine ⟨by decide +kernel, by decide +kernel, by decide +kernel, fun hall => ?_⟩
  have h1 : muda stableSorter (fun i => decide (i < 2)) twoHalves = .ok
      (⟨4, [⟨1, 1, 6, -1, false⟩, ⟨0, 1, 6, -1, false⟩, ⟨3, 1, 6, -1, false⟩, ⟨2, 1, 6, -1, false⟩]⟩,
        .muda [0, 1] [2, 3] (.fin 6) (.fin 6) [0, 0, 0]) := by decide +kernel
  have h2 : muda stableSorter (fun i => decide (i < 2))
      (twoHalves.set 0 ⟨⟨1, 7, 0, true, 0, true⟩, 0⟩) = .ok
      (⟨4, [⟨1, 1, 6, -1, false⟩, ⟨0, 1, 6, -1, false⟩, ⟨3, 1, 9 / 2, -1, false⟩,
        ⟨2, 1, 9 / 2, -1, false⟩]⟩,
        .muda [0, 1] [2, 3] (.fin (9 / 2)) (.fin 6) [0, 0, 0]) := by decide +kernel
  have h3 := hall 0 ⟨⟨1, 10, 0, true, 0, true⟩, 0⟩ 0 7 (by decide +kernel) rfl (by norm_num)
    _ _ _ _ _ _ _ _ _ _ _ _ 0 0 h1 h2 rfl rfl
  have h4 : ¬ (surplusOf twoHalves (priceOf twoHalves) 0
      [⟨1, 1, 6, -1, false⟩, ⟨0, 1, 6, -1, false⟩, ⟨3, 1, 9 / 2, -1, false⟩, ⟨2, 1, 9 / 2, -1, false⟩] - 0 ≤
      surplusOf twoHalves (priceOf twoHalves) 0
      [⟨1, 1, 6, -1, false⟩, ⟨0, 1, 6, -1, false⟩, ⟨3, 1, 6, -1, false⟩, ⟨2, 1, 6, -1, false⟩] - 0) := by
    decide +kernel
  exact h4 h3

end PyMarket
