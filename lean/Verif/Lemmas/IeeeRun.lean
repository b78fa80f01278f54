import Verif.Lemmas.IeeeMuda
import Verif.Lemmas.FloatSplit

/-! # Runs of mechanisms and the bounded exponent -/

set_option autoImplicit false

namespace PyMarket

open Spec

variable {A : Arith}

theorem Moderate.bd {x : ℚ} (h : Moderate x) : Bd 200 200 1 x := ⟨h.1, by simpa using h.2⟩

theorem ModerateBook.bookBd {df : DF} (h : ModerateBook df) : BookBd df :=
  ⟨h.1, fun r hr => (Moderate.bd (h.2 r hr).1).mono le_rfl (by norm_num) le_rfl,
    fun r hr => (Moderate.bd (h.2 r hr).2).mono le_rfl (by norm_num) le_rfl⟩

/-! ## Merging -/

theorem ten_bd : Bd 0 17 1 ((10 : ℚ) ^ 5) :=
  ⟨⟨100000, by norm_num⟩, by norm_num⟩

theorem rint_bd {m : ℕ} {x : ℚ} (h : |x| ≤ 2 ^ m) : Bd 0 m 1 (rint x : ℚ) := by
  refine ⟨by simpa using Grid.int 0 (rint x), ?_⟩
  rw [abs_le] at h
  rw [Nat.cast_one, one_mul, abs_le]
  constructor
  · have := int_le_rint (x := x) (n := -(2 ^ m)) (by push_cast; exact h.1)
    exact_mod_cast this
  · have := rint_le_int (x := x) (n := 2 ^ m) (by push_cast; exact h.2)
    exact_mod_cast this

theorem npRoundF_bin (hA : IsIeee A) {x : ℚ} (hx : Bd 200 200 1 x) :
    npRoundF A 5 x = npRoundF float64 5 x ∧ Bd 200 260 1 (npRoundF float64 5 x) := by
  have h1 : Bd 200 217 1 (x * 10 ^ 5) := by simpa using hx.mul ten_bd
  have h2 : Bd 0 217 1 (rint (float64.rnd (x * 10 ^ 5)) : ℚ) :=
    rint_bd (by simpa using (h1.rnd (by norm_num)).le)
  obtain ⟨h3, h4⟩ := h2.div_rnd ten_bd 0 0 (by norm_num) (by norm_num) (by norm_num) (by norm_num)
  unfold npRoundF
  rw [hA.rnd (h1.safe (by norm_num) (by norm_num) (by norm_num)), hA.rnd h3]
  exact ⟨rfl, h4.mono (by norm_num) (by norm_num) le_rfl⟩

theorem groupRowsF_bin (hA : IsIeee A) {df : DF} (hp : ∀ r ∈ df, Bd 200 200 1 r.price) (key : ℚ) :
    groupRowsF A 5 df key = groupRowsF float64 5 df key := by
  unfold groupRowsF
  apply List.filter_congr
  intro r hr
  rw [(npRoundF_bin hA (hp r hr)).1]

theorem groupKeysF_bin (hA : IsIeee A) {df : DF} (hp : ∀ r ∈ df, Bd 200 200 1 r.price) :
    groupKeysF A 5 df = groupKeysF float64 5 df := by
  unfold groupKeysF
  have : df.map (fun r => npRoundF A 5 r.price) = df.map (fun r => npRoundF float64 5 r.price) :=
    List.map_congr_left (fun r hr => (npRoundF_bin hA (hp r hr)).1)
  rw [this]

theorem aggSideF_bin (hA : IsIeee A) (g : Summer A) (smp : Sampler) (side : Bool) {df : DF}
    (hlen : df.length ≤ 2 ^ 50) (hp : ∀ r ∈ df, Bd 200 200 1 r.price)
    (hq : ∀ r ∈ df, Bd 200 200 1 r.quantity) (keys : List ℚ) (index : ℤ) :
    aggSideF A g smp 5 side df keys index = aggSideF float64 g.toBin smp 5 side df keys index := by
  induction keys generalizing index with
  | nil => rfl
  | cons key keys ih =>
    have h1 : aggGroupF A g smp side key (groupRowsF A 5 df key) index =
        aggGroupF float64 g.toBin smp side key (groupRowsF float64 5 df key) index := by
      have hmem : ∀ r ∈ groupRowsF float64 5 df key, r ∈ df := fun r hr => (List.mem_filter.mp hr).1
      have hl : (groupRowsF float64 5 df key).length ≤ 2 ^ 50 := (List.length_filter_le _ _).trans hlen
      rw [groupRowsF_bin hA hp]
      unfold aggGroupF
      rw [g.toBin_sum hA (e := 200) (m := 200) (by norm_num) (by norm_num) (qty_bd (fun r hr => hq r (hmem r hr)))
        (by rw [List.length_map]; omega)]
    simp only [aggSideF, h1, ih]

theorem mergeSamePriceF_bin (hA : IsIeee A) (g : Summer A) (smp : Sampler) {df : DF} (hb : ModerateBook df) :
    mergeSamePriceF A g smp df = mergeSamePriceF float64 g.toBin smp df := by
  have hp : ∀ r ∈ df, Bd 200 200 1 r.price := fun r h => Moderate.bd (hb.2 r h).1
  have hq : ∀ r ∈ df, Bd 200 200 1 r.quantity := fun r h => Moderate.bd (hb.2 r h).2
  have mb : ∀ r ∈ buys df, r ∈ df := fun r h => (mem_buys.mp h).1
  have ms : ∀ r ∈ sells df, r ∈ df := fun r h => (mem_sells.mp h).1
  have hb1 : (buys df).length ≤ 2 ^ 50 := (List.length_filter_le _ _).trans hb.1
  have hs1 : (sells df).length ≤ 2 ^ 50 := (List.length_filter_le _ _).trans hb.1
  have e1 := aggSideF_bin hA g smp true hb1 (fun r h => hp r (mb r h)) (fun r h => hq r (mb r h))
  have e2 := aggSideF_bin hA g smp false hs1 (fun r h => hp r (ms r h)) (fun r h => hq r (ms r h))
  unfold mergeSamePriceF
  simp only [groupKeysF_bin hA (fun r h => hp r (mb r h)), groupKeysF_bin hA (fun r h => hp r (ms r h)), e1, e2]

theorem merged_bookBd (hA : IsIeee A) {df nb : DF} {mp : List (List ℕ)} (h : MergeSpecF float64 5 df nb mp)
    (hb : ModerateBook df) : BookBd nb := by
  have hrow : ∀ row ∈ nb, Bd 200 260 1 row.price ∧ Bd 200 260 1 row.quantity := by
    intro row hrow
    obtain ⟨k, hk⟩ := List.getElem?_of_mem hrow
    obtain ⟨_, ids, h1, h2⟩ := h.get (List.getElem?_eq_some_iff.mp hk).1
    obtain ⟨g1, g2, g3⟩ := h.group k row ids hk h2
    constructor
    · obtain ⟨i, hi⟩ := List.exists_mem_of_ne_nil _ g1
      obtain ⟨r, hr, _, hp⟩ := (g3 i).mp hi
      rw [← hp]
      exact (npRoundF_bin hA (Moderate.bd (hb.2 r (List.mem_of_getElem? hr)).1)).2
    · have hl := (h.ids_length h2).trans hb.1
      have := g2.bd (e := 200) (m := 200) (by
        intro x hx
        obtain ⟨i, hi, rfl⟩ := List.mem_map.mp hx
        obtain ⟨r, hr, _⟩ := (g3 i).mp hi
        rw [qtyOf_some hr]
        exact Moderate.bd (hb.2 r (List.mem_of_getElem? hr)).2) (by rw [List.length_map]; omega)
      rw [List.length_map] at this
      exact (this.lift 50 hl).mono le_rfl (by norm_num) le_rfl
  exact ⟨h.length_le.trans hb.1, fun r hr => (hrow r hr).1, fun r hr => (hrow r hr).2⟩

/-! ## Splitting -/

theorem splitOneF_bin (hA : IsIeee A) (s : Summer A) {df nb : DF} {mp : List (List ℕ)}
    (h : MergeSpecF float64 5 df nb mp) (hb : ModerateBook df) {t : Transaction} (ht : Bd 302 320 1 t.quantity) :
    splitOneF A s df mp t = splitOneF float64 s.toBin df mp t := by
  unfold splitOneF
  cases hm : mp[t.bid]? with
  | none => rfl
  | some ids =>
    simp only
    have hq : ∀ r ∈ ids.filterMap (fun i => df[i]?), Bd 200 200 1 r.quantity := by
      intro r hr
      obtain ⟨i, _, hi⟩ := List.mem_filterMap.mp hr
      exact Moderate.bd (hb.2 r (List.mem_of_getElem? hi)).2
    have hl : ((ids.filterMap (fun i => df[i]?)).map (fun r => r.quantity)).length ≤ 2 ^ 50 := by
      rw [List.length_map]
      exact (List.length_filterMap_le _ _).trans ((h.ids_length hm).trans hb.1)
    rw [s.toBin_sum hA (by norm_num) (by norm_num) (qty_bd hq) (hl.trans (by norm_num))]
    have htot := (s.toBin.isSum _).bd (qty_bd hq) (hl.trans (by norm_num))
    generalize s.toBin.sum ((ids.filterMap (fun i => df[i]?)).map (fun r => r.quantity)) = T at htot ⊢
    have e : (List.zip ids (ids.filterMap (fun i => df[i]?))).map (fun p =>
          ({ t with bid := p.1, quantity := A.rnd (t.quantity * A.rnd (p.2.quantity / T)) } : Transaction)) =
        (List.zip ids (ids.filterMap (fun i => df[i]?))).map (fun p =>
          ({ t with bid := p.1, quantity := float64.rnd (t.quantity * float64.rnd (p.2.quantity / T)) } :
            Transaction)) := by
      apply List.map_congr_left
      intro p hp
      obtain ⟨d1, d2⟩ := (hq p.2 (List.of_mem_zip hp).2).div_rnd htot 0 50 (by norm_num) hl (by norm_num)
        (by norm_num)
      have h3 := ht.mul d2
      rw [hA.rnd d1, hA.rnd (h3.safe (by norm_num) (by norm_num) (by norm_num))]
    rw [e]

theorem splitTransactionsF_bin (hA : IsIeee A) (s : Summer A) {df nb : DF} {mp : List (List ℕ)}
    (h : MergeSpecF float64 5 df nb mp) (hb : ModerateBook df) {tm : TransactionManager}
    (ht : ∀ t ∈ tm.trans, Bd 302 320 1 t.quantity) :
    splitTransactionsF A s tm df mp = splitTransactionsF float64 s.toBin tm df mp := by
  have : ∀ ts : List Transaction, (∀ t ∈ ts, Bd 302 320 1 t.quantity) →
      splitAllF A s df mp ts = splitAllF float64 s.toBin df mp ts := by
    intro ts
    induction ts with
    | nil => intro _; rfl
    | cons t ts ih =>
      intro hts
      simp only [splitAllF, splitOneF_bin hA s h hb (hts t List.mem_cons_self),
        ih (fun t h => hts t (List.mem_cons_of_mem _ h))]
  unfold splitTransactionsF
  rw [this tm.getDf ht]

/-! ## Runs -/

/-- What a mechanism needs to satisfy on the book it gets. -/
def BinAlgo (algo algo' : Algo) (df : DF) : Prop :=
  algo df = algo' df ∧ ∀ tm x, algo' df = .ok (tm, x) → ∀ t ∈ tm.trans, Bd 302 320 1 t.quantity

theorem BinAlgo.mechRun {algo algo' : Algo} {df : DF} (h : BinAlgo algo algo' df) :
    BinAlgo (mechRun algo) (mechRun algo') df := by
  unfold BinAlgo PyMarket.mechRun
  simp only
  split
  · exact h
  · exact ⟨rfl, fun _ _ h => by cases h; simp [TransactionManager.init]⟩

theorem mechanismF_bin (hA : IsIeee A) (s g : Summer A) (smp : Sampler) (merge : Bool) {algo algo' : Algo} {df : DF}
    (ht : IsTable df) (hb : ModerateBook df) (hq : ∀ r ∈ df, 0 ≤ r.quantity)
    (halgo : ∀ nb, IsTable nb → BookBd nb → (∀ r ∈ nb, 0 ≤ r.quantity) → BinAlgo algo algo' nb) :
    mechanismF A s g smp merge algo df = mechanismF float64 s.toBin g.toBin smp merge algo' df := by
  unfold mechanismF
  cases merge with
  | false => exact (halgo df ht (ModerateBook.bookBd hb) hq).mechRun.1
  | true =>
    simp only [if_true]
    rw [mergeSamePriceF_bin hA g smp hb]
    obtain ⟨nb, mp, h1, h2⟩ := mergeF_spec float64 g.toBin smp 5 ht
    rw [h1]
    simp only [bind, Except.bind]
    have hnb : ∀ r ∈ nb, 0 ≤ r.quantity := by
      intro row hrow
      obtain ⟨k, hk⟩ := List.getElem?_of_mem hrow
      obtain ⟨_, ids, _, hid⟩ := h2.get (List.getElem?_eq_some_iff.mp hk).1
      obtain ⟨_, g2, g3⟩ := h2.group k row ids hk hid
      refine g2.nonneg ?_
      intro x hx
      obtain ⟨i, hi, rfl⟩ := List.mem_map.mp hx
      obtain ⟨r, hr, _⟩ := (g3 i).mp hi
      rw [qtyOf_some hr]
      exact hq r (List.mem_of_getElem? hr)
    obtain ⟨a1, a2⟩ := (halgo nb h2.table (merged_bookBd hA h2 hb) hnb).mechRun
    rw [a1]
    cases h3 : PyMarket.mechRun algo' nb with
    | error e => rfl
    | ok r =>
      obtain ⟨tm, x⟩ := r
      simp only
      rw [splitTransactionsF_bin hA s h2 hb (a2 tm x h3)]

theorem runAlgoF_bin (hA : IsIeee A) (s g o : Summer A) (S : Sorter) (smp : Sampler) {call : AlgoCall} {df : DF}
    (ht : IsTable df) (hb : ModerateBook df) (hq : ∀ r ∈ df, 0 ≤ r.quantity) (hc : ∀ merge c choice, call = .p2p merge c choice → Moderate c) :
    runAlgoF A s g o S smp call df = runAlgoF float64 s.toBin g.toBin o.toBin S smp call df := by
  cases call with
  | huang => exact mechanismF_bin hA s g smp true ht hb hq (fun nb _ h _ => huangAuctionF_bin hA s S h)
  | muda merge coin => exact mechanismF_bin hA s g smp merge ht hb hq (fun nb _ h _ => mudaF_bin hA s o S coin h)
  | p2p merge c choice =>
    exact mechanismF_bin hA s g smp merge ht hb hq
      (fun nb h1 h2 h3 => p2pRandomF_bin hA s h1 h2 h3 (Moderate.bd (hc merge c choice rfl)) choice)
  | other n => rfl

end PyMarket
