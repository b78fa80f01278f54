import Verif.Lemmas.Phantom
import Verif.Props.Muda

/-! # C111: bids of quantity 0

A bid of quantity 0 offers nothing. Such bids change neither the trades of Huang's auction nor a competitive
price that exists without them; but where there is none, they make one, and MUDA trades at it. -/

set_option autoImplicit false

namespace PyMarket

open Spec

theorem competitive_of_crossing {S : Sorter} {df : DF} (hn : NonNeg df) {x : ℚ} (hc : Crossing S df x) :
    findCompetitivePrice S df = .ok (crossPrice S df (1 / 2) x) := by
  rcases intersect_cases S hn (1 / 2) with ⟨y, hc', he⟩ | ⟨_, hno⟩
  · obtain rfl : y = x := hc'.unique hc
    unfold findCompetitivePrice
    simp only [he, bind, Except.bind]
  · exfalso
    apply hno
    exact ⟨⟨x, WithTop.coe_le_coe.mpr hc.nonneg, hc.at_x⟩, fun z _ => hc.no_tie hn z⟩

theorem competitive_cases (S : Sorter) {df : DF} (hn : NonNeg df) :
    (∃ x, Crossing S df x) ∨ findCompetitivePrice S df = .ok .inf := by
  rcases intersect_cases S hn (1 / 2) with ⟨y, hc', he⟩ | ⟨he, _⟩
  · exact Or.inl ⟨y, hc'⟩
  · right
    unfold findCompetitivePrice
    simp only [he, bind, Except.bind]
    decide +kernel

/-- **C111, the price.** A competitive price that exists without the bids of quantity 0 is not changed by
them. -/
theorem C111_price (S : Sorter) (df zs : DF) (h : Phantoms df zs) (p : ℚ)
    (hp : findCompetitivePrice S df = .ok (.fin p)) :
    findCompetitivePrice S (df ++ zs) = .ok (.fin p) := by
  rcases competitive_cases S h.nonNeg with ⟨x, hc⟩ | he
  swap
  · rw [he] at hp; cases hp
  have hx := h.crossing_pos hc
  have hx' : ((0 : ℚ) : Ext) < (x : Ext) := WithTop.coe_lt_coe.mpr hx
  rw [competitive_of_crossing h.nonNeg' ((h.crossing_iff S hx).mp hc), ← hp,
    competitive_of_crossing h.nonNeg hc]
  unfold crossPrice
  simp only [(h.grid_eq S hx').1, (h.grid_eq S hx').2, h.demandAt_eq S hx', h.supplyAt_eq S hx']

private theorem first_desc {rows : DF} {e x : Ext} (hx : x = ((0 : ℚ) : Ext))
    (hq : ∀ r ∈ rows, 0 ≤ r.quantity) :
    (rows = [] ∧ stepVal x 0 rows e = e) ∨ ∃ b rest, rows = b :: rest ∧
      stepVal x 0 rows e = ((b.price : ℚ) : Ext) ∧
      (x ∈ (stepCurve 0 rows e).map Prod.fst ↔ b.quantity = 0) := by
  subst hx
  cases rows with
  | nil => exact Or.inl ⟨rfl, rfl⟩
  | cons b rest =>
    right
    refine ⟨b, rest, rfl, ?_, ?_⟩
    · rw [stepVal, if_pos]
      rw [zero_add]
      exact WithTop.coe_le_coe.mpr (hq b List.mem_cons_self)
    · constructor
      · intro hm
        by_contra hne
        have hb := lt_of_le_of_ne (hq b List.mem_cons_self) (Ne.symm hne)
        obtain ⟨s, hs, hs'⟩ := List.mem_map.mp hm
        rw [stepCurve, zero_add] at hs
        rcases List.mem_cons.mp hs with rfl | hs
        · exact hb.ne' (WithTop.coe_injective hs')
        · have h1 := stepCurve_fst_ge (fun r hr => hq r (List.mem_cons_of_mem _ hr)) hs
          rw [hs'] at h1
          exact absurd (WithTop.coe_le_coe.mp h1) (not_le.mpr hb)
      · intro h0
        rw [stepCurve, List.map_cons, h0, add_zero]
        exact List.mem_cons_self

/-- **C111, where there is no price.** If there is no competitive price without the bids of quantity 0 and
one with them, then it is made by the best buying bid `b` and the best selling bid `s` alone, one of which
has the quantity 0: it is the price of the other one, or the mean if both have the quantity 0. -/
theorem C111_made (S : Sorter) (df zs : DF) (h : Phantoms df zs) (p : ℚ)
    (hno : findCompetitivePrice S df = .ok .inf)
    (hp : findCompetitivePrice S (df ++ zs) = .ok (.fin p)) :
    ∃ b ∈ df ++ zs, ∃ s ∈ df ++ zs, b.buying = true ∧ s.buying = false ∧ s.price < b.price ∧
      (∀ r ∈ df ++ zs, r.buying = true → r.price ≤ b.price) ∧
      (∀ r ∈ df ++ zs, r.buying = false → s.price ≤ r.price) ∧
      (b.quantity = 0 ∨ s.quantity = 0) ∧
      (b.quantity = 0 → s.quantity ≠ 0 → p = s.price) ∧
      (b.quantity ≠ 0 → s.quantity = 0 → p = b.price) ∧
      (b.quantity = 0 → s.quantity = 0 → p = (b.price + s.price) / 2) := by
  rcases competitive_cases S h.nonNeg' with ⟨x, hc⟩ | he
  swap
  · rw [he] at hp; cases hp
  have hx : x = 0 := by
    by_contra hne
    have hpos := lt_of_le_of_ne hc.nonneg (Ne.symm hne)
    have hc' := (h.crossing_iff S hpos).mpr hc
    rw [competitive_of_crossing h.nonNeg hc'] at hno
    obtain ⟨s, hs⟩ := hc'.supply_fin
    obtain ⟨d, hd⟩ := demand_fin S df x
    unfold crossPrice at hno
    rw [hs, hd] at hno
    revert hno
    split_ifs <;> intro hno <;> cases hno
  subst hx
  rw [competitive_of_crossing h.nonNeg' hc] at hp
  have hat := hc.at_x
  have hmem := hc.mem
  rw [demandCurve_eq, supplyCurve_eq] at hmem
  unfold crossPrice at hp
  rw [demandCurve_eq, supplyCurve_eq] at hp
  have hD := demandAt_nonneg S (fun r hr => (h.nonNeg' r hr).2) ((0 : ℚ) : Ext)
  have hS := supplyAt_nonneg S (fun r hr => (h.nonNeg' r hr).2) ((0 : ℚ) : Ext)
  have sB := sortDesc_sorted S (buys (df ++ zs))
  have sA := sortAsc_sorted S (sells (df ++ zs))
  have mB : ∀ r, r ∈ sortDesc S (buys (df ++ zs)) ↔ r ∈ df ++ zs ∧ r.buying = true :=
    fun r => mem_sortDesc.trans mem_buys
  have mA : ∀ r, r ∈ sortAsc S (sells (df ++ zs)) ↔ r ∈ df ++ zs ∧ r.buying = false :=
    fun r => mem_sortAsc.trans mem_sells
  unfold demandAt at hat hp hD
  unfold supplyAt at hat hp hS
  rcases first_desc (x := ((0 : ℚ) : Ext)) (e := ((0 : ℚ) : Ext)) rfl
    (fun r hr => (h.nonNeg' r ((mB r).mp hr).1).1) with ⟨_, h1⟩ | ⟨b, rb, eB, h1, h2⟩
  · rw [h1] at hat
    exact absurd hat (not_lt.mpr hS)
  rcases first_desc (x := ((0 : ℚ) : Ext)) (e := (⊤ : Ext)) rfl
    (fun r hr => (h.nonNeg' r ((mA r).mp hr).1).1) with ⟨_, h3⟩ | ⟨s, rs, eA, h3, h4⟩
  · rw [h3] at hat
    exact absurd hat not_top_lt
  rw [h1, h3] at hat hp
  rw [h2, h4] at hmem
  simp only [h2, h4] at hp
  rw [eB] at sB mB
  rw [eA] at sA mA
  rw [List.pairwise_cons] at sB sA
  have hb := (mB b).mp List.mem_cons_self
  have hs := (mA s).mp List.mem_cons_self
  refine ⟨b, hb.1, s, hs.1, hb.2, hs.2, WithTop.coe_lt_coe.mp hat, ?_, ?_, hmem, ?_, ?_, ?_⟩
  · intro r hr hbr
    rcases List.mem_cons.mp ((mB r).mpr ⟨hr, hbr⟩) with rfl | h'
    · exact le_refl _
    · exact sB.1 r h'
  · intro r hr hbr
    rcases List.mem_cons.mp ((mA r).mpr ⟨hr, hbr⟩) with rfl | h'
    · exact le_refl _
    · exact sA.1 r h'
  · intro e1 e2
    rw [if_neg (fun h' => e2 h'.2), if_pos e1] at hp
    cases hp; rfl
  · intro e1 e2
    rw [if_neg (fun h' => e1 h'.1), if_neg e1] at hp
    cases hp; rfl
  · intro e1 e2
    rw [if_pos ⟨e1, e2⟩] at hp
    have : Val.fin (1 / 2 * s.price + (1 - 1 / 2) * b.price) = Val.fin p := Except.ok.inj hp
    cases this
    ring

private theorem tradedBy_none {ts : List Transaction} {i : ℕ} (h : ∀ t ∈ ts, t.bid ≠ i) :
    tradedBy ts i = 0 := by
  unfold tradedBy
  rw [List.filter_eq_nil_iff.mpr]
  · rfl
  · intro t ht
    simpa using h t ht

/-- **C111, Huang's auction.** Bids of quantity 0 get nothing, the others trade what they would trade
without them, at the same prices. -/
theorem C111_huang (S : Sorter) (df zs : DF) (h : Phantoms df zs) (tm tm' : TransactionManager)
    (ex ex' : Extra) (he : huangAuction S df = .ok (tm, ex))
    (he' : huangAuction S (df ++ zs) = .ok (tm', ex')) :
    (∀ i, tradedBy tm'.trans i = tradedBy tm.trans i) ∧
    ∀ t ∈ tm.trans, ∃ t' ∈ tm'.trans, t'.bid = t.bid ∧ t'.price = t.price := by
  have hn := h.nonNeg
  have hn' := h.nonNeg'
  have ht := h.table_df
  have ht' := h.table
  have hget : ∀ {i : ℕ} {r : Row}, df[i]? = some r → (df ++ zs)[i]? = some r := by
    intro i r hi
    rw [List.getElem?_append_left (List.getElem?_eq_some_iff.mp hi).1, hi]
  -- crossings with bids in front are at positive quantities
  have hpos : ∀ {r : Row} {x ps pb cs cb : ℚ}, HuangWin S (df ++ zs) r x ps pb cs cb → 0 < x := by
    intro r x ps pb cs cb hw
    refine lt_of_le_of_ne hw.cross.nonneg (fun h0 => hw.buyers ?_)
    subst h0
    unfold huangB demandIdx
    rw [stepIdx_zero, List.take_zero]
    intro r hr
    exact (hn' r (mem_buys.mp (mem_sortDesc.mp hr)).1).1
  have zB : ∀ x : ℚ, ∀ r ∈ huangB S (df ++ zs) x, decide (r.label < df.length) = false →
      r.quantity = 0 := fun x r hr => h.zero_desc S r (List.mem_of_mem_take hr)
  have zA : ∀ x : ℚ, ∀ r ∈ huangA S (df ++ zs) x, decide (r.label < df.length) = false →
      r.quantity = 0 := fun x r hr => h.zero_asc S r (List.mem_of_mem_take hr)
  have sumB : ∀ {x : ℚ}, 0 < x → ∀ f : ℚ → ℚ, f 0 = 0 →
      ((huangB S df x).map (fun r => f r.quantity)).sum =
        ((huangB S (df ++ zs) x).map (fun r => f r.quantity)).sum := by
    intro x hx f hf
    rw [← h.huangB_eq S hx]
    exact qsum_phantom (zB x) f hf
  have sumA : ∀ {x : ℚ}, 0 < x → ∀ f : ℚ → ℚ, f 0 = 0 →
      ((huangA S df x).map (fun r => f r.quantity)).sum =
        ((huangA S (df ++ zs) x).map (fun r => f r.quantity)).sum := by
    intro x hx f hf
    rw [← h.huangA_eq S hx]
    exact qsum_phantom (zA x) f hf
  have inB : ∀ {x : ℚ} {r : Row}, 0 < x → r ∈ df → (r ∈ huangB S df x ↔ r ∈ huangB S (df ++ zs) x) := by
    intro x r hx hr
    rw [← h.huangB_eq S hx, List.mem_filter, (h.mem_live (List.mem_append_left _ hr)).mpr hr]
    simp
  have inA : ∀ {x : ℚ} {r : Row}, 0 < x → r ∈ df → (r ∈ huangA S df x ↔ r ∈ huangA S (df ++ zs) x) := by
    intro x r hx hr
    rw [← h.huangA_eq S hx, List.mem_filter, (h.mem_live (List.mem_append_left _ hr)).mpr hr]
    simp
  have subB : ∀ {x : ℚ}, 0 < x → ∀ r ∈ huangB S df x, r ∈ huangB S (df ++ zs) x := by
    intro x hx r hr
    rw [← h.huangB_eq S hx] at hr
    exact (List.mem_filter.mp hr).1
  have subA : ∀ {x : ℚ}, 0 < x → ∀ r ∈ huangA S df x, r ∈ huangA S (df ++ zs) x := by
    intro x hx r hr
    rw [← h.huangA_eq S hx] at hr
    exact (List.mem_filter.mp hr).1
  -- whoever is in the log without them is in the log with them, at the same price
  have keep : ∀ {i : ℕ} {r : Row} {x ps pb cs cb : ℚ}, df[i]? = some r →
      HuangWin S df r x ps pb cs cb → ∃ t' ∈ tm'.trans, t'.bid = i := by
    intro i r x ps pb cs cb hi hw
    have hx := h.crossing_pos hw.cross
    have hc' := (h.crossing_iff S hx).mp hw.cross
    obtain ⟨a, ha⟩ := List.exists_mem_of_ne_nil _ hw.sellers
    obtain ⟨b, hb⟩ := List.exists_mem_of_ne_nil _ hw.buyers
    have := huang_wins S hn' he' hc' (List.ne_nil_of_mem (subA hx a ha))
      (List.ne_nil_of_mem (subB hx b hb)) (r := r)
      (hw.mem.imp (subA hx r) (subB hx r))
    rwa [ht.label hi] at this
  have both : ∀ {r : Row} {x ps pb cs cb x' ps' pb' cs' cb' : ℚ},
      HuangWin S df r x ps pb cs cb → HuangWin S (df ++ zs) r x' ps' pb' cs' cb' →
      0 < x ∧ x' = x ∧ ps' = ps ∧ pb' = pb := by
    intro r x ps pb cs cb x' ps' pb' cs' cb' hw hw'
    have hx := h.crossing_pos hw.cross
    have hx1 : ((0 : ℚ) : Ext) < (x : Ext) := WithTop.coe_lt_coe.mpr hx
    obtain rfl : x' = x := hw'.cross.unique ((h.crossing_iff S hx).mp hw.cross)
    refine ⟨hx, rfl, ?_, ?_⟩
    · have := hw'.supply
      rw [← h.supplyAt_eq S hx1, hw.supply] at this
      exact (WithTop.coe_injective this).symm
    · have := hw'.demand
      rw [← h.demandAt_eq S hx1, hw.demand] at this
      exact (WithTop.coe_injective this).symm
  refine ⟨?_, ?_⟩
  · intro i
    cases hi : df[i]? with
    | none =>
      have h0 : tradedBy tm.trans i = 0 := by
        apply tradedBy_none
        intro t htm hb
        rcases huang_direct S ht hn with h' | ⟨tm0, ps, pb, q, h', hO, -⟩
        · rw [he] at h'; cases h'; cases htm
        · rw [he] at h'; cases h'
          have := (hO.trade t htm).id_lt
          rw [hb] at this
          exact absurd hi (by rw [List.getElem?_eq_getElem this]; simp)
      rw [h0]
      cases hi' : (df ++ zs)[i]? with
      | none =>
        apply tradedBy_none
        intro t htm hb
        rcases huang_direct S ht' hn' with h' | ⟨tm0, ps, pb, q, h', hO, -⟩
        · rw [he'] at h'; cases h'; cases htm
        · rw [he'] at h'; cases h'
          have := (hO.trade t htm).id_lt
          rw [hb] at this
          exact absurd hi' (by rw [List.getElem?_eq_getElem this]; simp)
      | some z =>
        have hz : z.quantity = 0 := by
          apply h.zero_of (List.mem_of_getElem? hi')
          have h1 := ht'.label hi'
          have h2 := List.getElem?_eq_none_iff.mp hi
          simp only [decide_eq_false_iff_not, not_lt]
          omega
        rcases huang_bid S ht' hn' he' hi' with hno | ⟨x, ps, pb, cs, cb, hw, hbuy, hsell⟩
        · exact tradedBy_none hno
        · cases hb : z.buying with
          | true =>
            rw [(hbuy hb).2.1, hz]
            exact max_eq_right (by linarith [hw.cb_nonneg])
          | false =>
            rw [(hsell hb).2.1, hz]
            exact max_eq_right (by linarith [hw.cs_nonneg])
    | some r =>
      have hrm := List.mem_of_getElem? hi
      rcases huang_bid S ht' hn' he' (hget hi) with hno' | ⟨x', ps', pb', cs', cb', hw', hbuy', hsell'⟩
      · rw [tradedBy_none hno']
        rcases huang_bid S ht hn he hi with hno | ⟨x, ps, pb, cs, cb, hw, _, _⟩
        · exact (tradedBy_none hno).symm
        · obtain ⟨t', h1, h2⟩ := keep hi hw
          exact absurd h2 (hno' t' h1)
      · have hx' := hpos hw'
        have qA := sumA hx' (fun q => q) rfl
        have qB := sumB hx' (fun q => q) rfl
        have cA : ∀ c : ℚ, 0 ≤ c → (cut c ((huangA S df x').map (fun r => r.quantity))).sum =
            (cut c ((huangA S (df ++ zs) x').map (fun r => r.quantity))).sum := by
          intro c hc
          rw [cut_sum_eq_qsum, cut_sum_eq_qsum]
          exact sumA hx' (fun q => max (q - c) 0) (max_eq_right (by linarith))
        have cB : ∀ c : ℚ, 0 ≤ c → (cut c ((huangB S df x').map (fun r => r.quantity))).sum =
            (cut c ((huangB S (df ++ zs) x').map (fun r => r.quantity))).sum := by
          intro c hc
          rw [cut_sum_eq_qsum, cut_sum_eq_qsum]
          exact sumB hx' (fun q => max (q - c) 0) (max_eq_right (by linarith))
        have nonnegB : ∀ q ∈ (huangB S df x').map (fun r => r.quantity), 0 ≤ q := by
          intro q hq
          obtain ⟨a, ha, rfl⟩ := List.mem_map.mp hq
          exact (hn a (mem_buys.mp (mem_sortDesc.mp (List.mem_of_mem_take ha))).1).1
        have nonnegA : ∀ q ∈ (huangA S df x').map (fun r => r.quantity), 0 ≤ q := by
          intro q hq
          obtain ⟨a, ha, rfl⟩ := List.mem_map.mp hq
          exact (hn a (mem_sells.mp (mem_sortAsc.mp (List.mem_of_mem_take ha))).1).1
        rcases huang_bid S ht hn he hi with hno | ⟨x, ps, pb, cs, cb, hw, hbuy, hsell⟩
        · -- only bids of quantity 0 on one of the sides
          rw [tradedBy_none hno]
          have hc := (h.crossing_iff S hx').mpr hw'.cross
          have hnil : huangA S df x' = [] ∨ huangB S df x' = [] := by
            by_contra hne
            push Not at hne
            obtain ⟨t, h1, h2⟩ := huang_wins S hn he hc hne.1 hne.2
              (r := r) (hw'.mem.imp (inA hx' hrm).mpr (inB hx' hrm).mpr)
            rw [ht.label hi] at h2
            exact hno t h1 h2
          have hmin : min (qsum (huangA S (df ++ zs) x')) (qsum (huangB S (df ++ zs) x')) = 0 := by
            unfold qsum
            rw [← qA, ← qB]
            rcases hnil with h0 | h0 <;> rw [h0]
            · exact min_eq_left (qsum_nonneg (fun a ha =>
                (hn a (mem_buys.mp (mem_sortDesc.mp (List.mem_of_mem_take ha))).1).1))
            · exact min_eq_right (qsum_nonneg (fun a ha =>
                (hn a (mem_sells.mp (mem_sortAsc.mp (List.mem_of_mem_take ha))).1).1))
          have zero : ∀ {l : DF} {c : ℚ}, (cut c (l.map (fun r => r.quantity))).sum = 0 → r ∈ l →
              max (r.quantity - c) 0 = 0 := by
            intro l c hs hr
            rw [cut_sum_eq_qsum] at hs
            have h1 := List.single_le_sum (l := l.map (fun r => max (r.quantity - c) 0)) (by
              intro y hy
              obtain ⟨a, _, rfl⟩ := List.mem_map.mp hy
              exact le_max_right _ _) _ (List.mem_map_of_mem hr)
            rw [hs] at h1
            exact le_antisymm h1 (le_max_right _ _)
          cases hb : r.buying with
          | true =>
            rw [(hbuy' hb).2.1]
            exact zero (by rw [hw'.sumB, hmin]) (hbuy' hb).1
          | false =>
            rw [(hsell' hb).2.1]
            exact zero (by rw [hw'.sumA, hmin]) (hsell' hb).1
        · obtain ⟨hx, rfl, rfl, rfl⟩ := both hw hw'
          have eA := hw.sumA
          have eB := hw.sumB
          have eA' := hw'.sumA
          have eB' := hw'.sumB
          unfold qsum at eA eB eA' eB'
          cases hb : r.buying with
          | true =>
            rw [(hbuy hb).2.1, (hbuy' hb).2.1]
            have m1 : r.quantity ∈ (huangB S df x').map (fun r => r.quantity) :=
              List.mem_map_of_mem (hbuy hb).1
            rw [← cB _ hw'.cb_nonneg, ← qA, ← qB] at eB'
            rcases le_total cb cb' with hcc | hcc
            · exact le_antisymm (max_le_max (by linarith) (le_refl _))
                (cut_pointwise hcc (by rw [eB, eB']) m1)
            · exact le_antisymm (cut_pointwise hcc (by rw [eB, eB']) m1)
                (max_le_max (by linarith) (le_refl _))
          | false =>
            rw [(hsell hb).2.1, (hsell' hb).2.1]
            have m1 : r.quantity ∈ (huangA S df x').map (fun r => r.quantity) :=
              List.mem_map_of_mem (hsell hb).1
            rw [← cA _ hw'.cs_nonneg, ← qA, ← qB] at eA'
            rcases le_total cs cs' with hcc | hcc
            · exact le_antisymm (max_le_max (by linarith) (le_refl _))
                (cut_pointwise hcc (by rw [eA, eA']) m1)
            · exact le_antisymm (cut_pointwise hcc (by rw [eA, eA']) m1)
                (max_le_max (by linarith) (le_refl _))
  · intro t htm
    obtain ⟨r, hi⟩ : ∃ r, df[t.bid]? = some r := by
      rcases huang_direct S ht hn with h' | ⟨tm0, ps, pb, q, h', hO, -⟩
      · rw [he] at h'; cases h'; cases htm
      · rw [he] at h'; cases h'
        exact ⟨_, List.getElem?_eq_getElem ((hO.trade t htm).id_lt)⟩
    rcases huang_bid S ht hn he hi with hno | ⟨x, ps, pb, cs, cb, hw, hbuy, hsell⟩
    · exact absurd rfl (hno t htm)
    obtain ⟨t', h1, h2⟩ := keep hi hw
    refine ⟨t', h1, h2, ?_⟩
    rcases huang_bid S ht' hn' he' (hget hi) with hno' | ⟨x', ps', pb', cs', cb', hw', hbuy', hsell'⟩
    · exact absurd h2 (hno' t' h1)
    obtain ⟨_, rfl, rfl, rfl⟩ := both hw hw'
    cases hb : r.buying with
    | true => rw [(hbuy hb).2.2 t htm rfl, (hbuy' hb).2.2 t' h1 h2]
    | false => rw [(hsell hb).2.2 t htm rfl, (hsell' hb).2.2 t' h1 h2]

/-- Left half: a buyer at 10 and a seller at 2; right half: a buyer at 3 and a seller at 8. -/
def apartBook : DF := labelFrom 0
  [⟨1, 10, 0, true, 0, true⟩, ⟨1, 2, 1, false, 0, true⟩, ⟨1, 3, 2, true, 0, true⟩,
   ⟨1, 8, 3, false, 0, true⟩]

/-- An offer of user 0 to sell nothing. -/
def emptyOffer : DF := labelFrom 4 [⟨0, 5 / 2, 0, false, 0, true⟩]

/-- **C111, MUDA.** The right half of `apartBook` has no competitive price, so nobody trades in the left one.
By offering nothing at 5/2 in the right half, user 0 makes the price 3 there and buys at it, paying no fee: the
surplus of user 0 rises from 0 to 7. -/
theorem C111_muda : Phantoms apartBook emptyOffer ∧
    ∃ tm ex, muda stableSorter (fun i => decide (i < 2)) apartBook = .ok (tm, ex) ∧
      surplusOf apartBook (priceOf apartBook) 0 tm.trans = 0 ∧
    ∃ tm' left right pl pr fees, muda stableSorter (fun i => decide (i < 2)) (apartBook ++ emptyOffer) =
        .ok (tm', .muda left right pl pr fees) ∧ fees[0]? = some 0 ∧
      surplusOf apartBook (priceOf apartBook) 0 tm'.trans = 7 := by
  refine ⟨⟨by decide +kernel, by decide +kernel, by decide +kernel, by decide +kernel,
    by decide +kernel⟩, TransactionManager.init,
    .muda [0, 1] [2, 3] (.fin 6) .inf [0, 0, 0, 0], by decide +kernel, by decide +kernel,
    ⟨2, [⟨1, 1, 3, -1, false⟩, ⟨0, 1, 3, -1, false⟩]⟩, [0, 1], [2, 3, 4], .fin 6, .fin 3,
    [0, 0, 0, 0], by decide +kernel, by decide +kernel, by decide +kernel⟩

/-- The halves of that run: no price without the offer, the price 3 of the best buyer with it. -/
example : Phantoms (labelFrom 0 [⟨1, 3, 2, true, 0, true⟩, ⟨1, 8, 3, false, 0, true⟩])
      (labelFrom 2 [⟨0, 5 / 2, 0, false, 0, true⟩]) ∧
    findCompetitivePrice stableSorter
      (labelFrom 0 [⟨1, 3, 2, true, 0, true⟩, ⟨1, 8, 3, false, 0, true⟩]) = .ok .inf ∧
    findCompetitivePrice stableSorter
      (labelFrom 0 [⟨1, 3, 2, true, 0, true⟩, ⟨1, 8, 3, false, 0, true⟩] ++
        labelFrom 2 [⟨0, 5 / 2, 0, false, 0, true⟩]) = .ok (.fin 3) := by
  refine ⟨⟨by decide +kernel, by decide +kernel, by decide +kernel, by decide +kernel,
    by decide +kernel⟩, by decide +kernel, by decide +kernel⟩

/-- A case that meets the hypotheses of the other two parts: two offers of nothing in front of the bids of
`curtailBook`. The price stays 2 and the buyers of the three units still get 1 each. -/
example : Phantoms curtailBook (labelFrom 6 [⟨0, 11, 6, true, 0, true⟩, ⟨0, 0, 7, false, 0, true⟩]) ∧
    findCompetitivePrice stableSorter curtailBook = findCompetitivePrice stableSorter
      (curtailBook ++ labelFrom 6 [⟨0, 11, 6, true, 0, true⟩, ⟨0, 0, 7, false, 0, true⟩]) ∧
    (huangAuction stableSorter
      (curtailBook ++ labelFrom 6 [⟨0, 11, 6, true, 0, true⟩, ⟨0, 0, 7, false, 0, true⟩])).toOption.map
      (fun o => [0, 1, 2, 4, 6, 7].map (tradedBy o.1.trans)) = some [1, 1, 1, 3, 0, 0] := by
  refine ⟨⟨by decide +kernel, by decide +kernel, by decide +kernel, by decide +kernel,
    by decide +kernel⟩, by decide +kernel, by decide +kernel⟩

end PyMarket
