import Verif.Spec.Nudge
import Verif.Props.Reprice
import Verif.Props.Shift

set_option autoImplicit false
namespace PyMarket
open Spec

/-! # C136: small changes of the prices

The prices of a book change by little. The maximal welfare changes by little. If the order of the prices
stays the same, Huang's auction and the uniform price trade the same quantities at prices that change by no more
than the bids do. For peer to peer trading it is enough that the same buyers and sellers are compatible. MUDA can
jump even then, and the others can when the order changes. -/

theorem withPrices_table {g : Row → ℚ} {df : DF} (ht : IsTable df) : IsTable (withPrices g df) := by
  unfold IsTable withPrices at *
  rw [List.map_map, List.length_map, ← ht]
  rfl

/-! ## Welfare -/

theorem claims_nudge (df : DF) (hq : ∀ r ∈ df, 0 ≤ r.quantity) (v v' : ℕ → ℚ) (p : ℚ) :
    claimsAt df v' p ≤ claimsAt df v p + (df.map (fun r => r.quantity * |v' r.label - v r.label|)).sum := by
  unfold claimsAt
  rw [← List.sum_map_add]
  apply List.sum_le_sum
  intro r hr
  rw [← mul_add]
  refine mul_le_mul_of_nonneg_left ?_ (hq r hr)
  have h1 := le_abs_self (v' r.label - v r.label)
  have h2 := neg_abs_le (v' r.label - v r.label)
  have h3 := abs_nonneg (v' r.label - v r.label)
  split_ifs
  · have h4 := le_max_left 0 (v r.label - p)
    have h5 := le_max_right 0 (v r.label - p)
    exact max_le (by linarith) (by linarith)
  · have h4 := le_max_left 0 (p - v r.label)
    have h5 := le_max_right 0 (p - v r.label)
    exact max_le (by linarith) (by linarith)

theorem claimsAt_congr {df : DF} {v v' : ℕ → ℚ} (h : ∀ r ∈ df, v' r.label = v r.label) (p : ℚ) :
    claimsAt df v' p = claimsAt df v p := by
  unfold claimsAt
  congr 1
  apply List.map_congr_left
  intro r hr
  rw [h r hr]

theorem claimsAt_withPrices (g : Row → ℚ) (df : DF) (v : ℕ → ℚ) (p : ℚ) :
    claimsAt (withPrices g df) v p = claimsAt df v p := by
  unfold claimsAt withPrices
  rw [List.map_map]
  rfl

/-- **C136, welfare.** The optimal value of the program of `maximum_aggregated_utility` changes by no more than the
changes of the values, each times the quantity of the bid. The value of a bid is its reservation price, if it has one. -/
theorem C136_welfare (g : Row → ℚ) (df : DF) (ht : IsTable df) (hq : ∀ r ∈ df, 0 ≤ r.quantity) (res : ResPrices)
    (y y' : ℚ) (hy : IsOptimum (utilityLP df res) y) (hy' : IsOptimum (utilityLP (withPrices g df) res) y') :
    |y' - y| ≤
      (df.map (fun r => r.quantity * |(res r.label).getD (g r) - (res r.label).getD r.price|)).sum := by
  have ht' := withPrices_table (g := g) ht
  have hq' : ∀ r ∈ withPrices g df, 0 ≤ r.quantity := by
    intro r hr
    obtain ⟨s, hs, rfl⟩ := List.mem_map.mp hr
    exact hq s hs
  rw [C84_welfare df ht hq] at hy
  rw [C84_welfare _ ht' hq'] at hy'
  simp only [claimsAt_withPrices] at hy'
  set v := valueOf df res with hv
  set v' := valueOf (withPrices g df) res with hv'
  have e1 : ∀ r ∈ df, v r.label = (res r.label).getD r.price := by
    intro r hr
    rw [hv]
    unfold valueOf
    rw [ht.price_eq hr]
  have e2 : ∀ r ∈ df, v' r.label = (res r.label).getD (g r) := by
    intro r hr
    rw [hv']
    unfold valueOf
    have hr' : ({ r with price := g r } : Row) ∈ withPrices g df := List.mem_map.mpr ⟨r, hr, rfl⟩
    have := ht'.price_eq hr'
    rw [show ({ r with price := g r } : Row).label = r.label from rfl] at this
    rw [this]
  have e3 : (df.map (fun r => r.quantity * |v' r.label - v r.label|)).sum =
      (df.map (fun r => r.quantity * |(res r.label).getD (g r) - (res r.label).getD r.price|)).sum := by
    congr 1
    apply List.map_congr_left
    intro r hr
    rw [e1 r hr, e2 r hr]
  have e4 : (df.map (fun r => r.quantity * |v r.label - v' r.label|)).sum =
      (df.map (fun r => r.quantity * |v' r.label - v r.label|)).sum := by
    congr 1
    apply List.map_congr_left
    intro r hr
    rw [abs_sub_comm]
  rw [← e3]
  obtain ⟨p, rfl⟩ := hy.1
  obtain ⟨p', rfl⟩ := hy'.1
  have h1 := hy'.2 ⟨p, rfl⟩
  have h2 := hy.2 ⟨p', rfl⟩
  have h3 := claims_nudge df hq v v' p
  have h4 := claims_nudge df hq v' v p'
  rw [e4] at h4
  rw [abs_le]
  constructor <;> linarith

/-! ## Huang's auction -/

/-- **C136, Huang's auction.** If the order of the prices stays the same, the same quantities are traded and no price
moves by more than the bids do. -/
theorem C136_huang_partial (S : Sorter) (hS : ComparisonSort S) (g : Row → ℚ) (df : DF) (ht : IsTable df) (hn : NonNeg df)
    (h : SameOrder g df) (δ : ℚ) (hδ : Nudged δ g df) :
    ∃ tm tm' ex ex', huangAuction S df = .ok (tm, ex) ∧ huangAuction S (withPrices g df) = .ok (tm', ex') ∧
      NearLog δ tm.trans tm'.trans := by
  obtain ⟨f, hf, h0, hg, he⟩ := C125_huang S hS g df h
  rcases huang_direct S ht hn with h1 | ⟨tm, ps, pb, q, h1, hO, ⟨mb, hmb, _, rfl⟩, ⟨ms, hms, _, rfl⟩, _⟩
  · rw [h1] at he
    exact ⟨_, _, _, _, h1, he, List.Forall₂.nil⟩
  · rw [h1] at he
    refine ⟨_, _, _, _, h1, he, ?_⟩
    show List.Forall₂ _ tm.trans (tm.trans.map (repriceTrans f))
    rw [List.forall₂_map_right_iff, List.forall₂_same]
    intro t htm
    refine ⟨rfl, ?_⟩
    show |f t.price - t.price| ≤ δ
    have hT := hO.trade t htm
    have hlt := hT.id_lt
    have hside : isBuy df t.bid = true ∨ isSell df t.bid = true := by
      unfold isBuy isSell
      rw [List.getElem?_eq_getElem hlt]
      cases df[t.bid].buying <;> simp
    rcases hside with hb | hs
    · rw [(hT.buyer hb).1, ← hg mb hmb]; exact hδ mb hmb
    · rw [(hT.seller hs).1, ← hg ms hms]; exact hδ ms hms

/-! ## The uniform price -/

theorem stepIdx_re (f : ℚ → ℚ) (x : Ext) (a : ℚ) (rows : DF) :
    stepIdx x a (rows.map (reRow f)) = stepIdx x a rows := by
  induction rows generalizing a with
  | nil => rfl
  | cons r rows ih =>
    simp only [List.map_cons, stepIdx]
    rw [show (reRow f r).quantity = r.quantity from rfl, ih]

/-- **C136, uniform price.** If the order of the prices stays the same, the price moves by no more than the bids do.
The quantities stay the same by `C125_uniform`. -/
theorem C136_uniform_partial (S : Sorter) (hS : ComparisonSort S) (g : Row → ℚ) (df : DF) (ht : IsTable df) (hn : NonNeg df)
    (h : SameOrder g df) (δ : ℚ) (hδ : Nudged δ g df) (tm : TransactionManager) (x : Option Ext) (p : ℚ)
    (hrun : uniformPrice S df = .ok (tm, x, .fin p)) :
    ∃ tm' p', uniformPrice S (withPrices g df) = .ok (tm', x, .fin p') ∧ |p' - p| ≤ δ ∧
      NearLog δ tm.trans tm'.trans := by
  have hn' : NonNeg (withPrices g df) := by
    intro r hr
    obtain ⟨s, hs, rfl⟩ := List.mem_map.mp hr
    exact ⟨(hn s hs).1, ((h.2 s hs).1).mp (hn s hs).2⟩
  have hlog := C125_uniform S hS g df h
  obtain ⟨f, hf, h0, hg, e⟩ := sameOrder_exists h
  rw [hrun] at hlog
  cases hrun' : uniformPrice S (withPrices g df) with
  | error er => rw [hrun'] at hlog; cases hlog
  | ok o =>
    obtain ⟨tm', x', v'⟩ := o
    rw [hrun'] at hlog
    simp only [Except.map, Except.ok.injEq, Prod.mk.injEq] at hlog
    obtain ⟨hl, rfl⟩ := hlog
    obtain ⟨q, p0, mb, ms, hx, hp0, u⟩ := uniform_sides S hn hrun
    obtain ⟨q', p', mb', ms', hx', rfl, u'⟩ := uniform_sides S hn' hrun'
    obtain rfl : p = p0 := by cases hp0; rfl
    obtain rfl : q = q' := by
      rw [hx] at hx'
      exact WithTop.coe_injective (Option.some.inj hx')
    have hmb : mb' = reRow f mb := by
      have h1 := u'.buy_get
      unfold demandIdx at h1
      rw [e, buys_re, sortDesc_re hS hf, stepIdx_re, List.getElem?_map] at h1
      have h2 := u.buy_get
      unfold demandIdx at h2
      rw [h2] at h1
      exact (Option.some.inj h1).symm
    have hms : ms' = reRow f ms := by
      have h1 := u'.sell_get
      unfold supplyIdx at h1
      rw [e, sells_re, sortAsc_re hS hf, stepIdx_re, List.getElem?_map] at h1
      have h2 := u.sell_get
      unfold supplyIdx at h2
      rw [h2] at h1
      exact (Option.some.inj h1).symm
    have hmbm : mb ∈ df := by
      have h1 := List.mem_of_getElem? u.buy_get
      exact (List.mem_filter.mp ((mem_sortDesc).mp h1)).1
    have hmsm : ms ∈ df := by
      have h1 := List.mem_of_getElem? u.sell_get
      exact (List.mem_filter.mp ((mem_sortAsc).mp h1)).1
    have hb : |mb'.price - mb.price| ≤ δ := by
      rw [hmb]; show |f mb.price - mb.price| ≤ δ
      rw [← hg mb hmbm]; exact hδ mb hmbm
    have hs : |ms'.price - ms.price| ≤ δ := by
      rw [hms]; show |f ms.price - ms.price| ≤ δ
      rw [← hg ms hmsm]; exact hδ ms hmsm
    have hp : |p' - p| ≤ δ := by
      have h1 := u.price
      have h2 := u'.price
      unfold crossPrice at h1 h2
      rw [u'.demand, u'.supply, e, demandCurve_re hS hf h0, supplyCurve_re hS hf, reCurve_fst, reCurve_fst] at h2
      rw [u.demand, u.supply] at h1
      split_ifs at h1 h2
      · rw [kMix_fin] at h1 h2
        cases h1
        cases h2
        rw [abs_le] at *
        constructor <;> linarith [hb.1, hb.2, hs.1, hs.2]
      · cases h1
        cases h2
        exact hs
      · cases h1
        cases h2
        exact hb
    refine ⟨tm', p', rfl, hp, ?_⟩
    have hpr : ∀ t ∈ tm.trans, t.price = p := fun t htm => ((u.outcome ht hn).trans t htm).2.2.2.1
    have hpr' : ∀ t ∈ tm'.trans, t.price = p' := fun t htm =>
      ((u'.outcome (withPrices_table ht) hn').trans t htm).2.2.2.1
    unfold NearLog
    have : ∀ (a b : List Transaction), b.map withoutPrice = a.map withoutPrice → (∀ t ∈ a, t.price = p) →
        (∀ t ∈ b, t.price = p') →
        List.Forall₂ (fun t t' => withoutPrice t' = withoutPrice t ∧ |t'.price - t.price| ≤ δ) a b := by
      intro a
      induction a with
      | nil =>
        intro b hab _ _
        rw [List.map_nil, List.map_eq_nil_iff] at hab
        rw [hab]
        exact .nil
      | cons t a ih =>
        intro b hab ha hb
        cases b with
        | nil => cases hab
        | cons t' b =>
          simp only [List.map_cons, List.cons.injEq] at hab
          refine .cons ⟨hab.1, ?_⟩ (ih b hab.2 (fun s hs => ha s (List.mem_cons_of_mem _ hs))
            (fun s hs => hb s (List.mem_cons_of_mem _ hs)))
          rw [ha t List.mem_cons_self, hb t' List.mem_cons_self]
          exact hp
    exact this _ _ hl hpr hpr'

/-! ## Peer to peer trading -/

theorem tradeOne_near {pr pr' : ℕ → ℚ} {k δ : ℚ} (h0 : 0 ≤ k) (h1 : k ≤ 1) (hδ : 0 ≤ δ) {p : ℕ × ℕ}
    (hc : pr p.2 ≤ pr p.1 ↔ pr' p.2 ≤ pr' p.1) (hb : |pr' p.1 - pr p.1| ≤ δ) (hs : |pr' p.2 - pr p.2| ≤ δ) (q : ℕ → ℚ) :
    NearLog δ (tradeOne pr k q p).2 (tradeOne pr' k q p).2 := by
  unfold tradeOne NearLog
  by_cases h : pr p.2 ≤ pr p.1
  · simp only [if_pos h, if_pos (hc.mp h)]
    have : |pr' p.1 * k + (1 - k) * pr' p.2 - (pr p.1 * k + (1 - k) * pr p.2)| ≤ δ := by
      rw [abs_le] at *
      have h2 := mul_le_mul_of_nonneg_right hb.1 h0
      have h3 := mul_le_mul_of_nonneg_right hb.2 h0
      have h4 := mul_le_mul_of_nonneg_right hs.1 (sub_nonneg.mpr h1)
      have h5 := mul_le_mul_of_nonneg_right hs.2 (sub_nonneg.mpr h1)
      constructor <;> linarith
    exact .cons ⟨rfl, this⟩ (.cons ⟨rfl, this⟩ .nil)
  · simp only [if_neg h, if_neg (fun h' => h (hc.mpr h'))]
    exact .cons ⟨rfl, by simpa using hδ⟩ (.cons ⟨rfl, by simpa using hδ⟩ .nil)

theorem NearLog_append {δ : ℚ} {a b a' b' : List Transaction} (h : NearLog δ a a') (h' : NearLog δ b b') :
    NearLog δ (a ++ b) (a' ++ b') := List.rel_append h h'

theorem tradeRound_near {pr pr' : ℕ → ℚ} {k δ : ℚ} (h0 : 0 ≤ k) (h1 : k ≤ 1) (hδ : 0 ≤ δ) {ps : List (ℕ × ℕ)}
    (hc : ∀ p ∈ ps, (pr p.2 ≤ pr p.1 ↔ pr' p.2 ≤ pr' p.1))
    (hn : ∀ p ∈ ps, |pr' p.1 - pr p.1| ≤ δ ∧ |pr' p.2 - pr p.2| ≤ δ) (q : ℕ → ℚ) :
    NearLog δ (tradeRound pr k q ps).2 (tradeRound pr' k q ps).2 := by
  induction ps generalizing q with
  | nil => exact .nil
  | cons p ps ih =>
    have e := (tradeRound_re (k := k) (k' := k) (pr := pr) (pr' := pr') (ps := [p])
      (fun p' hp' => by rw [List.mem_singleton.mp hp']; exact hc p List.mem_cons_self) q).1
    unfold tradeRound
    refine NearLog_append (tradeOne_near h0 h1 hδ (hc p List.mem_cons_self) (hn p List.mem_cons_self).1
      (hn p List.mem_cons_self).2 q) ?_
    have e' : (tradeOne pr' k q p).1 = (tradeOne pr k q p).1 := e
    rw [e']
    exact ih (fun p' hp' => hc p' (List.mem_cons_of_mem _ hp')) (fun p' hp' => hn p' (List.mem_cons_of_mem _ hp')) _

theorem p2pLoop_near {df : DF} {pr pr' : ℕ → ℚ} {k δ : ℚ} (h0 : 0 ≤ k) (h1 : k ≤ 1) (hδ : 0 ≤ δ) (choice : ℕ → ℕ) (n : ℕ)
    (q : ℕ → ℚ) (active : List (ℕ × ℕ)) (inactive : List ℕ)
    (h : ∀ p ∈ active, (pr p.2 ≤ pr p.1 ↔ pr' p.2 ≤ pr' p.1))
    (hn : ∀ p ∈ active, |pr' p.1 - pr p.1| ≤ δ ∧ |pr' p.2 - pr p.2| ≤ δ) :
    NearLog δ (p2pLoop df pr k choice n q active inactive).2 (p2pLoop df pr' k choice n q active inactive).2 := by
  fun_induction p2pLoop df pr k choice n q active inactive with
  | case1 n q active inactive tmp hc m t rest ih =>
    obtain ⟨m1, m2⟩ := meetLoop_mem choice n active tmp
    have hsub : ∀ p ∈ m.2.2, p ∈ active := fun p hp => (maskOut_sublist active inactive).subset (m2 hp)
    obtain ⟨t1, _⟩ := tradeRound_re (k := k) (k' := k) (pr := pr) (pr' := pr') (ps := m.2.2)
      (fun p hp => h p (hsub p hp)) q
    have hr := tradeRound_near h0 h1 hδ (fun p hp => h p (hsub p hp)) (fun p hp => hn p (hsub p hp)) q
    have hi := ih (fun p hp => h p (m1 hp)) (fun p hp => hn p (m1 hp))
    rw [p2pLoop, dif_pos hc]
    show NearLog δ (t.2 ++ rest.2) ((tradeRound pr' k q m.2.2).2 ++
      (p2pLoop df pr' k choice m.1 (tradeRound pr' k q m.2.2).1 m.2.1 (exhausted df (tradeRound pr' k q m.2.2).1)).2)
    rw [t1]
    exact NearLog_append hr hi
  | case2 n q active inactive tmp hc =>
    rw [p2pLoop, dif_neg hc]
    exact .nil

/-- **C136, peer to peer trading.** If the same buyers and sellers are compatible, the same pairs meet and exchange the
same quantities, and no price moves by more than the bids do. -/
theorem C136_p2p_partial (k : ℚ) (h0 : 0 ≤ k) (h1 : k ≤ 1) (choice : ℕ → ℕ) (g : Row → ℚ) (df : DF) (ht : IsTable df)
    (h : ∀ b ∈ df, ∀ s ∈ df, b.buying = true → s.buying = false → (s.price ≤ b.price ↔ g s ≤ g b))
    (δ : ℚ) (h2 : 0 ≤ δ) (hδ : Nudged δ g df) :
    ∃ tm tm' ex ex', p2pRandom k choice df = .ok (tm, ex) ∧ p2pRandom k choice (withPrices g df) = .ok (tm', ex') ∧
      NearLog δ tm.trans tm'.trans := by
  have hb : buys (withPrices g df) = (buys df).map (fun r => { r with price := g r }) := by
    unfold buys withPrices; rw [List.filter_map]; rfl
  have hs : sells (withPrices g df) = (sells df).map (fun r => { r with price := g r }) := by
    unfold sells withPrices; rw [List.filter_map]; rfl
  have e1 : allPairs (withPrices g df) = allPairs df := by
    unfold allPairs
    rw [hb, hs, List.flatMap_map]
    congr 1
    funext b
    rw [List.map_map]
    rfl
  have e2 : valueAt (withPrices g df) (fun r => r.quantity) = valueAt df (fun r => r.quantity) := by
    funext i
    unfold valueAt withPrices
    rw [List.getElem?_map]
    cases df[i]? <;> rfl
  have e3 : ∀ r ∈ df, valueAt (withPrices g df) (fun r => r.price) r.label = g r ∧
      valueAt df (fun r => r.price) r.label = r.price := by
    intro r hr
    have := ht.get_label hr
    unfold valueAt withPrices
    rw [List.getElem?_map, this]
    exact ⟨rfl, rfl⟩
  have e4 : ∀ (pr : ℕ → ℚ) (k : ℚ) (n : ℕ) (q : ℕ → ℚ) (a : List (ℕ × ℕ)) (i : List ℕ),
      p2pLoop (withPrices g df) pr k choice n q a i = p2pLoop df pr k choice n q a i := by
    intro pr k n q a i
    have hl : ∀ q : ℕ → ℚ, (withPrices g df).map (fun r => q r.label) = df.map (fun r => q r.label) := by
      intro q
      unfold withPrices
      rw [List.map_map]
      rfl
    have hx : ∀ q : ℕ → ℚ, exhausted (withPrices g df) q = exhausted df q := by
      intro q
      unfold exhausted
      rw [hb, hs, List.map_map, List.map_map]
      rfl
    fun_induction p2pLoop df pr k choice n q a i with
    | case1 n q a i tmp hc m t rest ih =>
      rw [p2pLoop, dif_pos (by rw [hl]; exact hc)]
      simp only [hx]
      rw [ih]
    | case2 n q a i tmp hc =>
      rw [p2pLoop, dif_neg (by rw [hl]; exact hc)]
  refine ⟨_, _, _, _, rfl, rfl, ?_⟩
  rw [TransactionManager.init_addAll_trans, TransactionManager.init_addAll_trans, e1, e2, e4]
  have hp : ∀ p ∈ allPairs df, ∃ b ∈ df, ∃ s ∈ df, b.buying = true ∧ s.buying = false ∧ p = (b.label, s.label) := by
    intro p hp
    unfold allPairs at hp
    obtain ⟨b, hb, hp⟩ := List.mem_flatMap.mp hp
    obtain ⟨s, hs, rfl⟩ := List.mem_map.mp hp
    obtain ⟨hb1, hb2⟩ := List.mem_filter.mp hb
    obtain ⟨hs1, hs2⟩ := List.mem_filter.mp hs
    exact ⟨b, hb1, s, hs1, hb2, by simpa using hs2, rfl⟩
  refine p2pLoop_near h0 h1 h2 choice 0 _ (allPairs df) [] ?_ ?_
  · intro p hm
    obtain ⟨b, hb1, s, hs1, hb2, hs2, rfl⟩ := hp p hm
    simp only [(e3 b hb1).1, (e3 b hb1).2, (e3 s hs1).1, (e3 s hs1).2]
    exact h b hb1 s hs1 hb2 hs2
  · intro p hm
    obtain ⟨b, hb1, s, hs1, hb2, hs2, rfl⟩ := hp p hm
    simp only [(e3 b hb1).1, (e3 b hb1).2, (e3 s hs1).1, (e3 s hs1).2]
    exact ⟨hδ b hb1, hδ s hs1⟩

/-! ## What can jump -/

/-- Buyers 1 @ 9, 5 @ `9 + e`; sellers 3 @ 1, 3 @ 2. -/
def nudgeHuang (e : ℚ) : DF := labelFrom 0 [⟨1, 9, 0, true, 0, true⟩, ⟨5, 9 + e, 1, true, 0, true⟩,
  ⟨3, 1, 2, false, 0, true⟩, ⟨3, 2, 3, false, 0, true⟩]

/-- Buyers 1 @ 9, 2 @ `9 + e`; sellers 1 @ 1, 1 @ 20. -/
def nudgeUniform (e : ℚ) : DF := labelFrom 0 [⟨1, 9, 0, true, 0, true⟩, ⟨2, 9 + e, 1, true, 0, true⟩,
  ⟨1, 1, 2, false, 0, true⟩, ⟨1, 20, 3, false, 0, true⟩]

/-- Buyers 1 @ 6, 1 @ 8; sellers 1 @ 2, 1 @ `4 + e`. -/
def nudgeMuda (e : ℚ) : DF := labelFrom 0 [⟨1, 6, 0, true, 0, true⟩, ⟨1, 2, 1, false, 0, true⟩,
  ⟨1, 8, 2, true, 0, true⟩, ⟨1, 4 + e, 3, false, 0, true⟩]

/-- A buyer 1 @ 5 and a seller 1 @ `5 + e`. -/
def nudgeP2P (e : ℚ) : DF := labelFrom 0 [⟨1, 5, 0, true, 0, true⟩, ⟨1, 5 + e, 1, false, 0, true⟩]

/-- **C136 refuted.** When the order of two prices changes, Huang's auction trades 3 instead of 1, the uniform price is
9001/1000 instead of 5, and peer to peer trading trades nothing instead of 1. MUDA trades nothing instead of 2
although the order of the prices stays the same. -/
theorem C136_refuted :
    (huangAuction stableSorter (nudgeHuang (-1 / 1000))).toOption.map
      (fun o => boughtQty (nudgeHuang (-1 / 1000)) o.1.trans) = some 1 ∧
    (huangAuction stableSorter (nudgeHuang (1 / 1000))).toOption.map
      (fun o => boughtQty (nudgeHuang (1 / 1000)) o.1.trans) = some 3 ∧
    (uniformPrice stableSorter (nudgeUniform (-1 / 1000))).toOption.map (fun o => o.2.2) = some (.fin 5) ∧
    (uniformPrice stableSorter (nudgeUniform (1 / 1000))).toOption.map (fun o => o.2.2) = some (.fin (9001 / 1000)) ∧
    (p2pRandom (1 / 2) (fun _ => 0) (nudgeP2P 0)).toOption.map (fun o => boughtQty (nudgeP2P 0) o.1.trans) = some 1 ∧
    (p2pRandom (1 / 2) (fun _ => 0) (nudgeP2P (1 / 1000))).toOption.map
      (fun o => boughtQty (nudgeP2P (1 / 1000)) o.1.trans) = some 0 ∧
    (muda stableSorter (fun n => decide (n ≤ 1)) (nudgeMuda 0)).toOption.map
      (fun o => boughtQty (nudgeMuda 0) o.1.trans) = some 2 ∧
    (muda stableSorter (fun n => decide (n ≤ 1)) (nudgeMuda (1 / 1000))).toOption.map
      (fun o => boughtQty (nudgeMuda (1 / 1000)) o.1.trans) = some 0 ∧
    SameOrder (fun r => if r.price = 4 then 4 + 1 / 1000 else r.price) (nudgeMuda 0) ∧
    withPrices (fun r => if r.price = 4 then 4 + 1 / 1000 else r.price) (nudgeMuda 0) = nudgeMuda (1 / 1000) := by
  decide +kernel

/-! ## The hypotheses are met -/

/-- All prices of `squareBook` rise by a tenth, those above 2 by another tenth. -/
def bump (r : Row) : ℚ := if 2 < r.price then r.price + 1 / 5 else r.price + 1 / 10

example : SameOrder bump squareBook ∧ (∀ r ∈ squareBook, |bump r - r.price| ≤ 1 / 5) ∧ IsTable squareBook ∧
    NonNeg squareBook ∧
    (uniformPrice stableSorter squareBook).toOption.map (fun r => r.2.2) = some (.fin (9 / 2)) ∧
    (uniformPrice stableSorter (withPrices bump squareBook)).toOption.map (fun r => r.2.2) = some (.fin (47 / 10)) ∧
    (huangAuction stableSorter squareBook).toOption.map (fun r => r.1.trans.map (fun t => (t.bid, t.quantity, t.price))) ≠
      some [] ∧
    (p2pRandom (1 / 2) (fun _ => 0) squareBook).toOption.any (fun r => decide (0 < r.1.trans.length)) = true := by
  decide +kernel

/-- The hypotheses of `C136_welfare` are met; when the first buyer of `shiftBook 1 1` bids 11, the bound is 1. -/
example : (∀ r ∈ shiftBook 1 1, 0 ≤ r.quantity) ∧ IsTable (shiftBook 1 1) ∧
    IsOptimum (utilityLP (shiftBook 1 1) (fun _ => none)) 9 ∧
    ((shiftBook 1 1).map (fun r => r.quantity * |(if r.price = 10 then 11 else r.price) - r.price|)).sum = 1 := by
  refine ⟨by decide +kernel, by decide +kernel, ?_, by decide +kernel⟩
  have := shiftBook_welfare 1 (by norm_num)
  norm_num at this
  exact this

end PyMarket
