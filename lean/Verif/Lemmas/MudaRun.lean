import Verif.Lemmas.MudaHalf
import Verif.Lemmas.Accounting
import Verif.Lemmas.Intersect
import Verif.Props.Equilibrium
import Verif.Spec.Muda

/-! # A whole MUDA run -/

set_option autoImplicit false

namespace PyMarket

open Spec

/-! ## The halves -/

theorem coinLeft_range (coin : ℕ → Bool) (n : ℕ) :
    coinLeft coin (List.range n) = (List.range n).filter coin := by
  have aux : ∀ (n k : ℕ), (((List.range' k n).zipIdx k).filter (fun p => coin p.2)).map
      (fun p => p.1) = (List.range' k n).filter coin := by
    intro n
    induction n with
    | zero => intro k; rfl
    | succ n ih =>
      intro k
      rw [List.range'_succ, List.zipIdx_cons]
      by_cases h : coin k = true
      · simp only [List.filter_cons, h, if_true, List.map_cons, ih]
      · simp only [List.filter_cons, h, if_false, ih, Bool.false_eq_true]
  unfold coinLeft
  rw [List.range_eq_range']
  exact aux n 0

theorem filterMap_find_labels {df : DF} (ht : IsTable df) (P : ℕ → Bool) :
    locLabels df ((List.range df.length).filter P) = df.filter (fun r => P r.label) := by
  unfold locLabels
  simp only [find_label ht]
  have hdf : df = (List.range df.length).filterMap (fun i => df[i]?) := by
    have := takeIdx_range df
    unfold takeIdx at this
    exact this.symm
  conv_rhs => rw [hdf]
  generalize hn : df.length = n
  clear hn hdf
  induction n with
  | zero => rfl
  | succ n ih =>
    rw [List.range_succ, List.filter_append, List.filterMap_append, ih, List.filterMap_append,
      List.filter_append]
    congr 1
    cases h : df[n]? with
    | none =>
      by_cases hp : P n = true <;> simp [hp, h]
    | some r =>
      have hl := ht.label h
      by_cases hp : P n = true <;> simp [hp, h, hl]

theorem half_filter {df : DF} (ht : IsTable df) (P : ℕ → Bool) :
    half df ((List.range df.length).filter P) = df.filter (fun r => P r.label) := by
  unfold half
  apply List.filter_congr
  intro r hr
  have := ht.label_lt hr
  by_cases hp : P r.label = true
  · simp [hp, this]
  · simp [hp]

theorem half_sub {df : DF} {ids : List ℕ} : ∀ r ∈ half df ids, r ∈ df :=
  fun _ hr => (List.mem_filter.mp hr).1

theorem half_nodup {df : DF} (ht : IsTable df) (ids : List ℕ) :
    ((half df ids).map (fun r => r.label)).Nodup := ht.nodup.sublist (List.filter_sublist.map _)

theorem half_nonNeg {df : DF} (h : NonNeg df) (ids : List ℕ) : NonNeg (half df ids) :=
  fun r hr => h r (half_sub r hr)

/-- The steps of a run that is not rejected. -/
structure MudaRun (S : Sorter) (coin : ℕ → Bool) (df : DF) (tm : TransactionManager)
    (left right : List ℕ) (pl pr : Val) (fees : List ℚ) : Prop where
  left_eq : left = (List.range df.length).filter coin
  right_eq : right = (List.range df.length).filter (fun i => !coin i)
  priceLeft : findCompetitivePrice S (half df left) = .ok pl
  priceRight : findCompetitivePrice S (half df right) = .ok pr
  sides : ∃ tl tr fees', solveSide S (half df left) pr
      (List.replicate (df.map (fun r => r.user)).dedup.length (0 : ℚ)) = .ok (tl, fees') ∧
    solveSide S (half df right) pl fees' = .ok (tr, fees) ∧ tm.trans = tl.trans ++ tr.trans

theorem mudaBody_halves {S : Sorter} {coin : ℕ → Bool} {df : DF} (ht : IsTable df) :
    mudaBody S coin df = (do
      let left := (List.range df.length).filter coin
      let right := (List.range df.length).filter (fun i => !coin i)
      let pl ← findCompetitivePrice S (half df left)
      let pr ← findCompetitivePrice S (half df right)
      let fees := List.replicate (df.map (fun r => r.user)).dedup.length (0 : ℚ)
      let (transLeft, fees) ← solveSide S (half df left) pr fees
      let (transRight, fees) ← solveSide S (half df right) pl fees
      .ok (transLeft.merge transRight, .muda left right pl pr fees)) := by
  have hlab : df.map (fun r => r.label) = List.range df.length := ht
  have hr : (List.range df.length).filter (fun i => decide (i ∉ (List.range df.length).filter coin)) =
      (List.range df.length).filter (fun i => !coin i) := by
    apply List.filter_congr
    intro i hi
    by_cases hc : coin i = true
    · simp [hc]; exact List.mem_range.mp hi
    · simp [hc]
  unfold mudaBody
  simp only [hlab, coinLeft_range, hr, filterMap_find_labels ht, half_filter ht]

theorem muda_run {S : Sorter} {coin : ℕ → Bool} {df : DF} (ht : IsTable df)
    {tm : TransactionManager} {ex : Extra} (h : muda S coin df = .ok (tm, ex)) :
    ∃ left right pl pr fees, ex = .muda left right pl pr fees ∧
      MudaRun S coin df tm left right pl pr fees := by
  unfold muda at h
  split at h
  · cases h
  rw [mudaBody_halves ht] at h
  simp only [bind, Except.bind] at h
  cases hpl : findCompetitivePrice S (half df ((List.range df.length).filter coin)) with
  | error e => rw [hpl] at h; cases h
  | ok pl =>
    cases hpr : findCompetitivePrice S (half df ((List.range df.length).filter (fun i => !coin i))) with
    | error e => rw [hpl, hpr] at h; cases h
    | ok pr =>
      rw [hpl, hpr] at h
      simp only at h
      cases hl : solveSide S (half df ((List.range df.length).filter coin)) pr
          (List.replicate (df.map (fun r => r.user)).dedup.length (0 : ℚ)) with
      | error e => rw [hl] at h; cases h
      | ok o =>
        obtain ⟨tl, f1⟩ := o
        rw [hl] at h
        simp only at h
        cases hr : solveSide S (half df ((List.range df.length).filter (fun i => !coin i))) pl f1 with
        | error e => rw [hr] at h; cases h
        | ok o =>
          obtain ⟨tr, f2⟩ := o
          rw [hr] at h
          cases h
          exact ⟨_, _, _, _, _, rfl, rfl, rfl, hpl, hpr, tl, tr, f1, hl, hr,
            TransactionManager.merge_trans _ _⟩

/-- Reverse: when both halves return, so does the auction. -/
theorem muda_ok {S : Sorter} {coin : ℕ → Bool} {df : DF} (ht : IsTable df)
    (hc : checkEqualPriceRaises df = false) {pl pr : Val} {tl tr : TransactionManager}
    {f1 f2 : List ℚ}
    (hpl : findCompetitivePrice S (half df ((List.range df.length).filter coin)) = .ok pl)
    (hpr : findCompetitivePrice S (half df ((List.range df.length).filter (fun i => !coin i))) = .ok pr)
    (hl : solveSide S (half df ((List.range df.length).filter coin)) pr
      (List.replicate (df.map (fun r => r.user)).dedup.length (0 : ℚ)) = .ok (tl, f1))
    (hr : solveSide S (half df ((List.range df.length).filter (fun i => !coin i))) pl f1 =
      .ok (tr, f2)) :
    muda S coin df = .ok (tl.merge tr, .muda ((List.range df.length).filter coin)
      ((List.range df.length).filter (fun i => !coin i)) pl pr f2) := by
  unfold muda
  rw [hc, if_neg (by simp), mudaBody_halves ht]
  simp only [bind, Except.bind, hpl, hpr, hl, hr]

/-! ## Facts about the trades of a half -/

section half

variable {S : Sorter} {H df : DF} {p : ℚ} {ts : List Transaction}

theorem halfQty_eq (S : Sorter) (H : DF) (p : ℚ) : halfQty S H p = volumeAt H p := by
  unfold halfQty volumeAt
  rw [qsum_perm (willingDemand_perm S H p), qsum_perm (willingSupply_perm S H p)]
  rfl

theorem longRows_perm (S : Sorter) (H : DF) (p : ℚ) : (longRows S H p).Perm (longSide H p) := by
  unfold longRows longSide longIsSupply
  rw [qsum_perm (willingDemand_perm S H p), qsum_perm (willingSupply_perm S H p)]
  change (if decide (qsum (willingBuyers H p) < qsum (willingSellers H p)) = true then _ else _ :
    DF).Perm (if qsum (willingBuyers H p) < qsum (willingSellers H p) then _ else _)
  by_cases h : qsum (willingBuyers H p) < qsum (willingSellers H p)
  · rw [if_pos h, if_pos (decide_eq_true h)]; exact willingSupply_perm S H p
  · rw [if_neg h, if_neg (by simpa using h)]; exact willingDemand_perm S H p

theorem longGain_eq {r : Row} (hr : r ∈ longRows S H p) : longGain S H p r = unitGain p r := by
  unfold longGain unitGain
  unfold longRows at hr
  split at hr
  · rename_i h
    rw [if_pos h, (mem_willingSupply.mp hr).2.1]
    rfl
  · rename_i h
    rw [if_neg h, (mem_willingDemand.mp hr).2.1]
    rfl

theorem HalfTrade.mem (h : HalfTrade S H p ts) : ∀ t ∈ ts, ∃ r ∈ H, t.bid = r.label ∧
    0 ≤ t.quantity ∧ t.quantity ≤ r.quantity ∧ t.price = p ∧ t.source = -1 ∧ t.active = false ∧
    (r.buying = true → p ≤ r.price) ∧ (r.buying = false → r.price ≤ p) := by
  obtain ⟨tb, tl, hor, hb, hs⟩ := h.sides
  intro t ht
  have : t ∈ tb ∨ t ∈ tl := by
    rcases hor with rfl | rfl
    · exact List.mem_append.mp ht
    · exact (List.mem_append.mp ht).symm
  rcases this with h' | h'
  · obtain ⟨r, hr, h1, h2, h3, h4, h5, h6⟩ := hb.mem t h'
    obtain ⟨hr, hr1, hr2⟩ := mem_willingDemand.mp hr
    refine ⟨r, hr, h1, h2, h3, h4, h5, h6, fun _ => of_decide_eq_true hr2, ?_⟩
    intro hf; rw [hr1] at hf; cases hf
  · obtain ⟨r, hr, h1, h2, h3, h4, h5, h6⟩ := hs.mem t h'
    obtain ⟨hr, hr1, hr2⟩ := mem_willingSupply.mp hr
    refine ⟨r, hr, h1, h2, h3, h4, h5, h6, ?_, fun _ => of_decide_eq_true hr2⟩
    intro hf; rw [hr1] at hf; cases hf

theorem HalfTrade.nodup (hn : (H.map (fun r => r.label)).Nodup) (h : HalfTrade S H p ts) :
    (ts.map (fun t => t.bid)).Nodup := by
  obtain ⟨tb, tl, hor, hb, hs⟩ := h.sides
  have hd : ∀ t ∈ tb, ∀ t' ∈ tl, t.bid ≠ t'.bid := by
    intro t ht t' ht'
    obtain ⟨r, hr, h1, _⟩ := hb.mem t ht
    obtain ⟨r', hr', h1', _⟩ := hs.mem t' ht'
    rw [h1, h1']
    exact disjoint_sides hn hr hr'
  have key : ((tb ++ tl).map (fun t => t.bid)).Nodup := by
    rw [List.map_append, List.nodup_append]
    refine ⟨hb.nodup, hs.nodup, ?_⟩
    intro a ha b hb'
    obtain ⟨t, ht, rfl⟩ := List.mem_map.mp ha
    obtain ⟨t', ht', rfl⟩ := List.mem_map.mp hb'
    exact hd t ht t' ht'
  rcases hor with rfl | rfl
  · exact key
  · exact ((List.perm_append_comm (l₁ := tb) (l₂ := tl)).map _).nodup_iff.mp key

theorem HalfTrade.tradedBy_buy (hn : (H.map (fun r => r.label)).Nodup) (h : HalfTrade S H p ts) :
    ∃ tb, SideOut (willingDemand S H (.fin p)) (buyGain p) p (halfQty S H p) tb ∧
      (∀ r ∈ willingDemand S H (.fin p), tradedBy ts r.label = tradedBy tb r.label) := by
  obtain ⟨tb, tl, hor, hb, hs⟩ := h.sides
  refine ⟨tb, hb, ?_⟩
  intro r hr
  have hz : tradedBy tl r.label = 0 := by
    apply tradedBy_not_mem
    intro t ht he
    obtain ⟨r', hr', h1, _⟩ := hs.mem t ht
    exact disjoint_sides hn hr hr' (by rw [← h1, he])
  rcases hor with rfl | rfl
  · rw [tradedBy_append, hz, add_zero]
  · rw [tradedBy_append, hz, zero_add]

theorem HalfTrade.tradedBy_sell (hn : (H.map (fun r => r.label)).Nodup) (h : HalfTrade S H p ts) :
    ∃ tl, SideOut (willingSupply S H (.fin p)) (sellGain p) p (halfQty S H p) tl ∧
      (∀ r ∈ willingSupply S H (.fin p), tradedBy ts r.label = tradedBy tl r.label) := by
  obtain ⟨tb, tl, hor, hb, hs⟩ := h.sides
  refine ⟨tl, hs, ?_⟩
  intro r hr
  have hz : tradedBy tb r.label = 0 := by
    apply tradedBy_not_mem
    intro t ht he
    obtain ⟨r', hr', h1, _⟩ := hb.mem t ht
    exact disjoint_sides hn hr' hr (by rw [← h1, he])
  rcases hor with rfl | rfl
  · rw [tradedBy_append, hz, zero_add]
  · rw [tradedBy_append, hz, add_zero]

/-- Bought and sold quantities and payments of a half. -/
theorem HalfTrade.sums (ht : IsTable df) (hsub : ∀ r ∈ H, r ∈ df) (h : HalfTrade S H p ts) :
    boughtQty df ts = volumeAt H p ∧ soldQty df ts = volumeAt H p ∧
    paid df ts = volumeAt H p * p ∧ received df ts = volumeAt H p * p := by
  rw [← halfQty_eq S]
  obtain ⟨tb, tl, hor, hb, hs⟩ := h.sides
  have hbm : ∀ t ∈ tb, isBuy df t.bid = true ∧ isSell df t.bid = false ∧ t.price = p := by
    intro t htt
    obtain ⟨r, hr, h1, _, _, h4, _⟩ := hb.mem t htt
    obtain ⟨hr, hr1, _⟩ := mem_willingDemand.mp hr
    rw [h1, ht.isBuy_eq (hsub r hr), ht.isSell_eq (hsub r hr), hr1]
    exact ⟨rfl, rfl, h4⟩
  have hsm : ∀ t ∈ tl, isBuy df t.bid = false ∧ isSell df t.bid = true ∧ t.price = p := by
    intro t htt
    obtain ⟨r, hr, h1, _, _, h4, _⟩ := hs.mem t htt
    obtain ⟨hr, hr1, _⟩ := mem_willingSupply.mp hr
    rw [h1, ht.isBuy_eq (hsub r hr), ht.isSell_eq (hsub r hr), hr1]
    exact ⟨rfl, rfl, h4⟩
  have b1 : tb.filter (fun t => isBuy df t.bid) = tb :=
    List.filter_eq_self.mpr (fun t h => (hbm t h).1)
  have b2 : tb.filter (fun t => isSell df t.bid) = [] :=
    List.filter_eq_nil_iff.mpr (fun t h => by rw [(hbm t h).2.1]; simp)
  have s1 : tl.filter (fun t => isSell df t.bid) = tl :=
    List.filter_eq_self.mpr (fun t h => (hsm t h).2.1)
  have s2 : tl.filter (fun t => isBuy df t.bid) = [] :=
    List.filter_eq_nil_iff.mpr (fun t h => by rw [(hsm t h).1]; simp)
  have pb : (tb.map (fun t => t.quantity * t.price)).sum = halfQty S H p * p := by
    rw [← hb.sum, ← List.sum_map_mul_right]
    congr 1
    apply List.map_congr_left
    intro t h; rw [(hbm t h).2.2]
  have ps : (tl.map (fun t => t.quantity * t.price)).sum = halfQty S H p * p := by
    rw [← hs.sum, ← List.sum_map_mul_right]
    congr 1
    apply List.map_congr_left
    intro t h; rw [(hsm t h).2.2]
  have e : boughtQty df ts = boughtQty df tb + boughtQty df tl ∧
      soldQty df ts = soldQty df tb + soldQty df tl ∧ paid df ts = paid df tb + paid df tl ∧
      received df ts = received df tb + received df tl := by
    rcases hor with rfl | rfl
    · exact ⟨boughtQty_append .., soldQty_append .., paid_append .., received_append ..⟩
    · refine ⟨?_, ?_, ?_, ?_⟩
      · rw [boughtQty_append, add_comm]
      · rw [soldQty_append, add_comm]
      · rw [paid_append, add_comm]
      · rw [received_append, add_comm]
  rw [e.1, e.2.1, e.2.2.1, e.2.2.2]
  unfold boughtQty soldQty paid received
  rw [b1, b2, s1, s2, pb, ps, hb.sum, hs.sum]
  simp

end half

/-! ## The greedy value as an optimum -/

theorem greedy_isGreatest {rows : DF} {w : Row → ℚ} {p σ Q : ℚ} (hs : Side rows w p σ) (hQ : 0 ≤ Q) :
    IsGreatest { x | ∃ a : ℕ → ℚ, (∀ r ∈ rows, 0 ≤ a r.label ∧ a r.label ≤ r.quantity) ∧
      (rows.map (fun r => a r.label)).sum ≤ Q ∧
      x = (rows.map (fun r => w r * a r.label)).sum } (greedy (fun r => r.quantity) w Q rows) := by
  constructor
  · refine ⟨fun i => tradedBy (mkTrans p (fillRows Q rows)) i, ?_, ?_, ?_⟩
    · have hnd : ((fillRows Q rows).map (fun r => r.label)).Nodup := by
        rw [fillRows_labels]; exact hs.nodup
      intro r hr
      obtain ⟨r', hr', hl'⟩ : ∃ r' ∈ fillRows Q rows, r'.label = r.label := by
        have : r.label ∈ (fillRows Q rows).map (fun r => r.label) := by
          rw [fillRows_labels]; exact List.mem_map_of_mem hr
        obtain ⟨r', h1, h2⟩ := List.mem_map.mp this
        exact ⟨r', h1, h2⟩
      have ht : tradedBy (mkTrans p (fillRows Q rows)) r.label = r'.quantity := by
        have hmem : (⟨r'.label, r'.quantity, p, -1, false⟩ : Transaction) ∈
            mkTrans p (fillRows Q rows) := List.mem_map.mpr ⟨r', hr', rfl⟩
        have := tradedBy_nodup (ts := mkTrans p (fillRows Q rows))
          (by unfold mkTrans; rw [List.map_map]; exact hnd) hmem
        rw [hl'] at this
        exact this
      obtain ⟨r₀, h0, h1, _, _, _, h5, h6⟩ := fillRows_mem hQ hs.nonneg r' hr'
      have : r₀ = r := List.inj_on_of_nodup_map hs.nodup h0 hr (by rw [← h1]; exact hl')
      subst this
      simp only [ht]
      exact ⟨h5, h6⟩
    · have := fill_map (p := p) (fun _ y => y) (fun _ _ _ => rfl) Q hs.nodup
      rw [← this]
      have h2 := fillRows_qsum hQ hs.nonneg
      calc ((fillRows Q rows).map (fun r => r.quantity)).sum = min Q (qsum rows) := h2
        _ ≤ Q := min_le_left _ _
    · have := fill_map (p := p) (fun r y => w r * y) (fun r x y => by rw [hs.const]) Q hs.nodup
      rw [← this, ← fillRows_value (fun r x => hs.const r x)]
      rfl
  · rintro x ⟨a, ha, hsum, rfl⟩
    exact greedy_optimal hQ hs.nonneg hs.gain hs.sorted (fun r => a r.label) ha hsum

theorem Side.filter {rows : DF} {w : Row → ℚ} {p σ : ℚ} (hs : Side rows w p σ) (P : Row → Bool) :
    Side (rows.filter P) w p σ where
  nodup := hs.nodup.sublist (List.filter_sublist.map _)
  nonneg := fun r hr => hs.nonneg r (List.mem_filter.mp hr).1
  sorted := hs.sorted.sublist List.filter_sublist
  gain := fun r hr => hs.gain r (List.mem_filter.mp hr).1
  sign := hs.sign
  weight := hs.weight

theorem long_side {S : Sorter} {H : DF} (hn : (H.map (fun r => r.label)).Nodup)
    (hq : ∀ r ∈ H, 0 ≤ r.quantity) (p : ℚ) :
    Side (longRows S H p) (longGain S H p) p (if longIsSupply S H p then -1 else 1) := by
  unfold longRows longGain
  cases longIsSupply S H p
  · exact willingDemand_side hn hq p
  · exact willingSupply_side hn hq p

theorem volumeAt_nonneg {H : DF} (hq : ∀ r ∈ H, 0 ≤ r.quantity) (p : ℚ) : 0 ≤ volumeAt H p := by
  apply le_min
  · exact qsum_nonneg (fun r hr => hq r (List.mem_filter.mp hr).1)
  · exact qsum_nonneg (fun r hr => hq r (List.mem_filter.mp hr).1)

/-- The model's fee value is the externality. -/
theorem sideExt_isExternality {S : Sorter} {H : DF} (hn : (H.map (fun r => r.label)).Nodup)
    (hq : ∀ r ∈ H, 0 ≤ r.quantity) (p : ℚ) (ts : List Transaction) (u : ℤ) :
    IsExternality H p ts u
      (sideExt (longRows S H p) (longGain S H p) (halfQty S H p) ts u) := by
  have hperm : ((longRows S H p).filter (fun r => decide (r.user ≠ u))).Perm
      (others (longSide H p) u) := (longRows_perm S H p).filter _
  have hs := (long_side (S := S) hn hq p).filter (fun r => decide (r.user ≠ u))
  have hQ := volumeAt_nonneg hq p
  rw [halfQty_eq]
  refine ⟨greedy (fun r => r.quantity) (longGain S H p) (volumeAt H p)
    ((longRows S H p).filter (fun r => decide (r.user ≠ u))), ?_, ?_⟩
  rotate_left
  · unfold sideExt gainIn
    have : ((longRows S H p).filter (fun r => decide (r.user ≠ u))).map
        (fun r => longGain S H p r * tradedBy ts r.label) =
        ((longRows S H p).filter (fun r => decide (r.user ≠ u))).map
        (fun r => unitGain p r * tradedBy ts r.label) := by
      apply List.map_congr_left
      intro r hr
      rw [longGain_eq (List.mem_filter.mp hr).1]
    rw [this, (hperm.map (fun r => unitGain p r * tradedBy ts r.label)).sum_eq]
  · have key := greedy_isGreatest hs hQ
    have hset : CouldGain (others (longSide H p) u) p (volumeAt H p) =
        { x | ∃ a : ℕ → ℚ, (∀ r ∈ (longRows S H p).filter (fun r => decide (r.user ≠ u)),
            0 ≤ a r.label ∧ a r.label ≤ r.quantity) ∧
          (((longRows S H p).filter (fun r => decide (r.user ≠ u))).map
            (fun r => a r.label)).sum ≤ volumeAt H p ∧
          x = (((longRows S H p).filter (fun r => decide (r.user ≠ u))).map
            (fun r => longGain S H p r * a r.label)).sum } := by
      ext x
      unfold CouldGain
      simp only [Set.mem_ofPred_eq]
      apply exists_congr
      intro a
      have e1 : ((longRows S H p).filter (fun r => decide (r.user ≠ u))).map
          (fun r => longGain S H p r * a r.label) =
          ((longRows S H p).filter (fun r => decide (r.user ≠ u))).map
          (fun r => unitGain p r * a r.label) := by
        apply List.map_congr_left
        intro r hr
        rw [longGain_eq (List.mem_filter.mp hr).1]
      rw [e1, (hperm.map (fun r => unitGain p r * a r.label)).sum_eq,
        (hperm.map (fun r => a r.label)).sum_eq]
      simp only [hperm.mem_iff]
    rw [hset]
    exact key

/-! ## Both halves of a run -/

/-- The trades of one half of a run. -/
def HalfOutcome (S : Sorter) (H : DF) (v : Val) (ts : List Transaction) : Prop :=
  (ts = [] ∧ ∀ p, v = .fin p → volumeAt H p = 0) ∨ ∃ p, v = .fin p ∧ HalfTrade S H p ts

theorem HalfOutcome.bids {S : Sorter} {df : DF} {ids : List ℕ} {v : Val} {ts : List Transaction}
    (h : HalfOutcome S (half df ids) v ts) : ∀ t ∈ ts, t.bid ∈ ids := by
  intro t ht
  rcases h with ⟨rfl, _⟩ | ⟨p, _, h⟩
  · cases ht
  · obtain ⟨r, hr, h1, _⟩ := h.mem t ht
    rw [h1]
    exact of_decide_eq_true (List.mem_filter.mp hr).2

theorem HalfOutcome.finite {S : Sorter} {H : DF} {v : Val} {ts : List Transaction}
    (h : HalfOutcome S H v ts) {p : ℚ} (hv : v = .fin p) :
    (ts = [] ∧ volumeAt H p = 0) ∨ HalfTrade S H p ts := by
  rcases h with ⟨h1, h2⟩ | ⟨p', h1, h2⟩
  · exact Or.inl ⟨h1, h2 p hv⟩
  · rw [hv] at h1; cases h1; exact Or.inr h2

theorem MudaRun.disjoint {S : Sorter} {coin : ℕ → Bool} {df : DF} {tm : TransactionManager}
    {left right : List ℕ} {pl pr : Val} {fees : List ℚ}
    (h : MudaRun S coin df tm left right pl pr fees) : ∀ i ∈ left, i ∉ right := by
  intro i hi hi'
  rw [h.left_eq] at hi
  rw [h.right_eq] at hi'
  have h1 := (List.mem_filter.mp hi).2
  have h2 := (List.mem_filter.mp hi').2
  simp [h1] at h2

theorem MudaRun.halves {S : Sorter} {coin : ℕ → Bool} {df : DF} (ht : IsTable df)
    (hq : ∀ r ∈ df, 0 ≤ r.quantity) {tm : TransactionManager}
    {left right : List ℕ} {pl pr : Val} {fees : List ℚ}
    (h : MudaRun S coin df tm left right pl pr fees) :
    tm.trans = tradesIn left tm.trans ++ tradesIn right tm.trans ∧
    HalfOutcome S (half df left) pr (tradesIn left tm.trans) ∧
    HalfOutcome S (half df right) pl (tradesIn right tm.trans) := by
  obtain ⟨tl, tr, f', hl, hr, he⟩ := h.sides
  have ol : HalfOutcome S (half df left) pr tl.trans := by
    rcases solveSide_trades S (half_nodup ht left) (fun r hr => hq r (half_sub r hr)) hl with
      ⟨h1, _, h2⟩ | h1
    · exact Or.inl ⟨h1, fun p hp => by rw [← halfQty_eq S]; exact h2 p hp⟩
    · exact Or.inr h1
  have or : HalfOutcome S (half df right) pl tr.trans := by
    rcases solveSide_trades S (half_nodup ht right) (fun r hr => hq r (half_sub r hr)) hr with
      ⟨h1, _, h2⟩ | h1
    · exact Or.inl ⟨h1, fun p hp => by rw [← halfQty_eq S]; exact h2 p hp⟩
    · exact Or.inr h1
  have bl := ol.bids
  have br := or.bids
  have hd := h.disjoint
  have e1 : tradesIn left tm.trans = tl.trans := by
    unfold tradesIn
    rw [he, List.filter_append, List.filter_eq_self.mpr (fun t ht => decide_eq_true (bl t ht)),
      List.filter_eq_nil_iff.mpr, List.append_nil]
    intro t ht
    simp only [decide_eq_true_eq]
    exact fun hc => hd _ hc (br t ht)
  have e2 : tradesIn right tm.trans = tr.trans := by
    unfold tradesIn
    rw [he, List.filter_append, List.filter_eq_self.mpr (fun t ht => decide_eq_true (br t ht)),
      List.filter_eq_nil_iff.mpr, List.nil_append]
    intro t ht
    simp only [decide_eq_true_eq]
    exact fun hc => hd _ (bl t ht) hc
  rw [e1, e2]
  exact ⟨he, ol, or⟩

/-- Fees are absolute values. -/
theorem computeFee_nonneg (df : DF) (k : ℕ) (u : ℤ) (Q p : ℚ) : 0 ≤ computeFee df k u Q p := by
  unfold computeFee
  simp only
  split
  · exact le_refl _
  · exact abs_nonneg _

theorem feeLoop_nonneg {long : DF} {k : ℕ} {Q p : ℚ} {us : List ℤ} {fees fees' : List ℚ}
    (h : feeLoop long k Q p us fees = .ok fees') (hf : ∀ x ∈ fees, 0 ≤ x) : ∀ x ∈ fees', 0 ≤ x := by
  induction us generalizing fees with
  | nil => cases h; exact hf
  | cons u us ih =>
    rw [feeLoop] at h
    have hset : ∀ f1, npSet fees u (computeFee long k u Q p) = .ok f1 → ∀ x ∈ f1, 0 ≤ x := by
      intro f1 h1 x hx
      unfold npSet at h1
      split at h1
      · cases h1
        rcases List.mem_or_eq_of_mem_set hx with h | rfl
        · exact hf x h
        · exact computeFee_nonneg ..
      · split at h1
        · cases h1
          rcases List.mem_or_eq_of_mem_set hx with h | rfl
          · exact hf x h
          · exact computeFee_nonneg ..
        · cases h1
    cases h1 : npSet fees u (computeFee long k u Q p) with
    | error e => rw [h1] at h; cases h
    | ok f1 =>
      rw [h1] at h
      exact ih h (hset f1 h1)

theorem solveSide_nonneg {S : Sorter} {H : DF} (hn : (H.map (fun r => r.label)).Nodup)
    (hq : ∀ r ∈ H, 0 ≤ r.quantity) {v : Val} {fees fees' : List ℚ} {tm : TransactionManager}
    (h : solveSide S H v fees = .ok (tm, fees')) (hf : ∀ x ∈ fees, 0 ≤ x) : ∀ x ∈ fees', 0 ≤ x := by
  rcases solveSide_cases S hn hq v with ⟨he, _⟩ | ⟨p, out, k, tm', _, _, _, _, _, _, _, _, he⟩
  · rw [he] at h; cases h; exact hf
  · rw [he] at h
    cases hl : feeLoop out k (halfQty S H p) p (tradingUsers out k) fees with
    | error e => rw [hl] at h; cases h
    | ok f => rw [hl] at h; cases h; exact feeLoop_nonneg hl hf

theorem MudaRun.fees_nonneg {S : Sorter} {coin : ℕ → Bool} {df : DF} (ht : IsTable df)
    (hq : ∀ r ∈ df, 0 ≤ r.quantity) {tm : TransactionManager}
    {left right : List ℕ} {pl pr : Val} {fees : List ℚ}
    (h : MudaRun S coin df tm left right pl pr fees) : ∀ x ∈ fees, 0 ≤ x := by
  obtain ⟨tl, tr, f', hl, hr, _⟩ := h.sides
  have h1 := solveSide_nonneg (half_nodup ht left) (fun r hr => hq r (half_sub r hr)) hl
    (by intro x hx; rw [(List.mem_replicate.mp hx).2])
  exact solveSide_nonneg (half_nodup ht right) (fun r hr => hq r (half_sub r hr)) hr h1

/-! ## Sums over bids and over transactions -/

theorem sum_tradedBy {rows : DF} (hn : (rows.map (fun r => r.label)).Nodup) (G : ℕ → ℚ)
    (ts : List Transaction) :
    (rows.map (fun r => G r.label * tradedBy ts r.label)).sum =
      (ts.map (fun t => if t.bid ∈ rows.map (fun r => r.label) then G t.bid * t.quantity
        else 0)).sum := by
  induction rows with
  | nil => simp
  | cons r rows ih =>
    rw [List.map_cons, List.nodup_cons] at hn
    rw [List.map_cons, List.sum_cons, ih hn.2]
    have h1 : G r.label * tradedBy ts r.label =
        (ts.map (fun t => if t.bid = r.label then G t.bid * t.quantity else 0)).sum := by
      clear ih
      induction ts with
      | nil => simp [tradedBy]
      | cons t ts ih2 =>
        have : tradedBy (t :: ts) r.label = tradedBy [t] r.label + tradedBy ts r.label :=
          tradedBy_append [t] ts _
        rw [this, mul_add, ih2, List.map_cons, List.sum_cons]
        congr 1
        by_cases h : t.bid = r.label
        · simp [tradedBy, h]
        · simp [tradedBy, h]
    rw [h1, ← List.sum_map_add]
    congr 1
    apply List.map_congr_left
    intro t _
    by_cases h : t.bid = r.label
    · rw [if_pos h, if_neg (by rw [h]; exact hn.1), if_pos (by simp [h]), add_zero]
    · rw [if_neg h, zero_add]
      simp only [List.map_cons, List.mem_cons, h, false_or]

end PyMarket
