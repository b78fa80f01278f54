import Verif.Props.Shift

set_option autoImplicit false
namespace PyMarket
open Spec

/-! # C137: joining two markets

The bids of two markets are put into one. The maximal volume and the maximal welfare are at least the sums of
those of the two markets, and the quantity at which the curves cross is at least either of theirs. The traded
quantities need not reach the sums. -/

/-- Reservation prices of the joint market, whose first `n` bids are those of the first one. -/
def Spec.joinRes (n : ℕ) (res res' : ResPrices) : ResPrices := fun i => if i < n then res i else res' (i - n)

/-- What the bids could gain together at the price `p`, each worth its reservation price if it has one and its own
price otherwise. -/
def Spec.possibleGains (df : DF) (res : ResPrices) (p : ℚ) : ℚ :=
  (df.map (fun r => r.quantity * (if r.buying then max 0 ((res r.label).getD r.price - p)
    else max 0 (p - (res r.label).getD r.price)))).sum

theorem labelFrom_join (n : ℕ) (bs cs : List Bid) :
    labelFrom n (bs ++ cs) = labelFrom n bs ++ labelFrom (n + bs.length) cs := by
  induction bs generalizing n with
  | nil => rfl
  | cons b bs ih =>
    simp only [List.cons_append, labelFrom, ih, List.length_cons]
    rw [Nat.add_assoc, Nat.add_comm 1]

theorem labelFrom_shift_sum (F : Bid → ℕ → ℚ) (n m : ℕ) (bs : List Bid) :
    ((labelFrom (n + m) bs).map (fun r => F r.toBid r.label)).sum =
      ((labelFrom m bs).map (fun r => F r.toBid (n + r.label))).sum := by
  induction bs generalizing m with
  | nil => rfl
  | cons b bs ih =>
    simp only [labelFrom, List.map_cons, List.sum_cons]
    rw [Nat.add_assoc, ih]

theorem labelFrom_bids_sum (F : Bid → ℚ) (n : ℕ) (bs : List Bid) :
    ((labelFrom n bs).map (fun r => F r.toBid)).sum = (bs.map F).sum := by
  conv_rhs => rw [← labelFrom_map_toBid n bs]
  rw [List.map_map]
  rfl

theorem labelFrom_join_sum (F : Bid → ℚ) (bs cs : List Bid) :
    ((labelFrom 0 (bs ++ cs)).map (fun r => F r.toBid)).sum =
      ((labelFrom 0 bs).map (fun r => F r.toBid)).sum + ((labelFrom 0 cs).map (fun r => F r.toBid)).sum := by
  simp only [labelFrom_bids_sum, List.map_append, List.sum_append]

theorem demandQty_join (bs cs : List Bid) (p : ℚ) :
    demandQty (labelFrom 0 (bs ++ cs)) p = demandQty (labelFrom 0 bs) p + demandQty (labelFrom 0 cs) p := by
  simp only [demandQty, filter_sum_ite]
  exact labelFrom_join_sum (fun b => b.quantity * (if (b.buying && decide (p ≤ b.price)) = true then 1 else 0)) bs cs

theorem supplyQty_join (bs cs : List Bid) (p : ℚ) :
    supplyQty (labelFrom 0 (bs ++ cs)) p = supplyQty (labelFrom 0 bs) p + supplyQty (labelFrom 0 cs) p := by
  simp only [supplyQty, filter_sum_ite]
  exact labelFrom_join_sum (fun b => b.quantity * (if (!b.buying && decide (b.price ≤ p)) = true then 1 else 0)) bs cs

theorem demandQtyAbove_join (bs cs : List Bid) (p : ℚ) :
    demandQtyAbove (labelFrom 0 (bs ++ cs)) p =
      demandQtyAbove (labelFrom 0 bs) p + demandQtyAbove (labelFrom 0 cs) p := by
  simp only [demandQtyAbove, filter_sum_ite]
  exact labelFrom_join_sum (fun b => b.quantity * (if (b.buying && decide (p < b.price)) = true then 1 else 0)) bs cs

theorem volumeBound_join (bs cs : List Bid) (t : ℚ) :
    volumeBound (labelFrom 0 (bs ++ cs)) t = volumeBound (labelFrom 0 bs) t + volumeBound (labelFrom 0 cs) t := by
  unfold volumeBound
  rw [demandQtyAbove_join, supplyQty_join]
  ring

theorem claimsAt_possible {df : DF} (ht : IsTable df) (res : ResPrices) (p : ℚ) :
    claimsAt df (valueOf df res) p = possibleGains df res p := by
  unfold claimsAt possibleGains
  congr 1
  apply List.map_congr_left
  intro r hr
  unfold valueOf
  rw [ht.price_eq hr]

theorem possibleGains_join (bs cs : List Bid) (res res' : ResPrices) (p : ℚ) :
    possibleGains (labelFrom 0 (bs ++ cs)) (joinRes bs.length res res') p =
      possibleGains (labelFrom 0 bs) res p + possibleGains (labelFrom 0 cs) res' p := by
  unfold possibleGains
  rw [labelFrom_join, List.map_append, List.sum_append]
  congr 1
  · congr 1
    apply List.map_congr_left
    intro r hr
    have hl : r.label < bs.length := by
      have := (isTable_labelFrom bs).label_lt hr
      rwa [labelFrom_length] at this
    unfold joinRes
    rw [if_pos hl]
  · rw [Nat.add_comm, labelFrom_shift_sum (fun b i => b.quantity *
      (if b.buying then max 0 (((joinRes bs.length res res') i).getD b.price - p)
        else max 0 (p - ((joinRes bs.length res res') i).getD b.price))) bs.length 0 cs]
    congr 1
    apply List.map_congr_left
    intro r _
    have e : joinRes bs.length res res' (bs.length + r.label) = res' r.label := by
      unfold joinRes
      rw [if_neg (Nat.not_lt.mpr (Nat.le_add_right _ _)), Nat.add_sub_cancel_left]
    simp only [e]

/-- Least values of sums. -/
theorem least_join {a b c : ℚ → ℚ} (h : ∀ t, c t = a t + b t) {x y z : ℚ} (hx : IsLeast {v | ∃ t, v = a t} x)
    (hy : IsLeast {v | ∃ t, v = b t} y) (hz : IsLeast {v | ∃ t, v = c t} z) :
    x + y ≤ z ∧ (z = x + y ↔ ∃ t, a t = x ∧ b t = y) := by
  obtain ⟨t, rfl⟩ := hz.1
  have h1 := hx.2 ⟨t, rfl⟩
  have h2 := hy.2 ⟨t, rfl⟩
  rw [h]
  refine ⟨add_le_add h1 h2, fun e => ⟨t, by linarith, by linarith⟩, ?_⟩
  rintro ⟨s, rfl, rfl⟩
  have h3 := hz.2 ⟨s, rfl⟩
  rw [h, h] at h3
  linarith

/-- **C137, volume.** The maximal volume of the joint market is at least the sum. It is the sum just when at some
price both markets have no more than their maximal volume in demand above it and supply up to it. -/
theorem C137_volume (bs cs : List Bid) (hb : ∀ b ∈ bs, 0 ≤ b.quantity) (hc : ∀ b ∈ cs, 0 ≤ b.quantity) (x y z : ℚ)
    (hx : IsOptimum (volumeLP (labelFrom 0 bs)) x) (hy : IsOptimum (volumeLP (labelFrom 0 cs)) y)
    (hz : IsOptimum (volumeLP (labelFrom 0 (bs ++ cs))) z) :
    x + y ≤ z ∧ (z = x + y ↔ ∃ t, demandQtyAbove (labelFrom 0 bs) t + supplyQty (labelFrom 0 bs) t = x ∧
      demandQtyAbove (labelFrom 0 cs) t + supplyQty (labelFrom 0 cs) t = y) := by
  have hq : ∀ l : List Bid, (∀ b ∈ l, 0 ≤ b.quantity) → ∀ r ∈ labelFrom 0 l, 0 ≤ r.quantity := by
    intro l hl r hr
    have : r.toBid ∈ (labelFrom 0 l).map (fun r => r.toBid) := List.mem_map_of_mem hr
    rw [labelFrom_map_toBid] at this
    exact hl _ this
  rw [C84_volume _ (isTable_labelFrom _) (hq _ hb)] at hx
  rw [C84_volume _ (isTable_labelFrom _) (hq _ hc)] at hy
  rw [C84_volume _ (isTable_labelFrom _) (hq _ (by
    intro b h
    rcases List.mem_append.mp h with h | h
    · exact hb b h
    · exact hc b h))] at hz
  exact least_join (volumeBound_join bs cs) hx hy hz

/-- **C137, welfare.** The maximal welfare of the joint market is at least the sum. It is the sum just when there is
a price at which the bids of neither market could gain more than its maximal welfare. -/
theorem C137_welfare (bs cs : List Bid) (hb : ∀ b ∈ bs, 0 ≤ b.quantity) (hc : ∀ b ∈ cs, 0 ≤ b.quantity)
    (res res' : ResPrices) (x y z : ℚ) (hx : IsOptimum (utilityLP (labelFrom 0 bs) res) x)
    (hy : IsOptimum (utilityLP (labelFrom 0 cs) res') y)
    (hz : IsOptimum (utilityLP (labelFrom 0 (bs ++ cs)) (joinRes bs.length res res')) z) :
    x + y ≤ z ∧ (z = x + y ↔
      ∃ p, possibleGains (labelFrom 0 bs) res p = x ∧ possibleGains (labelFrom 0 cs) res' p = y) := by
  have hq : ∀ l : List Bid, (∀ b ∈ l, 0 ≤ b.quantity) → ∀ r ∈ labelFrom 0 l, 0 ≤ r.quantity := by
    intro l hl r hr
    have : r.toBid ∈ (labelFrom 0 l).map (fun r => r.toBid) := List.mem_map_of_mem hr
    rw [labelFrom_map_toBid] at this
    exact hl _ this
  rw [C84_welfare _ (isTable_labelFrom _) (hq _ hb)] at hx
  rw [C84_welfare _ (isTable_labelFrom _) (hq _ hc)] at hy
  rw [C84_welfare _ (isTable_labelFrom _) (hq _ (by
    intro b h
    rcases List.mem_append.mp h with h | h
    · exact hb b h
    · exact hc b h))] at hz
  simp only [claimsAt_possible (isTable_labelFrom _)] at hx hy hz
  exact least_join (possibleGains_join bs cs res res') hx hy hz

theorem greatest_join {bs cs : List Bid} (hc : ∀ b ∈ cs, 0 ≤ b.quantity) {q z : ℚ}
    (hq : IsGreatest {v | ∃ p : ℚ, v = min (demandQty (labelFrom 0 bs) p) (supplyQty (labelFrom 0 bs) p)} q)
    (hz : IsGreatest {v | ∃ p : ℚ, v = min (demandQty (labelFrom 0 (bs ++ cs)) p)
      (supplyQty (labelFrom 0 (bs ++ cs)) p)} z) : q ≤ z := by
  obtain ⟨p, rfl⟩ := hq.1
  refine le_trans ?_ (hz.2 ⟨p, rfl⟩)
  have hpos : ∀ (f : Bid → Bool), 0 ≤ ((labelFrom 0 cs).map (fun r => r.toBid.quantity *
      (if f r.toBid = true then 1 else 0))).sum := by
    intro f
    rw [labelFrom_bids_sum (fun b => b.quantity * (if f b = true then 1 else 0))]
    apply List.sum_nonneg
    intro x hx
    obtain ⟨b, hb, rfl⟩ := List.mem_map.mp hx
    have := hc b hb
    split_ifs <;> simp [this]
  have h1 : 0 ≤ demandQty (labelFrom 0 cs) p := by
    simp only [demandQty, filter_sum_ite]
    exact hpos (fun b => b.buying && decide (p ≤ b.price))
  have h2 : 0 ≤ supplyQty (labelFrom 0 cs) p := by
    simp only [supplyQty, filter_sum_ite]
    exact hpos (fun b => !b.buying && decide (b.price ≤ p))
  rw [demandQty_join, supplyQty_join]
  exact min_le_min (by linarith) (by linarith)

theorem demandQty_comm (bs cs : List Bid) (p : ℚ) :
    demandQty (labelFrom 0 (bs ++ cs)) p = demandQty (labelFrom 0 (cs ++ bs)) p := by
  rw [demandQty_join, demandQty_join, add_comm]

theorem supplyQty_comm (bs cs : List Bid) (p : ℚ) :
    supplyQty (labelFrom 0 (bs ++ cs)) p = supplyQty (labelFrom 0 (cs ++ bs)) p := by
  rw [supplyQty_join, supplyQty_join, add_comm]

theorem nonNeg_bids {bs : List Bid} (h : NonNeg (labelFrom 0 bs)) : ∀ b ∈ bs, 0 ≤ b.quantity := by
  intro b hb
  rw [← labelFrom_map_toBid 0 bs] at hb
  obtain ⟨r, hr, rfl⟩ := List.mem_map.mp hb
  exact (h r hr).1

/-- **C137, equilibrium.** If the curves are found to cross, they cross at no less in the joint market than in
either of the two. -/
theorem C137_equilibrium_partial (S S' T : Sorter) (bs cs : List Bid) (hb : NonNeg (labelFrom 0 bs))
    (hc : NonNeg (labelFrom 0 cs)) (hj : NonNeg (labelFrom 0 (bs ++ cs))) (k k' l : ℚ) (i i' j : Intersection) (x y z : ℚ)
    (hi : intersectStepwise (demandCurve S (labelFrom 0 bs)).1 (supplyCurve S (labelFrom 0 bs)).1 k = .ok i)
    (hx : i.x = some (x : Ext))
    (hi' : intersectStepwise (demandCurve S' (labelFrom 0 cs)).1 (supplyCurve S' (labelFrom 0 cs)).1 k' = .ok i')
    (hy : i'.x = some (y : Ext))
    (hij : intersectStepwise (demandCurve T (labelFrom 0 (bs ++ cs))).1
      (supplyCurve T (labelFrom 0 (bs ++ cs))).1 l = .ok j) (hz : j.x = some (z : Ext)) : max x y ≤ z := by
  have g := C08_max_volume S _ hb k i x hi hx
  have g' := C08_max_volume S' _ hc k' i' y hi' hy
  have gj := C08_max_volume T _ hj l j z hij hz
  refine max_le (greatest_join (nonNeg_bids hc) g gj) ?_
  simp only [demandQty_comm bs cs, supplyQty_comm bs cs] at gj
  exact greatest_join (nonNeg_bids hb) g' gj

/-- **C137, uniform price.** When the uniform price clears all three markets, the joint one trades no less than
either of the two. -/
theorem C137_uniform_partial (S S' T : Sorter) (bs cs : List Bid) (hb : NonNeg (labelFrom 0 bs))
    (hc : NonNeg (labelFrom 0 cs)) (hj : NonNeg (labelFrom 0 (bs ++ cs))) (tm tm' tj : TransactionManager)
    (x y z : Option Ext) (v v' w : Val) (hrun : uniformPrice S (labelFrom 0 bs) = .ok (tm, x, v))
    (hrun' : uniformPrice S' (labelFrom 0 cs) = .ok (tm', y, v'))
    (hrunj : uniformPrice T (labelFrom 0 (bs ++ cs)) = .ok (tj, z, w)) :
    max (boughtQty (labelFrom 0 bs) tm.trans) (boughtQty (labelFrom 0 cs) tm'.trans) ≤
      boughtQty (labelFrom 0 (bs ++ cs)) tj.trans := by
  obtain ⟨q, _, hx, -, -, u, -⟩ := C94_outcome S _ (isTable_labelFrom _) hb tm x v hrun
  obtain ⟨q', _, hy, -, -, u', -⟩ := C94_outcome S' _ (isTable_labelFrom _) hc tm' y v' hrun'
  obtain ⟨qj, _, hz, -, -, uj, -⟩ := C94_outcome T _ (isTable_labelFrom _) hj tj z w hrunj
  have g := uniform_greatest S hb hrun q hx
  have g' := uniform_greatest S' hc hrun' q' hy
  have gj := uniform_greatest T hj hrunj qj hz
  rw [u.bought, u'.bought, uj.bought]
  refine max_le (greatest_join (nonNeg_bids hc) g gj) ?_
  simp only [demandQty_comm bs cs, supplyQty_comm bs cs] at gj
  exact greatest_join (nonNeg_bids hb) g' gj

/-- **C137, Huang's auction.** If the curves are found to cross in all three markets, the joint one trades no less
than either of the two but for the largest bid. -/
theorem C137_huang_partial (S S' T : Sorter) (bs cs : List Bid) (hb : NonNeg (labelFrom 0 bs))
    (hc : NonNeg (labelFrom 0 cs)) (hj : NonNeg (labelFrom 0 (bs ++ cs))) (k k' l : ℚ) (i i' j : Intersection) (x y z : ℚ)
    (hi : intersectStepwise (demandCurve S (labelFrom 0 bs)).1 (supplyCurve S (labelFrom 0 bs)).1 k = .ok i)
    (hx : i.x = some (x : Ext))
    (hi' : intersectStepwise (demandCurve S' (labelFrom 0 cs)).1 (supplyCurve S' (labelFrom 0 cs)).1 k' = .ok i')
    (hy : i'.x = some (y : Ext))
    (hij : intersectStepwise (demandCurve T (labelFrom 0 (bs ++ cs))).1
      (supplyCurve T (labelFrom 0 (bs ++ cs))).1 l = .ok j) (hz : j.x = some (z : Ext))
    (tm tm' tj : TransactionManager) (ex ex' ej : Extra) (hrun : huangAuction S (labelFrom 0 bs) = .ok (tm, ex))
    (hrun' : huangAuction S' (labelFrom 0 cs) = .ok (tm', ex'))
    (hrunj : huangAuction T (labelFrom 0 (bs ++ cs)) = .ok (tj, ej)) (Q : ℚ) (hQ : ∀ b ∈ bs ++ cs, b.quantity ≤ Q) :
    max (boughtQty (labelFrom 0 bs) tm.trans) (boughtQty (labelFrom 0 cs) tm'.trans) - Q ≤
      boughtQty (labelFrom 0 (bs ++ cs)) tj.trans := by
  have h1 := C137_equilibrium_partial S S' T bs cs hb hc hj k k' l i i' j x y z hi hx hi' hy hij hz
  obtain ⟨_, _, _, _, _, _, _, _, _, _, h2, _⟩ := C64_deficit S _ (isTable_labelFrom _) hb k i x hi hx tm ex hrun
  obtain ⟨_, _, _, _, _, _, _, _, _, _, h3, _⟩ := C64_deficit S' _ (isTable_labelFrom _) hc k' i' y hi' hy tm' ex' hrun'
  obtain ⟨mb, hmb, ms, hms, _, _, _, _, h4, _⟩ := C64_deficit T _ (isTable_labelFrom _) hj l j z hij hz tj ej hrunj
  have hQ' : ∀ r ∈ labelFrom 0 (bs ++ cs), r.quantity ≤ Q := by
    intro r hr
    have : r.toBid ∈ (labelFrom 0 (bs ++ cs)).map (fun r => r.toBid) := List.mem_map_of_mem hr
    rw [labelFrom_map_toBid] at this
    exact hQ _ this
  have h5 := max_le (hQ' mb hmb) (hQ' ms hms)
  have h6 := max_le_max h2 h3
  linarith

/-! ## The traded quantities need not add up -/

/-- A market at high prices: buyers 1 @ 10, 1 @ 49/5; sellers 1 @ 9, 1 @ 46/5. -/
def dearBids : List Bid := [⟨1, 10, 0, true, 0, true⟩, ⟨1, 9, 1, false, 0, true⟩, ⟨1, 49 / 5, 2, true, 0, true⟩,
  ⟨1, 46 / 5, 3, false, 0, true⟩]

/-- A market at low prices, of the same users: buyers 1 @ 2, 1 @ 9/5; sellers 1 @ 1, 1 @ 6/5. -/
def cheapBids : List Bid := [⟨1, 2, 0, true, 0, true⟩, ⟨1, 1, 1, false, 0, true⟩, ⟨1, 9 / 5, 2, true, 0, true⟩,
  ⟨1, 6 / 5, 3, false, 0, true⟩]

/-- What is bought in a run. -/
def Spec.boughtIn {α : Type} (df : DF) (r : Except PyErr (TransactionManager × α)) : Option ℚ :=
  r.toOption.map (fun o => boughtQty df o.1.trans)

/-- **C137 refuted for the mechanisms.** Apart, the two markets trade 1 each in Huang's auction and 2 each with the
others. Together they trade 1 in Huang's auction and 2 with the others. -/
theorem C137_refuted :
    (boughtIn (labelFrom 0 dearBids) (huangAuction stableSorter (labelFrom 0 dearBids)) = some 1 ∧
      boughtIn (labelFrom 0 cheapBids) (huangAuction stableSorter (labelFrom 0 cheapBids)) = some 1 ∧
      boughtIn (labelFrom 0 (dearBids ++ cheapBids))
        (huangAuction stableSorter (labelFrom 0 (dearBids ++ cheapBids))) = some 1) ∧
    (boughtIn (labelFrom 0 dearBids) (uniformPrice stableSorter (labelFrom 0 dearBids)) = some 2 ∧
      boughtIn (labelFrom 0 cheapBids) (uniformPrice stableSorter (labelFrom 0 cheapBids)) = some 2 ∧
      boughtIn (labelFrom 0 (dearBids ++ cheapBids))
        (uniformPrice stableSorter (labelFrom 0 (dearBids ++ cheapBids))) = some 2) ∧
    (boughtIn (labelFrom 0 dearBids) (muda stableSorter (fun n => decide (n % 4 ≤ 1)) (labelFrom 0 dearBids)) = some 2 ∧
      boughtIn (labelFrom 0 cheapBids) (muda stableSorter (fun n => decide (n % 4 ≤ 1)) (labelFrom 0 cheapBids)) = some 2 ∧
      boughtIn (labelFrom 0 (dearBids ++ cheapBids))
        (muda stableSorter (fun n => decide (n % 4 ≤ 1)) (labelFrom 0 (dearBids ++ cheapBids))) = some 2) ∧
    (boughtIn (labelFrom 0 dearBids) (p2pRandom (1 / 2) (fun _ => 0) (labelFrom 0 dearBids)) = some 2 ∧
      boughtIn (labelFrom 0 cheapBids) (p2pRandom (1 / 2) (fun _ => 0) (labelFrom 0 cheapBids)) = some 2 ∧
      boughtIn (labelFrom 0 (dearBids ++ cheapBids))
        (p2pRandom (1 / 2) (fun _ => 2) (labelFrom 0 (dearBids ++ cheapBids))) = some 2) := by
  decide +kernel

/-! ## The hypotheses are met -/

example : NonNeg (labelFrom 0 dearBids) ∧ NonNeg (labelFrom 0 cheapBids) ∧ NonNeg (labelFrom 0 (dearBids ++ cheapBids)) ∧
    (intersectStepwise (demandCurve stableSorter (labelFrom 0 dearBids)).1
      (supplyCurve stableSorter (labelFrom 0 dearBids)).1).toOption.map (fun i => i.x) = some (some ((2 : ℚ) : Ext)) ∧
    (intersectStepwise (demandCurve stableSorter (labelFrom 0 cheapBids)).1
      (supplyCurve stableSorter (labelFrom 0 cheapBids)).1).toOption.map (fun i => i.x) = some (some ((2 : ℚ) : Ext)) ∧
    (intersectStepwise (demandCurve stableSorter (labelFrom 0 (dearBids ++ cheapBids))).1
      (supplyCurve stableSorter (labelFrom 0 (dearBids ++ cheapBids))).1).toOption.map (fun i => i.x) =
        some (some ((2 : ℚ) : Ext)) := by
  decide +kernel

/-- Apart the two markets can gain 8/5 each, together 88/5. -/
example : IsOptimum (utilityLP (labelFrom 0 dearBids) (fun _ => none)) (8 / 5) ∧
    IsOptimum (utilityLP (labelFrom 0 cheapBids) (fun _ => none)) (8 / 5) ∧
    IsOptimum (utilityLP (labelFrom 0 (dearBids ++ cheapBids))
      (joinRes dearBids.length (fun _ => none) (fun _ => none))) (88 / 5) := by
  have e1 : ∀ p, possibleGains (labelFrom 0 dearBids) (fun _ => none) p =
      max 0 (10 - p) + (max 0 (p - 9) + (max 0 (49 / 5 - p) + max 0 (p - 46 / 5))) := by
    intro p
    simp [possibleGains, dearBids, labelFrom]
  have e2 : ∀ p, possibleGains (labelFrom 0 cheapBids) (fun _ => none) p =
      max 0 (2 - p) + (max 0 (p - 1) + (max 0 (9 / 5 - p) + max 0 (p - 6 / 5))) := by
    intro p
    simp [possibleGains, cheapBids, labelFrom]
  refine ⟨?_, ?_, ?_⟩
  · rw [C84_welfare _ (isTable_labelFrom _) (by decide +kernel)]
    simp only [claimsAt_possible (isTable_labelFrom _), e1]
    refine ⟨⟨19 / 2, by norm_num⟩, ?_⟩
    rintro _ ⟨p, rfl⟩
    linarith [le_max_right 0 (10 - p), le_max_right 0 (p - 9), le_max_right 0 (49 / 5 - p), le_max_right 0 (p - 46 / 5)]
  · rw [C84_welfare _ (isTable_labelFrom _) (by decide +kernel)]
    simp only [claimsAt_possible (isTable_labelFrom _), e2]
    refine ⟨⟨3 / 2, by norm_num⟩, ?_⟩
    rintro _ ⟨p, rfl⟩
    linarith [le_max_right 0 (2 - p), le_max_right 0 (p - 1), le_max_right 0 (9 / 5 - p), le_max_right 0 (p - 6 / 5)]
  · rw [C84_welfare _ (isTable_labelFrom _) (by decide +kernel)]
    simp only [claimsAt_possible (isTable_labelFrom _), possibleGains_join, e1, e2]
    refine ⟨⟨5, by norm_num⟩, ?_⟩
    rintro _ ⟨p, rfl⟩
    linarith [le_max_right 0 (10 - p), le_max_left 0 (p - 9), le_max_right 0 (49 / 5 - p), le_max_left 0 (p - 46 / 5),
      le_max_left 0 (2 - p), le_max_right 0 (p - 1), le_max_left 0 (9 / 5 - p), le_max_right 0 (p - 6 / 5)]

/-- Apart each market can trade 2, together 4; the bound of the sum is met at the price 5. -/
example : IsOptimum (volumeLP (labelFrom 0 dearBids)) 2 ∧ IsOptimum (volumeLP (labelFrom 0 cheapBids)) 2 ∧
    IsOptimum (volumeLP (labelFrom 0 (dearBids ++ cheapBids))) 4 := by
  have e1 : ∀ t, volumeBound (labelFrom 0 dearBids) t = (if t < 10 then 1 else 0) + (if t < 49 / 5 then 1 else 0) +
      ((if 9 ≤ t then 1 else 0) + (if 46 / 5 ≤ t then 1 else 0)) := by
    intro t
    simp only [volumeBound, demandQtyAbove, supplyQty, filter_sum_ite]
    simp [dearBids, labelFrom]
  have e2 : ∀ t, volumeBound (labelFrom 0 cheapBids) t = (if t < 2 then 1 else 0) + (if t < 9 / 5 then 1 else 0) +
      ((if 1 ≤ t then 1 else 0) + (if 6 / 5 ≤ t then 1 else 0)) := by
    intro t
    simp only [volumeBound, demandQtyAbove, supplyQty, filter_sum_ite]
    simp [cheapBids, labelFrom]
  refine ⟨?_, ?_, ?_⟩
  · rw [C84_volume _ (isTable_labelFrom _) (by decide +kernel)]
    simp only [e1]
    refine ⟨⟨5, by norm_num⟩, ?_⟩
    rintro _ ⟨p, rfl⟩
    split_ifs <;> linarith
  · rw [C84_volume _ (isTable_labelFrom _) (by decide +kernel)]
    simp only [e2]
    refine ⟨⟨5, by norm_num⟩, ?_⟩
    rintro _ ⟨p, rfl⟩
    split_ifs <;> linarith
  · rw [C84_volume _ (isTable_labelFrom _) (by decide +kernel)]
    simp only [volumeBound_join, e1, e2]
    refine ⟨⟨5, by norm_num⟩, ?_⟩
    rintro _ ⟨p, rfl⟩
    split_ifs <;> linarith

end PyMarket
