import Verif.Spec.Shift
import Verif.Props.ClosedForm
import Verif.Props.Uniform
import Verif.Props.Equilibrium
import Verif.Props.HuangVolume
import Verif.Props.P2P
import Verif.Props.Muda

set_option autoImplicit false
namespace PyMarket
open Spec

/-! # C135: small changes of the quantities

Two books hold the same bids at the same prices, and their quantities differ. The largest quantity
that can be traded at one price, the maximal volume and the maximal welfare change by no more than
the quantities do. What Huang's auction, MUDA and peer to peer trading trade can jump. -/

theorem Spec.SameOffers.symm {df df' : DF} (h : SameOffers df df') : SameOffers df' df := by
  unfold SameOffers at *
  induction h with
  | nil => exact .nil
  | cons h _ ih => exact .cons ⟨h.1.symm, h.2.1.symm, h.2.2.symm⟩ ih

theorem sideShift_symm {df df' : DF} (h : SameOffers df df') (side : Bool) :
    sideShift side df' df = sideShift side df df' := by
  unfold SameOffers at h
  unfold sideShift
  induction h with
  | nil => rfl
  | cons h _ ih =>
    simp only [List.zip_cons_cons, List.map_cons, List.sum_cons, ih, h.1]
    rw [abs_sub_comm]

theorem sideShift_nonneg (side : Bool) (df df' : DF) : 0 ≤ sideShift side df df' := by
  unfold sideShift
  apply List.sum_nonneg
  intro y hy
  obtain ⟨p, -, rfl⟩ := List.mem_map.mp hy
  split_ifs
  · exact abs_nonneg _
  · exact le_refl _

/-- A sum of the quantities with weights that depend on side, price and label only. -/
theorem weighted_shift {df df' : DF} (h : SameOffers df df') (g : Bool → ℚ → ℕ → ℚ) (c : Bool → ℚ)
    (hg : ∀ r ∈ df, |g r.buying r.price r.label| ≤ c r.buying) :
    (df'.map (fun r => r.quantity * g r.buying r.price r.label)).sum ≤
      (df.map (fun r => r.quantity * g r.buying r.price r.label)).sum +
        (c true * sideShift true df df' + c false * sideShift false df df') := by
  unfold SameOffers at h
  unfold sideShift
  induction h with
  | nil => simp
  | @cons r r' l l' h _ ih =>
    have h1 := ih (fun s hs => hg s (List.mem_cons_of_mem _ hs))
    have h2 := hg r List.mem_cons_self
    simp only [List.zip_cons_cons, List.map_cons, List.sum_cons, h.1, h.2.1, h.2.2]
    have h3 : r'.quantity * g r.buying r.price r.label ≤
        r.quantity * g r.buying r.price r.label + c r.buying * |r'.quantity - r.quantity| := by
      have h4 : (r'.quantity - r.quantity) * g r.buying r.price r.label ≤
          |r'.quantity - r.quantity| * c r.buying :=
        (le_abs_self _).trans (by rw [abs_mul]; exact mul_le_mul_of_nonneg_left h2 (abs_nonneg _))
      linarith
    cases hb : r.buying <;> rw [hb] at h3 <;> simp <;> linarith

theorem Spec.SameOffers.forall_iff {df df' : DF} (h : SameOffers df df') (P : Bool → ℚ → ℕ → Prop) :
    (∀ r ∈ df', P r.buying r.price r.label) ↔ ∀ r ∈ df, P r.buying r.price r.label := by
  unfold SameOffers at h
  induction h with
  | nil => simp
  | cons h _ ih => simp only [List.forall_mem_cons, ih, h.1, h.2.1, h.2.2]

theorem Spec.SameOffers.table {df df' : DF} (h : SameOffers df df') (ht : IsTable df) : IsTable df' := by
  have h1 : df'.map (fun r => r.label) = df.map (fun r => r.label) ∧ df'.length = df.length := by
    unfold SameOffers at h
    clear ht
    induction h with
    | nil => exact ⟨rfl, rfl⟩
    | cons h _ ih => exact ⟨by simp only [List.map_cons, h.2.2, ih.1], by simp only [List.length_cons, ih.2]⟩
  unfold IsTable at *
  rw [h1.1, h1.2, ht]

theorem filter_sum_ite {α : Type} (l : List α) (p : α → Bool) (q : α → ℚ) :
    ((l.filter p).map q).sum = (l.map (fun r => q r * (if p r = true then 1 else 0))).sum := by
  induction l with
  | nil => rfl
  | cons a l ih =>
    by_cases h : p a = true <;> simp [h, ih]

theorem demandQty_shift {df df' : DF} (h : SameOffers df df') (p : ℚ) :
    demandQty df' p ≤ demandQty df p + sideShift true df df' := by
  have := weighted_shift h (fun b x _ => if (b && decide (p ≤ x)) = true then 1 else 0)
    (fun b => if b then 1 else 0) (by intro r _; cases r.buying <;> simp; split_ifs <;> simp)
  simp only [demandQty, filter_sum_ite]
  simpa using this

theorem supplyQty_shift {df df' : DF} (h : SameOffers df df') (p : ℚ) :
    supplyQty df' p ≤ supplyQty df p + sideShift false df df' := by
  have := weighted_shift h (fun b x _ => if (!b && decide (x ≤ p)) = true then 1 else 0)
    (fun b => if b then 0 else 1) (by intro r _; cases r.buying <;> simp; split_ifs <;> simp)
  simp only [supplyQty, filter_sum_ite]
  simpa using this

theorem demandQtyAbove_shift {df df' : DF} (h : SameOffers df df') (p : ℚ) :
    demandQtyAbove df' p ≤ demandQtyAbove df p + sideShift true df df' := by
  have := weighted_shift h (fun b x _ => if (b && decide (p < x)) = true then 1 else 0)
    (fun b => if b then 1 else 0) (by intro r _; cases r.buying <;> simp; split_ifs <;> simp)
  simp only [demandQtyAbove, filter_sum_ite]
  simpa using this

/-- One direction for the equilibrium quantity. -/
theorem equilibrium_shift {df df' : DF} (h : SameOffers df df') {q q' : ℚ}
    (hq : IsGreatest {v | ∃ p : ℚ, v = min (demandQty df p) (supplyQty df p)} q)
    (hq' : IsGreatest {v | ∃ p : ℚ, v = min (demandQty df' p) (supplyQty df' p)} q') :
    q' ≤ q + max (sideShift true df df') (sideShift false df df') := by
  obtain ⟨p, rfl⟩ := hq'.1
  have h1 := hq.2 ⟨p, rfl⟩
  have h2 := demandQty_shift h p
  have h3 := supplyQty_shift h p
  have h4 := le_max_left (sideShift true df df') (sideShift false df df')
  have h5 := le_max_right (sideShift true df df') (sideShift false df df')
  rcases le_total (demandQty df p) (supplyQty df p) with hd | hd
  · rw [min_eq_left hd] at h1
    have := min_le_left (demandQty df' p) (supplyQty df' p)
    linarith
  · rw [min_eq_right hd] at h1
    have := min_le_right (demandQty df' p) (supplyQty df' p)
    linarith

/-- **C135, equilibrium.** If the curves of both books are found to cross, the quantities at which
they cross differ by no more than the larger of the two changes: that of the buyers' quantities and
that of the sellers'. -/
theorem C135_equilibrium_partial (S S' : Sorter) (df df' : DF) (hs : SameOffers df df') (h : NonNeg df) (h' : NonNeg df')
    (k k' : ℚ) (i i' : Intersection) (q q' : ℚ)
    (hi : intersectStepwise (demandCurve S df).1 (supplyCurve S df).1 k = .ok i) (hx : i.x = some (q : Ext))
    (hi' : intersectStepwise (demandCurve S' df').1 (supplyCurve S' df').1 k' = .ok i')
    (hx' : i'.x = some (q' : Ext)) :
    |q' - q| ≤ max (sideShift true df df') (sideShift false df df') := by
  have g := C08_max_volume S df h k i q hi hx
  have g' := C08_max_volume S' df' h' k' i' q' hi' hx'
  have h1 := equilibrium_shift hs g g'
  have h2 := equilibrium_shift hs.symm g' g
  rw [sideShift_symm hs, sideShift_symm hs] at h2
  rw [abs_le]
  constructor <;> linarith

theorem uniform_greatest (S : Sorter) {df : DF} (h : NonNeg df) {tm : TransactionManager} {x : Option Ext} {v : Val}
    (hrun : uniformPrice S df = .ok (tm, x, v)) (q : ℚ) (hx : x = some (q : Ext)) :
    IsGreatest {v | ∃ p : ℚ, v = min (demandQty df p) (supplyQty df p)} q := by
  rcases intersect_cases S h (1 / 2) with ⟨y, hc, he⟩ | ⟨he, hn⟩
  · refine C08_max_volume S df h (1 / 2) _ q he ?_
    obtain ⟨mb, ms, p, -, -, -, -, -, -, -, -, -, -, -, h12⟩ := uniform_eval S h hc
    rw [hrun] at h12
    cases h12
    exact hx
  · unfold uniformPrice at hrun
    simp only [he, bind, Except.bind] at hrun
    cases hrun

/-- **C135, uniform price.** If the uniform price clears both books, the traded quantities differ
by no more than the larger of the two changes. -/
theorem C135_uniform_partial (S S' : Sorter) (df df' : DF) (ht : IsTable df) (hs : SameOffers df df')
    (h : NonNeg df) (h' : NonNeg df') (tm tm' : TransactionManager) (x x' : Option Ext) (v v' : Val)
    (hrun : uniformPrice S df = .ok (tm, x, v)) (hrun' : uniformPrice S' df' = .ok (tm', x', v')) :
    |boughtQty df' tm'.trans - boughtQty df tm.trans| ≤
      max (sideShift true df df') (sideShift false df df') := by
  obtain ⟨q, p, hx, -, -, u, -⟩ := C94_outcome S df ht h tm x v hrun
  obtain ⟨q', p', hx', -, -, u', -⟩ := C94_outcome S' df' (hs.table ht) h' tm' x' v' hrun'
  have g := uniform_greatest S h hrun q hx
  have g' := uniform_greatest S' h' hrun' q' hx'
  have h1 := equilibrium_shift hs g g'
  have h2 := equilibrium_shift hs.symm g' g
  rw [sideShift_symm hs, sideShift_symm hs] at h2
  rw [u.bought, u'.bought, abs_le]
  constructor <;> linarith

/-- **C135, Huang's auction.** If the curves of both books are found to cross, the traded quantities differ by no
more than the larger of the two changes and the largest quantity of a bid. -/
theorem C135_huang_partial (S S' : Sorter) (df df' : DF) (ht : IsTable df) (hs : SameOffers df df')
    (h : NonNeg df) (h' : NonNeg df') (k k' : ℚ) (i i' : Intersection) (q q' : ℚ)
    (hi : intersectStepwise (demandCurve S df).1 (supplyCurve S df).1 k = .ok i) (hx : i.x = some (q : Ext))
    (hi' : intersectStepwise (demandCurve S' df').1 (supplyCurve S' df').1 k' = .ok i')
    (hx' : i'.x = some (q' : Ext)) (tm tm' : TransactionManager) (ex ex' : Extra)
    (hrun : huangAuction S df = .ok (tm, ex)) (hrun' : huangAuction S' df' = .ok (tm', ex')) (Q : ℚ)
    (hQ : ∀ r ∈ df ++ df', r.quantity ≤ Q) :
    |boughtQty df' tm'.trans - boughtQty df tm.trans| ≤
      max (sideShift true df df') (sideShift false df df') + Q := by
  have h1 := abs_le.mp (C135_equilibrium_partial S S' df df' hs h h' k k' i i' q q' hi hx hi' hx')
  obtain ⟨mb, hb, ms, hm, _, _, _, _, h2, _, h3, _⟩ := C64_deficit S df ht h k i q hi hx tm ex hrun
  obtain ⟨mb', hb', ms', hm', _, _, _, _, h2', _, h3', _⟩ :=
    C64_deficit S' df' (hs.table ht) h' k' i' q' hi' hx' tm' ex' hrun'
  have h4 := max_le (hQ mb (List.mem_append_left _ hb)) (hQ ms (List.mem_append_left _ hm))
  have h4' := max_le (hQ mb' (List.mem_append_right _ hb')) (hQ ms' (List.mem_append_right _ hm'))
  rw [abs_le]
  constructor <;> linarith [h1.1, h1.2]

/-- One direction for the maximal volume. -/
theorem volume_shift {df df' : DF} (h : SameOffers df df') {y y' : ℚ}
    (hy : IsLeast {c | ∃ t, c = volumeBound df t} y) (hy' : IsLeast {c | ∃ t, c = volumeBound df' t} y') :
    y' ≤ y + (sideShift true df df' + sideShift false df df') := by
  obtain ⟨t, rfl⟩ := hy.1
  have h1 := hy'.2 ⟨t, rfl⟩
  have h2 := demandQtyAbove_shift h t
  have h3 := supplyQty_shift h t
  unfold volumeBound at *
  linarith

/-- **C135, volume.** The optimal values of the programs of `maximum_traded_volume` differ by no
more than the changes of all quantities together. -/
theorem C135_volume (df df' : DF) (ht : IsTable df) (hs : SameOffers df df') (hq : ∀ r ∈ df, 0 ≤ r.quantity)
    (hq' : ∀ r ∈ df', 0 ≤ r.quantity) (y y' : ℚ) (hy : IsOptimum (volumeLP df) y) (hy' : IsOptimum (volumeLP df') y') :
    |y' - y| ≤ sideShift true df df' + sideShift false df df' := by
  rw [C84_volume df ht hq] at hy
  rw [C84_volume df' (hs.table ht) hq'] at hy'
  have h1 := volume_shift hs hy hy'
  have h2 := volume_shift hs.symm hy' hy
  rw [sideShift_symm hs, sideShift_symm hs] at h2
  rw [abs_le]
  constructor <;> linarith

/-- Prices outside the range of the values need not be considered. -/
theorem claims_clamp {df : DF} {value : ℕ → ℚ} {lo hi : ℚ} (hle : lo ≤ hi) (hq : ∀ r ∈ df, 0 ≤ r.quantity)
    (hv : ∀ r ∈ df, lo ≤ value r.label ∧ value r.label ≤ hi) (p : ℚ) :
    ∃ t, lo ≤ t ∧ t ≤ hi ∧ claimsAt df value t ≤ claimsAt df value p := by
  refine ⟨max lo (min hi p), le_max_left _ _, max_le hle (min_le_left _ _), ?_⟩
  unfold claimsAt
  apply List.sum_le_sum
  intro r hr
  refine mul_le_mul_of_nonneg_left ?_ (hq r hr)
  obtain ⟨h1, h2⟩ := hv r hr
  rcases le_total p lo with hp | hp
  · have : min hi p = p := min_eq_right (hp.trans hle)
    rw [this, max_eq_left hp]
    split_ifs
    · exact max_le_max (le_refl _) (by linarith)
    · rw [max_eq_left (by linarith)]; exact le_max_left _ _
  · rcases le_total p hi with hp' | hp'
    · rw [min_eq_right hp', max_eq_right hp]
    · rw [min_eq_left hp', max_eq_right hle]
      split_ifs
      · rw [max_eq_left (by linarith)]; exact le_max_left _ _
      · exact max_le_max (le_refl _) (by linarith)

/-- One direction for the maximal welfare. -/
theorem welfare_shift {df df' : DF} (h : SameOffers df df') {value : ℕ → ℚ} {lo hi : ℚ} (hle : lo ≤ hi)
    (hq : ∀ r ∈ df, 0 ≤ r.quantity) (hv : ∀ r ∈ df, lo ≤ value r.label ∧ value r.label ≤ hi) {y y' : ℚ}
    (hy : IsLeast {c | ∃ p, c = claimsAt df value p} y) (hy' : IsLeast {c | ∃ p, c = claimsAt df' value p} y') :
    y' ≤ y + (hi - lo) * max (sideShift true df df') (sideShift false df df') := by
  obtain ⟨p, rfl⟩ := hy.1
  obtain ⟨t, h1, h2, h3⟩ := claims_clamp hle hq hv p
  have h4 := hy'.2 ⟨t, rfl⟩
  have h5 := weighted_shift h (fun b _ l => if b then max 0 (value l - t) else max 0 (t - value l))
    (fun b => if b then hi - t else t - lo) (by
      intro r hr
      obtain ⟨h6, h7⟩ := hv r hr
      cases r.buying
      · simp only [Bool.false_eq_true, if_false]
        rw [abs_of_nonneg (le_max_left _ _)]
        exact max_le (by linarith) (by linarith)
      · simp only [if_true]
        rw [abs_of_nonneg (le_max_left _ _)]
        exact max_le (by linarith) (by linarith))
  have h8 := mul_le_mul_of_nonneg_left (le_max_left (sideShift true df df') (sideShift false df df'))
    (sub_nonneg.mpr h2)
  have h9 := mul_le_mul_of_nonneg_left (le_max_right (sideShift true df df') (sideShift false df df'))
    (sub_nonneg.mpr h1)
  unfold claimsAt at *
  simp only [Bool.false_eq_true, if_false, if_true] at h5
  nlinarith

/-- **C135, welfare.** With values between `lo` and `hi`, the optimal values of the programs of
`maximum_aggregated_utility` differ by no more than `hi - lo` times the larger of the two changes. -/
theorem C135_welfare (df df' : DF) (ht : IsTable df) (hs : SameOffers df df') (hq : ∀ r ∈ df, 0 ≤ r.quantity)
    (hq' : ∀ r ∈ df', 0 ≤ r.quantity) (res : ResPrices) (lo hi : ℚ) (hle : lo ≤ hi)
    (hv : ∀ r ∈ df, lo ≤ (res r.label).getD r.price ∧ (res r.label).getD r.price ≤ hi) (y y' : ℚ)
    (hy : IsOptimum (utilityLP df res) y) (hy' : IsOptimum (utilityLP df' res) y') :
    |y' - y| ≤ (hi - lo) * max (sideShift true df df') (sideShift false df df') := by
  have ht' := hs.table ht
  rw [C84_welfare df ht hq] at hy
  rw [C84_welfare df' ht' hq'] at hy'
  have hv' : ∀ r ∈ df', lo ≤ (res r.label).getD r.price ∧ (res r.label).getD r.price ≤ hi :=
    (hs.forall_iff (fun _ p l => lo ≤ (res l).getD p ∧ (res l).getD p ≤ hi)).mpr hv
  have e1 : ∀ r ∈ df, valueOf df res r.label = (res r.label).getD r.price := by
    intro r hr; unfold valueOf; rw [ht.price_eq hr]
  have e2 : ∀ r ∈ df', valueOf df' res r.label = (res r.label).getD r.price := by
    intro r hr; unfold valueOf; rw [ht'.price_eq hr]
  have e3 : ∀ r ∈ df', valueOf df' res r.label = valueOf df res r.label := by
    have : ∀ r ∈ df, valueOf df res r.label = (res r.label).getD r.price := e1
    have h2 := (hs.forall_iff (fun _ p l => valueOf df res l = (res l).getD p)).mpr this
    intro r hr
    rw [e2 r hr, h2 r hr]
  have e4 : ∀ p, claimsAt df' (valueOf df' res) p = claimsAt df' (valueOf df res) p := by
    intro p
    unfold claimsAt
    congr 1
    apply List.map_congr_left
    intro r hr
    rw [e3 r hr]
  simp only [e4] at hy'
  have h1 := welfare_shift hs hle hq (fun r hr => by rw [e1 r hr]; exact hv r hr) hy hy'
  have h2 := welfare_shift hs.symm hle hq' (fun r hr => by rw [← e3 r hr, e2 r hr]; exact hv' r hr) hy' hy
  rw [sideShift_symm hs, sideShift_symm hs] at h2
  rw [abs_le]
  constructor <;> linarith

/-! ## What can jump -/

/-- A book in which one buyer offers `e`: buyers 2 @ 10, `e` @ 9; sellers 2 @ 1, 2 @ 2. -/
def jumpHuang (e : ℚ) : DF := labelFrom 0 [⟨2, 10, 0, true, 0, true⟩, ⟨e, 9, 1, true, 0, true⟩,
  ⟨2, 1, 2, false, 0, true⟩, ⟨2, 2, 3, false, 0, true⟩]

/-- Two more bids for the two halves of MUDA. -/
def jumpMuda (e : ℚ) : DF := labelFrom 0 [⟨2, 10, 0, true, 0, true⟩, ⟨e, 9, 1, true, 0, true⟩,
  ⟨2, 1, 2, false, 0, true⟩, ⟨2, 3, 3, false, 0, true⟩, ⟨1, 8, 4, true, 0, true⟩, ⟨1, 2, 5, false, 0, true⟩]

/-- Buyers 1 @ 9, 2 @ 10, 2 @ 5; sellers `1 - e` @ 1, 2 @ 2, 2 @ 7, 2 @ 20. -/
def jumpP2P (e : ℚ) : DF := labelFrom 0 [⟨1, 9, 0, true, 0, true⟩, ⟨2, 10, 1, true, 0, true⟩,
  ⟨2, 5, 2, true, 0, true⟩, ⟨1 - e, 1, 3, false, 0, true⟩, ⟨2, 2, 4, false, 0, true⟩, ⟨2, 7, 5, false, 0, true⟩,
  ⟨2, 20, 6, false, 0, true⟩]

/-- Buyers 1 @ 10, `e` @ 5; sellers 1 @ 1, 1 @ 5. -/
def jumpTie (e : ℚ) : DF := labelFrom 0 [⟨1, 10, 0, true, 0, true⟩, ⟨e, 5, 1, true, 0, true⟩,
  ⟨1, 1, 2, false, 0, true⟩, ⟨1, 5, 3, false, 0, true⟩]

/-- The meetings that are drawn. -/
def jumpChoice (n : ℕ) : ℕ := ([1939, 2316, 2321, 308, 880, 1517, 136, 903, 2172, 986, 2385, 1766, 775, 286][n]?).getD 0

/-- **C135 refuted for the mechanisms.** A thousandth of a unit changes what Huang's auction trades by 2,
what MUDA trades by almost 1, and what peer to peer trading trades by almost 2, with the same sort,
coins and draws. The uniform price clears the book without the extra quantity and raises with it. -/
theorem C135_refuted :
    (huangAuction stableSorter (jumpHuang 0)).toOption.map (fun o => boughtQty (jumpHuang 0) o.1.trans) = some 0 ∧
    (huangAuction stableSorter (jumpHuang (1 / 1000))).toOption.map
      (fun o => boughtQty (jumpHuang (1 / 1000)) o.1.trans) = some 2 ∧
    (muda stableSorter (fun n => Nat.testBit 24 n) (jumpMuda 0)).toOption.map
      (fun o => boughtQty (jumpMuda 0) o.1.trans) = some 3 ∧
    (muda stableSorter (fun n => Nat.testBit 24 n) (jumpMuda (1 / 1000))).toOption.map
      (fun o => boughtQty (jumpMuda (1 / 1000)) o.1.trans) = some (2001 / 1000) ∧
    (p2pRandom (1 / 2) jumpChoice (jumpP2P 0)).toOption.map (fun o => boughtQty (jumpP2P 0) o.1.trans) = some 3 ∧
    (p2pRandom (1 / 2) jumpChoice (jumpP2P (1 / 1000))).toOption.map
      (fun o => boughtQty (jumpP2P (1 / 1000)) o.1.trans) = some (4999 / 1000) ∧
    (uniformPrice stableSorter (jumpTie 0)).toOption.map (fun o => boughtQty (jumpTie 0) o.1.trans) = some 1 ∧
    (uniformPrice stableSorter (jumpTie (1 / 1000))).toOption.isNone = true := by
  decide +kernel

/-- Each pair of books is the same but for a thousandth of a unit on one side. -/
example : (SameOffers (jumpHuang 0) (jumpHuang (1 / 1000)) ∧ sideShift true (jumpHuang 0) (jumpHuang (1 / 1000)) = 1 / 1000 ∧
      sideShift false (jumpHuang 0) (jumpHuang (1 / 1000)) = 0) ∧
    (SameOffers (jumpMuda 0) (jumpMuda (1 / 1000)) ∧ sideShift true (jumpMuda 0) (jumpMuda (1 / 1000)) = 1 / 1000 ∧
      sideShift false (jumpMuda 0) (jumpMuda (1 / 1000)) = 0) ∧
    (SameOffers (jumpP2P 0) (jumpP2P (1 / 1000)) ∧ sideShift true (jumpP2P 0) (jumpP2P (1 / 1000)) = 0 ∧
      sideShift false (jumpP2P 0) (jumpP2P (1 / 1000)) = 1 / 1000) ∧
    (SameOffers (jumpTie 0) (jumpTie (1 / 1000)) ∧ sideShift true (jumpTie 0) (jumpTie (1 / 1000)) = 1 / 1000 ∧
      sideShift false (jumpTie 0) (jumpTie (1 / 1000)) = 0) := by
  unfold SameOffers
  decide +kernel

/-! ## The hypotheses are met, and the bounds are reached -/

/-- Buyers `b` @ 10, 2 @ 5; sellers `s` @ 1, 2 @ 7. -/
def shiftBook (b s : ℚ) : DF := labelFrom 0 [⟨b, 10, 0, true, 0, true⟩, ⟨2, 5, 1, true, 0, true⟩,
  ⟨s, 1, 2, false, 0, true⟩, ⟨2, 7, 3, false, 0, true⟩]

/-- The uniform price trades 1 before and 2 after, and both sides change by 1. -/
example : SameOffers (shiftBook 1 1) (shiftBook 2 2) ∧ IsTable (shiftBook 1 1) ∧ NonNeg (shiftBook 1 1) ∧
    NonNeg (shiftBook 2 2) ∧ sideShift true (shiftBook 1 1) (shiftBook 2 2) = 1 ∧
    sideShift false (shiftBook 1 1) (shiftBook 2 2) = 1 ∧
    (uniformPrice stableSorter (shiftBook 1 1)).toOption.map (fun o => boughtQty (shiftBook 1 1) o.1.trans) = some 1 ∧
    (uniformPrice stableSorter (shiftBook 2 2)).toOption.map (fun o => boughtQty (shiftBook 2 2) o.1.trans) = some 2 := by
  refine ⟨by simp [SameOffers, shiftBook, labelFrom], ?_⟩
  decide +kernel

/-- Huang's auction trades nothing before and 2 after, within the bound of a thousandth and 2. -/
example : NonNeg (jumpHuang 0) ∧ NonNeg (jumpHuang (1 / 1000)) ∧ (∀ r ∈ jumpHuang 0 ++ jumpHuang (1 / 1000), r.quantity ≤ 2) ∧
    (intersectStepwise (demandCurve stableSorter (jumpHuang 0)).1 (supplyCurve stableSorter (jumpHuang 0)).1).toOption.map
      (fun i => i.x) = some (some ((2 : ℚ) : Ext)) ∧
    (intersectStepwise (demandCurve stableSorter (jumpHuang (1 / 1000))).1
      (supplyCurve stableSorter (jumpHuang (1 / 1000))).1).toOption.map (fun i => i.x) =
        some (some ((2001 / 1000 : ℚ) : Ext)) := by
  decide +kernel

/-- The maximal volume of the book with `c` units on each side. -/
theorem shiftBook_volume (c : ℚ) (h0 : 0 ≤ c) (h1 : c ≤ 2) : IsOptimum (volumeLP (shiftBook c c)) (2 * c) := by
  rw [C84_volume _ (by simp [IsTable, shiftBook, labelFrom, List.range_succ]) (by simp [shiftBook, labelFrom, h0])]
  constructor
  · refine ⟨6, ?_⟩
    simp [volumeBound, demandQtyAbove, supplyQty, shiftBook, labelFrom]
    norm_num [List.filter]
    ring
  · rintro _ ⟨t, rfl⟩
    simp only [volumeBound, demandQtyAbove, supplyQty, filter_sum_ite]
    simp [shiftBook, labelFrom]
    split_ifs <;> linarith

/-- The maximal welfare of the same book. -/
theorem shiftBook_welfare (c : ℚ) (h0 : 0 ≤ c) : IsOptimum (utilityLP (shiftBook c c) (fun _ => none)) (9 * c) := by
  rw [C84_welfare _ (by simp [IsTable, shiftBook, labelFrom, List.range_succ]) (by simp [shiftBook, labelFrom, h0])]
  have e : ∀ p, claimsAt (shiftBook c c) (valueOf (shiftBook c c) (fun _ => none)) p =
      c * max 0 (10 - p) + (2 * max 0 (5 - p) + (c * max 0 (p - 1) + 2 * max 0 (p - 7))) := by
    intro p
    simp [claimsAt, valueOf, shiftBook, labelFrom, priceOf]
  constructor
  · refine ⟨6, ?_⟩
    rw [e]
    norm_num
    ring
  · rintro _ ⟨p, rfl⟩
    rw [e]
    have h1 := le_max_right 0 (10 - p)
    have h2 := le_max_right 0 (p - 1)
    have h3 := le_max_left 0 (5 - p)
    have h4 := le_max_left 0 (p - 7)
    nlinarith [mul_le_mul_of_nonneg_left h1 h0, mul_le_mul_of_nonneg_left h2 h0]

/-- The bounds of `C135_volume` and `C135_welfare` are reached: one more unit on each side raises the
maximal volume from 2 to 4 and the maximal welfare from 9 to 18, with values between 1 and 10. -/
example : IsOptimum (volumeLP (shiftBook 1 1)) 2 ∧ IsOptimum (volumeLP (shiftBook 2 2)) 4 ∧
    IsOptimum (utilityLP (shiftBook 1 1) (fun _ => none)) 9 ∧
    IsOptimum (utilityLP (shiftBook 2 2) (fun _ => none)) 18 := by
  have h1 := shiftBook_volume 1 (by norm_num) (by norm_num)
  have h2 := shiftBook_volume 2 (by norm_num) (by norm_num)
  have h3 := shiftBook_welfare 1 (by norm_num)
  have h4 := shiftBook_welfare 2 (by norm_num)
  norm_num at h1 h2 h3 h4
  exact ⟨h1, h2, h3, h4⟩

end PyMarket
