import Verif.Props.HuangLosers
import Verif.Lemmas.LP
import Verif.Props.HuangTruthful

/-! # C85: reporting the true quantity to Huang's auction -/

set_option autoImplicit false

namespace PyMarket

open Spec

theorem sum_map_set (g : Row → ℚ) {df : DF} {i : ℕ} {r r' : Row} (hi : df[i]? = some r) :
    ((df.set i r').map g).sum + g r = (df.map g).sum + g r' := by
  induction df generalizing i with
  | nil => simp at hi
  | cons a df ih =>
    cases i with
    | zero =>
      simp only [List.getElem?_cons_zero, Option.some.injEq] at hi
      subst hi
      simp only [List.set_cons_zero, List.map_cons, List.sum_cons]
      ring
    | succ i =>
      simp only [List.getElem?_cons_succ] at hi
      have := ih hi
      simp only [List.set_cons_succ, List.map_cons, List.sum_cons]
      linarith

/-- The total of the bids selected by `I`, each cut by `c`. -/
def Spec.cutTotal (df : DF) (I : Row → Bool) (c : ℚ) : ℚ :=
  (df.map (fun r => if I r then max (r.quantity - c) 0 else 0)).sum

theorem cutTotal_perm {df l : DF} {I : Row → Bool} (h : l.Perm (df.filter I)) (c : ℚ) :
    (cut c (l.map (fun r => r.quantity))).sum = cutTotal df I c := by
  unfold cut cutTotal
  rw [List.map_map, ((h.map _).sum_eq : _ = ((df.filter I).map _).sum), sum_filter_map]
  rfl

theorem cutTotal_zero {df : DF} (hq : ∀ r ∈ df, 0 ≤ r.quantity) {l : DF} {I : Row → Bool}
    (h : l.Perm (df.filter I)) : qsum l = cutTotal df I 0 := by
  unfold qsum cutTotal
  rw [((h.map _).sum_eq : _ = ((df.filter I).map _).sum), sum_filter_map]
  congr 1
  apply List.map_congr_left
  intro r hr
  rw [sub_zero, max_eq_left (hq r hr)]

/-- A bid that lowers its quantity does not get more of a total that does not grow. -/
theorem cut_quantity_mono {df : DF} {I : Row → Bool} {i : ℕ} {r r' : Row} (hi : df[i]? = some r)
    (hI : I r = true) (hI' : I r' = true) (hq : r'.quantity ≤ r.quantity) {c c' : ℚ}
    (hT : cutTotal (df.set i r') I c' ≤ cutTotal df I c) :
    max (r'.quantity - c') 0 ≤ max (r.quantity - c) 0 := by
  by_contra hlt
  rw [not_le] at hlt
  have hcc : c' ≤ c := by
    by_contra hc
    rw [not_le] at hc
    exact absurd hlt (not_lt.mpr (max_le_max (by linarith) (le_refl 0)))
  have h1 := sum_map_set (fun r => if I r then max (r.quantity - c') 0 else 0) (r' := r') hi
  have h2 := sum_add_le (f := fun r => if I r then max (r.quantity - c) 0 else 0)
    (g := fun r => if I r then max (r.quantity - c') 0 else 0) (l := df) (r := r)
    (c := max (r.quantity - c') 0 - max (r.quantity - c) 0) (List.mem_of_getElem? hi)
    (by
      intro a _
      split
      · exact max_le_max (by linarith) (le_refl 0)
      · exact le_refl _)
    (by simp only [hI, if_true]; linarith)
  simp only [hI, hI', if_true] at h1
  unfold cutTotal at hT
  linarith

/-- The bids of a side in front of the marginal price. -/
def frontBuy (pb : ℚ) (r : Row) : Bool := r.buying && decide (pb < r.price)

@[inherit_doc frontBuy]
def frontSell (ps : ℚ) (r : Row) : Bool := !r.buying && decide (r.price < ps)

section

variable {S : Sorter} {df : DF}

theorem huangB_perm (ht : IsTable df) (h : NonNeg df) {x pb : ℚ} (hc : Crossing S df x)
    (hpb : demandAt S df x = (pb : Ext)) (hst : ∀ r ∈ huangB S df x, pb < r.price) :
    (huangB S df x).Perm (df.filter (frontBuy pb)) := by
  rw [List.perm_ext_iff_of_nodup (List.Nodup.of_map _ (huangB_labels_nodup ht.nodup x))
    ((List.Nodup.of_map _ ht.nodup).sublist List.filter_sublist)]
  intro a
  rw [huangB_mem_iff h hc hpb hst, List.mem_filter]
  unfold frontBuy
  simp

theorem huangA_perm (ht : IsTable df) {x ps : ℚ} (hc : Crossing S df x)
    (hps : supplyAt S df x = (ps : Ext)) (hst : ∀ r ∈ huangA S df x, r.price < ps) :
    (huangA S df x).Perm (df.filter (frontSell ps)) := by
  rw [List.perm_ext_iff_of_nodup (List.Nodup.of_map _ (huangA_labels_nodup ht.nodup x))
    ((List.Nodup.of_map _ ht.nodup).sublist List.filter_sublist)]
  intro a
  rw [huangA_mem_iff hc hps hst, List.mem_filter]
  unfold frontSell
  simp

/-- No two bids of a side have the same price. -/
def Spec.DistinctPrices (df : DF) : Prop :=
  ∀ a ∈ df, ∀ b ∈ df, a.buying = b.buying → a.price = b.price → a = b

/-- Only one buyer bids `pb` and only one seller `ps`. -/
def Spec.UniqueAt (df : DF) (ps pb : ℚ) : Prop :=
  ∀ a ∈ df, ∀ b ∈ df, a.buying = b.buying → a.price = (if a.buying then pb else ps) →
    b.price = (if b.buying then pb else ps) → a = b

theorem Spec.DistinctPrices.uniqueAt (h : DistinctPrices df) (ps pb : ℚ) : UniqueAt df ps pb :=
  fun a ha b hb h1 h2 h3 => h a ha b hb h1 (by rw [h2, h3, h1])

/-- The allocation of `huang_auction` on a book with only one bid at either marginal price. -/
theorem huang_alloc (S : Sorter) (ht : IsTable df) (hn : NonNeg df)
    {tm : TransactionManager} {ps pb q : ℚ} (hd : UniqueAt df ps pb)
    (h : huangAuction S df = .ok (tm, .huang (ps : Ext) (pb : Ext) q)) :
    (∀ t ∈ tm.trans, (isBuy df t.bid = true → t.price = pb) ∧ (isSell df t.bid = true → t.price = ps)) ∧
    ((tm.trans = [] ∧ (df.filter (frontBuy pb) = [] ∨ df.filter (frontSell ps) = [])) ∨
    (df.filter (frontBuy pb) ≠ [] ∧ df.filter (frontSell ps) ≠ [] ∧ ∃ cs cb : ℚ, 0 ≤ cs ∧ 0 ≤ cb ∧
      cutTotal df (frontBuy pb) cb =
        min (cutTotal df (frontSell ps) 0) (cutTotal df (frontBuy pb) 0) ∧
      cutTotal df (frontSell ps) cs =
        min (cutTotal df (frontSell ps) 0) (cutTotal df (frontBuy pb) 0) ∧
      ∀ r ∈ df, (r.buying = true → tradedBy tm.trans r.label =
          if frontBuy pb r then max (r.quantity - cb) 0 else 0) ∧
        (r.buying = false → tradedBy tm.trans r.label =
          if frontSell ps r then max (r.quantity - cs) 0 else 0))) := by
  have hq : ∀ r ∈ df, 0 ≤ r.quantity := fun r hr => (hn r hr).1
  rcases huang_cases S hn with ⟨h', _⟩ | ⟨x, ps', pb', hc, hps, hpb, hlt, hcase⟩
  · rw [h] at h'; cases h'
  obtain ⟨rfl, rfl⟩ : ps = ps' ∧ pb = pb' := by
    rcases hcase with ⟨_, _, _, _, _, _, _, _, _, heq⟩ | ⟨_, heq⟩
    · rw [h] at heq; cases heq; exact ⟨rfl, rfl⟩
    · rw [h] at heq; cases heq; exact ⟨rfl, rfl⟩
  have stB := huangB_strict' ht hn hc hpb (fun a ha b hb h1 h2 h3 h4 =>
    hd a ha b hb (h1.trans h2.symm) (by rw [h1, if_pos rfl, h3]) (by rw [h2, if_pos rfl, h4]))
  have stA := huangA_strict' ht hc hps (fun a ha b hb h1 h2 h3 h4 =>
    hd a ha b hb (h1.trans h2.symm) (by rw [h1, h3]; simp) (by rw [h2, h4]; simp))
  have pB := huangB_perm ht hn hc hpb stB
  have pA := huangA_perm ht hc hps stA
  rcases hcase with ⟨hB, hA, cs, cb, hcs, hcb, hor, hsA, hsB, heq⟩ | ⟨hor, heq⟩
  swap
  · rw [h] at heq
    cases heq
    refine ⟨?_, Or.inl ⟨rfl, ?_⟩⟩
    · intro t htm
      exact absurd htm List.not_mem_nil
    rcases hor with e | e
    · left; rw [e] at pB; exact List.nil_perm.mp pB
    · right; rw [e] at pA; exact List.nil_perm.mp pA
  have hnd : (tm.trans.map (fun t => t.bid)).Nodup := by
    rcases huang_direct S ht hn with h' | ⟨tm', ps, pb, q, h', hO, -⟩
    · rw [h] at h'; cases h'
    · rw [h] at h'; cases h'; exact hO.nodup
  rw [h] at heq
  cases heq
  rw [TransactionManager.init_addAll_trans] at hnd ⊢
  have sB := huangB_spec hn hc hpb
  have sA := huangA_spec hc hps
  refine ⟨?_, Or.inr ⟨?_, ?_, cs, cb, hcs, hcb, ?_, ?_, ?_⟩⟩
  · intro t htm
    rcases List.mem_append.mp htm with h' | h'
    · obtain ⟨a, ha, rfl⟩ := List.mem_map.mp h'
      have e := ht.isBuy_eq (sA.1 a ha).1
      rw [(sA.1 a ha).2.1] at e
      exact ⟨fun hb => by simp [e] at hb, fun _ => rfl⟩
    · obtain ⟨a, ha, rfl⟩ := List.mem_map.mp h'
      have e := ht.isSell_eq (sB.1 a ha).1
      rw [(sB.1 a ha).2.1] at e
      exact ⟨fun _ => rfl, fun hb => by simp [e] at hb⟩
  · intro e; rw [e] at pB; exact hB (List.perm_nil.mp pB)
  · intro e; rw [e] at pA; exact hA (List.perm_nil.mp pA)
  · rw [← cutTotal_perm pB, hsB, cutTotal_zero hq pA, cutTotal_zero hq pB]
  · rw [← cutTotal_perm pA, hsA, cutTotal_zero hq pA, cutTotal_zero hq pB]
  · intro r hr
    constructor
    · intro hb
      by_cases hf : frontBuy pb r = true
      · rw [if_pos hf]
        have hm : r ∈ huangB S df x := pB.mem_iff.mpr (List.mem_filter.mpr ⟨hr, hf⟩)
        exact tradedBy_nodup hnd (t := ⟨r.label, max (r.quantity - cb) 0, pb, -1, false⟩)
          (List.mem_append_right _ (List.mem_map.mpr ⟨r, hm, rfl⟩))
      · rw [if_neg hf]
        apply tradedBy_not_mem
        intro t htm hbid
        rcases List.mem_append.mp htm with h' | h'
        · obtain ⟨a, ha, rfl⟩ := List.mem_map.mp h'
          obtain rfl : a = r := ht.inj (sA.1 a ha).1 hr hbid
          rw [(sA.1 a ha).2.1] at hb
          cases hb
        · obtain ⟨a, ha, rfl⟩ := List.mem_map.mp h'
          obtain rfl : a = r := ht.inj (sB.1 a ha).1 hr hbid
          exact hf (List.mem_filter.mp (pB.mem_iff.mp ha)).2
    · intro hb
      by_cases hf : frontSell ps r = true
      · rw [if_pos hf]
        have hm : r ∈ huangA S df x := pA.mem_iff.mpr (List.mem_filter.mpr ⟨hr, hf⟩)
        exact tradedBy_nodup hnd (t := ⟨r.label, max (r.quantity - cs) 0, ps, -1, false⟩)
          (List.mem_append_left _ (List.mem_map.mpr ⟨r, hm, rfl⟩))
      · rw [if_neg hf]
        apply tradedBy_not_mem
        intro t htm hbid
        rcases List.mem_append.mp htm with h' | h'
        · obtain ⟨a, ha, rfl⟩ := List.mem_map.mp h'
          obtain rfl : a = r := ht.inj (sA.1 a ha).1 hr hbid
          exact hf (List.mem_filter.mp (pA.mem_iff.mp ha)).2
        · obtain ⟨a, ha, rfl⟩ := List.mem_map.mp h'
          obtain rfl : a = r := ht.inj (sB.1 a ha).1 hr hbid
          rw [(sB.1 a ha).2.1] at hb
          cases hb

/-- The bids of the side `b` (`true` for buyers) in front of the marginal price. -/
def front (ps pb : ℚ) (b : Bool) (r : Row) : Bool := if b then frontBuy pb r else frontSell ps r

theorem front_side {ps pb : ℚ} {b : Bool} {r : Row} (h : front ps pb b r = true) : r.buying = b := by
  cases b
  · simp only [front, frontSell, Bool.false_eq_true, if_false, Bool.and_eq_true] at h
    simpa using h.1
  · simp only [front, frontBuy, if_true, Bool.and_eq_true] at h
    exact h.1

theorem cutTotal_large {I : Row → Bool} {M : ℚ} (hM : ∀ r ∈ df, r.quantity ≤ M) :
    cutTotal df I M = 0 := by
  unfold cutTotal
  apply List.sum_eq_zero
  intro y hy
  obtain ⟨r, hr, rfl⟩ := List.mem_map.mp hy
  rw [max_eq_right (by have := hM r hr; linarith)]
  simp

theorem cutTotal_nonneg {I : Row → Bool} {c : ℚ} : 0 ≤ cutTotal df I c := by
  unfold cutTotal
  apply List.sum_nonneg
  intro y hy
  obtain ⟨r, hr, rfl⟩ := List.mem_map.mp hy
  split
  · exact le_max_right _ _
  · exact le_refl _

theorem cutTotal_filter_nil {I : Row → Bool} {c : ℚ} (h : df.filter I = []) : cutTotal df I c = 0 := by
  unfold cutTotal
  rw [← sum_filter_map, h]
  rfl

theorem exists_quantity_bound (df : DF) : ∃ M : ℚ, 0 ≤ M ∧ ∀ r ∈ df, r.quantity ≤ M := by
  induction df with
  | nil => exact ⟨0, le_refl _, by simp⟩
  | cons a df ih =>
    obtain ⟨M, h0, hM⟩ := ih
    refine ⟨max M a.quantity, le_trans h0 (le_max_left _ _), ?_⟩
    intro r hr
    rcases List.mem_cons.mp hr with rfl | hr
    · exact le_max_right _ _
    · exact le_trans (hM r hr) (le_max_left _ _)

/-- The same for both sides, also when nothing is traded. -/
theorem huang_sides (S : Sorter) (ht : IsTable df) (hn : NonNeg df)
    {tm : TransactionManager} {ps pb q : ℚ} (hd : UniqueAt df ps pb)
    (h : huangAuction S df = .ok (tm, .huang (ps : Ext) (pb : Ext) q)) :
    (∀ t ∈ tm.trans, ∀ r ∈ df, t.bid = r.label → t.price = if r.buying then pb else ps) ∧
    ∃ c : Bool → ℚ, (∀ b, 0 ≤ c b) ∧
      (∀ b, cutTotal df (front ps pb b) (c b) =
        min (cutTotal df (front ps pb b) 0) (cutTotal df (front ps pb (!b)) 0)) ∧
      ∀ r ∈ df, tradedBy tm.trans r.label =
        if front ps pb r.buying r then max (r.quantity - c r.buying) 0 else 0 := by
  obtain ⟨hp, hcase⟩ := huang_alloc S ht hn hd h
  constructor
  · intro t htm r hr hbid
    have h1 := hp t htm
    rw [hbid, ht.isBuy_eq hr, ht.isSell_eq hr] at h1
    cases hb : r.buying
    · rw [hb] at h1; simpa using h1.2 rfl
    · rw [hb] at h1; simpa using h1.1 rfl
  rcases hcase with ⟨hnil, hor⟩ | ⟨-, -, cs, cb, hcs, hcb, hB, hA, hall⟩
  · obtain ⟨M, h0, hM⟩ := exists_quantity_bound df
    refine ⟨fun _ => M, fun _ => h0, ?_, ?_⟩
    · intro b
      rw [cutTotal_large hM]
      have h1 : cutTotal df (front ps pb b) 0 = 0 ∨ cutTotal df (front ps pb (!b)) 0 = 0 := by
        cases b <;> rcases hor with e | e
        · right; exact cutTotal_filter_nil e
        · left; exact cutTotal_filter_nil e
        · left; exact cutTotal_filter_nil e
        · right; exact cutTotal_filter_nil e
      rcases h1 with e | e
      · rw [e, min_eq_left cutTotal_nonneg]
      · rw [e, min_eq_right cutTotal_nonneg]
    · intro r hr
      rw [hnil, max_eq_right (by have := hM r hr; linarith)]
      simp [tradedBy]
  · refine ⟨fun b => if b then cb else cs, ?_, ?_, ?_⟩
    · intro b; cases b
      · exact hcs
      · exact hcb
    · intro b; cases b
      · exact hA
      · rw [min_comm]; exact hB
    · intro r hr
      cases hb : r.buying
      · exact (hall r hr).2 hb
      · exact (hall r hr).1 hb

/-- A smaller total cut from the same bids gives every bid at most as much. -/
theorem cut_total_mono {I : Row → Bool} {c c' : ℚ} {a : Row} (ha : a ∈ df) (hI : I a = true)
    (hT : cutTotal df I c' ≤ cutTotal df I c) : max (a.quantity - c') 0 ≤ max (a.quantity - c) 0 := by
  obtain ⟨i, hi, e⟩ := List.getElem_of_mem ha
  have hi' : df[i]? = some a := List.getElem?_eq_some_iff.mpr ⟨hi, e⟩
  refine cut_quantity_mono hi' hI hI (le_refl _) ?_
  have : df.set i a = df := by rw [← e]; exact List.set_getElem_self hi
  rw [this]
  exact hT

end

theorem cutTotal_set_other {df : DF} {I : Row → Bool} {i : ℕ} {r r' : Row} (hi : df[i]? = some r)
    (h : I r = false) (h' : I r' = false) (c : ℚ) : cutTotal (df.set i r') I c = cutTotal df I c := by
  have := sum_map_set (fun r => if I r then max (r.quantity - c) 0 else 0) (r' := r') hi
  simp only [h, h', Bool.false_eq_true, if_false, add_zero] at this
  exact this

/-- Cutting more gives the same bids less, by at least what one of them loses. -/
theorem cutTotal_lt {df : DF} {I : Row → Bool} {c c' : ℚ} {a : Row} (ha : a ∈ df) (hI : I a = true)
    (hc : c ≤ c') (hlt : max (a.quantity - c') 0 < max (a.quantity - c) 0) :
    cutTotal df I c' < cutTotal df I c := by
  have := sum_add_le (f := fun r => if I r then max (r.quantity - c') 0 else 0)
    (g := fun r => if I r then max (r.quantity - c) 0 else 0) (l := df) (r := a)
    (c := max (a.quantity - c) 0 - max (a.quantity - c') 0) ha
    (by
      intro b _
      split
      · exact max_le_max (by linarith) (le_refl 0)
      · exact le_refl _)
    (by simp only [hI, if_true]; linarith)
  unfold cutTotal
  linarith

theorem distinct_set {df : DF} (ht : IsTable df) (hd : DistinctPrices df) {i : ℕ} {r r' : Row}
    (hi : df[i]? = some r) (hl : r'.label = r.label) (hb : r'.buying = r.buying)
    (hp : r'.price = r.price) : DistinctPrices (df.set i r') := by
  have hrm := List.mem_of_getElem? hi
  have hnot : ∀ a ∈ df.set i r', a = r' ∨ a ∈ df := fun a ha =>
    (List.mem_or_eq_of_mem_set ha).symm
  have hr : ∀ a ∈ df.set i r', a ∈ df → a.label = r.label → a = r' := by
    intro a ha h1 h2
    have := isTable_set ht (i := i) (r' := r') (by rw [hl]; exact ht.label hi)
    have hi'' : i < df.length := (List.getElem?_eq_some_iff.mp hi).1
    exact this.inj ha (List.mem_set hi'' r') (by rw [h2, hl])
  intro a ha b hb' h1 h2
  rcases hnot a ha with rfl | ha'
  · rcases hnot b hb' with rfl | hb''
    · rfl
    · have := hd r hrm b hb'' (by rw [← hb, h1]) (by rw [← hp, h2])
      exact (hr b hb' hb'' (by rw [← this])).symm
  · rcases hnot b hb' with rfl | hb''
    · have := hd a ha' r hrm (by rw [← hb, h1]) (by rw [← hp, h2])
      exact hr a ha ha' (by rw [this])
    · exact hd a ha' b hb'' h1 h2

/-- **C85.** Reporting a smaller quantity, while the two reported prices stay the same: the bid trades at
most as much as before, every other bid of its side at least as much, and every bid of the other side at
most as much. -/
theorem C85_fewer_units (S : Sorter) (df : DF) (ht : IsTable df) (hn : NonNeg df)
    (hd : DistinctPrices df) (i : ℕ) (r : Row) (hi : df[i]? = some r) (w : ℚ) (hw : 0 ≤ w)
    (hle : w ≤ r.quantity) (tm tm' : TransactionManager) (ps pb q q' : ℚ)
    (h : huangAuction S df = .ok (tm, .huang (ps : Ext) (pb : Ext) q))
    (h' : huangAuction S (df.set i { r with quantity := w }) =
      .ok (tm', .huang (ps : Ext) (pb : Ext) q')) :
    tradedBy tm'.trans i ≤ tradedBy tm.trans i ∧
    ∀ a ∈ df, a.label ≠ i →
      (a.buying = r.buying → tradedBy tm.trans a.label ≤ tradedBy tm'.trans a.label) ∧
      (a.buying ≠ r.buying → tradedBy tm'.trans a.label ≤ tradedBy tm.trans a.label) := by
  have hrm := List.mem_of_getElem? hi
  have hlab := ht.label hi
  set r' : Row := { r with quantity := w } with hr'
  have ht' : IsTable (df.set i r') := isTable_set ht hlab
  have hn' : NonNeg (df.set i r') := nonNeg_set hn ⟨hw, (hn r hrm).2⟩
  have hd' : DistinctPrices (df.set i r') := distinct_set ht hd hi rfl rfl rfl
  obtain ⟨-, c, hc, hT, hall⟩ := huang_sides S ht hn (hd.uniqueAt ps pb) h
  obtain ⟨-, c', hc', hT', hall'⟩ := huang_sides S ht' hn' (hd'.uniqueAt ps pb) h'
  have hr'm : r' ∈ df.set i r' := List.mem_set (List.getElem?_eq_some_iff.mp hi).1 r'
  set b := r.buying with hb
  -- the other side is the same
  have hother : ∀ c, cutTotal (df.set i r') (front ps pb (!b)) c = cutTotal df (front ps pb (!b)) c := by
    intro c
    have hf : ∀ a : Row, a.buying = b → front ps pb (!b) a = false := by
      intro a ha
      by_contra hne
      have := front_side (by simpa using hne : front ps pb (!b) a = true)
      rw [ha] at this
      exact absurd this (by cases b <;> decide)
    exact cutTotal_set_other hi (hf r rfl) (hf r' rfl) c
  have hfeq : front ps pb b r' = front ps pb b r := rfl
  have hown : cutTotal (df.set i r') (front ps pb b) 0 ≤ cutTotal df (front ps pb b) 0 := by
    have := sum_map_set (fun r => if front ps pb b r then max (r.quantity - 0) 0 else 0) (r' := r') hi
    simp only [hfeq] at this
    unfold cutTotal
    have h2 : max (r'.quantity - 0) 0 ≤ max (r.quantity - 0) 0 :=
      max_le_max (by simp only [hr']; linarith) (le_refl 0)
    split at this <;> linarith
  have hTT : cutTotal (df.set i r') (front ps pb b) (c' b) ≤ cutTotal df (front ps pb b) (c b) := by
    rw [hT b, hT' b, hother]
    exact min_le_min hown (le_refl _)
  refine ⟨?_, ?_⟩
  · have e1 := hall r hrm
    have e2 := hall' r' hr'm
    rw [show r'.label = i from hlab] at e2
    rw [hlab] at e1
    rw [e1, e2]
    change (if front ps pb b r then max (w - c' b) 0 else 0) ≤ _
    by_cases hf : front ps pb b r = true
    · rw [if_pos hf, if_pos hf]
      exact cut_quantity_mono (r' := r') hi hf hf hle hTT
    · rw [if_neg hf, if_neg hf]
  · intro a ha hai
    have ha' : a ∈ df.set i r' := (mem_set_iff ht hi (r' := r') rfl hai).mpr ha
    rw [hall a ha, hall' a ha']
    constructor
    · intro hab
      rw [hab]
      by_cases hf : front ps pb b a = true
      swap
      · rw [if_neg hf, if_neg hf]
      rw [if_pos hf, if_pos hf]
      by_contra hlt
      rw [not_le] at hlt
      have hcc : c b < c' b := by
        by_contra hge
        rw [not_lt] at hge
        exact absurd hlt (not_lt.mpr (max_le_max (by linarith) (le_refl 0)))
      -- the bids of the side are cut, so the other side is exhausted
      have h1 : cutTotal (df.set i r') (front ps pb b) (c' b) < cutTotal (df.set i r') (front ps pb b) 0 :=
        cutTotal_lt ha' hf (hc' b) (lt_of_lt_of_le hlt (max_le_max (by linarith [hc b]) (le_refl 0)))
      have h2 : cutTotal (df.set i r') (front ps pb b) (c' b) = cutTotal df (front ps pb (!b)) 0 := by
        have e := hT' b
        rw [hother] at e
        rcases min_choice (cutTotal (df.set i r') (front ps pb b) 0) (cutTotal df (front ps pb (!b)) 0)
          with e' | e'
        · rw [e'] at e; exact absurd e h1.ne
        · rw [e'] at e; exact e
      have h3 : cutTotal df (front ps pb b) (c b) ≤ cutTotal (df.set i r') (front ps pb b) (c' b) := by
        rw [h2, hT b]; exact min_le_right _ _
      have h4 := cutTotal_lt ha hf hcc.le hlt
      have h5 := sum_map_set (fun r => if front ps pb b r then max (r.quantity - c' b) 0 else 0)
        (r' := r') hi
      simp only [hfeq] at h5
      have h6 : max (r'.quantity - c' b) 0 ≤ max (r.quantity - c' b) 0 :=
        max_le_max (by simp only [hr']; linarith) (le_refl 0)
      unfold cutTotal at h3 h4
      split at h5 <;> linarith
    · intro hab
      have hab' : a.buying = !b := by
        cases hb1 : a.buying <;> cases hb2 : b <;> simp_all
      rw [hab']
      by_cases hf : front ps pb (!b) a = true
      swap
      · rw [if_neg hf, if_neg hf]
      rw [if_pos hf, if_pos hf]
      refine cut_total_mono ha hf ?_
      rw [← hother, hT' (!b), hT (!b), hother, Bool.not_not]
      exact min_le_min (le_refl _) hown

/-- **C85 (partial).** Hence a user with one bid does not gain by reporting a smaller quantity if the two
reported prices do not change. Missing: changes that move the prices, where the claim fails
(`C85_understate_refuted`), and larger quantities, where it fails too (`C59_quantity_refuted`). -/
theorem C85_understate_partial (S : Sorter) (df : DF) (ht : IsTable df) (hn : NonNeg df)
    (hd : DistinctPrices df) (i : ℕ) (r : Row) (hi : df[i]? = some r)
    (hs : ∀ a ∈ df, a.user = r.user → a = r) (w : ℚ) (hw : 0 ≤ w)
    (hle : w ≤ r.quantity) (tm tm' : TransactionManager) (ps pb q q' : ℚ)
    (h : huangAuction S df = .ok (tm, .huang (ps : Ext) (pb : Ext) q))
    (h' : huangAuction S (df.set i { r with quantity := w }) =
      .ok (tm', .huang (ps : Ext) (pb : Ext) q')) :
    surplusOf df (priceOf df) r.user tm'.trans ≤ surplusOf df (priceOf df) r.user tm.trans := by
  have hrm := List.mem_of_getElem? hi
  have hlab := ht.label hi
  have ht' : IsTable (df.set i { r with quantity := w }) := isTable_set ht hlab
  have hn' : NonNeg (df.set i { r with quantity := w }) := nonNeg_set hn ⟨hw, (hn r hrm).2⟩
  have hd' : DistinctPrices (df.set i { r with quantity := w }) := distinct_set ht hd hi rfl rfl rfl
  obtain ⟨hp, c, -, -, hall⟩ := huang_sides S ht hn (hd.uniqueAt ps pb) h
  obtain ⟨hp', c', -, -, hall'⟩ := huang_sides S ht' hn' (hd'.uniqueAt ps pb) h'
  have hr'm := List.mem_set (List.getElem?_eq_some_iff.mp hi).1 ({ r with quantity := w } : Row)
  rw [surplus_single hi rfl hs ht (p := if r.buying then pb else ps)
      (fun t ht1 ht2 => hp t ht1 r hrm (by rw [ht2, hlab])),
    surplus_single hi rfl hs ht (p := if r.buying then pb else ps)
      (fun t ht1 ht2 => hp' t ht1 ({ r with quantity := w } : Row) hr'm (by rw [ht2]; exact hlab.symm))]
  have hm := (C85_fewer_units S df ht hn hd i r hi w hw hle tm tm' ps pb q q' h h').1
  have e := hall r hrm
  rw [hlab] at e
  have e' := hall' ({ r with quantity := w } : Row) hr'm
  change tradedBy tm'.trans r.label = if front ps pb r.buying r then max (w - c' r.buying) 0 else 0 at e'
  rw [hlab] at e'
  by_cases hf : front ps pb r.buying r = true
  · refine mul_le_mul_of_nonneg_left hm ?_
    unfold unitGain
    cases hb : r.buying
    · rw [hb] at hf
      simp only [front, frontSell, Bool.false_eq_true, if_false, Bool.and_eq_true,
        decide_eq_true_eq] at hf
      simp only [Bool.false_eq_true, if_false]
      linarith [hf.2]
    · rw [hb] at hf
      simp only [front, frontBuy, if_true, Bool.and_eq_true, decide_eq_true_eq] at hf
      simp only [if_true]
      linarith [hf.2]
  · rw [if_neg hf] at e e'
    rw [e, e']

/-- A case that meets the hypotheses (the bids of `curtailBook`, which have different prices): user 2
reports 3/2 instead of 2 units, the prices stay 2 and 6. The other two buyers get 7/6 instead of 1. -/
example : IsTable curtailBook ∧ NonNeg curtailBook ∧ DistinctPrices curtailBook ∧
    (huangAuction stableSorter curtailBook).toOption.map
      (fun o => (o.2, [0, 1, 2, 4].map (tradedBy o.1.trans))) =
      some (.huang ((2 : ℚ) : Ext) ((6 : ℚ) : Ext) 3, [1, 1, 1, 3]) ∧
    (huangAuction stableSorter (curtailBook.set 2 ⟨⟨3 / 2, 8, 2, true, 0, true⟩, 2⟩)).toOption.map
      (fun o => (o.2, [0, 1, 2, 4].map (tradedBy o.1.trans))) =
      some (.huang ((2 : ℚ) : Ext) ((6 : ℚ) : Ext) 3, [7 / 6, 7 / 6, 2 / 3, 3]) := by
  unfold DistinctPrices
  decide +kernel

/-- A book where a buyer gains by asking for less. -/
def shadeBook : DF := labelFrom 0
  [⟨10, 10, 0, true, 0, true⟩, ⟨1, 8, 1, true, 0, true⟩, ⟨1, 71 / 10, 2, true, 0, true⟩,
   ⟨10, 1, 3, false, 0, true⟩, ⟨1, 7, 4, false, 0, true⟩, ⟨5, 9, 5, false, 0, true⟩]

/-- The full statement for smaller quantities: in a run of the mechanism, no user with one bid gains by
reporting a smaller quantity than the true one. -/
def Spec.NoUnderstating (run : DF → Except PyErr (TransactionManager × Extra)) (df : DF) : Prop :=
  ∀ (i : ℕ) (r : Row) (w : ℚ), df[i]? = some r → (∀ a ∈ df, a.user = r.user → a = r) → 0 ≤ w →
    w ≤ r.quantity → ∀ tm tm' ex ex', run df = .ok (tm, ex) →
      run (df.set i { r with quantity := w }) = .ok (tm', ex') →
      surplusOf df (priceOf df) r.user tm'.trans ≤ surplusOf df (priceOf df) r.user tm.trans

/-- **C85 refuted.** The marginal buyer moves when a buyer asks for less: in the book above user 0 gets
10 units at the price 8 when telling the truth, and 9 units at the price 7.1 when reporting 9. The prices
are all different, so merging changes nothing. -/
theorem C85_understate_refuted : DistinctPrices shadeBook ∧
    ¬ NoUnderstating (huangAuction stableSorter) shadeBook ∧
    ¬ NoUnderstating (runAlgo stableSorter headSampler .huang) shadeBook := by
  refine ⟨by unfold DistinctPrices; decide +kernel, ?_, ?_⟩
  all_goals
    intro h
    have key := h 0 ⟨⟨10, 10, 0, true, 0, true⟩, 0⟩ 9 (by decide +kernel) (by decide +kernel)
      (by norm_num) (by norm_num)
      ⟨2, [⟨3, 10, 7, -1, false⟩, ⟨0, 10, 8, -1, false⟩]⟩
      ⟨3, [⟨3, 10, 7, -1, false⟩, ⟨0, 9, 71 / 10, -1, false⟩, ⟨1, 1, 71 / 10, -1, false⟩]⟩
      (.huang ((7 : ℚ) : Ext) ((8 : ℚ) : Ext) 10) (.huang ((7 : ℚ) : Ext) ((71 / 10 : ℚ) : Ext) 10)
      (by decide +kernel) (by decide +kernel)
    revert key
    decide +kernel

end PyMarket
