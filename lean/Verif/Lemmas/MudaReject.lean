import Verif.Lemmas.MudaRun
import Verif.Spec.Muda

/-! # MUDA's duplicate check, and that nothing else raises `NotImplementedError` -/

set_option autoImplicit false

namespace PyMarket

open Spec

/-- No step raises `NotImplementedError`. -/
def NotRejected {α : Type} (r : Except PyErr α) : Prop := r ≠ .error .notImplementedError

theorem NotRejected.bind {α β : Type} {r : Except PyErr α} {f : α → Except PyErr β}
    (h : NotRejected r) (hf : ∀ a, NotRejected (f a)) : NotRejected (r >>= f) := by
  cases r with
  | error e =>
    intro hc
    apply h
    simp only [Bind.bind, Except.bind] at hc
    cases hc
    rfl
  | ok a => exact hf a

theorem NotRejected.ok {α : Type} (a : α) : NotRejected (Except.ok a) := by
  intro h; cases h

theorem pyGt_notRejected (a b : Option Ext) : NotRejected (pyGt a b) := by
  unfold pyGt
  intro h
  split at h <;> cases h

theorem crossLoop_notRejected (f g : Curve) : ∀ (xs : List Ext) (x : Option Ext),
    NotRejected (crossLoop f g xs x) := by
  intro xs
  induction xs with
  | nil => intro x; exact NotRejected.ok _
  | cons a xs ih =>
    intro x
    cases xs with
    | nil => exact NotRejected.ok _
    | cons b xs =>
      unfold crossLoop
      refine (pyGt_notRejected _ _).bind fun c => ?_
      cases c
      · exact ih _
      · exact (pyGt_notRejected _ _).bind fun d => ih _

theorem maxX_notRejected (f : Curve) : NotRejected (maxX f) := by
  unfold maxX
  split
  · intro h; cases h
  · exact NotRejected.ok _

theorem intersectStepwise_notRejected (f g : Curve) (k : ℚ) :
    NotRejected (intersectStepwise f g k) := by
  unfold intersectStepwise
  refine (maxX_notRejected f).bind fun mf => (maxX_notRejected g).bind fun mg =>
    (crossLoop_notRejected f g _ _).bind fun x => ?_
  cases x with
  | some x =>
    dsimp only
    cases g[argmaxTrue (g.map (fun s => decide (x ≤ s.1)))]? <;>
      cases f[argmaxTrue (f.map (fun s => decide (x ≤ s.1)))]? <;> (intro h; cases h)
  | none =>
    dsimp only
    cases (gridXs f g (min mf mg)).getLast? with
    | none => intro h; cases h
    | some xl =>
      dsimp only
      cases getValueStepwise xl g <;> cases getValueStepwise xl f <;> (intro h; cases h)

theorem feeLoop_notRejected (rows : DF) (i : ℕ) (t p : ℚ) : ∀ (us : List ℤ) (fees : List ℚ),
    NotRejected (feeLoop rows i t p us fees) := by
  intro us
  induction us with
  | nil => intro fees; exact NotRejected.ok _
  | cons u us ih =>
    intro fees
    unfold feeLoop
    refine NotRejected.bind ?_ (fun f => ih f)
    unfold npSet
    intro h
    split at h
    · cases h
    · split at h <;> cases h

theorem getTradingBids_notRejected (rows : DF) (q : ℚ) : NotRejected (getTradingBids rows q) := by
  unfold getTradingBids
  intro h
  split at h
  · cases h
  · dsimp only at h
    split at h
    · cases h
    · split at h <;> cases h

theorem solveSide_notRejected (S : Sorter) (H : DF) (v : Val) (fees : List ℚ) :
    NotRejected (solveSide S H v fees) := by
  unfold solveSide
  by_cases h1 : (buys H).length = 0
  · rw [if_pos h1]; exact NotRejected.ok _
  rw [if_neg h1]
  by_cases h2 : (sells H).length = 0
  · rw [if_pos h2]; exact NotRejected.ok _
  rw [if_neg h2]
  dsimp only
  generalize (if decide (qsum (willingDemand S H v) < qsum (willingSupply S H v)) = true then
    qsum (willingDemand S H v) else qsum (willingSupply S H v)) = tot
  by_cases h3 : 0 < tot
  · rw [if_pos h3]
    exact (getTradingBids_notRejected _ _).bind fun a => (getTradingBids_notRejected _ _).bind
      fun b => (feeLoop_notRejected _ _ _ _ _ _).bind fun c => NotRejected.ok _
  · rw [if_neg h3]; exact NotRejected.ok _

theorem mudaBody_notRejected (S : Sorter) (coin : ℕ → Bool) (df : DF) :
    NotRejected (mudaBody S coin df) := by
  unfold mudaBody findCompetitivePrice
  exact ((intersectStepwise_notRejected _ _ _).bind fun _ => NotRejected.ok _).bind fun pl =>
    ((intersectStepwise_notRejected _ _ _).bind fun _ => NotRejected.ok _).bind fun pr =>
    (solveSide_notRejected _ _ _ _).bind fun a => (solveSide_notRejected _ _ _ _).bind fun b =>
      NotRejected.ok _

theorem not_pairwise_iff {α : Type} {R : α → α → Prop} (hs : ∀ a b, R a b → R b a) (l : List α) :
    ¬ l.Pairwise R ↔
      ∃ (i j : ℕ) (a b : α), i ≠ j ∧ l[i]? = some a ∧ l[j]? = some b ∧ ¬ R a b := by
  rw [List.pairwise_iff_getElem]
  push Not
  constructor
  · rintro ⟨i, j, hi, hj, hij, h⟩
    exact ⟨i, j, l[i], l[j], ne_of_lt hij, List.getElem?_eq_getElem hi,
      List.getElem?_eq_getElem hj, h⟩
  · rintro ⟨i, j, a, b, hne, ha, hb, h⟩
    obtain ⟨hi, rfl⟩ := List.getElem?_eq_some_iff.mp ha
    obtain ⟨hj, rfl⟩ := List.getElem?_eq_some_iff.mp hb
    rcases lt_or_gt_of_ne hne with hl | hl
    · exact ⟨i, j, hi, hj, hl, h⟩
    · exact ⟨j, i, hj, hi, hl, fun hc => h (hs _ _ hc)⟩

theorem dupOnSide_iff (side : DF) : dupOnSide side = false ↔
    side.Pairwise (fun a b => ¬ (a.user = b.user ∧ a.price = b.price)) := by
  have h1 : dupOnSide side = false ↔ (side.map (fun r => (r.price, r.user))).Nodup := by
    unfold dupOnSide
    simp only [List.any_eq_false, decide_eq_true_eq, not_lt]
    rw [List.nodup_iff_count_le_one]
    constructor
    · intro h a
      by_cases ha : a ∈ side.map (fun r => (r.price, r.user))
      · exact h a ha
      · rw [List.count_eq_zero_of_not_mem ha]; omega
    · exact fun h a _ => h a
  rw [h1, List.Nodup, List.pairwise_map]
  have : ∀ a b : Row, ((a.price, a.user) ≠ (b.price, b.user)) ↔
      ¬ (a.user = b.user ∧ a.price = b.price) := by
    intro a b
    rw [Ne, Prod.mk.injEq, and_comm]
  simp only [this]

theorem checkEqualPrice_iff (df : DF) : checkEqualPriceRaises df = true ↔ HasTwin df := by
  have h : checkEqualPriceRaises df = false ↔
      df.Pairwise (fun a b => ¬ (a.user = b.user ∧ a.price = b.price ∧ a.buying = b.buying)) := by
    unfold checkEqualPriceRaises
    rw [Bool.or_eq_false_iff, dupOnSide_iff, dupOnSide_iff]
    unfold buys sells
    rw [List.pairwise_filter, List.pairwise_filter, ← List.pairwise_and_iff]
    have : ∀ a b : Row, ((a.buying = true → b.buying = true →
          ¬ (a.user = b.user ∧ a.price = b.price)) ∧
        ((!a.buying) = true → (!b.buying) = true → ¬ (a.user = b.user ∧ a.price = b.price))) ↔
        ¬ (a.user = b.user ∧ a.price = b.price ∧ a.buying = b.buying) := by
      intro a b
      cases a.buying <;> cases b.buying <;> simp
    simp only [this]
  rw [← Bool.not_eq_false, h,
    not_pairwise_iff (fun a b hab hc => hab ⟨hc.1.symm, hc.2.1.symm, hc.2.2.symm⟩)]
  simp only [not_not]
  rfl

end PyMarket
