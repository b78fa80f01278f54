import Verif.Lemmas.MirrorMech
import Verif.Lemmas.MirrorP2P
import Verif.Props.Units

/-! # C127: buyers and sellers are treated alike

Exchange the two sides of a book: who buys a unit for `p` sells its renunciation, worth `M`, for `M - p`. The
mechanisms run on the exchanged book trade the same quantities at the mirrored prices. -/

set_option autoImplicit false

namespace PyMarket

open Spec

/-! ## Sorting the exchanged book -/

/-- Sorting the other way round: the descending order of the opposite keys is an ascending order. -/
def flipSorter (S : Sorter) : Sorter where
  asc l := S.desc (l.map (fun p => -p))
  desc l := S.asc (l.map (fun p => -p))
  asc_perm l := by
    have := S.desc_perm (l.map (fun p => -p))
    rwa [List.length_map] at this
  desc_perm l := by
    have := S.asc_perm (l.map (fun p => -p))
    rwa [List.length_map] at this
  asc_sorted l := by
    have := S.desc_sorted (l.map (fun p => -p))
    rw [← takeIdx_map, List.pairwise_map] at this
    exact this.imp (fun h => neg_le_neg_iff.mp h)
  desc_sorted l := by
    have := S.asc_sorted (l.map (fun p => -p))
    rw [← takeIdx_map, List.pairwise_map] at this
    exact this.imp (fun h => neg_le_neg_iff.mp h)

theorem insertionSort_mirror (M : ℚ) (l : List ℚ) :
    stableSorter.asc (l.map (fun p => M - p)) = stableSorter.desc l ∧
    stableSorter.desc (l.map (fun p => M - p)) = stableSorter.asc l := by
  have key : ∀ i ∈ List.range l.length, ∀ j ∈ List.range l.length,
      ((l.map (fun p => M - p)).getD i 0 ≤ (l.map (fun p => M - p)).getD j 0 ↔ l.getD j 0 ≤ l.getD i 0) := by
    intro i hi j hj
    rw [List.mem_range] at hi hj
    simp only [List.getD_eq_getElem?_getD, List.getElem?_map, List.getElem?_eq_getElem hi,
      List.getElem?_eq_getElem hj, Option.map_some, Option.getD_some, sub_le_sub_iff_left]
  constructor
  · have := List.map_insertionSort (fun i j : ℕ => (l.map (fun p => M - p)).getD i 0 ≤ (l.map (fun p => M - p)).getD j 0)
      (fun i j : ℕ => l.getD j 0 ≤ l.getD i 0) id (List.range l.length) key
    rw [List.map_id, List.map_id] at this
    show (List.range (l.map (fun p => M - p)).length).insertionSort _ = (List.range l.length).insertionSort _
    rw [List.length_map]
    exact this
  · have := List.map_insertionSort (fun i j : ℕ => (l.map (fun p => M - p)).getD j 0 ≤ (l.map (fun p => M - p)).getD i 0)
      (fun i j : ℕ => l.getD i 0 ≤ l.getD j 0) id (List.range l.length) (fun i hi j hj => key j hj i hi)
    rw [List.map_id, List.map_id] at this
    show (List.range (l.map (fun p => M - p)).length).insertionSort _ = (List.range l.length).insertionSort _
    rw [List.length_map]
    exact this

/-- **C127, sorting.** Every sorting algorithm that only compares keys has a mirror image, and the stable one is
its own. -/
theorem C127_sorters : (∀ S, ComparisonSort S → ∃ T, ComparisonSort T ∧ MirrorSorters S T) ∧
    MirrorSorters stableSorter stableSorter := by
  refine ⟨fun S hS => ⟨flipSorter S, ?_, ?_⟩, insertionSort_mirror⟩
  · intro l l' hlen h
    have := hS (l.map (fun p => -p)) (l'.map (fun p => -p)) (by rw [List.length_map, List.length_map, hlen]) (by
      intro i j x y x' y' h1 h2 h3 h4
      rw [List.getElem?_map] at h1 h2 h3 h4
      obtain ⟨a, ha, rfl⟩ := Option.map_eq_some_iff.mp h1
      obtain ⟨b, hb, rfl⟩ := Option.map_eq_some_iff.mp h2
      obtain ⟨a', ha', rfl⟩ := Option.map_eq_some_iff.mp h3
      obtain ⟨b', hb', rfl⟩ := Option.map_eq_some_iff.mp h4
      rw [neg_le_neg_iff, neg_le_neg_iff]
      exact h j i _ _ _ _ hb ha hb' ha')
    exact ⟨this.2, this.1⟩
  · intro M l
    have := hS ((l.map (fun p => M - p)).map (fun p => -p)) l (by rw [List.length_map, List.length_map]) (by
      intro i j x y x' y' h1 h2 h3 h4
      rw [List.getElem?_map, List.getElem?_map, h3] at h1
      rw [List.getElem?_map, List.getElem?_map, h4] at h2
      cases h1
      cases h2
      rw [neg_le_neg_iff, sub_le_sub_iff_left])
    exact ⟨this.2, this.1⟩

/-- Three buyers and three sellers. -/
def mirrorBook : DF := labelFrom 0
  [⟨2, 7, 0, true, 0, true⟩, ⟨1, 5, 1, true, 0, true⟩, ⟨17 / 4, 2, 2, false, 0, true⟩,
   ⟨9 / 4, 3, 3, false, 0, true⟩, ⟨3, 4, 4, true, 0, true⟩, ⟨1 / 2, 1, 5, false, 0, true⟩]

/-- The hypotheses on the sorters are met, and sorting the mirrored book gives the sellers first. -/
example : ComparisonSort stableSorter ∧ MirrorSorters stableSorter stableSorter ∧
    (sortDesc stableSorter (buys (mirror 10 mirrorBook))).map (fun r => r.label) = [5, 2, 3] :=
  ⟨comparisonSort_stable, C127_sorters.2, by decide +kernel⟩

/-! ## Huang's auction -/

/-- **C127, Huang.** On the exchanged book the same bids trade the same quantities, the two prices change places
and are mirrored, and the reported quantity is the same whenever something is traded. -/
theorem C127_huang {S T : Sorter} (hST : MirrorSorters S T) {M : ℚ} (hM : 0 < M) {df : DF} (h : Mirrorable M df) :
    ∃ r r', huangAuction S df = .ok r ∧ huangAuction T (mirror M df) = .ok r' ∧
      r'.1.trans.Perm (r.1.trans.map (repriceTrans (fun p => M - p))) ∧
      ((r.2 = .empty ∧ r'.2 = .empty) ∨ ∃ ps pb q q' : ℚ, r.2 = .huang (ps : Ext) (pb : Ext) q ∧
        r'.2 = .huang ((M - pb : ℚ) : Ext) ((M - ps : ℚ) : Ext) q' ∧ (r.1.trans ≠ [] → q' = q)) := by
  rcases huang_mirror hST h hM with ⟨e1, e2⟩ | ⟨ps, pb, q, q', ts, tb, e1, e2, e3⟩
  · exact ⟨_, _, e1, e2, List.Perm.refl _, .inl ⟨rfl, rfl⟩⟩
  · refine ⟨_, _, e1, e2, ?_, .inr ⟨ps, pb, q, q', rfl, rfl, ?_⟩⟩
    · rw [TransactionManager.init_addAll_trans, TransactionManager.init_addAll_trans, List.map_append]
      exact List.perm_append_comm
    · rw [TransactionManager.init_addAll_trans]
      exact e3

example : MirrorSorters stableSorter stableSorter ∧ Mirrorable 10 mirrorBook ∧
    (huangAuction stableSorter mirrorBook).toOption.map (fun r => r.1.trans.map (fun t => (t.bid, t.quantity, t.price))) =
      some [(5, 0, 3), (2, 3, 3), (0, 2, 4), (1, 1, 4)] ∧
    (huangAuction stableSorter (mirror 10 mirrorBook)).toOption.map
        (fun r => r.1.trans.map (fun t => (t.bid, t.quantity, t.price))) =
      some [(0, 2, 6), (1, 1, 6), (5, 0, 7), (2, 3, 7)] :=
  ⟨C127_sorters.2, by decide +kernel, by decide +kernel, by decide +kernel⟩

/-- Two buyers and one seller, whose bid is the marginal one: nobody trades. -/
def oneSeller : DF := labelFrom 0
  [⟨1, 5, 0, true, 0, true⟩, ⟨3, 4, 1, true, 0, true⟩, ⟨2, 1, 2, false, 0, true⟩]

/-- **C127, Huang: the reported quantity.** When nothing is traded the auction still reports the quantity of the
buyers above the margin, and so the two sides are not treated alike in the report. -/
theorem C127_quantity_refuted : ¬ ∀ (S T : Sorter), MirrorSorters S T → ∀ (M : ℚ) (df : DF), 0 < M →
    Mirrorable M df → ∀ tm tm' ps pb ps' pb' q q', huangAuction S df = .ok (tm, .huang ps pb q) →
      huangAuction T (mirror M df) = .ok (tm', .huang ps' pb' q') → q' = q := by
  intro h
  have h1 : ∃ ps pb, huangAuction stableSorter oneSeller = .ok (TransactionManager.init, .huang ps pb 1) := by
    have : (huangAuction stableSorter oneSeller).toOption = some (TransactionManager.init,
        .huang ((1 : ℚ) : Ext) ((4 : ℚ) : Ext) 1) := by decide +kernel
    cases e : huangAuction stableSorter oneSeller with
    | error x => rw [e] at this; cases this
    | ok x => rw [e] at this; cases this; exact ⟨_, _, rfl⟩
  have h2 : ∃ ps pb, huangAuction stableSorter (mirror 10 oneSeller) =
      .ok (TransactionManager.init, .huang ps pb 0) := by
    have : (huangAuction stableSorter (mirror 10 oneSeller)).toOption = some (TransactionManager.init,
        .huang ((6 : ℚ) : Ext) ((9 : ℚ) : Ext) 0) := by decide +kernel
    cases e : huangAuction stableSorter (mirror 10 oneSeller) with
    | error x => rw [e] at this; cases this
    | ok x => rw [e] at this; cases this; exact ⟨_, _, rfl⟩
  obtain ⟨ps, pb, e1⟩ := h1
  obtain ⟨ps', pb', e2⟩ := h2
  exact absurd (h _ _ C127_sorters.2 10 oneSeller (by norm_num) (by decide +kernel) _ _ _ _ _ _ _ _ e1 e2) (by norm_num)

/-! ## The uniform price -/

/-- **C127, uniform price.** The same bids trade the same quantities at the mirrored price, and both runs fail
together. -/
theorem C127_uniform {S T : Sorter} (hST : MirrorSorters S T) {M : ℚ} (hM : 0 < M) {df : DF}
    (h : Mirrorable M df) :
    (uniformPrice S df = .error .typeError ∧ uniformPrice T (mirror M df) = .error .typeError) ∨
    ∃ (p x : ℚ) (tm tm' : TransactionManager), uniformPrice S df = .ok (tm, some (x : Ext), .fin p) ∧
      uniformPrice T (mirror M df) = .ok (tm', some (x : Ext), .fin (M - p)) ∧
      tm'.trans.Perm (tm.trans.map (repriceTrans (fun p => M - p))) := uniform_mirror hST h hM

example : MirrorSorters stableSorter stableSorter ∧ Mirrorable 10 mirrorBook ∧
    ((uniformPrice stableSorter mirrorBook).toOption.map (fun r => r.1.trans.map (fun t => (t.bid, t.quantity, t.price)))) =
      some [(0, 2, 3), (1, 1, 3), (4, 3, 3), (5, 1 / 2, 3), (2, 17 / 4, 3), (3, 5 / 4, 3)] ∧
    ((uniformPrice stableSorter (mirror 10 mirrorBook)).toOption.map
        (fun r => r.1.trans.map (fun t => (t.bid, t.quantity, t.price)))) =
      some [(0, 2, 7), (1, 1, 7), (4, 3, 7), (5, 1 / 2, 7), (2, 17 / 4, 7), (3, 5 / 4, 7)] :=
  ⟨C127_sorters.2, by decide +kernel, by decide +kernel, by decide +kernel⟩

/-! ## MUDA -/

/-- **C127, MUDA.** The full statement is the equation below for every book; it fails when a group of buyers asks for
exactly what a group of sellers offers (`C127_muda_refuted`). Without such ties the whole result is mirrored: log,
halves, prices, fees and exceptions. -/
theorem C127_muda_partial {S T : Sorter} (hST : MirrorSorters S T) (coin : ℕ → Bool) {M : ℚ} (hM : 0 < M) {df : DF}
    (ht : IsTable df) (h : Mirrorable M df) (hu : Uneven df) :
    muda T coin (mirror M df) =
      (muda S coin df).map (fun r => (repriceLog (fun p => M - p) r.1, mirrorExtra M r.2)) :=
  muda_mirror hST coin ht h hM hu

/-- **C127, MUDA's trades.** On every book, whenever both runs return, the halves are the same, the prices are mirrored
and the same bids trade the same quantities: only the fees can differ. -/
theorem C127_muda_trades {S T : Sorter} (hST : MirrorSorters S T) (coin : ℕ → Bool) {M : ℚ} (hM : 0 < M) {df : DF}
    (h : Mirrorable M df) {x y : TransactionManager × Extra} (hx : muda S coin df = .ok x)
    (hy : muda T coin (mirror M df) = .ok y) :
    y.1.trans.Perm (x.1.trans.map (repriceTrans (fun p => M - p))) ∧
    ∃ left right pl pr fees fees', x.2 = .muda left right pl pr fees ∧
      y.2 = .muda left right (mirrorVal M pl) (mirrorVal M pr) fees' := muda_mirror_trans hST coin h hM hx hy

/-- The coins that send bids 1 and 3 to the left. -/
def mirrorCoins : ℕ → Bool := fun k => decide (k = 1 ∨ k = 3)

example : MirrorSorters stableSorter stableSorter ∧ IsTable mirrorBook ∧ Mirrorable 10 mirrorBook ∧ Uneven mirrorBook ∧
    (muda stableSorter mirrorCoins mirrorBook).toOption.map (fun r => r.1.trans.map (fun t => (t.bid, t.quantity, t.price))) =
      some [(1, 1, 4), (3, 1, 4), (5, 1 / 2, 3), (2, 17 / 4, 3), (0, 2, 3), (4, 11 / 4, 3)] :=
  ⟨C127_sorters.2, by decide +kernel, by decide +kernel, by decide +kernel, by decide +kernel⟩

/-- Two pairs of equal size; the buyers have large numbers. -/
def evenPairs : DF := labelFrom 0
  [⟨1, 5, 7, true, 0, true⟩, ⟨1, 1, 0, false, 0, true⟩, ⟨1, 5, 8, true, 0, true⟩, ⟨1, 1, 1, false, 0, true⟩]

/-- **C127, MUDA refuted on ties.** With as much demand as supply the code charges the buyers and not the sellers:
here the run ends in `IndexError`, and after exchanging the sides it returns four trades. -/
theorem C127_muda_refuted : ¬ ∀ (S T : Sorter), MirrorSorters S T → ∀ (coin : ℕ → Bool) (M : ℚ) (df : DF), 0 < M →
    IsTable df → Mirrorable M df → muda T coin (mirror M df) =
      (muda S coin df).map (fun r => (repriceLog (fun p => M - p) r.1, mirrorExtra M r.2)) := by
  intro h
  have := h _ _ C127_sorters.2 (fun k => decide (k < 2)) 10 evenPairs (by norm_num) (by decide +kernel) (by decide +kernel)
  have h1 : (muda stableSorter (fun k => decide (k < 2)) evenPairs).toOption = none := by decide +kernel
  have h2 : ((muda stableSorter (fun k => decide (k < 2)) (mirror 10 evenPairs)).toOption.map
      (fun r => r.1.trans.length)) = some 4 := by decide +kernel
  rw [this] at h2
  cases e : muda stableSorter (fun k => decide (k < 2)) evenPairs with
  | error x => rw [e] at h2; cases h2
  | ok x => rw [e] at h1; cases h1

/-! ## The peer-to-peer market -/

/-- **C127, peer-to-peer.** The share `c` of the buyer becomes the share `1 - c`: every run has a mirrored run with
the same meetings, the same quantities and the mirrored prices, and both are equally likely. -/
theorem C127_p2p {M : ℚ} {df : DF} (ht : IsTable df) (h : Mirrorable M df) {c : ℚ} (hc0 : 0 ≤ c) (hc1 : c ≤ 1)
    (choice : ℕ → ℕ) (tm : TransactionManager) (R : List (List (ℕ × ℕ)))
    (hr : p2pRandom c choice df = .ok (tm, .p2p R)) :
    (∃ choice' tm', p2pRandom (1 - c) choice' (mirror M df) = .ok (tm', .p2p (R.map (List.map Prod.swap))) ∧
      tm'.trans.Perm (tm.trans.map (mirrorMeeting M))) ∧
    ∀ m L, R.flatten.length ≤ m → (∀ w ∈ options df (qtyOf df) [] true R, w ∣ L) →
      Nat.card {d : Fin m → Fin L // ∃ tm', p2pRandom (1 - c) (extend d) (mirror M df) =
          .ok (tm', .p2p (R.map (List.map Prod.swap)))} =
        Nat.card {d : Fin m → Fin L // ∃ tm', p2pRandom c (extend d) df = .ok (tm', .p2p R)} :=
  p2p_mirror M df ht h hc0 hc1 choice tm R hr

/-- The hypothesis `0 ≤ c ≤ 1` is met by the default share 1/2, which is its own mirror image. -/
example : IsTable mirrorBook ∧ Mirrorable 10 mirrorBook ∧
    (p2pRandom (1 / 4) (fun _ => 0) mirrorBook).toOption.map
        (fun r => (r.1.trans.map (fun t => (t.bid, t.quantity, t.price))).take 4) =
      some [(0, 2, 13 / 4), (2, 2, 13 / 4), (1, 1, 7 / 2), (3, 1, 7 / 2)] :=
  ⟨by decide +kernel, by decide +kernel, by decide +kernel⟩

end PyMarket
