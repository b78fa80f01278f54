import Verif.Lemmas.FalseNames
import Verif.Props.MudaThin
import Verif.Lemmas.Uniform

/-! # C117: submitting a bid under several names -/

set_option autoImplicit false

namespace PyMarket

open Spec

/-- What the trades of the entry `i` are worth to the holder of the bid `b`. -/
def Spec.profitOf (b : Bid) (ts : List Transaction) (i : ℕ) : ℚ :=
  if b.buying then b.price * tradedBy ts i - moneyOf ts i else moneyOf ts i - b.price * tradedBy ts i

/-- The identifiers of the parts: the first takes the place of the bid at position `k`, the other `m` are
submitted after all `n` bids. -/
def Spec.ownIds (k n m : ℕ) : List ℕ := k :: (List.range m).map (fun j => n + j)

/-- The full statement for a mechanism and a book: whoever submits a bid in parts, under whatever names, does
not gain. -/
def Spec.NoSplitting {α : Type} (run : DF → Except PyErr (TransactionManager × α)) (l₁ l₂ : List Bid)
    (b : Bid) : Prop :=
  ∀ (b₁ : Bid) (rest : List Bid), SplitInto b (b₁ :: rest) →
    ∀ tm tm' ex ex', run (labelFrom 0 (l₁ ++ b :: l₂)) = .ok (tm, ex) →
      run (labelFrom 0 (l₁ ++ b₁ :: l₂ ++ rest)) = .ok (tm', ex') →
      ((ownIds l₁.length (l₁ ++ b :: l₂).length rest.length).map (profitOf b tm'.trans)).sum ≤
        profitOf b tm.trans l₁.length

section

variable {l₁ l₂ rest : List Bid} {b b₁ : Bid}

theorem mem_unsplit : (⟨b, l₁.length⟩ : Row) ∈ labelFrom 0 (l₁ ++ b :: l₂) := by
  apply List.mem_of_getElem? (i := l₁.length)
  rw [labelFrom_getElem?]
  simp

theorem mem_part (j : ℕ) (hj : j < rest.length) :
    (⟨rest[j], (l₁ ++ b :: l₂).length + j⟩ : Row) ∈ labelFrom 0 (l₁ ++ b₁ :: l₂ ++ rest) := by
  apply List.mem_of_getElem? (i := (l₁ ++ b :: l₂).length + j)
  rw [labelFrom_getElem?, List.getElem?_append_right (by simp)]
  have : (l₁ ++ b :: l₂).length + j - (l₁ ++ b₁ :: l₂).length = j := by simp
  rw [this, List.getElem?_eq_getElem hj]
  simp

theorem mem_first : (⟨b₁, l₁.length⟩ : Row) ∈ labelFrom 0 (l₁ ++ b₁ :: l₂ ++ rest) := by
  rw [List.append_assoc, List.cons_append]
  exact mem_unsplit

/-- A sum over the parts. -/
theorem sum_own {g : ℕ → ℚ} {G : Bid → ℚ}
    (h : ∀ r ∈ labelFrom 0 (l₁ ++ b₁ :: l₂ ++ rest), r.toBid ∈ b₁ :: rest → g r.label = G r.toBid) :
    ((ownIds l₁.length (l₁ ++ b :: l₂).length rest.length).map g).sum = ((b₁ :: rest).map G).sum := by
  unfold ownIds
  rw [List.map_cons, List.sum_cons, List.map_cons, List.sum_cons, h _ mem_first (by simp), List.map_map]
  congr 2
  apply List.ext_getElem
  · simp
  intro j h1 h2
  have hj : j < rest.length := by simpa using h2
  have := h _ (mem_part (b := b) j hj) (List.mem_cons_of_mem _ (List.getElem_mem hj))
  simpa using this

/-- What a bid of the side `s` gets when the bids in front are cut by `c`. -/
def cutBid (ps pb : ℚ) (s : Bool) (c : ℚ) (x : Bid) : ℚ :=
  if front ps pb s ⟨x, 0⟩ then max (x.quantity - c) 0 else 0

theorem cutBid_row {ps pb c : ℚ} {s : Bool} (r : Row) :
    (if front ps pb s r then max (r.quantity - c) 0 else 0) = cutBid ps pb s c r.toBid := rfl

theorem cutTotal_bids {ps pb c : ℚ} {s : Bool} (l : List Bid) :
    cutTotal (labelFrom 0 l) (front ps pb s) c = (l.map (cutBid ps pb s c)).sum :=
  sum_rows (cutBid ps pb s c) l 0

theorem cutBid_anti {ps pb c c' : ℚ} {s : Bool} (h : c ≤ c') (x : Bid) :
    cutBid ps pb s c' x ≤ cutBid ps pb s c x := by
  unfold cutBid
  split
  · exact max_le_max (by linarith) le_rfl
  · exact le_rfl

theorem front_part (h : SplitInto b (b₁ :: rest)) {c : Bid} (hc : c ∈ b₁ :: rest) (ps pb : ℚ) (s : Bool) :
    front ps pb s ⟨c, 0⟩ = front ps pb s ⟨b, 0⟩ := by
  unfold front frontBuy frontSell
  simp only [h.side c hc, h.price c hc]

theorem cutBid_parts (h : SplitInto b (b₁ :: rest)) {ps pb c : ℚ} {s : Bool} (hc : 0 ≤ c) :
    ((b₁ :: rest).map (cutBid ps pb s c)).sum ≤ cutBid ps pb s c b := by
  have e : (b₁ :: rest).map (cutBid ps pb s c) =
      (b₁ :: rest).map (fun x => if front ps pb s ⟨b, 0⟩ then max (x.quantity - c) 0 else 0) := by
    apply List.map_congr_left
    intro x hx
    unfold cutBid
    rw [front_part h hx]
  rw [e]
  unfold cutBid
  split
  · rw [← h.sum]
    exact cut_parts hc h.pos
  · simp

theorem cutBid_parts_zero (h : SplitInto b (b₁ :: rest)) {ps pb : ℚ} {s : Bool} :
    ((b₁ :: rest).map (cutBid ps pb s 0)).sum = cutBid ps pb s 0 b := by
  have hb : 0 ≤ b.quantity := by
    rw [← h.sum]
    apply List.sum_nonneg
    intro y hy
    obtain ⟨x, hx, rfl⟩ := List.mem_map.mp hy
    exact (h.pos x hx).le
  have e : (b₁ :: rest).map (cutBid ps pb s 0) =
      (b₁ :: rest).map (fun x => if front ps pb s ⟨b, 0⟩ then x.quantity else 0) := by
    apply List.map_congr_left
    intro x hx
    unfold cutBid
    rw [front_part h hx, sub_zero, max_eq_left (h.pos x hx).le]
  rw [e]
  unfold cutBid
  rw [sub_zero, max_eq_left hb]
  split
  · exact h.sum
  · simp

theorem sum_cut_anti {ps pb c c' : ℚ} {s : Bool} (h : c ≤ c') (l : List Bid) :
    (l.map (cutBid ps pb s c')).sum ≤ (l.map (cutBid ps pb s c)).sum :=
  List.sum_le_sum (fun x _ => cutBid_anti h x)

/-- If the sum does not drop, no member does. -/
theorem cut_anti_eq {ps pb c c' : ℚ} {s : Bool} (h : c ≤ c') {l : List Bid}
    (hs : (l.map (cutBid ps pb s c)).sum ≤ (l.map (cutBid ps pb s c')).sum) {x : Bid} (hx : x ∈ l) :
    cutBid ps pb s c x ≤ cutBid ps pb s c' x := by
  induction l with
  | nil => simp at hx
  | cons a l ih =>
    rw [List.map_cons, List.sum_cons, List.map_cons, List.sum_cons] at hs
    have h1 := cutBid_anti (ps := ps) (pb := pb) (s := s) h a
    have h2 := sum_cut_anti (ps := ps) (pb := pb) (s := s) h l
    rcases List.mem_cons.mp hx with rfl | hx
    · linarith
    · exact ih (by linarith) hx

theorem split_uniqueAt (h : SplitInto b (b₁ :: rest)) {ps pb : ℚ}
    (hd : DistinctPrices (labelFrom 0 (l₁ ++ b :: l₂))) (hm : b.price ≠ if b.buying then pb else ps) :
    UniqueAt (labelFrom 0 (l₁ ++ b₁ :: l₂ ++ rest)) ps pb := by
  have not_part : ∀ r : Row, r.price = (if r.buying then pb else ps) → r.toBid ∉ b₁ :: rest := by
    intro r hr hp
    rw [h.price _ hp, h.side _ hp] at hr
    exact hm hr
  intro a ha c hc hs hpa hpc
  rcases split_mem (b := b) ha with ⟨ha', -⟩ | ha'
  · rcases split_mem (b := b) hc with ⟨hc', -⟩ | hc'
    · refine hd a ha' c hc' hs ?_
      rw [hpa, hpc, hs]
    · exact absurd hc' (not_part c hpc)
  · exact absurd ha' (not_part a hpa)

/-- The facts about the two runs of the auction, when the bid is not at the marginal price. -/
theorem huang_split_alloc (S : Sorter) (h : SplitInto b (b₁ :: rest))
    (hn : NonNeg (labelFrom 0 (l₁ ++ b :: l₂))) (hd : DistinctPrices (labelFrom 0 (l₁ ++ b :: l₂)))
    {tm tm' : TransactionManager} {ps pb q q' : ℚ}
    (hr : huangAuction S (labelFrom 0 (l₁ ++ b :: l₂)) = .ok (tm, .huang (ps : Ext) (pb : Ext) q))
    (hr' : huangAuction S (labelFrom 0 (l₁ ++ b₁ :: l₂ ++ rest)) = .ok (tm', .huang (ps : Ext) (pb : Ext) q'))
    (hm : b.price ≠ if b.buying then pb else ps) :
    ((ownIds l₁.length (l₁ ++ b :: l₂).length rest.length).map (tradedBy tm'.trans)).sum ≤
      tradedBy tm.trans l₁.length ∧
    (front ps pb b.buying ⟨b, 0⟩ = false → tradedBy tm.trans l₁.length = 0 ∧
      ∀ i ∈ ownIds l₁.length (l₁ ++ b :: l₂).length rest.length, tradedBy tm'.trans i = 0) ∧
    ∀ r ∈ labelFrom 0 (l₁ ++ b :: l₂), r.label ≠ l₁.length →
      if r.buying = b.buying then tradedBy tm.trans r.label ≤ tradedBy tm'.trans r.label
      else tradedBy tm'.trans r.label = tradedBy tm.trans r.label := by
  obtain ⟨-, c, hc0, hcT, hcA⟩ := huang_sides S (isTable_labelFrom _) hn (hd.uniqueAt ps pb) hr
  obtain ⟨-, c', hc0', hcT', hcA'⟩ :=
    huang_sides S (isTable_labelFrom _) (split_nonNeg h hn) (split_uniqueAt h hd hm) hr'
  have tot0 : ∀ s, cutTotal (labelFrom 0 (l₁ ++ b₁ :: l₂ ++ rest)) (front ps pb s) 0 =
      cutTotal (labelFrom 0 (l₁ ++ b :: l₂)) (front ps pb s) 0 := by
    intro s
    rw [cutTotal_bids, cutTotal_bids, sum_split, sum_unsplit, cutBid_parts_zero h]
  have tot : ∀ s, cutTotal (labelFrom 0 (l₁ ++ b₁ :: l₂ ++ rest)) (front ps pb s) (c' s) =
      cutTotal (labelFrom 0 (l₁ ++ b :: l₂)) (front ps pb s) (c s) := by
    intro s
    rw [hcT, hcT', tot0, tot0]
  have own : ∀ r ∈ labelFrom 0 (l₁ ++ b₁ :: l₂ ++ rest), r.toBid ∈ b₁ :: rest →
      tradedBy tm'.trans r.label = cutBid ps pb b.buying (c' b.buying) r.toBid := by
    intro r hr hp
    rw [hcA' r hr, ← h.side _ hp]
    rfl
  have whole : tradedBy tm.trans l₁.length = cutBid ps pb b.buying (c b.buying) b :=
    hcA _ mem_unsplit
  have key := tot b.buying
  rw [cutTotal_bids, cutTotal_bids, sum_split, sum_unsplit] at key
  refine ⟨?_, ?_, ?_⟩
  · rw [sum_own own, whole]
    rcases le_total (c b.buying) (c' b.buying) with hle | hle
    · exact le_trans (cutBid_parts h (hc0' _)) (cutBid_anti hle b)
    · have h1 := sum_cut_anti (ps := ps) (pb := pb) (s := b.buying) hle l₁
      have h2 := sum_cut_anti (ps := ps) (pb := pb) (s := b.buying) hle l₂
      linarith
  · intro hf
    refine ⟨by rw [whole]; unfold cutBid; simp [hf], ?_⟩
    have zero : ∀ r ∈ labelFrom 0 (l₁ ++ b₁ :: l₂ ++ rest), r.toBid ∈ b₁ :: rest →
        tradedBy tm'.trans r.label = 0 := by
      intro r hr hp
      rw [own r hr hp]
      unfold cutBid
      rw [front_part h hp, hf]
      simp
    intro i hi
    unfold ownIds at hi
    rcases List.mem_cons.mp hi with rfl | hi
    · exact zero _ mem_first (by simp)
    · obtain ⟨j, hj, rfl⟩ := List.mem_map.mp hi
      have hj' := List.mem_range.mp hj
      exact zero _ (mem_part (b := b) j hj') (List.mem_cons_of_mem _ (List.getElem_mem hj'))
  · intro r hr hl
    have hmem : r.toBid ∈ l₁ ∨ r.toBid ∈ l₂ := by
      obtain ⟨k, hk⟩ := List.getElem?_of_mem hr
      rw [labelFrom_getElem?, Option.map_eq_some_iff] at hk
      obtain ⟨x, hx, rfl⟩ := hk
      have hkl : k ≠ l₁.length := by simpa using hl
      rcases Nat.lt_or_gt_of_ne hkl with h' | h'
      · rw [List.getElem?_append_left h'] at hx
        exact Or.inl (List.mem_of_getElem? hx)
      · rw [List.getElem?_append_right h'.le] at hx
        obtain ⟨m, hm⟩ : ∃ m, k - l₁.length = m + 1 := ⟨k - l₁.length - 1, by omega⟩
        rw [hm, List.getElem?_cons_succ] at hx
        exact Or.inr (List.mem_of_getElem? hx)
    have e1 : tradedBy tm.trans r.label = cutBid ps pb r.buying (c r.buying) r.toBid := hcA r hr
    have e2 : tradedBy tm'.trans r.label = cutBid ps pb r.buying (c' r.buying) r.toBid :=
      hcA' r (split_other hr hl)
    rw [e1, e2]
    split
    case isTrue hs =>
      rw [hs]
      rcases le_total (c' b.buying) (c b.buying) with hle | hle
      · exact cutBid_anti hle _
      · have h1 := sum_cut_anti (ps := ps) (pb := pb) (s := b.buying) hle l₁
        have h2 := sum_cut_anti (ps := ps) (pb := pb) (s := b.buying) hle l₂
        have h3 := le_trans (cutBid_parts h (ps := ps) (pb := pb) (s := b.buying) (hc0' b.buying))
          (cutBid_anti hle b)
        rcases hmem with hmem | hmem
        · exact cut_anti_eq hle (by linarith) hmem
        · exact cut_anti_eq hle (by linarith) hmem
    case isFalse hs =>
      have hfb : front ps pb r.buying ⟨b, 0⟩ = false := by
        rw [Bool.eq_false_iff]
        intro hf
        exact hs (front_side hf).symm
      have hz : ∀ d, ((b₁ :: rest).map (cutBid ps pb r.buying d)).sum = 0 := by
        intro d
        apply List.sum_eq_zero
        intro y hy
        obtain ⟨x, hx, rfl⟩ := List.mem_map.mp hy
        unfold cutBid
        rw [front_part h hx, hfb]
        simp
      have hz' : ∀ d, cutBid ps pb r.buying d b = 0 := by
        intro d
        unfold cutBid
        simp [hfb]
      have key' := tot r.buying
      rw [cutTotal_bids, cutTotal_bids, sum_split, sum_unsplit, hz, hz'] at key'
      rcases le_total (c r.buying) (c' r.buying) with hle | hle
      · have h1 := sum_cut_anti (ps := ps) (pb := pb) (s := r.buying) hle l₁
        have h2 := sum_cut_anti (ps := ps) (pb := pb) (s := r.buying) hle l₂
        refine le_antisymm (cutBid_anti hle _) ?_
        rcases hmem with hmem | hmem
        · exact cut_anti_eq hle (by linarith) hmem
        · exact cut_anti_eq hle (by linarith) hmem
      · have h1 := sum_cut_anti (ps := ps) (pb := pb) (s := r.buying) hle l₁
        have h2 := sum_cut_anti (ps := ps) (pb := pb) (s := r.buying) hle l₂
        refine le_antisymm ?_ (cutBid_anti hle _)
        rcases hmem with hmem | hmem
        · exact cut_anti_eq hle (by linarith) hmem
        · exact cut_anti_eq hle (by linarith) hmem

theorem huang_profit (S : Sorter) {df : DF} (ht : IsTable df) (hn : NonNeg df) {tm : TransactionManager}
    {ps pb q : ℚ} (h : huangAuction S df = .ok (tm, .huang (ps : Ext) (pb : Ext) q)) {r : Row} (hr : r ∈ df)
    {b : Bid} (hs : r.buying = b.buying) :
    profitOf b tm.trans r.label =
      (if b.buying then b.price - pb else ps - b.price) * tradedBy tm.trans r.label := by
  have := moneyOf_const (fun t htm hb => huang_trade_price S ht hn h t htm r hr hb)
  unfold profitOf
  rw [this, hs]
  split <;> ring

end

/-- **C117, prices.** How a bid is divided into parts does not change whether Huang's auction trades at
all, nor its two prices. -/
theorem C117_prices (S : Sorter) (l₁ l₂ rest : List Bid) (b b₁ : Bid) (h : SplitInto b (b₁ :: rest))
    (hn : NonNeg (labelFrom 0 (l₁ ++ b :: l₂))) (tm tm' : TransactionManager) (ex ex' : Extra)
    (hr : huangAuction S (labelFrom 0 (l₁ ++ b :: l₂)) = .ok (tm, ex))
    (hr' : huangAuction S (labelFrom 0 (l₁ ++ b₁ :: l₂ ++ rest)) = .ok (tm', ex')) :
    (tm.trans = [] ∧ tm'.trans = [] ∧ ex = .empty ∧ ex' = .empty) ∨
    ∃ ps pb q q' : ℚ, ex = .huang (ps : Ext) (pb : Ext) q ∧ ex' = .huang (ps : Ext) (pb : Ext) q' :=
  huang_split_prices S h hn hr hr'

/-- **C117, Huang's auction.** Nobody gains in `huang_auction` by submitting a bid in parts, not even
under different names, if no two bids of a side of the original book have the same price. -/
theorem C117_huang (S : Sorter) (l₁ l₂ : List Bid) (b : Bid)
    (hn : NonNeg (labelFrom 0 (l₁ ++ b :: l₂))) (hd : DistinctPrices (labelFrom 0 (l₁ ++ b :: l₂))) :
    NoSplitting (huangAuction S) l₁ l₂ b := by
  intro b₁ rest h tm tm' ex ex' hr hr'
  rcases huang_split_prices S h hn hr hr' with ⟨e, e', -, -⟩ | ⟨ps, pb, q, q', rfl, rfl⟩
  · rw [e, e']
    have : ∀ i, profitOf b [] i = 0 := by
      intro i
      simp [profitOf, tradedBy, moneyOf]
    have hz : profitOf b [] = fun _ => (0 : ℚ) := funext this
    rw [hz]
    simp
  set m : ℚ := if b.buying then b.price - pb else ps - b.price with hmdef
  have hw : profitOf b tm.trans l₁.length = m * tradedBy tm.trans l₁.length :=
    huang_profit S (isTable_labelFrom _) hn hr mem_unsplit rfl
  have hp : ∀ i ∈ ownIds l₁.length (l₁ ++ b :: l₂).length rest.length,
      profitOf b tm'.trans i = m * tradedBy tm'.trans i := by
    intro i hi
    unfold ownIds at hi
    rcases List.mem_cons.mp hi with rfl | hi
    · exact huang_profit S (isTable_labelFrom _) (split_nonNeg h hn) hr' mem_first (h.side b₁ (by simp))
    · obtain ⟨j, hj, rfl⟩ := List.mem_map.mp hi
      have hj' := List.mem_range.mp hj
      exact huang_profit S (isTable_labelFrom _) (split_nonNeg h hn) hr' (mem_part (b := b) j hj')
        (h.side _ (List.mem_cons_of_mem _ (List.getElem_mem hj')))
  rw [List.map_congr_left hp, List.sum_map_mul_left, hw]
  by_cases hm : b.price = if b.buying then pb else ps
  · have : m = 0 := by
      rw [hmdef]
      split_ifs at hm ⊢ <;> linarith
    simp [this]
  obtain ⟨h1, h2, -⟩ := huang_split_alloc S h hn hd hr hr' hm
  cases hf : front ps pb b.buying ⟨b, 0⟩
  · obtain ⟨h3, h4⟩ := h2 hf
    have : (ownIds l₁.length (l₁ ++ b :: l₂).length rest.length).map (tradedBy tm'.trans) =
        (ownIds l₁.length (l₁ ++ b :: l₂).length rest.length).map (fun _ => (0 : ℚ)) :=
      List.map_congr_left h4
    rw [this, h3]
    simp
  · refine mul_le_mul_of_nonneg_left h1 ?_
    rw [hmdef]
    unfold front frontBuy frontSell at hf
    cases hb : b.buying <;> simp [hb] at hf ⊢ <;> linarith

/-- **C117, the others.** A bid that is not at the marginal price of its side and is submitted in parts leaves
every other bid of its side at least what it had, and the bids of the other side exactly that. -/
theorem C117_others (S : Sorter) (l₁ l₂ rest : List Bid) (b b₁ : Bid) (h : SplitInto b (b₁ :: rest))
    (hn : NonNeg (labelFrom 0 (l₁ ++ b :: l₂))) (hd : DistinctPrices (labelFrom 0 (l₁ ++ b :: l₂)))
    (tm tm' : TransactionManager) (ps pb q : ℚ) (ex' : Extra)
    (hr : huangAuction S (labelFrom 0 (l₁ ++ b :: l₂)) = .ok (tm, .huang (ps : Ext) (pb : Ext) q))
    (hr' : huangAuction S (labelFrom 0 (l₁ ++ b₁ :: l₂ ++ rest)) = .ok (tm', ex'))
    (hm : b.price ≠ if b.buying then pb else ps) (i : ℕ) (c : Bid) (hi : i ≠ l₁.length)
    (hc : (l₁ ++ b :: l₂)[i]? = some c) :
    if c.buying = b.buying then tradedBy tm.trans i ≤ tradedBy tm'.trans i
    else tradedBy tm'.trans i = tradedBy tm.trans i := by
  rcases huang_split_prices S h hn hr hr' with ⟨-, -, e, -⟩ | ⟨ps', pb', q₁, q', e, rfl⟩
  · cases e
  cases e
  have hmem : (⟨c, i⟩ : Row) ∈ labelFrom 0 (l₁ ++ b :: l₂) := by
    apply List.mem_of_getElem? (i := i)
    rw [labelFrom_getElem?, hc]
    simp
  exact (huang_split_alloc S h hn hd hr hr' hm).2.2 _ hmem hi

/-- Non-vacuity: the buyer of 4 at 10 submits 2 and 2 under the names 0 and 7; instead of 3/2 units the parts
get 1/3 each, and the buyer at 9 gets 4/3 instead of 1/2. -/
example :
    let l₂ : List Bid := [⟨3, 9, 1, true, 0, true⟩, ⟨1, 8, 2, true, 0, true⟩, ⟨2, 1, 3, false, 0, true⟩,
      ⟨10, 2, 4, false, 0, true⟩]
    let b : Bid := ⟨4, 10, 0, true, 0, true⟩
    let b₁ : Bid := ⟨2, 10, 0, true, 0, true⟩
    let b₂ : Bid := ⟨2, 10, 7, true, 0, true⟩
    SplitInto b [b₁, b₂] ∧ NonNeg (labelFrom 0 ([] ++ b :: l₂)) ∧ DistinctPrices (labelFrom 0 ([] ++ b :: l₂)) ∧
    (huangAuction stableSorter (labelFrom 0 ([] ++ b :: l₂))).toOption.map
      (fun o => (o.2, [0, 1, 3].map (tradedBy o.1.trans), profitOf b o.1.trans 0)) =
      some (.huang ((2 : ℚ) : Ext) ((8 : ℚ) : Ext) 2, [3 / 2, 1 / 2, 2], 3) ∧
    (huangAuction stableSorter (labelFrom 0 ([] ++ b₁ :: l₂ ++ [b₂]))).toOption.map
      (fun o => (o.2, [0, 1, 3, 5].map (tradedBy o.1.trans),
        ((ownIds 0 5 1).map (profitOf b o.1.trans)).sum)) =
      some (.huang ((2 : ℚ) : Ext) ((8 : ℚ) : Ext) 2, [1 / 3, 4 / 3, 2, 1 / 3], 4 / 3) := by
  refine ⟨⟨by decide +kernel, by decide +kernel, by decide +kernel, by decide +kernel⟩, ?_⟩
  unfold DistinctPrices
  decide +kernel

/-- **C117 refuted for the uniform price of the documentation.** One buyer wants 10 units at 10 and the only
seller has 4 at 2: the price is 10, set by the buyer. The same demand submitted as 4 and 6 ends a step of the
demand at the traded quantity, and the price becomes 6. -/
theorem C117_uniform_refuted :
    let b : Bid := ⟨10, 10, 0, true, 0, true⟩
    let s : Bid := ⟨4, 2, 1, false, 0, true⟩
    DistinctPrices (labelFrom 0 [b, s]) ∧ Pos (labelFrom 0 [b, s]) ∧
    ¬ NoSplitting (uniformPrice stableSorter) [] [s] b := by
  intro b s
  refine ⟨by unfold DistinctPrices; decide +kernel, by decide +kernel, ?_⟩
  intro h
  have key := h ⟨4, 10, 0, true, 0, true⟩ [⟨6, 10, 7, true, 0, true⟩]
    ⟨by decide +kernel, by decide +kernel, by decide +kernel, by decide +kernel⟩
    ⟨2, [⟨1, 4, 10, -1, false⟩, ⟨0, 4, 10, -1, false⟩]⟩
    ⟨2, [⟨0, 4, 6, -1, false⟩, ⟨1, 4, 6, -1, false⟩]⟩ (some ((4 : ℚ) : Ext), .fin 10)
    (some ((4 : ℚ) : Ext), .fin 6) (by decide +kernel) (by decide +kernel)
  revert key
  decide +kernel

/-- **C117 refuted for MUDA.** A single buyer never trades, whatever the coins (C114). The same buyer under
two names buys a unit at the price 3 if each half of the market gets one name and one seller; by C26 no name
ever makes a loss. -/
theorem C117_muda_refuted :
    let b : Bid := ⟨2, 10, 0, true, 0, true⟩
    let l : List Bid := [⟨2, 2, 1, false, 0, true⟩, ⟨2, 3, 2, false, 0, true⟩]
    DistinctPrices (labelFrom 0 ([] ++ b :: l)) ∧ Pos (labelFrom 0 ([] ++ b :: l)) ∧
    (∀ coin tm ex, muda stableSorter coin (labelFrom 0 ([] ++ b :: l)) = .ok (tm, ex) → tm.trans = []) ∧
    ∃ coin, ¬ NoSplitting (muda stableSorter coin) [] l b := by
  intro b l
  refine ⟨by unfold DistinctPrices; decide +kernel, by decide +kernel, ?_, fun n => decide (n < 2), ?_⟩
  · intro coin tm ex h
    exact C114_thin stableSorter coin _ (isTable_labelFrom _) (by decide +kernel)
      (Or.inl (by decide +kernel)) tm ex h
  · intro h
    have key := h ⟨1, 10, 0, true, 0, true⟩ [⟨1, 10, 7, true, 0, true⟩]
      ⟨by decide +kernel, by decide +kernel, by decide +kernel, by decide +kernel⟩
      ⟨0, []⟩ ⟨2, [⟨0, 1, 3, -1, false⟩, ⟨1, 1, 3, -1, false⟩]⟩
      (.muda [0, 1] [2] (.fin 6) .inf [0, 0, 0]) (.muda [0, 1] [2, 3] (.fin 2) (.fin 3) [0, 0, 0, 0])
      (by decide +kernel) (by decide +kernel)
    revert key
    decide +kernel

end PyMarket
