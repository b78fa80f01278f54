import Verif.Props.HuangQuantity
import Verif.Props.Totals
import Verif.Props.MudaEfficient

/-! # Submitting a bid in several parts

Lemmas for C117. -/

set_option autoImplicit false

namespace PyMarket

open Spec

/-- `parts` are bids on the side of `b` and at its price that add up to it. -/
structure Spec.SplitInto (b : Bid) (parts : List Bid) : Prop where
  pos : ∀ c ∈ parts, 0 < c.quantity
  price : ∀ c ∈ parts, c.price = b.price
  side : ∀ c ∈ parts, c.buying = b.buying
  sum : (parts.map (fun c => c.quantity)).sum = b.quantity

/-- The demand at a quantity depends on the demanded quantities only, and at 0 on the prices. -/
theorem demandAt_congr (S : Sorter) {df df' : DF} (h : NonNeg df) (h' : NonNeg df')
    (hD : ∀ p, demandQty df p = demandQty df' p)
    (hN : ∀ p, df.filter (fun r => r.buying && decide (p ≤ r.price)) ≠ [] ↔
      df'.filter (fun r => r.buying && decide (p ≤ r.price)) ≠ []) {x : Ext}
    (hx : ((0 : ℚ) : Ext) ≤ x) : demandAt S df x = demandAt S df' x := by
  have half : ∀ (df df' : DF), NonNeg df → NonNeg df' → (∀ p, demandQty df p = demandQty df' p) →
      (∀ p, df.filter (fun r => r.buying && decide (p ≤ r.price)) ≠ [] ↔
        df'.filter (fun r => r.buying && decide (p ≤ r.price)) ≠ []) →
      demandAt S df x ≤ demandAt S df' x := by
    intro df df' h h' hD hN
    obtain ⟨d, hd⟩ := demand_fin S df x
    rcases eq_or_ne x ⊤ with rfl | hne
    · rw [demandAt_top, demandAt_top]
    obtain ⟨q, rfl⟩ := WithTop.ne_top_iff_exists.mp hne
    have hq := WithTop.coe_le_coe.mp hx
    have hd0 := demandAt_nonneg S (fun r hr => (h r hr).2) (q : Ext)
    rw [hd] at hd0 ⊢
    rcases eq_or_lt_of_le (WithTop.coe_le_coe.mp hd0) with rfl | hd0
    · exact demandAt_nonneg S (fun r hr => (h' r hr).2) _
    rcases eq_or_lt_of_le hq with rfl | hq
    · rw [demandAt_zero_iff S (fun r hr => (h' r hr).1) hd0, ← hN]
      exact (demandAt_zero_iff S (fun r hr => (h r hr).1) hd0).mp hd.ge
    · rw [demandAt_galois S (fun r hr => (h' r hr).1) hq hd0, ← hD]
      exact (demandAt_galois S (fun r hr => (h r hr).1) hq hd0).mp hd.ge
  exact le_antisymm (half df df' h h' hD hN)
    (half df' df h' h (fun p => (hD p).symm) (fun p => (hN p).symm))

theorem supplyAt_congr (S : Sorter) {df df' : DF} (h : NonNeg df) (h' : NonNeg df')
    (hD : ∀ p, supplyQty df p = supplyQty df' p)
    (hN : ∀ p, df.filter (fun r => !r.buying && decide (r.price ≤ p)) ≠ [] ↔
      df'.filter (fun r => !r.buying && decide (r.price ≤ p)) ≠ []) {x : Ext}
    (hx : ((0 : ℚ) : Ext) ≤ x) : supplyAt S df x = supplyAt S df' x := by
  have half : ∀ (df df' : DF), NonNeg df → NonNeg df' → (∀ p, supplyQty df p = supplyQty df' p) →
      (∀ p, df.filter (fun r => !r.buying && decide (r.price ≤ p)) ≠ [] ↔
        df'.filter (fun r => !r.buying && decide (r.price ≤ p)) ≠ []) →
      supplyAt S df' x ≤ supplyAt S df x := by
    intro df df' h h' hD hN
    rcases eq_or_ne (supplyAt S df x) ⊤ with ht | hne'
    · rw [ht]; exact le_top
    obtain ⟨d, hd⟩ := WithTop.ne_top_iff_exists.mp hne'
    rcases eq_or_ne x ⊤ with rfl | hne
    · rw [supplyAt_top, supplyAt_top]
    obtain ⟨q, rfl⟩ := WithTop.ne_top_iff_exists.mp hne
    have hq := WithTop.coe_le_coe.mp hx
    rw [← hd]
    rcases eq_or_lt_of_le hq with rfl | hq
    · rw [supplyAt_zero_iff S (fun r hr => (h' r hr).1), ← hN]
      exact (supplyAt_zero_iff S (fun r hr => (h r hr).1)).mp hd.ge
    · rw [supplyAt_galois S (fun r hr => (h' r hr).1) hq, ← hD]
      exact (supplyAt_galois S (fun r hr => (h r hr).1) hq).mp hd.ge
  exact le_antisymm (half df' df h' h (fun p => (hD p).symm) (fun p => (hN p).symm))
    (half df df' h h' hD hN)

section

variable {l₁ l₂ rest : List Bid} {b b₁ : Bid}

/-- A sum over the bids of the split book. -/
theorem sum_split (g : Bid → ℚ) :
    ((l₁ ++ b₁ :: l₂ ++ rest).map g).sum =
      (l₁.map g).sum + (l₂.map g).sum + ((b₁ :: rest).map g).sum := by
  simp only [List.map_append, List.map_cons, List.sum_append, List.sum_cons]
  ring

theorem sum_unsplit (g : Bid → ℚ) :
    ((l₁ ++ b :: l₂).map g).sum = (l₁.map g).sum + (l₂.map g).sum + g b := by
  simp only [List.map_append, List.map_cons, List.sum_append, List.sum_cons]
  ring

theorem Spec.SplitInto.sum_ite {parts : List Bid} (h : SplitInto b parts) {f : Bid → Bool}
    (hf : ∀ c ∈ parts, f c = f b) :
    (parts.map (fun c => if f c then c.quantity else 0)).sum = if f b then b.quantity else 0 := by
  have : parts.map (fun c => if f c then c.quantity else 0) =
      parts.map (fun c => if f b then c.quantity else 0) := by
    apply List.map_congr_left
    intro c hc
    rw [hf c hc]
  rw [this]
  split
  · exact h.sum
  · simp

theorem split_filter_sum (h : SplitInto b (b₁ :: rest)) (f : Bid → Bool)
    (hf : ∀ c ∈ b₁ :: rest, f c = f b) :
    (((labelFrom 0 (l₁ ++ b :: l₂)).filter (fun r => f r.toBid)).map (fun r => r.quantity)).sum =
      (((labelFrom 0 (l₁ ++ b₁ :: l₂ ++ rest)).filter (fun r => f r.toBid)).map (fun r => r.quantity)).sum := by
  refine (sum_filter_rows f (fun b => b.quantity) _ 0).trans (Eq.trans ?_
    (sum_filter_rows f (fun b => b.quantity) _ 0).symm)
  rw [sum_filter_map, sum_filter_map, sum_split, sum_unsplit, h.sum_ite hf]

theorem labelFrom_filter_ne_nil (f : Bid → Bool) (l : List Bid) (n : ℕ) :
    (labelFrom n l).filter (fun r => f r.toBid) ≠ [] ↔ ∃ c ∈ l, f c = true := by
  conv_rhs => rw [← labelFrom_map_toBid n l]
  rw [Ne, List.filter_eq_nil_iff]
  push Not
  constructor
  · rintro ⟨r, hr, h⟩
    exact ⟨r.toBid, List.mem_map_of_mem hr, h⟩
  · rintro ⟨c, hc, h⟩
    obtain ⟨r, hr, rfl⟩ := List.mem_map.mp hc
    exact ⟨r, hr, h⟩

theorem split_filter_ne_nil (f : Bid → Bool) (hf : ∀ c ∈ b₁ :: rest, f c = f b) :
    (labelFrom 0 (l₁ ++ b :: l₂)).filter (fun r => f r.toBid) ≠ [] ↔
      (labelFrom 0 (l₁ ++ b₁ :: l₂ ++ rest)).filter (fun r => f r.toBid) ≠ [] := by
  rw [labelFrom_filter_ne_nil, labelFrom_filter_ne_nil]
  constructor
  · rintro ⟨c, hc, h⟩
    rcases List.mem_append.mp hc with hc | hc
    · exact ⟨c, by simp [hc], h⟩
    · rcases List.mem_cons.mp hc with rfl | hc
      · exact ⟨b₁, by simp, by rw [hf b₁ (by simp)]; exact h⟩
      · exact ⟨c, by simp [hc], h⟩
  · rintro ⟨c, hc, h⟩
    rcases List.mem_append.mp hc with hc | hc
    · rcases List.mem_append.mp hc with hc | hc
      · exact ⟨c, by simp [hc], h⟩
      · rcases List.mem_cons.mp hc with rfl | hc
        · exact ⟨b, by simp, by rw [← hf c (by simp)]; exact h⟩
        · exact ⟨c, by simp [hc], h⟩
    · exact ⟨b, by simp, by rw [← hf c (by simp [hc])]; exact h⟩

/-- Every bid of the split book is one of the original book or one of the parts. -/
theorem split_mem {r : Row} (hr : r ∈ labelFrom 0 (l₁ ++ b₁ :: l₂ ++ rest)) :
    (r ∈ labelFrom 0 (l₁ ++ b :: l₂) ∧ r.label ≠ l₁.length) ∨ r.toBid ∈ b₁ :: rest := by
  obtain ⟨k, hk⟩ := List.getElem?_of_mem hr
  rw [labelFrom_getElem?, Option.map_eq_some_iff] at hk
  obtain ⟨c, hc, rfl⟩ := hk
  rw [List.getElem?_append] at hc
  split_ifs at hc with hlt
  · by_cases hkl : k = l₁.length
    · subst hkl
      right
      have : c = b₁ := by simpa using hc.symm
      simp [this]
    · left
      refine ⟨?_, by simpa using hkl⟩
      apply List.mem_of_getElem? (i := k)
      rw [labelFrom_getElem?, Option.map_eq_some_iff]
      refine ⟨c, ?_, rfl⟩
      rw [← hc]
      rcases Nat.lt_or_gt_of_ne hkl with h | h
      · rw [List.getElem?_append_left h, List.getElem?_append_left h]
      · rw [List.getElem?_append_right h.le, List.getElem?_append_right h.le]
        obtain ⟨m, hm⟩ : ∃ m, k - l₁.length = m + 1 := ⟨k - l₁.length - 1, by omega⟩
        rw [hm, List.getElem?_cons_succ, List.getElem?_cons_succ]
  · right
    exact List.mem_cons_of_mem _ (List.mem_of_getElem? hc)

/-- The bids other than the split one are in both books. -/
theorem split_other {r : Row} (hr : r ∈ labelFrom 0 (l₁ ++ b :: l₂)) (hl : r.label ≠ l₁.length) :
    r ∈ labelFrom 0 (l₁ ++ b₁ :: l₂ ++ rest) := by
  obtain ⟨k, hk⟩ := List.getElem?_of_mem hr
  rw [labelFrom_getElem?, Option.map_eq_some_iff] at hk
  obtain ⟨c, hc, rfl⟩ := hk
  have hkl : k ≠ l₁.length := by simpa using hl
  have hlt : k < (l₁ ++ b₁ :: l₂).length := by
    have := (List.getElem?_eq_some_iff.mp hc).1
    simpa using this
  apply List.mem_of_getElem? (i := k)
  rw [labelFrom_getElem?, Option.map_eq_some_iff]
  refine ⟨c, ?_, rfl⟩
  rw [List.getElem?_append_left hlt, ← hc]
  rcases Nat.lt_or_gt_of_ne hkl with h | h
  · rw [List.getElem?_append_left h, List.getElem?_append_left h]
  · rw [List.getElem?_append_right h.le, List.getElem?_append_right h.le]
    obtain ⟨m, hm⟩ : ∃ m, k - l₁.length = m + 1 := ⟨k - l₁.length - 1, by omega⟩
    rw [hm, List.getElem?_cons_succ, List.getElem?_cons_succ]

theorem split_nonNeg (h : SplitInto b (b₁ :: rest)) (hn : NonNeg (labelFrom 0 (l₁ ++ b :: l₂))) :
    NonNeg (labelFrom 0 (l₁ ++ b₁ :: l₂ ++ rest)) := by
  intro r hr
  rcases split_mem (b := b) hr with ⟨h', -⟩ | h'
  · exact hn r h'
  · refine ⟨(h.pos _ h').le, ?_⟩
    rw [h.price _ h']
    have hm : (⟨b, l₁.length⟩ : Row) ∈ labelFrom 0 (l₁ ++ b :: l₂) := by
      apply List.mem_of_getElem? (i := l₁.length)
      rw [labelFrom_getElem?]
      simp
    exact (hn _ hm).2

variable (S : Sorter) (h : SplitInto b (b₁ :: rest)) (hn : NonNeg (labelFrom 0 (l₁ ++ b :: l₂)))

include h hn in
theorem demandAt_split {x : Ext} (hx : ((0 : ℚ) : Ext) ≤ x) :
    demandAt S (labelFrom 0 (l₁ ++ b :: l₂)) x = demandAt S (labelFrom 0 (l₁ ++ b₁ :: l₂ ++ rest)) x :=
  demandAt_congr S hn (split_nonNeg h hn)
    (fun p => split_filter_sum h (fun c => c.buying && decide (p ≤ c.price))
      (fun c hc => by rw [h.side c hc, h.price c hc]))
    (fun p => split_filter_ne_nil (fun c => c.buying && decide (p ≤ c.price))
      (fun c hc => by rw [h.side c hc, h.price c hc])) hx

include h hn in
theorem supplyAt_split {x : Ext} (hx : ((0 : ℚ) : Ext) ≤ x) :
    supplyAt S (labelFrom 0 (l₁ ++ b :: l₂)) x = supplyAt S (labelFrom 0 (l₁ ++ b₁ :: l₂ ++ rest)) x :=
  supplyAt_congr S hn (split_nonNeg h hn)
    (fun p => split_filter_sum h (fun c => !c.buying && decide (c.price ≤ p))
      (fun c hc => by rw [h.side c hc, h.price c hc]))
    (fun p => split_filter_ne_nil (fun c => !c.buying && decide (c.price ≤ p))
      (fun c hc => by rw [h.side c hc, h.price c hc])) hx

include h hn in
theorem crossing_split {x : ℚ} (hc : Crossing S (labelFrom 0 (l₁ ++ b :: l₂)) x) :
    Crossing S (labelFrom 0 (l₁ ++ b₁ :: l₂ ++ rest)) x := by
  have h0 : ((0 : ℚ) : Ext) ≤ (x : Ext) := WithTop.coe_le_coe.mpr hc.nonneg
  refine crossing_of (split_nonNeg h hn) hc.nonneg ?_ ?_
  · rw [← demandAt_split S h hn h0, ← supplyAt_split S h hn h0]
    exact hc.at_x
  · intro z hz
    rw [← demandAt_split S h hn (h0.trans hz.le), ← supplyAt_split S h hn (h0.trans hz.le)]
    exact hc.above z hz

include h hn in
/-- The prices of the auction do not depend on how a bid is split. -/
theorem huang_split_prices {tm tm' : TransactionManager} {ex ex' : Extra}
    (hr : huangAuction S (labelFrom 0 (l₁ ++ b :: l₂)) = .ok (tm, ex))
    (hr' : huangAuction S (labelFrom 0 (l₁ ++ b₁ :: l₂ ++ rest)) = .ok (tm', ex')) :
    (tm.trans = [] ∧ tm'.trans = [] ∧ ex = .empty ∧ ex' = .empty) ∨
    ∃ ps pb q q' : ℚ, ex = .huang (ps : Ext) (pb : Ext) q ∧ ex' = .huang (ps : Ext) (pb : Ext) q' := by
  have hn' := split_nonNeg h hn
  rcases huang_cases S hn with ⟨e, hno⟩ | ⟨x, ps, pb, hc, hps, hpb, -, hcase⟩
  · rcases huang_cases S hn' with ⟨e', -⟩ | ⟨x, ps, pb, hc', -, -, -, -⟩
    · left
      rw [e] at hr; rw [e'] at hr'
      cases hr; cases hr'
      exact ⟨rfl, rfl, rfl, rfl⟩
    · exfalso
      apply hno
      have h0 : ((0 : ℚ) : Ext) ≤ (x : Ext) := WithTop.coe_le_coe.mpr hc'.nonneg
      refine ⟨⟨x, h0, ?_⟩, ?_⟩
      · rw [demandAt_split S h hn h0, supplyAt_split S h hn h0]
        exact hc'.at_x
      · intro z hz
        rw [demandAt_split S h hn hz, supplyAt_split S h hn hz]
        exact hc'.no_tie hn' z
  · right
    have hc' := crossing_split S h hn hc
    have h0 : ((0 : ℚ) : Ext) ≤ (x : Ext) := WithTop.coe_le_coe.mpr hc.nonneg
    rw [demandAt_split S h hn h0] at hpb
    rw [supplyAt_split S h hn h0] at hps
    rcases huang_cases S hn' with ⟨e', hno⟩ | ⟨x', ps', pb', hc'', hps', hpb', -, hcase'⟩
    · exfalso
      apply hno
      exact ⟨⟨x, h0, hc'.at_x⟩, fun z _ => hc'.no_tie hn' z⟩
    obtain rfl := hc'.unique hc''
    rw [hps] at hps'
    rw [hpb] at hpb'
    obtain rfl := WithTop.coe_injective hps'
    obtain rfl := WithTop.coe_injective hpb'
    rcases hcase with ⟨_, _, _, _, _, _, _, _, _, e⟩ | ⟨_, e⟩ <;>
    rcases hcase' with ⟨_, _, _, _, _, _, _, _, _, e'⟩ | ⟨_, e'⟩ <;>
    · rw [hr] at e; rw [hr'] at e'
      cases e; cases e'
      exact ⟨ps, pb, _, _, rfl, rfl⟩

end

/-- The price of every trade, on any book. -/
theorem huang_trade_price (S : Sorter) {df : DF} (ht : IsTable df) (hn : NonNeg df) {tm : TransactionManager}
    {ps pb q : ℚ} (h : huangAuction S df = .ok (tm, .huang (ps : Ext) (pb : Ext) q)) :
    ∀ t ∈ tm.trans, ∀ r ∈ df, t.bid = r.label → t.price = if r.buying then pb else ps := by
  rcases huang_direct S ht hn with h' | ⟨tm', ps', pb', q', h', hO, -⟩
  · rw [h] at h'; cases h'
  rw [h] at h'
  cases h'
  intro t htm r hr hb
  have := hO.trade t htm
  cases hs : r.buying
  · have e := (this.seller (by rw [hb, ht.isSell_eq hr, hs]; rfl)).1
    simpa using e
  · have e := (this.buyer (by rw [hb, ht.isBuy_eq hr, hs])).1
    simpa using e

theorem moneyOf_const {ts : List Transaction} {i : ℕ} {p : ℚ} (h : ∀ t ∈ ts, t.bid = i → t.price = p) :
    moneyOf ts i = tradedBy ts i * p := by
  unfold moneyOf tradedBy
  rw [← List.sum_map_mul_right]
  congr 1
  apply List.map_congr_left
  intro t ht
  rw [List.mem_filter] at ht
  rw [h t ht.1 (by simpa using ht.2)]

/-- Parts are cut at least as much as the whole. -/
theorem cut_parts {c : ℚ} (hc : 0 ≤ c) :
    ∀ {parts : List Bid}, (∀ x ∈ parts, 0 < x.quantity) →
    (parts.map (fun x => max (x.quantity - c) 0)).sum ≤
      max ((parts.map (fun x => x.quantity)).sum - c) 0
  | [], _ => by simp
  | a :: l, h => by
    have ih := cut_parts hc (parts := l) (fun x hx => h x (List.mem_cons_of_mem _ hx))
    have ha := h a List.mem_cons_self
    have hl : 0 ≤ (l.map (fun x => x.quantity)).sum := by
      apply List.sum_nonneg
      intro y hy
      obtain ⟨x, hx, rfl⟩ := List.mem_map.mp hy
      exact (h x (List.mem_cons_of_mem _ hx)).le
    rw [List.map_cons, List.sum_cons, List.map_cons, List.sum_cons]
    refine le_trans (add_le_add_right ih _) ?_
    rcases max_cases (a.quantity - c) 0 with ⟨e1, _⟩ | ⟨e1, _⟩ <;>
    rcases max_cases ((l.map (fun x => x.quantity)).sum - c) 0 with ⟨e2, _⟩ | ⟨e2, _⟩ <;>
    rcases max_cases (a.quantity + (l.map (fun x => x.quantity)).sum - c) 0 with ⟨e3, _⟩ | ⟨e3, _⟩ <;>
    rw [e1, e2, e3] <;> linarith

end PyMarket
