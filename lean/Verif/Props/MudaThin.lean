import Verif.Props.Muda
import Verif.Props.Phantom
import Mathlib.Data.Fintype.BigOperators
import Mathlib.SetTheory.Cardinal.Finite

/-! # C114: when MUDA trades -/

set_option autoImplicit false

namespace PyMarket

open Spec

/-- A finite competitive price lies between the prices of a buying and a selling bid that overlap. -/
theorem competitive_between {S : Sorter} {df : DF} (hn : NonNeg df) {p : ℚ}
    (h : findCompetitivePrice S df = .ok (.fin p)) :
    ∃ b ∈ df, ∃ s ∈ df, b.buying = true ∧ s.buying = false ∧ s.price < b.price ∧ s.price ≤ p ∧
      p ≤ b.price := by
  rcases competitive_cases S hn with ⟨x, hc⟩ | he
  swap
  · rw [he] at h; cases h
  rw [competitive_of_crossing hn hc] at h
  obtain ⟨b, hb, hb'⟩ := hc.marginal_buy hn
  obtain ⟨s, hs, hs'⟩ := hc.marginal_sell
  have hbm := mem_buys.mp (mem_sortDesc.mp (List.mem_of_getElem? hb))
  have hsm := mem_sells.mp (mem_sortAsc.mp (List.mem_of_getElem? hs))
  have hlt : s.price < b.price := by
    have := hc.at_x
    rw [hb', hs'] at this
    exact WithTop.coe_lt_coe.mp this
  refine ⟨b, hbm.1, s, hsm.1, hbm.2, hsm.2, hlt, ?_⟩
  injection h with h
  unfold crossPrice at h
  rw [hb', hs'] at h
  split_ifs at h
  · have h : (1 / 2 : ℚ) * s.price + (1 - 1 / 2) * b.price = p := by
      injection h
    constructor <;> linarith
  · have h : s.price = p := by injection h
    exact ⟨h.le, by linarith⟩
  · have h : b.price = p := by injection h
    exact ⟨by linarith, h.ge⟩

theorem willing_pos {H : DF} (hq : ∀ r ∈ H, 0 ≤ r.quantity) (f : Row → Bool) :
    0 < ((H.filter f).map (fun r => r.quantity)).sum ↔ ∃ r ∈ H, f r = true ∧ 0 < r.quantity := by
  constructor
  · intro h
    by_contra hno
    push Not at hno
    have : ((H.filter f).map (fun r => r.quantity)).sum ≤ 0 := by
      have := List.sum_le_card_nsmul ((H.filter f).map (fun r => r.quantity)) 0 (by
        intro x hx
        obtain ⟨r, hr, rfl⟩ := List.mem_map.mp hx
        obtain ⟨h1, h2⟩ := List.mem_filter.mp hr
        exact hno r h1 h2)
      simpa using this
    linarith
  · rintro ⟨r, hr, h1, h2⟩
    have := List.single_le_sum (l := (H.filter f).map (fun r => r.quantity)) (by
      intro x hx
      obtain ⟨r, hr, rfl⟩ := List.mem_map.mp hx
      exact hq r (List.mem_filter.mp hr).1) r.quantity
      (List.mem_map_of_mem (List.mem_filter.mpr ⟨hr, h1⟩))
    linarith

theorem volumeAt_pos {H : DF} (hq : ∀ r ∈ H, 0 ≤ r.quantity) (p : ℚ) :
    0 < volumeAt H p ↔ (∃ b ∈ H, b.buying = true ∧ p ≤ b.price ∧ 0 < b.quantity) ∧
      ∃ s ∈ H, s.buying = false ∧ s.price ≤ p ∧ 0 < s.quantity := by
  unfold volumeAt willingBuyers willingSellers
  rw [lt_min_iff, willing_pos hq, willing_pos hq]
  simp only [Bool.and_eq_true, Bool.not_eq_true', decide_eq_true_eq, and_assoc]

/-- **C114, a half.** A half trades exactly if the other half has a finite competitive price that a buyer
and a seller of the half, both of positive quantity, accept. -/
theorem C114_half (S : Sorter) (coin : ℕ → Bool) (df : DF) (ht : IsTable df) (hq : ∀ r ∈ df, 0 ≤ r.quantity)
    (tm : TransactionManager) (left right : List ℕ) (pl pr : Val) (fees : List ℚ)
    (h : muda S coin df = .ok (tm, .muda left right pl pr fees)) (ids : List ℕ) (v : Val)
    (hids : (ids = left ∧ v = pr) ∨ (ids = right ∧ v = pl)) :
    (∃ t ∈ tm.trans, t.bid ∈ ids) ↔ ∃ p, v = .fin p ∧
      (∃ b ∈ half df ids, b.buying = true ∧ p ≤ b.price ∧ 0 < b.quantity) ∧
      ∃ s ∈ half df ids, s.buying = false ∧ s.price ≤ p ∧ 0 < s.quantity := by
  obtain ⟨-, hl, hr⟩ := (muda_run' ht h).halves ht hq
  have ho : HalfOutcome S (half df ids) v (tradesIn ids tm.trans) := by
    rcases hids with ⟨rfl, rfl⟩ | ⟨rfl, rfl⟩
    · exact hl
    · exact hr
  have hq' : ∀ r ∈ half df ids, 0 ≤ r.quantity := fun r hr => hq r (half_sub r hr)
  have hmem : (∃ t ∈ tm.trans, t.bid ∈ ids) ↔ tradesIn ids tm.trans ≠ [] := by
    constructor
    · rintro ⟨t, ht, hi⟩
      exact List.ne_nil_of_mem (List.mem_filter.mpr ⟨ht, decide_eq_true hi⟩)
    · intro hne
      obtain ⟨t, ht⟩ := List.exists_mem_of_ne_nil _ hne
      obtain ⟨h1, h2⟩ := List.mem_filter.mp ht
      exact ⟨t, h1, of_decide_eq_true h2⟩
  rw [hmem]
  simp only [← volumeAt_pos hq']
  rcases ho with ⟨he, hz⟩ | ⟨p, hv, hT⟩
  · rw [he]
    constructor
    · intro h; exact absurd rfl h
    · rintro ⟨p, hp, h0⟩
      rw [hz p hp] at h0
      exact absurd h0 (lt_irrefl 0)
  · have h0 := hT.pos
    rw [halfQty_eq] at h0
    exact ⟨fun _ => ⟨p, hv, h0⟩, fun _ => hT.ne_nil⟩

/-- **C114, who is needed.** If MUDA trades anything, at a price `p`, then each half has a buyer `b` and a
seller `s` with `s.price ≤ p ≤ b.price`. -/
theorem C114_needs (S : Sorter) (coin : ℕ → Bool) (df : DF) (ht : IsTable df) (hn : NonNeg df)
    (tm : TransactionManager) (ex : Extra) (h : muda S coin df = .ok (tm, ex)) (t : Transaction)
    (htm : t ∈ tm.trans) (side : Bool) :
    ∃ b ∈ df, ∃ s ∈ df, coin b.label = side ∧ coin s.label = side ∧ b.buying = true ∧ s.buying = false ∧
      s.price ≤ t.price ∧ t.price ≤ b.price := by
  have hq : ∀ r ∈ df, 0 ≤ r.quantity := fun r hr => (hn r hr).1
  obtain ⟨left, right, pl, pr, fees, rfl, -⟩ := muda_run ht h
  obtain ⟨-, hl, hr, hpl, hpr, hT⟩ := C24_halves S coin df ht hq tm left right pl pr fees h
  have hhl : ∀ r ∈ half df left, r ∈ df ∧ coin r.label = true := fun r hr =>
    ⟨half_sub r hr, ((hl _).mp (of_decide_eq_true (List.mem_filter.mp hr).2)).2⟩
  have hhr : ∀ r ∈ half df right, r ∈ df ∧ coin r.label = false := fun r hr' =>
    ⟨half_sub r hr', ((hr _).mp (of_decide_eq_true (List.mem_filter.mp hr').2)).2⟩
  have key : ∀ (own other : List ℕ) (c : Bool) (v : Val), ((own = left ∧ v = pr) ∨ (own = right ∧ v = pl)) →
      findCompetitivePrice S (half df other) = .ok v → v = .fin t.price → t.bid ∈ own →
      (∀ r ∈ half df own, r ∈ df ∧ coin r.label = c) → (∀ r ∈ half df other, r ∈ df ∧ coin r.label = !c) →
      ∃ b ∈ df, ∃ s ∈ df, coin b.label = side ∧ coin s.label = side ∧ b.buying = true ∧ s.buying = false ∧
        s.price ≤ t.price ∧ t.price ≤ b.price := by
    intro own other c v hids hprice hv hb h1 h2
    by_cases hc : side = c
    · obtain ⟨p, hp, ⟨b, hb, b1, b2, -⟩, s, hs, s1, s2, -⟩ :=
        (C114_half S coin df ht hq tm left right pl pr fees h own v hids).mp ⟨t, htm, hb⟩
      rw [hv] at hp
      cases hp
      exact ⟨b, (h1 b hb).1, s, (h1 s hs).1, by rw [hc]; exact (h1 b hb).2, by rw [hc]; exact (h1 s hs).2,
        b1, s1, s2, b2⟩
    · have hc : side = !c := by cases side <;> cases c <;> simp_all
      rw [hv] at hprice
      obtain ⟨b, hb, s, hs, b1, s1, -, s2, b2⟩ :=
        competitive_between (fun r hr => hn r (half_sub r hr)) hprice
      exact ⟨b, (h2 b hb).1, s, (h2 s hs).1, by rw [hc]; exact (h2 b hb).2, by rw [hc]; exact (h2 s hs).2,
        b1, s1, s2, b2⟩
  rcases hT t htm with ⟨h1, h2⟩ | ⟨h1, h2⟩
  · exact key left right true pr (Or.inl ⟨rfl, rfl⟩) hpr h2 h1 hhl hhr
  · exact key right left false pl (Or.inr ⟨rfl, rfl⟩) hpl h2 h1 hhr hhl

/-- **C114, thin markets.** With at most one buyer or at most one seller MUDA never trades, whatever the
coins and the prices. -/
theorem C114_thin (S : Sorter) (coin : ℕ → Bool) (df : DF) (ht : IsTable df) (hn : NonNeg df)
    (hthin : (df.filter (fun r => r.buying)).length ≤ 1 ∨ (df.filter (fun r => !r.buying)).length ≤ 1)
    (tm : TransactionManager) (ex : Extra) (h : muda S coin df = .ok (tm, ex)) : tm.trans = [] := by
  by_contra hne
  obtain ⟨t, htm⟩ := List.exists_mem_of_ne_nil _ hne
  obtain ⟨b, hb, s, hs, c1, c2, f1, f2, -⟩ := C114_needs S coin df ht hn tm ex h t htm true
  obtain ⟨b', hb', s', hs', c1', c2', f1', f2', -⟩ := C114_needs S coin df ht hn tm ex h t htm false
  have two : ∀ (l : DF) (r r' : Row), r ∈ l → r' ∈ l → r ≠ r' → 1 < l.length := by
    intro l r r' hr hr' hne
    match l, hr, hr' with
    | [a], hr, hr' =>
      rw [List.mem_singleton] at hr hr'
      exact absurd (hr.trans hr'.symm) hne
    | _ :: _ :: _, _, _ => simp
  have hbb : b ≠ b' := by rintro rfl; rw [c1] at c1'; cases c1'
  have hss : s ≠ s' := by rintro rfl; rw [c2] at c2'; cases c2'
  rcases hthin with h1 | h1
  · exact absurd h1 (not_le.mpr (two _ b b' (List.mem_filter.mpr ⟨hb, f1⟩) (List.mem_filter.mpr ⟨hb', f1'⟩) hbb))
  · exact absurd h1 (not_le.mpr (two _ s s' (List.mem_filter.mpr ⟨hs, by simp [f2]⟩)
      (List.mem_filter.mpr ⟨hs', by simp [f2']⟩) hss))

/-! ## How likely a trade is -/

/-- The coins `d`, one per bid, continued by `false`. -/
def Spec.coins {n : ℕ} (d : Fin n → Bool) (i : ℕ) : Bool := if h : i < n then d ⟨i, h⟩ else false

theorem card_both {α : Type} [Finite α] :
    Nat.card {f : α → Bool // (∃ a, f a = true) ∧ ∃ a, f a = false} ≤ 2 ^ Nat.card α - 2 := by
  classical
  have := Fintype.ofFinite α
  rw [Nat.card_eq_fintype_card, Nat.card_eq_fintype_card, Fintype.card_subtype]
  rcases isEmpty_or_nonempty α with he | ⟨⟨a⟩⟩
  · rw [Finset.filter_eq_empty_iff.mpr]
    · exact Nat.zero_le _
    · rintro f - ⟨⟨a, -⟩, -⟩
      exact he.elim a
  · have hsub : (Finset.univ.filter (fun f : α → Bool => (∃ a, f a = true) ∧ ∃ a, f a = false)) ⊆
        Finset.univ \ {fun _ => true, fun _ => false} := by
      intro f hf
      obtain ⟨⟨x, hx⟩, y, hy⟩ := (Finset.mem_filter.mp hf).2
      simp only [Finset.mem_sdiff, Finset.mem_univ, true_and, Finset.mem_insert, Finset.mem_singleton, not_or]
      constructor
      · rintro rfl; cases hy
      · rintro rfl; cases hx
    refine (Finset.card_le_card hsub).trans ?_
    rw [Finset.card_sdiff_of_subset (Finset.subset_univ _), Finset.card_univ, Fintype.card_fun,
      Fintype.card_bool, Finset.card_pair]
    intro h
    have := congrFun h a
    cases this

/-- **C114, chances.** With `m` buyers and `k` sellers, at most `(2^m − 2)·(2^k − 2)` of the `2^(m+k)`
outcomes of the coins lead to any trade. -/
theorem C114_chance (S : Sorter) (df : DF) (ht : IsTable df) (hn : NonNeg df) :
    Nat.card {d : Fin df.length → Bool // ∃ tm ex, muda S (coins d) df = .ok (tm, ex) ∧ tm.trans ≠ []} ≤
      (2 ^ (df.filter (fun r => r.buying)).length - 2) *
        (2 ^ (df.filter (fun r => !r.buying)).length - 2) := by
  have hnd : df.Nodup := List.Nodup.of_map _ ht.nodup
  let B := (df.filter (fun r => r.buying)).toFinset
  let A := (df.filter (fun r => !r.buying)).toFinset
  have hB : Nat.card B = (df.filter (fun r => r.buying)).length := by
    rw [Nat.card_eq_fintype_card, Fintype.card_coe, List.toFinset_card_of_nodup (hnd.filter _)]
  have hA : Nat.card A = (df.filter (fun r => !r.buying)).length := by
    rw [Nat.card_eq_fintype_card, Fintype.card_coe, List.toFinset_card_of_nodup (hnd.filter _)]
  rw [← hB, ← hA]
  refine le_trans ?_ (Nat.mul_le_mul (card_both (α := B)) (card_both (α := A)))
  rw [← Nat.card_prod]
  have mB : ∀ r ∈ df, r.buying = true → r ∈ B := fun r hr hb =>
    List.mem_toFinset.mpr (List.mem_filter.mpr ⟨hr, hb⟩)
  have mA : ∀ r ∈ df, r.buying = false → r ∈ A := fun r hr hb =>
    List.mem_toFinset.mpr (List.mem_filter.mpr ⟨hr, by simp [hb]⟩)
  refine Nat.card_le_card_of_injective (fun d => (⟨fun r : B => coins d.1 r.1.label, ?_⟩,
    ⟨fun r : A => coins d.1 r.1.label, ?_⟩)) ?_
  · obtain ⟨tm, ex, h, hne⟩ := d.2
    obtain ⟨t, htm⟩ := List.exists_mem_of_ne_nil _ hne
    obtain ⟨b, hb, _, _, c1, _, f1, _⟩ := C114_needs S _ df ht hn tm ex h t htm true
    obtain ⟨b', hb', _, _, c1', _, f1', _⟩ := C114_needs S _ df ht hn tm ex h t htm false
    exact ⟨⟨⟨b, mB b hb f1⟩, c1⟩, ⟨⟨b', mB b' hb' f1'⟩, c1'⟩⟩
  · obtain ⟨tm, ex, h, hne⟩ := d.2
    obtain ⟨t, htm⟩ := List.exists_mem_of_ne_nil _ hne
    obtain ⟨_, _, b, hb, _, c1, _, f1, _⟩ := C114_needs S _ df ht hn tm ex h t htm true
    obtain ⟨_, _, b', hb', _, c1', _, f1', _⟩ := C114_needs S _ df ht hn tm ex h t htm false
    exact ⟨⟨⟨b, mA b hb f1⟩, c1⟩, ⟨⟨b', mA b' hb' f1'⟩, c1'⟩⟩
  · intro d d' hdd
    obtain ⟨h1, h2⟩ := Prod.mk.inj hdd
    have h1 := congrArg Subtype.val h1
    have h2 := congrArg Subtype.val h2
    apply Subtype.ext
    funext i
    have hi := List.getElem?_eq_getElem i.2
    have hm := List.mem_of_getElem? hi
    have hlab := ht.label hi
    have key : coins d.1 df[i].label = coins d'.1 df[i].label := by
      cases hb : df[i].buying with
      | true => exact congrFun h1 ⟨_, mB _ hm hb⟩
      | false => exact congrFun h2 ⟨_, mA _ hm hb⟩
    have e : df[i].label = i := hlab
    rw [e] at key
    unfold coins at key
    rw [dif_pos i.2, dif_pos i.2] at key
    exact key

/-- Two buyers and two sellers, all with compatible prices. -/
def foursome : DF := labelFrom 0
  [⟨1, 9, 0, true, 0, true⟩, ⟨1, 8, 1, true, 0, true⟩, ⟨1, 1, 2, false, 0, true⟩, ⟨1, 2, 3, false, 0, true⟩]

/-- With these coins both halves trade. -/
example : IsTable foursome ∧ NonNeg foursome ∧
    muda stableSorter (fun i => i == 0 || i == 2) foursome = .ok
      (⟨4, [⟨2, 1, 5, -1, false⟩, ⟨0, 1, 5, -1, false⟩, ⟨3, 1, 5, -1, false⟩, ⟨1, 1, 5, -1, false⟩]⟩,
        .muda [0, 2] [1, 3] (.fin 5) (.fin 5) [0, 0, 0, 0]) := by decide +kernel

/-- The bound is attained: of the 16 outcomes exactly 4 trade. -/
example : (Finset.univ.filter (fun d : Fin 4 → Bool =>
    ((muda stableSorter (coins d) foursome).toOption.map (fun o => o.1.trans.isEmpty)) = some false)).card = 4 := by decide +kernel

/-- What one might expect: with gains from trade, MUDA trades for some coins. -/
def Spec.MudaTradesSomewhere : Prop :=
  ∀ (S : Sorter) (df : DF), IsTable df → NonNeg df →
    (∃ b ∈ df, ∃ s ∈ df, b.buying = true ∧ s.buying = false ∧ 0 < b.quantity ∧ 0 < s.quantity ∧
      s.price < b.price) → ∃ coin tm ex, muda S coin df = .ok (tm, ex) ∧ tm.trans ≠ []

/-- **C114, refuted.** A single buyer and a single seller never trade, however much they could gain. -/
theorem C114_trades_refuted (M : ℚ) (hM : 0 < M) : ∃ df, IsTable df ∧ NonNeg df ∧
    (∃ b ∈ df, ∃ s ∈ df, b.buying = true ∧ s.buying = false ∧ 1 ≤ b.quantity ∧ 1 ≤ s.quantity ∧
      M ≤ b.price - s.price) ∧
    ∀ S coin tm ex, muda S coin df = .ok (tm, ex) → tm.trans = [] := by
  refine ⟨labelFrom 0 [⟨1, M, 0, true, 0, true⟩, ⟨1, 0, 1, false, 0, true⟩], rfl, ?_, ?_, ?_⟩
  · intro r hr
    simp only [labelFrom, List.mem_cons, List.not_mem_nil, or_false] at hr
    rcases hr with rfl | rfl
    · exact ⟨zero_le_one, hM.le⟩
    · exact ⟨zero_le_one, le_refl _⟩
  · exact ⟨_, List.mem_cons_self, _, List.mem_cons_of_mem _ List.mem_cons_self, rfl, rfl, le_refl _,
      le_refl _, by simp⟩
  · intro S coin tm ex h
    refine C114_thin S coin _ (by unfold IsTable; rfl) ?_ (Or.inl (by simp [labelFrom])) tm ex h
    intro r hr
    simp only [labelFrom, List.mem_cons, List.not_mem_nil, or_false] at hr
    rcases hr with rfl | rfl
    · exact ⟨zero_le_one, hM.le⟩
    · exact ⟨zero_le_one, le_refl _⟩

theorem C114_somewhere_refuted : ¬ MudaTradesSomewhere := by
  intro h
  obtain ⟨df, ht, hn, ⟨b, hb, s, hs, f1, f2, q1, q2, hp⟩, hno⟩ := C114_trades_refuted 1 one_pos
  obtain ⟨coin, tm, ex, hr, hne⟩ := h stableSorter df ht hn
    ⟨b, hb, s, hs, f1, f2, by linarith, by linarith, by linarith⟩
  exact hne (hno _ _ _ _ hr)

end PyMarket
