import Verif.Spec.Float
import Verif.Lemmas.FloatHuang
import Verif.Lemmas.HuangOutcome

/-! # The outcome of Huang's auction in floating point arithmetic -/

set_option autoImplicit false

namespace PyMarket

open Spec

/-! ## Curves -/

theorem totalQty_perm {df df' : DF} (h : df.Perm df') : totalQty df = totalQty df' :=
  (h.map _).sum_eq

theorem totalQty_sides (S : Sorter) (df : DF) :
    totalQty (sortDesc S (buys df)) + totalQty (sortAsc S (sells df)) = totalQty df := by
  rw [← totalQty_perm (sides_perm S df)]
  unfold totalQty
  rw [List.map_append, List.sum_append]

theorem totalQty_nonneg {df : DF} (h : ∀ r ∈ df, 0 ≤ r.quantity) : 0 ≤ totalQty df := by
  apply List.sum_nonneg
  intro x hx
  obtain ⟨r, hr, rfl⟩ := List.mem_map.mp hx
  exact h r hr

theorem steps_close {F : Fmt} {l : DF} {w : ℕ → ℚ} (hl : ∀ r ∈ l, 0 ≤ r.quantity)
    (h : l.map (fun r => w r.label) = stepsF F 0 (l.map (fun r => r.quantity))) :
    ∀ r ∈ l, |w r.label - r.quantity| ≤ F.eps * ((1 + F.eps) ^ l.length * totalQty l) := by
  have h1 := stepsF_err F (le_refl 0) (l := l.map (fun r => r.quantity)) (by
    intro x hx
    obtain ⟨r, hr, rfl⟩ := List.mem_map.mp hx
    exact hl r hr)
  rw [← h, List.length_map, zero_add] at h1
  rw [List.forall₂_map_left_iff, List.forall₂_map_right_iff, List.forall₂_same] at h1
  exact h1

theorem nearby_of_steps (F : Fmt) (S : Sorter) {df : DF} (hq : ∀ r ∈ df, 0 ≤ r.quantity) {w : ℕ → ℚ}
    (h1 : (sortDesc S (buys df)).map (fun r => w r.label) =
      stepsF F 0 ((sortDesc S (buys df)).map (fun r => r.quantity)))
    (h2 : (sortAsc S (sells df)).map (fun r => w r.label) =
      stepsF F 0 ((sortAsc S (sells df)).map (fun r => r.quantity))) :
    Nearby (F.eps * ((1 + F.eps) ^ df.length * totalQty df)) df (requant w df) := by
  have e0 := F.eps_nonneg
  have hp := sides_perm S df
  have q1 : ∀ r ∈ sortDesc S (buys df), 0 ≤ r.quantity :=
    fun r hr => hq r (hp.mem_iff.mp (List.mem_append_left _ hr))
  have q2 : ∀ r ∈ sortAsc S (sells df), 0 ≤ r.quantity :=
    fun r hr => hq r (hp.mem_iff.mp (List.mem_append_right _ hr))
  have ht := totalQty_sides S df
  have t1 := totalQty_nonneg q1
  have t2 := totalQty_nonneg q2
  have hlen : (sortDesc S (buys df)).length + (sortAsc S (sells df)).length = df.length := by
    rw [← hp.length_eq, List.length_append]
  have grow : ∀ (n : ℕ) (t : ℚ), n ≤ df.length → 0 ≤ t → t ≤ totalQty df →
      F.eps * ((1 + F.eps) ^ n * t) ≤ F.eps * ((1 + F.eps) ^ df.length * totalQty df) := by
    intro n t hn h0 hle
    apply mul_le_mul_of_nonneg_left _ e0
    exact mul_le_mul (pow_le_pow_right₀ (by linarith) hn) hle h0 (by positivity)
  have key : ∀ r ∈ df, |w r.label - r.quantity| ≤
      F.eps * ((1 + F.eps) ^ df.length * totalQty df) := by
    intro r hr
    rcases List.mem_append.mp (hp.mem_iff.mpr hr) with h | h
    · exact (steps_close q1 h1 r h).trans (grow _ _ (by omega) t1 (by linarith))
    · exact (steps_close q2 h2 r h).trans (grow _ _ (by omega) t2 (by linarith))
  unfold Nearby requant
  rw [List.forall₂_map_right_iff, List.forall₂_same]
  exact fun r hr => ⟨rfl, key r hr⟩

/-- The curves computed with rounding are the exact curves of a nearby table. -/
theorem exists_nearby (F : Fmt) (S : Sorter) {df : DF} (hnd : (df.map (fun r => r.label)).Nodup)
    (hq : ∀ r ∈ df, 0 ≤ r.quantity) : ∃ w, (∀ r ∈ requant w df, 0 ≤ r.quantity) ∧
      Nearby (F.eps * ((1 + F.eps) ^ df.length * totalQty df)) df (requant w df) ∧
      demandCurveF F S df = (demandCurve S (requant w df)).1 ∧
      supplyCurveF F S df = (supplyCurve S (requant w df)).1 := by
  obtain ⟨w, h1, h2, hw, hd, hs⟩ := exists_backward F S hnd hq
  exact ⟨w, hw, nearby_of_steps F S hq h1 h2, hd, hs⟩

/-! ## Transactions of one side -/

section side
variable {df rows : DF} {qs : List ℚ} {p : ℚ}

theorem huangSideTrans_length (h : rows.length = qs.length) :
    (huangSideTrans rows qs p).length = rows.length := by
  unfold huangSideTrans
  rw [List.length_map, List.length_zip, h, min_self]

theorem huangSideTrans_bids (h : rows.length = qs.length) :
    (huangSideTrans rows qs p).map (fun t => t.bid) = rows.map (fun r => r.label) := by
  unfold huangSideTrans
  rw [List.map_map]
  have : ((fun t : Transaction => t.bid) ∘ fun p_1 : Row × ℚ =>
      ({ bid := p_1.1.label, quantity := p_1.2, price := p, source := -1, active := false } :
        Transaction)) = (fun r : Row => r.label) ∘ Prod.fst := rfl
  rw [this, ← List.map_map, List.map_fst_zip (by omega)]

theorem huangSideTrans_qtys (h : rows.length = qs.length) :
    (huangSideTrans rows qs p).map (fun t => t.quantity) = qs := by
  unfold huangSideTrans
  rw [List.map_map]
  have : ((fun t : Transaction => t.quantity) ∘ fun p_1 : Row × ℚ =>
      ({ bid := p_1.1.label, quantity := p_1.2, price := p, source := -1, active := false } :
        Transaction)) = Prod.snd := rfl
  rw [this, List.map_snd_zip (by omega)]

theorem mem_huangSideTrans {t : Transaction} (h : t ∈ huangSideTrans rows qs p) :
    ∃ r q, (r, q) ∈ rows.zip qs ∧ t = ⟨r.label, q, p, -1, false⟩ := by
  obtain ⟨⟨r, q⟩, hm, rfl⟩ := List.mem_map.mp h
  exact ⟨r, q, hm, rfl⟩

theorem huangSideTrans_buys (ht : IsTable df) (h : ∀ r ∈ rows, r ∈ df ∧ r.buying = true)
    (hl : rows.length = qs.length) :
    boughtQty df (huangSideTrans rows qs p) = qs.sum ∧ soldQty df (huangSideTrans rows qs p) = 0 := by
  have e1 : (huangSideTrans rows qs p).filter (fun t => isBuy df t.bid) = huangSideTrans rows qs p := by
    rw [List.filter_eq_self]
    intro t htr
    obtain ⟨r, q, hm, rfl⟩ := mem_huangSideTrans htr
    have := h r (List.of_mem_zip hm).1
    simp only [ht.isBuy_eq this.1, this.2]
  have e2 : (huangSideTrans rows qs p).filter (fun t => isSell df t.bid) = [] := by
    rw [List.filter_eq_nil_iff]
    intro t htr
    obtain ⟨r, q, hm, rfl⟩ := mem_huangSideTrans htr
    have := h r (List.of_mem_zip hm).1
    simp only [ht.isSell_eq this.1, this.2]; simp
  unfold boughtQty soldQty
  rw [e1, e2, huangSideTrans_qtys hl]
  exact ⟨rfl, rfl⟩

theorem huangSideTrans_sells (ht : IsTable df) (h : ∀ r ∈ rows, r ∈ df ∧ r.buying = false)
    (hl : rows.length = qs.length) :
    soldQty df (huangSideTrans rows qs p) = qs.sum ∧ boughtQty df (huangSideTrans rows qs p) = 0 := by
  have e1 : (huangSideTrans rows qs p).filter (fun t => isSell df t.bid) = huangSideTrans rows qs p := by
    rw [List.filter_eq_self]
    intro t htr
    obtain ⟨r, q, hm, rfl⟩ := mem_huangSideTrans htr
    have := h r (List.of_mem_zip hm).1
    simp only [ht.isSell_eq this.1, this.2]; rfl
  have e2 : (huangSideTrans rows qs p).filter (fun t => isBuy df t.bid) = [] := by
    rw [List.filter_eq_nil_iff]
    intro t htr
    obtain ⟨r, q, hm, rfl⟩ := mem_huangSideTrans htr
    have := h r (List.of_mem_zip hm).1
    simp only [ht.isBuy_eq this.1, this.2]; simp
  unfold boughtQty soldQty
  rw [e1, e2, huangSideTrans_qtys hl]
  exact ⟨rfl, rfl⟩

end side

/-! ## Errors of the gap -/

/-- The error of a rounded sum, relative to the sum. -/
theorem IsFSum.err {F : Fmt} {l : List ℚ} {v : ℚ} (h : IsFSum F l v) (hl : ∀ x ∈ l, 0 ≤ x) :
    |v - l.sum| ≤ ((1 + F.eps) ^ (l.length - 1) - 1) * l.sum := by
  have e0 := F.eps_nonneg
  induction h with
  | nil => simp
  | one x => simp
  | @add l m a b hne1 hne2 ha hb h1 h2 =>
    have hl1 : ∀ x ∈ l, 0 ≤ x := fun x hx => hl x (List.mem_append_left _ hx)
    have hl2 : ∀ x ∈ m, 0 ≤ x := fun x hx => hl x (List.mem_append_right _ hx)
    have n1 := ha.nonneg hl1
    have n2 := hb.nonneg hl2
    have s1 : 0 ≤ l.sum := List.sum_nonneg hl1
    have s2 : 0 ≤ m.sum := List.sum_nonneg hl2
    have i1 := h1 hl1
    have i2 := h2 hl2
    rw [List.sum_append, List.length_append]
    obtain ⟨n, hn⟩ : ∃ n, l.length = n + 1 := ⟨l.length - 1, by
      have := List.length_pos_of_ne_nil hne1; omega⟩
    obtain ⟨k, hk⟩ : ∃ k, m.length = k + 1 := ⟨m.length - 1, by
      have := List.length_pos_of_ne_nil hne2; omega⟩
    rw [hn, Nat.add_sub_cancel] at i1
    rw [hk, Nat.add_sub_cancel] at i2
    have he : l.length + m.length - 1 = n + k + 1 := by omega
    rw [he, pow_succ]
    have p1 : (1 + F.eps) ^ n ≤ (1 + F.eps) ^ (n + k) := pow_le_pow_right₀ (by linarith) (by omega)
    have p2 : (1 + F.eps) ^ k ≤ (1 + F.eps) ^ (n + k) := pow_le_pow_right₀ (by linarith) (by omega)
    have j1 := mul_le_mul_of_nonneg_right p1 s1
    have j2 := mul_le_mul_of_nonneg_right p2 s2
    have hr := F.err (a + b)
    rw [abs_of_nonneg (add_nonneg n1 n2)] at hr
    rw [abs_le] at hr i1 i2 ⊢
    set P := (1 + F.eps) ^ (n + k)
    have hab : F.eps * (a + b) ≤ F.eps * (P * (l.sum + m.sum)) :=
      mul_le_mul_of_nonneg_left (by linarith [i1.2, i2.2]) e0
    constructor
    · nlinarith [hr.1, i1.1, i2.1]
    · nlinarith [hr.2, i1.2, i2.2]
  | perm hp _ h =>
    rw [← hp.sum_eq, ← hp.length_eq]
    exact h (fun x hx => hl x (hp.mem_iff.mp hx))

/-- The error of the gap between the two sides. -/
theorem gap_err {F : Fmt} (s : Summer F) {a b : List ℚ} (ha : ∀ x ∈ a, 0 ≤ x) (hb : ∀ x ∈ b, 0 ≤ x)
    {n : ℕ} (hna : a.length ≤ n + 1) (hnb : b.length ≤ n + 1) :
    |F.rnd (s.sum a - s.sum b) - (a.sum - b.sum)| ≤ ((1 + F.eps) ^ (n + 1) - 1) * (a.sum + b.sum) ∧
    |F.rnd (s.sum a - s.sum b)| ≤ (1 + F.eps) ^ (n + 1) * (a.sum + b.sum) := by
  have e0 := F.eps_nonneg
  have sa : 0 ≤ a.sum := List.sum_nonneg ha
  have sb : 0 ≤ b.sum := List.sum_nonneg hb
  have fa := (s.isSum a).nonneg ha
  have fb := (s.isSum b).nonneg hb
  have i1 := (s.isSum a).err ha
  have i2 := (s.isSum b).err hb
  have p1 : (1 + F.eps) ^ (a.length - 1) ≤ (1 + F.eps) ^ n := pow_le_pow_right₀ (by linarith) (by omega)
  have p2 : (1 + F.eps) ^ (b.length - 1) ≤ (1 + F.eps) ^ n := pow_le_pow_right₀ (by linarith) (by omega)
  have j1 := mul_le_mul_of_nonneg_right p1 sa
  have j2 := mul_le_mul_of_nonneg_right p2 sb
  have hr := F.err (s.sum a - s.sum b)
  have habs : |s.sum a - s.sum b| ≤ s.sum a + s.sum b := by
    rw [abs_le]; constructor <;> linarith
  rw [pow_succ]
  set P := (1 + F.eps) ^ n with hP
  have hP1 : 1 ≤ P := one_le_pow₀ (by linarith)
  rw [abs_le] at i1 i2
  have hsum : s.sum a + s.sum b ≤ P * (a.sum + b.sum) := by nlinarith [i1.2, i2.2]
  have hr' : |F.rnd (s.sum a - s.sum b) - (s.sum a - s.sum b)| ≤ F.eps * (P * (a.sum + b.sum)) :=
    hr.trans (mul_le_mul_of_nonneg_left (habs.trans hsum) e0)
  rw [abs_le] at hr' habs
  constructor
  · rw [abs_le]
    constructor
    · nlinarith [hr'.1, i1.1, i2.2]
    · nlinarith [hr'.2, i1.2, i2.1]
  · rw [abs_le]
    constructor
    · nlinarith [hr'.1, habs.1]
    · nlinarith [hr'.2, habs.2]

/-! ## The outcome -/

/-- The outcome of clearing. -/
structure ClearOut (F : Fmt) (s : Summer F) (A B : DF) (ps pb : ℚ) (n : ℕ)
    (tm : TransactionManager) (ex : Extra) : Prop where
  out : ∃ qs qb, ex = .huang (ps : Ext) (pb : Ext) (s.sum qb) ∧
    tm.trans = huangSideTrans A qs ps ++ huangSideTrans B qb pb ∧
    List.Forall₂ (fun x y => 0 ≤ y ∧ y ≤ x ∧ F.Rep y) (A.map (fun r => r.quantity)) qs ∧
    List.Forall₂ (fun x y => 0 ≤ y ∧ y ≤ x ∧ F.Rep y) (B.map (fun r => r.quantity)) qb ∧
    (qs = A.map (fun r => r.quantity) ∨ qb = B.map (fun r => r.quantity)) ∧
    |qs.sum - qb.sum| ≤ slack F n * (totalQty A + totalQty B)

theorem forall₂_self {F : Fmt} {l : List ℚ} (h : ∀ x ∈ l, 0 ≤ x ∧ F.Rep x) :
    List.Forall₂ (fun x y => 0 ≤ y ∧ y ≤ x ∧ F.Rep y) l l :=
  List.forall₂_same.mpr (fun x hx => ⟨(h x hx).1, le_refl _, (h x hx).2⟩)

theorem slack_step {F : Fmt} {n l : ℕ} (hl : l ≤ n) {T Q g e : ℚ} (hQ0 : 0 ≤ Q) (hQ : Q ≤ T) (hg : g ≤ (1 + F.eps) ^ n * T)
    (hg0 : 0 ≤ g) (he : e ≤ ((1 + F.eps) ^ n - 1) * T) : F.eps * (Q + l * g) + e ≤ slack F n * T := by
  have e0 := F.eps_nonneg
  have hP1 : 1 ≤ (1 + F.eps) ^ n := one_le_pow₀ (by linarith)
  have hT : 0 ≤ T := hQ0.trans hQ
  have hl' : (l : ℚ) ≤ n := by exact_mod_cast hl
  have hl0 : (0 : ℚ) ≤ l := by positivity
  unfold slack
  set P := (1 + F.eps) ^ n
  have h1 : (l : ℚ) * g ≤ n * (P * T) := mul_le_mul hl' hg hg0 (by linarith)
  have h2 : Q ≤ P * T := by nlinarith
  have h3 : F.eps * (Q + l * g) ≤ F.eps * (P * T + n * (P * T)) :=
    mul_le_mul_of_nonneg_left (by linarith) e0
  nlinarith

theorem huangClearF_ok {F : Fmt} {s : Summer F} {A B : DF} {ps pb : ℚ} {n : ℕ}
    (hA : ∀ r ∈ A, 0 ≤ r.quantity ∧ F.Rep r.quantity) (hB : ∀ r ∈ B, 0 ≤ r.quantity ∧ F.Rep r.quantity)
    (hn : A.length + B.length ≤ n) {tm : TransactionManager} {ex : Extra}
    (h : huangClearF F s A B ps pb = .ok (tm, ex)) :
    (tm.trans = [] ∧ (A = [] ∨ B = []) ∧
      ex = .huang (ps : Ext) (pb : Ext) (s.sum (B.map (fun r => r.quantity)))) ∨
    (A ≠ [] ∧ B ≠ [] ∧ ClearOut F s A B ps pb n tm ex) := by
  unfold huangClearF at h
  by_cases hc : B ≠ [] ∧ A ≠ []
  swap
  · rw [if_neg hc] at h
    cases h
    exact Or.inl ⟨rfl, by tauto, rfl⟩
  right
  refine ⟨hc.2, hc.1, ?_⟩
  rw [if_pos hc] at h
  simp only [bind, Except.bind] at h
  have qA : ∀ x ∈ A.map (fun r => r.quantity), 0 ≤ x ∧ F.Rep x := by
    intro x hx; obtain ⟨r, hr, rfl⟩ := List.mem_map.mp hx; exact hA r hr
  have qB : ∀ x ∈ B.map (fun r => r.quantity), 0 ≤ x ∧ F.Rep x := by
    intro x hx; obtain ⟨r, hr, rfl⟩ := List.mem_map.mp hx; exact hB r hr
  have la := List.length_pos_of_ne_nil hc.2
  have lb := List.length_pos_of_ne_nil hc.1
  obtain ⟨g1, g2⟩ := gap_err s (fun x hx => (qA x hx).1) (fun x hx => (qB x hx).1) (n := n - 1)
    (by rw [List.length_map]; omega) (by rw [List.length_map]; omega)
  rw [show n - 1 + 1 = n by omega] at g1 g2
  have sa : 0 ≤ (A.map (fun r => r.quantity)).sum := List.sum_nonneg (fun x hx => (qA x hx).1)
  have sb : 0 ≤ (B.map (fun r => r.quantity)).sum := List.sum_nonneg (fun x hx => (qB x hx).1)
  change |_| ≤ _ * (totalQty A + totalQty B) at g1
  change |_| ≤ _ * (totalQty A + totalQty B) at g2
  change 0 ≤ totalQty A at sa
  change 0 ≤ totalQty B at sb
  set gap := F.rnd (s.sum (A.map (fun r => r.quantity)) - s.sum (B.map (fun r => r.quantity))) with hgap
  by_cases hg : 0 < gap
  · rw [if_pos hg] at h
    cases hu : updateQuantityF F (A.map (fun r => r.quantity)) gap with
    | error e => rw [hu] at h; cases h
    | ok qs =>
      rw [hu] at h
      cases h
      obtain ⟨u1, u2⟩ := updateQuantityF_ok F qA hg.le (F.rep_rnd _) hu
      rw [List.length_map] at u2
      refine ⟨qs, _, rfl, TransactionManager.init_addAll_trans _, u1,
        forall₂_self qB, Or.inr rfl, ?_⟩
      rw [abs_of_pos hg] at g2
      have := slack_step (l := A.length) (n := n) (by omega) sa (by linarith : totalQty A ≤ totalQty A + totalQty B) g2
        hg.le g1
      refine le_trans ?_ this
      change |_ - totalQty B| ≤ _
      change |_ - (totalQty A - _)| ≤ F.eps * (totalQty A + _) at u2
      rw [abs_le] at u2 ⊢
      have a1 := (abs_le.mp (le_refl |gap - (totalQty A - totalQty B)|))
      constructor
      · change -(_ + |gap - (totalQty A - totalQty B)|) ≤ _
        linarith [u2.1, a1.2]
      · change _ ≤ (_ + |gap - (totalQty A - totalQty B)|)
        linarith [u2.2, a1.1]
  · rw [if_neg hg] at h
    have hg' : gap ≤ 0 := not_lt.mp hg
    cases hu : updateQuantityF F (B.map (fun r => r.quantity)) (-gap) with
    | error e => rw [hu] at h; cases h
    | ok qb =>
      rw [hu] at h
      cases h
      obtain ⟨u1, u2⟩ := updateQuantityF_ok F qB (by linarith) (F.rep_neg (F.rep_rnd _)) hu
      rw [List.length_map] at u2
      refine ⟨_, qb, rfl, TransactionManager.init_addAll_trans _,
        forall₂_self qA, u1, Or.inl rfl, ?_⟩
      rw [abs_of_nonpos hg'] at g2
      have := slack_step (l := B.length) (n := n) (by omega) sb (by linarith : totalQty B ≤ totalQty A + totalQty B) g2
        (by linarith) g1
      refine le_trans ?_ this
      change |totalQty A - _| ≤ _
      change |_ - (totalQty B - _)| ≤ F.eps * (totalQty B + _) at u2
      rw [abs_le] at u2 ⊢
      have a1 := (abs_le.mp (le_refl |gap - (totalQty A - totalQty B)|))
      constructor
      · change -(_ + |gap - (totalQty A - totalQty B)|) ≤ _
        linarith [u2.2, a1.1]
      · change _ ≤ (_ + |gap - (totalQty A - totalQty B)|)
        linarith [u2.1, a1.2]

/-- The bids `A`, `B` in front of the marginal bids `ms`, `mb`. -/
structure Fronts (df A B : DF) (ms mb : Row) : Prop where
  lt : ms.price < mb.price
  sell : ∀ r ∈ A, r ∈ df ∧ r.buying = false ∧ r.price ≤ ms.price
  buy : ∀ r ∈ B, r ∈ df ∧ r.buying = true ∧ mb.price ≤ r.price
  sell_all : ∀ r ∈ df, r.buying = false → r.price < ms.price → r ∈ A
  buy_all : ∀ r ∈ df, r.buying = true → mb.price < r.price → r ∈ B
  marg_sell : ms ∈ df ∧ ms.buying = false ∧ ms.label ∉ A.map (fun r => r.label)
  marg_buy : mb ∈ df ∧ mb.buying = true ∧ mb.label ∉ B.map (fun r => r.label)
  nodup : ((A ++ B).map (fun r => r.label)).Nodup
  length : A.length + B.length ≤ df.length
  total : totalQty A + totalQty B ≤ totalQty df

theorem take_label {l : DF} (hn : (l.map (fun r => r.label)).Nodup) {n : ℕ} {m : Row} (h : l[n]? = some m) :
    m.label ∉ (l.take n).map (fun r => r.label) := by
  obtain ⟨hl, he⟩ := List.getElem?_eq_some_iff.mp h
  rw [← List.take_append_drop n l, List.map_append, List.nodup_append] at hn
  intro hm
  refine hn.2.2 _ hm _ (List.mem_map_of_mem (a := m) ?_) rfl
  rw [List.drop_eq_getElem_cons hl, he]
  exact List.mem_cons_self

theorem totalQty_take_le {l : DF} (h : ∀ r ∈ l, 0 ≤ r.quantity) (n : ℕ) :
    totalQty (l.take n) ≤ totalQty l := by
  have h1 : totalQty (l.take n) + totalQty (l.drop n) = totalQty l := by
    unfold totalQty
    rw [← List.sum_append, ← List.map_append, List.take_append_drop]
  have := totalQty_nonneg (df := l.drop n) (fun r hr => h r (List.mem_of_mem_drop hr))
  linarith

theorem fronts_of (S : Sorter) {df : DF} (ht : IsTable df) (hq : NonNeg df) {b g : ℕ} {mb ms : Row}
    (hb : (sortDesc S (buys df))[b]? = some mb) (hs : (sortAsc S (sells df))[g]? = some ms)
    (hlt : ms.price < mb.price) :
    Fronts df ((sortAsc S (sells df)).take g) ((sortDesc S (buys df)).take b) ms mb := by
  obtain ⟨s1, s2⟩ := take_sorted (sortAsc_sorted S (sells df)) hs
  obtain ⟨b1, b2⟩ := take_sorted (sortDesc_sorted S (buys df)) hb
  have hp := sides_perm S df
  have q1 : ∀ r ∈ sortDesc S (buys df), 0 ≤ r.quantity :=
    fun r hr => (hq r (hp.mem_iff.mp (List.mem_append_left _ hr))).1
  have q2 : ∀ r ∈ sortAsc S (sells df), 0 ≤ r.quantity :=
    fun r hr => (hq r (hp.mem_iff.mp (List.mem_append_right _ hr))).1
  have ms1 := mem_sells.mp (mem_sortAsc.mp (List.mem_of_getElem? hs))
  have mb1 := mem_buys.mp (mem_sortDesc.mp (List.mem_of_getElem? hb))
  have hn : ((sortDesc S (buys df) ++ sortAsc S (sells df)).map (fun r => r.label)).Nodup :=
    (hp.map _).nodup_iff.mpr ht.nodup
  rw [List.map_append] at hn
  have hn1 := hn.of_append_left
  have hn2 := hn.of_append_right
  refine ⟨hlt, ?_, ?_, ?_, ?_, ⟨ms1.1, ms1.2, take_label hn2 hs⟩, ⟨mb1.1, mb1.2, take_label hn1 hb⟩, ?_, ?_, ?_⟩
  · intro r hr
    have hm := mem_sells.mp (mem_sortAsc.mp (List.mem_of_mem_take hr))
    exact ⟨hm.1, hm.2, s1 r hr⟩
  · intro r hr
    have hm := mem_buys.mp (mem_sortDesc.mp (List.mem_of_mem_take hr))
    exact ⟨hm.1, hm.2, b1 r hr⟩
  · intro r hr hb hl
    rcases mem_take_or_drop (n := g) (mem_sortAsc (S := S).mpr (mem_sells.mpr ⟨hr, hb⟩)) with h' | h'
    · exact h'
    · exfalso
      rcases s2 r h' with rfl | h''
      · exact lt_irrefl _ hl
      · exact absurd h'' (not_le.mpr hl)
  · intro r hr hb hl
    rcases mem_take_or_drop (n := b) (mem_sortDesc (S := S).mpr (mem_buys.mpr ⟨hr, hb⟩)) with h' | h'
    · exact h'
    · exfalso
      rcases b2 r h' with rfl | h''
      · exact lt_irrefl _ hl
      · exact absurd h'' (not_le.mpr hl)
  · have hsub : (((sortDesc S (buys df)).take b).map (fun r => r.label) ++
        ((sortAsc S (sells df)).take g).map (fun r => r.label)).Nodup :=
      hn.sublist (((List.take_sublist _ _).map _).append ((List.take_sublist _ _).map _))
    rw [List.map_append]
    exact (List.perm_append_comm.nodup_iff).mp hsub
  · have := hp.length_eq
    rw [List.length_append] at this
    have h1 := List.length_take_le b (sortDesc S (buys df))
    have h2 := List.length_take_le g (sortAsc S (sells df))
    have h1' := List.length_take_le' b (sortDesc S (buys df))
    have h2' := List.length_take_le' g (sortAsc S (sells df))
    omega
  · have := totalQty_sides S df
    have := totalQty_take_le q1 b
    have := totalQty_take_le q2 g
    linarith

theorem huangF_fronts (F : Fmt) (s : Summer F) (S : Sorter) {df : DF} (ht : IsTable df) (hq : NonNeg df) :
    huangAuctionF F s S df = .ok (TransactionManager.init, .empty) ∨
    ∃ A B ms mb, Fronts df A B ms mb ∧
      huangAuctionF F s S df = huangClearF F s A B ms.price mb.price := by
  rcases huangF_cases F s S ht hq with h | ⟨b, g, mb, ms, hb, hs, hlt, he⟩
  · exact Or.inl h
  · exact Or.inr ⟨_, _, ms, mb, fronts_of S ht hq hb hs hlt, he⟩

end PyMarket
