import Verif.Props.MudaUnlimited

/-! # C129: the fees of a round of MUDA with unlimited bids -/

set_option autoImplicit false

namespace PyMarket

open Spec

/-- A quantity and what stands for it: the same, or unlimited and more than `q`. -/
def FillRel (q : ℚ) (e : Ext) (c : ℚ) : Prop := e = (c : Ext) ∨ (e = ⊤ ∧ q < c)

theorem FillRel.add {q a b : ℚ} {u v : Ext} (h : FillRel q u a) (h' : FillRel q v b) (ha : 0 ≤ a) (hb : 0 ≤ b) :
    FillRel q (u + v) (a + b) := by
  rcases h with rfl | ⟨rfl, h⟩
  · rcases h' with rfl | ⟨rfl, h'⟩
    · exact Or.inl rfl
    · exact Or.inr ⟨add_top _, by linarith⟩
  · exact Or.inr ⟨top_add _, by linarith⟩

section

variable {α : Type*} {q : ℚ} {e : α → Ext} {c : α → ℚ}

theorem fillRel_sum : ∀ {l : List α}, (∀ x ∈ l, FillRel q (e x) (c x) ∧ 0 ≤ c x) →
    FillRel q (l.map e).sum (l.map c).sum ∧ 0 ≤ (l.map c).sum
  | [], _ => ⟨Or.inl rfl, le_refl _⟩
  | x :: l, h => by
    have ih := fillRel_sum (fun y hy => h y (List.mem_cons_of_mem _ hy))
    have hx := h x List.mem_cons_self
    rw [List.map_cons, List.map_cons, List.sum_cons, List.sum_cons]
    exact ⟨hx.1.add ih.1 hx.2 ih.2, add_nonneg hx.2 ih.2⟩

theorem fillRel_masks : ∀ {l : List α} {u : Ext} {a : ℚ}, (∀ x ∈ l, FillRel q (e x) (c x) ∧ 0 ≤ c x) →
    FillRel q u a → 0 ≤ a →
    (extCumsumFrom u (l.map e)).map (fun s => decide ((q : Ext) ≤ s)) =
      (cumsumFrom a (l.map c)).map (fun s => decide (q ≤ s))
  | [], _, _, _, _, _ => rfl
  | x :: l, u, a, h, hu, ha => by
    have hx := h x List.mem_cons_self
    have hs := hu.add hx.1 ha hx.2
    have ih := fillRel_masks (fun y hy => h y (List.mem_cons_of_mem _ hy)) hs (add_nonneg ha hx.2)
    show decide ((q : Ext) ≤ u + e x) :: (extCumsumFrom (u + e x) (l.map e)).map _ =
      decide (q ≤ a + c x) :: (cumsumFrom (a + c x) (l.map c)).map _
    rw [ih]
    congr 1
    rw [decide_eq_decide]
    rcases hs with hs | ⟨hs, hlt⟩
    · rw [hs]; exact WithTop.coe_le_coe
    · rw [hs]; exact ⟨fun _ => hlt.le, fun _ => le_top⟩

theorem fillRel_lastIndex {l : List α} (h : ∀ x ∈ l, FillRel q (e x) (c x) ∧ 0 ≤ c x) :
    lastIndexU (l.map e) (q : Ext) = lastIndex (l.map c) q := by
  unfold lastIndexU lastIndex cumsum
  rw [fillRel_masks (a := 0) h (Or.inl rfl) (le_refl 0), List.length_map, List.length_map]
  have hc : ((q : Ext) < (l.map e).sum) ↔ q < (l.map c).sum := by
    rcases (fillRel_sum h).1 with hs | ⟨hs, hlt⟩
    · rw [hs]; exact WithTop.coe_lt_coe
    · rw [hs]; exact ⟨fun _ => hlt, fun _ => WithTop.coe_lt_top q⟩
  by_cases hlt : (q : Ext) < (l.map e).sum
  · rw [if_pos hlt, if_pos (hc.mp hlt)]
  · rw [if_neg hlt, if_neg (fun hh => hlt (hc.mpr hh))]

end

theorem capLast_concat (d : ℚ) (x : Row × ℕ) : ∀ A : List (Row × ℕ), capLast d (A ++ [x]) =
    A ++ [if d < x.1.quantity then ({ x.1 with quantity := d }, x.2) else x]
  | [] => by
    show capLast d [x] = _
    unfold capLast
    split <;> rfl
  | [a] => by
    have := capLast_concat d x []
    show a :: capLast d [x] = _
    rw [show [x] = [] ++ [x] from rfl, this]
    rfl
  | a :: b :: A => by
    have := capLast_concat d x (b :: A)
    show a :: capLast d (b :: A ++ [x]) = _
    rw [this]
    rfl

theorem sumU_fin : ∀ l : List ℚ, sumU (l.map Val.fin) = .fin l.sum
  | [] => rfl
  | x :: l => by
    show Val.add (.fin x) (sumU (l.map Val.fin)) = _
    rw [sumU_fin l]
    rfl

theorem zipIdx_withCol (col : ℕ → Ext) (K : ℕ → ℚ) (df : DF) : (withCol col K df).zipIdx =
    df.zipIdx.map (fun p => ({ p.1 with quantity := (col p.2).untopD (K p.2) }, p.2)) := by
  unfold withCol
  have aux : ∀ (l : DF) (n : ℕ), ((l.zipIdx n).map (fun p => { p.1 with quantity := (col p.2).untopD (K p.2) } : Row × ℕ → Row)).zipIdx n =
      (l.zipIdx n).map (fun p => ({ p.1 with quantity := (col p.2).untopD (K p.2) }, p.2)) := by
    intro l
    induction l with
    | nil => intro n; rfl
    | cons x l ih =>
      intro n
      simp only [List.zipIdx_cons, List.map_cons]
      rw [ih]
  exact aux df 0

theorem withoutUser_withCol (col : ℕ → Ext) (K : ℕ → ℚ) (df : DF) (u : ℤ) : withoutUser (withCol col K df) u =
    (withoutUser df u).map (fun p => ({ p.1 with quantity := (col p.2).untopD (K p.2) }, p.2)) := by
  unfold withoutUser
  rw [zipIdx_withCol, List.filter_map]
  rfl

/-- C129, the fees of MUDA: when a finite quantity is traded, the fee of every user is finite, and the same as with
any larger quantities than the traded one for the unlimited bids. -/
theorem C129_muda_fee (df : DF) (col : ℕ → Ext) (h0 : ∀ i, ((0 : ℚ) : Ext) ≤ col i) {q : ℚ} (hq : 0 ≤ q) (K : ℕ → ℚ)
    (hK : ∀ i, q < K i) (index : ℕ) (u : ℤ) (p : ℚ) :
    computeFeeU df col index u (q : Ext) p = .fin (computeFee (withCol col K df) index u q p) := by
  have hrel : ∀ i, FillRel q (col i) ((col i).untopD (K i)) ∧ 0 ≤ (col i).untopD (K i) := by
    intro i
    have := h0 i
    cases e : col i using WithTop.recTopCoe with
    | top => exact ⟨Or.inr ⟨rfl, hK i⟩, hq.trans (hK i).le⟩
    | coe c => rw [e] at this; exact ⟨Or.inl rfl, WithTop.coe_le_coe.mp this⟩
  unfold computeFeeU computeFee
  rw [withoutUser_withCol]
  generalize withoutUser df u = os
  by_cases hne : os = []
  · subst hne; rfl
  have hne' : ¬ os.map (fun p : Row × ℕ => (({ p.1 with quantity := (col p.2).untopD (K p.2) } : Row), p.2)) = [] := by
    simpa using hne
  rw [if_neg hne, if_neg hne']
  have hl : lastIndexU (os.map (fun p => col p.2)) (q : Ext) = lastIndex (os.map (fun p => (col p.2).untopD (K p.2))) q :=
    fillRel_lastIndex (fun x _ => hrel x.2)
  obtain ⟨A, x, B, rfl, hi, hA, _⟩ := lastIndex_spec (q := fun p : Row × ℕ => (col p.2).untopD (K p.2)) hq hne
    (fun x _ => (hrel x.2).2)
  rw [hi] at hl
  have hi' : lastIndex (((A ++ x :: B).map (fun p : Row × ℕ => (({ p.1 with quantity := (col p.2).untopD (K p.2) } : Row), p.2))).map
      (fun p => p.1.quantity)) q = A.length := by
    rw [List.map_map]; exact hi
  have hlim : (A.map (fun p => col p.2)).sum = ((A.map (fun p => (col p.2).untopD (K p.2))).sum : ℚ) := by
    rcases (fillRel_sum (l := A) (fun x _ => hrel x.2)).1 with hs | ⟨_, hlt⟩
    · exact hs
    · exact absurd hA (not_le.mpr hlt)
  have hfin : ∀ y ∈ A, Val.ofExt (col y.2) = .fin ((col y.2).untopD (K y.2)) := by
    intro y hy
    refine ofExt_limited (sum_limited (l := A.map (fun p => col p.2)) ?_ _ (List.mem_map_of_mem (f := fun p : Row × ℕ => col p.2) hy))
    rw [hlim]; exact WithTop.coe_ne_top
  have hsum0 := (fillRel_sum (l := A) (fun x _ => hrel x.2)).2
  dsimp only
  simp only [hl, hi', List.getElem?_append_right (le_refl _), Nat.sub_self, List.getElem?_cons_zero, List.take_left, hlim]
  set F : Row × ℕ → Row × ℕ := fun p => (({ p.1 with quantity := (col p.2).untopD (K p.2) } : Row), p.2) with hF
  have htk : ((A ++ x :: B).map F).take (A.length + 1) = A.map F ++ [F x] := by
    rw [List.map_append, List.take_append]
    simp
  rw [htk, List.dropLast_concat, capLast_concat, List.map_map]
  set a := (A.map (fun p => (col p.2).untopD (K p.2))).sum with ha
  have ha' : (A.map ((fun p : Row × ℕ => p.1.quantity) ∘ F)).sum = a := rfl
  rw [ha']
  have hdiff : (Val.ofExt (q : Ext)).sub (Val.ofExt (a : Ext)) = .fin (q - a) := by
    show Val.fin (q + -a) = _
    rw [sub_eq_add_neg]
  have hx : (if (Val.fin (q - a)).lt (Val.ofExt (col x.2)) then Val.fin (q - a) else Val.ofExt (col x.2)) =
      .fin (if q - a < (F x).1.quantity then (({ (F x).1 with quantity := q - a } : Row), (F x).2) else F x).1.quantity := by
    have hFq : (F x).1.quantity = (col x.2).untopD (K x.2) := rfl
    rw [hFq]
    have hk := hK x.2
    have ha0 : 0 ≤ a := hsum0
    cases e : col x.2 using WithTop.recTopCoe with
    | top =>
      have h1 : q - a < WithTop.untopD (K x.2) ⊤ := by
        show q - a < K x.2
        linarith
      rw [if_pos h1]
      rfl
    | coe c =>
      rw [WithTop.untopD_coe]
      by_cases hc : q - a < c
      · rw [if_pos hc]
        exact if_pos (decide_eq_true hc)
      · rw [if_neg hc]
        refine (if_neg (show ¬ decide (q - a < c) = true by simpa using hc)).trans ?_
        show Val.fin c = Val.fin ((col x.2).untopD (K x.2))
        rw [e]
        rfl
  rw [hdiff]
  simp only [Option.toList_some, List.map_cons, List.map_nil, hx]
  have hx2 : (if q - a < (F x).1.quantity then (({ (F x).1 with quantity := q - a } : Row), (F x).2) else F x).2 = x.2 ∧
      (if q - a < (F x).1.quantity then (({ (F x).1 with quantity := q - a } : Row), (F x).2) else F x).1.price = x.1.price := by
    split <;> exact ⟨rfl, rfl⟩
  generalize (if q - a < (F x).1.quantity then (({ (F x).1 with quantity := q - a } : Row), (F x).2) else F x) = z at hx2 ⊢
  have hlist : ((A.map (fun y => (y, Val.ofExt (col y.2))) ++ [(x, Val.fin z.1.quantity)]).filter
        (fun y => decide (index < y.1.2))).map (fun y => Val.timesU (y.1.1.price - p) y.2) =
      (((A.map F ++ [z]).filter (fun y => decide (index < y.2))).map (fun y => (y.1.price - p) * y.1.quantity)).map
        Val.fin := by
    rw [List.filter_append, List.filter_append, List.map_append, List.map_append, List.map_append]
    congr 1
    · rw [List.filter_map, List.filter_map, List.map_map, List.map_map, List.map_map]
      refine List.map_congr_left (fun y hy => ?_)
      have := hfin y (List.mem_filter.mp hy).1
      show Val.timesU (y.1.price - p) (Val.ofExt (col y.2)) = _
      rw [this]
      rfl
    · by_cases hxi : index < x.2
      · have h1 : [(x, Val.fin z.1.quantity)].filter (fun y => decide (index < y.1.2)) = [(x, Val.fin z.1.quantity)] := by
          simp [hxi]
        have h2 : [z].filter (fun y => decide (index < y.2)) = [z] := by simp [hx2.1, hxi]
        rw [h1, h2]
        show [Val.fin ((x.1.price - p) * z.1.quantity)] = [Val.fin ((z.1.price - p) * z.1.quantity)]
        rw [hx2.2]
      · have h1 : [(x, Val.fin z.1.quantity)].filter (fun y => decide (index < y.1.2)) = [] := by simp [hxi]
        have h2 : [z].filter (fun y => decide (index < y.2)) = [] := by simp [hx2.1, hxi]
        rw [h1, h2]
        rfl
  rw [hlist]
  have hnn : ∀ l : List ℚ, (l.map Val.fin).filter (fun v => decide (v ≠ .nan)) = l.map Val.fin := by
    intro l
    rw [List.filter_eq_self]
    intro v hv
    obtain ⟨c, _, rfl⟩ := List.mem_map.mp hv
    rfl
  rw [hnn, sumU_fin]
  rfl

/-- C129, the fees of MUDA: when the traded quantity is infinite, so that all rows trade, no user pays a fee. -/
theorem C129_muda_fee_both (df : DF) (col : ℕ → Ext) (u : ℤ) (p : ℚ) :
    computeFeeU df col (df.length - 1) u ⊤ p = .fin 0 := by
  have hpos : ∀ y ∈ withoutUser df u, ¬ df.length - 1 < y.2 := by
    intro y hy
    have := List.snd_lt_of_mem_zipIdx (List.mem_filter.mp hy).1
    omega
  unfold computeFeeU
  dsimp only
  split
  · rfl
  · have : ∀ (l : List ((Row × ℕ) × Val)), (∀ y ∈ l, y.1 ∈ withoutUser df u) →
        l.filter (fun y => decide (df.length - 1 < y.1.2)) = [] := by
      intro l hl
      rw [List.filter_eq_nil_iff]
      intro y hy
      simpa using hpos y.1 (hl y hy)
    rw [this]
    · show Val.fin |0| = _
      rw [abs_zero]
    · intro y hy
      rcases List.mem_append.mp hy with hy | hy
      · obtain ⟨w, hw, rfl⟩ := List.mem_map.mp hy
        exact List.mem_of_mem_take hw
      · obtain ⟨w, hw, rfl⟩ := List.mem_map.mp hy
        exact List.mem_of_getElem? (Option.mem_toList.mp hw)

/-- Three sellers at 1, 2 and 3 that trade 2 at the price 5. The second one is unlimited. The first one keeps it from
trading more. -/
def unlimitedFeeRows : DF :=
  [⟨⟨0, 1, 0, false, 0, true⟩, 0⟩, ⟨⟨0, 2, 1, false, 0, true⟩, 1⟩, ⟨⟨0, 2, 1, false, 0, true⟩, 1⟩,
    ⟨⟨0, 3, 2, false, 0, true⟩, 2⟩]

/-- The quantities of `unlimitedFeeRows`, the second bid split into what it trades and the rest. -/
def unlimitedFeeCol : ℕ → Ext := fun i => if i = 2 then ⊤ else ((1 : ℚ) : Ext)

example : (∀ i < 4, ((0 : ℚ) : Ext) ≤ unlimitedFeeCol i) ∧
    computeFeeU unlimitedFeeRows unlimitedFeeCol 1 0 ((2 : ℚ) : Ext) 5 = .fin 3 ∧
    computeFee (withCol unlimitedFeeCol (fun i => i + 3) unlimitedFeeRows) 1 0 2 5 = 3 ∧
    computeFeeU unlimitedFeeRows unlimitedFeeCol 1 1 ((2 : ℚ) : Ext) 5 = .fin 2 ∧
    computeFeeU unlimitedFeeRows unlimitedFeeCol 3 0 ⊤ 5 = .fin 0 := by decide +kernel

end PyMarket
