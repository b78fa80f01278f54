import Verif.Props.Anonymity

/-! # MUDA looks at user ids only through equality and the position in the array of fees -/

set_option autoImplicit false

namespace PyMarket

open Spec

/-- `σ` keeps the members of `U` apart. -/
def Apart (U : List ℤ) (σ : ℤ → ℤ) : Prop := ∀ u ∈ U, ∀ v ∈ U, σ u = σ v → u = v

theorem eraseDups_map_apart {U : List ℤ} {σ : ℤ → ℤ} (hσ : Apart U σ) (n : ℕ) : ∀ l : List ℤ,
    l.length ≤ n → (∀ u ∈ l, u ∈ U) → (l.map σ).eraseDups = l.eraseDups.map σ := by
  induction n with
  | zero => intro l hl _; rw [List.eq_nil_of_length_eq_zero (Nat.le_zero.mp hl)]; rfl
  | succ n ih =>
    intro l hl hU
    cases l with
    | nil => rfl
    | cons a l =>
      rw [List.map_cons, List.eraseDups_cons, List.eraseDups_cons, List.map_cons, List.filter_map]
      congr 1
      have hf : l.filter ((fun b => !b == σ a) ∘ σ) = l.filter (fun b => !b == a) := by
        apply List.filter_congr
        intro b hb
        simp only [Function.comp_apply]
        congr 1
        rw [Bool.eq_iff_iff, beq_iff_eq, beq_iff_eq]
        exact ⟨hσ b (hU b (List.mem_cons_of_mem _ hb)) a (hU a List.mem_cons_self), congrArg σ⟩
      rw [hf]
      apply ih
      · have := List.length_filter_le (fun b => !b == a) l
        rw [List.length_cons] at hl
        omega
      · intro u hu
        exact hU u (List.mem_cons_of_mem _ (List.mem_filter.mp hu).1)

theorem tradingUsers_rename {U : List ℤ} {σ : ℤ → ℤ} (hσ : Apart U σ) (rows : DF) (k : ℕ)
    (hU : ∀ r ∈ rows, r.user ∈ U) :
    tradingUsers (rows.map (renameUser σ)) k = (tradingUsers rows k).map σ := by
  unfold tradingUsers
  rw [List.zipIdx_map, List.filter_map, List.map_map]
  rw [← eraseDups_map_apart hσ _ _ (le_refl _), List.map_map]
  · rfl
  · intro u hu
    obtain ⟨p, hp, rfl⟩ := List.mem_map.mp hu
    exact hU _ (List.fst_mem_of_mem_zipIdx (List.mem_filter.mp hp).1)

theorem withoutUser_rename {U : List ℤ} {σ : ℤ → ℤ} (hσ : Apart U σ) (rows : DF)
    (hU : ∀ r ∈ rows, r.user ∈ U) {u : ℤ} (hu : u ∈ U) :
    withoutUser (rows.map (renameUser σ)) (σ u) =
      (withoutUser rows u).map (Prod.map (renameUser σ) id) := by
  unfold withoutUser
  rw [List.zipIdx_map, List.filter_map]
  congr 1
  apply List.filter_congr
  intro p hp
  have hpU := hU _ (List.fst_mem_of_mem_zipIdx hp)
  simp only [Function.comp_apply, Prod.map, renameUser]
  congr 1
  rw [eq_iff_iff]
  exact ⟨fun h h' => h (congrArg σ h'), fun h h' => h (hσ _ hpU _ hu h')⟩

theorem capLast_rename (σ : ℤ → ℤ) (d : ℚ) : ∀ l : List (Row × ℕ),
    capLast d (l.map (Prod.map (renameUser σ) id)) = (capLast d l).map (Prod.map (renameUser σ) id)
  | [] => rfl
  | [p] => by
    simp only [List.map_cons, List.map_nil, capLast, Prod.map, id, renameUser]
    split <;> rfl
  | p :: q :: rest => by
    have ih := capLast_rename σ d (q :: rest)
    simp only [List.map_cons] at ih
    simp only [List.map_cons, capLast, ih]

theorem computeFee_rename {U : List ℤ} {σ : ℤ → ℤ} (hσ : Apart U σ) (rows : DF)
    (hU : ∀ r ∈ rows, r.user ∈ U) {u : ℤ} (hu : u ∈ U) (k : ℕ) (q p : ℚ) :
    computeFee (rows.map (renameUser σ)) k (σ u) q p = computeFee rows k u q p := by
  unfold computeFee
  rw [withoutUser_rename hσ rows hU hu]
  generalize withoutUser rows u = os
  have hqs : (os.map (Prod.map (renameUser σ) id)).map (fun p => p.1.quantity) =
      os.map (fun p => p.1.quantity) := by
    rw [List.map_map]; rfl
  simp only [List.map_eq_nil_iff, hqs, ← List.map_take]
  generalize os.take (lastIndex (os.map (fun p => p.1.quantity)) q + 1) = w
  have hqw : (w.map (Prod.map (renameUser σ) id)).dropLast.map (fun p => p.1.quantity) =
      w.dropLast.map (fun p => p.1.quantity) := by
    rw [← List.map_dropLast, List.map_map]; rfl
  rw [hqw, capLast_rename, List.filter_map, List.map_map]
  rfl

/-- Ids that denote the same position of an array of `n` fees. -/
def SameSpot (n : ℕ) (u v : ℤ) : Prop :=
  ∀ (fees : List ℚ) (x : ℚ), fees.length = n → npSet fees v x = npSet fees u x

theorem npSet_length {fees fees' : List ℚ} {u : ℤ} {x : ℚ} (h : npSet fees u x = .ok fees') :
    fees'.length = fees.length := by
  unfold npSet at h
  split at h
  · cases h; exact List.length_set
  · split at h
    · cases h; exact List.length_set
    · cases h

theorem feeLoop_rename {U : List ℤ} {σ : ℤ → ℤ} (hσ : Apart U σ) (n : ℕ)
    (hn : ∀ u ∈ U, SameSpot n u (σ u)) (rows : DF) (hU : ∀ r ∈ rows, r.user ∈ U) (k : ℕ) (q p : ℚ) :
    ∀ (us : List ℤ) (fees : List ℚ), (∀ u ∈ us, u ∈ U) → fees.length = n →
    feeLoop (rows.map (renameUser σ)) k q p (us.map σ) fees = feeLoop rows k q p us fees := by
  intro us
  induction us with
  | nil => intro fees _ _; rfl
  | cons u us ih =>
    intro fees hus hl
    have hu := hus u List.mem_cons_self
    rw [List.map_cons, feeLoop, feeLoop, computeFee_rename hσ rows hU hu, hn u hu fees _ hl]
    cases h : npSet fees u (computeFee rows k u q p) with
    | error e => rfl
    | ok f => exact ih f (fun v hv => hus v (List.mem_cons_of_mem _ hv)) ((npSet_length h).trans hl)

theorem feeLoop_len {rows : DF} {k : ℕ} {q p : ℚ} : ∀ {us : List ℤ} {fees fees' : List ℚ},
    feeLoop rows k q p us fees = .ok fees' → fees'.length = fees.length := by
  intro us
  induction us with
  | nil => intro fees fees' h; cases h; rfl
  | cons u us ih =>
    intro fees fees' h
    rw [feeLoop] at h
    simp only [bind, Except.bind] at h
    split at h
    · cases h
    · rename_i f hf
      exact (ih h).trans (npSet_length hf)

theorem getTradingBids_rename (σ : ℤ → ℤ) (df : DF) (q : ℚ) :
    getTradingBids (df.map (renameUser σ)) q =
      (getTradingBids df q).map (fun x => (x.1.map (renameUser σ), x.2)) := by
  unfold getTradingBids
  rw [(rename_keeps σ).quantities]
  by_cases h : df = [] ∧ q < 0
  · rw [if_pos h, if_pos ⟨by rw [h.1]; rfl, h.2⟩]; rfl
  · rw [if_neg h, if_neg (by rw [List.map_eq_nil_iff]; exact h)]
    simp only [List.getElem?_map]
    cases df[lastIndex (df.map (fun r => r.quantity)) q]? with
    | none => rfl
    | some row =>
      simp only [Option.map_some, ← List.map_take, (rename_keeps σ).qsum_map,
        (rename_keeps σ).quantity, ← List.map_drop]
      split
      · simp only [Except.map, List.map_append, List.map_cons]
        rfl
      · rfl

theorem getTradingBids_user {df out : DF} {q : ℚ} {k : ℕ} (h : getTradingBids df q = .ok (out, k))
    {U : List ℤ} (hU : ∀ r ∈ df, r.user ∈ U) : ∀ r ∈ out, r.user ∈ U := by
  unfold getTradingBids at h
  split at h
  · cases h
  · simp only at h
    split at h
    · cases h
    · rename_i row hrow
      have hr : row ∈ df := List.mem_of_getElem? hrow
      split at h
      · cases h
        intro r hr'
        rcases List.mem_append.mp hr' with h1 | h1
        · exact hU r (List.mem_of_mem_take h1)
        · rcases List.mem_cons.mp h1 with rfl | h1
          · exact hU row hr
          · rcases List.mem_cons.mp h1 with rfl | h1
            · exact hU row hr
            · exact hU r (List.mem_of_mem_drop h1)
      · cases h; exact hU

theorem tradingTrans_rename (σ : ℤ → ℤ) (rows : DF) (k : ℕ) (p : ℚ) :
    tradingTrans (rows.map (renameUser σ)) k p = tradingTrans rows k p := by
  unfold tradingTrans
  rw [List.zipIdx_map, List.filter_map, List.map_map]
  rfl

theorem solveSide_rename {U : List ℤ} {σ : ℤ → ℤ} (hσ : Apart U σ) (n : ℕ)
    (hn : ∀ u ∈ U, SameSpot n u (σ u)) (S : Sorter) (H : DF) (hU : ∀ r ∈ H, r.user ∈ U) (v : Val)
    (fees : List ℚ) (hl : fees.length = n) :
    solveSide S (H.map (renameUser σ)) v fees = solveSide S H v fees := by
  have hk := rename_keeps σ
  have hif : ∀ b : Bool, ∀ x y : DF, (if b then x.map (renameUser σ) else y.map (renameUser σ)) =
      (if b then x else y).map (renameUser σ) := by
    intro b x y; cases b <;> rfl
  unfold solveSide
  simp only [hk.buys_map, hk.sells_map, List.length_map, hk.willingDemand_map, hk.willingSupply_map,
    hk.qsum_map, hif]
  split
  · rfl
  split
  · rfl
  have hWd : ∀ r ∈ willingDemand S H v, r.user ∈ U := by
    intro r hr
    unfold willingDemand at hr
    have := mem_sortDesc.mp hr
    exact hU r (List.mem_of_mem_filter (List.mem_of_mem_filter this))
  have hWs : ∀ r ∈ willingSupply S H v, r.user ∈ U := by
    intro r hr
    unfold willingSupply at hr
    have := mem_sortAsc.mp hr
    exact hU r (List.mem_of_mem_filter (List.mem_of_mem_filter this))
  have hlong : ∀ r ∈ (if decide (qsum (willingDemand S H v) < qsum (willingSupply S H v)) = true
      then willingSupply S H v else willingDemand S H v), r.user ∈ U := by
    split
    · exact hWs
    · exact hWd
  generalize (if decide (qsum (willingDemand S H v) < qsum (willingSupply S H v)) = true
    then willingSupply S H v else willingDemand S H v) = long at hlong ⊢
  generalize (if decide (qsum (willingDemand S H v) < qsum (willingSupply S H v)) = true
    then willingDemand S H v else willingSupply S H v) = short
  generalize (if decide (qsum (willingDemand S H v) < qsum (willingSupply S H v)) = true
    then qsum (willingDemand S H v) else qsum (willingSupply S H v)) = q
  split
  · rw [getTradingBids_rename, getTradingBids_rename]
    cases h1 : getTradingBids long q with
    | error e => rfl
    | ok a =>
      cases h2 : getTradingBids short q with
      | error e => rfl
      | ok b =>
        have haU := getTradingBids_user (out := a.1) (k := a.2) h1 hlong
        simp only [Except.map, bind, Except.bind]
        rw [tradingUsers_rename hσ a.1 a.2 haU, feeLoop_rename hσ n hn a.1 haU a.2 q _ _ _ _ hl,
          tradingTrans_rename, tradingTrans_rename]
        intro u hu
        obtain ⟨r, hr, rfl⟩ := mem_tradingUsers.mp hu
        exact haU r (List.mem_of_mem_take hr)
  · rfl

theorem solveSide_len {S : Sorter} {H : DF} {v : Val} {fees fees' : List ℚ}
    {tm : TransactionManager} (h : solveSide S H v fees = .ok (tm, fees')) :
    fees'.length = fees.length := by
  unfold solveSide at h
  split at h
  · cases h; rfl
  split at h
  · cases h; rfl
  simp only at h
  generalize (if decide (qsum (willingDemand S H v) < qsum (willingSupply S H v)) = true
    then willingSupply S H v else willingDemand S H v) = long at h
  generalize (if decide (qsum (willingDemand S H v) < qsum (willingSupply S H v)) = true
    then willingDemand S H v else willingSupply S H v) = short at h
  generalize (if decide (qsum (willingDemand S H v) < qsum (willingSupply S H v)) = true
    then qsum (willingDemand S H v) else qsum (willingSupply S H v)) = q at h
  split at h
  · simp only [bind, Except.bind] at h
    split at h
    · cases h
    split at h
    · cases h
    split at h
    · cases h
    · rename_i hf
      cases h
      exact feeLoop_len hf
  · cases h; rfl

theorem dupOnSide_rename {U : List ℤ} {σ : ℤ → ℤ} (hσ : Apart U σ) (H : DF)
    (hU : ∀ r ∈ H, r.user ∈ U) : dupOnSide (H.map (renameUser σ)) = dupOnSide H := by
  unfold dupOnSide
  have hk : (H.map (renameUser σ)).map (fun r => (r.price, r.user)) =
      (H.map (fun r => (r.price, r.user))).map (fun k => (k.1, σ k.2)) := by
    rw [List.map_map, List.map_map]; rfl
  have hK : ∀ k ∈ H.map (fun r => (r.price, r.user)), k.2 ∈ U := by
    intro k hk
    obtain ⟨r, hr, rfl⟩ := List.mem_map.mp hk
    exact hU r hr
  simp only [hk]
  generalize H.map (fun r => (r.price, r.user)) = K at hK
  rw [List.any_map]
  have hc : ∀ k ∈ K, (K.map (fun k => (k.1, σ k.2))).count (k.1, σ k.2) = K.count k := by
    intro k hk
    rw [List.count, List.countP_map, List.count]
    apply List.countP_congr
    intro k' hk'
    simp only [Function.comp_apply, beq_iff_eq, Prod.mk.injEq]
    constructor
    · rintro ⟨a, b⟩; exact Prod.ext a (hσ _ (hK k' hk') _ (hK k hk) b)
    · rintro rfl; exact ⟨rfl, rfl⟩
  rw [Bool.eq_iff_iff, List.any_eq_true, List.any_eq_true]
  constructor
  · rintro ⟨k, hk, h⟩
    refine ⟨k, hk, ?_⟩
    rw [Function.comp_apply, hc k hk] at h
    exact h
  · rintro ⟨k, hk, h⟩
    refine ⟨k, hk, ?_⟩
    rw [Function.comp_apply, hc k hk]
    exact h

theorem muda_rename {σ : ℤ → ℤ} (S : Sorter) (coin : ℕ → Bool) (df : DF)
    (hσ : Apart (df.map (fun r => r.user)) σ)
    (hn : ∀ u ∈ df.map (fun r => r.user),
      SameSpot (df.map (fun r => r.user)).dedup.length u (σ u)) :
    muda S coin (df.map (renameUser σ)) = muda S coin df := by
  have hk := rename_keeps σ
  have hU : ∀ r ∈ df, r.user ∈ df.map (fun r => r.user) := fun r hr => List.mem_map_of_mem hr
  have hb : ∀ r ∈ buys df, r.user ∈ df.map (fun r => r.user) :=
    fun r hr => hU r (List.mem_of_mem_filter hr)
  have hs : ∀ r ∈ sells df, r.user ∈ df.map (fun r => r.user) :=
    fun r hr => hU r (List.mem_of_mem_filter hr)
  have hloc : ∀ l, ∀ r ∈ locLabels df l, r.user ∈ df.map (fun r => r.user) := by
    intro l r hr
    unfold locLabels at hr
    obtain ⟨i, _, hi⟩ := List.mem_filterMap.mp hr
    exact hU r (List.mem_of_find?_eq_some hi)
  have hded : ((df.map (renameUser σ)).map (fun r => r.user)).dedup.length =
      (df.map (fun r => r.user)).dedup.length := by
    have e : (df.map (renameUser σ)).map (fun r => r.user) = (df.map (fun r => r.user)).map σ := by
      rw [List.map_map, List.map_map]; rfl
    have e' : ((df.map (fun r => r.user)).map σ).toFinset =
        (df.map (fun r => r.user)).toFinset.image σ := by
      ext x
      rw [List.mem_toFinset, Finset.mem_image, List.mem_map]
      simp only [List.mem_toFinset]
    rw [e, ← List.card_toFinset, ← List.card_toFinset, e', Finset.card_image_of_injOn]
    intro a ha b hb hab
    exact hσ a (List.mem_toFinset.mp ha) b (List.mem_toFinset.mp hb) hab
  unfold muda checkEqualPriceRaises
  rw [hk.buys_map, hk.sells_map, dupOnSide_rename hσ _ hb, dupOnSide_rename hσ _ hs]
  split
  · rfl
  unfold mudaBody
  simp only [hk.labels, hk.locLabels_map, hk.findCompetitivePrice_map, hded]
  generalize coinLeft coin (df.map (fun r => r.label)) = left
  generalize (df.map (fun r => r.label)).filter (fun i => decide (i ∉ left)) = right
  cases findCompetitivePrice S (locLabels df left) with
  | error e => simp only [bind, Except.bind]
  | ok pl =>
    cases findCompetitivePrice S (locLabels df right) with
    | error e => simp only [bind, Except.bind]
    | ok pr =>
      simp only [bind, Except.bind]
      rw [solveSide_rename hσ _ hn S _ (hloc left) pr _ (List.length_replicate ..)]
      cases h : solveSide S (locLabels df left) pr
        (List.replicate (df.map (fun r => r.user)).dedup.length 0) with
      | error e => rfl
      | ok a =>
        simp only
        rw [solveSide_rename hσ _ hn S _ (hloc right) pl _
          ((solveSide_len (tm := a.1) (fees' := a.2) h).trans (List.length_replicate ..))]

end PyMarket
