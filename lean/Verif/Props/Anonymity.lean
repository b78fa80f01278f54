import Verif.Lemmas.Blank
import Verif.Props.Muda

/-! # C75: the identity of the users does not matter -/

set_option autoImplicit false

namespace PyMarket

/-- The same offer, possibly by another user (and with other `time` and `divisible`). -/
def Spec.SameOffer (r r' : Row) : Prop :=
  r.quantity = r'.quantity ∧ r.price = r'.price ∧ r.buying = r'.buying ∧ r.label = r'.label

instance (r r' : Row) : Decidable (Spec.SameOffer r r') :=
  inferInstanceAs (Decidable (_ ∧ _ ∧ _ ∧ _))

/-- Equal up to the fees. -/
def Spec.SameButFees : Extra → Extra → Prop
  | .muda l r pl pr _, .muda l' r' pl' pr' _ => l = l' ∧ r = r' ∧ pl = pl' ∧ pr = pr'
  | x, y => x = y

/-- The same bid by the renamed user. -/
def Spec.renameUser (σ : ℤ → ℤ) (r : Row) : Row := { r with user := σ r.user }

open Spec

theorem blank_eq_of_sameOffer {r r' : Row} (h : SameOffer r r') : blank r = blank r' := by
  obtain ⟨⟨q, p, u, b, t, d⟩, l⟩ := r
  obtain ⟨⟨q', p', u', b', t', d'⟩, l'⟩ := r'
  obtain ⟨h1, h2, h3, h4⟩ := h
  simp only at h1 h2 h3 h4
  subst h1 h2 h3 h4
  rfl

theorem map_blank_eq {df df' : DF} (h : List.Forall₂ SameOffer df df') :
    df.map blank = df'.map blank := by
  induction h with
  | nil => rfl
  | cons h _ ih => rw [List.map_cons, List.map_cons, ih, blank_eq_of_sameOffer h]

/-- **C75, Huang and P2P.** The transactions and the extra information do not depend on who submitted
the bids: any other assignment of the bids to users, even one that gives all bids to one user, leads to
the same result, with or without merging. -/
theorem C75_huang_p2p (S : Sorter) (smp smp' : Sampler) (df df' : DF)
    (h : List.Forall₂ SameOffer df df') :
    runAlgo S smp .huang df = runAlgo S smp' .huang df' ∧
    ∀ (merge : Bool) (c : ℚ) (choice : ℕ → ℕ),
      runAlgo S smp (.p2p merge c choice) df = runAlgo S smp' (.p2p merge c choice) df' :=
  ⟨mechanism_blank smp smp' true _ (blank_keeps.huangAuction_map S) (map_blank_eq h),
    fun merge c choice => mechanism_blank smp smp' merge _ (blank_keeps.p2pRandom_map c choice)
      (map_blank_eq h)⟩

/-- The parts of a run of MUDA that do not involve the users. -/
theorem muda_parts {S : Sorter} {coin : ℕ → Bool} {df : DF} {tm : TransactionManager} {ex : Extra}
    (h : muda S coin df = .ok (tm, ex)) :
    ∃ tl tr pl pr fees,
      findCompetitivePrice S (locLabels df (coinLeft coin (df.map (fun r => r.label)))) = .ok pl ∧
      findCompetitivePrice S (locLabels df ((df.map (fun r => r.label)).filter
        (fun i => decide (i ∉ coinLeft coin (df.map (fun r => r.label)))))) = .ok pr ∧
      sideTrans S (locLabels df (coinLeft coin (df.map (fun r => r.label)))) pr = .ok tl ∧
      sideTrans S (locLabels df ((df.map (fun r => r.label)).filter
        (fun i => decide (i ∉ coinLeft coin (df.map (fun r => r.label)))))) pl = .ok tr ∧
      tm = tl.merge tr ∧
      ex = .muda (coinLeft coin (df.map (fun r => r.label))) ((df.map (fun r => r.label)).filter
        (fun i => decide (i ∉ coinLeft coin (df.map (fun r => r.label))))) pl pr fees := by
  unfold muda at h
  split at h
  · cases h
  unfold mudaBody at h
  simp only [bind, Except.bind] at h
  split at h
  · cases h
  rename_i pl hpl
  split at h
  · cases h
  rename_i pr hpr
  split at h
  · cases h
  rename_i a ha
  split at h
  · cases h
  rename_i b hb
  cases h
  exact ⟨_, _, pl, pr, _, hpl, hpr, solveSide_sideTrans ha, solveSide_sideTrans hb, rfl, rfl⟩

theorem muda_blank {S : Sorter} {coin : ℕ → Bool} {df df' : DF} (h : df.map blank = df'.map blank)
    {tm tm' : TransactionManager} {ex ex' : Extra} (h1 : muda S coin df = .ok (tm, ex))
    (h2 : muda S coin df' = .ok (tm', ex')) : tm = tm' ∧ SameButFees ex ex' := by
  obtain ⟨tl, tr, pl, pr, fees, a1, a2, a3, a4, rfl, rfl⟩ := muda_parts h1
  obtain ⟨tl', tr', pl', pr', fees', b1, b2, b3, b4, rfl, rfl⟩ := muda_parts h2
  have hlab : df.map (fun r => r.label) = df'.map (fun r => r.label) := by
    rw [← blank_keeps.labels, h, blank_keeps.labels]
  rw [hlab] at a1 a2 a3 a4 ⊢
  have hloc : ∀ l, (locLabels df l).map blank = (locLabels df' l).map blank := by
    intro l; rw [← blank_keeps.locLabels_map, h, blank_keeps.locLabels_map]
  have hf : ∀ l, findCompetitivePrice S (locLabels df l) = findCompetitivePrice S (locLabels df' l) := by
    intro l
    rw [← blank_keeps.findCompetitivePrice_map, hloc, blank_keeps.findCompetitivePrice_map]
  have hs : ∀ l v, sideTrans S (locLabels df l) v = sideTrans S (locLabels df' l) v := by
    intro l v
    rw [← sideTrans_blank, hloc, sideTrans_blank]
  rw [hf, b1] at a1
  rw [hf, b2] at a2
  cases a1; cases a2
  rw [hs, b3] at a3
  rw [hs, b4] at a4
  cases a3; cases a4
  exact ⟨rfl, rfl, rfl, rfl, rfl⟩

/-- **C75, MUDA.** Two assignments of the same offers to users for which MUDA returns give the same
transactions, halves and prices, with or without merging; only the fees can differ. -/
theorem C75_muda (S : Sorter) (smp smp' : Sampler) (merge : Bool) (coin : ℕ → Bool) (df df' : DF)
    (h : List.Forall₂ SameOffer df df') (tm tm' : TransactionManager) (ex ex' : Extra)
    (h1 : runAlgo S smp (.muda merge coin) df = .ok (tm, ex))
    (h2 : runAlgo S smp' (.muda merge coin) df' = .ok (tm', ex')) :
    tm = tm' ∧ SameButFees ex ex' := by
  have hb := map_blank_eq h
  have hrun : ∀ {a b : DF} {tm tm' : TransactionManager} {ex ex' : Extra}, a.map blank = b.map blank →
      mechRun (muda S coin) a = .ok (tm, ex) → mechRun (muda S coin) b = .ok (tm', ex') →
      tm = tm' ∧ SameButFees ex ex' := by
    intro a b tm tm' ex ex' hab h1 h2
    have hl : a.length = b.length := by simpa using congrArg List.length hab
    have hl2 : (buys a).length = (buys b).length := by
      have := congrArg List.length (congrArg buys hab)
      rwa [blank_keeps.buys_map, blank_keeps.buys_map, List.length_map, List.length_map] at this
    unfold mechRun at h1 h2
    simp only [hl, hl2] at h1
    split at h1
    · rename_i hc
      simp only [if_pos hc] at h2
      exact muda_blank hab h1 h2
    · rename_i hc
      simp only [if_neg hc] at h2
      cases h1; cases h2
      exact ⟨rfl, rfl⟩
  simp only [runAlgo, mechanism] at h1 h2
  cases merge with
  | false => exact hrun hb h1 h2
  | true =>
    simp only [if_true, bind, Except.bind] at h1 h2
    have hm := mergeSamePrice_blank smp smp' hb 5
    cases m1 : mergeSamePrice smp df with
    | error e => rw [m1] at h1; cases h1
    | ok a =>
      cases m2 : mergeSamePrice smp' df' with
      | error e => rw [m2] at h2; cases h2
      | ok b =>
        rw [m1, m2] at hm
        simp only [Except.map, Except.ok.injEq, Prod.mk.injEq] at hm
        rw [m1] at h1
        rw [m2] at h2
        simp only at h1 h2
        cases r1 : mechRun (muda S coin) a.1 with
        | error e => rw [r1] at h1; cases h1
        | ok x =>
          cases r2 : mechRun (muda S coin) b.1 with
          | error e => rw [r2] at h2; cases h2
          | ok y =>
            rw [r1] at h1
            rw [r2] at h2
            simp only at h1 h2
            obtain ⟨e1, e2⟩ := hrun hm.1 r1 r2
            have hsp : splitTransactions x.1 df a.2 = splitTransactions y.1 df' b.2 := by
              rw [e1, hm.2, ← blank_keeps.splitTransactions_map, hb, blank_keeps.splitTransactions_map]
            rw [hsp] at h1
            cases s : splitTransactions y.1 df' b.2 with
            | error e => rw [s] at h2; cases h2
            | ok t =>
              rw [s] at h1 h2
              cases h1; cases h2
              exact ⟨rfl, e2⟩

/-! ## The fees of renamed users -/

theorem rename_keeps (σ : ℤ → ℤ) : Keeps (renameUser σ) :=
  ⟨fun _ => rfl, fun _ => rfl, fun _ => rfl, fun _ => rfl⟩

theorem half_rename (σ : ℤ → ℤ) (df : DF) (ids : List ℕ) :
    half (df.map (renameUser σ)) ids = (half df ids).map (renameUser σ) := by
  unfold half; rw [List.filter_map]; rfl

theorem willing_rename (σ : ℤ → ℤ) (H : DF) (p : ℚ) :
    willingBuyers (H.map (renameUser σ)) p = (willingBuyers H p).map (renameUser σ) ∧
    willingSellers (H.map (renameUser σ)) p = (willingSellers H p).map (renameUser σ) := by
  unfold willingBuyers willingSellers
  rw [List.filter_map, List.filter_map]
  exact ⟨rfl, rfl⟩

theorem longSide_rename (σ : ℤ → ℤ) (H : DF) (p : ℚ) :
    longSide (H.map (renameUser σ)) p = (longSide H p).map (renameUser σ) := by
  unfold longSide
  rw [(willing_rename σ H p).1, (willing_rename σ H p).2, (rename_keeps σ).quantities,
    (rename_keeps σ).quantities]
  split <;> rfl

theorem volumeAt_rename (σ : ℤ → ℤ) (H : DF) (p : ℚ) :
    volumeAt (H.map (renameUser σ)) p = volumeAt H p := by
  unfold volumeAt
  rw [(willing_rename σ H p).1, (willing_rename σ H p).2, (rename_keeps σ).quantities,
    (rename_keeps σ).quantities]

theorem others_rename {σ : ℤ → ℤ} (hσ : Function.Injective σ) (L : DF) (u : ℤ) :
    others (L.map (renameUser σ)) (σ u) = (others L u).map (renameUser σ) := by
  unfold others
  rw [List.filter_map]
  congr 1
  apply List.filter_congr
  intro r _
  simp only [Function.comp_apply, renameUser]
  congr 1
  rw [ne_eq, hσ.eq_iff]

theorem gainIn_rename (σ : ℤ → ℤ) (L : DF) (p : ℚ) (ts : List Transaction) :
    gainIn (L.map (renameUser σ)) p ts = gainIn L p ts := by
  unfold gainIn; rw [List.map_map]; rfl

theorem couldGain_rename (σ : ℤ → ℤ) (L : DF) (p Q : ℚ) :
    CouldGain (L.map (renameUser σ)) p Q = CouldGain L p Q := by
  unfold CouldGain
  simp only [List.map_map, List.mem_map, forall_exists_index, and_imp, forall_apply_eq_imp_iff₂]
  rfl

theorem tradesLong_rename {σ : ℤ → ℤ} (hσ : Function.Injective σ) (H : DF) (p : ℚ)
    (ts : List Transaction) (u : ℤ) :
    TradesLong (H.map (renameUser σ)) p ts (σ u) ↔ TradesLong H p ts u := by
  unfold TradesLong
  rw [longSide_rename]
  constructor
  · rintro ⟨t, ht, r, hr, h1, h2⟩
    obtain ⟨r', hr', rfl⟩ := List.mem_map.mp hr
    exact ⟨t, ht, r', hr', h1, hσ h2⟩
  · rintro ⟨t, ht, r, hr, h1, h2⟩
    exact ⟨t, ht, _, List.mem_map_of_mem hr, h1, congrArg σ h2⟩

theorem externality_rename {σ : ℤ → ℤ} (hσ : Function.Injective σ) (H : DF) (p : ℚ)
    (ts : List Transaction) (u : ℤ) (x : ℚ) :
    IsExternality (H.map (renameUser σ)) p ts (σ u) x ↔ IsExternality H p ts u x := by
  unfold IsExternality
  rw [longSide_rename, others_rename hσ, couldGain_rename, volumeAt_rename, gainIn_rename]

theorem owes_unique {H : DF} {v : Val} {ts : List Transaction} {u : ℤ} {x y : ℚ}
    (hx : Owes H v ts u x) (hy : Owes H v ts u y) : x = y := by
  rcases hx with ⟨p, hp, h1, h2⟩ | ⟨h1, rfl⟩
  · rcases hy with ⟨p', hp', h3, h4⟩ | ⟨h3, _⟩
    · rw [hp] at hp'; cases hp'
      exact externality_unique h2 h4
    · exact absurd h1 (h3 p hp)
  · rcases hy with ⟨p', hp', h3, h4⟩ | ⟨_, rfl⟩
    · exact absurd h3 (h1 p' hp')
    · rfl

theorem owes_rename {σ : ℤ → ℤ} (hσ : Function.Injective σ) (H : DF) (v : Val)
    (ts : List Transaction) (u : ℤ) (x : ℚ) :
    Owes (H.map (renameUser σ)) v ts (σ u) x ↔ Owes H v ts u x := by
  unfold Owes
  simp only [tradesLong_rename hσ, externality_rename hσ]

theorem hasTwin_rename {σ : ℤ → ℤ} (hσ : Function.Injective σ) (df : DF) :
    HasTwin (df.map (renameUser σ)) ↔ HasTwin df := by
  unfold HasTwin
  simp only [List.getElem?_map]
  constructor
  · rintro ⟨i, j, ri, rj, h, h1, h2, h3, h4, h5⟩
    rw [Option.map_eq_some_iff] at h1 h2
    obtain ⟨a, ha, rfl⟩ := h1
    obtain ⟨b, hb, rfl⟩ := h2
    exact ⟨i, j, a, b, h, ha, hb, hσ h3, h4, h5⟩
  · rintro ⟨i, j, ri, rj, h, h1, h2, h3, h4, h5⟩
    exact ⟨i, j, renameUser σ ri, renameUser σ rj, h, by rw [h1]; rfl, by rw [h2]; rfl, congrArg σ h3, h4, h5⟩

/-- **C75, fees.** Renaming the users of a book by an injection that keeps the ids in the range
`0, 1, …` also renames the fees and changes nothing else: MUDA raises on one book exactly if it does on
the other, and otherwise the fee of the renamed user is the fee of the user. -/
theorem C75_fees (S : Sorter) (coin : ℕ → Bool) (df : DF) (ht : IsTable df)
    (hq : ∀ r ∈ df, 0 ≤ r.quantity) (hu : UsersInRange df) (σ : ℤ → ℤ) (hσ : Function.Injective σ)
    (hu' : UsersInRange (df.map (renameUser σ))) :
    (muda S coin df = .error .notImplementedError ∧
      muda S coin (df.map (renameUser σ)) = .error .notImplementedError) ∨
    ∃ tm left right pl pr fees fees',
      muda S coin df = .ok (tm, .muda left right pl pr fees) ∧
      muda S coin (df.map (renameUser σ)) = .ok (tm, .muda left right pl pr fees') ∧
      fees'.length = fees.length ∧
      ∀ u w : ℕ, σ u = w → u < fees.length → w < fees.length → fees'[w]? = fees[u]? := by
  have ht' : IsTable (df.map (renameUser σ)) := by
    unfold IsTable at ht ⊢
    rw [(rename_keeps σ).labels, List.length_map, ht]
  have hq' : ∀ r ∈ df.map (renameUser σ), 0 ≤ r.quantity := by
    intro r hr
    obtain ⟨a, ha, rfl⟩ := List.mem_map.mp hr
    exact hq a ha
  by_cases htw : HasTwin df
  · exact Or.inl ⟨(C31_rejects S coin df).mpr htw,
      (C31_rejects S coin _).mpr ((hasTwin_rename hσ df).mpr htw)⟩
  · right
    obtain ⟨tm, left, right, pl, pr, fees, h⟩ := C32_total_partial S coin df ht hq hu htw
    obtain ⟨tm', left', right', pl', pr', fees', h'⟩ := C32_total_partial S coin _ ht' hq' hu'
      (fun hc => htw ((hasTwin_rename hσ df).mp hc))
    have hbl : df.map blank = (df.map (renameUser σ)).map blank := by
      rw [List.map_map]; rfl
    obtain ⟨e1, e2, e3, e4, e5⟩ := muda_blank hbl h h'
    subst e1 e2 e3 e4 e5
    obtain ⟨l1, f1⟩ := C27_fees S coin df ht hq hu tm left right pl pr fees h
    obtain ⟨l2, f2⟩ := C27_fees S coin _ ht' hq' hu' tm left right pl pr fees' h'
    have hlen : fees'.length = fees.length := by
      rw [l1, l2]
      have : (df.map (renameUser σ)).map (fun r => r.user) = (df.map (fun r => r.user)).map σ := by
        rw [List.map_map, List.map_map]; rfl
      rw [this, List.dedup_map_of_injective hσ, List.length_map]
    refine ⟨tm, left, right, pl, pr, fees, fees', h, h', hlen, ?_⟩
    intro u w huw hlu hlw
    obtain ⟨x, hx1, _, hx2⟩ := f1 u hlu
    obtain ⟨y, hy1, _, hy2⟩ := f2 w (by rw [hlen]; exact hlw)
    rw [hx1, hy1]
    congr 1
    rw [← huw, half_rename, half_rename] at hy2
    simp only [tradesLong_rename hσ, externality_rename hσ, owes_rename hσ] at hy2
    rcases hx2 with ⟨p, hp, h1, h2⟩ | ⟨h1, h2⟩
    · rcases hy2 with ⟨p', hp', h3, h4⟩ | ⟨h3, _⟩
      · rw [hp] at hp'; cases hp'
        exact externality_unique h4 h2
      · exact absurd h1 (h3 p hp)
    · rcases hy2 with ⟨p', hp', h3, _⟩ | ⟨_, h4⟩
      · exact absurd h3 (h1 p' hp')
      · exact owes_unique h4 h2

/-! ## Examples -/

/-- Three users … -/
def namedBook : DF := labelFrom 0
  [⟨2, 10, 0, true, 0, true⟩, ⟨3, 9, 1, true, 0, true⟩, ⟨1, 2, 2, false, 0, true⟩,
   ⟨2, 3, 2, false, 0, true⟩, ⟨2, 8, 0, true, 0, true⟩, ⟨1, 1, 2, false, 0, true⟩]

/-- … and a single one. -/
def soleUserBook : DF := namedBook.map (renameUser (fun _ => 0))

example : List.Forall₂ SameOffer namedBook soleUserBook := by decide +kernel

example : ((runAlgo stableSorter headSampler .huang soleUserBook).toOption.map
    (fun r => r.1.trans.map (fun t => (t.bid, t.quantity)))) = some [(5, 1), (2, 1), (0, 2)] := by
  decide +kernel

/-- Users 0 and 2 exchange their names; left half: bids 0, 1, 2. -/
def swapNames (u : ℤ) : ℤ := 2 - u

example : Function.Injective swapNames := fun a b h => by unfold swapNames at h; omega

example : IsTable namedBook ∧ UsersInRange namedBook ∧ UsersInRange (namedBook.map (renameUser swapNames)) ∧
    ¬ checkEqualPriceRaises namedBook ∧
    ((muda stableSorter (fun i => decide (i < 3)) namedBook).toOption.map (fun r => r.2)) =
      some (.muda [0, 1, 2] [3, 4, 5] (.fin 10) (.fin 3) [6, 0, 0]) ∧
    ((muda stableSorter (fun i => decide (i < 3)) (namedBook.map (renameUser swapNames))).toOption.map
      (fun r => r.2)) = some (.muda [0, 1, 2] [3, 4, 5] (.fin 10) (.fin 3) [0, 0, 6]) := by
  decide +kernel

end PyMarket
