import Verif.Lemmas.KnownBids
import Verif.Props.MarketHistory
import Verif.Props.Statistics
import Verif.Props.Profits
import Verif.Props.Muda

/-! # C80: the report of `Market.statistics` after any history of calls -/

set_option autoImplicit false

namespace PyMarket

open Spec

/-- The fees of a result, zero unless it is MUDA's. -/
def Spec.feeTotal : Extra → ℚ
  | .muda _ _ _ _ fees => fees.sum
  | _ => 0

/-- The outcome a market reports: that of the last successful run, nothing before it. -/
def Spec.Current (h : List Op) (t : TransactionManager) (e : Extra) : Prop :=
  LastSuccess h t e ∨ (NoSuccess h ∧ t.trans = [] ∧ e = .empty)

/-- The fees `statistics` hands on. -/
def extraFees : Extra → Option (List ℚ)
  | .muda _ _ _ _ fees => some fees
  | _ => none

theorem statistics_profits {m : Market} {solve : Solver} {res : Option ResPrices}
    {exclude : List String} {pr : Profits}
    (h : (m.statistics solve res exclude).2.1.profits = some pr) :
    pr = (calculateProfits m.bm.getDf m.transactions.getDf res (extraFees m.extra)).1 := by
  unfold Market.statistics at h
  simp only at h
  split_ifs at h
  rw [← Option.some.inj h]
  cases m.extra <;> rfl

theorem isTable_accepted (h : List Op) : IsTable (table (accepted h)) := by
  rw [← after_getDf]; exact isTable_labelFrom _

theorem table_length (bs : List Bid) : (table bs).length = bs.length := by simp [table]

/-- **C80 (contents).** After any history, the report has exactly the entries that are not excluded.
`percentage_traded` and `percentage_welfare` relate the last successful run to the best possible
outcome for *all* bids accepted so far; `profits` has one entry per user who ever submitted a bid, in
increasing order of the user ids, and the market maker's profit is money in minus money out plus the
fees of that run. -/
theorem C80_report (h : List Op) (solve : Solver) (res : Option ResPrices) (exclude : List String) :
    ∃ t e, Current h t e ∧ ∀ R, R = ((Market.after h).statistics solve res exclude).2.1 →
      (R.percentageTraded = none ↔ "percentage_traded" ∈ exclude) ∧
      (R.percentageWelfare = none ↔ "percentage_welfare" ∈ exclude) ∧
      (R.profits = none ↔ "profits" ∈ exclude) ∧
      (∀ x, R.percentageTraded = some x → (∀ b ∈ accepted h, 0 ≤ b.quantity) →
        IsOptimum (volumeLP (table (accepted h))) (solve (volumeLP (table (accepted h)))) →
        ∃ best, BestVolume (table (accepted h)) best ∧
          Share ((t.trans.map (fun t => t.quantity)).sum / 2) best x) ∧
      (∀ x, R.percentageWelfare = some x → (∀ b ∈ accepted h, 0 ≤ b.quantity) →
        IsOptimum (utilityLP (table (accepted h)) (fun _ => none))
          (solve (utilityLP (table (accepted h)) (fun _ => none))) →
        ∃ best, BestWelfare (table (accepted h)) (priceOf (table (accepted h))) best ∧
          Share (gains (table (accepted h)) (priceOf (table (accepted h))) t.trans) best x) ∧
      ∀ x, R.profits = some x → ∃ us, UsersOf (table (accepted h)) us ∧
        x.playerBid = us.map (fun u =>
          surplusOf (table (accepted h)) (priceOf (table (accepted h))) u t.trans) ∧
        x.playerReservation = us.map (fun u => surplusOf (table (accepted h))
          (reservationOf (table (accepted h)) (res.getD (fun _ => none))) u t.trans) ∧
        x.market = paid (table (accepted h)) t.trans - received (table (accepted h)) t.trans +
          feeTotal e := by
  have hdf := after_getDf h
  have ht := isTable_accepted h
  have hqq : (∀ b ∈ accepted h, 0 ≤ b.quantity) → ∀ r ∈ table (accepted h), 0 ≤ r.quantity := by
    intro hb r hr
    simp only [table, List.mem_map] at hr
    obtain ⟨p, hp, rfl⟩ := hr
    exact hb _ (List.fst_mem_of_mem_zipIdx hp)
  refine ⟨(Market.after h).transactions, (Market.after h).extra, ?_, ?_⟩
  · rcases (C03_market_history h).2 with h1 | h1
    · exact Or.inl h1
    · exact Or.inr h1
  intro R hR
  have hprof : ∀ x, R.profits = some x → ∃ us, UsersOf (table (accepted h)) us ∧
        x.playerBid = us.map (fun u => surplusOf (table (accepted h)) (priceOf (table (accepted h))) u
          (Market.after h).transactions.trans) ∧
        x.playerReservation = us.map (fun u => surplusOf (table (accepted h))
          (reservationOf (table (accepted h)) (res.getD (fun _ => none))) u
          (Market.after h).transactions.trans) ∧
        x.market = paid (table (accepted h)) (Market.after h).transactions.trans -
          received (table (accepted h)) (Market.after h).transactions.trans +
          feeTotal (Market.after h).extra := by
    intro x hx
    rw [hR] at hx
    have hx := statistics_profits hx
    rw [hdf] at hx
    subst hx
    obtain ⟨us, hus, he⟩ := C40_player _ ht (Market.after h).transactions.getDf res
      (extraFees (Market.after h).extra)
    obtain ⟨us', hus', he'⟩ := C42_player_reservation _ ht (Market.after h).transactions.getDf res
      (extraFees (Market.after h).extra)
    cases usersOf_unique hus hus'
    refine ⟨us, hus, he, he', ?_⟩
    rw [market_profit ht]
    congr 1
    cases (Market.after h).extra <;> rfl
  refine ⟨?_, ?_, ?_, ?_, ?_, hprof⟩
  all_goals subst hR; unfold Market.statistics; simp only [hdf]
  · split_ifs with hx <;> simp [hx]
  · split_ifs with hx <;> simp [hx]
  · split_ifs with hx <;> simp [hx]
  · intro x hx hq hs
    split_ifs at hx
    cases hx
    refine ⟨_, ((C39_volume _ ht (hqq hq)).2 _ hs).2, ?_, ?_⟩
    · intro h0
      unfold percentageTraded
      exact if_neg (not_lt.mpr h0)
    · intro h0
      unfold percentageTraded
      exact if_pos h0
  · intro x hx hq hs
    split_ifs at hx
    cases hx
    exact C38_value _ ht (hqq hq) _ res solve hs

/-- **C80 (known bids).** After any history, every recorded transaction refers to an accepted bid. -/
theorem C80_known_bids (h : List Op) :
    ∀ t ∈ (Market.after h).transactions.trans, t.bid < (accepted h).length := by
  rcases (C03_market_history h).2 with ⟨h₁, S, smp, call, h₂, rfl, hok, _⟩ | ⟨_, h0, _⟩
  · intro t htt
    have := run_known (isTable_accepted h₁) hok t htt
    rw [table_length] at this
    have hle : (accepted h₁).length ≤
        (accepted (h₁ ++ Op.run S smp call :: h₂)).length := by
      unfold accepted
      rw [List.filterMap_append, List.length_append]
      omega
    omega
  · intro t htt
    have h0 : (Market.after h).transactions.trans = [] := h0
    rw [h0] at htt; cases htt

/-! ## Later bids -/

section late

variable {df df' : DF}

theorem getElem?_prefix (hp : df <+: df') {i : ℕ} (hi : i < df.length) : df'[i]? = df[i]? := by
  obtain ⟨l, rfl⟩ := hp
  exact List.getElem?_append_left hi

theorem surplusOf_prefix (hp : df <+: df') {price price' : ℕ → ℚ}
    (hpr : ∀ i, i < df.length → price' i = price i) {ts : List Transaction}
    (hts : ∀ t ∈ ts, t.bid < df.length) (u : ℤ) : surplusOf df' price' u ts = surplusOf df price u ts := by
  have e1 : ∀ t ∈ ts, df'[t.bid]? = df[t.bid]? := fun t h => getElem?_prefix hp (hts t h)
  have htr : transOf df' u ts = transOf df u ts := by
    unfold transOf ownedBy
    apply List.filter_congr
    intro t h; rw [e1 t h]
  have hsub : ∀ t ∈ transOf df u ts, t ∈ ts := fun t h => (List.mem_filter.mp h).1
  have hb : (transOf df u ts).filter (fun t => isBuy df' t.bid) =
      (transOf df u ts).filter (fun t => isBuy df t.bid) := by
    apply List.filter_congr
    intro t h
    unfold isBuy
    rw [e1 t (hsub t h)]
  have hs : (transOf df u ts).filter (fun t => isSell df' t.bid) =
      (transOf df u ts).filter (fun t => isSell df t.bid) := by
    apply List.filter_congr
    intro t h
    unfold isSell
    rw [e1 t (hsub t h)]
  unfold surplusOf boughtValue soldValue paid received
  rw [htr, hb, hs]
  congr 3
  · apply List.map_congr_left
    intro t h
    rw [hpr _ (hts t (hsub t (List.mem_filter.mp h).1))]
  · apply List.map_congr_left
    intro t h
    rw [hpr _ (hts t (hsub t (List.mem_filter.mp h).1))]

theorem money_prefix (hp : df <+: df') {ts : List Transaction} (hts : ∀ t ∈ ts, t.bid < df.length) :
    paid df' ts = paid df ts ∧ received df' ts = received df ts := by
  have e1 : ∀ t ∈ ts, df'[t.bid]? = df[t.bid]? := fun t h => getElem?_prefix hp (hts t h)
  unfold paid received
  constructor
  · congr 2
    apply List.filter_congr
    intro t h
    unfold isBuy
    rw [e1 t h]
  · congr 2
    apply List.filter_congr
    intro t h
    unfold isSell
    rw [e1 t h]

theorem surplusOf_stranger {price : ℕ → ℚ} {ts : List Transaction} {u : ℤ}
    (hu : ∀ r ∈ df, r.user ≠ u) : surplusOf df price u ts = 0 := by
  have : transOf df u ts = [] := by
    unfold transOf
    apply List.filter_eq_nil_iff.mpr
    intro t _
    unfold ownedBy
    cases hr : df[t.bid]? with
    | none => simp
    | some r => simpa using hu r (List.mem_of_getElem? hr)
  unfold surplusOf
  rw [this]
  simp [boughtValue, soldValue, paid, received]

end late

theorem accepted_accepts (h : List Op) (bs : List Bid) :
    accepted (h ++ bs.map Op.accept) = accepted h ++ bs := by
  unfold accepted
  rw [List.filterMap_append, List.filterMap_map]
  congr 1
  induction bs with
  | nil => rfl
  | cons b bs ih => simp

theorem after_accepts (h : List Op) (bs : List Bid) :
    (Market.after (h ++ bs.map Op.accept)).transactions = (Market.after h).transactions ∧
    (Market.after (h ++ bs.map Op.accept)).extra = (Market.after h).extra := by
  induction bs using List.reverseRecOn with
  | nil => simp
  | append_singleton bs b ih =>
    rw [List.map_append, ← List.append_assoc, List.map_singleton, after_append]
    exact ih

theorem table_prefix (as bs : List Bid) : table as <+: table (as ++ bs) := by
  unfold table
  rw [List.zipIdx_append, List.map_append]
  exact List.prefix_append _ _

/-- **C80 (later bids).** Bids accepted after a run leave the reported profits of that run alone: the
market maker's profit stays, every user keeps the profits reported before, and new users get 0. -/
theorem C80_later_bids (h : List Op) (bs : List Bid) (solve : Solver) (res : Option ResPrices)
    (exclude : List String) (pr pr' : Profits)
    (h1 : ((Market.after h).statistics solve res exclude).2.1.profits = some pr)
    (h2 : ((Market.after (h ++ bs.map Op.accept)).statistics solve res exclude).2.1.profits = some pr') :
    pr'.market = pr.market ∧ ∃ (us us' : List ℤ) (f g : ℤ → ℚ),
      UsersOf (table (accepted h)) us ∧ UsersOf (table (accepted h ++ bs)) us' ∧
      pr.playerBid = us.map f ∧ pr'.playerBid = us'.map f ∧
      pr.playerReservation = us.map g ∧ pr'.playerReservation = us'.map g ∧
      ∀ u ∉ us, f u = 0 ∧ g u = 0 := by
  have hk := C80_known_bids h
  rw [← table_length] at hk
  have hp := table_prefix (accepted h) bs
  have ht := isTable_accepted h
  have ht' : IsTable (table (accepted h ++ bs)) := by
    rw [← accepted_accepts]; exact isTable_accepted _
  have hdf := after_getDf h
  have hdf' := after_getDf (h ++ bs.map Op.accept)
  rw [accepted_accepts] at hdf'
  obtain ⟨hT, hE⟩ := after_accepts h bs
  have h1 := statistics_profits h1
  have h2 := statistics_profits h2
  rw [hdf] at h1
  rw [hdf', hT, hE] at h2
  subst h1
  subst h2
  set fees := extraFees (Market.after h).extra with hf
  set ts := (Market.after h).transactions.getDf with hts
  have hk : ∀ t ∈ ts, t.bid < (table (accepted h)).length := hk
  obtain ⟨us, hus, he⟩ := C40_player _ ht ts res fees
  obtain ⟨us0, hus0, he0⟩ := C42_player_reservation _ ht ts res fees
  cases usersOf_unique hus hus0
  obtain ⟨us', hus', he'⟩ := C40_player _ ht' ts res fees
  obtain ⟨us1, hus1, he1⟩ := C42_player_reservation _ ht' ts res fees
  cases usersOf_unique hus' hus1
  obtain ⟨m1, m2⟩ := money_prefix hp hk
  have hprice : ∀ i, i < (table (accepted h)).length →
      priceOf (table (accepted h ++ bs)) i = priceOf (table (accepted h)) i := by
    intro i hi
    unfold priceOf
    rw [getElem?_prefix hp hi]
  refine ⟨by rw [market_profit ht, market_profit ht', m1, m2], us, us', _, _, hus, hus', he, ?_, he0, ?_,
    ?_⟩
  · rw [he']
    apply List.map_congr_left
    intro u _
    exact surplusOf_prefix hp hprice hk u
  · rw [he1]
    apply List.map_congr_left
    intro u _
    apply surplusOf_prefix hp _ hk u
    intro i hi
    unfold reservationOf
    rw [hprice i hi]
  · intro u hu
    have : ∀ r ∈ table (accepted h), r.user ≠ u := fun r hr hc => hu ((hus.2 u).mpr ⟨r, hr, hc⟩)
    exact ⟨surplusOf_stranger this, surplusOf_stranger this⟩

/-! ## Repeated calls and the caller's dictionary -/

theorem fillRes_prefix {df df' : DF} (ht : IsTable df) (ht' : IsTable df') (hp : df <+: df')
    (res : ResPrices) : fillRes (fillRes res df) df' = fillRes res df' := by
  funext j
  rw [fillRes_get _ _ ht'.nodup, fillRes_get _ _ ht.nodup, fillRes_get _ _ ht'.nodup]
  cases res j with
  | some v => rfl
  | none =>
    simp only
    rw [find_label ht, find_label ht']
    by_cases hj : j < df.length
    · rw [getElem?_prefix hp hj, List.getElem?_eq_getElem hj]; rfl
    · rw [List.getElem?_eq_none (not_lt.mp hj)]; rfl

theorem calculateProfits_refill {df df' : DF} (ht : IsTable df) (ht' : IsTable df') (hp : df <+: df')
    (ts : List Transaction) (res : ResPrices) (fees : Option (List ℚ)) :
    calculateProfits df' ts (some (fillRes res df)) fees = calculateProfits df' ts (some res) fees := by
  unfold calculateProfits
  simp only [Option.getD_some, fillRes_prefix ht ht' hp]
  rfl

theorem step_congr {m m' : Market} (h : m'.bm = m.bm ∧ m'.transactions = m.transactions ∧
    m'.extra = m.extra) (o : Op) : (m'.step o).bm = (m.step o).bm ∧
    (m'.step o).transactions = (m.step o).transactions ∧ (m'.step o).extra = (m.step o).extra := by
  obtain ⟨h1, h2, h3⟩ := h
  cases o with
  | accept b => exact ⟨by simp [Market.step, Market.acceptBid, h1], h2, h3⟩
  | run S smp call =>
    simp only [Market.step, Market.run, h1]
    cases runAlgo S smp call m.bm.getDf with
    | error e => exact ⟨h1, h2, h3⟩
    | ok r => exact ⟨rfl, rfl, rfl⟩
  | stats solve res exclude => exact ⟨h1, h2, h3⟩
  | plot method => exact ⟨h1, h2, h3⟩

/-- **C80 (no side effects on the market).** A call of `statistics` at any point of a history has no
influence on any later run or report. -/
theorem C80_transparent (h h' : List Op) (solve : Solver) (res : Option ResPrices)
    (exclude : List String) (S : Sorter) (smp : Sampler) (call : AlgoCall) (solve' : Solver)
    (res' : Option ResPrices) (exclude' : List String) :
    ((Market.after (h ++ .stats solve res exclude :: h')).run S smp call).2 =
      ((Market.after (h ++ h')).run S smp call).2 ∧
    ((Market.after (h ++ .stats solve res exclude :: h')).statistics solve' res' exclude').2 =
      ((Market.after (h ++ h')).statistics solve' res' exclude').2 := by
  have key : ∀ (l : List Op) (m m' : Market), (m'.bm = m.bm ∧ m'.transactions = m.transactions ∧
      m'.extra = m.extra) → (l.foldl Market.step m').bm = (l.foldl Market.step m).bm ∧
      (l.foldl Market.step m').transactions = (l.foldl Market.step m).transactions ∧
      (l.foldl Market.step m').extra = (l.foldl Market.step m).extra := by
    intro l
    induction l with
    | nil => intro m m' h; exact h
    | cons o l ih => intro m m' h; exact ih _ _ (step_congr h o)
  have h0 := key h' (Market.after h) ((Market.after h).step (.stats solve res exclude)) ⟨rfl, rfl, rfl⟩
  have e1 : Market.after (h ++ .stats solve res exclude :: h') =
      h'.foldl Market.step ((Market.after h).step (.stats solve res exclude)) := by
    simp [Market.after, List.foldl_append]
  have e2 : Market.after (h ++ h') = h'.foldl Market.step (Market.after h) := by
    simp [Market.after, List.foldl_append]
  rw [e1, e2]
  obtain ⟨g1, g2, g3⟩ := h0
  constructor
  · simp only [Market.run, g1]
    split <;> rfl
  · simp only [Market.statistics, g1, g2, g3]

/-- **C80, partial (reusing the dictionary).** The caller's dictionary of reservation prices is
changed by the call. Passing the changed dictionary to a market whose bid table extends the first one
(in particular to the same market, later or at once) gives the same report, and the same dictionary
in the end, as passing the original. Missing: any other market (`C80_reuse_refuted`). -/
theorem C80_reuse_partial (m m' : Market) (hp : m.bm.getDf <+: m'.bm.getDf) (solve solve' : Solver)
    (res : Option ResPrices) (exclude exclude' : List String) :
    (m'.statistics solve' (m.statistics solve res exclude).2.2 exclude').2.1 =
      (m'.statistics solve' res exclude').2.1 ∧
    ("profits" ∉ exclude' → (m'.statistics solve' (m.statistics solve res exclude).2.2 exclude').2.2 =
      (m'.statistics solve' res exclude').2.2) := by
  have ht : IsTable m.bm.getDf := isTable_labelFrom _
  have ht' : IsTable m'.bm.getDf := isTable_labelFrom _
  cases res with
  | none =>
    have h0 : (m.statistics solve none exclude).2.2 = none := by
      unfold Market.statistics
      simp only
      split_ifs <;> rfl
    rw [h0]
    exact ⟨rfl, fun _ => rfl⟩
  | some res =>
    by_cases hx : "profits" ∈ exclude
    · have h0 : (m.statistics solve (some res) exclude).2.2 = some res := by
        unfold Market.statistics
        simp only [hx, if_true]
      rw [h0]
      exact ⟨rfl, fun _ => rfl⟩
    · have h0 : (m.statistics solve (some res) exclude).2.2 = some (fillRes res m.bm.getDf) := by
        unfold Market.statistics
        simp only [hx, if_false]
        rfl
      rw [h0]
      unfold Market.statistics
      simp only [calculateProfits_refill ht ht' hp]
      constructor
      · rfl
      · intro hx'
        simp only [hx', if_false]

/-- Two buyers and a seller. -/
def reuseMarket (p : ℚ) : Market :=
  ((Market.after [.accept ⟨1, p, 0, true, 0, true⟩, .accept ⟨1, p + 1, 1, true, 0, true⟩,
    .accept ⟨2, 1, 2, false, 0, true⟩]).run stableSorter headSampler (.p2p false (1 / 2) (fun _ => 0))).1

/-- **C80, refuted part.** An empty dictionary passed to the statistics of one market comes back with
that market's prices. Passed to a second market, it makes the report value the bids of the second
market at the prices of the first. -/
theorem C80_reuse_refuted :
    let d := ((reuseMarket 9).statistics (fun _ => 0) (some (fun _ => none)) []).2.2
    ((reuseMarket 3).statistics (fun _ => 0) (some (fun _ => none)) []).2.1.profits =
      some ⟨[1, 3 / 2, 5 / 2], [1, 3 / 2, 5 / 2], 0⟩ ∧
    ((reuseMarket 3).statistics (fun _ => 0) d []).2.1.profits =
      some ⟨[1, 3 / 2, 5 / 2], [7, 15 / 2, 5 / 2], 0⟩ := by
  decide +kernel

/-! ## Instances -/

/-- A history with a failing run, a MUDA run that charges fees, and later bids. -/
def reportHistory : List Op :=
  (mudaBook.map (fun r => Op.accept r.toBid)) ++
    [.run stableSorter headSampler (.other "vcg"),
     .run stableSorter headSampler (.muda false mudaCoin)]

example : Current reportHistory (Market.after reportHistory).transactions
      (Market.after reportHistory).extra ∧
    feeTotal (Market.after reportHistory).extra = 14 ∧
    ((Market.after reportHistory).statistics (fun _ => 1) none ["percentage_traded"]).2.1.profits ≠
      ((Market.after (reportHistory ++ [Bid.mk 1 9 99 true 0 true].map Op.accept)).statistics
        (fun _ => 1) none ["percentage_traded"]).2.1.profits ∧
    (reuseMarket 3).bm.getDf <+: (reuseMarket 3).bm.getDf := by
  refine ⟨?_, by decide +kernel, by decide +kernel, List.prefix_refl _⟩
  · rcases (C03_market_history reportHistory).2 with h1 | h1
    · exact Or.inl h1
    · exact Or.inr h1

end PyMarket
