import Verif.Model.Plot
import Verif.Lemmas.Merge
import Verif.Lemmas.Table
import Verif.Lemmas.Sort
import Mathlib.Data.List.Induction

/-! # C03, C04, C49: the market object over its whole history -/

set_option autoImplicit false

namespace PyMarket

open Spec

/-- One client call on a market. -/
inductive Op where
  | accept (b : Bid)
  | run (S : Sorter) (smp : Sampler) (call : AlgoCall)
  | stats (solve : Solver) (res : Option ResPrices) (exclude : List String)
  | plot (method : String)

/-- The state after one client call. -/
def Market.step (m : Market) : Op → Market
  | .accept b => (m.acceptBid b.quantity b.price b.user b.buying b.time b.divisible).1
  | .run S smp call => (m.run S smp call).1
  | .stats solve res exclude => (m.statistics solve res exclude).1
  | .plot _ => m

/-- The state after a history of calls on a new market. -/
def Market.after (h : List Op) : Market := h.foldl Market.step Market.init

/-- The bids submitted in a history. -/
def Spec.accepted (h : List Op) : List Bid :=
  h.filterMap (fun o => match o with | .accept b => some b | _ => none)

/-- What a run at the end of history `h` returns: the mechanism applied to the table of all bids
accepted so far. -/
def Spec.outcome (h : List Op) (S : Sorter) (smp : Sampler) (call : AlgoCall) :
    Except PyErr (TransactionManager × Extra) :=
  runAlgo S smp call (table (accepted h))

theorem after_append (h : List Op) (o : Op) : Market.after (h ++ [o]) = (Market.after h).step o := by
  simp [Market.after]

theorem after_bm (h : List Op) :
    (Market.after h).bm.bids = accepted h ∧
    (Market.after h).bm.nBids = (accepted h).length := by
  induction h using List.reverseRecOn with
  | nil => simp [Market.after, Market.init, BidManager.init, accepted]
  | append_singleton h o ih =>
    rw [after_append]
    have hacc : accepted (h ++ [o]) = accepted h ++ accepted [o] := by
      simp [accepted, List.filterMap_append]
    rw [hacc]
    cases o with
    | accept b =>
      simp [Market.step, Market.acceptBid, BidManager.addBid, ih, accepted]
    | run S smp call =>
      have : ((Market.after h).run S smp call).1.bm = (Market.after h).bm := by
        unfold Market.run; split <;> rfl
      simp [Market.step, this, ih, accepted]
    | stats solve res exclude => simp [Market.step, Market.statistics, ih, accepted]
    | plot method => simp [Market.step, ih, accepted]

theorem after_getDf (h : List Op) : (Market.after h).bm.getDf = table (accepted h) := by
  rw [BidManager.getDf, (after_bm h).1, labelFrom_eq_zipIdx]; rfl

/-- `t, e` are the results of the last successful run in `h`. -/
def Spec.LastSuccess (h : List Op) (t : TransactionManager) (e : Extra) : Prop :=
  ∃ h₁ S smp call h₂, h = h₁ ++ Op.run S smp call :: h₂ ∧
    outcome h₁ S smp call = .ok (t, e) ∧
    ∀ h₃ S' smp' call' h₄, h₂ = h₃ ++ Op.run S' smp' call' :: h₄ →
      ∃ err, outcome (h₁ ++ Op.run S smp call :: h₃) S' smp' call' = .error err

/-- No run in `h` succeeded. -/
def Spec.NoSuccess (h : List Op) : Prop :=
  ∀ h₁ S smp call h₂, h = h₁ ++ Op.run S smp call :: h₂ →
    ∃ err, outcome h₁ S smp call = .error err

theorem append_singleton_cases {α : Type*} {h h₁ h₂ : List α} {o a : α}
    (e : h ++ [o] = h₁ ++ a :: h₂) :
    (h₂ = [] ∧ h = h₁ ∧ o = a) ∨ ∃ h₂', h₂ = h₂' ++ [o] ∧ h = h₁ ++ a :: h₂' := by
  rcases List.eq_nil_or_concat h₂ with rfl | ⟨l, b, rfl⟩
  · left
    have := List.append_inj' e rfl
    simpa using this
  · right
    have e' : h ++ [o] = (h₁ ++ a :: l) ++ [b] := by simpa using e
    have := List.append_inj' e' rfl
    simp only [List.cons.injEq, and_true] at this
    exact ⟨l, by rw [this.2]; simp, this.1⟩

/-- An operation that is not a successful run keeps the last success. -/
theorem lastSuccess_extend {h : List Op} {o : Op} {t : TransactionManager} {e : Extra}
    (ho : ∀ S smp call, o = .run S smp call → ∃ err, outcome h S smp call = .error err)
    (hl : LastSuccess h t e) : LastSuccess (h ++ [o]) t e := by
  obtain ⟨h₁, S, smp, call, h₂, rfl, hok, hrest⟩ := hl
  refine ⟨h₁, S, smp, call, h₂ ++ [o], by simp, hok, ?_⟩
  intro h₃ S' smp' call' h₄ he
  rcases append_singleton_cases he with ⟨-, rfl, ho'⟩ | ⟨h₄', -, he'⟩
  · exact ho S' smp' call' ho'
  · exact hrest h₃ S' smp' call' h₄' he'

theorem noSuccess_extend {h : List Op} {o : Op}
    (ho : ∀ S smp call, o = .run S smp call → ∃ err, outcome h S smp call = .error err)
    (hl : NoSuccess h) : NoSuccess (h ++ [o]) := by
  intro h₁ S smp call h₂ he
  rcases append_singleton_cases he with ⟨-, rfl, ho'⟩ | ⟨h₂', -, he'⟩
  · exact ho S smp call ho'
  · exact hl h₁ S smp call h₂' he'

/-- **C03.** After any history the bid table is the accepted bids in order, and transactions and
extra information are those of the last successful run (initially empty). -/
theorem C03_market_history (h : List Op) :
    (Market.after h).bm.getDf = table (accepted h) ∧
    (LastSuccess h (Market.after h).transactions (Market.after h).extra ∨
      (NoSuccess h ∧ (Market.after h).transactions.getDf = [] ∧
        (Market.after h).extra = .empty)) := by
  refine ⟨after_getDf h, ?_⟩
  induction h using List.reverseRecOn with
  | nil =>
    right
    refine ⟨?_, rfl, rfl⟩
    intro h₁ S smp call h₂ he
    simp at he
  | append_singleton h o ih =>
    rw [after_append]
    have keep : ∀ m : Market, m.transactions = (Market.after h).transactions →
        m.extra = (Market.after h).extra →
        (∀ S smp call, o = .run S smp call → ∃ err, outcome h S smp call = .error err) →
        (LastSuccess (h ++ [o]) m.transactions m.extra ∨
          (NoSuccess (h ++ [o]) ∧ m.transactions.getDf = [] ∧ m.extra = .empty)) := by
      intro m h1 h2 ho
      rw [h1, h2]
      rcases ih with ih | ih
      · exact Or.inl (lastSuccess_extend ho ih)
      · exact Or.inr ⟨noSuccess_extend ho ih.1, ih.2⟩
    cases o with
    | accept b => exact keep _ rfl rfl (by intro S smp call hc; cases hc)
    | stats solve res exclude => exact keep _ rfl rfl (by intro S smp call hc; cases hc)
    | plot method => exact keep _ rfl rfl (by intro S smp call hc; cases hc)
    | run S smp call =>
      have hdf := after_getDf h
      cases hrun : runAlgo S smp call (Market.after h).bm.getDf with
      | error err =>
        have hm : (Market.after h).step (.run S smp call) = Market.after h := by
          simp [Market.step, Market.run, hrun]
        apply keep _ (by rw [hm]) (by rw [hm])
        intro S' smp' call' hc
        cases hc
        exact ⟨err, by unfold outcome; rw [← hdf, hrun]⟩
      | ok r =>
        obtain ⟨t, e⟩ := r
        left
        have hm : (Market.after h).step (.run S smp call) =
            { Market.after h with transactions := t, extra := e } := by
          simp [Market.step, Market.run, hrun]
        rw [hm]
        refine ⟨h, S, smp, call, [], rfl, by unfold outcome; rw [← hdf, hrun], ?_⟩
        intro h₃ S' smp' call' h₄ he
        simp at he

/-- **C03, failing runs.** A run that raises changes nothing, and an unknown algorithm name always
raises `KeyError`; a run that succeeds returns exactly what it stores. -/
theorem C03_failed_run (m : Market) (S : Sorter) (smp : Sampler) (call : AlgoCall) :
    (∀ err, (m.run S smp call).2 = .error err → (m.run S smp call).1 = m) ∧
    (∀ name, (m.run S smp (.other name)).2 = .error .keyError) ∧
    (∀ t e, (m.run S smp call).2 = .ok (t, e) →
      (m.run S smp call).1.transactions = t ∧ (m.run S smp call).1.extra = e ∧
      (m.run S smp call).1.bm = m.bm) := by
  refine ⟨?_, ?_, ?_⟩
  · intro err he
    unfold Market.run at he ⊢
    split <;> rename_i hr
    · rfl
    · rw [hr] at he; simp at he
  · intro name
    simp [Market.run, runAlgo]
  · intro t e he
    unfold Market.run at he ⊢
    split <;> rename_i hr
    · rw [hr] at he; simp at he
    · rw [hr] at he
      simp only [Except.ok.injEq, Prod.mk.injEq] at he
      exact ⟨he.1, he.2, rfl⟩

/-- Non-vacuity: two bids, a failing run, a successful one with a trade, a later bid. -/
def sampleHistory : List Op :=
  [.accept ⟨1, 3, 0, true, 0, true⟩, .run stableSorter headSampler (.other "vcg"),
   .accept ⟨1, 2, 1, false, 0, true⟩,
   .run stableSorter headSampler (.p2p false (1/2) (fun _ => 0)),
   .accept ⟨1, 9, 2, true, 0, true⟩]

example : (Market.after sampleHistory).transactions.getDf =
    [⟨0, 1, 5/2, 1, false⟩, ⟨1, 1, 5/2, 0, false⟩] ∧
    (accepted sampleHistory).length = 3 := by decide +kernel

theorem mechRun_one_sided (algo : Algo) (df : DF)
    (h : (∀ r ∈ df, r.buying = true) ∨ (∀ r ∈ df, r.buying = false)) :
    mechRun algo df = .ok (TransactionManager.init, .empty) := by
  unfold mechRun
  simp only
  rw [if_neg]
  rintro ⟨h1, h2⟩
  rcases h with h | h
  · apply h2
    unfold buys
    rw [List.filter_eq_self.mpr h]
  · apply h1
    rw [List.length_eq_zero_iff]
    unfold buys
    rw [List.filter_eq_nil_iff]
    intro r hr
    simp [h r hr]

theorem merge_one_sided (smp : Sampler) (df : DF)
    (h : (∀ r ∈ df, r.buying = true) ∨ (∀ r ∈ df, r.buying = false)) :
    ∃ nb mp, mergeSamePrice smp df = .ok (nb, mp) ∧
      ((∀ r ∈ nb, r.buying = true) ∨ (∀ r ∈ nb, r.buying = false)) := by
  obtain ⟨gb, i₁, gs, i₂, hb, hs, heq⟩ := mergeSamePrice_ok smp df 5
  have hside : ∀ (l : List (Bid × List ℕ)) (s : Bool), (∀ g ∈ l, g.1.buying = s) →
      ∀ r ∈ labelFrom 0 (l.map (fun p => p.1)), r.buying = s := by
    intro l s hl r hr
    have : r.toBid ∈ (labelFrom 0 (l.map (fun p => p.1))).map (fun r => r.toBid) :=
      List.mem_map_of_mem hr
    rw [labelFrom_map_toBid, List.mem_map] at this
    obtain ⟨g, hg, hgr⟩ := this
    rw [← hgr]; exact hl g hg
  refine ⟨_, _, heq, ?_⟩
  rcases h with h | h
  · left
    have hnil : sells df = [] := by
      unfold sells; rw [List.filter_eq_nil_iff]; intro r hr; simp [h r hr]
    have : gs = [] := by
      have := hs.price
      rw [hnil] at this
      simpa [groupKeys] using this
    rw [this, List.append_nil]
    exact hside gb true hb.side_eq
  · right
    have hnil : buys df = [] := by
      unfold buys; rw [List.filter_eq_nil_iff]; intro r hr; simp [h r hr]
    have : gb = [] := by
      have := hb.price
      rw [hnil] at this
      simpa [groupKeys] using this
    rw [this, List.nil_append]
    exact hside gs false hs.side_eq

/-- **C04.** On a book whose bids are all on one side (or an empty one) every mechanism, with or
without merging and for all random choices, returns without raising: no transactions and an empty
extra dictionary. -/
theorem C04_one_sided_no_trade (S : Sorter) (smp : Sampler) (call : AlgoCall) (df : DF)
    (hone : (∀ r ∈ df, r.buying = true) ∨ (∀ r ∈ df, r.buying = false))
    (hknown : ∀ name, call ≠ .other name) :
    runAlgo S smp call df = .ok (⟨0, []⟩, .empty) := by
  have hm : ∀ (merge : Bool) (algo : Algo), mechanism smp merge algo df = .ok (⟨0, []⟩, .empty) := by
    intro merge algo
    unfold mechanism
    cases merge with
    | false => simp only [Bool.false_eq_true, if_false]; exact mechRun_one_sided algo df hone
    | true =>
      obtain ⟨nb, mp, hmerge, hone'⟩ := merge_one_sided smp df hone
      simp only [if_true, hmerge, bind, Except.bind, mechRun_one_sided algo nb hone']
      rfl
  cases call with
  | huang => exact hm true _
  | muda merge coin => exact hm merge _
  | p2p merge pCoef choice => exact hm merge _
  | other name => exact absurd rfl (hknown name)

/-- **C04, converse.** With both sides present the algorithm itself decides the outcome. -/
theorem C04_two_sided_invokes (algo : Algo) (df : DF) (b s : Row) (hb : b ∈ df)
    (hs : s ∈ df) (hbb : b.buying = true) (hss : s.buying = false) :
    mechRun algo df = algo df := by
  unfold mechRun
  simp only
  rw [if_pos]
  refine ⟨?_, ?_⟩
  · have : b ∈ buys df := mem_buys.mpr ⟨hb, hbb⟩
    exact ne_of_gt (List.length_pos_of_mem this)
  · intro h
    have := (List.filter_sublist (p := fun r : Row => r.buying) (l := df)).eq_of_length h
    rw [List.filter_eq_self] at this
    rw [this s hs] at hss
    cases hss

/-- Non-vacuity: three buying bids, two with the same price, through the merging mechanism. -/
example : runAlgo stableSorter headSampler .huang
    (labelFrom 0 [⟨1, 3, 0, true, 0, true⟩, ⟨2, 3, 1, true, 0, true⟩, ⟨1, 4, 1, true, 0, true⟩]) =
    .ok (⟨0, []⟩, .empty) := by decide +kernel

theorem lookupAll_ok_iff (e : Extra) (ks : List String) :
    e.lookupAll ks = .ok () ↔ ∀ k ∈ ks, k ∈ e.keys := by
  induction ks with
  | nil => simp [Extra.lookupAll]
  | cons k ks ih =>
    unfold Extra.lookupAll Extra.lookup
    by_cases h : k ∈ e.keys
    · simp [h, bind, Except.bind, ih]
    · simp [h, bind, Except.bind]

theorem lookupAll_error (e : Extra) (ks : List String) :
    e.lookupAll ks = .ok () ∨ e.lookupAll ks = .error .keyError := by
  induction ks with
  | nil => left; rfl
  | cons k ks ih =>
    unfold Extra.lookupAll Extra.lookup
    by_cases h : k ∈ e.keys
    · simpa [h, bind, Except.bind] using ih
    · right; simp [h, bind, Except.bind]

/-- The mechanism whose results a history holds: that of its last successful run. -/
def Spec.LastKind (h : List Op) (isKind : AlgoCall → Prop) : Prop :=
  ∃ h₁ S smp call h₂ t e, h = h₁ ++ Op.run S smp call :: h₂ ∧
    outcome h₁ S smp call = .ok (t, e) ∧ isKind call ∧ e ≠ .empty ∧
    ∀ h₃ S' smp' call' h₄, h₂ = h₃ ++ Op.run S' smp' call' :: h₄ →
      ∃ err, outcome (h₁ ++ Op.run S smp call :: h₃) S' smp' call' = .error err

/-- **C49.** `plot_method` never raises `KeyError` (nor anything else before drawing); it draws the
MUDA picture exactly when the current extra information has the four MUDA keys and the Huang
picture exactly when it has the three Huang keys, and otherwise prints the message. -/
theorem C49_plot_method (m : Market) (method : String) :
    (∃ a, m.plotMethod method = .ok a) ∧
    (m.plotMethod method = .ok .muda ↔ method = "muda" ∧
      ∀ k ∈ ["left", "right", "price_left", "price_right"], k ∈ m.extra.keys) ∧
    (m.plotMethod method = .ok .huang ↔ method = "huang" ∧
      ∀ k ∈ ["price_sell", "price_buy", "quantity_traded"], k ∈ m.extra.keys) ∧
    (m.plotMethod method = .ok .graph ↔ method = "p2p") := by
  have key : ∀ (ks : List String) (a : PlotAction), a ≠ .message →
      ((∀ k ∈ ks, k ∈ m.extra.keys) ∧
        tryKeyError (do m.extra.lookupAll ks; .ok a) = .ok a) ∨
      (¬ (∀ k ∈ ks, k ∈ m.extra.keys) ∧
        tryKeyError (do m.extra.lookupAll ks; .ok a) = .ok .message) := by
    intro ks a ha
    rcases lookupAll_error m.extra ks with h | h
    · left
      exact ⟨(lookupAll_ok_iff _ _).mp h, by rw [h]; rfl⟩
    · right
      refine ⟨fun hc => ?_, by rw [h]; rfl⟩
      rw [(lookupAll_ok_iff _ _).mpr hc] at h
      cases h
  by_cases h1 : method = "p2p"
  · subst h1; simp [Market.plotMethod]
  by_cases h2 : method = "muda"
  · subst h2
    rcases key ["left", "right", "price_left", "price_right"] .muda (by decide) with
      ⟨hk, he⟩ | ⟨hk, he⟩
    · have hp : m.plotMethod "muda" = .ok .muda := by
        unfold Market.plotMethod; simpa using he
      rw [hp]
      exact ⟨⟨_, rfl⟩, ⟨fun _ => ⟨rfl, hk⟩, fun _ => rfl⟩, by simp, by simp⟩
    · have hp : m.plotMethod "muda" = .ok .message := by
        unfold Market.plotMethod; simpa using he
      rw [hp]
      exact ⟨⟨_, rfl⟩, ⟨fun h => by simp at h, fun h => absurd h.2 hk⟩, by simp, by simp⟩
  by_cases h3 : method = "huang"
  · subst h3
    rcases key ["price_sell", "price_buy", "quantity_traded"] .huang (by decide) with
      ⟨hk, he⟩ | ⟨hk, he⟩
    · have hp : m.plotMethod "huang" = .ok .huang := by
        unfold Market.plotMethod; simpa using he
      rw [hp]
      exact ⟨⟨_, rfl⟩, by simp, ⟨fun _ => ⟨rfl, hk⟩, fun _ => rfl⟩, by simp⟩
    · have hp : m.plotMethod "huang" = .ok .message := by
        unfold Market.plotMethod; simpa using he
      rw [hp]
      exact ⟨⟨_, rfl⟩, by simp, ⟨fun h => by simp at h, fun h => absurd h.2 hk⟩, by simp⟩
  · simp [Market.plotMethod, h1, h2, h3]

/-- The extra dictionary of a successful run is empty or has the shape of its mechanism. -/
theorem mechanism_extra {smp : Sampler} {merge : Bool} {algo : Algo} {df : DF}
    {t : TransactionManager} {e : Extra} (P : Extra → Prop)
    (halgo : ∀ df' t' e', algo df' = .ok (t', e') → e' = .empty ∨ P e')
    (h : mechanism smp merge algo df = .ok (t, e)) : e = .empty ∨ P e := by
  have hrun : ∀ df' t' e', mechRun algo df' = .ok (t', e') → e' = .empty ∨ P e' := by
    intro df' t' e' h'
    unfold mechRun at h'
    simp only at h'
    split at h'
    · exact halgo df' t' e' h'
    · simp only [Except.ok.injEq, Prod.mk.injEq] at h'
      exact Or.inl h'.2.symm
  unfold mechanism at h
  split at h
  · simp only [bind, Except.bind] at h
    cases hm : mergeSamePrice smp df with
    | error err => rw [hm] at h; cases h
    | ok r =>
      rw [hm] at h
      simp only at h
      cases hr : mechRun algo r.1 with
      | error err => rw [hr] at h; cases h
      | ok r' =>
        rw [hr] at h
        simp only at h
        cases hs : splitTransactions r'.1 df r.2 with
        | error err => rw [hs] at h; cases h
        | ok r'' =>
          rw [hs] at h
          simp only [Except.ok.injEq, Prod.mk.injEq] at h
          rw [← h.2]
          exact hrun r.1 r'.1 r'.2 hr
  · exact hrun df t e h

theorem huangAuction_extra {S : Sorter} {df : DF} {t : TransactionManager} {e : Extra}
    (h : huangAuction S df = .ok (t, e)) : e = .empty ∨ ∃ a b c, e = .huang a b c := by
  unfold huangAuction at h
  simp only [bind, Except.bind] at h
  repeat' split at h
  all_goals first
    | (simp only [Except.ok.injEq, Prod.mk.injEq] at h
       first
         | exact Or.inl h.2.symm
         | exact Or.inr ⟨_, _, _, h.2.symm⟩)
    | cases h

theorem muda_extra {S : Sorter} {coin : ℕ → Bool} {df : DF} {t : TransactionManager} {e : Extra}
    (h : muda S coin df = .ok (t, e)) : ∃ a b c d f, e = .muda a b c d f := by
  unfold muda mudaBody at h
  simp only [bind, Except.bind] at h
  repeat' split at h
  all_goals first
    | (simp only [Except.ok.injEq, Prod.mk.injEq] at h
       exact ⟨_, _, _, _, _, h.2.symm⟩)
    | cases h

theorem muda_keys (e : Extra) :
    (∀ k ∈ ["left", "right", "price_left", "price_right"], k ∈ e.keys) ↔
      ∃ a b c d f, e = .muda a b c d f := by
  constructor
  · intro h
    have := h "left" (by simp)
    cases e <;> simp [Extra.keys] at this ⊢
  · rintro ⟨a, b, c, d, f, rfl⟩
    simp [Extra.keys]

theorem huang_keys (e : Extra) :
    (∀ k ∈ ["price_sell", "price_buy", "quantity_traded"], k ∈ e.keys) ↔
      ∃ a b c, e = .huang a b c := by
  constructor
  · intro h
    have := h "price_sell" (by simp)
    cases e <;> simp [Extra.keys] at this ⊢
  · rintro ⟨a, b, c, rfl⟩
    simp [Extra.keys]

/-- **C49 over histories.** After any history, the MUDA (Huang) picture is drawn exactly when the
last successful run was a MUDA (Huang) run whose extra dictionary is not empty. -/
theorem C49_plot_history (h : List Op) :
    ((Market.after h).plotMethod "muda" = .ok .muda ↔
      LastKind h (fun c => ∃ merge coin, c = .muda merge coin)) ∧
    ((Market.after h).plotMethod "huang" = .ok .huang ↔ LastKind h (fun c => c = .huang)) := by
  have uniq : ∀ {t e t' e'}, LastSuccess h t e →
      (∃ h₁ S smp call h₂, h = h₁ ++ Op.run S smp call :: h₂ ∧
        outcome h₁ S smp call = .ok (t', e') ∧
        ∀ h₃ S' smp' call' h₄, h₂ = h₃ ++ Op.run S' smp' call' :: h₄ →
          ∃ err, outcome (h₁ ++ Op.run S smp call :: h₃) S' smp' call' = .error err) →
      e = e' := by
    rintro t e t' e' ⟨h₁, S, smp, call, h₂, heq, hok, hrest⟩
      ⟨k₁, S', smp', call', k₂, keq, kok, krest⟩
    rw [heq] at keq
    rcases List.append_eq_append_iff.mp keq with ⟨a, ha, hb⟩ | ⟨a, ha, hb⟩
    · cases a with
      | nil =>
        simp only [List.append_nil, List.nil_append, List.cons.injEq] at ha hb
        obtain ⟨hb1, hb2⟩ := hb
        cases hb1
        rw [ha, hok] at kok
        simp only [Except.ok.injEq, Prod.mk.injEq] at kok
        exact kok.2
      | cons x a =>
        simp only [List.cons_append, List.cons.injEq] at hb
        obtain ⟨rfl, hb2⟩ := hb
        obtain ⟨err, herr⟩ := hrest a S' smp' call' k₂ hb2
        rw [ha, herr] at kok
        cases kok
    · cases a with
      | nil =>
        simp only [List.append_nil, List.nil_append, List.cons.injEq] at ha hb
        obtain ⟨hb1, hb2⟩ := hb
        cases hb1
        rw [← ha, hok] at kok
        simp only [Except.ok.injEq, Prod.mk.injEq] at kok
        exact kok.2
      | cons x a =>
        simp only [List.cons_append, List.cons.injEq] at hb
        obtain ⟨rfl, hb2⟩ := hb
        obtain ⟨err, herr⟩ := krest a S smp call h₂ hb2
        rw [ha, herr] at hok
        cases hok
  have shape : ∀ {df S smp call t e}, runAlgo S smp call df = .ok (t, e) →
      e = .empty ∨ ((∃ merge coin, call = .muda merge coin) ∧ ∃ a b c d f, e = .muda a b c d f) ∨
      (call = .huang ∧ ∃ a b c, e = .huang a b c) ∨ (∃ l, e = .p2p l) := by
    intro df S smp call t e hr
    cases call with
    | huang =>
      rcases mechanism_extra (P := fun e => ∃ a b c, e = .huang a b c)
        (fun _ _ _ hh => huangAuction_extra hh) hr with h | h
      · exact Or.inl h
      · exact Or.inr (Or.inr (Or.inl ⟨rfl, h⟩))
    | muda merge coin =>
      rcases mechanism_extra (P := fun e => ∃ a b c d f, e = .muda a b c d f)
        (fun _ _ _ hh => Or.inr (muda_extra hh)) hr with h | h
      · exact Or.inl h
      · exact Or.inr (Or.inl ⟨⟨_, _, rfl⟩, h⟩)
    | p2p merge pCoef choice =>
      rcases mechanism_extra (P := fun e => ∃ l, e = .p2p l)
        (fun _ t' e' hh => by
          unfold p2pRandom at hh
          simp only [Except.ok.injEq, Prod.mk.injEq] at hh
          exact Or.inr ⟨_, hh.2.symm⟩) hr with h | h
      · exact Or.inl h
      · exact Or.inr (Or.inr (Or.inr h))
    | other name => cases hr
  have hist := (C03_market_history h).2
  refine ⟨?_, ?_⟩
  · rw [(C49_plot_method _ _).2.1, muda_keys]
    constructor
    · rintro ⟨-, a, b, c, d, f, hk⟩
      rcases hist with hl | hn
      · obtain ⟨h₁, S, smp, call, h₂, heq, hok, hrest⟩ := hl
        have hne : (Market.after h).extra ≠ .empty := by rw [hk]; simp
        rcases shape hok with h' | ⟨hc, h'⟩ | ⟨hc, _, _, _, h'⟩ | ⟨l, h'⟩
        · exact absurd h' hne
        · exact ⟨h₁, S, smp, call, h₂, _, _, heq, hok, hc, hne, hrest⟩
        · rw [h'] at hk; simp at hk
        · rw [h'] at hk; simp at hk
      · rw [hn.2.2] at hk; simp at hk
    · rintro ⟨h₁, S, smp, call, h₂, t, e, heq, hok, ⟨merge, coin, rfl⟩, hne, hrest⟩
      rcases hist with hl | hn
      · have := uniq hl ⟨h₁, S, smp, _, h₂, heq, hok, hrest⟩
        rw [this]
        rcases mechanism_extra (P := fun e => ∃ a b c d f, e = .muda a b c d f)
            (fun _ _ _ hh => Or.inr (muda_extra hh)) hok with h' | h'
        · exact absurd h' hne
        · exact ⟨rfl, h'⟩
      · obtain ⟨err, herr⟩ := hn.1 h₁ S smp _ h₂ heq
        rw [hok] at herr
        cases herr
  · rw [(C49_plot_method _ _).2.2.1, huang_keys]
    constructor
    · rintro ⟨-, a, b, c, hk⟩
      rcases hist with hl | hn
      · obtain ⟨h₁, S, smp, call, h₂, heq, hok, hrest⟩ := hl
        have hne : (Market.after h).extra ≠ .empty := by rw [hk]; simp
        rcases shape hok with h' | ⟨hc, _, _, _, _, _, h'⟩ | ⟨hc, h'⟩ | ⟨l, h'⟩
        · exact absurd h' hne
        · rw [h'] at hk; simp at hk
        · exact ⟨h₁, S, smp, call, h₂, _, _, heq, hok, hc, hne, hrest⟩
        · rw [h'] at hk; simp at hk
      · rw [hn.2.2] at hk; simp at hk
    · rintro ⟨h₁, S, smp, call, h₂, t, e, heq, hok, rfl, hne, hrest⟩
      rcases hist with hl | hn
      · have := uniq hl ⟨h₁, S, smp, _, h₂, heq, hok, hrest⟩
        rw [this]
        have hok' : mechanism smp true (huangAuction S) (table (accepted h₁)) = .ok (t, e) := hok
        rcases mechanism_extra (P := fun e => ∃ a b c, e = .huang a b c)
            (fun _ _ _ hh => huangAuction_extra hh) hok' with h' | h'
        · exact absurd h' hne
        · exact ⟨rfl, h'⟩
      · obtain ⟨err, herr⟩ := hn.1 h₁ S smp _ h₂ heq
        rw [hok] at herr
        cases herr

/-- Non-vacuity: after the sample history (last successful run: p2p) both pictures fall back to the
message; after a further Huang run the Huang picture is drawn. -/
example : (Market.after sampleHistory).plotMethod "muda" = .ok .message ∧
    (Market.after (sampleHistory ++ [.run stableSorter headSampler .huang])).plotMethod "huang"
      = .ok .huang := by decide +kernel

end PyMarket
