import Verif.Lemmas.HuangClear
import Verif.Props.HuangNoTies
import Verif.Props.Comparative

/-! # C73: withdrawing losing bids does not change the outcome of Huang's auction -/

set_option autoImplicit false

namespace PyMarket

open Spec

/-- The lookup of `x` only depends on the rows up to the one it stops at. -/
theorem step_prefix {x : Ext} {a : ℚ} {U V : DF} (W : DF) (e : Ext)
    (h : stepIdx x a (U ++ V) < U.length) :
    stepIdx x a (U ++ W) = stepIdx x a (U ++ V) ∧ stepVal x a (U ++ W) e = stepVal x a (U ++ V) e := by
  induction U generalizing a with
  | nil => simp at h
  | cons r U ih =>
    simp only [List.cons_append, stepIdx, stepVal, List.length_cons] at h ⊢
    by_cases hx : x ≤ ((a + r.quantity : ℚ) : Ext)
    · simp only [hx, if_true, and_self]
    · simp only [hx, if_false] at h ⊢
      obtain ⟨h1, h2⟩ := ih (a := a + r.quantity) (by omega)
      rw [h1, h2]
      exact ⟨rfl, rfl⟩

/-- A filter that keeps the first `n + 1` elements. -/
theorem filter_keeps_prefix {α : Type*} {l : List α} {P : α → Bool} {n : ℕ}
    (h : ∀ a ∈ l.take n, P a = true) : l.filter P = l.take n ++ (l.drop n).filter P := by
  conv_lhs => rw [← List.take_append_drop n l, List.filter_append]
  rw [List.filter_eq_self.mpr h]

theorem filter_comm_side (df : DF) (P Q : Row → Bool) : (df.filter P).filter Q = (df.filter Q).filter P := by
  rw [List.filter_filter, List.filter_filter]
  congr 1
  funext r
  exact Bool.and_comm _ _

/-- One side after losers have left: same marginal position, same price, same bids in front. -/
theorem side_withdraw {L : DF} {P : Row → Bool} {x e : Ext} {m : Row}
    (hm : L[stepIdx x 0 L]? = some m) (hP : ∀ r ∈ L.take (stepIdx x 0 L + 1), P r = true) :
    stepIdx x 0 (L.filter P) = stepIdx x 0 L ∧ stepVal x 0 (L.filter P) e = stepVal x 0 L e ∧
      (L.filter P).take (stepIdx x 0 (L.filter P)) = L.take (stepIdx x 0 L) := by
  obtain ⟨hl, _⟩ := List.getElem?_eq_some_iff.mp hm
  set n := stepIdx x 0 L with hn
  have hf := filter_keeps_prefix hP
  have hlen : (L.take (n + 1)).length = n + 1 := by rw [List.length_take]; omega
  have hidx : stepIdx x 0 (L.take (n + 1) ++ L.drop (n + 1)) < (L.take (n + 1)).length := by
    rw [List.take_append_drop, hlen, ← hn]; omega
  obtain ⟨h1, h2⟩ := step_prefix ((L.drop (n + 1)).filter P) e hidx
  rw [List.take_append_drop, ← hf] at h1 h2
  refine ⟨h1, h2, ?_⟩
  rw [h1, ← hn, hf, List.take_append_of_le_length (by rw [hlen]; omega), List.take_take]
  congr 1
  omega

/-- **C73.** When the prices of each side are pairwise different, the auction returns exactly the same
result after any set of losing bids — buyers below the buyers' price, sellers above the sellers'
price — has left the book. -/
theorem C73_withdraw (S : Sorter) (df : DF) (hn : NonNeg df)
    (hb : ((df.filter (fun r => r.buying)).map (fun r => r.price)).Nodup)
    (hs : ((df.filter (fun r => !r.buying)).map (fun r => r.price)).Nodup)
    (tm : TransactionManager) (ps pb : Ext) (q : ℚ)
    (h : huangAuction S df = .ok (tm, .huang ps pb q)) (stays : Row → Bool)
    (hlose : ∀ r ∈ df, stays r = false →
      if r.buying then (r.price : Ext) < pb else ps < (r.price : Ext)) :
    huangAuction S (df.filter stays) = .ok (tm, .huang ps pb q) := by
  rcases huang_cases S hn with ⟨h0, _⟩ | ⟨x, ps₀, pb₀, hc, hps, hpb, hlt, hcase⟩
  · rw [h] at h0; cases h0
  have hex : ps = (ps₀ : Ext) ∧ pb = (pb₀ : Ext) := by
    rcases hcase with ⟨_, _, _, _, _, _, _, _, _, heq⟩ | ⟨_, heq⟩
    · rw [h] at heq; cases heq; exact ⟨rfl, rfl⟩
    · rw [h] at heq; cases heq; exact ⟨rfl, rfl⟩
  obtain ⟨rfl, rfl⟩ := hex
  rw [← h, huang_eval hn hc hps hpb]
  have hn' : NonNeg (df.filter stays) := fun r hr => hn r (List.mem_filter.mp hr).1
  -- the sorted sides
  have eb : sortDesc S (buys (df.filter stays)) = (sortDesc S (buys df)).filter stays := by
    have e0 : buys (df.filter stays) = (buys df).filter stays := filter_comm_side _ _ _
    refine perm_prices_eq (sortDesc_perm S _) ?_ ?_ (fun a b => b ≤ a)
      (fun _ _ h1 h2 => le_antisymm h2 h1) (sortDesc_sorted S _)
      ((sortDesc_sorted S _).sublist List.filter_sublist)
    · rw [e0]; exact (sortDesc_perm S _).filter _
    · rw [e0]
      exact hb.sublist (List.filter_sublist.map _)
  have es : sortAsc S (sells (df.filter stays)) = (sortAsc S (sells df)).filter stays := by
    have e0 : sells (df.filter stays) = (sells df).filter stays := filter_comm_side _ _ _
    refine perm_prices_eq (sortAsc_perm S _) ?_ ?_ (fun a b => a ≤ b)
      (fun _ _ h1 h2 => le_antisymm h1 h2) (sortAsc_sorted S _)
      ((sortAsc_sorted S _).sublist List.filter_sublist)
    · rw [e0]; exact (sortAsc_perm S _).filter _
    · rw [e0]
      exact hs.sublist (List.filter_sublist.map _)
  obtain ⟨mb, hmb, hmbp⟩ := hc.marginal_buy hn
  obtain ⟨ms, hms, hmsp⟩ := hc.marginal_sell
  have kb : ∀ r ∈ (sortDesc S (buys df)).take (demandIdx S df x + 1), stays r = true := by
    intro r hr
    by_contra hf
    have hmem := mem_buys.mp (mem_sortDesc.mp (List.mem_of_mem_take hr))
    have := hlose r hmem.1 (by simpa using hf)
    rw [hmem.2, if_pos rfl, WithTop.coe_lt_coe] at this
    have hp : mb.price = pb₀ := by rw [hmbp] at hpb; exact WithTop.coe_injective hpb
    obtain ⟨g1, _⟩ := take_sorted (sortDesc_sorted S (buys df)) hmb
    rw [List.take_add_one, hmb] at hr
    rcases List.mem_append.mp hr with hr | hr
    · have := g1 r hr; linarith
    · obtain rfl : r = mb := by simpa using hr
      linarith
  have ks : ∀ r ∈ (sortAsc S (sells df)).take (supplyIdx S df x + 1), stays r = true := by
    intro r hr
    by_contra hf
    have hmem := mem_sells.mp (mem_sortAsc.mp (List.mem_of_mem_take hr))
    have := hlose r hmem.1 (by simpa using hf)
    rw [hmem.2] at this
    have this : ps₀ < r.price := by simpa using this
    have hp : ms.price = ps₀ := by rw [hmsp] at hps; exact WithTop.coe_injective hps
    obtain ⟨g1, _⟩ := take_sorted (sortAsc_sorted S (sells df)) hms
    rw [List.take_add_one, hms] at hr
    rcases List.mem_append.mp hr with hr | hr
    · have := g1 r hr; linarith
    · obtain rfl : r = ms := by simpa using hr
      linarith
  obtain ⟨b1, b2, b3⟩ := side_withdraw (e := ((0 : ℚ) : Ext)) hmb kb
  obtain ⟨s1, s2, s3⟩ := side_withdraw (e := (⊤ : Ext)) hms ks
  have hB : huangB S (df.filter stays) x = huangB S df x := by
    unfold huangB demandIdx; rw [eb]; exact b3
  have hA : huangA S (df.filter stays) x = huangA S df x := by
    unfold huangA supplyIdx; rw [es]; exact s3
  have hD : demandAt S (df.filter stays) x = demandAt S df x := by
    unfold demandAt; rw [eb]; exact b2
  have hSu : supplyAt S (df.filter stays) x = supplyAt S df x := by
    unfold supplyAt; rw [es]; exact s2
  have hqle : ∀ Q : Row → Bool, (((df.filter stays).filter Q).map (fun r => r.quantity)).sum ≤
      ((df.filter Q).map (fun r => r.quantity)).sum := by
    intro Q
    rw [filter_comm_side]
    apply List.Sublist.sum_le_sum (List.filter_sublist.map _)
    intro y hy
    obtain ⟨r, hr, rfl⟩ := List.mem_map.mp hy
    exact (hn r (List.mem_filter.mp hr).1).1
  have hc' : Crossing S (df.filter stays) x := by
    apply crossing_of hn' hc.nonneg
    · rw [hD, hSu]; exact hc.at_x
    · intro z hz
      rcases eq_or_ne z ⊤ with rfl | hne
      · rw [demandAt_top, supplyAt_top]; exact WithTop.coe_lt_top 0
      · obtain ⟨y, rfl⟩ := WithTop.ne_top_iff_exists.mp hne
        have hy0 : 0 < y := lt_of_le_of_lt hc.nonneg (WithTop.coe_lt_coe.mp hz)
        exact lt_of_le_of_lt (demandAt_le_of_qty S S hn' hn (fun p => hqle _) hy0)
          (lt_of_lt_of_le (hc.above _ hz) (supplyAt_le_of_qty S S hn' hn (fun p => hqle _) hy0))
  rw [huang_eval hn' hc' (hSu.trans hps) (hD.trans hpb), hA, hB]

/-! ## A market without one of its bids -/

/-- The id after bid `j` is gone. -/
def shiftId (j k : ℕ) : ℕ := if j < k then k - 1 else k

/-- The row after bid `j` is gone. -/
def shiftRow (j : ℕ) (r : Row) : Row := { r with label := shiftId j r.label }

theorem shiftRow_renames (j : ℕ) : Renames (shiftId j) (shiftRow j) :=
  ⟨fun _ => rfl, fun _ => rfl, fun _ => rfl, fun _ => rfl⟩

theorem labelFrom_shift (j : ℕ) (bids : List Bid) (n : ℕ) (hj : j ≤ n) :
    labelFrom n bids = ((labelFrom (n + 1) bids).filter (fun r => decide (r.label ≠ j))).map
      (shiftRow j) := by
  induction bids generalizing n with
  | nil => rfl
  | cons b bids ih =>
    have h1 : n + 1 ≠ j := by omega
    have h2 : j < n + 1 := by omega
    simp only [labelFrom, List.filter_cons, h1, ne_eq, not_false_eq_true, decide_true, if_true,
      List.map_cons]
    rw [ih (n + 1) (by omega)]
    simp [shiftRow, shiftId, h2]

theorem labelFrom_eraseIdx (bids : List Bid) (n j : ℕ) :
    labelFrom n (bids.eraseIdx j) =
      ((labelFrom n bids).filter (fun r => decide (r.label ≠ n + j))).map (shiftRow (n + j)) := by
  induction bids generalizing n j with
  | nil => rfl
  | cons b bids ih =>
    cases j with
    | zero =>
      simp only [List.eraseIdx_cons_zero, labelFrom, List.filter_cons, Nat.add_zero, ne_eq,
        not_true_eq_false, decide_false, Bool.false_eq_true, if_false]
      exact labelFrom_shift n bids n (le_refl _)
    | succ j =>
      have h1 : n ≠ n + (j + 1) := by omega
      have h2 : ¬ n + (j + 1) < n := by omega
      simp only [List.eraseIdx_cons_succ, labelFrom, List.filter_cons, h1, ne_eq, not_false_eq_true,
        decide_true, if_true, List.map_cons]
      rw [ih (n + 1) j]
      have e : n + 1 + j = n + (j + 1) := by omega
      simp only [shiftRow, shiftId, h2, if_false, e]

/-- **C73, one bid.** In a market in which bid `j`, which loses, was never submitted, the auction finds
the same prices and volume, and the same transactions up to the renumbering of the later bids. -/
theorem C73_never_submitted (S : Sorter) (bids : List Bid) (hn : ∀ b ∈ bids, 0 ≤ b.quantity ∧ 0 ≤ b.price)
    (hb : ((bids.filter (fun b => b.buying)).map (fun b => b.price)).Nodup)
    (hs : ((bids.filter (fun b => !b.buying)).map (fun b => b.price)).Nodup)
    (tm : TransactionManager) (ps pb : Ext) (q : ℚ)
    (h : huangAuction S (labelFrom 0 bids) = .ok (tm, .huang ps pb q)) (j : ℕ) (b : Bid)
    (hj : bids[j]? = some b)
    (hlose : if b.buying then (b.price : Ext) < pb else ps < (b.price : Ext)) :
    ∃ tm', huangAuction S (labelFrom 0 (bids.eraseIdx j)) = .ok (tm', .huang ps pb q) ∧
      tm'.trans = tm.trans.map (fun t => { t with bid := if j < t.bid then t.bid - 1 else t.bid }) := by
  have hsame : (labelFrom 0 bids).map (fun r => r.toBid) = bids := labelFrom_map_toBid 0 bids
  have hmem : ∀ r ∈ labelFrom 0 bids, r.toBid ∈ bids := by
    intro r hr
    rw [← hsame]
    exact List.mem_map_of_mem hr
  have hside : ∀ P : Bid → Bool, ((labelFrom 0 bids).filter (fun r => P r.toBid)).map
      (fun r => r.price) = (bids.filter P).map (fun b => b.price) := by
    intro P
    conv_rhs => rw [← hsame, List.filter_map, List.map_map]
    rfl
  have h1 := C73_withdraw S (labelFrom 0 bids) (fun r hr => hn _ (hmem r hr))
    (by rw [hside (fun b => b.buying)]; exact hb) (by rw [hside (fun b => !b.buying)]; exact hs)
    tm ps pb q h (fun r => decide (r.label ≠ j)) (by
      intro r hr hf
      have hl : r.label = j := by simpa using hf
      have hg := (isTable_labelFrom bids).get_label hr
      rw [hl] at hg
      have : r.toBid = b := by
        have h2 : ((labelFrom 0 bids).map (fun r => r.toBid))[j]? = some r.toBid := by
          rw [List.getElem?_map, hg]; rfl
        rw [hsame, hj] at h2
        exact (Option.some.inj h2).symm
      rw [this]; exact hlose)
  obtain ⟨tm', h2, h3⟩ := (shiftRow_renames j).huangAuction_map S h1
  have e := labelFrom_eraseIdx bids 0 j
  rw [Nat.zero_add] at e
  rw [e]
  exact ⟨tm', h2, h3⟩

/-- Bid 2 (a buyer at 4) and bid 5 (a seller at 6) lose; the prices are 3 and 8. -/
def leaveBids : List Bid :=
  [⟨5, 10, 0, true, 0, true⟩, ⟨2, 8, 1, true, 0, true⟩, ⟨3, 4, 2, true, 0, true⟩,
   ⟨5, 1, 3, false, 0, true⟩, ⟨2, 3, 4, false, 0, true⟩, ⟨1, 6, 5, false, 0, true⟩]

/-- A case that meets the hypotheses. -/
example : (∀ b ∈ leaveBids, 0 ≤ b.quantity ∧ 0 ≤ b.price) ∧
    ((leaveBids.filter (fun b => b.buying)).map (fun b => b.price)).Nodup ∧
    ((leaveBids.filter (fun b => !b.buying)).map (fun b => b.price)).Nodup ∧
    huangAuction stableSorter (labelFrom 0 leaveBids) =
      .ok (⟨2, [⟨3, 5, 3, -1, false⟩, ⟨0, 5, 8, -1, false⟩]⟩,
        .huang ((3 : ℚ) : Ext) ((8 : ℚ) : Ext) 5) ∧
    leaveBids[2]? = some ⟨3, 4, 2, true, 0, true⟩ ∧ ((4 : ℚ) : Ext) < ((8 : ℚ) : Ext) ∧
    huangAuction stableSorter (labelFrom 0 (leaveBids.eraseIdx 2)) =
      .ok (⟨2, [⟨2, 5, 3, -1, false⟩, ⟨0, 5, 8, -1, false⟩]⟩,
        .huang ((3 : ℚ) : Ext) ((8 : ℚ) : Ext) 5) := by
  decide +kernel

/-- The price setting bid also gets nothing, but it does matter: without bid 1 the buyer pays 4 instead
of 8. -/
theorem C73_setter_matters :
    huangAuction stableSorter (labelFrom 0 (leaveBids.eraseIdx 1)) =
      .ok (⟨2, [⟨2, 5, 3, -1, false⟩, ⟨0, 5, 4, -1, false⟩]⟩,
        .huang ((3 : ℚ) : Ext) ((4 : ℚ) : Ext) 5) := by
  decide +kernel

end PyMarket
