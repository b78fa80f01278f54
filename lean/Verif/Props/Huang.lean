import Verif.Lemmas.HuangOutcome
import Verif.Lemmas.Accounting

/-! # C13 – C18: Huang's auction

Each property is proved for `huang_auction` itself (`…_direct`) where it makes sense, and for
`Market.run('huang')`, which merges bids of equal rounded price first and splits the result. -/

set_option autoImplicit false

namespace PyMarket

open Spec

/-- A book in which bids with equal (rounded) prices are merged and both sides trade: buyers offer
`1` and `3` at `10`, `1` at `8`, `2` at `6`; sellers ask `1` for `2`, `1` for `3`, `10` for `5`. -/
def huangBook : DF := labelFrom 0
  [⟨1, 10, 0, true, 0, true⟩, ⟨3, 10, 1, true, 0, true⟩, ⟨1, 8, 2, true, 0, true⟩,
   ⟨2, 6, 3, true, 0, true⟩, ⟨1, 2, 4, false, 0, true⟩, ⟨1, 3, 5, false, 0, true⟩,
   ⟨10, 5, 6, false, 0, true⟩]

example : IsTable huangBook ∧ Pos huangBook := by decide +kernel

/-- Non-vacuity for this file: on `huangBook` both sellers below the marginal price sell everything
at `5`; the buyers above the marginal price buy `2` together at `6`. The group of bids 0 and 1 (total
`4`) is cut first and its share is split 1 : 3. -/
example : runAlgo stableSorter headSampler .huang huangBook = .ok
    (⟨5, [⟨4, 1, 5, -1, false⟩, ⟨5, 1, 5, -1, false⟩, ⟨0, 1/2, 6, -1, false⟩, ⟨1, 3/2, 6, -1, false⟩,
      ⟨2, 0, 6, -1, false⟩]⟩, .huang ((5 : ℚ) : Ext) ((6 : ℚ) : Ext) 2) := by decide +kernel

/-- **C13**, for the auction itself. -/
theorem C13_balanced_direct (S : Sorter) (df : DF) (ht : IsTable df) (h : NonNeg df) :
    ∃ tm ex, huangAuction S df = .ok (tm, ex) ∧ boughtQty df tm.trans = soldQty df tm.trans := by
  rcases huang_direct S ht h with h1 | ⟨tm, ps, pb, q, h1, hO, _⟩
  · exact ⟨_, _, h1, rfl⟩
  · exact ⟨_, _, h1, hO.balanced⟩

/-- **C13.** Total bought equals total sold in `Market.run('huang')`. -/
theorem C13_balanced (S : Sorter) (smp : Sampler) (df : DF) (ht : IsTable df)
    (h : GroupPos df) :
    ∃ tm ex, runAlgo S smp .huang df = .ok (tm, ex) ∧
      boughtQty df tm.trans = soldQty df tm.trans := by
  rcases huang_market S smp ht h with ⟨tm, h1, h2⟩ | ⟨tm, ps, pb, q, h1, hO, _⟩
  · exact ⟨_, _, h1, by rw [h2]; rfl⟩
  · exact ⟨_, _, h1, hO.balanced⟩

example : ((runAlgo stableSorter headSampler .huang huangBook).map
    (fun r => (boughtQty huangBook r.1.trans, soldQty huangBook r.1.trans))) = .ok (2, 2) := by
  decide +kernel

/-- **C14**, for the auction itself. -/
theorem C14_at_most_once_direct (S : Sorter) (df : DF) (ht : IsTable df) (h : NonNeg df) :
    ∃ tm ex, huangAuction S df = .ok (tm, ex) ∧ (tm.trans.map (fun t => t.bid)).Nodup ∧
      ∀ t ∈ tm.trans, t.bid < df.length ∧ 0 ≤ t.quantity ∧ t.quantity ≤ qtyOf df t.bid := by
  rcases huang_direct S ht h with h1 | ⟨tm, ps, pb, q, h1, hO, _⟩
  · exact ⟨_, _, h1, List.nodup_nil, by intro t h; cases h⟩
  · exact ⟨_, _, h1, hO.nodup, fun t h => ⟨(hO.trade t h).id_lt, (hO.trade t h).nonneg,
      (hO.trade t h).le⟩⟩

/-- **C14.** In `Market.run('huang')` every bid trades at most once, transactions are for existing
bids and for at most the bid's quantity. -/
theorem C14_at_most_once (S : Sorter) (smp : Sampler) (df : DF) (ht : IsTable df)
    (h : GroupPos df) :
    ∃ tm ex, runAlgo S smp .huang df = .ok (tm, ex) ∧ (tm.trans.map (fun t => t.bid)).Nodup ∧
      ∀ t ∈ tm.trans, t.bid < df.length ∧ 0 ≤ t.quantity ∧ t.quantity ≤ qtyOf df t.bid := by
  rcases huang_market S smp ht h with ⟨tm, h1, h2⟩ | ⟨tm, ps, pb, q, h1, hO, _⟩
  · exact ⟨_, _, h1, by rw [h2]; exact List.nodup_nil, by intro t h; rw [h2] at h; cases h⟩
  · exact ⟨_, _, h1, hO.nodup, fun t h => ⟨(hO.trade t h).id_lt, (hO.trade t h).nonneg,
      (hO.trade t h).le⟩⟩

/-- `ts` is individually rational with the uniform prices `ps < pb`: each transaction is of an
existing bid, buyers pay `pb`, which is at most what they bid, and sellers receive `ps`, which is at
least what they asked. -/
def Spec.RationalAt (df : DF) (ps pb : ℚ) (ts : List Transaction) : Prop :=
  ps < pb ∧ ∀ t ∈ ts, ∃ r, df[t.bid]? = some r ∧
    ((r.buying = true ∧ t.price = pb ∧ pb ≤ r.price) ∨
     (r.buying = false ∧ t.price = ps ∧ r.price ≤ ps))

theorem HuangOut.rational {df : DF} {ps pb q : ℚ} {ts : List Transaction}
    (h : HuangOut df ps pb q ts) : RationalAt df ps pb ts := by
  refine ⟨h.lt, fun t ht => ?_⟩
  have hT := h.trade t ht
  refine ⟨df[t.bid]'hT.id_lt, List.getElem?_eq_getElem hT.id_lt, ?_⟩
  have hs := List.getElem?_eq_getElem hT.id_lt
  cases hb : (df[t.bid]'hT.id_lt).buying with
  | true =>
    have := hT.buyer (by rw [isBuy_some hs]; exact hb)
    rw [priceOf_some hs] at this
    exact Or.inl ⟨rfl, this⟩
  | false =>
    have := hT.seller (by rw [isSell_some hs, hb]; rfl)
    rw [priceOf_some hs] at this
    exact Or.inr ⟨rfl, this⟩

/-- **C15**, for the auction itself. -/
theorem C15_rational_direct (S : Sorter) (df : DF) (ht : IsTable df) (h : NonNeg df) :
    ∃ tm ex, huangAuction S df = .ok (tm, ex) ∧ (tm.trans = [] ∨
      ∃ ps pb q : ℚ, ex = .huang (ps : Ext) (pb : Ext) q ∧ RationalAt df ps pb tm.trans) := by
  rcases huang_direct S ht h with h1 | ⟨tm, ps, pb, q, h1, hO, _⟩
  · exact ⟨_, _, h1, Or.inl rfl⟩
  · exact ⟨_, _, h1, Or.inr ⟨ps, pb, q, rfl, hO.rational⟩⟩

/-- **C15.** Uniform prices and individual rationality of `Market.run('huang')`, with respect to the
prices actually submitted although the mechanism rounds them to 5 decimals. Whenever prices are
reported, the reported buyers' price is above the reported sellers' price. -/
theorem C15_rational (S : Sorter) (smp : Sampler) (df : DF) (ht : IsTable df)
    (h : GroupPos df) :
    ∃ tm ex, runAlgo S smp .huang df = .ok (tm, ex) ∧ ((tm.trans = [] ∧ ex = .empty) ∨
      ∃ ps pb q : ℚ, ex = .huang (ps : Ext) (pb : Ext) q ∧ RationalAt df ps pb tm.trans) := by
  rcases huang_market S smp ht h with ⟨tm, h1, h2⟩ | ⟨tm, ps, pb, q, h1, hO, _⟩
  · exact ⟨_, _, h1, Or.inl ⟨h2, rfl⟩⟩
  · exact ⟨_, _, h1, Or.inr ⟨ps, pb, q, rfl, hO.rational⟩⟩

theorem HuangOut.paid {df : DF} {ps pb q : ℚ} {ts : List Transaction} (h : HuangOut df ps pb q ts) :
    paid df ts = boughtQty df ts * pb ∧ received df ts = soldQty df ts * ps := by
  unfold Spec.paid Spec.received Spec.boughtQty Spec.soldQty
  constructor
  · rw [← List.sum_map_mul_right]
    congr 1
    apply List.map_congr_left
    intro t ht
    obtain ⟨h1, h2⟩ := List.mem_filter.mp ht
    rw [((h.trade t h1).buyer h2).1]
  · rw [← List.sum_map_mul_right]
    congr 1
    apply List.map_congr_left
    intro t ht
    obtain ⟨h1, h2⟩ := List.mem_filter.mp ht
    rw [((h.trade t h1).seller h2).1]

theorem HuangOut.bought_nonneg {df : DF} {ps pb q : ℚ} {ts : List Transaction}
    (h : HuangOut df ps pb q ts) : 0 ≤ boughtQty df ts := by
  apply List.sum_nonneg
  intro y hy
  obtain ⟨t, ht, rfl⟩ := List.mem_map.mp hy
  exact (h.trade t (List.mem_filter.mp ht).1).nonneg

/-- **C16.** The market maker's profit reported by the statistic after `Market.run('huang')` is the
spread times the volume; in particular it is never negative. -/
theorem C16_market_profit (S : Sorter) (smp : Sampler) (df : DF) (ht : IsTable df)
    (h : GroupPos df) :
    ∃ tm ex, runAlgo S smp .huang df = .ok (tm, ex) ∧
      0 ≤ (calculateProfits df tm.trans none none).1.market ∧
      ((tm.trans = [] ∧ ex = .empty) ∨ ∃ ps pb q : ℚ, ex = .huang (ps : Ext) (pb : Ext) q ∧
        (calculateProfits df tm.trans none none).1.market =
          (pb - ps) * boughtQty df tm.trans) := by
  rcases huang_market S smp ht h with ⟨tm, h1, h2⟩ | ⟨tm, ps, pb, q, h1, hO, _⟩
  · refine ⟨_, _, h1, ?_, Or.inl ⟨h2, rfl⟩⟩
    rw [market_profit ht, h2]
    simp [Spec.paid, Spec.received]
  · have e : (calculateProfits df tm.trans none none).1.market =
          (pb - ps) * boughtQty df tm.trans := by
      rw [market_profit ht, hO.paid.1, hO.paid.2, ← hO.balanced]
      simp; ring
    refine ⟨_, _, h1, ?_, Or.inr ⟨ps, pb, q, rfl, e⟩⟩
    rw [e]
    exact mul_nonneg (by linarith [hO.lt]) hO.bought_nonneg

example : ((runAlgo stableSorter headSampler .huang huangBook).map
    (fun r => (calculateProfits huangBook r.1.trans none none).1.market)) = .ok 2 := by
  decide +kernel

/-- **C17.** When `Market.run('huang')` trades at all, exactly the buyers whose rounded price is
strictly above the buyers' price and the sellers whose rounded price is strictly below the sellers'
price trade. The two prices are rounded prices of submitted bids, so the bids setting them never
trade. -/
theorem C17_price_setters (S : Sorter) (smp : Sampler) (df : DF) (ht : IsTable df)
    (h : GroupPos df) :
    ∃ tm ex, runAlgo S smp .huang df = .ok (tm, ex) ∧ (tm.trans = [] ∨
      ∃ ps pb q : ℚ, ex = .huang (ps : Ext) (pb : Ext) q ∧
        (∃ m ∈ df, m.buying = true ∧ IsRounded 5 m.price pb) ∧
        (∃ m ∈ df, m.buying = false ∧ IsRounded 5 m.price ps) ∧
        ∀ r ∈ df, (∃ t ∈ tm.trans, t.bid = r.label) ↔
          ∃ y, IsRounded 5 r.price y ∧ if r.buying then pb < y else y < ps) := by
  rcases huang_market S smp ht h with ⟨tm, h1, h2⟩ | ⟨tm, ps, pb, q, h1, hO, hmb, hms, hc, hst⟩
  · exact ⟨_, _, h1, Or.inl h2⟩
  · refine ⟨_, _, h1, ?_⟩
    by_cases hne : tm.trans = []
    · exact Or.inl hne
    right
    obtain ⟨mb, b1, b2, b3⟩ := hmb
    obtain ⟨ms, s1, s2, s3⟩ := hms
    refine ⟨ps, pb, q, rfl, ⟨mb, b1, b2, ?_⟩, ⟨ms, s1, s2, ?_⟩, ?_⟩
    · rw [← b3]; exact npRound_isRounded 5 _
    · rw [← s3]; exact npRound_isRounded 5 _
    · intro r hr
      constructor
      · rintro ⟨t, htm, hbid⟩
        refine ⟨npRound 5 r.price, npRound_isRounded 5 _, ?_⟩
        have hs := hst t htm
        have hrl := ht.get_label hr
        rw [← hbid] at hrl
        cases hb : r.buying with
        | true =>
          have := (hs.buyer (by rw [isBuy_some hrl]; exact hb)).2
          rw [priceOf_some hrl] at this
          simpa using this
        | false =>
          have := (hs.seller (by rw [isSell_some hrl, hb]; rfl)).2
          rw [priceOf_some hrl] at this
          simpa using this
      · rintro ⟨y, hy, hcmp⟩
        rw [← isRounded_unique (npRound_isRounded 5 _) hy] at hcmp
        cases hb : r.buying with
        | true => rw [hb] at hcmp; exact (hc hne r hr).1 hb (by simpa using hcmp)
        | false => rw [hb] at hcmp; exact (hc hne r hr).2 hb (by simpa using hcmp)

/-- **C18** (full statement): `quantity_traded` is always the bought quantity. -/
def Spec.ReportsVolume (S : Sorter) (df : DF) : Prop :=
  ∀ tm ps pb q, huangAuction S df = .ok (tm, .huang ps pb q) → q = boughtQty df tm.trans

/-- A book where only the sell side has no intramarginal bid. -/
def reportBook : DF := labelFrom 0
  [⟨1, 5, 0, true, 0, true⟩, ⟨1, 4, 1, true, 0, true⟩, ⟨2, 3, 2, true, 0, true⟩,
   ⟨10, 2, 3, false, 0, true⟩]

/-- **C18 is violated** by the code: on a valid book it reports a traded volume of 2 although there
are no transactions (`huang_auction.py:202-203`: the volume is read off `buying_bids` outside the
`if`). The same happens through `Market.run`. -/
theorem C18_refuted : IsTable reportBook ∧ Pos reportBook ∧
    huangAuction stableSorter reportBook =
      .ok (TransactionManager.init, .huang ((2 : ℚ) : Ext) ((3 : ℚ) : Ext) 2) ∧
    runAlgo stableSorter headSampler .huang reportBook =
      .ok (TransactionManager.init, .huang ((2 : ℚ) : Ext) ((3 : ℚ) : Ext) 2) ∧
    ¬ ReportsVolume stableSorter reportBook := by
  refine ⟨by decide +kernel, by decide +kernel, by decide +kernel, by decide +kernel, ?_⟩
  intro h
  have := h TransactionManager.init ((2 : ℚ) : Ext) ((3 : ℚ) : Ext) 2 (by decide +kernel)
  simp [TransactionManager.init] at this

/-- **C18, partial.** The reported volume is right whenever there is a transaction. Missing: the case
of an empty transaction list, where the claim is false (`C18_refuted`). -/
theorem C18_volume_direct_partial (S : Sorter) (df : DF) (ht : IsTable df) (h : NonNeg df) :
    ∃ tm ex, huangAuction S df = .ok (tm, ex) ∧ ∀ ps pb q, ex = .huang ps pb q → tm.trans ≠ [] →
      q = boughtQty df tm.trans ∧ q = soldQty df tm.trans := by
  rcases huang_direct S ht h with h1 | ⟨tm, ps, pb, q, h1, hO, _⟩
  · exact ⟨_, _, h1, by intro ps pb q he; cases he⟩
  · refine ⟨_, _, h1, ?_⟩
    intro ps' pb' q' he hne
    cases he
    exact ⟨hO.volume hne, (hO.volume hne).trans hO.balanced⟩

/-- **C18, partial**, for `Market.run('huang')`. -/
theorem C18_volume_partial (S : Sorter) (smp : Sampler) (df : DF) (ht : IsTable df)
    (h : GroupPos df) :
    ∃ tm ex, runAlgo S smp .huang df = .ok (tm, ex) ∧ ∀ ps pb q, ex = .huang ps pb q →
      tm.trans ≠ [] → q = boughtQty df tm.trans ∧ q = soldQty df tm.trans := by
  rcases huang_market S smp ht h with ⟨tm, h1, h2⟩ | ⟨tm, ps, pb, q, h1, hO, _⟩
  · exact ⟨_, _, h1, by intro ps pb q he; cases he⟩
  · refine ⟨_, _, h1, ?_⟩
    intro ps' pb' q' he hne
    cases he
    exact ⟨hO.volume hne, (hO.volume hne).trans hO.balanced⟩

end PyMarket
