import Verif.Lemmas.Remainder
import Verif.Props.P2P
import Verif.Props.Uniform
import Verif.Props.Huang
import Verif.Props.Muda

/-! # C133: running a mechanism again on what is left -/

set_option autoImplicit false

namespace PyMarket

open Spec

/-- **C133, peer to peer.** Whatever the random choices of the two runs, the second run, on what the first one left,
trades nothing. -/
theorem C133_p2p (c c' : ℚ) (choice choice' : ℕ → ℕ) (df : DF) (ht : IsTable df) (hq : ∀ r ∈ df, 0 ≤ r.quantity) :
    ∃ tm ex tm' ex', p2pRandom c choice df = .ok (tm, ex) ∧
      p2pRandom c' choice' (leftBook df tm.trans) = .ok (tm', ex') ∧ ∀ t ∈ tm'.trans, t.quantity = 0 := by
  obtain ⟨tm, R, h1, _, h2⟩ := C22_complete c choice df ht hq
  obtain ⟨tm', R', h3, h4⟩ := C21_price_rule c' choice' (leftBook df tm.trans) (leftBook_table _ _)
  refine ⟨tm, _, tm', _, h1, h3, ?_⟩
  intro t hmem
  obtain ⟨b, s, _, hp, _, _, h5⟩ := h4 t hmem
  by_contra hne
  have hle := (h5 hne).1
  obtain ⟨hb, hs⟩ := hp
  have get : ∀ i, isBuy (leftBook df tm.trans) i = true ∨ isSell (leftBook df tm.trans) i = true →
      ∃ r ∈ df, tradedBy tm.trans r.label < r.quantity ∧ isBuy (leftBook df tm.trans) i = r.buying ∧
        isSell (leftBook df tm.trans) i = (!r.buying) ∧ priceOf (leftBook df tm.trans) i = r.price := by
    intro i hi
    cases hr : (leftBook df tm.trans)[i]? with
    | none => simp [isBuy, isSell, hr] at hi
    | some r' =>
      obtain ⟨r, r1, r2, r3, r4, _⟩ := leftBook_mem (List.mem_of_getElem? hr)
      refine ⟨r, r1, by unfold leftOf at r2; linarith, ?_, ?_, ?_⟩ <;> simp [isBuy, isSell, priceOf, hr, r3, r4]
  obtain ⟨rb, b1, b2, b3, _, b5⟩ := get b (.inl hb)
  obtain ⟨rs, s1, s2, _, s4, s5⟩ := get s (.inr hs)
  rw [b5, s5, ← ht.price_eq b1, ← ht.price_eq s1] at hle
  rcases h2 rb.label rs.label ⟨by rw [ht.isBuy_eq b1, ← b3, hb], by rw [ht.isSell_eq s1, ← s4, hs]⟩ hle with h' | h'
  · rw [ht.qty_eq b1] at h'; exact b2.ne h'
  · rw [ht.qty_eq s1] at h'; exact s2.ne h'

/-- **C133, uniform price.** The second run raises `TypeError`: what is left has no crossing. -/
theorem C133_uniform (S S' : Sorter) (df : DF) (ht : IsTable df) (h : NonNeg df) (tm : TransactionManager)
    (x : Option Ext) (v : Val) (hrun : uniformPrice S df = .ok (tm, x, v)) :
    uniformPrice S' (leftBook df tm.trans) = .error .typeError := by
  obtain ⟨c, ⟨h1, h2⟩, _, _⟩ := C96_some_price_serves S df ht h tm x v hrun
  have hpos := leftBook_pos (ts := tm.trans) (fun r hr => (h r hr).2)
  cases hr : uniformPrice S' (leftBook df tm.trans) with
  | error e => rw [(C94_returns S' _ hpos.nonNeg).2 e hr]
  | ok o =>
    exfalso
    obtain ⟨tm', x', v'⟩ := o
    obtain ⟨q, p, mb, ms, _, _, u⟩ := uniform_sides S' hpos.nonNeg hr
    have hlt := u.cross.at_x
    rw [u.supply, u.demand] at hlt
    have hlt := WithTop.coe_lt_coe.mp hlt
    have hb := mem_buys.mp (mem_sortDesc.mp (List.mem_of_getElem? u.buy_get))
    have hs := mem_sells.mp (mem_sortAsc.mp (List.mem_of_getElem? u.sell_get))
    obtain ⟨rb, b1, b2, b3, b4, _⟩ := leftBook_mem hb.1
    obtain ⟨rs, s1, s2, s3, s4, _⟩ := leftBook_mem hs.1
    have hbc : rb.price ≤ c := by
      by_contra hn
      have := h1 rb.label (by rw [ht.isBuy_eq b1, ← b3, hb.2]) (by rw [ht.price_eq b1]; exact not_le.mp hn)
      unfold leftOf at b2
      rw [this, ht.qty_eq b1, sub_self] at b2
      exact lt_irrefl _ b2
    have hsc : c ≤ rs.price := by
      by_contra hn
      have := h2 rs.label (by rw [ht.isSell_eq s1, ← s3, hs.2]; rfl) (by rw [ht.price_eq s1]; exact not_le.mp hn)
      unfold leftOf at s2
      rw [this, ht.qty_eq s1, sub_self] at s2
      exact lt_irrefl _ s2
    rw [b4, s4] at hlt
    linarith

/-- **C133, Huang's auction**, when no two bids of a side have the same price: the second run trades nothing, though
it reports the same two prices again: the last pair, which could trade, is left out again. -/
theorem C133_huang_partial (S S' : Sorter) (df : DF) (ht : IsTable df) (h : Pos df) (hd : DistinctPrices df)
    (tm : TransactionManager) (ex : Extra) (hrun : huangAuction S df = .ok (tm, ex)) :
    ∃ tm' ex', huangAuction S' (leftBook df tm.trans) = .ok (tm', ex') ∧ tm'.trans = [] ∧
      (ex = .empty → ex' = .empty) ∧ ∀ ps pb q, ex = .huang ps pb q → ∃ q', ex' = .huang ps pb q' := by
  have hpos := leftBook_pos (ts := tm.trans) (fun r hr => (h r hr).2)
  have hn : df.Nodup := List.Nodup.of_map _ ht.nodup
  obtain ⟨hi, h1, h2⟩ := left_idle ht h hd hrun
  obtain ⟨tm', ex', e1, e2⟩ := idle_run S' hpos (leftBook_nodup (fun b => b) (distinct_buys hn hd))
    (leftBook_nodup (fun b => !b) (distinct_sells hn hd)) hi
  have hx := C119_huang S' _ hpos tm' ex' e1
  refine ⟨tm', ex', e1, e2, fun h0 => (hx.2 (h1 h0)).1, ?_⟩
  intro ps pb q h0
  obtain ⟨x, b, a, m, rfl, rfl⟩ := h2 ps pb q h0
  exact hx.1 x b a m

/-! ## Where it fails -/

/-- Buyers 2 @ 10, 1 @ 9, 2 @ 8; sellers 3 @ 2, 1 @ 3, 1 @ 1. -/
def againBook : DF := labelFrom 0 [⟨2, 10, 0, true, 0, true⟩, ⟨3, 2, 1, false, 0, true⟩, ⟨1, 9, 2, true, 0, true⟩,
  ⟨1, 3, 3, false, 0, true⟩, ⟨2, 8, 4, true, 0, true⟩, ⟨1, 1, 5, false, 0, true⟩]

/-- Bids 2, 3 and 4 are in one half. -/
def againCoin (i : ℕ) : Bool := decide (i = 2 ∨ i = 3 ∨ i = 4)

/-- **C133 refuted for MUDA.** The second run trades again, as the halves are other ones. -/
theorem C133_muda_refuted : IsTable againBook ∧ Pos againBook ∧ DistinctPrices againBook ∧
    ∃ tm ex tm' ex', muda stableSorter againCoin againBook = .ok (tm, ex) ∧
      muda stableSorter againCoin (leftBook againBook tm.trans) = .ok (tm', ex') ∧
      boughtQty againBook tm.trans = 2 ∧ boughtQty (leftBook againBook tm.trans) tm'.trans = 1 := by
  refine ⟨by decide +kernel, by decide +kernel, by unfold DistinctPrices; decide +kernel, ?_⟩
  have h : ((muda stableSorter againCoin againBook).toOption.bind (fun o =>
      (muda stableSorter againCoin (leftBook againBook o.1.trans)).toOption.map (fun o' =>
        (boughtQty againBook o.1.trans, boughtQty (leftBook againBook o.1.trans) o'.1.trans)))) =
      some (2, 1) := by decide +kernel
  rw [Option.bind_eq_some_iff] at h
  obtain ⟨⟨tm, ex⟩, h1, h2⟩ := h
  rw [Option.map_eq_some_iff] at h2
  obtain ⟨⟨tm', ex'⟩, h3, h4⟩ := h2
  refine ⟨tm, ex, tm', ex', ?_, ?_, (Prod.mk.inj h4).1, (Prod.mk.inj h4).2⟩
  · cases hm : muda stableSorter againCoin againBook with
    | error e => rw [hm] at h1; cases h1
    | ok o => rw [hm] at h1; cases h1; rfl
  · cases hm : muda stableSorter againCoin (leftBook againBook tm.trans) with
    | error e => simp only at h3; rw [hm] at h3; cases h3
    | ok o => simp only at h3; rw [hm] at h3; cases h3; rfl

/-- Sorts in increasing order, and orders the equal prices of `[2, 2]` from the back. -/
def pairSorter : Sorter where
  asc l := if l = [2, 2] then [1, 0] else stableSorter.asc l
  desc := stableSorter.desc
  asc_perm l := by
    split
    · rename_i h; subst h; decide
    · exact stableSorter.asc_perm l
  desc_perm := stableSorter.desc_perm
  asc_sorted l := by
    split
    · rename_i h; subst h; decide +kernel
    · exact stableSorter.asc_sorted l
  desc_sorted := stableSorter.desc_sorted

/-- Buyers 2 @ 10, 1 @ 9; sellers 1 @ 1, 3 @ 2, 1 @ 2. -/
def tiedRest : DF := labelFrom 0 [⟨2, 10, 0, true, 0, true⟩, ⟨1, 9, 1, true, 0, true⟩, ⟨1, 1, 2, false, 0, true⟩,
  ⟨3, 2, 3, false, 0, true⟩, ⟨1, 2, 4, false, 0, true⟩]

/-- **C133 refuted for Huang's auction with equal prices**, for some sorts: `sort_values` without `kind` promises no
order of equal prices. If the two sellers @ 2 change places in the second run, it trades again. -/
theorem C133_huang_refuted : IsTable tiedRest ∧ Pos tiedRest ∧
    ∃ tm ex tm' ex', huangAuction pairSorter tiedRest = .ok (tm, ex) ∧
      huangAuction pairSorter (leftBook tiedRest tm.trans) = .ok (tm', ex') ∧
      boughtQty tiedRest tm.trans = 1 ∧ boughtQty (leftBook tiedRest tm.trans) tm'.trans = 1 := by
  refine ⟨by decide +kernel, by decide +kernel, ?_⟩
  have h : ((huangAuction pairSorter tiedRest).toOption.bind (fun o =>
      (huangAuction pairSorter (leftBook tiedRest o.1.trans)).toOption.map (fun o' =>
        (boughtQty tiedRest o.1.trans, boughtQty (leftBook tiedRest o.1.trans) o'.1.trans)))) =
      some (1, 1) := by decide +kernel
  rw [Option.bind_eq_some_iff] at h
  obtain ⟨⟨tm, ex⟩, h1, h2⟩ := h
  rw [Option.map_eq_some_iff] at h2
  obtain ⟨⟨tm', ex'⟩, h3, h4⟩ := h2
  refine ⟨tm, ex, tm', ex', ?_, ?_, (Prod.mk.inj h4).1, (Prod.mk.inj h4).2⟩
  · cases hm : huangAuction pairSorter tiedRest with
    | error e => rw [hm] at h1; cases h1
    | ok o => rw [hm] at h1; cases h1; rfl
  · cases hm : huangAuction pairSorter (leftBook tiedRest tm.trans) with
    | error e => simp only at h3; rw [hm] at h3; cases h3
    | ok o => simp only at h3; rw [hm] at h3; cases h3; rfl

/-! ## The hypotheses are met -/

/-- Buyers 2 @ 10, 2 @ 9, 2 @ 4; sellers 3 @ 2, 2 @ 3, 1 @ 7. -/
def restBook : DF := labelFrom 0 [⟨2, 10, 0, true, 0, true⟩, ⟨2, 9, 1, true, 0, true⟩, ⟨2, 4, 2, true, 0, true⟩,
  ⟨3, 2, 3, false, 0, true⟩, ⟨2, 3, 4, false, 0, true⟩, ⟨1, 7, 5, false, 0, true⟩]

/-- Peer to peer leaves a buyer 1 @ 4 and a seller 1 @ 7. -/
example : IsTable restBook ∧ (∀ r ∈ restBook, 0 ≤ r.quantity) ∧
    (p2pRandom (1 / 2) (fun _ => 0) restBook).toOption.map (fun o => (boughtQty restBook o.1.trans,
      (leftBook restBook o.1.trans).map (fun r => (r.quantity, r.price)))) = some (5, [(1, 4), (1, 7)]) := by
  decide +kernel

/-- So does the uniform price. -/
example : IsTable restBook ∧ NonNeg restBook ∧
    (uniformPrice stableSorter restBook).toOption.map (fun o => (boughtQty restBook o.1.trans,
      (leftBook restBook o.1.trans).map (fun r => (r.quantity, r.price)))) = some (5, [(1, 4), (1, 7)]) := by
  decide +kernel

/-- Huang's auction leaves two units that could be traded, and does not trade them in the second run. -/
example : IsTable restBook ∧ Pos restBook ∧ DistinctPrices restBook ∧
    (huangAuction stableSorter restBook).toOption.map (fun o => (boughtQty restBook o.1.trans,
      (leftBook restBook o.1.trans).map (fun r => (r.quantity, r.price)))) =
        some (3, [(1 / 2, 10), (1 / 2, 9), (2, 4), (2, 3), (1, 7)]) :=
  ⟨by decide +kernel, by decide +kernel, by unfold DistinctPrices; decide +kernel, by decide +kernel⟩

end PyMarket
