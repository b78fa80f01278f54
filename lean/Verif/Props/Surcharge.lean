import Verif.Lemmas.Surcharge
import Verif.Model.Uniform

/-! # C126: a common surcharge on all prices

When the same amount is added to all prices of a book, the same bids trade the same quantities, every price moves by
that amount, and the fees of MUDA do not change. -/

set_option autoImplicit false

namespace PyMarket

open Spec

/-- **C126, Huang's auction.** -/
theorem C126_huang (S : Sorter) (hS : ComparisonSort S) (b : ℚ) (df : DF) (h : Surchargeable b df) :
    huangAuction S (surcharge b df) = plusResult b (huangAuction S df) := huangAuction_plus hS h

/-- **C126, MUDA.** -/
theorem C126_muda (S : Sorter) (hS : ComparisonSort S) (coin : ℕ → Bool) (b : ℚ) (df : DF)
    (h : Surchargeable b df) : muda S coin (surcharge b df) = plusResult b (muda S coin df) :=
  muda_plus hS coin h

/-- **C126, Huang's auction and MUDA as the classes run them.** With merging, when the prices and the surcharge have
at most five decimals. -/
theorem C126_class_partial (S : Sorter) (hS : ComparisonSort S) (smp : Sampler) (coin : ℕ → Bool) (b : ℚ) (df : DF)
    (ht : IsTable df) (h : Surchargeable b df) (h5 : FiveDecimals b) (h5' : ∀ r ∈ df, FiveDecimals r.price) :
    runAlgo S smp .huang (surcharge b df) = plusResult b (runAlgo S smp .huang df) ∧
      runAlgo S smp (.muda true coin) (surcharge b df) = plusResult b (runAlgo S smp (.muda true coin) df) ∧
      runAlgo S smp (.muda false coin) (surcharge b df) = plusResult b (runAlgo S smp (.muda false coin) df) := by
  refine ⟨mechanism_plus smp ht (fun _ hd => huangAuction_plus hS hd) h h5 h5',
    mechanism_plus smp ht (fun _ hd => muda_plus hS coin hd) h h5 h5', ?_⟩
  exact mechRun_plus (muda_plus hS coin h)

/-- **C126, uniform price.** The log, the quantity and the price. -/
theorem C126_uniform (S : Sorter) (hS : ComparisonSort S) (b : ℚ) (df : DF) (h : Surchargeable b df) :
    uniformPrice S (surcharge b df) =
      (uniformPrice S df).map (fun r => (repriceLog (· + b) r.1, r.2.1, plusVal b r.2.2)) := by
  have hlong : ∀ (rows : DF) (p t a : ℚ), uniformLong (p + b) t a (rows.map (reRow (· + b))) =
      (uniformLong p t a rows).map (repriceTrans (· + b)) := by
    intro rows p t
    induction rows with
    | nil => intro a; rfl
    | cons r rows ih =>
      intro a
      simp only [List.map_cons, uniformLong]
      rw [← ih]
      rfl
  have hshort : ∀ (rows : DF) (p : ℚ), uniformShort (p + b) (rows.map (reRow (· + b))) =
      (uniformShort p rows).map (repriceTrans (· + b)) := by
    intro rows p
    unfold uniformShort
    rw [List.map_map, List.map_map]
    rfl
  obtain ⟨i, j, e1, e2, hx, hf, hg, hv, hcase⟩ := intersect_plus hS h
  unfold uniformPrice
  simp only [e1, e2, bind, Except.bind, hx, hf, hg, hv]
  rcases hcase with ⟨p, hp⟩ | ⟨_, _, hf0, _⟩
  · rw [hp]
    cases i.f with
    | none => rfl
    | some x =>
      cases i.g with
      | none => rfl
      | some y =>
        have hr : (plusVal b (.fin p)).toRat = (Val.fin p).toRat + b := rfl
        rw [surcharge_eq]
        simp only [buys_re, sells_re, sortDesc_re hS (strictMono_plus b), sortAsc_re hS (strictMono_plus b),
          ← List.map_take, qsum_re, hr]
        split <;>
        simp only [Except.map, qsum_re, hlong, hshort, ← List.map_append, init_addAll_re]
  · rw [hf0]
    rfl

/-- **C126, peer to peer trading.** Negative surcharges are allowed, too: only the prices before must be positive. -/
theorem C126_p2p (k : ℚ) (hk0 : 0 ≤ k) (choice : ℕ → ℕ) (b : ℚ) (df : DF) (ht : IsTable df)
    (h : ∀ r ∈ df, 0 < r.price) :
    p2pRandom k choice (surcharge b df) =
      (p2pRandom k choice df).map (fun r => ({ r.1 with trans := r.1.trans.map (plusMeeting b) }, r.2)) :=
  p2pRandom_plus hk0 choice ht h

/-! ## The hypotheses can be met -/

/-- Three buyers and three sellers. -/
def plusBook : DF := labelFrom 0
  [⟨1, 9, 0, true, 0, true⟩, ⟨2, 8, 1, true, 0, true⟩, ⟨1, 3, 2, true, 0, true⟩,
   ⟨2, 2, 3, false, 0, true⟩, ⟨1, 4, 4, false, 0, true⟩, ⟨2, 7, 5, false, 0, true⟩]

/-- Huang's auction with a surcharge of 10. -/
example : Surchargeable 10 plusBook ∧
    (huangAuction stableSorter plusBook).toOption.map (fun r => r.1.trans) =
      some [⟨3, 1, 4, -1, false⟩, ⟨0, 1, 8, -1, false⟩] ∧
    (huangAuction stableSorter (surcharge 10 plusBook)).toOption.map (fun r => r.1.trans) =
      some [⟨3, 1, 14, -1, false⟩, ⟨0, 1, 18, -1, false⟩] :=
  ⟨by decide +kernel, by decide +kernel, by decide +kernel⟩

/-- MUDA with a discount of 1: the fee of the seller 3 does not change. -/
example : Surchargeable (-1) plusBook ∧
    muda stableSorter (fun n => decide (n ∈ [0, 3, 4])) plusBook = .ok (⟨2, [⟨0, 1, 15 / 2, -1, false⟩,
      ⟨3, 1, 15 / 2, -1, false⟩]⟩, .muda [0, 3, 4] [1, 2, 5] (.fin 2) (.fin (15 / 2)) [0, 0, 0, 7 / 2, 0, 0]) ∧
    muda stableSorter (fun n => decide (n ∈ [0, 3, 4])) (surcharge (-1) plusBook) =
      .ok (⟨2, [⟨0, 1, 13 / 2, -1, false⟩,
      ⟨3, 1, 13 / 2, -1, false⟩]⟩, .muda [0, 3, 4] [1, 2, 5] (.fin 1) (.fin (13 / 2)) [0, 0, 0, 7 / 2, 0, 0]) :=
  ⟨by decide +kernel, by decide +kernel, by decide +kernel⟩

example : IsTable plusBook ∧ FiveDecimals 10 ∧ ∀ r ∈ plusBook, FiveDecimals r.price := by
  refine ⟨by decide +kernel, ⟨1000000, by norm_num⟩, ?_⟩
  intro r hr
  have : r.price ∈ [(9 : ℚ), 8, 3, 2, 4, 7] := List.mem_map_of_mem (f := fun r : Row => r.price) hr
  unfold FiveDecimals
  simp only [List.mem_cons, List.not_mem_nil, or_false] at this
  rcases this with h | h | h | h | h | h <;> rw [h]
  · exact ⟨900000, by norm_num⟩
  · exact ⟨800000, by norm_num⟩
  · exact ⟨300000, by norm_num⟩
  · exact ⟨200000, by norm_num⟩
  · exact ⟨400000, by norm_num⟩
  · exact ⟨700000, by norm_num⟩

/-- The uniform price and peer to peer trading with a surcharge of 10. -/
example : (uniformPrice stableSorter plusBook).toOption.map (fun r => r.2.2) = some (.fin 6) ∧
    (uniformPrice stableSorter (surcharge 10 plusBook)).toOption.map (fun r => r.2.2) = some (.fin 16) ∧
    (p2pRandom (1 / 2) (fun _ => 0) plusBook).toOption.map (fun r => r.1.trans.take 2) =
      some [⟨0, 1, 11 / 2, 3, false⟩, ⟨3, 1, 11 / 2, 0, true⟩] ∧
    (p2pRandom (1 / 2) (fun _ => 0) (surcharge 10 plusBook)).toOption.map (fun r => r.1.trans.take 2) =
      some [⟨0, 1, 31 / 2, 3, false⟩, ⟨3, 1, 31 / 2, 0, true⟩] :=
  ⟨by decide +kernel, by decide +kernel, by decide +kernel, by decide +kernel⟩

/-! ## Where the claim fails -/

/-- Two sellers who ask nothing. -/
def freeBook : DF := labelFrom 0
  [⟨1, 5, 0, true, 0, true⟩, ⟨1, 4, 1, true, 0, true⟩, ⟨1, 0, 2, false, 0, true⟩, ⟨2, 0, 3, false, 0, true⟩]

/-- **C126 refuted for prices of 0.** The demand curve ends at price 0, so the curves do not cross and nothing is
traded; with a surcharge of 1 on all prices they cross, and Huang's auction and the uniform price trade. -/
theorem C126_zero_refuted : NonNeg freeBook ∧
    (huangAuction stableSorter freeBook).toOption.map (fun r => r.1.trans) = some [] ∧
    (huangAuction stableSorter (surcharge 1 freeBook)).toOption.map (fun r => r.1.trans.map withoutPrice) =
      some [(2, 1, -1, false), (0, 1, -1, false)] ∧
    uniformPrice stableSorter freeBook = .error .typeError ∧
    (uniformPrice stableSorter (surcharge 1 freeBook)).toOption.map (fun r => r.1.trans.map withoutPrice) =
      some [(0, 1, -1, false), (1, 1, -1, false), (2, 1, -1, false), (3, 1, -1, false)] :=
  ⟨by decide +kernel, by decide +kernel, by decide +kernel, by decide +kernel, by decide +kernel⟩

/-- Two buyers whose prices are equal when rounded. -/
def closeBook : DF := labelFrom 0
  [⟨1, 5 + 4 / 1000000, 0, true, 0, true⟩, ⟨1, 5, 1, true, 0, true⟩, ⟨1, 1, 2, false, 0, true⟩,
   ⟨1, 2, 3, false, 0, true⟩]

/-- **C126 refuted for the class.** A surcharge of two millionths separates the rounded prices of the two buyers;
then one of them trades, and before nobody did. -/
theorem C126_class_refuted : Surchargeable (2 / 1000000) closeBook ∧
    (runAlgo stableSorter headSampler .huang closeBook).toOption.map (fun r => r.1.trans.map withoutPrice) =
      some [] ∧
    (runAlgo stableSorter headSampler .huang (surcharge (2 / 1000000) closeBook)).toOption.map
      (fun r => r.1.trans.map withoutPrice) = some [(2, 1, -1, false), (0, 1, -1, false)] :=
  ⟨by decide +kernel, by decide +kernel, by decide +kernel⟩

end PyMarket
