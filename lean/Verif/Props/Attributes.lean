import Verif.Lemmas.Erase
import Verif.Lemmas.Table
import Verif.Spec.Basic

/-! # C46: `time` and `divisible` never influence an outcome -/

set_option autoImplicit false

namespace PyMarket

/-- Two bids agree on everything but `time` and `divisible`. -/
def Spec.SameTerms (r r' : Row) : Prop :=
  r.quantity = r'.quantity ∧ r.price = r'.price ∧ r.user = r'.user ∧ r.buying = r'.buying ∧
    r.label = r'.label

instance (r r' : Row) : Decidable (Spec.SameTerms r r') :=
  inferInstanceAs (Decidable (_ ∧ _ ∧ _ ∧ _ ∧ _))

open Spec

theorem erase_eq_of_sameTerms {r r' : Row} (h : SameTerms r r') : erase r = erase r' := by
  obtain ⟨⟨q, p, u, b, t, d⟩, l⟩ := r
  obtain ⟨⟨q', p', u', b', t', d'⟩, l'⟩ := r'
  obtain ⟨h1, h2, h3, h4, h5⟩ := h
  simp only at h1 h2 h3 h4 h5
  subst h1 h2 h3 h4 h5
  rfl

theorem map_erase_eq {df df' : DF} (h : List.Forall₂ SameTerms df df') :
    df.map erase = df'.map erase := by
  induction h with
  | nil => rfl
  | cons h _ ih => rw [List.map_cons, List.map_cons, ih, erase_eq_of_sameTerms h]

/-- **C46.** `Market.run` gives the same transactions and the same extra information, and raises the
same exceptions, when the `time` and `divisible` attributes of the bids are replaced by arbitrary
other values, whatever members of a merged group they are sampled from. -/
theorem C46_attributes (S : Sorter) (smp smp' : Sampler) (call : AlgoCall) (df df' : DF)
    (h : List.Forall₂ SameTerms df df') :
    runAlgo S smp call df = runAlgo S smp' call df' := by
  have he := map_erase_eq h
  have key : ∀ (merge : Bool) (algo : Algo), (∀ df, algo (df.map erase) = algo df) →
      mechanism smp merge algo df = mechanism smp' merge algo df' := by
    intro merge algo ha
    rw [← mechanism_erase smp smp merge algo ha df, he, mechanism_erase smp smp' merge algo ha df']
  cases call with
  | huang => exact key _ _ (erase_keeps.huangAuction_map S)
  | muda merge coin => exact key _ _ (muda_erase S coin)
  | p2p merge pCoef choice => exact key _ _ (erase_keeps.p2pRandom_map pCoef choice)
  | other name => rfl

/-- Indivisible, late bids … -/
def indivisibleBook : DF := labelFrom 0
  [⟨2, 10, 0, true, 3, false⟩, ⟨2, 10, 1, true, 1, false⟩, ⟨2, 6, 2, true, 2, false⟩,
   ⟨1, 2, 3, false, 9, false⟩, ⟨4, 5, 4, false, 7, false⟩]

/-- … and the same bids with the default attributes. -/
def defaultBook : DF := labelFrom 0
  [⟨2, 10, 0, true, 0, true⟩, ⟨2, 10, 1, true, 0, true⟩, ⟨2, 6, 2, true, 0, true⟩,
   ⟨1, 2, 3, false, 0, true⟩, ⟨4, 5, 4, false, 0, true⟩]

example : List.Forall₂ SameTerms indivisibleBook defaultBook := by decide +kernel

/-- The indivisible bids 0 and 1 are served partially. -/
example : ((runAlgo stableSorter headSampler .huang indivisibleBook).toOption.map
    (fun r => r.1.trans.map (fun t => (t.bid, t.quantity)))) =
      some [(3, 1), (0, 1/2), (1, 1/2)] := by decide +kernel


end PyMarket
