import Verif.Model.Mechanism

/-! # Specification vocabulary: the book without the bids that lack a price -/

set_option autoImplicit false

namespace PyMarket.Spec

/-- The bids that come with a price, and their ids. -/
def pricedBids (price : ℕ → Option ℚ) (df : DF) : List (Bid × ℕ) :=
  df.filterMap (fun r => (price r.label).map (fun p => ({ r.toBid with price := p }, r.label)))

/-- The book in which only these bids were submitted. -/
def bookWithout (price : ℕ → Option ℚ) (df : DF) : DF := labelFrom 0 ((pricedBids price df).map Prod.fst)

/-- The id in `df` of the bid with id `k` in `bookWithout price df`. -/
def oldId (price : ℕ → Option ℚ) (df : DF) (k : ℕ) : ℕ :=
  (((pricedBids price df)[k]?).map Prod.snd).getD df.length

/-- The outcome with other ids. -/
def renameOutcome (f : ℕ → ℕ) (o : TransactionManager × Extra) : List Transaction × Extra :=
  (o.1.trans.map (fun t => { t with bid := f t.bid }), o.2)

/-- The algorithm does not look at the user ids. -/
def UserBlind (algo : Algo) : Prop :=
  ∀ df : DF, algo (df.map (fun r => { r with user := 0 })) = algo df

end PyMarket.Spec
