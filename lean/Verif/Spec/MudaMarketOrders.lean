import Verif.Spec.MarketOrders
import Verif.Spec.Outcome
import Verif.Model.MudaMarketOrders

/-! # Specification vocabulary: MUDA with bids at any price -/

set_option autoImplicit false

namespace PyMarket.Spec

/-- The fee, given the fees with two different prices standing for infinity: infinite when it depends on the stand-in. -/
def feeFor (x y : ℚ) : Val := if x = y then .fin x else .inf

/-- The same transaction, with a finite price. -/
def finTrans (t : Transaction) : TransM := ⟨t.bid, t.quantity, .fin t.price, t.source, t.active⟩

/-- The outcome of MUDA, read off the outcomes with two different prices standing for infinity: the first one, with
infinity for the fees that depend on the stand-in. -/
def mudaFor : Except PyErr (TransactionManager × Extra) → Except PyErr (TransactionManager × Extra) →
    Except PyErr MudaOutM
  | .ok (tm, .muda l r pl pr fees), .ok (_, .muda _ _ _ _ fees') =>
      .ok ⟨tm.trans.map finTrans, l, r, pl, pr, List.zipWith feeFor fees fees'⟩
  | .error e, _ => .error e
  | _, _ => .error .typeError

/-- The bids whose coin shows heads. -/
def leftRows (coin : ℕ → Bool) (df : DF) : DF := df.filter (fun r => coin r.label)

/-- The bids whose coin shows tails. -/
def rightRows (coin : ℕ → Bool) (df : DF) : DF := df.filter (fun r => !coin r.label)

/-- Total quantity of the transactions of buying bids. -/
def boughtM (df : DF) (ts : List TransM) : ℚ := ((ts.filter (fun t => isBuy df t.bid)).map (fun t => t.quantity)).sum

/-- Total quantity of the transactions of selling bids. -/
def soldM (df : DF) (ts : List TransM) : ℚ := ((ts.filter (fun t => isSell df t.bid)).map (fun t => t.quantity)).sum

/-- What trading at an infinite price in the half `H` means. -/
def InfiniteTrade (prc : ℕ → Ext) (df H : DF) (ts : List TransM) : Prop :=
  boughtM df ts = min (marketQty prc H) (offeredQty H) ∧ soldM df ts = min (marketQty prc H) (offeredQty H) ∧
    ∀ t ∈ ts, t.price = .inf ∧ (isBuy df t.bid = true → prc t.bid = ⊤)

end PyMarket.Spec
