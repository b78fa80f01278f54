import Verif.Spec.Outcome

/-! # Specification vocabulary for a market with a single price -/

set_option autoImplicit false

namespace PyMarket.Spec

/-- What a market that trades `q` at the single price `p` should look like. -/
structure UniformOutcome (df : DF) (ts : List Transaction) (q p : ℚ) : Prop where
  trans : ∀ t ∈ ts, t.bid < df.length ∧ 0 ≤ t.quantity ∧ t.quantity ≤ qtyOf df t.bid ∧ t.price = p ∧
    t.source = -1 ∧ t.active = false
  once : (ts.map (fun t => t.bid)).Nodup
  rational : ∀ t ∈ ts, (isBuy df t.bid = true → p ≤ priceOf df t.bid) ∧
    (isSell df t.bid = true → priceOf df t.bid ≤ p)
  bought : boughtQty df ts = q
  sold : soldQty df ts = q
  paid : paid df ts = p * q
  received : received df ts = p * q
  priority_buy : ∀ i j, isBuy df i = true → isBuy df j = true → priceOf df j < priceOf df i →
    0 < tradedBy ts j → tradedBy ts i = qtyOf df i
  priority_sell : ∀ i j, isSell df i = true → isSell df j = true → priceOf df i < priceOf df j →
    0 < tradedBy ts j → tradedBy ts i = qtyOf df i

end PyMarket.Spec
