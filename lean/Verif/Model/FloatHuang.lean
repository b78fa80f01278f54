import Verif.Model.Float
import Verif.Model.Huang

/-! # `demand_curves.py` and `huang_auction.py` in floating point arithmetic

The definitions of `Verif/Model/Curves.lean` and `Verif/Model/Huang.lean` with every arithmetic
operation rounded. Comparisons, `min`, `max`, `sorted` and the lookup of prices are exact. -/

set_option autoImplicit false

namespace PyMarket

/-- `demand_curve_from_bids` (`pymarket/bids/demand_curves.py:6-76`). -/
def demandCurveF (F : Arith) (S : Sorter) (bids : DF) : Curve :=
  let buying := sortDesc S (buys bids)
  let acum := cumsumF F (buying.map (fun r => r.quantity))
  (List.zip acum (buying.map (fun r => r.price))).map (fun p => ((p.1 : Ext), (p.2 : Ext))) ++
    [((⊤ : Ext), ((0 : ℚ) : Ext))]

/-- `supply_curve_from_bids` (`pymarket/bids/demand_curves.py:79-150`). -/
def supplyCurveF (F : Arith) (S : Sorter) (bids : DF) : Curve :=
  let selling := sortAsc S (sells bids)
  let acum := cumsumF F (selling.map (fun r => r.quantity))
  (List.zip acum (selling.map (fun r => r.price))).map (fun p => ((p.1 : Ext), (p.2 : Ext))) ++
    [((⊤ : Ext), (⊤ : Ext))]

/-- Rounding of a result that may be infinite or NaN. -/
def Val.round (F : Arith) : Val → Val
  | .fin q => .fin (F.rnd q)
  | v => v

/-- `g_val * k + (1 - k) * f_val` (`pymarket/bids/demand_curves.py:292`). -/
def kMixF (F : Arith) (k : ℚ) (gVal fVal : Ext) : Val :=
  (((Val.scale k gVal).round F).add ((Val.scale (F.rnd (1 - k)) fVal).round F)).round F

/-- `intersect_stepwise` (`pymarket/bids/demand_curves.py:199-294`); only `v` involves arithmetic. -/
def intersectStepwiseF (F : Arith) (f g : Curve) (k : ℚ := 1 / 2) : Except PyErr Intersection := do
  let mf ← maxX f
  let mg ← maxX g
  let xs := gridXs f g (min mf mg)
  let xAst ← crossLoop f g xs none
  match xAst with
  | some x =>
      let fAst := argmaxTrue (f.map (fun s => decide (x ≤ s.1)))
      let gAst := argmaxTrue (g.map (fun s => decide (x ≤ s.1)))
      match g[gAst]?, f[fAst]? with
      | some gRow, some fRow =>
          let both := decide (x ∈ f.map Prod.fst) && decide (x ∈ g.map Prod.fst)
          let v := if !both then
              (if x ∈ f.map Prod.fst then Val.ofExt gRow.2 else Val.ofExt fRow.2)
            else kMixF F k gRow.2 fRow.2
          .ok { x := some x, f := some fAst, g := some gAst, v := v }
      | _, _ => .error .indexError
  | none =>
      match xs.getLast? with
      | none => .error .indexError
      | some xl =>
          match getValueStepwise xl g, getValueStepwise xl f with
          | some gVal, some fVal => .ok { x := none, f := none, g := none, v := kMixF F k gVal fVal }
          | _, _ => .error .typeError

/-- The `while` loop of `update_quantity` (`pymarket/mechanisms/huang_auction.py:48-64`). -/
def uqLoopF (F : Arith) (q : List (Option ℚ)) (N : ℕ) (gap : ℚ) :
    Except PyErr (List (Option ℚ) × ℕ × ℚ) :=
  match _h : nanArgMin q with
  | none => .error .valueError
  | some (i, v) =>
      if v < F.rnd (gap / N) then uqLoopF F (q.set i none) (N - 1) (F.rnd (gap - v))
      else .ok (q, N, gap)
termination_by q.countP Option.isSome
decreasing_by exact countP_set_none q i v (nanArgMin_getElem? q i v _h)

/-- `update_quantity` (`pymarket/mechanisms/huang_auction.py:8-69`). -/
def updateQuantityF (F : Arith) (quantity : List ℚ) (gap : ℚ) : Except PyErr (List ℚ) := do
  let (q, N, gap') ← uqLoopF F (quantity.map some) quantity.length gap
  let q0 := q.map (fun o => o.getD 0)                          -- np.nan_to_num, line 65
  let q1 := q0.map (fun x => F.rnd (x - F.rnd (gap' / N)))     -- line 66
  .ok (q1.map (clip0 (maxList q1)))                            -- lines 67-68

/-- `huang_auction` (`pymarket/mechanisms/huang_auction.py:72-205`). -/
def huangAuctionF (F : Arith) (s : Summer F) (S : Sorter) (bids : DF) :
    Except PyErr (TransactionManager × Extra) := do
  let buy := demandCurveF F S bids
  let sell := supplyCurveF F S bids
  let i ← intersectStepwiseF F buy sell
  match i.f, i.g with
  | some b, some g =>
      match sell[g]?, buy[b]? with
      | some sRow, some bRow =>
          let priceSell := sRow.2
          let priceBuy := bRow.2
          let buyingBids := (sortDesc S (buys bids)).take b
          let sellingBids := (sortAsc S (sells bids)).take g
          let quantityBuy := buyingBids.map (fun r => r.quantity)
          let quantitySell := sellingBids.map (fun r => r.quantity)
          if 0 < b ∧ 0 < g then do
            let gap := F.rnd (s.sum quantitySell - s.sum quantityBuy)
            let (qs, qb) ←
              if 0 < gap then do
                let qs ← updateQuantityF F quantitySell gap
                Except.ok (qs, quantityBuy)
              else do
                let qb ← updateQuantityF F quantityBuy (-gap)
                Except.ok (quantitySell, qb)
            let ts := huangSideTrans sellingBids qs (priceSell.untopD 0) ++
              huangSideTrans buyingBids qb (priceBuy.untopD 0)
            .ok (TransactionManager.init.addAll ts, .huang priceSell priceBuy (s.sum qb))
          else
            .ok (TransactionManager.init, .huang priceSell priceBuy (s.sum quantityBuy))
      | _, _ => .error .indexError
  | _, _ => .ok (TransactionManager.init, .empty)

end PyMarket
