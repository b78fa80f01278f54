import Verif.Model.P2P
import Verif.Model.Uniform

/-! # Bids without a limit: `np.inf` as a quantity

`Market.accept_bid` takes any number as a quantity, in particular `np.inf`, the natural way to say that somebody
(the grid, for example) buys or sells any amount. The column `bids.quantity` is given separately here, as a function
of the label of the bid with values in `Ext` (a rational or `np.inf`); the field `quantity` of the rows is not read.
Negative infinity and NaN as quantities and infinite prices are not modelled. Merging is not modelled here. -/

set_option autoImplicit false

namespace PyMarket

/-- `Series.cumsum()` of a column that may contain `np.inf` (`pymarket/bids/demand_curves.py:72,146`). -/
def extCumsumFrom (acc : Ext) : List Ext → List Ext
  | [] => []
  | x :: xs => (acc + x) :: extCumsumFrom (acc + x) xs

/-- `demand_curve_from_bids` (`pymarket/bids/demand_curves.py:6-76`), only the curve. -/
def demandCurveU (S : Sorter) (bids : DF) (qty : ℕ → Ext) : Curve :=
  let buying := sortDesc S (buys bids)
  List.zip (extCumsumFrom ((0 : ℚ) : Ext) (buying.map (fun r => qty r.label)))
    (buying.map (fun r => (r.price : Ext))) ++ [((⊤ : Ext), ((0 : ℚ) : Ext))]

/-- `supply_curve_from_bids` (`pymarket/bids/demand_curves.py:79-150`), only the curve. -/
def supplyCurveU (S : Sorter) (bids : DF) (qty : ℕ → Ext) : Curve :=
  let selling := sortAsc S (sells bids)
  List.zip (extCumsumFrom ((0 : ℚ) : Ext) (selling.map (fun r => qty r.label)))
    (selling.map (fun r => (r.price : Ext))) ++ [((⊤ : Ext), (⊤ : Ext))]

/-- The numbers of a column when all of them are finite. The arithmetic of `update_quantity` on infinite entries
(`np.nan_to_num` turns them into the largest float) is not modelled: the model stops with the mark
`nanQuantity`, and `C129_never_stuck` shows that this never happens. -/
def finiteColumn : List Ext → Except PyErr (List ℚ)
  | [] => .ok []
  | some q :: xs => (finiteColumn xs).map (fun l => q :: l)
  | none :: _ => .error .nanQuantity

/-- `huang_auction` (`pymarket/mechanisms/huang_auction.py:72-205`) with quantities that may be `np.inf`; see
`huangAuction`. -/
def huangAuctionU (S : Sorter) (bids : DF) (qty : ℕ → Ext) : Except PyErr (TransactionManager × Extra) := do
  let buy := demandCurveU S bids qty
  let sell := supplyCurveU S bids qty
  let i ← intersectStepwise buy sell
  match i.f, i.g with
  | some b, some s =>
      match sell[s]?, buy[b]? with
      | some sRow, some bRow =>
          let priceSell := sRow.2
          let priceBuy := bRow.2
          let buyingBids := (sortDesc S (buys bids)).take b
          let sellingBids := (sortAsc S (sells bids)).take s
          let quantityBuy ← finiteColumn (buyingBids.map (fun r => qty r.label))
          let quantitySell ← finiteColumn (sellingBids.map (fun r => qty r.label))
          if 0 < b ∧ 0 < s then do
            let gap := quantitySell.sum - quantityBuy.sum
            let (qs, qb) ←
              if 0 < gap then do
                let qs ← updateQuantity quantitySell gap
                Except.ok (qs, quantityBuy)
              else do
                let qb ← updateQuantity quantityBuy (-gap)
                Except.ok (quantitySell, qb)
            let ts := huangSideTrans sellingBids qs (priceSell.untopD 0) ++
              huangSideTrans buyingBids qb (priceBuy.untopD 0)
            .ok (TransactionManager.init.addAll ts, .huang priceSell priceBuy qb.sum)
          else
            .ok (TransactionManager.init, .huang priceSell priceBuy quantityBuy.sum)
      | _, _ => .error .indexError
  | _, _ => .ok (TransactionManager.init, .empty)

/-- The price of a half of MUDA (`pymarket/mechanisms/muda_auction.py:403-429`), see `findCompetitivePrice`. -/
def findCompetitivePriceU (S : Sorter) (bids : DF) (qty : ℕ → Ext) : Except PyErr Val := do
  let i ← intersectStepwise (demandCurveU S bids qty) (supplyCurveU S bids qty)
  .ok i.v

namespace Val

/-- IEEE subtraction (`pymarket/mechanisms/p2p_random.py:116-119`). -/
def sub : Val → Val → Val
  | a, .fin b => a.add (.fin (-b))
  | a, .inf => a.add .ninf
  | a, .ninf => a.add .inf
  | _, .nan => .nan

/-- `a < b`; comparisons with `nan` are false. -/
def lt : Val → Val → Bool
  | .fin a, .fin b => decide (a < b)
  | .fin _, .inf => true
  | .ninf, .fin _ => true
  | .ninf, .inf => true
  | _, _ => false

/-- Python's `min(a, b)`: the second one only if it is smaller (`pymarket/mechanisms/p2p_random.py:114`). -/
def pyMin (a b : Val) : Val := if b.lt a then b else a

end Val

/-- A transaction whose quantity is any float; see `Transaction`. -/
structure TransU where
  bid : ℕ
  quantity : Val
  price : ℚ
  source : ℤ
  active : Bool
  deriving DecidableEq, Repr

/-- `quantities[i] = v`. -/
def setU (quantities : ℕ → Val) (i : ℕ) (v : Val) : ℕ → Val := fun j => if j = i then v else quantities j

/-- One meeting (`pymarket/mechanisms/p2p_random.py:112-124`), see `tradeOne`. -/
def tradeOneU (prices : ℕ → ℚ) (pCoef : ℚ) (quantities : ℕ → Val) (p : ℕ × ℕ) : (ℕ → Val) × List TransU :=
  let b := p.1
  let s := p.2
  if prices s ≤ prices b then
    let q := Val.pyMin (quantities b) (quantities s)
    let pr := prices b * pCoef + (1 - pCoef) * prices s
    let tb : TransU := ⟨b, q, pr, (s : ℤ), Val.lt (.fin 0) ((quantities b).sub q)⟩
    let ts : TransU := ⟨s, q, pr, (b : ℤ), Val.lt (.fin 0) ((quantities s).sub q)⟩
    let q1 := setU quantities b ((quantities b).sub q)
    (setU q1 s ((q1 s).sub q), [tb, ts])
  else
    (quantities, [⟨b, .fin 0, 0, (s : ℤ), true⟩, ⟨s, .fin 0, 0, (b : ℤ), true⟩])

/-- The `for` loop over the round's meetings (`pymarket/mechanisms/p2p_random.py:112-124`). -/
def tradeRoundU (prices : ℕ → ℚ) (pCoef : ℚ) : (ℕ → Val) → List (ℕ × ℕ) → (ℕ → Val) × List TransU
  | quantities, [] => (quantities, [])
  | quantities, p :: ps =>
      let r := tradeOneU prices pCoef quantities p
      let r' := tradeRoundU prices pCoef r.1 ps
      (r'.1, r.2 ++ r'.2)

/-- `inactive_buying + inactive_selling` (`pymarket/mechanisms/p2p_random.py:126-127`). -/
def exhaustedU (bids : DF) (quantities : ℕ → Val) : List ℕ :=
  ((buys bids).map (fun r => r.label)).filter (fun i => decide (quantities i = .fin 0)) ++
  ((sells bids).map (fun r => r.label)).filter (fun i => decide (quantities i = .fin 0))

/-- `quantities.sum()` (`pymarket/mechanisms/p2p_random.py:100`). -/
def sumU (l : List Val) : Val := l.foldr Val.add (.fin 0)

/-- The outer `while` loop (`pymarket/mechanisms/p2p_random.py:100-131`), see `p2pLoop`. -/
def p2pLoopU (bids : DF) (prices : ℕ → ℚ) (pCoef : ℚ) (choice : ℕ → ℕ) (n : ℕ)
    (quantities : ℕ → Val) (active : List (ℕ × ℕ)) (inactive : List ℕ) :
    List (List (ℕ × ℕ)) × List TransU :=
  let tmp := maskOut active inactive
  if _h : Val.lt (.fin 0) (sumU (bids.map (fun r => quantities r.label))) = true ∧ tmp ≠ [] then
    let m := meetLoop choice n active tmp
    let t := tradeRoundU prices pCoef quantities m.2.2
    let rest := p2pLoopU bids prices pCoef choice m.1 t.1 m.2.1 (exhaustedU bids t.1)
    (m.2.2 :: rest.1, t.2 ++ rest.2)
  else ([], [])
termination_by active.length
decreasing_by
  exact meetLoop_active_lt choice n active _ _h.2 (maskOut_sublist active inactive).subset

/-- `p2p_random` (`pymarket/mechanisms/p2p_random.py:10-134`) with quantities that may be `np.inf`: the rounds and
the transactions. -/
def p2pRandomU (pCoef : ℚ) (choice : ℕ → ℕ) (bids : DF) (qty : ℕ → Ext) : List (List (ℕ × ℕ)) × List TransU :=
  p2pLoopU bids (valueAt bids (fun r => r.price)) pCoef choice 0 (fun i => Val.ofExt (qty i)) (allPairs bids) []

/-- The bids of the short side trade their quantity (`docs/new_mechanism.ipynb:199-201`). -/
def uniformShortU (price : ℚ) (qty : ℕ → Ext) (rows : DF) : List TransU :=
  rows.map (fun x => { bid := x.label, quantity := Val.ofExt (qty x.label), price := price, source := -1,
                       active := false })

/-- The bids of the long side (`docs/new_mechanism.ipynb:204-213`), see `uniformLong`. -/
def uniformLongU (price : ℚ) (qty : ℕ → Ext) (traded : Ext) : Ext → DF → List TransU
  | _, [] => []
  | added, x :: xs =>
    { bid := x.label,
      quantity := if qty x.label + added ≤ traded then Val.ofExt (qty x.label)
        else (Val.ofExt traded).sub (Val.ofExt added),
      price := price, source := -1, active := false } :: uniformLongU price qty traded (added + qty x.label) xs

/-- `uniform_price_mechanism` (`docs/new_mechanism.ipynb:163-222`) with quantities that may be `np.inf`, see
`uniformPrice`. -/
def uniformPriceU (S : Sorter) (bids : DF) (qty : ℕ → Ext) : Except PyErr (List TransU × Option Ext × Val) := do
  let i ← intersectStepwise (demandCurveU S bids qty) (supplyCurveU S bids qty)
  match i.f, i.g with
  | some b, some s =>
      let buyingBids := (sortDesc S (buys bids)).take (b + 1)
      let sellingBids := (sortAsc S (sells bids)).take (s + 1)
      let buyingQuantity := (buyingBids.map (fun r => qty r.label)).sum
      let sellingQuantity := (sellingBids.map (fun r => qty r.label)).sum
      let (longSide, shortSide) :=
        if sellingQuantity < buyingQuantity then (buyingBids, sellingBids) else (sellingBids, buyingBids)
      let tradedQuantity := (shortSide.map (fun r => qty r.label)).sum
      let price := i.v.toRat
      .ok (uniformShortU price qty shortSide ++ uniformLongU price qty tradedQuantity 0 longSide, i.x, i.v)
  | _, _ => .error .typeError

end PyMarket
