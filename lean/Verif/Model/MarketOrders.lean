import Verif.Model.P2P
import Verif.Model.Uniform

/-! # Bids at any price: `np.inf` as a price

`Market.accept_bid` takes any number as a price, in particular `np.inf`: a buyer that pays any price, or a seller that
never sells. The column `bids.price` is given separately here, as a function of the label of the bid with values
in `Ext` (a rational or `np.inf`); the field `price` of the rows is not read. Quantities are finite. Negative infinity
and NaN as prices are not modelled. Merging is not modelled here; the rounds of MUDA are in `Verif.Model.MudaMarketOrders`. -/

set_option autoImplicit false

namespace PyMarket

/-- `sort_values` on a column that may contain `np.inf`, see `Sorter` (`pymarket/bids/demand_curves.py:71,145`). -/
structure ExtSorter where
  asc : List Ext → List ℕ
  desc : List Ext → List ℕ
  asc_perm : ∀ l, (asc l).Perm (List.range l.length)
  desc_perm : ∀ l, (desc l).Perm (List.range l.length)
  asc_sorted : ∀ l, (takeIdx l (asc l)).Pairwise (fun a b => a ≤ b)
  desc_sorted : ∀ l, (takeIdx l (desc l)).Pairwise (fun a b => b ≤ a)

/-- The column `price` of some rows. -/
def priceCol (prc : ℕ → Ext) (rows : DF) : List Ext := rows.map (fun r => prc r.label)

/-- `df.sort_values('price')` (`pymarket/bids/demand_curves.py:145`). -/
def sortAscM (S : ExtSorter) (prc : ℕ → Ext) (rows : DF) : DF := takeIdx rows (S.asc (priceCol prc rows))

/-- `df.sort_values('price', ascending=False)` (`pymarket/bids/demand_curves.py:71`). -/
def sortDescM (S : ExtSorter) (prc : ℕ → Ext) (rows : DF) : DF := takeIdx rows (S.desc (priceCol prc rows))

/-- `demand_curve_from_bids` (`pymarket/bids/demand_curves.py:6-76`), only the curve. -/
def demandCurveM (S : ExtSorter) (bids : DF) (prc : ℕ → Ext) : Curve :=
  let buying := sortDescM S prc (buys bids)
  (List.zip (cumsum (buying.map (fun r => r.quantity))) (priceCol prc buying)).map (fun p => ((p.1 : Ext), p.2)) ++
    [((⊤ : Ext), ((0 : ℚ) : Ext))]

/-- `supply_curve_from_bids` (`pymarket/bids/demand_curves.py:79-150`), only the curve. -/
def supplyCurveM (S : ExtSorter) (bids : DF) (prc : ℕ → Ext) : Curve :=
  let selling := sortAscM S prc (sells bids)
  (List.zip (cumsum (selling.map (fun r => r.quantity))) (priceCol prc selling)).map (fun p => ((p.1 : Ext), p.2)) ++
    [((⊤ : Ext), (⊤ : Ext))]

/-- A transaction whose price is any float; see `Transaction`. -/
structure TransM where
  bid : ℕ
  quantity : ℚ
  price : Val
  source : ℤ
  active : Bool
  deriving DecidableEq, Repr

/-- The transactions of one side of Huang's auction (`pymarket/mechanisms/huang_auction.py:179-187`). -/
def huangSideTransM (rows : DF) (qs : List ℚ) (price : Val) : List TransM :=
  (List.zip rows qs).map (fun p =>
    { bid := p.1.label, quantity := p.2, price := price, source := -1, active := false })

/-- `huang_auction` (`pymarket/mechanisms/huang_auction.py:72-205`) with prices that may be `np.inf`, see `huangAuction`: the
transactions and the dictionary `extra`, which is empty when the curves do not cross. -/
def huangAuctionM (S : ExtSorter) (bids : DF) (prc : ℕ → Ext) :
    Except PyErr (List TransM × Option (Ext × Ext × ℚ)) := do
  let buy := demandCurveM S bids prc
  let sell := supplyCurveM S bids prc
  let i ← intersectStepwise buy sell
  match i.f, i.g with
  | some b, some s =>
      match sell[s]?, buy[b]? with
      | some sRow, some bRow =>
          let priceSell := sRow.2
          let priceBuy := bRow.2
          let buyingBids := (sortDescM S prc (buys bids)).take b
          let sellingBids := (sortAscM S prc (sells bids)).take s
          let quantityBuy := buyingBids.map (fun r => r.quantity)
          let quantitySell := sellingBids.map (fun r => r.quantity)
          if 0 < b ∧ 0 < s then do
            let gap := quantitySell.sum - quantityBuy.sum
            let (qs, qb) ←
              if 0 < gap then do
                let qs ← updateQuantity quantitySell gap
                Except.ok (qs, quantityBuy)
              else do
                let qb ← updateQuantity quantityBuy (-gap)
                Except.ok (quantitySell, qb)
            .ok (huangSideTransM sellingBids qs (Val.ofExt priceSell) ++
              huangSideTransM buyingBids qb (Val.ofExt priceBuy), some (priceSell, priceBuy, qb.sum))
          else
            .ok ([], some (priceSell, priceBuy, quantityBuy.sum))
      | _, _ => .error .indexError
  | _, _ => .ok ([], none)

/-- The price of a half of MUDA (`pymarket/mechanisms/muda_auction.py:403-429`), see `findCompetitivePrice`. -/
def findCompetitivePriceM (S : ExtSorter) (bids : DF) (prc : ℕ → Ext) : Except PyErr Val := do
  let i ← intersectStepwise (demandCurveM S bids prc) (supplyCurveM S bids prc)
  .ok i.v

/-- The bids of the short side (`docs/new_mechanism.ipynb:199-201`), see `uniformShort`. -/
def uniformShortM (price : Val) (rows : DF) : List TransM :=
  rows.map (fun x => { bid := x.label, quantity := x.quantity, price := price, source := -1, active := false })

/-- The bids of the long side (`docs/new_mechanism.ipynb:204-213`), see `uniformLong`. -/
def uniformLongM (price : Val) (traded : ℚ) : ℚ → DF → List TransM
  | _, [] => []
  | added, x :: xs =>
    { bid := x.label, quantity := if x.quantity + added ≤ traded then x.quantity else traded - added,
      price := price, source := -1, active := false } :: uniformLongM price traded (added + x.quantity) xs

/-- `uniform_price_mechanism` (`docs/new_mechanism.ipynb:163-222`) with prices that may be `np.inf`, see
`uniformPrice`. -/
def uniformPriceM (S : ExtSorter) (bids : DF) (prc : ℕ → Ext) : Except PyErr (List TransM × Option Ext × Val) := do
  let i ← intersectStepwise (demandCurveM S bids prc) (supplyCurveM S bids prc)
  match i.f, i.g with
  | some b, some s =>
      let buyingBids := (sortDescM S prc (buys bids)).take (b + 1)
      let sellingBids := (sortAscM S prc (sells bids)).take (s + 1)
      let buyingQuantity := qsum buyingBids
      let sellingQuantity := qsum sellingBids
      let (longSide, shortSide) :=
        if sellingQuantity < buyingQuantity then (buyingBids, sellingBids) else (sellingBids, buyingBids)
      let tradedQuantity := qsum shortSide
      .ok (uniformShortM i.v shortSide ++ uniformLongM i.v tradedQuantity 0 longSide, i.x, i.v)
  | _, _ => .error .typeError

/-- One meeting (`pymarket/mechanisms/p2p_random.py:112-124`), see `tradeOne`. -/
def tradeOneM (prc : ℕ → Ext) (pCoef : ℚ) (quantities : ℕ → ℚ) (p : ℕ × ℕ) : (ℕ → ℚ) × List TransM :=
  let b := p.1
  let s := p.2
  if prc s ≤ prc b then
    let q := min (quantities b) (quantities s)
    let pr := (Val.scale pCoef (prc b)).add (Val.scale (1 - pCoef) (prc s))
    let tb : TransM := ⟨b, q, pr, (s : ℤ), decide (0 < quantities b - q)⟩
    let ts : TransM := ⟨s, q, pr, (b : ℤ), decide (0 < quantities s - q)⟩
    let q1 := setQ quantities b (quantities b - q)
    (setQ q1 s (q1 s - q), [tb, ts])
  else
    (quantities, [⟨b, 0, .fin 0, (s : ℤ), true⟩, ⟨s, 0, .fin 0, (b : ℤ), true⟩])

/-- The `for` loop over the round's meetings (`pymarket/mechanisms/p2p_random.py:112-124`). -/
def tradeRoundM (prc : ℕ → Ext) (pCoef : ℚ) : (ℕ → ℚ) → List (ℕ × ℕ) → (ℕ → ℚ) × List TransM
  | quantities, [] => (quantities, [])
  | quantities, p :: ps =>
      let r := tradeOneM prc pCoef quantities p
      let r' := tradeRoundM prc pCoef r.1 ps
      (r'.1, r.2 ++ r'.2)

/-- The outer `while` loop (`pymarket/mechanisms/p2p_random.py:100-131`), see `p2pLoop`. -/
def p2pLoopM (bids : DF) (prc : ℕ → Ext) (pCoef : ℚ) (choice : ℕ → ℕ) (n : ℕ)
    (quantities : ℕ → ℚ) (active : List (ℕ × ℕ)) (inactive : List ℕ) :
    List (List (ℕ × ℕ)) × List TransM :=
  let tmp := maskOut active inactive
  if _h : 0 < (bids.map (fun r => quantities r.label)).sum ∧ tmp ≠ [] then
    let m := meetLoop choice n active tmp
    let t := tradeRoundM prc pCoef quantities m.2.2
    let rest := p2pLoopM bids prc pCoef choice m.1 t.1 m.2.1 (exhausted bids t.1)
    (m.2.2 :: rest.1, t.2 ++ rest.2)
  else ([], [])
termination_by active.length
decreasing_by
  exact meetLoop_active_lt choice n active _ _h.2 (maskOut_sublist active inactive).subset

/-- `p2p_random` (`pymarket/mechanisms/p2p_random.py:10-134`) with prices that may be `np.inf`: the rounds and the
transactions. -/
def p2pRandomM (pCoef : ℚ) (choice : ℕ → ℕ) (bids : DF) (prc : ℕ → Ext) : List (List (ℕ × ℕ)) × List TransM :=
  p2pLoopM bids prc pCoef choice 0 (valueAt bids (fun r => r.quantity)) (allPairs bids) []

end PyMarket
