import Verif.Model.Market

/-! # Model of the non-graphical parts of `Market.plot_method` and `plot_demand_curves` -/

set_option autoImplicit false

namespace PyMarket

/-- The string keys of the `extra` dictionary (`pymarket/mechanisms/huang_auction.py:202-203`,
`pymarket/mechanisms/muda_auction.py:121-126`, `pymarket/mechanisms/p2p_random.py:133`). -/
def Extra.keys : Extra → List String
  | .empty => []
  | .huang _ _ _ => ["price_sell", "price_buy", "quantity_traded"]
  | .muda _ _ _ _ _ => ["left", "right", "price_left", "price_right", "fees"]
  | .p2p _ => ["trading_list"]

/-- What `plot_method` does: call a plotting routine, print the message of the `except` branch, or
nothing at all for an unknown method name. -/
inductive PlotAction where
  | graph
  | muda
  | huang
  | message
  | nothing
  deriving DecidableEq, Repr

/-- `e[key]`: `KeyError` when absent. -/
def Extra.lookup (e : Extra) (key : String) : Except PyErr Unit :=
  if key ∈ e.keys then .ok () else .error .keyError

/-- The key accesses of one branch, in program order. -/
def Extra.lookupAll (e : Extra) : List String → Except PyErr Unit
  | [] => .ok ()
  | k :: ks => do
      e.lookup k
      e.lookupAll ks

/-- `try: ... except KeyError: print(...)`: other exceptions pass through. -/
def tryKeyError (body : Except PyErr PlotAction) : Except PyErr PlotAction :=
  match body with
  | .error .keyError => .ok .message
  | r => r

/-- `Market.plot_method` (`pymarket/market.py:200-255`), up to the matplotlib calls. -/
def Market.plotMethod (m : Market) (method : String) : Except PyErr PlotAction :=
  if method = "p2p" then .ok .graph
  else if method = "muda" then
    tryKeyError (do
      m.extra.lookupAll ["left", "right", "price_left", "price_right"]
      .ok .muda)
  else if method = "huang" then
    tryKeyError (do
      m.extra.lookupAll ["price_sell", "price_buy", "quantity_traded"]
      .ok .huang)
  else .ok .nothing

/-- `a[-1] = v` on a non-empty array (`pymarket/plot/demand_curves.py:50,54-55`). -/
def setLast (l : List Ext) (v : Ext) : List Ext := l.dropLast ++ [v]

/-- `a[-2]` (`pymarket/plot/demand_curves.py:47`). -/
def secondLast (l : List Ext) : Ext := (l.dropLast.getLast?).getD 0

/-- The two polylines handed to `ax.step(..., where='post')` by `plot_demand_curves`:
`((x_dc, y_dc), (x_sp, y_sp))` (`pymarket/plot/demand_curves.py:38-59`). -/
def plotData (S : Sorter) (bids : DF) (marginX marginY : ℚ) :
    (List Ext × List Ext) × (List Ext × List Ext) :=
  let dc := (demandCurve S bids).1
  let sp := (supplyCurve S bids).1
  let xDc := ((0 : ℚ) : Ext) :: dc.map Prod.fst
  let xSp := ((0 : ℚ) : Ext) :: sp.map Prod.fst
  let ySp := sp.map Prod.snd
  let maxX := max (secondLast xDc) (secondLast xSp)
  let extraX := maxX.map (fun x => x * marginX)
  let xDc := setLast xDc extraX
  let yDc := dc.map Prod.snd ++ [((0 : ℚ) : Ext)]
  let maxPoint := (yDc.foldl max ((0 : ℚ) : Ext)).map (fun y => y * marginY)
  let xSp := setLast xSp extraX
  let ySp := setLast ySp maxPoint
  let ySp := ySp ++ [maxPoint]
  ((xDc, yDc), (xSp, ySp))

/-- `column.map(bids.user)` on one entry (`pymarket/plot/trades.py:34-35`): the user of the bid with
index label `i`, NaN (`none`) when no bid has it. Simplification: NaN equals NaN here, whereas every
NaN is a node of its own in networkx; the logs of P2P without merging produce none. -/
def userAt (bids : DF) (i : ℤ) : Option ℤ :=
  (bids.find? (fun r => decide ((r.label : ℤ) = i))).map (fun r => r.user)

/-- `d[k] = v` on a Python dictionary, as the list of its items in insertion order: a key that is
already present keeps its place and gets the new value. -/
def dictSet {α β : Type} [DecidableEq α] : List (α × β) → α → β → List (α × β)
  | [], k, v => [(k, v)]
  | (k', v') :: d, k, v => if k' = k then (k', v) :: d else (k', v') :: dictSet d k v

/-- `series.to_dict()` (`pymarket/plot/trades.py:42-43`): the rows are inserted one after the other, so
the last row of a duplicated key wins. -/
def toDict {α β : Type} [DecidableEq α] (rows : List (α × β)) : List (α × β) :=
  rows.foldl (fun d r => dictSet d r.1 r.2) []

/-- The loop filling `edge_labels` (`pymarket/plot/trades.py:44-46`): an item is kept unless its key or
the reversed key is there already. -/
def uniqueLabels {α β : Type} [DecidableEq α] (items : List ((α × α) × β)) : List ((α × α) × β) :=
  items.foldl (fun e it =>
    if it.1 ∉ e.map Prod.fst ∧ it.1.swap ∉ e.map Prod.fst then e ++ [it] else e) []

/-- What `plot_trades_as_graph` hands to networkx: the edge list (`G`), the labels of the edges and
the nodes of the first row of the bipartite layout (`buyers`). -/
structure TradesFigure where
  edges : List (Option ℤ × Option ℤ)
  labels : List ((Option ℤ × Option ℤ) × ℚ)
  top : List ℕ
  deriving DecidableEq, Repr

/-- `plot_trades_as_graph` (`pymarket/plot/trades.py:32-51`), up to the drawing calls. -/
def tradesFigure (bids : DF) (transactions : TransactionManager) : TradesFigure :=
  let tmp := transactions.getDf
  let key := fun t : Transaction => (userAt bids (t.bid : ℤ), userAt bids t.source)
  { edges := tmp.map key
    labels := uniqueLabels (toDict (tmp.map (fun t => (key t, t.quantity))))
    top := (buys bids).map (fun r => r.label) }

/-- The margins of `plot_demand_curves` (`pymarket/plot/demand_curves.py:10`), 1.2 each. -/
def defaultMargin : ℚ := 6 / 5

/-- `np.arange(0, stop, 0.01)` in exact arithmetic (`pymarket/plot/huang.py:37-40`). -/
def arangeHundredths (stop : ℚ) : List ℚ :=
  (List.range ⌈stop * 100⌉₊).map (fun k : ℕ => (k : ℚ) / 100)

/-- What `plot_huang_auction` hands to matplotlib: the two step lines, the horizontal lines for the
sellers' and the buyers' price, the vertical line, and the abscissae and the two ordinates of
`fill_between`. -/
structure HuangFigure where
  curves : (List Ext × List Ext) × (List Ext × List Ext)
  sellLine : Ext
  buyLine : Ext
  quantityLine : ℚ
  fillX : List ℚ
  fillY : Ext × Ext
  deriving DecidableEq

/-- `plot_huang_auction` (`pymarket/plot/huang.py:30-45`), up to the drawing calls. -/
def huangFigure (S : Sorter) (bids : DF) (priceSell priceBuy : Ext) (quantityTraded : ℚ) :
    HuangFigure :=
  { curves := plotData S bids defaultMargin defaultMargin
    sellLine := priceSell
    buyLine := priceBuy
    quantityLine := quantityTraded
    fillX := arangeHundredths quantityTraded
    fillY := (priceBuy, priceSell) }

/-- One panel of the MUDA figure: the two step lines and the horizontal line. -/
structure MudaPanel where
  curves : (List Ext × List Ext) × (List Ext × List Ext)
  priceLine : Val
  deriving DecidableEq

/-- `plot_both_side_muda` (`pymarket/plot/muda.py:32-48`), up to the drawing calls: the left and the
right panel. -/
def mudaFigure (S : Sorter) (bids : DF) (leftPlayers rightPlayers : List ℕ)
    (leftPrice rightPrice : Val) : MudaPanel × MudaPanel :=
  ({ curves := plotData S (bids.filter (fun r => decide (r.label ∈ leftPlayers)))
      defaultMargin defaultMargin
     priceLine := rightPrice },
   { curves := plotData S (bids.filter (fun r => decide (r.label ∈ rightPlayers)))
      defaultMargin defaultMargin
     priceLine := leftPrice })

/-- `Market.plot_method('huang')` (`pymarket/market.py:239-250`): the figure for the bids and the
result held by the market, `none` for the message of the `except` branch. -/
def Market.huangPlot (S : Sorter) (m : Market) : Option HuangFigure :=
  match m.extra with
  | .huang ps pb q => some (huangFigure S m.bm.getDf ps pb q)
  | _ => none

/-- `Market.plot_method('muda')` (`pymarket/market.py:225-238`). -/
def Market.mudaPlot (S : Sorter) (m : Market) : Option (MudaPanel × MudaPanel) :=
  match m.extra with
  | .muda left right pl pr _ => some (mudaFigure S m.bm.getDf left right pl pr)
  | _ => none

end PyMarket
