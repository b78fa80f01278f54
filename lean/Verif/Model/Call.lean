import Verif.Model.Market

/-! # The arguments of `Market.run`

`Market.run(algo, *args, **kwargs)` hands its arguments through three signatures: the class of the mechanism
(`pymarket/mechanisms/huang_auction.py:222-231`, `muda_auction.py:443-445`, `p2p_random.py:149-152`),
`Mechanism.__init__` (`pymarket/mechanisms/mechanism.py:72-80`) and the algorithm
(`huang_auction.py:72`, `muda_auction.py:13`, `p2p_random.py:10`). `Model/Mechanism.lean` starts after the arguments
have been bound; this file binds them. The name of the mechanism is the first positional argument. -/

set_option autoImplicit false

namespace PyMarket

/-- A random generator: the coins `rand() > 0.5` and the results of `choice` that it is going to give. -/
structure Gen where
  coin : ℕ → Bool
  choice : ℕ → ℕ

/-- A value passed to `run`: a number, `True`/`False`, `None`, a `RandomState`, or something else of which only the
truth value matters (a string, a list, ...). -/
inductive PyArg where
  | num (q : ℚ)
  | flag (b : Bool)
  | none
  | gen (g : Gen)
  | obj (truthy : Bool)

/-- The truth value of an argument, as in `if self.merge` (`pymarket/mechanisms/mechanism.py:120,164`). -/
def PyArg.truthy : PyArg → Bool
  | .num q => decide (q ≠ 0)
  | .flag b => b
  | .none => false
  | .gen _ => true
  | .obj b => b

/-- The value of an argument in arithmetic (`pymarket/mechanisms/p2p_random.py:115`); `none` if it has none and the
operation raises `TypeError`. -/
def PyArg.number : PyArg → Option ℚ
  | .num q => some q
  | .flag b => some (if b then 1 else 0)
  | _ => Option.none

/-- The generator used for an argument `r`: `if r is None: r = np.random.RandomState()`
(`pymarket/mechanisms/muda_auction.py:103-104`, `p2p_random.py:72`), where `fresh` is the new generator; `none` for
an object without the methods of a generator. -/
def genOf (fresh : Gen) : Option PyArg → Option Gen
  | Option.none => some fresh
  | some .none => some fresh
  | some (.gen g) => some g
  | some _ => Option.none

/-- Python's binding of positional and keyword arguments to parameters that all have defaults: too many positional
arguments, an unknown keyword, or a keyword for a parameter that is already bound raise `TypeError`. The result has an
entry for every parameter, `none` where the default is used. Used for the parameters after `bids` of `huang_auction`
(`pymarket/mechanisms/huang_auction.py:72`), `muda` (`muda_auction.py:13`) and `p2p_random` (`p2p_random.py:10`). -/
def bindParams (params : List String) (args : List PyArg) (kw : List (String × PyArg)) :
    Except PyErr (List (Option PyArg)) :=
  if params.length < args.length then .error .typeError
  else if kw.any (fun p => !(params.drop args.length).contains p.1) then .error .typeError
  else .ok (args.map some ++ (params.drop args.length).map (fun k => kw.lookup k))

/-- `p2p_random` with bound arguments (`pymarket/mechanisms/p2p_random.py:10-134`). A generator without `choice` raises
`AttributeError` at the first draw (line 104), which is made if the loops are entered. A coefficient that is not a
number raises `TypeError` at the first meeting whose prices match (line 115); the meetings do not depend on it. -/
def p2pCall (fresh : Gen) (c r : Option PyArg) (bids : DF) : Except PyErr (TransactionManager × Extra) :=
  match genOf fresh r with
  | Option.none =>
      if 0 < (bids.map (fun r => r.quantity)).sum ∧ allPairs bids ≠ [] then .error .attributeError
      else p2pRandom (1 / 2) fresh.choice bids
  | some g =>
      match (c.getD (.num (1 / 2))).number with
      | some c => p2pRandom c g.choice bids
      | Option.none =>
          match p2pRandom 0 g.choice bids with
          | .ok (tm, .p2p rounds) =>
              if rounds.flatten.any (fun p => decide (valueAt bids (fun r => r.price) p.2 ≤
                  valueAt bids (fun r => r.price) p.1)) then .error .typeError
              else .ok (tm, .p2p rounds)
          | res => res

/-- The algorithms as `Mechanism._run` calls them, `self.algo(self.bids, *self.args, **self.kwargs)`
(`pymarket/mechanisms/mechanism.py:135`). `muda` is wrapped by `check_equal_price`, which looks at the bids before it
passes the arguments on (`pymarket/utils/decorators.py:36-47`); an `r` without `rand` raises `AttributeError` at the
first bid (`muda_auction.py:106`). -/
def callAlgo (S : Sorter) (fresh : Gen) (name : String) (args : List PyArg) (kw : List (String × PyArg)) : Algo :=
  fun bids =>
    if name = "huang" then
      match bindParams [] args kw with
      | .error e => .error e
      | .ok _ => huangAuction S bids
    else if name = "muda" then
      if checkEqualPriceRaises bids then .error .notImplementedError
      else match bindParams ["r"] args kw with
        | .error e => .error e
        | .ok vs =>
            match genOf fresh (vs[0]?.getD Option.none) with
            | some g => muda S g.coin bids
            | Option.none => if bids = [] then muda S fresh.coin bids else .error .attributeError
    else
      match bindParams ["p_coef", "r"] args kw with
      | .error e => .error e
      | .ok vs => p2pCall fresh (vs[0]?.getD Option.none) (vs[1]?.getD Option.none) bids

/-- `MECHANISM[algo](df, *args, **kwargs).run()` (`pymarket/market.py:150-152`). The keywords `self` and `algo` clash
with the parameters of `Market.run` (`market.py:120`), `bids` with that of the classes, and `merge` with the `merge=True`
that `HuangAuction.__init__` passes (`pymarket/mechanisms/huang_auction.py:225-231`). `Mechanism.__init__` keeps `merge`
for itself (`pymarket/mechanisms/mechanism.py:72`). -/
def runAlgoArgs (S : Sorter) (smp : Sampler) (fresh : Gen) (name : String) (args : List PyArg)
    (kw : List (String × PyArg)) (bids : DF) : Except PyErr (TransactionManager × Extra) :=
  let has := fun k => (kw.lookup k).isSome
  if has "self" || has "algo" then .error .typeError
  else if name = "huang" then
    if has "bids" || has "merge" then .error .typeError
    else mechanism smp true (callAlgo S fresh name args kw) bids
  else if name = "muda" || name = "p2p" then
    if has "bids" then .error .typeError
    else mechanism smp ((kw.lookup "merge").getD (.flag false)).truthy
      (callAlgo S fresh name args (kw.filter (fun p => decide (p.1 ≠ "merge")))) bids
  else .error .keyError

/-- `Market.run` (`pymarket/market.py:120-155`) with the arguments as the caller gives them. -/
def Market.runArgs (m : Market) (S : Sorter) (smp : Sampler) (fresh : Gen) (name : String) (args : List PyArg)
    (kw : List (String × PyArg)) : Market × Except PyErr (TransactionManager × Extra) :=
  match runAlgoArgs S smp fresh name args kw m.bm.getDf with
  | .error e => (m, .error e)
  | .ok (tm, extra) => ({ m with transactions := tm, extra := extra }, .ok (tm, extra))

end PyMarket
