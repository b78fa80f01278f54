# Formal model of pymarket in Lean 4 — design

Subject: `kiedanski/pymarket` (source read as text from `/repo`, version 0.7.8).

## Layout

* `lean/Verif/Model/*` — the model: small total computable functions, one file per source module.
* `lean/Verif/Spec/*` — the specification vocabulary. It talks about books, logs and amounts only and
  does not use the model's algorithms.
* `lean/Verif/Lemmas/*` — helper lemmas.
* `lean/Verif/Props/*` — the property theorems (`Cxx_…`), each with a concrete `example` (or a named
  witness book) meeting its hypotheses.
* `lean/Verif/Tests/*` — the repository's tests, docstring examples and notebook outputs replayed on the
  model by the kernel (seeded runs included). They validate the model; they are not properties.
* `properties.jsonl` — the properties; `MANIFEST.json` — property → theorems; `seeded/LOG.jsonl` — the
  results of planting bugs in the model.

| file | content |
|---|---|
| `Model/Basic` | rows, frames, sorting oracle, `cumsum`, `argmax`, infinite/NaN values |
| `Model/Bids`, `Model/Transactions` | `BidManager`, `TransactionManager` |
| `Model/Curves` | demand and supply curves, `get_value_stepwise`, `intersect_stepwise` |
| `Model/Huang`, `Model/Muda`, `Model/P2P` | the three mechanisms, the `check_equal_price` decorator |
| `Model/Processing` | `merge_same_price`, `new_player_id`, `split_transactions_merged_players` |
| `Model/Mechanism`, `Model/Market` | the `Mechanism` classes and the `Market` state machine |
| `Model/Call` | how `Market.run` binds its arguments |
| `Model/Stats` | linear programs and formulas of the three statistics |
| `Model/Nan` | splitting with IEEE values, the statistics on logs with NaN entries |
| `Model/Datasets` | the bid generator |
| `Model/RandomState` | NumPy's `rand`, `choice`, `permutation` and Mersenne twister; the mechanisms and the bid generator driven by them |
| `Model/Float`, `Model/FloatP2P`, `Model/FloatHuang`, `Model/FloatMuda`, `Model/FloatUniform`, `Model/FloatProcessing`, `Model/FloatStats`, `Model/FloatDatasets` | rounded arithmetic; `p2p_random`, the curves, `huang_auction`, `muda`, the uniform price mechanism, merging, splitting, `Mechanism.run`, profits, percentages and `generate` on top of it |
| `Model/Unlimited` | the curves, Huang's auction, the uniform price, peer to peer trading with quantities that may be `np.inf` |
| `Model/MarketOrders` | the curves, Huang's auction, the uniform price, the price of a half of MUDA, peer to peer trading with prices that may be `np.inf` |
| `Model/MudaMarketOrders` | MUDA with its fees and its decorator with prices that may be `np.inf` |
| `Model/Missing` | the curves, Huang's auction, the uniform price, the prices of MUDA's halves and peer to peer trading with quantities that may be NaN; peer to peer trading with NaN prices |
| `Model/MissingPrices`, `Model/MudaMissingPrices`, `Model/MergeMissingPrices` | the curves, Huang's auction, the uniform price, MUDA and merging with prices that may be NaN |
| `Model/MergeUnlimited` | merging, Huang's auction and splitting with quantities that may be infinite |
| `Model/MudaUnlimited` | the trades of one round of MUDA at a given price and the fee of one user for given trading rows, with quantities that may be infinite; not the loop that fills the array of fees |
| `Model/MergeMissing` | merging and splitting with quantities that may be NaN |
| `Model/Ieee` | float64 rounding with its bounded exponent |
| `Model/Uniform` | the uniform price mechanism that `docs/new_mechanism.ipynb` adds to the package |
| `Tests/Suite`, `Tests/Programs`, `Tests/Docs`, `Tests/NewMechanism` | `tests/*.py`; the optima of the two programs; docstrings and notebooks |
| `Model/Plot` | the data handed to matplotlib and networkx, `plot_method` |

## Trusted base

* Lean 4.33.0's kernel (every declaration is replayed by the gate). No `sorry`, no axioms of our own, no
  `native_decide`/`bv_decide`. Concrete witnesses are evaluated by the kernel (`decide +kernel`).
* Axioms: every `Cxx_…` theorem depends on `propext`, `Classical.choice` and `Quot.sound` and on nothing
  else, except `C04_two_sided_invokes`, which needs only `propext` and `Quot.sound` (checked with
  `#print axioms` for all of them).
* The reading of the Python source: each model definition cites the file and lines it models, and states
  its simplifications there.
* The modelling conventions below.
* Evidence for the reading: `Verif/Tests` evaluates the model on every non-plotting test of `/repo/tests`, the
  docstring examples and the outputs printed in the notebooks, and obtains the asserted values; the seeded ones
  (`RandomState(1234)`, `420`, `69`) also exercise the model of NumPy's generator.

### Modelling conventions (what is abstracted)

* **Numbers.** Quantities, prices and times are exact rationals (`ℚ`), except in the floating point
  models (`Model/Float*`, C77 and following), where every operation rounds: a number format `Fmt` is any
  monotone, symmetric, idempotent rounding with relative error `eps < 1` that commutes with doubling.
  `binary p` (p bits, ties to even; `float64 = binary 53`) and exact arithmetic are proved to be
  instances. The exponent is unbounded (no overflow, no subnormals); C101 proves that for bids of moderate size the runs are
  the same with the bounded exponent of float64 (`Model/Ieee`). `sum()` is any bracketing and order
  of rounded additions (`Summer`), because NumPy sums pairwise; `cumsum` is left to right. `np.inf` is modelled (`WithTop ℚ` in curves; `Val` = finite/inf/-inf/nan for the
  clearing price); a division 0/0 in the split is reported as the value `nanQuantity`; `Model/Nan` follows
  the real code, which goes on with NaN entries, and C105 proves that the mark stands for exactly those logs. There pandas sums
  skip NaN and NumPy sums do not (`Series.sum`, `groupby().sum` vs `.values.sum()`). `round(prec)` is rounding to the nearest multiple of `10^-prec`, ties to even.
  User ids are `ℤ`, bid ids/labels are `ℕ`.
* **DataFrames.** A bid frame is a list of rows, each carrying its index label. `.loc`, `.iloc`,
  boolean masks, `reset_index`, `concat`, `groupby` are modelled by the list functions they denote.
  dtypes (bool/int/float/object upcasts) are not modelled.
* **Sorting.** `sort_values` uses quicksort (unstable). The model is parameterised by an arbitrary
  `Sorter`: any function of the key column returning *some* permutation that sorts it. Theorems
  hold for every `Sorter`. A stable insertion sort is the witness that `Sorter`s exist.
* **Randomness.** `r.rand()`, `r.choice`, `Series.sample` and the generator's draws are oracles: arbitrary
  functions universally quantified in theorems. Where a claim is about probabilities (C68, C87, C88) the
  theorem counts the draws; that they are uniform and independent is assumed. `Model/RandomState` models
  what NumPy's `RandomState` does with the 32-bit words of its generator; C92 reduces the oracles to those
  words and C93 corrects the fair coin assumed in C68. The algorithms of NumPy are read from its documented
  behaviour (NumPy is not in `/repo`); `Series.sample` remains an oracle.
* **Exceptions** are values: every function that can raise returns `Except PyErr _`.
* **Loops** are structural or well-founded recursions (the P2P loops terminate for every choice sequence;
  `update_quantity` on the number of entries left).
* **LP solver** (pulp/CBC): the linear programs are built by the model exactly as the code builds
  them; the solver is an oracle. `C39` proves that the programs have an optimum, `C37`/`C38` assume that
  the solver returns its value.
* **Not modelled:** matplotlib and networkx themselves (only the data handed to them), floating-point
  overflow, negative infinity in bids, infinite quantities in merged bids other than for Huang's auction (`Model/MergeUnlimited`) (NaN quantities are treated apart in `Model/Missing` and, with merging, `Model/MergeMissing`, NaN prices in `Model/MissingPrices`, `Model/MudaMissingPrices` and, with merging, `Model/MergeMissingPrices`; infinite quantities and infinite prices are treated apart in `Model/Unlimited`, without merging and without the rounds of MUDA, and in `Model/MarketOrders` and `Model/MudaMarketOrders`, without merging), dtype effects, printing, packaging, the notebooks other than the mechanism defined
  in `docs/new_mechanism.ipynb`.

### Known differences from pandas that the model leaves out

* `merge=True` on a frame without rows on one side: the aggregated `buying` column becomes a float column
  and indexing with it fails in some pandas versions. The model treats it as a boolean.
* `merge=True` on an empty frame, and `calculate_profits` on an empty merged frame: pandas raises or
  returns an empty frame depending on the version. The theorems about books are about the list semantics.
* `Series.sample(1)` inside `agg` returns a one-element series in some versions; the model takes the
  element.
* `np.arange` with float bounds may include or omit the last point because of rounding; `Model/Datasets` is exact,
  `Model/FloatDatasets` rounds (C103).

## Hypotheses that occur often

* `IsTable df`: the labels of the frame are `0, 1, 2, …` — what `BidManager.get_df` produces
  (`C01`), so no restriction for markets.
* `NonNeg df` / `∀ r ∈ df, 0 ≤ r.quantity`: non-negative quantities (and prices). The code does not check
  this; `C112` shows what happens with negative quantities.
* `GroupPos`: no price group has total quantity 0 (`C48` shows what happens otherwise).
* `GroupQty`: the same without a condition on the signs of the prices; `SignsOk`: buying prices are not
  negative when the mechanism is Huang's auction (`C100` shows what happens otherwise).
* `UsersInRange df`: user ids `0..n-1` (`C32` shows what happens otherwise).

## Findings (claims the code violates; each refuted with a concrete book)

| id | finding |
|---|---|
| C09 | a profitable trade is missed when both curves take the same price at some quantity |
| C11 | the competitive price does not clear when both curves step at the equilibrium quantity |
| C18 | `quantity_traded` is positive although nothing is traded when no seller is intramarginal |
| C30 | MUDA overwrites the fee of the left half for users trading in both |
| C32 | MUDA raises `IndexError` for user ids with gaps |
| C33 | MUDA is not truthful for users with several bids |
| C41 | fees are added to the market maker's profit but never charged to users |
| C43 | `percentage_welfare` ignores the reservation prices |
| C48 | 0/0 in the split for price groups of quantity 0, also for generated books |
| C51 | the equilibrium depends on the order of bids with equal prices |
| C52 | the P2P graph also shows meetings in which nothing was traded |
| C53 | the P2P graph puts users in the first row by bid id instead of user id |
| C54 | the edge label is the last quantity exchanged, not the total |
| C55 | with merge, the source column of P2P names the wrong bid, possibly the buyer's own |
| C56 | with merge, MUDA raises `IndexError` when a merged group wins on the long side |
| C58 | with merge, prices exceed the limits by up to half a unit of the fifth decimal |
| C59 | with merge, reporting the price of another winner pays: the merged group is curtailed only once; overstating the quantity pays also without merge; with a sort that is not stable, a report can change the order of equal prices and pay (`C59_unstable_refuted`) |
| C60 | with merge, prices below the fifth decimal are rounded away, so the unit of price matters |
| C61 | the shaded "market profit" of the Huang figure misses its last strip; with merge, the MUDA figure draws bids in the wrong half |
| C62 | splitting with a fee dictionary raises `AttributeError` as soon as a merged bid has a transaction |
| C71 | a new buyer can lower the competitive price, when both curves step at an equilibrium quantity |
| C76 | with bids on both sides of one half a misreport pays (`C76_two_sides`) |
| C77 | in float64 a bid can trade more than its quantity (`C77_capacity_refuted`) and, for `p_coef` = 0.2, a buyer can pay more than the bid (`C77_prices_refuted`) |
| C78 | in float64 three sellers of 0.1 facing a buyer of 1e-20 make the auction raise `ValueError` (`C78_returns_refuted`); a seller of 0.8 facing a buyer of 0.3 sells 0.30000000000000004, and the market maker can lose money (`C78_balance_refuted`) |
| C79 | in float64 eight buyers of together 5.7 and a seller of 5.7: pairwise `sum()` is above the last `cumsum()` entry, `np.argmax` returns 0, and the seller sells 5.7 while only the first buyer (1.3) buys (`C79_balance_refuted`); with a ninth buyer a negative quantity is traded (`C79_negative_refuted`) |
| C80 | `calculate_profits` fills the caller's dictionary with bid prices keyed by bid id; passed to another market it values that market's bids at the first market's prices (`C80_reuse_refuted`) |
| C81 | in float64 5.000075 is slightly below its decimal, the product with 10^5 is rounded up to the tie, and the bid is not merged with one at 5.00007 although both have these five decimals (`C81_same_decimals_refuted`) |
| C82 | in float64 two merged buyers of 0.1 and 0.7 buy everything they ask for, and the share of the first is 0.10000000000000002 (`C82_capacity_refuted`) |
| C83 | `huang_auction` without merging cuts every bid by the same amount, so a bid submitted in two parts is cut twice (`C83_direct_refuted`); the class always merges |
| C85 | a buyer can lower the price it pays by asking for less (`C85_understate_refuted`), and can get more units by asking for more (`C59_quantity_refuted`) |
| C86 | in float64 `percentage_traded` can exceed 1 even against the exact optimum (`C86_share_above_one`) |
| C88 | of two bids of different users at the same price the one submitted first trades (`C88_muda_refuted`, `C88_huang_refuted`) |
| C89 | in float64 with merging, two buyers of 0.1 and 0.7 get 0.8 together, but their shares add up to more than 0.8: a bid trades more than its quantity and more is bought than sold (`C89_p2p_refuted`, `C89_muda_refuted`) |
| C90 | reporting the true price is not a best reply in peer to peer trading, for any `p_coef` (`C90_refuted_sellers`, `C90_refuted_buyers`, `C90_refuted_shading`) |
| C93 | `r.rand() > 0.5` is not a fair coin: it succeeds with probability 1/2 - 2^-53, so partitions of equal size are equally likely but smaller left sides are slightly preferred (`C93_refuted`) |
| C96 | the uniform price half way between the marginal prices can leave out buyers willing to pay it (`C96_refuted`) |
| C97 | reporting the true price is not a best reply under the uniform price (`C97_refuted_buyer`, `C97_refuted_seller`, `C97_refuted_loser`) |
| C98 | peer to peer trading can trade twice the competitive quantity (`C98_p2p_refuted`) |
| C99 | with `merge=True` `percentage_traded` can exceed 1, `percentage_welfare` can be negative and a user can lose (`C99_refuted_traded`, `C99_refuted_welfare`, `C99_refuted_profits`) |
| C100 | with negative bids Huang's auction charges buyers more than they bid, `percentage_traded` can be 2 and `percentage_welfare` negative (`C100_refuted_prices`, `C100_refuted_traded`, `C100_refuted_welfare`) |
| C101 | none inside the range; with prices of 2^-1074 P2P trading sells below the ask (`C101_needs_range`) |
| C102 | on one-sided markets wrong arguments are silently accepted (`C102_refuted`); on books with duplicate bids MUDA reports these instead |
| C103 | two buyers get the same price with offset 2^53 (`C103_refuted`); with eps = 1/49 and offset 1 a price of 2 is possible (`C103_below_refuted`) |
| C104 | keener losers can change the outcome (`C104_keener_matters`) |
| C106 | the market's profit is `NaN` as soon as one entry is, also on generated books (`C106_refuted`): it is the only statistic summed with `.values.sum()` |
| C107 | two ids with the same residue share one entry, the later fee replaces the earlier (example) |
| C108 | in float64 MUDA buys one unit more than it sells when the total exceeds 2^53 (`C108_bound_needed`) |
| C109 | without any possible trade the log still has two entries of quantity 0 for every buyer and seller (`C109_no_deals`) |
| C110 | the percentage of welfare of a run can be arbitrarily close to 0 although the volume is maximal (`C110_no_fixed_share`) |
| C111 | a bid of quantity 0 makes a competitive price where there is none, and MUDA trades the other half at it: user 0 gains 7 by offering nothing (`C111_muda`) |
| C112 | p2p sells -1 and then 3 of 2 units (`C112_single_refuted`); with a negative total nobody meets although two bids could trade (`C112_complete_refuted`); MUDA can "buy" -1 unit |
| C113 | nothing prevents a user from trading with themselves (`C113_self_refuted`) |
| C114 | the bound is attained by two buyers and two sellers (4 of 16 outcomes); one buyer and one seller never trade (`C114_trades_refuted`) |
| C115 | ties between a buying and a selling price, or a free offer, can stop all trade although the halves are equal (`C115_ties_refuted`, `C115_free_refuted`) |
| C116 | ties and free offers lose all gains although the halves are equal (`C116_ties_refuted`, `C116_free_refuted`) |
| C117 | dividing a bid pays with the uniform price of the documentation (`C117_uniform_refuted`) and in MUDA (`C117_muda_refuted`); conversely, joining bids pays in `huang_auction` (the example there) |
| C118 | less than any share of the gains can be realised while almost all of the volume is traded (`C118_refuted`) |
| C119 | free supply beyond the demand leaves the curves without a crossing, and nothing is traded although 3 units could be (the example there) |
| C120 | the auction becomes efficient in large markets only if the market maker's income counts as a gain; the traders alone never get all of it |
| C121 | the price clause holds up to half a unit of the fifth decimal and exactly for prices of at most five decimals; a buyer at 1.000006 pays 1.00001 (`C121_refuted`) |
| C122 | one new buyer can stop all trade of Huang's auction, by being large or by tying (`C122_refuted`); the volume lost is less than the largest bid as long as a marginal pair remains (`C122_volume_partial`) |
| C123 | one rounding error when the last bid is cut (`C123_balance_refuted`); with eight bids on a side NumPy's `sum()` differs from the curve and a seller can sell a negative quantity (`C123_refuted`) |
| C124 | refuted for all four mechanisms: the equal cut of `update_quantity` leaves the small bids with less than they could use of a larger one's trade (`C124_huang_refuted`), merged groups are cut as one (`C124_class_refuted`), the uniform price serves only the cleared quantity (`C124_uniform_refuted`), MUDA treats its halves differently and charges the better of two traders more (`C124_muda_refuted`), and in P2P the first comer is served (`C124_p2p_refuted`) |
| C125 | MUDA compares the bids of one half with the mean of two prices of the other (`C125_muda_refuted`); merging compares rounded prices (`C125_class_refuted`) |
| C126 | the demand curve ends at price 0, so books with price 0 break it (`C126_zero_refuted`); merging rounds (`C126_class_refuted`) |
| C127 | on ties MUDA always charges the buyers: an exception or another fee on one side only (`C127_muda_refuted`, `C127_muda_trades` for the rest); without trade Huang's auction reports the quantity of the buyers (`C127_quantity_refuted`) |
| C128 | false in all four mechanisms (`C128_*_refuted`). With the uniform price it holds whenever the price serves all willing bids (C96), and the quantities are always right for some price (`C128_supported`). In Huang's auction a group misses at most what all bidders together miss (`C128_huang`). In MUDA the groups of one half whose members on the longer side trade in full are safe (`C128_muda_partial`). In the peer-to-peer market only groups without any trade are safe (`C128_p2p_partial`) |
| C129 | false when an unlimited buyer could trade with an unlimited seller: then the curves never cross, Huang's auction trades nothing at all (`C129_huang_blocked`) and the uniform price raises `TypeError` (`C129_uniform_blocked`); the peer-to-peer market computes inf - inf and ends at once (`C129_p2p_refuted`). The price of a MUDA half without trade changes from infinite to half the price of the unlimited seller (`C129_muda_price_refuted`). The trades of a MUDA round at a given price are those of the filled book (`C129_muda_round_partial`), unless both sides have an unlimited bid that wants to trade: then all bids that want to trade do so in full (`C129_muda_round_both`), also those left out in the filled book (`C129_muda_round_refuted`). No round raises, trades `nan` or more than a bid has (`C129_muda_round_ends`). The fee of a user for given trading rows is the same with any quantities larger than the traded one in place of the unlimited ones (`C129_muda_fee`), and zero when the traded quantity is infinite (`C129_muda_fee_both`). With merging Huang's auction always ends with finite trades, and no bid trades that is unlimited or has the price of an unlimited bid (`C129_merged_huang`); what is bought and what is sold is the reported quantity (`C129_merged_totals`), and all bids better than the prices trade (`C129_merged_winners`) |
| C130 | Huang's auction is safe in the strict sense (not every member gains), but a losing bid that sets the price can do the winners a favour (`C130_huang_refuted`). In MUDA two buyers in different halves lower each other's price and both gain (`C130_muda_refuted`) although neither could do so alone; in the other mechanisms one bid is enough |
| C131 | false when the buyers at any price ask for more than the sellers with a finite price offer: the demand then never falls below the supply, Huang's auction trades nothing (`C131_huang_blocked`), the uniform price raises `TypeError` (`C131_uniform_blocked`) and a half of MUDA gets an infinite price (`C131_muda_blocked`). In peer to peer trading a buyer at any price pays an infinite price, or NaN when its price has weight zero (`C131_p2p_price`) |
| C132 | false when a half has an infinite price, for instance because its bids do not cross: the buyers at any price of the other half then buy all they can at an infinite price (`C132_infinite`, `C132_refuted`), although with a very high price nobody would trade. Fees may be infinite for a user that trades at a small price, but never NaN (`C132_fees`) |
| C133 | false for MUDA, whose second run splits the bids anew (`C133_muda_refuted`), and for the function `huang_auction` with equal prices that change their order between the runs (`C133_huang_refuted`); the class `HuangAuction` merges them first and is not affected (`C133_huang_class`). Huang's auction reports the same two prices again: repeating it never gains what the first run left out |
| C134 | with quantities 1 and -1 at one price and a seller of a negative amount, peer to peer trading logs infinite quantities, and the profits of the players and of the market are NaN (`C134_infinite`) |
| C135 | the bounds are reached. Huang's auction, MUDA and peer to peer trading jump when a thousandth of a unit is added, and the uniform price starts to raise when the added quantity makes the curves meet in a tie. Huang's auction jumps by at most the largest quantity of a bid more. Missing for the full claim: Huang's auction without this allowance, MUDA, peer to peer, and ties, where it is false |
| C136 | without the same order Huang's volume, the uniform price and peer to peer trading jump; MUDA's volume jumps even with the same order. Missing for the full claim: changes of the order, and MUDA, where it is false |
| C137 | two markets with prices far apart trade 1 each in Huang's auction and 2 each with the others, and no more than 1 and 2 together. Missing for the full claim: the sum for the mechanisms, where it is false; the uniform price and Huang's auction reach the larger of the two, the latter but for one bid |
| C138 | one NaN quantity stops every mechanism: Huang's auction, the uniform price and MUDA raise `IndexError`, peer to peer trading ends without a meeting (`C138_*_blocked`). NaN prices are harmless in peer to peer trading. In Huang's auction they are as long as the trade does not use up the demand or the supply that has prices (`C138_huang_prices_partial`); otherwise nobody trades (`C138_huang_prices_blocked`, `C138_huang_prices_refuted`). In the same case the uniform price raises `TypeError` (`C138_uniform_prices_blocked`), and a half of MUDA gets an infinite price, at which the other half does not trade (`C138_muda_price_blocked`, `C138_muda_infinite`, `C138_muda_prices_refuted`). With merging, as always in `Market.run(algo='huang')`, `groupby` drops the bids without a price and nothing else changes (`C138_merged*`), except that MUDA may raise `IndexError` if the user with the largest id has no priced bid (`C138_merged_muda_refuted`). Merging adds up quantities with a sum that skips NaN, so the other bids trade as with a quantity of zero, but the bid itself may get a transaction of quantity NaN (`C138_merged_quantities_partial`, `C138_merged_quantities_refuted`) |

## Per-property plan


| id | modelled | proof |
|---|---|---|
| C01 | `BidManager` as counter + list, `add_bid` | induction over the list of calls |
| C02 | `TransactionManager`, `merge` as the two add loops | induction over logs |
| C03 | `Market` state machine over `accept_bid/run/statistics` ops, errors as values | refinement to "list of accepted bids + last successful run" by induction over histories |
| C04 | `Mechanism._run` guard | case analysis, for every mechanism |
| C05 | `demand_curve_from_bids`, `get_value_stepwise` | Galois connection between curve value and cumulative quantity, induction on the sorted list |
| C06 | `supply_curve_from_bids` | same |
| C07 | `get_value_stepwise` | induction on rows |
| C08 | `intersect_stepwise` (grid, extension, last crossing, argmax) | monotonicity of curves + grid lemma: curves are constant between grid points |
| C09 | same | grid induction; counterexample for the tie case (partial) |
| C10 | same, `Val` arithmetic for k-mix | convexity |
| C11 | `find_competitive_price` | from C05/C06/C08; counterexample for the double-step corner (partial) |
| C12 | `update_quantity` with NaN as `none` | loop invariant; well-founded on number of non-NaN entries |
| C13–C18 | `huang_auction` and `Mechanism` with merge/split | from C08, C12, C34, C36; C18 partial with counterexample, and an exact characterisation of when the report is right (`C18_exact`) |
| C19–C23 | `p2p_random` with a choice oracle; loops by well-founded recursion | invariants over rounds and meetings |
| C24–C32 | `muda`, `solve_market_side…`, `get_trading_bids`, `compute_fee`, decorator | prefix-allocation lemma (fractional knapsack); C30, C32 partial with counterexamples |
| C33 | same | VCG argument from C27; counterexample for multi-bid users |
| C34–C36 | `merge_same_price`, `new_player_id`, `split_transactions_merged_players` | list partition lemmas |
| C37–C39 | LP construction as data; optimality as a predicate | transport-plan construction; explicit greedy optimum |
| C40–C43 | `calculate_profits`, `get_gain`, `percentage_welfare` | sums over joins; C41, C43 negated by counterexample |
| C44–C45 | `generate` with selection oracle | list lemmas + C32 |
| C46 | all mechanisms | naturality of every step in the non-price/quantity attributes |
| C47 | huang | uniqueness of sorted strict lists, C08 uniqueness |
| C48 | huang | from C12, C36; counterexample for zero quantities |
| C49 | `plot_method` key logic | case analysis over the last run |
| C50 | `plot_demand_curves` data | induction on curve rows |
| C51 | `intersect_stepwise` through order of rows | sorted lists with distinct keys are unique; counterexample for ties |
| C52–C54 | `plot_trades_as_graph`: edge list, edge labels, first row of the layout | from C23 (log structure); counterexamples for failed meetings, user/bid id confusion, repeated pairs |
| C55 | P2P through `Mechanism` with merge | C23 for merge off; counterexample for merge on |
| C56 | MUDA through `Mechanism` with merge | distinct prices after merging (C34) rule out the decorator; C32 on the merged frame; counterexample for fresh ids |
| C57 | P2P, MUDA through `Mechanism` with merge | C20/C25 on the merged frame lifted through C34/C36 |
| C58 | same | C21/C26 on the merged frame plus the rounding bound; counterexample with six decimals |
| C59 | huang (`Props/HuangTruthful.lean`, with equal prices `Props/HuangTies.lean`) | the crossing moves monotonically with a report; a winner's outcome does not depend on its price: the other winners stay the same, because they are strictly better than the cut, or because a stable sort lists the others in the same order; counterexamples with merged groups and an unstable sort |
| C60 | all mechanisms | naturality of every step in scaling; counterexample through rounding |
| C61 | `plot_huang_auction`, `plot_both_side_muda` parameters | from C13–C18, C24, C50 |
| C62 | `split_transactions_merged_players` with fees | case analysis over the log |
| C63 | `intersect_stepwise`, `find_competitive_price`, LP of `maximum_aggregated_utility` | some price clears x; proportional allocation at it settles (C39 plan) and weak duality bounds every plan |
| C64 | huang | prefix sums: x lies inside the marginal bid on both curves |
| C65 | huang | the curves agree up to x and still do not cross after it |
| C66 | huang | from the lemmas of C59: crossing after a report |
| C67 | `calculate_profits` on the outcome of every mechanism | from C40 and individual rationality / budget lemmas (`Sound`) |
| C68 | `muda` partition | coin lists and filtered label lists are in bijection |
| C69 | huang through `Mechanism` with merge | groups are singletons; both runs sort the same strict list |
| C70 | `p2p_random`, LP of `maximum_traded_volume` | invariant: a met pair exhausts one side; vertex cover bound |
| C71 | `intersect_stepwise` | order of the curves from order of the cumulative quantities; crossing cannot move left; counterexample when both curves step |
| C72 | huang, LP of `maximum_aggregated_utility` | weak duality at a clearing price; both sides lose at most the top value per unit given up |
| C73 | huang | the sorted sides keep their prefix up to the marginal bid; renaming of ids |
| C74 | `intersect_stepwise`, `get_value_stepwise` on any rows | grid of the common domain, last sign change, monotone case by convexity of the crossing set |
| C75 | all mechanisms | naturality of every step in the user column; fees by uniqueness of the externality (C27) |
| C76 | `muda` | VCG inequality for the long side of a half with the set of own bids replaced; the price of a half comes from the other half |
| C77 | `p2p_random` in rounded arithmetic (`Model/Float.lean`, `Model/FloatP2P.lean`) | the loop analysis of C19–C23 redone for any rounding; the error of the remaining quantity accumulates one `eps` per meeting; halving is exact |
| C78 | `demand_curves.py`, `update_quantity`, `huang_auction` in rounded arithmetic (`Model/FloatHuang.lean`) | backward stability: rounded running totals are exact running totals of perturbed quantities, so the analysis of C06–C18 applies to the perturbed book; the curtailment loop is analysed with one rounding error per iteration |
| C79 | `muda_auction.py` in rounded arithmetic (`Model/FloatMuda.lean`) | backward stability of the curves as in C78; the position where trading stops is bracketed by running totals one rounding error apart from `sum()`; fees are not negative because `np.abs` is applied after rounding |
| C80 | `Market.statistics` on top of the state machine of C03 | induction over histories; every transaction names a row of the table whatever the book (labels are never invented by the mechanisms; the split checks them); prefixes of tables agree on known bids |
| C81 | `merge_same_price`, `split_transactions_merged_players`, `Mechanism.run` in rounded arithmetic (`Model/FloatProcessing.lean`) | monotone rounding keeps the order, so the group analysis of C34 applies with the rounded price as key; one rounding error per addition, two per share |
| C82 | `HuangAuction` through `Mechanism.run` in rounded arithmetic | C78 on the merged table, lifted through the description of merging and splitting of C81; each bid is in one group, so the bounds add up |
| C83 | `Mechanism.run` with merging for the three mechanisms (`Props/Totals.lean`) | the merged table is determined by the totals except for the users (strictly sorted prices, one row per price, quantity = total); the mechanisms do not look at users (C75) but for the fees of MUDA; the split gives each bid its share of the entry of its group |
| C84 | the two linear programs and the curves (`Props/ClosedForm.lean`) | weak duality bounds every plan by every price; a greedy plan (best buyers against cheapest sellers) attains the bound for volume, a market clearing price attains it for welfare |
| C85 | `huang_auction` (`Props/HuangQuantity.lean`) | the bids in front of the marginal prices form the two sides, each cut by one amount so that the totals agree; monotonicity of the cut totals in the cut and in the quantities |
| C86 | `profits.py`, `percentage_traded`, `percentage_welfare` in rounded arithmetic (`Model/FloatStats.lean`) | a calculus of relative errors (`Near`) for each sum; an invariant with the compensation for the compensated sum; the entries of buyers and sellers of a peer to peer log are the same list |
| C87 | `p2p_random` (`Lemmas/P2PExec.lean`, `Props/P2PDistribution.lean`) | the two loops as predicates on the draws; a simulation between the masks of the code and the open pairs of the specification; counting the residues modulo the number of options; renaming commutes with every step |
| C88 | `huang_auction`, `muda` (`Props/SubmissionOrder.lean`) | sorting by distinct prices forgets the order of the input; every later step commutes with renaming the bids; reindexing the coins is a bijection |
| C89 | `Mechanism.run` with merging around the rounded `p2p_random` and `muda` (`Props/FloatMergedRuns.lean`) | C77 and C79 on the merged table, lifted through the split with the bounds of C81 |
| C90 | `p2p_random` on two tables that differ in one price (`Props/P2PTruth.lean`) | induction over the rounds: the runs agree until the only possible meeting of the bid; witnesses for every coefficient via C87 and C91 |
| C91 | `p2p_random` for several coefficients, and the statistics of its runs (`Props/P2PCoef.lean`) | induction over the rounds and over the meetings of a run; the money paid cancels in the welfare |
| C92 | `p2p_random`, `muda` and `generate` driven by the words of a `RandomState` (`Model/RandomState.lean`, `Props/RandomDraws.lean`) | masking is a remainder, so equally many words give each value; the exchanges of `shuffle` are undone one by one; simulation of both loops of `p2p_random`; the words are those of MT19937 (`Spec/Twister.lean`, `Props/Twister.lean`) and its output transformation is a bijection |
| C93 | the coins of `muda` from the words of a `RandomState` (`Props/RandomCoin.lean`) | count the pairs of words above one half; product over the bids |
| C94 | `uniform_price_mechanism` and its class of `docs/new_mechanism.ipynb` (`Model/Uniform.lean`, `Props/Uniform.lean`) | at the crossing one of the sides ends exactly at the clearing quantity, so both loops serve the front of the side and part of the marginal bid; totals per side |
| C95 | as C94, with the statistics | a market that serves better bids first gains what all bids could gain at any clearing price; one exists by the crossing, then duality as in C63 |
| C96 | as C94 | counting: a willing bid that is not served leaves too much demand above a clearing price; `C96_exact` says when it holds: as much as is demanded above and offered below the price is traded |
| C97 | as C94, on two tables that differ in one price (`Props/UniformTruth.lean`) | the crossing does not move (C59), the front keeps its labels; witnesses |
| C98 | the three mechanisms and the crossing of the curves (`Props/Volumes.lean`) | demand and supply of the book are the sums of those of the halves and monotone in the price; each half trades at most what is willing there at the other half's competitive price, C08 and C26 |
| C99 | the statistics of `Market.statistics` after `Market.run` with `merge=True` (`Props/MergedStatistics.lean`) | the groups of the outcome on the merged book, split among the bids, are groups of the book with rounded prices, which is the book itself for five decimals; a conserving outcome is a trade plan, whatever the prices |
| C100 | all mechanisms on books with prices of any sign (`Lemmas/HuangSigned.lean`, `Props/NegativePrices.lean`) | the curves and the crossing loop without the sign condition: the marginal seller exists, the marginal buyer may be the point at infinity with price 0; the rest of the auction is the same |
| C101 | `roundIeee` (binary64 rounding with bounded exponent) against `float64`; every floating point mechanism (`Model/Ieee.lean`, `Lemmas/Ieee*.lean`, `Props/Ieee.lean`) | each value of a run is a multiple of some 2^-e and at most n*2^m; operations keep this with growing e and m, and in that range both roundings agree; `C101_nearest` checks `roundIeee` against the definition in IEEE 754 |
| C102 | the binding of `*args, **kwargs` through `Market.run`, the mechanism classes, `Mechanism.__init__`, the decorator and the algorithms (`Model/Call.lean`, `Spec/Call.lean`, `Props/Call.lean`) | the binding agrees with the relation `Gets`; the algorithm is only called on two-sided (merged) tables; C21 and C22 for the coefficient |
| C103 | `generate` with every division, product and sum rounded (`Model/FloatDatasets.lean`, `Spec/FloatDatasets.lean`, `Props/FloatDatasets.lean`); `np.arange` as `ceil((1-0)/eps)` entries `k*eps` | error bounds for the length; in float64 an index above the exact length means `1/eps` is at least half a last place above it, so that the product stays half a last place below 1; C79 for MUDA |
| C104 | `Market.run('huang')` with merging and splitting (`Lemmas/HuangMerged.lean`, `Props/HuangMerged.lean`) | the merged and the rounded book have the same curves, so that C64 and C72 apply to the merged book and are lifted through the split; for two books with the same front the marginal positions, the reduced quantities and hence the logs agree up to ids |
| C105 | split with IEEE values (`Model/Nan.lean`, `Lemmas/ZeroGroups.lean`, `Props/ZeroGroups.lean`) | merge specification without positive totals; the proper entries of a split log are the split of the transactions of non-empty groups, the dropped ones have quantity 0; the mark `nanQuantity` of `Model/Processing` is shown to stand for exactly these logs |
| C106 | statistics on logs with `NaN` (`Model/Nan.lean`, `Props/ZeroGroups.lean`) | induction over the log: pandas sums skip `NaN`, NumPy sums do not |
| C107 | `npSet`, `feeLoop`, `computeFee`, `muda` (`Lemmas/MudaResidue.lean`, `Props/MudaResidue.lean`) | MUDA uses ids only through equality and as array positions, so a renaming that keeps ids apart and keeps positions changes nothing; C27 transported along an injective extension of the reduction modulo n |
| C108 | the rounded mechanisms of C77 - C79 without merging (`Lemmas/Whole*.lean`, `Props/Whole.lean`) | every partial sum and remainder of multiples of the unit is again a multiple within the bound, so that rounding is the identity along every loop; prices and products likewise with half the price unit |
| C109 | `p2p_random` (`Props/P2PRounds.lean`) | a pair that meets in the last round was open in all earlier rounds, so each of these contains another pair with one of its two bids, and there are n-2 such pairs; every exchange exhausts a bid and the last one starts with two bids that have something left |
| C110 | `p2p_random`, `gains` and `BestWelfare` as in C38 (`Props/P2PWelfare.lean`) | C22 and the cover bound of C70 for the lower bound; a family of books with a parameter and C87 for the run that realises only 2 of H+1 |
| C111 | curves, `huang_auction`, `find_competitive_price`, `muda` (`Props/Phantom.lean`) | rows of quantity 0 neither move a breakpoint above 0 nor a value there, so crossings at positive quantities are the same; the water-filling levels agree because the totals do; a new crossing can only be at 0; witness for MUDA |
| C112 | curves, `huang_auction`, `update_quantity`, `muda`, `p2p_random` (`Props/NegativeQuantities.lean`) | a partial sum below 0 is a grid point below 0, the smallest one is looked up first, the lookup gives `None`; without one the loops of the curves are total; water-filling does not need signs (`C12` no longer assumes them); in a meeting both rests become non-negative |
| C113 | `p2p_random` (`Props/WhoTrades.lean`) | a positive entry comes from a compatible meeting of bids with something left (induction over the meetings); conversely the pair is drawn first, since before the first round all pairs are candidates |
| C114 | `muda`, `find_competitive_price` (`Props/MudaThin.lean`) | a finite competitive price lies between the marginal bids of its half; the coins of a trading outcome are constant neither on the buyers nor on the sellers, and restricting to the two sides is injective |
| C115 | `muda`, `find_competitive_price` (`Lemmas/MudaWalk.lean`, `Props/MudaEfficient.lean`) | the quantity a half has on one side above a price, minus that of the other half, is a prefix of a random walk along the sorted bids; the maximal inequality of Kolmogorov, as a count of outcomes of the coins, bounds all prefixes at once. A half clears at its competitive price the most it can, and the other half at that price at most 2 eps less |
| C116 | `muda`, `find_competitive_price` (`Lemmas/MudaServed.lean`, `Props/MudaGains.lean`) | a price clearing one half bounds every trade plan by what all bids claim at it (duality); a half serves its best willing bids first, so it loses at most 4 P eps of its own claims, and the claims of the halves differ by at most 2 P eps. If a half clears nothing, the whole market gains at most 2 P eps |
| C117 | `huang_auction` (`Lemmas/FalseNames.lean`, `Props/FalseNames.lean`), `uniform_price_mechanism`, `muda` | the curves depend on the totals per price only, so both runs have the same crossing; the bids in front of the marginal price are all cut by one amount, the totals agree, and parts lose at least as much to a cut as the whole |
| C119 | `intersect_stepwise`, `huang_auction`, `muda`, `uniform_price_mechanism` (`Props/MarketPrice.lean`) | the curves are the inverses of the quantities demanded and supplied at a price, so a crossing is a marginal pair; without equal prices a curve steps at x exactly if the marginal bid is used up at x |
| C120 | `huang_auction` (`Props/Replicas.lean`) | a marginal pair of the book (C119) is one of its copies at m times the quantity; the loss is bounded by C72 and C64, the best outcome by a clearing price, which is the same for the copies |
| C121 | `uniform_price_mechanism` through `Mechanism` with `merge=True` (`Props/UniformMerged.lean`) | the merged book has different prices on each side, so C94 and C119 apply to it; its curves are those of the book with rounded prices, and splitting keeps shares, prices and order |
| C122 | `huang_auction`, `find_competitive_price` on two books (`Props/Entry.lean`) | the crossing moves right (C71), the other side's curve is unchanged and monotone; the volume is within the marginal bids of the crossing (C64) |
| C123 | `uniform_price_mechanism` in rounded arithmetic (`Model/FloatUniform.lean`, `Props/FloatUniform.lean`) | backward stability of the curves as in C78; the loop over the long side adds in the order of the curve, so with sums from left to right the last bid of the long side is the only one cut |
| C124 | all four mechanisms; gains are those at the stated limits (`Spec/Envy.lean`, `Props/Envy.lean`) | Huang: shares of the cut are monotone in the quantity; class: equal rates (C83); uniform price: C96; MUDA: the fee is an externality (C27), so it is at least what the envious bid could have gained with the quantity |
| C125 | all four mechanisms, Huang's also with merging (`Spec/Reprice.lean`, `Props/Reprice.lean`) | every order preserving change of finitely many prices is the restriction of a strictly increasing function fixing 0 (interpolation); the model commutes with such functions |
| C126 | all four mechanisms, Huang's auction and MUDA also with merging (`Spec/Surcharge.lean`, `Props/Surcharge.lean`) | the curves with the surcharge are the image under a strictly increasing function fixing 0 (C125); at the crossing both values are prices of bids, where that function adds the surcharge; the rest of MUDA uses only comparisons with and differences to the price |
| C127 | all four mechanisms without merging (`Spec/Mirror.lean`, `Lemmas/Mirror.lean`, `Lemmas/MirrorMech.lean`, `Lemmas/MirrorP2P.lean`, `Props/Mirror.lean`) | the demand curve of the exchanged book is the mirrored supply curve, so the crossing is the same with the positions exchanged; Huang trims the same side, also when the gap is 0; a half of MUDA has the same long side unless demand equals supply; the meetings of the peer-to-peer market are characterised by C87, which is symmetric |
| C128 | all four mechanisms without merging (`Spec/Groups.lean`, `Lemmas/Groups.lean`, `Props/Groups.lean`, `Props/GroupsMuda.lean`) | a plan among the members is a plan of the book in which outsiders have quantity 0, so it is worth at most what the members could gain at any common price (weak duality); at a clearing price everybody gains just that |
| C129 | the curves, Huang's auction, the uniform price, peer to peer trading and the price of a MUDA half without merging (`Model/Unlimited.lean`, `Spec/Unlimited.lean`, `Lemmas/Unlimited.lean`, `Lemmas/UnlimitedBook.lean`, `Lemmas/UnlimitedP2P.lean`, `Props/Unlimited.lean`); Huang's auction with merging in `MergeUnlimited.lean` (`Model/`, `Spec/`, `Lemmas/`, `Props/`); the trades of a MUDA round and the fee of one user in `MudaUnlimited.lean` (`Model/`, `Spec/`, `Lemmas/`, `Props/`) and `Props/MudaUnlimitedFee.lean` | running totals with and without infinities agree up to the total of the limited bids; the crossing lies below it; peer to peer: what an unlimited bid has left in the filled book exceeds what is left of all limited bids |
| C130 | Huang's auction, MUDA, the uniform price and peer to peer trading without merging; every bid counts as a bidder of its own (`Spec/GroupReports.lean`, `Lemmas/GroupReports.lean`, `Props/GroupReports.lean`) | a bid that trades and reports another winning price leaves the crossing, both prices, the bids in front of the marginal ones and the cuts as they are; bids that all gain trade in the reported book at prices better than their true ones, so they can go back to the truth one after the other without changing anything |
| C131 | the curves, Huang's auction, the uniform price, the price of a half of MUDA and peer to peer trading with prices that may be `np.inf` (`Model/MarketOrders.lean`, `Spec/MarketOrders.lean`, `Lemmas/MarketOrders.lean`, `Lemmas/MarketBook.lean`, `Props/MarketOrders.lean`); no merging, no rounds of MUDA | the curves with infinite prices are those of the filled book with infinity put in place of `P`; the two crossings agree unless the demand is infinite where the supply has ended; meeting by meeting induction for peer to peer trading |
| C132 | MUDA with prices that may be `np.inf`, with its fees and its decorator (`Model/MudaMarketOrders.lean`, `Spec/MudaMarketOrders.lean`, `Lemmas/MudaMarketOrders.lean`, `Props/MudaMarketOrders.lean`); no merging | a half with infinite prices is compared with the half filled with two stand-ins: the willing bids, their order and the cut are the same; the terms of a fee that are infinite are those that grow with the stand-in, and those that are NaN vanish |
| C133 | the four mechanisms run twice, without merging and, but for MUDA, with merging (`Spec/Remainder.lean`, `Lemmas/Remainder.lean`, `Props/Remainder.lean`, `Props/RemainderMerged.lean`) | peer to peer: a pair that could trade has a party with nothing left (C22). Uniform price: one price separates the buyers and the sellers that are left (C96). Huang: the trades move both curves by the same amount, so the last pair stays the last pair (C119), and the short side has nobody before it. Merging: the groups of what is left have the prices and quantities of what is left of the groups (`merge_left`) |
| C134 | merging and splitting with IEEE special values (`Model/Nan.lean`) for quantities of any sign (`Props/Cancelling.lean`) | the quantity of a merged bid is the total of its group, whatever the signs; the share is computed by the same division and product as in the code, and the four cases are read off their signs |
| C135 | pairs of books that differ in their quantities (`Spec/Shift.lean`, `Props/Shift.lean`) | the crossing quantity is the largest of the minima of demand and supply (C08), and the optimal values of the two programs are least bounds over a price (C84). Each of these is a sum of quantities with bounded weights, so a change of the quantities carries over. For the welfare the price is clamped to the range of the values |
| C136 | books with other prices (`Spec/Nudge.lean`, `Props/Nudge.lean`) | what a bid could gain at a price changes by no more than its value, and the welfare is the least total of these gains (C84). With the same order of the prices the same rows set the prices (C125), and each price is one of their prices or a mean of two. Peer to peer trading is compared step by step |
| C137 | the bids of two books in one (`Props/Joining.lean`) | both programs have least values over all prices (C84), and the functions minimised add up bid by bid. The crossing quantity is the greatest of the smaller of demand and supply (C08), which both grow |
| C138 | quantities that may be NaN in the curves, in Huang's auction, the uniform price, the prices of MUDA and peer to peer trading, and NaN prices in peer to peer trading (`Model/Missing.lean`, `Spec/Missing.lean`, `Lemmas/Missing.lean`, `Props/Missing.lean`) and in the other mechanisms (`Model/MissingPrices.lean`, `Model/MudaMissingPrices.lean`, `Spec/MissingPrices.lean`, `Lemmas/MissingPrices*.lean`, `Lemmas/MudaMissingPrices.lean`, `Props/MissingPrices.lean`, `Props/MudaMissingPrices.lean`); NaN with merging in `MergeMissingPrices.lean` (prices) and `MergeMissing.lean` (quantities), each in `Model/`, `Spec/`, `Lemmas/` and `Props/` | a NaN in either curve makes the upper end of the grid NaN, and the grid is empty; NumPy's sum of the quantities is NaN, and the loop of peer to peer trading does not start; a comparison with a NaN price is false like one with a price that nobody takes; bids with NaN prices are sorted last, so a crossing that is found compares prices that are numbers, and it is lost exactly if the next value of the grid is NaN |
| C118 | `huang_auction` (`Props/HuangShare.lean`) | take a clearing price c; on each side the served bids are those with the greatest |price - c|, so their average is at least the least value served, which bounds what the unserved could add; proportional cuts keep the average |
