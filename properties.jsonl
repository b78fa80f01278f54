{"id": "C01", "title": "Bid ids are consecutive and the bid table is an append-only log", "statement": "For any sequence of BidManager.add_bid / Market.accept_bid calls the k-th call (counting from 0) returns k, and afterwards get_df() has exactly one row per call, row k holding exactly the six values of the k-th call (with the documented defaults for omitted ones). No later call ever changes an earlier row, so the id returned to a user always denotes that user's own bid.", "quantifier": "every finite sequence of add_bid calls with any arguments, and every interleaving of add_bid and get_df", "why_tests_cant": "It is a statement about histories of any length; a test fixes one history.", "anchors": ["pymarket/bids/bids.py: BidManager.add_bid, BidManager.get_df", "pymarket/market.py: Market.accept_bid"]}
{"id": "C02", "title": "Transaction log: ids, append-only, and non-destructive merge", "statement": "The k-th add_transaction returns k and get_df() lists the transactions in insertion order exactly as given; a.merge(b) returns a new manager whose log is a's log followed by b's log, whose counter agrees with its length, and leaves a and b unchanged.", "quantifier": "every history of add_transaction calls on both operands", "why_tests_cant": "Histories and operand lengths are unbounded.", "anchors": ["pymarket/transactions/transactions.py: TransactionManager.add_transaction, get_df, merge"]}
{"id": "C03", "title": "Market history: bids are never consumed and results are those of the last successful run", "statement": "After any sequence of accept_bid, run and statistics calls, the market's bid table is exactly the accepted bids in order, and transactions/extra are those returned by the last run that did not raise (empty if there was none). A run that raises (unknown algorithm name, or an exception in a mechanism) changes nothing; statistics never changes bids, transactions or extra.", "quantifier": "every finite history of market operations, including failing ones", "why_tests_cant": "The property ranges over arbitrary interleavings of operations and failures.", "anchors": ["pymarket/market.py: Market.__init__, accept_bid, run, statistics"]}
{"id": "C04", "title": "One-sided markets never trade", "statement": "If all submitted bids are buying bids, or all are selling bids, then every mechanism returns an empty transaction log and empty extra information, whatever the random choices, and never raises; conversely the mechanism's algorithm is invoked whenever both sides are present.", "quantifier": "every one-sided bid collection, every mechanism, every random stream", "why_tests_cant": "Ranges over all one-sided books.", "anchors": ["pymarket/mechanisms/mechanism.py: Mechanism._run", "pymarket/market.py: Market.run"]}
{"id": "C05", "title": "The demand curve is the inverse cumulative distribution of demanded quantity", "statement": "Reading the array returned by demand_curve_from_bids as a step function with get_value_stepwise: for every quantity x>0 and price level p>0, the curve's value at x is at least p exactly when the total quantity of buying bids with price >= p is at least x. The prices along the curve are non-increasing, the x coordinates are the running totals, the returned index lists every buying bid exactly once (and no selling bid), and none of this depends on how ties are ordered.", "quantifier": "all bid collections with non-negative quantities and prices, all x>0 and p>0, every tie-breaking of the sort", "why_tests_cant": "Quantifies over all books, quantities, prices and unstable-sort outcomes.", "anchors": ["pymarket/bids/demand_curves.py: demand_curve_from_bids, get_value_stepwise"]}
{"id": "C06", "title": "The supply curve is the cumulative distribution of offered quantity", "statement": "For every quantity x>0 and price p, the value of the supply curve at x is at most p exactly when the total quantity of selling bids with price <= p is at least x. Prices along the curve are non-decreasing, x coordinates are running totals, and the returned index lists every selling bid exactly once.", "quantifier": "all bid collections with non-negative quantities, all x>0 and p, every tie-breaking of the sort", "why_tests_cant": "Quantifies over all books, quantities, prices and unstable-sort outcomes.", "anchors": ["pymarket/bids/demand_curves.py: supply_curve_from_bids, get_value_stepwise"]}
{"id": "C07", "title": "Step-function lookup contract", "statement": "get_value_stepwise(x, f) is None exactly when x<0 or x is larger than every breakpoint; otherwise it is the ordinate of the first row whose breakpoint is >= x. On a curve with non-increasing (non-decreasing) ordinates and sorted breakpoints it is a non-increasing (non-decreasing) function of x.", "quantifier": "all step functions (any number of rows) and all x", "why_tests_cant": "Quantifies over arrays of any length.", "anchors": ["pymarket/bids/demand_curves.py: get_value_stepwise"]}
{"id": "C08", "title": "The intersection is the equilibrium quantity", "statement": "When intersect_stepwise on a demand and a supply curve returns a quantity x*, demand exceeds supply price strictly at every quantity in (0, x*], supply price exceeds demand price strictly at every quantity above x*, and the two returned indices are those of the first rows whose breakpoint reaches x*. Hence there is at most one such x*, and it does not depend on tie ordering.", "quantifier": "all bid collections with non-negative quantities and non-negative prices, every sort tie-breaking, every k", "why_tests_cant": "Universal over all quantities x and all books.", "anchors": ["pymarket/bids/demand_curves.py: intersect_stepwise"]}
{"id": "C09", "title": "An intersection is found whenever some trade is strictly profitable", "statement": "intersect_stepwise on the demand and supply curves of a book returns an intersection whenever demand strictly exceeds supply price at some quantity. (The code only guarantees this when the two curves never take the same price at the same quantity; with such a tie it returns None, which makes Huang's auction trade nothing.)", "quantifier": "all bid collections with non-negative quantities and prices", "why_tests_cant": "Both the guarantee and the exact failure condition range over all books.", "anchors": ["pymarket/bids/demand_curves.py: intersect_stepwise", "pymarket/mechanisms/huang_auction.py: huang_auction"]}
{"id": "C10", "title": "The competitive price is supported by both curves at the equilibrium quantity", "statement": "When an intersection exists at x*, the price returned by intersect_stepwise with 0<=k<=1 (and so find_competitive_price) lies between the supply price and the demand price at x*: every unit traded up to x* is individually rational for both parties. Exactly: the price is the supply price at x* where only the demand curve steps, the demand price where only the supply curve steps, and k times the supply price plus (1-k) times the demand price where both step (any k). Without an intersection on curves built from bids and 0<k, the price is +infinity.", "quantifier": "all bid collections with non-negative quantities and prices, all k in [0,1]", "why_tests_cant": "Universal over books and k.", "anchors": ["pymarket/bids/demand_curves.py: intersect_stepwise", "pymarket/mechanisms/muda_auction.py: find_competitive_price"]}
{"id": "C11", "title": "The competitive price clears the market", "statement": "At the price p found by find_competitive_price, the equilibrium quantity x* satisfies: quantity strictly above p on the demand side <= x* <= quantity demanded at >= p, and the same for supply. (The code only guarantees this when x* is a breakpoint of exactly one of the curves; when both curves step at x* the midpoint it returns may leave excess demand or supply.)", "quantifier": "all bid collections with non-negative quantities and prices", "why_tests_cant": "Universal over books; the failing corner is a measure-zero alignment random tests rarely hit.", "anchors": ["pymarket/mechanisms/muda_auction.py: find_competitive_price", "pymarket/bids/demand_curves.py: intersect_stepwise"]}
{"id": "C12", "title": "update_quantity is exact water-filling", "statement": "For 0 <= gap <= total, update_quantity returns, for some common cut c >= 0, max(q_i - c, 0) for every i; the results sum to total - gap, are between 0 and q_i (0 for a negative q_i), keep the order of the players, and c is uniquely determined when something remains. It never raises and always terminates; for gap > total it raises ValueError (or, more generally, never returns quantities not summing to total - gap).", "quantifier": "every non-empty list of quantities of any sign and every gap in [0,total]", "why_tests_cant": "The loop runs a data-dependent number of times; ranges over all lists.", "anchors": ["pymarket/mechanisms/huang_auction.py: update_quantity"]}
{"id": "C13", "title": "Huang: total bought equals total sold", "statement": "The transactions returned by Market.run('huang') and by huang_auction have equal total quantity on buying bids and on selling bids.", "quantifier": "all bid collections with positive quantities and non-negative prices, every tie-breaking", "why_tests_cant": "Conservation over all books.", "anchors": ["pymarket/mechanisms/huang_auction.py: huang_auction", "pymarket/mechanisms/mechanism.py: Mechanism.run"]}
{"id": "C14", "title": "Huang: nobody trades more than they bid, and at most once", "statement": "Every bid occurs in at most one transaction returned by Market.run('huang'), every transaction is for an existing bid, and its quantity lies between 0 and that bid's quantity.", "quantifier": "all bid collections with positive quantities and non-negative prices", "why_tests_cant": "Universal over books, including merged equal-price bids.", "anchors": ["pymarket/mechanisms/huang_auction.py: huang_auction", "pymarket/transactions/processing.py: split_transactions_merged_players", "pymarket/bids/processing.py: merge_same_price"]}
{"id": "C15", "title": "Huang: uniform prices and individual rationality, even through price rounding", "statement": "All buyers in a Market.run('huang') outcome pay the reported price_buy, all sellers receive the reported price_sell, and price_buy > price_sell. Every buyer that trades bid at least price_buy and every seller that trades asked at most price_sell, although the mechanism works on prices rounded to 5 decimals.", "quantifier": "all bid collections with positive quantities and non-negative prices", "why_tests_cant": "Rounding and merging corner cases are unbounded; needs a proof that rounding can never hurt a trader.", "anchors": ["pymarket/mechanisms/huang_auction.py: huang_auction, HuangAuction", "pymarket/bids/processing.py: merge_same_price"]}
{"id": "C16", "title": "Huang: the market maker never loses money", "statement": "The profits statistic for the market maker after Market.run('huang') equals (price_buy - price_sell) times the traded volume, hence is non-negative.", "quantifier": "all bid collections with positive quantities and non-negative prices", "why_tests_cant": "Universal over books.", "anchors": ["pymarket/mechanisms/huang_auction.py: huang_auction", "pymarket/statistics/profits.py: calculate_profits"]}
{"id": "C17", "title": "Huang: price setters never trade", "statement": "No bid whose (rounded) price equals the reported price_buy (buyers) or price_sell (sellers) appears in the transactions of Market.run('huang'); exactly the buyers with strictly higher and the sellers with strictly lower prices appear.", "quantifier": "all bid collections with positive quantities and non-negative prices in which both sides have a trader", "why_tests_cant": "Universal over books.", "anchors": ["pymarket/mechanisms/huang_auction.py: huang_auction", "pymarket/bids/processing.py: merge_same_price"]}
{"id": "C18", "title": "Huang: reported quantity_traded is the traded volume", "statement": "extra['quantity_traded'] equals the total quantity bought in the returned transactions. (The code violates this when only the sell side has no intramarginal bid: it then reports the buyers' volume although nothing was traded.)", "quantifier": "all bid collections with non-negative quantities and prices", "why_tests_cant": "Universal over books; the violating configuration has an empty transaction list.", "anchors": ["pymarket/mechanisms/huang_auction.py: huang_auction"]}
{"id": "C19", "title": "P2P: every pair meets at most once and rounds are matchings", "statement": "In extra['trading_list'], each round pairs each bid with at most one counterparty, every pair is (buying bid, selling bid), no pair occurs twice over the whole run, and each round is maximal among the pairs still allowed.", "quantifier": "all bid collections, all random choice sequences", "why_tests_cant": "Quantifies over all random schedules.", "anchors": ["pymarket/mechanisms/p2p_random.py: p2p_random"]}
{"id": "C20", "title": "P2P: quantity conservation and capacity", "statement": "For every bid, the sum of its transaction quantities never exceeds the bid's quantity, all quantities are non-negative, and total bought equals total sold, for the whole run and for every prefix of complete meetings.", "quantifier": "all bid collections with non-negative quantities, all random choice sequences", "why_tests_cant": "Quantifies over all random schedules and run lengths.", "anchors": ["pymarket/mechanisms/p2p_random.py: p2p_random"]}
{"id": "C21", "title": "P2P: trade price rule and individual rationality", "statement": "Every transaction with positive quantity has price p_coef*(buyer price)+(1-p_coef)*(seller price); for p_coef in [0,1] it lies between the two bid prices so neither side loses. p_coef=1 gives the buyer's price, p_coef=0 the seller's. Pairs whose buyer price is below the seller price are recorded with quantity 0 and price 0 and stay active.", "quantifier": "all bid collections, all p_coef, all random choice sequences", "why_tests_cant": "Quantifies over all schedules and parameters.", "anchors": ["pymarket/mechanisms/p2p_random.py: p2p_random"]}
{"id": "C22", "title": "P2P: terminates for every schedule, and no beneficial trade is left", "statement": "p2p_random halts for every sequence of random choices after at most (#buyers * #sellers) meetings, and when it halts every buyer/seller pair with buyer price >= seller price has at least one party whose whole quantity has been traded.", "quantifier": "all bid collections with non-negative quantities, all random choice sequences", "why_tests_cant": "Termination and completeness over all schedules.", "anchors": ["pymarket/mechanisms/p2p_random.py: p2p_random"]}
{"id": "C23", "title": "P2P: transactions are the mirrored log of the meetings with truthful active flags", "statement": "The transaction log is, in order, two entries per meeting of trading_list: the buyer's with source = seller and the seller's with source = buyer, with identical quantity and price; the active flag of each entry is True exactly when that bid still has unsold/unbought quantity after the meeting.", "quantifier": "all bid collections with positive quantities, all random choice sequences", "why_tests_cant": "Quantifies over all schedules.", "anchors": ["pymarket/mechanisms/p2p_random.py: p2p_random", "pymarket/transactions/transactions.py: TransactionManager.add_transaction"]}
{"id": "C24", "title": "MUDA: the two halves partition the bids and are priced by each other", "statement": "extra['left'] and extra['right'] partition the bid ids for every coin sequence; all transactions of left bids are at price_right and all of right bids at price_left, where each price is the competitive price of that half alone. Hence no bid can influence the price it trades at by changing its own report.", "quantifier": "all bid collections accepted by muda, all coin sequences", "why_tests_cant": "Quantifies over all coin sequences and all deviations.", "anchors": ["pymarket/mechanisms/muda_auction.py: muda, solve_market_side_with_exogenous_price"]}
{"id": "C25", "title": "MUDA: balance, capacity and single transactions", "statement": "In each half total bought equals total sold; every bid occurs in at most one transaction, with quantity between 0 and the bid's quantity.", "quantifier": "all bid collections with non-negative quantities, prices of any sign, all coin sequences", "why_tests_cant": "Universal over books and coins.", "anchors": ["pymarket/mechanisms/muda_auction.py: solve_market_side_with_exogenous_price, get_trading_bids"]}
{"id": "C26", "title": "MUDA: individual rationality, and the short side trades fully", "statement": "Every trading buyer bid at least and every trading seller at most the price of its transaction; in each half with trade, all willing bids on the short side trade their full quantity, and on the long side only the best-priced bids trade (no excluded willing bid has a better price than a trading one).", "quantifier": "all bid collections with non-negative quantities, prices of any sign, all coin sequences", "why_tests_cant": "Universal over books and coins.", "anchors": ["pymarket/mechanisms/muda_auction.py: solve_market_side_with_exogenous_price, get_trading_bids"]}
{"id": "C27", "title": "MUDA: fees are Vickrey externalities", "statement": "The fee of a user trading on the long side of a half equals the largest surplus the other willing bids of that side could obtain from the traded quantity if the user were absent, minus the surplus they actually obtain. It is therefore non-negative and zero when there is no competition; users of the short side are charged nothing by that half.", "quantifier": "all bid collections with non-negative quantities, all prices, all sides", "why_tests_cant": "The fee is specified by an optimisation over all alternative allocations.", "anchors": ["pymarket/mechanisms/muda_auction.py: compute_fee, solve_market_side_with_exogenous_price"]}
{"id": "C28", "title": "MUDA: participation is individually rational after fees", "statement": "A user's fee in a half never exceeds the surplus of that user's own bids in that half, so trading in MUDA never makes a truthful bidder worse off than not participating.", "quantifier": "all bid collections with non-negative quantities and prices and user ids 0..n-1, all coin sequences", "why_tests_cant": "Universal over books, multi-bid users and coins.", "anchors": ["pymarket/mechanisms/muda_auction.py: muda, compute_fee"]}
{"id": "C29", "title": "MUDA: the market maker's profit is exactly the fees", "statement": "The profits statistic for the market maker after a MUDA run equals the sum of the fees, which is non-negative: the mechanism is weakly budget balanced.", "quantifier": "all bid collections with non-negative quantities and prices accepted by muda, all coin sequences", "why_tests_cant": "Universal over books and coins.", "anchors": ["pymarket/mechanisms/muda_auction.py: muda", "pymarket/statistics/profits.py: calculate_profits"]}
{"id": "C30", "title": "MUDA: every user's fee covers both halves", "statement": "extra['fees'][u] is the total fee user u owes over both halves. (The code overwrites the left-half fee by the right-half fee when a user trades on the long side of both.)", "quantifier": "all bid collections with user ids 0..n-1, all coin sequences", "why_tests_cant": "Needs a user whose bids are split by the coins onto long sides of both halves.", "anchors": ["pymarket/mechanisms/muda_auction.py: muda, solve_market_side_with_exogenous_price"]}
{"id": "C31", "title": "MUDA: rejects exactly the duplicate-bid books", "statement": "muda raises NotImplementedError exactly when some user has two bids with the same price on the same side, before any random choice is consumed; two different users may share a price.", "quantifier": "all bid collections", "why_tests_cant": "Both directions range over all books.", "anchors": ["pymarket/utils/decorators.py: check_equal_price", "pymarket/mechanisms/muda_auction.py: muda"]}
{"id": "C32", "title": "MUDA: runs to completion on every other book", "statement": "muda returns a result for every book it does not reject. (The code guarantees this when the user ids are exactly 0..n-1; with other ids, such as gaps, fee bookkeeping can raise IndexError.)", "quantifier": "all bid collections with non-negative quantities, all coin sequences", "why_tests_cant": "Absence of exceptions for all inputs.", "anchors": ["pymarket/mechanisms/muda_auction.py: muda, solve_market_side_with_exogenous_price"]}
{"id": "C33", "title": "MUDA: reporting the true price is a dominant strategy for single-bid users", "statement": "For a user with one bid in the market and true unit value v for its quantity, the utility (value minus payment minus fee) from reporting price v is at least the utility from reporting any other price, for every coin sequence and all other bids. (It fails for users with several bids, because bids and not users are assigned to halves.)", "quantifier": "all books with non-negative quantities, all values, all misreports, all coin sequences, all tie-breakings", "why_tests_cant": "Quantifies over all deviations.", "anchors": ["pymarket/mechanisms/muda_auction.py: muda, solve_market_side_with_exogenous_price, compute_fee"]}
{"id": "C34", "title": "Merging equal prices loses nothing", "statement": "merge_same_price returns a mapping that is a partition: each original bid id occurs in exactly one list, and two bids share a list exactly when they are on the same side and have equal rounded prices. Each merged bid is on the side of its members, its quantity is the sum of theirs, its price is their rounded price (within half a unit in the last place of each original price), and merged prices on each side are strictly increasing.", "quantifier": "all bid collections, all precisions", "why_tests_cant": "Universal over books and groupings.", "anchors": ["pymarket/bids/processing.py: merge_same_price"]}
{"id": "C35", "title": "Merged players get fresh user ids", "statement": "In the result of merge_same_price a singleton group keeps its user's id, and each larger group gets an id that is larger than every original user id and different from every other merged id. The new ids are the next free ones: largest user id + 1, + 2, ... in the order of the merged table.", "quantifier": "all bid collections with at least one bid", "why_tests_cant": "Universal over books and group structures on both sides.", "anchors": ["pymarket/bids/processing.py: merge_same_price, new_player_id"]}
{"id": "C36", "title": "Splitting merged transactions preserves quantities and prices", "statement": "split_transactions_merged_players replaces each transaction of a merged bid by one transaction per original member, with the same price, source and active flag, and quantities proportional to the members' bid quantities that add up to the merged quantity; for singleton groups the transaction is only relabelled. No member exceeds its bid if the merged transaction does not exceed the merged bid.", "quantifier": "all transaction logs, all bid collections and mappings whose groups have positive total quantity", "why_tests_cant": "Universal over logs and group sizes.", "anchors": ["pymarket/transactions/processing.py: split_transactions_merged_players"]}
{"id": "C37", "title": "Percentage traded never exceeds 1", "statement": "For the transactions of p2p, huang or muda on a book with positive quantities, percentage_traded is None or a number in [0,1], where the maximum tradable volume is the optimum of the linear program built by maximum_traded_volume.", "quantifier": "all books with positive quantities, prices of any sign (for huang: non-negative buying prices, see C100), all random streams, any optimal LP solution", "why_tests_cant": "Feasibility of every mechanism outcome in an LP, for all books.", "anchors": ["pymarket/statistics/maximum_traded_volume.py: maximum_traded_volume, percentage_traded"]}
{"id": "C38", "title": "Percentage of welfare lies in [0,1]", "statement": "For the transactions of p2p (p_coef in [0,1]), huang or muda, percentage_welfare is None or in [0,1], where the maximum is the optimum of the linear program built by maximum_aggregated_utility.", "quantifier": "all books with positive quantities, prices of any sign (for huang: non-negative buying prices, see C100), all random streams, any optimal LP solution", "why_tests_cant": "Welfare optimality bound for all books and schedules.", "anchors": ["pymarket/statistics/maximum_aggregated_utility.py: maximum_aggregated_utility, percentage_welfare"]}
{"id": "C39", "title": "The statistics' linear programs have an optimum", "statement": "The programs built by maximum_aggregated_utility and maximum_traded_volume are feasible and bounded for books with non-negative quantities, the optimum is non-negative, and every trade plan in which no bid exceeds its quantity is a feasible point (for volume: among compatible pairs only).", "quantifier": "all books with non-negative quantities", "why_tests_cant": "Existence of optimum for all books.", "anchors": ["pymarket/statistics/maximum_aggregated_utility.py: maximum_aggregated_utility", "pymarket/statistics/maximum_traded_volume.py: maximum_traded_volume"]}
{"id": "C40", "title": "Profit accounting identity", "statement": "The sum of all players' profits at bid prices plus the market maker's profit (excluding fees) equals the buyers' total bid value minus the sellers' total bid value over the traded quantities: money is neither created nor destroyed by the statistic.", "quantifier": "all bid collections and all transaction logs referring to them", "why_tests_cant": "Universal over logs.", "anchors": ["pymarket/statistics/profits.py: calculate_profits, get_gain"]}
{"id": "C41", "title": "Fees are charged to players in the profit statistic", "statement": "The profit reported for a player is net of that player's fee. (The code adds fees to the market maker's profit but never subtracts them from players, so with fees the total profit exceeds the gains from trade by exactly the fees.)", "quantifier": "all bid collections, transaction logs and fee arrays", "why_tests_cant": "Universal accounting statement.", "anchors": ["pymarket/statistics/profits.py: calculate_profits"]}
{"id": "C42", "title": "Reservation prices: defaults, keys and frame", "statement": "With no reservation prices given, player_reservation equals player_bid; a reservation price given for one bid id only changes the profit of that bid's user, by (new price - bid price) times that bid's traded quantity (negated for sellers). The caller's dict is extended with the bid prices of all other bids, and given entries are never overwritten.", "quantifier": "all bid collections, transaction logs and reservation dictionaries", "why_tests_cant": "Universal over dictionaries and logs.", "anchors": ["pymarket/statistics/profits.py: calculate_profits", "pymarket/market.py: Market.statistics"]}
{"id": "C43", "title": "Percentage of welfare honours reservation prices", "statement": "percentage_welfare uses the supplied reservation prices as true values. (The code discards them: its result is the same for every reservation_prices argument.)", "quantifier": "all bid collections, transaction logs and reservation dictionaries", "why_tests_cant": "Independence from an argument over all inputs.", "anchors": ["pymarket/statistics/maximum_aggregated_utility.py: percentage_welfare"]}
{"id": "C44", "title": "Generated bids are well formed", "statement": "datasets.uniform_bidders.generate returns cant_buyers buying bids followed by cant_sellers selling bids with users 0,1,2,..., all quantities in [0,1), prices in [offset, offset+1), and pairwise different prices (and quantities) within each side, for every random stream; with eps > 0 it never raises, because eps is reduced when too many players are requested. A negative eps is replaced as well; eps = 0 (and a negative eps without players) raises ZeroDivisionError.", "quantifier": "all player counts, offsets, eps and random streams", "why_tests_cant": "Universal over sizes and random draws.", "anchors": ["pymarket/datasets/uniform_bidders.py: generate"]}
{"id": "C45", "title": "Generated bids are always accepted by MUDA", "statement": "Running muda on the bids produced by generate never raises, for every random stream of the generator and of the mechanism.", "quantifier": "all player counts, offsets, eps for which generate returns, random streams", "why_tests_cant": "Composition of two randomised components.", "anchors": ["pymarket/datasets/uniform_bidders.py: generate", "pymarket/mechanisms/muda_auction.py: muda"]}
{"id": "C46", "title": "time and divisible never influence an outcome", "statement": "The transactions and extra information of huang, muda and p2p are unchanged when the time and divisible attributes of the bids are changed arbitrarily (in particular an indivisible bid may be traded partially).", "quantifier": "all bid collections and all replacement attribute values, all random streams", "why_tests_cant": "Non-interference over all inputs.", "anchors": ["pymarket/mechanisms/mechanism.py", "pymarket/mechanisms/huang_auction.py", "pymarket/mechanisms/muda_auction.py", "pymarket/mechanisms/p2p_random.py", "pymarket/bids/processing.py: merge_same_price"]}
{"id": "C47", "title": "Submission order does not affect Huang's prices or volume", "statement": "Permuting the order in which bids are submitted leaves price_buy, price_sell, quantity_traded and each bid's traded quantity in Market.run('huang') unchanged.", "quantifier": "all bid collections with positive quantities and non-negative prices and all permutations", "why_tests_cant": "Symmetry over all permutations.", "anchors": ["pymarket/mechanisms/huang_auction.py: huang_auction", "pymarket/bids/processing.py: merge_same_price"]}
{"id": "C48", "title": "Huang always returns on valid books and yields proper numbers", "statement": "Market.run('huang') never raises and never emits NaN quantities. (Guaranteed for positive quantities; a merged group of total quantity 0, which the bundled generator can produce, makes the split divide 0 by 0.)", "quantifier": "all bid collections with non-negative prices and quantities", "why_tests_cant": "Absence of failures for all inputs.", "anchors": ["pymarket/mechanisms/huang_auction.py: huang_auction", "pymarket/transactions/processing.py: split_transactions_merged_players", "pymarket/datasets/uniform_bidders.py: generate"]}
{"id": "C49", "title": "plot_method never fails with KeyError", "statement": "After any history of runs, plot_method looks up only keys present in the last run's extra information or falls back to the message branch; a muda/huang plot is drawn exactly when the last run's extra has the keys that plot needs.", "quantifier": "every history of market operations and every method name", "why_tests_cant": "Ranges over histories.", "anchors": ["pymarket/market.py: Market.plot_method"]}
{"id": "C50", "title": "The drawn curves are the market's curves", "statement": "The polyline data handed to the step plot by plot_demand_curves, read with the 'post' convention, agrees with get_value_stepwise of the demand and supply curves at every quantity strictly between breakpoints up to the last breakpoint.", "quantifier": "all two-sided bid collections with positive quantities, all quantities on the drawn range", "why_tests_cant": "Universal over books and abscissae.", "anchors": ["pymarket/plot/demand_curves.py: plot_demand_curves"]}
{"id": "C51", "title": "The competitive price does not depend on the order of submission", "statement": "find_competitive_price returns the same price for the same bids submitted in any other order and for every tie-breaking of the sort. (The code only guarantees this when the prices on each side are distinct: with two equal-priced bids on the long side, whether the equilibrium quantity coincides with a running total depends on their order, and this switches the price rule.)", "quantifier": "all pairs of bid collections containing the same bids in different orders, every sort tie-breaking", "why_tests_cant": "Relates two runs on permuted inputs; the failing corner needs a running total inside a tie level to coincide with the equilibrium quantity.", "anchors": ["pymarket/bids/demand_curves.py: intersect_stepwise", "pymarket/mechanisms/muda_auction.py: find_competitive_price"]}
{"id": "C52", "title": "P2P graph: an edge joins two users exactly when they traded", "statement": "In the graph drawn for P2P, two users are joined by an edge exactly when the log contains a trade of positive quantity between them. (The code also draws an edge for a meeting in which nothing was traded.)", "quantifier": "all books, all choice sequences, all price coefficients", "why_tests_cant": "Depends on which incompatible pairs meet, i.e. on the whole random choice sequence.", "anchors": ["pymarket/plot/trades.py: plot_trades_as_graph", "pymarket/mechanisms/p2p_random.py: p2p_random"]}
{"id": "C53", "title": "P2P graph: buyers in one row, sellers in the other", "statement": "In the bipartite drawing, exactly the users that submitted buying bids are placed in the first row. (The code passes bid ids where user ids are needed, so this holds only when users are numbered like their bids.)", "quantifier": "all books", "why_tests_cant": "Every book with one bid per user in submission order satisfies it by coincidence.", "anchors": ["pymarket/plot/trades.py: plot_trades_as_graph"]}
{"id": "C54", "title": "P2P graph: the edge label is the quantity exchanged between the two users", "statement": "The label of an edge is the total quantity exchanged between its two users. (The code keeps the last logged quantity only, so this holds only for pairs that meet once.)", "quantifier": "all books, all choice sequences", "why_tests_cant": "Needs users with several bids whose pairs all meet.", "anchors": ["pymarket/plot/trades.py: plot_trades_as_graph"]}
{"id": "C55", "title": "P2P: the source column names the counterparty's bid", "statement": "In the transactions returned by the P2P mechanism, the source of every transaction is a submitted bid of the opposite side. (With merge=True the bid column is translated back to the submitted bids but the source column is not.)", "quantifier": "all books, all choice sequences, merge on and off", "why_tests_cant": "The untranslated ids coincide with correct ones on small symmetric books.", "anchors": ["pymarket/transactions/processing.py: split_transactions_merged_players", "pymarket/mechanisms/mechanism.py: Mechanism._cleanup"]}
{"id": "C56", "title": "MUDA with merge=True always returns a result", "statement": "With merge=True, MUDA never rejects a book for equal prices and returns a result for every book with user ids 0..n-1. (The first half holds; the second fails, because merged bids get new user ids beyond the length of the fee array.)", "quantifier": "all books, coin sequences", "why_tests_cant": "Whether the array access fails depends on which merged bids win on the long side.", "anchors": ["pymarket/mechanisms/muda_auction.py: muda", "pymarket/bids/processing.py: merge_same_price", "pymarket/utils/decorators.py: check_equal_price"]}
{"id": "C57", "title": "P2P and MUDA with merge=True conserve quantities", "statement": "With merge=True, after splitting the transactions back to the submitted bids, no bid trades more than its quantity and the total quantity bought equals the total quantity sold.", "quantifier": "all books without zero-quantity price groups, all random choices", "why_tests_cant": "Quantifies over all partitions into price groups and all random choices.", "anchors": ["pymarket/mechanisms/mechanism.py: Mechanism.run", "pymarket/transactions/processing.py: split_transactions_merged_players"]}
{"id": "C58", "title": "P2P and MUDA with merge=True respect the submitted prices", "statement": "With merge=True no buyer pays more than the submitted price and no seller receives less. (Prices are rounded before merging, so this holds only up to half a unit of the fifth decimal.)", "quantifier": "all books, all random choices", "why_tests_cant": "The violation is of the size of the rounding and needs prices with more than five decimals.", "anchors": ["pymarket/bids/processing.py: merge_same_price", "pymarket/mechanisms/mechanism.py: Mechanism.run"]}
{"id": "C59", "title": "Huang's auction: reporting the true price is a dominant strategy", "statement": "For a user with one bid, reporting the true price yields at least the surplus of any other price report. (Holds for the auction itself on books with distinct prices, and with a stable sort on all books; fails with equal prices for a sort that is not stable, and fails for the HuangAuction class, which merges equal prices and curtails per merged group.)", "quantifier": "all books with non-negative quantities and prices, all misreports", "why_tests_cant": "Quantifies over all deviations.", "anchors": ["pymarket/mechanisms/huang_auction.py: huang_auction, update_quantity, HuangAuction"]}
{"id": "C60", "title": "The units of price and quantity do not matter", "statement": "Multiplying all prices by c > 0 multiplies the prices of all transactions by c and changes nothing else; multiplying all quantities by c > 0 multiplies the traded quantities by c and changes nothing else. (Without merging for all mechanisms; with merging the fixed number of decimals makes the first half fail.)", "quantifier": "all books, all factors, all random choices", "why_tests_cant": "Universally quantified over books and factors.", "anchors": ["pymarket/mechanisms/huang_auction.py: huang_auction", "pymarket/mechanisms/muda_auction.py: muda", "pymarket/mechanisms/p2p_random.py: p2p_random", "pymarket/bids/processing.py: merge_same_price"]}
{"id": "C61", "title": "The Huang and MUDA figures show the result of the last run", "statement": "In the Huang figure the horizontal lines are at the prices the sellers and buyers trade at, the vertical line at the traded quantity, and the shaded rectangle has the area of the market maker's profit; in the MUDA figure each half is drawn with its own curves and the price at which its bids trade. (The code violates three parts: the shaded area misses a last strip of width at most 0.01; the vertical line can be positive without transactions, see C18; with merging the MUDA panels show the wrong bids, because ids of merged bids are used as ids of submitted bids.)", "quantifier": "all books, sorters, coin sequences", "why_tests_cant": "Relates the drawing parameters to the outcome for all books.", "anchors": ["pymarket/plot/huang.py: plot_huang_auction", "pymarket/plot/muda.py: plot_both_side_muda", "pymarket/market.py: Market.plot_method"]}
{"id": "C62", "title": "Splitting transactions also splits the fees when they are given", "statement": "split_transactions_merged_players called with a fee dictionary returns the split transactions and the fees of merged users distributed over their members. (The code reads a user attribute that transactions do not have and raises AttributeError as soon as a merged bid has a transaction; otherwise the fees are returned unchanged.)", "quantifier": "all logs, books, groupings and fee dictionaries", "why_tests_cant": "The argument is never passed by the package; the statement is about all calls.", "anchors": ["pymarket/transactions/processing.py: split_transactions_merged_players"]}
{"id": "C63", "title": "The equilibrium quantity attains the largest possible gains from trade", "statement": "If intersect_stepwise returns a crossing at quantity x, some trade plan of volume x between compatible bids attains the value that maximum_aggregated_utility computes, so trading more or less than x cannot increase welfare. If moreover x is a step of only one of the two curves, that value equals the total surplus all bids could claim at the price returned by find_competitive_price (the welfare theorem); without the condition the price can overstate it.", "quantifier": "all books with non-negative quantities and prices, all sorters", "why_tests_cant": "Relates the curve intersection to the optimum of an LP over all books; needs duality.", "anchors": ["pymarket/bids/demand_curves.py: intersect_stepwise", "pymarket/mechanisms/muda_auction.py: find_competitive_price", "pymarket/statistics/maximum_aggregated_utility.py"]}
{"id": "C64", "title": "Huang's auction gives up at most the quantity of the two price setting bids", "statement": "Let x be the quantity at which the curves cross. There are a buying and a selling bid quoting the two prices of the auction such that the traded quantity is at least x minus the larger of their quantities, and less than x (unless x is 0).", "quantifier": "all books with non-negative quantities and prices and a crossing, all sorters", "why_tests_cant": "A bound for all books; tests check a few outcomes.", "anchors": ["pymarket/mechanisms/huang_auction.py: huang_auction"]}
{"id": "C65", "title": "Bids that lose in Huang's auction are irrelevant", "statement": "If a buying bid below the buyers' price lowers its price, or a selling bid above the sellers' price raises its price, possibly changing its quantity at the same time (to any quantity, also to none), then the whole outcome stays the same: prices, traded quantity and the list of transactions.", "quantifier": "all books with distinct prices per side, all sorters, all losing bids and all such changes", "why_tests_cant": "Quantifies over pairs of books.", "anchors": ["pymarket/mechanisms/huang_auction.py: huang_auction", "pymarket/bids/demand_curves.py: intersect_stepwise"]}
{"id": "C66", "title": "A winner in Huang's auction pays the critical price", "statement": "For a winning bid, reporting any price strictly better than the price it trades at still wins the same quantity at the same price, and reporting any price strictly worse wins nothing: the price is the threshold between winning and losing reports.", "quantifier": "all books (for the quantity: distinct prices on the bid's side, or a stable sort), all sorters, all winning bids, all reports", "why_tests_cant": "Quantifies over all unilateral deviations.", "anchors": ["pymarket/mechanisms/huang_auction.py: huang_auction"]}
{"id": "C67", "title": "After a run no trader and not the market maker is reported with a loss", "statement": "When calculate_profits is applied to the book and the transactions of a run (default arguments), every player's profit at the submitted prices is non-negative and so is the market maker's; for P2P the market maker's profit is zero; with MUDA's fees the market maker's profit does not decrease.", "quantifier": "all books with positive quantities, prices of any sign (for huang: non-negative buying prices, see C100), all mechanisms, sorters, coins, choices", "why_tests_cant": "Combines the accounting with every possible outcome of the random mechanisms.", "anchors": ["pymarket/statistics/profits.py: calculate_profits", "pymarket/mechanisms/mechanism.py"]}
{"id": "C68", "title": "MUDA's partition is uniform: every subset of the bids is the left half for exactly one coin sequence", "statement": "The left half that muda draws is determined by one coin per bid and the map from coin sequences of the length of the book to subsets of the bids is a bijection, so under fair coins all 2^n partitions are equally likely; the right half is the complement.", "quantifier": "all books, all subsets of bids, all coin sequences", "why_tests_cant": "Counts all coin sequences.", "anchors": ["pymarket/mechanisms/muda_auction.py: muda"]}
{"id": "C69", "title": "Merging is harmless when all prices of a side differ after rounding", "statement": "On a book whose prices, rounded to five decimals, are distinct within each side and equal to the submitted prices, HuangAuction with merging trades at the same prices and gives each bid the same quantity as huang_auction on the submitted book. In particular a user with one bid cannot gain by another price report in such books, with merging as without.", "quantifier": "all such books, all samplers; all sorters that depend only on the order of prices (uniqueness makes every sorter one)", "why_tests_cant": "Relates two runs for all books.", "anchors": ["pymarket/mechanisms/mechanism.py: Mechanism", "pymarket/bids/processing.py: merge_same_price", "pymarket/transactions/processing.py: split_transactions_merged_players"]}
{"id": "C70", "title": "P2P trading reaches at least half of the maximal volume", "statement": "At the end of p2p_random no buyer with quantity left could trade with a seller with quantity left whose price is at most the buyer's; hence the traded volume is at least half of the optimum of maximum_traded_volume, whatever the random choices, and percentage_traded is at least 1/2 when it is defined.", "quantifier": "all books with non-negative quantities, all random choices, all price coefficients", "why_tests_cant": "A worst-case guarantee over all random choices and books.", "anchors": ["pymarket/mechanisms/p2p_random.py: p2p_random", "pymarket/statistics/maximum_traded_volume.py"]}
{"id": "C71", "title": "More demand or supply moves the equilibrium in the expected direction", "statement": "If at every price at least as much is demanded and offered in a second book as in a first (bids enter, buyers bid higher or for more, sellers lower or more), the equilibrium quantity found by intersect_stepwise does not fall. If only demand grows, the competitive price does not fall; if only supply grows, it does not rise.", "quantifier": "all pairs of books with positive quantities and non-negative prices related as described, all sorting orders, all k", "why_tests_cant": "Universal over pairs of books; tests of single books never compare two equilibria.", "anchors": ["pymarket/bids/demand_curves.py: intersect_stepwise", "pymarket/mechanisms/muda_auction.py: find_competitive_price"]}
{"id": "C72", "title": "Huang's auction loses at most the value of the units it gives up", "statement": "When the curves cross at x, the value created by the trades of huang_auction (value of what is bought minus value of what is sold, at the submitted prices) falls short of the optimum of the welfare program by at most (x - traded quantity) times the distance between the highest buying and the lowest selling price; hence by at most the larger of the quantities of the two price setting bids times that distance.", "quantifier": "all bid tables with non-negative quantities and prices whose curves cross, all sorting orders", "why_tests_cant": "A bound against the optimum over all trade plans, universal over books.", "anchors": ["pymarket/mechanisms/huang_auction.py: huang_auction", "pymarket/statistics/maximum_aggregated_utility.py: maximum_aggregated_utility"]}
{"id": "C73", "title": "Withdrawing losing bids does not change Huang's auction", "statement": "When the prices of each side are pairwise different and the auction sets prices, removing any set of losing bids (buyers strictly below the buyers' price, sellers strictly above the sellers' price) leaves the transactions, the prices and the volume exactly as they were; in a market in which such a bid was never submitted the result is the same up to the renumbering of later bids.", "quantifier": "all books with non-negative quantities and prices, prices of a side pairwise different; all sets of losing bids; all sorting orders", "why_tests_cant": "Relates runs on all sub-books of all books.", "anchors": ["pymarket/mechanisms/huang_auction.py: huang_auction", "pymarket/bids/demand_curves.py: intersect_stepwise"]}
{"id": "C74", "title": "intersect_stepwise meets its contract on arbitrary step functions", "statement": "For two step functions with any finite or infinite domains, intersect_stepwise reports the last point of the merged grid of the common domain after which f - g changes from positive to negative, and reports no point exactly if there is none. If f is decreasing and g increasing, the reported point is exactly the x such that f is above g at x and below g from there to the end of the common domain; the reported rows are the first ones reaching x, and the value is the price of the function that does not step at x, or the k mix when both step (or when there is no crossing).", "quantifier": "all non-empty step functions with non-negative increasing ends, all k", "why_tests_cant": "Universal over all pairs of step functions; the documentation shows two of them.", "anchors": ["pymarket/bids/demand_curves.py: intersect_stepwise", "pymarket/bids/demand_curves.py: get_value_stepwise"]}
{"id": "C75", "title": "Anonymity: outcomes do not depend on who submitted which bid", "statement": "Assigning the same offers to other users changes neither the transactions nor the extra information of Huang's auction and of P2P trading, with or without merging. For MUDA the halves, prices and transactions stay the same and only fees can change; when users are renamed by an injection, the fees are renamed with them and nothing else changes.", "quantifier": "all books, all assignments of bids to users, all oracles", "why_tests_cant": "Relates runs on pairs of books for all assignments of users.", "anchors": ["pymarket/mechanisms/huang_auction.py: huang_auction", "pymarket/mechanisms/p2p_random.py: p2p_random", "pymarket/mechanisms/muda_auction.py: muda", "pymarket/bids/processing.py: merge_same_price"]}
{"id": "C76", "title": "MUDA: several bids on one side of one half cannot be misreported profitably", "statement": "A user whose bids are all on one side of the market and all sent to the same half by the coins cannot gain by reporting other prices and quantities, for one or several of the bids at once: whatever use of the traded quantity the user then makes within the true bids, the result net of payments and of the fee is at most that of the truth. The restriction is needed: with bids on both sides of one half, or in both halves, a misreport can pay.", "quantifier": "all books with non-negative quantities and user ids 0..n-1, all reports, all sorters and coins", "why_tests_cant": "Relates pairs of runs for all joint deviations of a user, including all later uses of the traded quantity.", "anchors": ["pymarket/mechanisms/muda_auction.py: muda", "pymarket/mechanisms/muda_auction.py: solve_market_side_with_exogenous_price"]}
{"id": "C77", "title": "Peer-to-peer trading in floating point arithmetic", "statement": "With every operation rounded to floating point and the quantities summed in any order: the procedure still returns, no pair meets twice and rounds are matchings; buyer and seller of a meeting are logged with the same quantity and price, so exactly as much is bought as sold and paid as received; no trade exceeds either bid; with the default p_coef = 1/2 every price lies between the two parties' prices. Claim that fails: a bid never trades more than its quantity, and prices lie between the parties' prices for every p_coef in [0,1]; both hold only up to relative rounding errors.", "quantifier": "all number formats with monotone rounding (float64 among them), all summation orders, all books of representable non-negative numbers, all random choices", "why_tests_cant": "Tests compare with tolerances; a violation by one unit in the last place for some of 2^64 inputs goes unnoticed.", "anchors": ["pymarket/mechanisms/p2p_random.py: p2p_random"]}
{"id": "C78", "title": "Curves and Huang's auction in floating point arithmetic", "statement": "With every operation rounded to floating point and sums computed in any order: the computed demand and supply curves are the exact curves of a book whose quantities differ by rounding errors of the total, and the marginal positions are exactly those of that book; whenever the auction returns, prices are uniform on each side with the sellers' price below the buyers' price, nobody trades at a price worse than their own, the price setters do not trade, everyone better does, every bid trades at most once and at most its quantity, and one side trades in full. Claims that fail: the auction always returns; as much is bought as sold and the market maker never pays out more than it takes in. They hold up to about 2n units in the last place of the total quantity.", "quantifier": "all number formats with monotone rounding (float64 among them), all summation orders, all tie orders of the sort, all books of representable non-negative numbers", "why_tests_cant": "Which bids straddle a rounded running total, and whether the curtailment loop runs out of bids, depends on the last bit of sums; tests with a few decimal quantities and tolerances do not see it.", "anchors": ["pymarket/bids/demand_curves.py: demand_curve_from_bids, supply_curve_from_bids, intersect_stepwise", "pymarket/mechanisms/huang_auction.py: update_quantity, huang_auction"]}
{"id": "C79", "title": "MUDA in floating point arithmetic", "statement": "With every operation rounded to floating point and sums computed in any order: the coins split the bids into two halves; each half's price is the rounded competitive price of a table whose quantities differ from those of the half by rounding errors, and each half trades at the price of the other, so that nobody influences the own price; nobody trades at a price worse than their own or more than offered, every bid trades at most once, fees are one per user and not negative; tables without twins are cleared and tables with twins rejected. Claims that fail: no traded quantity is negative, and as much is bought as sold in each half. They hold up to rounding errors of the total as long as sum() adds from left to right (at most seven willing bids per side in NumPy).", "quantifier": "all number formats with monotone rounding (float64 among them), all summation orders, all tie orders of the sort, all coins, all tables of representable non-negative numbers", "why_tests_cant": "The failure needs a side whose pairwise sum and running total fall on different sides of the other side's total in the last bit; then np.argmax silently returns 0 and most of the trade disappears. Tests with round numbers or fewer than eight bids cannot show it.", "anchors": ["pymarket/mechanisms/muda_auction.py: muda, find_competitive_price, get_trading_bids, compute_fee, solve_market_side_with_exogenous_price"]}
{"id": "C80", "title": "The statistics report of a market over its whole history", "statement": "After any sequence of accepted bids, runs (failing or not), reports and plots, Market.statistics has exactly the entries that are not excluded; the percentages compare the last successful run with the best possible outcome for all bids accepted so far; profits has one entry per user who ever submitted a bid, in increasing order of user ids, and the market maker's profit is money in minus money out plus the fees of that run; every recorded transaction refers to an accepted bid; bids accepted after the run change no reported profit, and new users get 0; a call of statistics influences no later run or report. Claim that fails: a dictionary of reservation prices may be passed to the statistics of several markets (it is changed by each call).", "quantifier": "all histories of client calls with all arguments, tie orders, samples and random choices; all solvers", "why_tests_cant": "Tests compute the statistics once, right after one run, with a fresh dictionary; stale results, later bids, excluded entries and a dictionary shared between markets need histories.", "anchors": ["pymarket/market.py: Market.statistics, Market.run, Market.accept_bid", "pymarket/statistics/profits.py: calculate_profits", "pymarket/statistics/maximum_aggregated_utility.py: percentage_welfare", "pymarket/statistics/maximum_traded_volume.py: percentage_traded"]}
{"id": "C81", "title": "Merging and splitting in floating point arithmetic", "statement": "With every operation rounded, merging bids of the same price still succeeds, partitions the bids, keeps sides, produces one group per side and rounded price, never reverses the order of prices, and the quantity of a group is the sum of its members up to n-1 rounding errors; prices that are decimals of at most five digits are not changed at all and exactly equal prices are merged; splitting fails exactly when a traded group has no quantity, and otherwise replaces each transaction by one per member with shares and total correct up to a few rounding errors; without rounding errors this is the exact model. Claim that fails: bids whose prices have the same five decimals are merged.", "quantifier": "all number formats with bounded relative error (float64 included), all orders of summation, all books with non-negative quantities, all logs about the merged table", "why_tests_cant": "Tests use a handful of round prices and compare with a tolerance; ties at half a unit of the fifth decimal and the order of summation are not exercised.", "anchors": ["pymarket/bids/processing.py: merge_same_price", "pymarket/transactions/processing.py: split_transactions_merged_players", "pymarket/mechanisms/mechanism.py: Mechanism.run"]}
{"id": "C82", "title": "Huang's auction as the library runs it, in floating point arithmetic", "statement": "Whenever the auction run through its class (merge, auction, split) returns in floating point arithmetic, all buyers pay one price, all sellers receive one lower price, and nobody trades at a price worse than their own by more than the rounding to five decimals, not at all if the prices have at most five decimals; every bid trades at most once, a non-negative representable quantity, which exceeds that of the bid by at most the factor of n+1 rounding errors, and the bought quantity equals the sold one up to an explicit multiple of the total quantity. Claim that fails: no bid trades more than its quantity.", "quantifier": "all number formats with bounded relative error (float64 included), all orders of summation, all books of representable non-negative numbers, all tie orders and samples", "why_tests_cant": "The composition of three rounded stages goes wrong in the last place for rare combinations of quantities only; tests compare with a tolerance.", "anchors": ["pymarket/mechanisms/huang_auction.py: HuangAuction, huang_auction", "pymarket/mechanisms/mechanism.py: Mechanism.run", "pymarket/bids/processing.py: merge_same_price", "pymarket/transactions/processing.py: split_transactions_merged_players"]}
{"id": "C83", "title": "With merging, only the totals per side and price matter", "statement": "When bids of the same price are merged, two books that offer the same total quantity at every rounded price on each side have the same prices and reported statistics (up to the fees per user in MUDA), and every bid trades quantity and money in proportion to its quantity with the same rate in both books, however the totals are divided among bids and users; in particular submitting a bid as two bids of the same price changes nothing for anybody. Claim that fails: the same holds for huang_auction called directly, without merging.", "quantifier": "all pairs of books with positive quantities in the merged groups, all tie orders, samples, random schedules and coins; all ways of splitting a bid in two", "why_tests_cant": "The invariance relates arbitrary pairs of books with different numbers of bids; tests run single books.", "anchors": ["pymarket/mechanisms/mechanism.py: Mechanism.run", "pymarket/bids/processing.py: merge_same_price", "pymarket/transactions/processing.py: split_transactions_merged_players", "pymarket/mechanisms/huang_auction.py: huang_auction", "pymarket/mechanisms/p2p_random.py: p2p_random", "pymarket/mechanisms/muda_auction.py: muda"]}
{"id": "C84", "title": "Closed forms of the maximum volume and the maximum welfare", "statement": "The optimum of the volume program is the smallest value, over all prices t, of the quantity bought strictly above t plus the quantity sold at t or below; the optimum of the welfare program is the smallest value, over all prices p, of what the bids would gain if each could trade its whole quantity at p, also with reservation prices. The quantity at which the curves cross lies between half the maximum volume and the maximum volume, and the factor two is attained.", "quantifier": "all books with non-negative quantities and prices, all reservation price tables, all values", "why_tests_cant": "A minimum over all rational prices equal to the optimum of a linear program over all trade matrices cannot be enumerated; tests compare one solver value with one number.", "anchors": ["pymarket/statistics/maximum_traded_volume.py: maximum_traded_volume", "pymarket/statistics/maximum_aggregated_utility.py: maximum_aggregated_utility", "pymarket/bids/demand_curves.py: intersect_stepwise"]}
{"id": "C85", "title": "Reporting a smaller quantity to Huang's auction", "statement": "While the two reported prices of Huang's auction stay the same, a bid that reports a smaller quantity trades at most as much as before, every other bid of its side at least as much and every bid of the other side at most as much; so a user with one bid does not gain by understating the quantity. Claim that fails: the same when the change moves the prices.", "quantifier": "all books with non-negative quantities and prices and different prices on each side, all bids, all smaller quantities, all tie orders", "why_tests_cant": "A comparison of two runs over all books and all misreports; tests run a book once.", "anchors": ["pymarket/mechanisms/huang_auction.py: huang_auction", "pymarket/mechanisms/huang_auction.py: update_quantity"]}
{"id": "C86", "title": "The statistics in floating point arithmetic", "statement": "With every operation rounded, the profits of the players, the profit of the market maker, the share of the volume and the share of the welfare differ from their exact values by at most a small relative multiple of the money or quantity that the transactions move; a player all of whose transactions are at acceptable prices is never reported a loss; after a peer to peer market the profit of the market maker is computed as exactly zero and, with p_coef = 1/2, no player is reported a loss. In float64 the reported share of the volume can exceed 1.", "quantifier": "all number formats (float64 among them), all orders of summation, left to right and compensated group sums, all books, all transaction logs, all reservation prices and fees, all solver values", "why_tests_cant": "Error bounds over all inputs and all orders of addition; the tests compare a few numbers to a few digits.", "anchors": ["pymarket/statistics/profits.py: calculate_profits", "pymarket/statistics/profits.py: get_gain", "pymarket/statistics/maximum_traded_volume.py: percentage_traded", "pymarket/statistics/maximum_aggregated_utility.py: percentage_welfare"]}
{"id": "C87", "title": "P2P: which runs are possible and how likely each of them is", "statement": "The possible values of trading_list are exactly the sequences of rounds in which every round is a maximal matching, in any order, of the pairs of a buying and a selling bid that have not met and (after the first round) have something left, continued until nothing is left or no pair is open. A run makes one draw per meeting; two sequences of draws give the same trading_list exactly if they agree at every draw modulo the number of pairs open at it. Hence, for uniform independent draws, a trading_list has probability one over the product of the numbers of open pairs at its draws. Submitting the bids in another order only renames them: the same runs, with the same transactions, are possible with the same probabilities.", "quantifier": "all bid tables, all values of p_coef, all trading lists, all sequences of draws, all permutations of the bids", "why_tests_cant": "The set and the distribution of all outcomes of a random process; the tests fix a seed.", "anchors": ["pymarket/mechanisms/p2p_random.py: p2p_random"]}
{"id": "C88", "title": "Huang's auction and MUDA: the order of submission only matters between equal prices", "statement": "Submitting the same bids in another order only renames them: Huang's auction reports the same prices and quantity and the same transactions; MUDA, with the same bids in the left half, raises the same errors or reports the same prices, the same fees for every user and the same transactions, so with fair coins the distribution of its outcomes does not depend on the order. With two bids of one side at the same price this is false: the earlier one is preferred.", "quantifier": "all bid tables without equal prices on a side, all permutations of the bids, all sort implementations, all coins", "why_tests_cant": "Relates the runs on all permutations of all books; a test compares a few.", "anchors": ["pymarket/mechanisms/huang_auction.py: huang_auction", "pymarket/mechanisms/muda_auction.py: muda", "pymarket/bids/demand_curves.py: demand_curve_from_bids", "pymarket/bids/demand_curves.py: supply_curve_from_bids"]}
{"id": "C89", "title": "Peer to peer trading and MUDA with merging, in floating point arithmetic", "statement": "With merge=True and every operation rounded: whenever MUDA returns, and for every run of peer to peer trading with p_coef = 1/2, nobody trades at a price worse than their own by more than the rounding to five decimals (not at all if prices have at most five decimals). Quantities stay within a small relative error of the bid's quantity, and bought and sold quantities, and for peer to peer trading money paid and received, differ by a small relative error. Peer to peer trading returns whenever all quantities are positive. In float64 a bid can trade more than its quantity and more can be bought than sold, in both mechanisms.", "quantifier": "all number formats (float64 among them), all orders of summation, all books, all random choices, all samplers and sort implementations", "why_tests_cant": "Error bounds over all inputs and all orders of addition; the tests use one seed and round numbers.", "anchors": ["pymarket/mechanisms/mechanism.py: Mechanism.run", "pymarket/mechanisms/p2p_random.py: P2PTrading", "pymarket/mechanisms/muda_auction.py: MudaAuction", "pymarket/transactions/processing.py: split_transactions_merged_players"]}
{"id": "C90", "title": "P2P: reporting the true price", "statement": "No buyer or seller gains by reporting a price other than its true value to peer to peer trading, whatever the draws. This is false for every price coefficient in [0, 1]: with two sellers a buyer that reports less is never worse and sometimes better off, and symmetrically for sellers; and with a positive coefficient a buyer gains by reporting less even against a single seller. It holds for bids that face a single counterparty: overstating a buyer's value (understating a seller's cost) never pays, and no report pays if the price is the counterparty's (coefficient 0 for buyers, 1 for sellers), because the quantity traded does not depend on the report.", "quantifier": "all books, all reports, all price coefficients in [0, 1], all sequences of random choices", "why_tests_cant": "Compares the outcome of every possible report in every possible run; the tests run one seed with fixed bids.", "anchors": ["pymarket/mechanisms/p2p_random.py: p2p_random", "pymarket/mechanisms/p2p_random.py:112-124"]}
{"id": "C91", "title": "P2P: what the price coefficient changes", "statement": "For the same draws p_coef changes neither the meetings nor the quantities, counterparties and activity recorded; each price is an affine, non-decreasing function of p_coef. Hence the shares of traded volume and of welfare do not depend on it.", "quantifier": "all books, all coefficients (also outside [0, 1]), all sequences of random choices, all solvers", "why_tests_cant": "Relates the runs for all coefficients; the tests use one or two coefficients.", "anchors": ["pymarket/mechanisms/p2p_random.py:112-124", "pymarket/statistics/maximum_traded_volume.py: percentage_traded", "pymarket/statistics/maximum_aggregated_utility.py: percentage_welfare"]}
{"id": "C92", "title": "The random choices come from a RandomState, and lose nothing by being treated as arbitrary", "statement": "Drawing an index from n candidates with NumPy's masked rejection never leaves the range, gives every index for equally many word sequences (with the same words left for later draws), and runs out of L words for at most a 2^-L fraction. Shuffling gives a permutation and every permutation comes from exactly one sequence of exchanges; choice without replacement gives distinct positions and any selection can occur. Peer to peer trading, MUDA and the bid generator driven by such words do exactly what they do for some oracle (choices, coins, selections), and every oracle is realised by some words. The words of a seeded RandomState are those of MT19937: the only sequence with its seeding and recurrence, passed through its output transformation, which is a bijection of the 32-bit words.", "quantifier": "all word sequences, all sizes, all books, all seeds, all oracles", "why_tests_cant": "The tests fix two or three seeds; the claims quantify over all generator states and count 2^32-sized sets.", "anchors": ["pymarket/mechanisms/p2p_random.py:104", "pymarket/mechanisms/muda_auction.py:106", "pymarket/datasets/uniform_bidders.py:64-65"]}
{"id": "C93", "title": "Is the partition of MUDA fair?", "statement": "The coin r.rand() > 0.5 succeeds with probability exactly 1/2 - 2^-53, not 1/2. The coins of different bids are independent and identical, so partitions with equally many bids on the left are equally likely; every partition has a probability within (1 ± 2^-52)^n of 2^-n, and the empty left half is the most likely one.", "quantifier": "all sequences of 32-bit words of the needed length, all numbers of bids, all partitions", "why_tests_cant": "A bias of 2^-53 is not observable by sampling.", "anchors": ["pymarket/mechanisms/muda_auction.py:106"]}
{"id": "C94", "title": "The uniform price mechanism of the documentation: outcome", "statement": "uniform_price_mechanism of docs/new_mechanism.ipynb returns exactly when demand exceeds supply somewhere and the prices never coincide, and raises TypeError otherwise, leaving the market as it was. When it returns, every bid appears at most once, trades between 0 and its quantity at the clearing price and does not lose by it; what is bought equals what is sold and equals the clearing quantity, money is balanced, and a bid that trades implies that every better priced bid of its side trades completely.", "quantifier": "all books with non-negative quantities and prices, all sorting orders of ties", "why_tests_cant": "The notebook runs the mechanism once; the claim covers all books, including ties and one-sided ones.", "anchors": ["docs/new_mechanism.ipynb:163-222", "docs/new_mechanism.ipynb:239-252", "pymarket/mechanisms/mechanism.py:130-139"]}
{"id": "C95", "title": "The uniform price mechanism is efficient", "statement": "When uniform_price_mechanism returns, the traders' gains are the optimal value of the program of maximum_aggregated_utility: percentage_welfare is 1 whenever that value is positive. percentage_traded lies between 1/2 and 1.", "quantifier": "all books with non-negative quantities and prices, all exact solvers", "why_tests_cant": "Optimality is a statement about all trade plans.", "anchors": ["docs/new_mechanism.ipynb:163-222", "pymarket/statistics/maximum_aggregated_utility.py", "pymarket/statistics/maximum_traded_volume.py"]}
{"id": "C96", "title": "The uniform price leaves no willing bid out", "statement": "Every buyer who offers more than the clearing price and every seller who asks for less trades the whole quantity. True when only one of the curves steps at the clearing quantity; false in general, because half way between the marginal prices a losing buyer may be willing to pay.", "quantifier": "all books with non-negative quantities and prices", "why_tests_cant": "Needs all books; the example of the notebook happens to satisfy it.", "anchors": ["docs/new_mechanism.ipynb:163-222", "pymarket/bids/demand_curves.py: intersect_stepwise"]}
{"id": "C97", "title": "Truthfulness of the uniform price mechanism", "statement": "No user with a single bid can gain by reporting another price. False: the marginal bid sets the price (both for buyers and for sellers), and a losing bid can enter the trade where the price does not support it. A bid that trades in front of the marginal one cannot change anything with a report that leaves it there.", "quantifier": "all books with non-negative quantities and prices, all single-bid users, all reports", "why_tests_cant": "Compares the runs of all pairs of books that differ in one price.", "anchors": ["docs/new_mechanism.ipynb:163-222"]}
{"id": "C98", "title": "Traded volumes against the competitive quantity", "statement": "No mechanism trades more than the quantity x at which the curves cross. Huang's auction trades strictly less; MUDA never more, although its halves trade at different prices, because the whole market could trade that much at one of the two prices (with merge=True: of the book with rounded prices). Peer to peer trading lies between x/2 and 2x and can trade more than x.", "quantifier": "all books with positive quantities and prices, all coins, pairings, samplers and orders of ties", "why_tests_cant": "Relates the outcome of three mechanisms to the crossing of the curves for all books and random draws.", "anchors": ["pymarket/mechanisms/muda_auction.py", "pymarket/mechanisms/p2p_random.py", "pymarket/mechanisms/huang_auction.py", "pymarket/bids/demand_curves.py"]}
{"id": "C99", "title": "The statistics after runs with merge=True", "statement": "After a run of P2P or MUDA with merge=True, percentage_traded and percentage_welfare are None or between 0 and 1 and no user has a negative profit. True when every price has at most five decimals. In general only percentage_welfare <= 1 holds: merging rounds prices, so bids that are incompatible at the submitted prices trade; the traders together lose at most 0.00001 per traded unit and the volume is bounded by the best volume of the rounded book.", "quantifier": "all books with positive quantities, prices of any sign, all coins, pairings, samplers, orders of ties, all exact solvers", "why_tests_cant": "The tests run merge=True only on prices of one decimal; the violation needs prices that differ after the fifth decimal.", "anchors": ["pymarket/mechanisms/mechanism.py:75-128", "pymarket/bids/processing.py", "pymarket/statistics/maximum_traded_volume.py", "pymarket/statistics/maximum_aggregated_utility.py", "pymarket/statistics/profits.py"]}
{"id": "C100", "title": "Negative prices", "statement": "With prices of any sign the mechanisms respect the submitted prices, conserve quantities, never cost the market maker money, and percentage_traded and percentage_welfare stay between 0 and 1. True for P2P and MUDA, and for Huang's auction when no buying price is negative. False for Huang's auction in general: the demand curve ends at price 0, so buyers who want to be paid for taking energy trade at 0; percentage_traded can be 2 and percentage_welfare negative. Huang's auction still returns, conserves quantities, pays every seller at least the ask, and charges no buyer more than the larger of the bid and 0.", "quantifier": "all books with positive quantities and prices of any sign, all mechanisms with default arguments, all random choices, orders of ties, exact solvers", "why_tests_cant": "The tests and examples only use positive prices; the violation needs negative bids on both sides.", "anchors": ["pymarket/bids/demand_curves.py:74", "pymarket/mechanisms/huang_auction.py", "pymarket/mechanisms/muda_auction.py", "pymarket/mechanisms/p2p_random.py", "pymarket/statistics/maximum_traded_volume.py", "pymarket/statistics/maximum_aggregated_utility.py"]}
{"id": "C101", "title": "The range of float64 does not matter for bids of moderate size", "statement": "If every price, quantity and price coefficient is a multiple of 2^-200 of size at most 2^200 (every float64 number of size between 2^-148 and 2^200 is) and there are at most 2^50 bids, then no operation of a mechanism overflows or underflows: a run with IEEE 754 binary64 arithmetic, with its subnormal numbers and infinities, returns exactly what a run with an unbounded exponent returns, whatever the order of the sums. So the theorems about the unbounded format hold for the real one, for instance that P2P trading respects the submitted prices. Outside the range this is false: with prices of 2^-1074 P2P trading gives the energy away for 0.", "quantifier": "all books of moderate size with non-negative quantities, all mechanisms, coefficients of moderate size, coins, choices, samplers, orders of ties, all orders of summation", "why_tests_cant": "Overflow and underflow can happen in any intermediate result (a product price*quantity, a partial sum, a quotient in the split); tests only see the books they try, the claim covers every intermediate value of every run.", "anchors": ["pymarket/bids/bids.py:21-28", "pymarket/mechanisms/p2p_random.py:115", "pymarket/mechanisms/huang_auction.py", "pymarket/mechanisms/muda_auction.py", "pymarket/bids/processing.py"]}
{"id": "C102", "title": "Wrong arguments to Market.run are reported, right ones arrive", "statement": "Arguments that fit the parameters of a mechanism (by position or by name) give the run with these values: p_coef and r for p2p, r for muda, nothing for huang, and merge by name for p2p and muda. Arguments that do not fit raise TypeError, an unknown mechanism raises KeyError, and a failing call leaves the market as it was. False on markets with bids on one side only: there every argument is accepted (run('p2p', p_coeff=1) returns). True whenever there are bids on both sides, except that MUDA raises NotImplementedError first on books with duplicate bids. Keywords that clash with internal parameters (self, algo, bids, and merge for huang) always raise TypeError. A p_coef that is not a number is noticed exactly if some buyer bids at least what some seller asks; an r that is no generator is noticed on every two-sided book.", "quantifier": "all markets, all lists of positional and dictionaries of keyword arguments, all argument values, all mechanisms", "why_tests_cant": "The tests call run with a handful of correct argument lists; the claim is about all of them, and the failure needs a wrong call on a one-sided market.", "anchors": ["pymarket/market.py:120-155", "pymarket/mechanisms/mechanism.py:72-80,130-139", "pymarket/mechanisms/huang_auction.py:222-231", "pymarket/mechanisms/muda_auction.py:443-445", "pymarket/mechanisms/p2p_random.py:149-152", "pymarket/utils/decorators.py:23-48"]}
{"id": "C103", "title": "The bid generator with rounding", "statement": "With rounded arithmetic generate returns for all numbers of players and every eps > 0 or negative eps with at least one player, and raises ZeroDivisionError otherwise (the grid of np.arange always has enough entries, also after eps has been adjusted), with the buyers and sellers numbered 0, 1, 2, ...; in float64 all quantities are in [0, 1) although the grid may have one entry more than in exact arithmetic, all prices lie between the offset and the rounded offset + 1, and MUDA computed with rounding accepts the bids. Players of a side have different quantities if the grid is coarser than the rounding, and different prices if the rounding at the offset is finer than the grid. The docstring's promise that all players of a side have different values is false for large offsets, and prices need not stay below offset + 1.", "quantifier": "all rounding functions with relative error at most 1/8 (float64 for the ranges), all numbers of players, offsets, eps and random streams", "why_tests_cant": "Whether the rounded length of the grid suffices and whether its last entry stays below 1 depends on the last bit of 1/eps; the failing offsets are not tested.", "anchors": ["pymarket/datasets/uniform_bidders.py:4-70"]}
{"id": "C104", "title": "What the Huang auction of the class gives up, and whose bids matter", "statement": "Let x be the quantity at which the curves of the book with prices rounded to five decimals cross. Market.run('huang'), which merges bids of equal rounded price, reports two prices at which something is offered, sells as much as it buys, trades less than x (or nothing if x = 0), and gives up at most the larger of the total quantities offered at the two prices. The value created at the rounded prices falls short of the best possible one by at most the quantity given up times the distance between the highest buying and the lowest selling price. The outcome depends only on the totals at the two prices and the better ones: on any other book with the same totals there and with nobody keener behind them it reports the same, and bids at the same rounded price trade the same quantity and money per unit; in particular losing bids can be withdrawn.", "quantifier": "all books with non-negative bids in which no group of equal rounded prices has total 0, all sorting algorithms, all samples for the user of a merged bid", "why_tests_cant": "The bounds are over all books; the tests check prices and quantities of a few, and never compare two books.", "anchors": ["pymarket/mechanisms/huang_auction.py:72-231", "pymarket/bids/processing.py:81-235", "pymarket/mechanisms/mechanism.py:72-174"]}
{"id": "C105", "title": "Bids of quantity 0 leave NaN entries in merged logs and change nothing else", "statement": "Splitting a merged bid of total quantity 0 divides 0 by 0. For books with non-negative quantities: Market.run('huang') and Market.run('p2p', merge=True) return, and in every log returned with merging each quantity is a number or NaN, an entry is NaN exactly if the price group of its bid has total quantity 0, and the other entries conserve quantities. In Huang's auction a bid has a NaN entry exactly if the log is not empty, its group is empty and its rounded price is strictly better than the price of its side; all entries are at the reported prices, there is at most one per bid, and the proper ones sum to the reported volume.", "quantifier": "all books with non-negative quantities (and prices, for Huang), all sorting algorithms, all samples, all random schedules and coins", "why_tests_cant": "No test has a bid of quantity 0, though the bundled generator produces them; the NaN is silent.", "anchors": ["pymarket/transactions/processing.py:52-79", "pymarket/mechanisms/mechanism.py:72-174", "pymarket/mechanisms/huang_auction.py:72-243"]}
{"id": "C106", "title": "Statistics stay numbers on every valid book", "statement": "For every book with non-negative quantities and prices, the percentage traded, the percentage of welfare, the profits of the players and of the market computed from the log of a run are numbers, namely those of the log without its NaN entries.", "quantifier": "all books, all logs of submitted bids whose quantities are numbers or NaN, all reservation prices and fees, all solvers", "why_tests_cant": "The statistics tests use hand-written logs without NaN entries.", "anchors": ["pymarket/statistics/profits.py:75-125", "pymarket/statistics/maximum_traded_volume.py:124-131", "pymarket/statistics/maximum_aggregated_utility.py:157-174"]}
{"id": "C107", "title": "MUDA: negative user ids count from the end of the fees", "statement": "For a book of n users with ids between -n and n-1 that are different modulo n, MUDA gives exactly the result of the book with the ids reduced modulo n (same exception or same halves, prices, transactions and fees). In particular it always returns when no user repeats a price on a side, and the fee of the user with a negative id u is entry n+u.", "quantifier": "all books with such ids, all sorting algorithms, all coin sequences", "why_tests_cant": "The tests only use ids 0..n-1; fees[user] with a negative user silently addresses from the end.", "anchors": ["pymarket/mechanisms/muda_auction.py:217-224", "pymarket/mechanisms/muda_auction.py:337-400"]}
{"id": "C108", "title": "Whole quantities are traded without rounding errors", "statement": "When all quantities are multiples of one unit and their total is at most M units, where multiples up to M are exact (2^53 in float64): peer to peer trading lets the same pairs trade the same quantities as exact arithmetic, only prices are rounded; the Huang auction always returns, with the same bids and prices as exact arithmetic and exactly the same quantities on one side; MUDA's prices are the rounded competitive prices, and each half buys exactly what it sells and what both of its sides are willing to trade. With integer prices up to P as well and 2*P*M <= 2^53, MUDA (fees included) and peer to peer trading at the midpoint in float64 give exactly the result of exact arithmetic. The bound is needed: with whole quantities above 2^53 altogether MUDA buys more than it sells.", "quantifier": "all books of whole quantities with any number of bids, all summation orders, all sorting algorithms, all random choices; number formats as stated in each part", "why_tests_cant": "A test compares single books; that no summation order, number of bids or random choice produces a rounding error is a statement about all of them.", "anchors": ["pymarket/mechanisms/p2p_random.py:72-134", "pymarket/mechanisms/huang_auction.py:8-205", "pymarket/mechanisms/muda_auction.py:13-429"]}
{"id": "C109", "title": "P2P: how many rounds and exchanges there are", "statement": "Whatever the random choices, peer to peer trading ends after at most n-1 rounds for n bids, and at most n-1 exchanges of a positive quantity take place. When no buyer can trade with any seller and all offer something, every buyer still meets every seller exactly once: the log has 2*|buyers|*|sellers| entries of quantity 0, in at least max(|buyers|, |sellers|) rounds.", "quantifier": "all tables of bids with non-negative (last part: positive) quantities, all coefficients, all sequences of random choices", "why_tests_cant": "The bound concerns every sequence of random draws; the number of schedules grows factorially with the number of bids.", "anchors": ["pymarket/mechanisms/p2p_random.py:84-134"]}
{"id": "C110", "title": "P2P: no fixed share of the gains from trade", "statement": "When any buyer and seller with compatible prices could gain between d and D per unit from each other, peer to peer trading realises at least d/(2D) of the largest possible gain. Without such bounds no positive share is guaranteed: for every e > 0 there are four unit bids and random choices with which everybody trades everything and less than the share e is realised, for every coefficient.", "quantifier": "all tables of bids with non-negative quantities, all coefficients, all sequences of random choices; all e > 0", "why_tests_cant": "A test sees single books; neither a lower bound for all books and draws nor the absence of one can be observed.", "anchors": ["pymarket/mechanisms/p2p_random.py:72-134", "pymarket/statistics/maximum_aggregated_utility.py:7-174"]}
{"id": "C111", "title": "What bids of quantity 0 can change", "statement": "Bids of quantity 0, submitted after bids of positive quantity, get nothing from Huang's auction and change nobody's traded quantity or price there, and they do not change a competitive price that exists without them. If none exists, the only price they can make is set by the best buying and the best selling bid alone, one of which has quantity 0: the price of the other one, or the mean when both have quantity 0. MUDA then trades at it: a user can gain from an offer of nothing.", "quantifier": "all books with positive quantities and non-negative prices, all further bids of quantity 0 (prices on each side pairwise different), all sorters", "why_tests_cant": "Non-interference is about all pairs of books; the exceptional case needs a half without an equilibrium.", "anchors": ["pymarket/bids/demand_curves.py: intersect_stepwise, get_value_stepwise", "pymarket/mechanisms/huang_auction.py: huang_auction, update_quantity", "pymarket/mechanisms/muda_auction.py: find_competitive_price, muda"]}
{"id": "C112", "title": "Negative quantities", "statement": "add_bid accepts negative quantities. With quantities of any sign: find_competitive_price and huang_auction raise TypeError exactly when, in the order of the curves, the quantities of some first bids of a side sum to less than 0 (without equal prices: when less than 0 is asked at or above, or offered at or below, some price), and return otherwise; muda raises TypeError exactly when it does not reject the book and one of its halves has this defect; p2p_random always returns. Whenever a mechanism returns, the same quantity is bought and sold, and no bid trades in total more than its quantity, or than 0 when that is negative. In p2p_random this holds for totals only: a single transaction can exceed the quantity of its bid, and the loop can end with a possible trade left.", "quantifier": "all books with quantities and prices of any sign, all sorters, coins and choice sequences", "why_tests_cant": "No test or example uses a negative quantity; the exact condition for the exception quantifies over all books and orders.", "anchors": ["pymarket/bids/bids.py: BidManager.add_bid", "pymarket/bids/demand_curves.py: get_value_stepwise, intersect_stepwise", "pymarket/mechanisms/huang_auction.py: huang_auction, update_quantity", "pymarket/mechanisms/muda_auction.py: get_trading_bids, muda", "pymarket/mechanisms/p2p_random.py: p2p_random"]}
{"id": "C113", "title": "P2P: who can trade with whom", "statement": "In p2p_random a buying and a selling bid exchange a positive quantity in some schedule exactly if both quantities are positive and the seller asks no more than the buyer offers; hence two users trade with each other in some schedule exactly if they have such bids. The two users may be the same: a user with compatible bids on both sides can buy from themselves while a cheaper seller gets nothing; nobody trades with themselves in any schedule exactly if every user's offers are below their own asks.", "quantifier": "all books with non-negative quantities, all price coefficients, all pairs of bids and of users; the schedules are all sequences of random choices", "why_tests_cant": "Reachability over all random schedules in both directions; no test has a user with bids on both sides.", "anchors": ["pymarket/mechanisms/p2p_random.py: p2p_random"]}
{"id": "C114", "title": "MUDA: when anything is traded", "statement": "A half of muda trades exactly if the other half has a finite competitive price that a buyer and a seller of the half, both of positive quantity, accept. If anything is traded at a price p, each half has a buyer offering at least p and a seller asking at most p. So with a single buyer or a single seller nothing is ever traded, however large the possible gain, and with m buyers and k sellers at most (2^m-2)(2^k-2) of the 2^(m+k) outcomes of the coins trade anything.", "quantifier": "all books with non-negative quantities and prices, all sorters, all coins; the count is over all outcomes of the coins", "why_tests_cant": "A statement about all outcomes of the random split at once, for books of any size and with any prices.", "anchors": ["pymarket/mechanisms/muda_auction.py: muda, solve_market_side_with_exogenous_price, find_competitive_price"]}
{"id": "C115", "title": "MUDA: in a large market almost everything is traded", "statement": "If the coins divide demand and supply evenly up to eps at every price, muda trades at least V - 3 eps of the quantity V that any price clears on the whole market. The coins do so except for a fraction sum(q^2)/eps^2 of their outcomes, so in a market of many bids none of which is large, muda trades the share 1 - delta of what any price clears except for a small fraction of the outcomes; with n buyers and n sellers of one unit the fraction is at most 18/(delta^2 n).", "quantifier": "all books with non-negative quantities, positive selling prices and no common buying and selling price, all sorters, all eps; the fractions are counts over all outcomes of the coins", "why_tests_cant": "An asymptotic statement about the distribution of the random split for markets of every size.", "anchors": ["pymarket/mechanisms/muda_auction.py: muda, solve_market_side_with_exogenous_price, find_competitive_price"]}
{"id": "C116", "title": "MUDA: in a large market almost all gains are realised", "statement": "If the coins divide demand and supply evenly up to eps at every price and no buyer and seller could gain more than P per unit from each other, muda realises all but 10 P eps of the largest gain any trade plan achieves. Hence all but a fraction sum(q^2)/eps^2 of the outcomes of the coins do; in a market of many small bids the share 1 - delta of the largest gain is realised except for a small fraction of the outcomes, at most 200/(delta^2 n) with n buyers and n sellers of one unit.", "quantifier": "all books with non-negative quantities, positive selling prices and no common buying and selling price, all sorters, all eps and P; the fractions are counts over all outcomes of the coins", "why_tests_cant": "Compares the outcome of every random split with the optimum of a linear program, for markets of every size.", "anchors": ["pymarket/mechanisms/muda_auction.py: muda, solve_market_side_with_exogenous_price, find_competitive_price", "pymarket/statistics/maximum_aggregated_utility.py: maximum_aggregated_utility"]}
{"id": "C117", "title": "Submitting a bid under several names", "statement": "Whoever divides a bid into several bids of the same price, submitted under whatever names, does not gain. Holds for huang_auction on books without equal prices on a side: the two prices do not change, the parts together earn at most what the bid earned, and unless the bid is at the marginal price the other bids of its side get at least what they had and those of the other side exactly that. Fails for the uniform price of the documentation, where the place where a bid ends can move the price, and for MUDA, where a single buyer never trades but the same buyer under two names does.", "quantifier": "all books with non-negative quantities and prices, all bids in them, all divisions into any number of positive parts, all sorters", "why_tests_cant": "Compares the auction on a book with the auction on every way of dividing every bid, with any number of parts.", "anchors": ["pymarket/mechanisms/huang_auction.py: huang_auction, update_quantity", "pymarket/mechanisms/muda_auction.py: muda", "docs/new_mechanism.ipynb: uniform_price_mechanism"]}
{"id": "C118", "title": "Share of the gains in Huang's auction against its share of the volume", "statement": "Let the curves cross at x. huang_auction realises at least the share of the possible gains that it trades of x, that is gains/best >= traded/x. Holds when each side is rationed proportionally: when nobody is rationed, and when the bids of a side have equal quantities; with no bid larger than Q the share of the gains is then at least 1 - Q/x. Fails in general: everyone in front of the marginal bid is cut by the same amount, so a small bid of great value can be cut to nothing, and for any eps, delta > 0 there is a book on which all but the share delta of x is traded but less than the share eps of the gains is realised.", "quantifier": "all books with non-negative quantities and prices whose curves cross, all sorters; for the refutation all eps, delta > 0", "why_tests_cant": "A ratio bound for books of every size; the counterexample is a family in two parameters.", "anchors": ["pymarket/mechanisms/huang_auction.py: huang_auction, update_quantity", "pymarket/bids/demand_curves.py: intersect_stepwise", "pymarket/statistics/maximum_aggregated_utility.py: maximum_aggregated_utility"]}
{"id": "C119", "title": "Quantity and prices in terms of the bids alone", "statement": "A pair of a buyer b and a seller a is marginal at x if b is the last buyer and a the last seller needed to trade x, a asks less than b pays, nothing more than x can be traded between compatible bids, and not more than x is offered for nothing. The curves cross at x exactly if some pair is marginal at x; quantity and prices of a marginal pair are unique. huang_auction sells at a's price and buys at b's price, and does nothing without such a pair. The price of either half in MUDA is that of the marginal pair among its bids: the price of the one whose bid is not used up, their mean if both are, infinite without a pair. The same is the price of every transaction of the uniform price of the documentation, which raises TypeError without a pair.", "quantifier": "all books with positive quantities and non-negative prices (for MUDA and the uniform price without equal prices on a side), all sorters and coins", "why_tests_cant": "An exact characterisation, in both directions, for books of every size; the exceptional clauses (equal prices at the margin, free supply) are easily missed by samples.", "anchors": ["pymarket/bids/demand_curves.py: intersect_stepwise, demand_curve_from_bids, supply_curve_from_bids", "pymarket/mechanisms/huang_auction.py: huang_auction", "pymarket/mechanisms/muda_auction.py: find_competitive_price, muda", "docs/new_mechanism.ipynb: uniform_price_mechanism"]}
{"id": "C120", "title": "Large markets in Huang's auction", "statement": "Submit every bid of a book m times. The possible gains are m times as large, the two prices of huang_auction do not change, at most the quantity of a largest bid less than m times the quantity is traded, and what is lost of the gains stays bounded by a number that does not depend on m. So for every eps > 0 all but the share eps of the gains is realised when m is large enough. The share of the gains that goes to the market maker does not vanish: it tends to x * (p_buy - p_sell) / best of the single book, which is positive.", "quantifier": "all books with positive quantities and non-negative prices whose curves cross, all numbers of copies, all sorters, all eps > 0", "why_tests_cant": "A limit over books of unbounded size.", "anchors": ["pymarket/mechanisms/huang_auction.py: huang_auction, update_quantity", "pymarket/bids/demand_curves.py: intersect_stepwise", "pymarket/statistics/maximum_aggregated_utility.py: maximum_aggregated_utility"]}
{"id": "C121", "title": "The uniform price mechanism of the documentation with merge=True", "statement": "With merge=True the class UniformPrice trades exactly the quantity of the marginal pair among the bids with prices rounded to five decimals, at the price of this pair, better bids first; of bids of a side with the same rounded price everyone trades the same share; nothing more can be gained at the rounded prices. Without a marginal pair it raises TypeError, or trades nothing if a side is empty. Only the totals per side and rounded price matter, so dividing a bid between several names changes nothing (without merging it does, C117), and who submits a bid does not matter. Nobody pays more or receives less than submitted.", "quantifier": "all books with positive quantities and non-negative prices, all sorters and samplers", "why_tests_cant": "Exact outcome for every book, including ties at the margin, and invariance under every division of every bid.", "anchors": ["docs/new_mechanism.ipynb: uniform_price_mechanism, UniformPrice", "pymarket/mechanisms/mechanism.py: Mechanism", "pymarket/bids/processing.py: merge_same_price", "pymarket/transactions/processing.py: split_transactions_merged_players"]}
{"id": "C122", "title": "What new bids do to the others", "statement": "With more demand the price Huang's auction pays to sellers does not fall, and with more supply the price its buyers pay does not rise. The competitive price used by MUDA never falls below the old marginal seller's price with more demand, nor rises above the old marginal buyer's price with more supply. With more demand and supply Huang's auction trades no less than before.", "quantifier": "all pairs of books with positive quantities and non-negative prices where one has at every price at least the demand (supply) of the other; all sorters", "why_tests_cant": "Compares the outcomes on two arbitrary books; the volume claim fails only when the entrant becomes the marginal bid or ties.", "anchors": ["pymarket/mechanisms/huang_auction.py: huang_auction", "pymarket/mechanisms/muda_auction.py: find_competitive_price", "pymarket/bids/demand_curves.py: intersect_stepwise"]}
{"id": "C123", "title": "The uniform price mechanism in floating point arithmetic", "statement": "In floating point arithmetic the uniform price mechanism of the documentation still trades at one price that suits everybody who trades, each bid at most once, no more than its quantity, in price order and with one side served in full; quantity and price are those of a book whose quantities differ by rounding errors. Quantities are non-negative, and as much is bought as sold, namely the reported quantity.", "quantifier": "all books of representable non-negative quantities and prices, all sorters, all number formats with a rounding error, all orders of summation (balance: sums from left to right)", "why_tests_cant": "The clearing quantity comes from cumsum and the traded quantity from sum(), which NumPy computes in different orders from eight terms on; a test would have to hit a book where the two disagree.", "anchors": ["docs/new_mechanism.ipynb: uniform_price_mechanism", "pymarket/bids/demand_curves.py: intersect_stepwise"]}
{"id": "C124", "title": "Who would rather have the trade of somebody else", "statement": "No bid would rather have the transaction of another bid of its side (of which it uses at most its own quantity) than its own. In Huang's auction a bid that does has been cut and the other bid is larger; in the class, bids of the same rounded price and no more quantity are not envied; with the uniform price nobody is envied when demand above and supply below the price are at most the cleared quantity; in MUDA nobody is envied within a half once the other's fee is charged and the own fee is not.", "quantifier": "all books of non-negative bids, all sorters, samplers and coins (MUDA: one bid per user)", "why_tests_cant": "Envy is a statement about every pair of bids of every book; whether it appears depends on ties, on the last bid being cut and on the split into halves.", "anchors": ["pymarket/mechanisms/huang_auction.py: huang_auction, update_quantity", "pymarket/mechanisms/muda_auction.py: solve_market_side_with_exogenous_price", "pymarket/mechanisms/p2p_random.py: p2p_random", "docs/new_mechanism.ipynb: uniform_price_mechanism"]}
{"id": "C125", "title": "Only the order of the prices matters", "statement": "If the prices of a book are replaced by others in the same order (also relative to 0), then in every mechanism the same bids trade the same quantities. In Huang's auction the two prices are those of the same bids as before. In peer to peer trading it is enough that each buyer compares with each seller as before, whatever the price coefficient.", "quantifier": "all books, all order preserving new prices, all sorters that only compare, all samplers and random choices", "why_tests_cant": "The claim relates two runs on every pair of books with the same order of prices; it fails only where a price enters a computation, as in MUDA.", "anchors": ["pymarket/bids/demand_curves.py: intersect_stepwise", "pymarket/mechanisms/huang_auction.py: huang_auction", "pymarket/mechanisms/p2p_random.py: p2p_random", "pymarket/mechanisms/muda_auction.py: muda", "docs/new_mechanism.ipynb: uniform_price_mechanism"]}
{"id": "C126", "title": "A common surcharge on all prices", "statement": "When the same amount is added to all prices of a book, the same bids trade the same quantities in every mechanism, every transaction price and clearing price moves by that amount, and the fees of MUDA do not change.", "quantifier": "all books with quantities not negative and prices positive before and after, all surcharges (also negative ones), all sorters that only compare, all samplers, coins and choices", "why_tests_cant": "The claim relates two runs for every book and every amount; it fails only for books with price 0, where the end of the demand curve is confused with a bid, and for amounts that rounding changes.", "anchors": ["pymarket/bids/demand_curves.py: intersect_stepwise", "pymarket/mechanisms/huang_auction.py: huang_auction", "pymarket/mechanisms/p2p_random.py: p2p_random", "pymarket/mechanisms/muda_auction.py: muda", "docs/new_mechanism.ipynb: uniform_price_mechanism"]}
{"id": "C127", "title": "Buyers and sellers are treated alike", "statement": "When all buyers become sellers and all sellers buyers and prices are counted downwards from a common value, every mechanism trades the same quantities of the same bids at the mirrored prices; in the peer-to-peer market the shares of buyer and seller are exchanged as well and the mirrored run is equally likely; MUDA charges the same fees.", "quantifier": "all books with quantities not negative and prices strictly between 0 and the common value, all pairs of mirrored sorters (every comparison sort has one), all coins, choices and shares between 0 and 1", "why_tests_cant": "The two sides are handled by different pieces of code, and the claim compares two runs on different books for all books; it fails only in corner cases, namely equal demand and supply in a half of MUDA and the reported quantity of Huang's auction without trade.", "anchors": ["pymarket/bids/demand_curves.py: demand_curve_from_bids, supply_curve_from_bids, intersect_stepwise", "pymarket/mechanisms/huang_auction.py: huang_auction", "pymarket/mechanisms/p2p_random.py: p2p_random", "pymarket/mechanisms/muda_auction.py: muda, solve_market_side_with_exogenous_price", "docs/new_mechanism.ipynb: uniform_price_mechanism"]}
{"id": "C128", "title": "No group of bids could do better on its own", "statement": "After a run of a mechanism, no group of bids could gain more in total by trading among its own members than it gained in the market.", "quantifier": "all books with non-negative quantities and prices, all groups, all trade plans among the members, all sorters, coins and choices", "why_tests_cant": "The claim ranges over all subsets of the bids and, for each, all divisible trade plans; a test can only try a few. For Huang's auction the quantitative form compares with the optimum of a linear program.", "anchors": ["docs/new_mechanism.ipynb: uniform_price_mechanism", "pymarket/mechanisms/huang_auction.py: huang_auction", "pymarket/mechanisms/muda_auction.py: muda", "pymarket/mechanisms/p2p_random.py: p2p_random"]}
{"id": "C129", "title": "A bid without a limit counts as a very large one", "statement": "A bid with the quantity np.inf is treated like one with any quantity larger than all limited bids of the book together: the prices, the trades and the other bids' results are the same.", "quantifier": "all books with non-negative prices and non-negative or infinite quantities, all larger finite quantities Q, all sorters and random choices", "why_tests_cant": "The claim quantifies over every book and every finite stand-in Q; tests with one large number would agree with the infinite bid in nearly all books and miss the ones in which inf - inf or a curve that never ends changes the outcome.", "anchors": ["pymarket/bids/demand_curves.py: intersect_stepwise", "pymarket/mechanisms/huang_auction.py: huang_auction", "pymarket/mechanisms/p2p_random.py: p2p_random", "pymarket/mechanisms/muda_auction.py: find_competitive_price", "docs/new_mechanism.ipynb: uniform_price_mechanism"]}
{"id": "C130", "title": "No group of bids gains by agreeing on what to report", "statement": "No group of bids - buyers, sellers or both, of any size - can report prices other than the true ones so that some of its bids gain and none loses.", "quantifier": "all books, all groups of bids, all reported prices of the members at once, all stable sorts", "why_tests_cant": "The claim ranges over all joint reports of all groups; tests try single deviations at best, and a joint deviation can pay although no single one does.", "anchors": ["pymarket/mechanisms/huang_auction.py: huang_auction", "pymarket/mechanisms/huang_auction.py: update_quantity", "pymarket/bids/demand_curves.py: intersect_stepwise", "pymarket/mechanisms/muda_auction.py: muda", "pymarket/mechanisms/p2p_random.py: p2p_random"]}
{"id": "C131", "title": "A buyer at any price counts as one with a very high price", "statement": "When the price of a bid is infinite, every mechanism gives what it gives with any finite price above all others in its place, with infinity for that price in the result: the same bids trade the same quantities.", "quantifier": "all books with non-negative quantities and prices, some of them infinite; all finite stand-ins above the other prices; all sorts that treat infinity like a large number; all random choices in peer to peer trading", "why_tests_cant": "Tests use finite prices. Infinity takes part in comparisons with the end of the supply curve, which is infinite as well, so that the failure depends on the total quantity of the buyers at any price and not on any single bid.", "anchors": ["pymarket/market.py: Market.accept_bid", "pymarket/bids/demand_curves.py: supply_curve_from_bids", "pymarket/bids/demand_curves.py: intersect_stepwise", "pymarket/mechanisms/huang_auction.py: huang_auction", "pymarket/mechanisms/p2p_random.py: p2p_random"]}
{"id": "C132", "title": "MUDA treats a buyer at any price as one with a very high price", "statement": "When the price of a bid is infinite, MUDA gives what it gives with any finite price above all others in its place: the same halves, the same prices, the same transactions, and the same fees, except that a fee that depends on the stand-in is infinite.", "quantifier": "all books with non-negative quantities and prices, some of them infinite; all pairs of finite stand-ins above the other prices; all sorts that treat infinity like a large number; all coins", "why_tests_cant": "Tests use finite prices. A half without a crossing gets an infinite price, which nobody with a finite price accepts to pay but a buyer at any price does, so that the failure needs a particular split of the book. Infinite differences in the fees give NaN, which pandas leaves out of sums.", "anchors": ["pymarket/mechanisms/muda_auction.py: muda", "pymarket/mechanisms/muda_auction.py: solve_market_side_with_exogenous_price", "pymarket/mechanisms/muda_auction.py: compute_fee", "pymarket/utils/decorators.py: check_equal_price"]}
{"id": "C133", "title": "Running a mechanism again on what is left trades nothing", "statement": "After a run, take the bids that have something left, with what they have left, into a new market. The same mechanism run on this market trades nothing more.", "quantifier": "all books with non-negative quantities and prices (positive quantities with merging and for Huang's auction; no equal prices on a side for huang_auction without merging); all sorts; all random choices of both runs; all price coefficients", "why_tests_cant": "Tests run a mechanism once. Whether a second run trades depends on what every bid has left after the first one, for every order of equal prices and every random choice.", "anchors": ["pymarket/mechanisms/p2p_random.py: p2p_random", "pymarket/mechanisms/huang_auction.py: huang_auction", "pymarket/mechanisms/muda_auction.py: muda", "docs/new_mechanism.ipynb: uniform_price_mechanism"]}
{"id": "C134", "title": "Quantities that cancel give NaN entries, and infinite ones only next to a negative total", "statement": "Run with merging, a mechanism gives every bid its share of what its price group trades. If the quantities of a group cancel, its entries are NaN as long as no group has a negative total. Otherwise an entry is infinite, with the sign of the bid's quantity times what the group trades, and NaN if one of the two is 0.", "quantifier": "all books with quantities of any sign for peer to peer trading; all books in which no price group has a negative total for the three mechanisms; all sorts, samplers, coins and random choices", "why_tests_cant": "Tests use positive quantities. The division by a total of zero raises nothing, so the wrong entries appear silently and only for particular combinations of bids and meetings.", "anchors": ["pymarket/transactions/processing.py: split_transactions_merged_players", "pymarket/bids/processing.py: merge_same_price", "pymarket/mechanisms/mechanism.py: Mechanism.run", "pymarket/statistics/profits.py: calculate_profits"]}
{"id": "C135", "title": "A small change of the quantities changes the outcome by little", "statement": "Take two books with the same bids at the same prices and other quantities. What is traded, the maximal volume and the maximal welfare change by no more than the quantities change: the crossing quantity and the uniform price volume by at most the larger of the two sides' changes, the maximal volume by at most the sum, the maximal welfare by at most the range of the values times the larger. The same is claimed for the volumes of the other mechanisms, with the same draws.", "quantifier": "all pairs of books with non-negative quantities and the same bids, all sorts, all reservation prices for the welfare", "why_tests_cant": "A jump shows only at particular quantities, where a bid becomes or stops being the marginal one, or where a bid is just used up. Tests run one book at a time and do not compare neighbours.", "anchors": ["pymarket/bids/demand_curves.py: intersect_stepwise", "docs/new_mechanism.ipynb:163-222", "pymarket/mechanisms/huang_auction.py: huang_auction", "pymarket/mechanisms/muda_auction.py: muda", "pymarket/mechanisms/p2p_random.py: p2p_random", "pymarket/statistics/maximum_traded_volume.py: maximum_traded_volume", "pymarket/statistics/maximum_aggregated_utility.py: maximum_aggregated_utility"]}
{"id": "C136", "title": "A small change of the prices changes the outcome by little", "statement": "Take a book and change its prices by at most a given amount. The maximal welfare changes by at most the changes of the values, each times the quantity of its bid. The mechanisms trade the same quantities, and their prices move by at most the given amount.", "quantifier": "all books with non-negative quantities and prices, all changes of the prices, all sorts that compare prices, all random choices and all coefficients between 0 and 1", "why_tests_cant": "Jumps show only where a price passes another one. Tests run one book at a time and do not compare neighbours.", "anchors": ["pymarket/statistics/maximum_aggregated_utility.py: maximum_aggregated_utility", "pymarket/mechanisms/huang_auction.py: huang_auction", "pymarket/mechanisms/p2p_random.py: p2p_random", "pymarket/mechanisms/muda_auction.py: muda", "docs/new_mechanism.ipynb:163-222"]}
{"id": "C137", "title": "Joining two markets loses nothing", "statement": "Put the bids of two markets into one. The maximal welfare and the maximal volume of the joint market are at least the sums of those of the two markets. The quantity at which the curves cross is at least that of either market. Each mechanism trades at least as much in the joint market as in the two together.", "quantifier": "all pairs of books with non-negative quantities and prices, all reservation prices, all sorts that compare prices, all random choices", "why_tests_cant": "Tests run one market at a time. Whether the outcomes of two runs add up depends on how the prices of the two markets interleave.", "anchors": ["pymarket/statistics/maximum_aggregated_utility.py: maximum_aggregated_utility", "pymarket/statistics/maximum_traded_volume.py: maximum_traded_volume", "pymarket/mechanisms/huang_auction.py: huang_auction", "pymarket/mechanisms/muda_auction.py: muda", "pymarket/mechanisms/p2p_random.py: p2p_random", "docs/new_mechanism.ipynb:163-222"]}
{"id": "C138", "title": "A bid with a missing number is left out", "statement": "A bid whose quantity or price is NaN trades nothing, and the other bids trade as they would with a bid that nobody takes.", "quantifier": "all books with non-negative prices and quantities that may be infinite or NaN, all positions of the NaN entries, all sorts that compare prices, all random choices and coins; for quantities and for prices", "why_tests_cant": "No test has a NaN in a bid. What it does depends on whether pandas or NumPy sums, on comparisons that are false and on an empty grid, for every book and every position.", "anchors": ["pymarket/bids/demand_curves.py: intersect_stepwise", "pymarket/bids/demand_curves.py: demand_curve_from_bids", "pymarket/mechanisms/huang_auction.py: huang_auction", "pymarket/mechanisms/muda_auction.py: find_competitive_price", "pymarket/mechanisms/p2p_random.py: p2p_random", "pymarket/bids/processing.py: merge_same_price", "docs/new_mechanism.ipynb:163-222"]}
