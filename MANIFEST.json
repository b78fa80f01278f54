{
 "claims": [
  {
   "property": "C01",
   "status": "proved",
   "theorems": [
    "PyMarket.C01_bid_ids_and_log",
    "PyMarket.C01_append_only",
    "PyMarket.C01_defaults",
    "PyMarket.C01_market_accept"
   ],
   "note": "All histories of add_bid calls."
  },
  {
   "property": "C02",
   "status": "proved",
   "theorems": [
    "PyMarket.C02_log",
    "PyMarket.C02_merge"
   ],
   "note": "All logs."
  },
  {
   "property": "C03",
   "status": "proved",
   "theorems": [
    "PyMarket.C03_market_history",
    "PyMarket.C03_failed_run"
   ],
   "note": "All histories of accept_bid, run, statistics, plot_method."
  },
  {
   "property": "C04",
   "status": "proved",
   "theorems": [
    "PyMarket.C04_one_sided_no_trade",
    "PyMarket.C04_two_sided_invokes"
   ],
   "note": "All one-sided books, all mechanisms, merge on or off."
  },
  {
   "property": "C34",
   "status": "proved",
   "theorems": [
    "PyMarket.C34_merge_partition"
   ],
   "note": "All tables, all precisions."
  },
  {
   "property": "C35",
   "status": "proved",
   "theorems": [
    "PyMarket.C35_fresh_ids",
    "PyMarket.C35_consecutive"
   ],
   "note": "All tables."
  },
  {
   "property": "C36",
   "status": "proved",
   "theorems": [
    "PyMarket.C36_split",
    "PyMarket.C36_split_conserves"
   ],
   "note": "All logs/mappings with positive group totals; the zero-total case is C48's counterexample."
  },
  {
   "property": "C49",
   "status": "proved",
   "theorems": [
    "PyMarket.C49_plot_method",
    "PyMarket.C49_plot_history"
   ],
   "note": "All histories; matplotlib itself not modelled."
  },
  {
   "property": "C05",
   "status": "proved",
   "theorems": [
    "PyMarket.C05_demand_curve",
    "PyMarket.C05_demand_rows",
    "PyMarket.C05_tie_independent",
    "PyMarket.C05_demand_nonincreasing"
   ],
   "note": ""
  },
  {
   "property": "C06",
   "status": "proved",
   "theorems": [
    "PyMarket.C06_supply_curve",
    "PyMarket.C06_supply_rows",
    "PyMarket.C06_tie_independent",
    "PyMarket.C06_supply_nondecreasing"
   ],
   "note": ""
  },
  {
   "property": "C07",
   "status": "proved",
   "theorems": [
    "PyMarket.C07_none_iff",
    "PyMarket.C07_value_iff",
    "PyMarket.C07_antitone",
    "PyMarket.C07_monotone"
   ],
   "note": "Monotonicity does not need sorted breakpoints."
  },
  {
   "property": "C08",
   "status": "proved",
   "theorems": [
    "PyMarket.C08_total",
    "PyMarket.C08_equilibrium",
    "PyMarket.C08_max_volume",
    "PyMarket.C08_tie_independent"
   ],
   "note": "Also: the intersection is the largest quantity tradeable at a uniform price."
  },
  {
   "property": "C09",
   "status": "partial",
   "theorems": [
    "PyMarket.C09_intersection_found_partial",
    "PyMarket.C09_refuted"
   ],
   "note": "The code violates the claim when the two curves take the same price at some quantity; the exact condition is proved and a witness book refutes the full claim."
  },
  {
   "property": "C10",
   "status": "proved",
   "theorems": [
    "PyMarket.C10_price_supported",
    "PyMarket.C10_price_value",
    "PyMarket.C10_price_infinite",
    "PyMarket.C10_competitive_price"
   ],
   "note": ""
  },
  {
   "property": "C11",
   "status": "partial",
   "theorems": [
    "PyMarket.C11_price_clears_partial",
    "PyMarket.C11_exact",
    "PyMarket.C11_refuted"
   ],
   "note": "The code violates the claim when both curves step at the equilibrium quantity; proved otherwise, C11_exact says when the price clears in general, witness book refutes the full claim."
  },
  {
   "property": "C51",
   "status": "partial",
   "theorems": [
    "PyMarket.C51_order_independent_partial",
    "PyMarket.C51_quantity_partial",
    "PyMarket.C51_refuted"
   ],
   "note": "The code violates the claim when two bids on one side have the same price; proved for distinct prices per side; on any book the quantity is order independent and the price is one of three values; witness refutes the full claim."
  },
  {
   "property": "C12",
   "status": "proved",
   "theorems": [
    "PyMarket.C12_water_filling",
    "PyMarket.C12_bounds",
    "PyMarket.C12_sum",
    "PyMarket.C12_excess"
   ],
   "note": ""
  },
  {
   "property": "C13",
   "status": "proved",
   "theorems": [
    "PyMarket.C13_balanced",
    "PyMarket.C13_balanced_direct"
   ],
   "note": ""
  },
  {
   "property": "C14",
   "status": "proved",
   "theorems": [
    "PyMarket.C14_at_most_once",
    "PyMarket.C14_at_most_once_direct"
   ],
   "note": ""
  },
  {
   "property": "C15",
   "status": "proved",
   "theorems": [
    "PyMarket.C15_rational",
    "PyMarket.C15_rational_direct"
   ],
   "note": "Rationality is with respect to the unrounded submitted prices."
  },
  {
   "property": "C16",
   "status": "proved",
   "theorems": [
    "PyMarket.C16_market_profit"
   ],
   "note": ""
  },
  {
   "property": "C17",
   "status": "proved",
   "theorems": [
    "PyMarket.C17_price_setters"
   ],
   "note": ""
  },
  {
   "property": "C18",
   "status": "partial",
   "theorems": [
    "PyMarket.C18_volume_partial",
    "PyMarket.C18_volume_direct_partial",
    "PyMarket.C18_refuted",
    "PyMarket.C18_exact",
    "PyMarket.C18_exact_direct"
   ],
   "note": "The code violates the claim when nothing is traded because only the sell side has no intramarginal bid (witness); proved whenever there is a transaction. C18_exact gives the traded and the reported quantity in every case and says exactly when they agree."
  },
  {
   "property": "C19",
   "status": "proved",
   "theorems": [
    "PyMarket.C19_rounds"
   ],
   "note": ""
  },
  {
   "property": "C20",
   "status": "proved",
   "theorems": [
    "PyMarket.C20_conservation"
   ],
   "note": ""
  },
  {
   "property": "C21",
   "status": "proved",
   "theorems": [
    "PyMarket.C21_price_rule"
   ],
   "note": ""
  },
  {
   "property": "C22",
   "status": "proved",
   "theorems": [
    "PyMarket.C22_complete"
   ],
   "note": "Termination is by the well-founded recursions of the model for every choice sequence; the bound on meetings and completeness are proved."
  },
  {
   "property": "C23",
   "status": "proved",
   "theorems": [
    "PyMarket.C23_log"
   ],
   "note": ""
  },
  {
   "property": "C40",
   "status": "proved",
   "theorems": [
    "PyMarket.C40_accounting",
    "PyMarket.C40_player",
    "PyMarket.C40_market"
   ],
   "note": ""
  },
  {
   "property": "C41",
   "status": "partial",
   "theorems": [
    "PyMarket.C41_fees_partial",
    "PyMarket.C41_refuted"
   ],
   "note": "The code adds fees to the market maker's profit but never charges them to players; the exact behaviour is proved and a witness refutes the claim."
  },
  {
   "property": "C42",
   "status": "proved",
   "theorems": [
    "PyMarket.C42_player_reservation",
    "PyMarket.C42_default",
    "PyMarket.C42_frame",
    "PyMarket.C42_dictionary"
   ],
   "note": ""
  },
  {
   "property": "C24",
   "status": "proved",
   "theorems": [
    "PyMarket.C24_halves",
    "PyMarket.C24_own_price"
   ],
   "note": ""
  },
  {
   "property": "C25",
   "status": "proved",
   "theorems": [
    "PyMarket.C25_balance"
   ],
   "note": ""
  },
  {
   "property": "C26",
   "status": "proved",
   "theorems": [
    "PyMarket.C26_rational",
    "PyMarket.C26_efficient"
   ],
   "note": ""
  },
  {
   "property": "C27",
   "status": "proved",
   "theorems": [
    "PyMarket.C27_half",
    "PyMarket.C27_no_competition",
    "PyMarket.C27_fees"
   ],
   "note": "The run theorem uses user ids 0..n-1 (otherwise negative ids address other users' fee slots)."
  },
  {
   "property": "C28",
   "status": "proved",
   "theorems": [
    "PyMarket.C28_half",
    "PyMarket.C28_participation"
   ],
   "note": ""
  },
  {
   "property": "C29",
   "status": "proved",
   "theorems": [
    "PyMarket.C29_market_profit"
   ],
   "note": ""
  },
  {
   "property": "C30",
   "status": "partial",
   "theorems": [
    "PyMarket.C30_fee_total_partial",
    "PyMarket.C30_exact",
    "PyMarket.C30_refuted"
   ],
   "note": "The code overwrites the fee of the left half (C30_exact says what is charged in every case); proved for users not trading on the long side of both halves, witness refutes the full claim."
  },
  {
   "property": "C31",
   "status": "proved",
   "theorems": [
    "PyMarket.C31_rejects"
   ],
   "note": ""
  },
  {
   "property": "C32",
   "status": "partial",
   "theorems": [
    "PyMarket.C32_total_partial",
    "PyMarket.C32_exact",
    "PyMarket.C32_refuted"
   ],
   "note": "Proved for user ids 0..n-1; C32_exact characterises for all user ids when IndexError is raised; witness for ids with gaps."
  },
  {
   "property": "C37",
   "status": "proved",
   "theorems": [
    "PyMarket.C37_value",
    "PyMarket.C37_percentage_traded"
   ],
   "note": "The solver is assumed to return the optimal value of the program it is given (the value exists, C39). Default arguments: merge off for MUDA and P2P."
  },
  {
   "property": "C38",
   "status": "proved",
   "theorems": [
    "PyMarket.C38_value",
    "PyMarket.C38_percentage_welfare"
   ],
   "note": "The solver is assumed to return the optimal value of the program it is given (the value exists, C39). Default arguments: merge off for MUDA and P2P; P2P coefficient in [0,1]."
  },
  {
   "property": "C39",
   "status": "proved",
   "theorems": [
    "PyMarket.C39_volume",
    "PyMarket.C39_welfare"
   ],
   "note": "Existence by Fourier-Motzkin elimination over the rationals; the optimum is characterised as the best trade plan."
  },
  {
   "property": "C43",
   "status": "partial",
   "theorems": [
    "PyMarket.C43_reservation_partial",
    "PyMarket.C43_refuted"
   ],
   "note": "The code discards the reservation prices; proved when they repeat the submitted prices, witness refutes the full claim."
  },
  {
   "property": "C44",
   "status": "proved",
   "theorems": [
    "PyMarket.C44_well_formed",
    "PyMarket.C44_zero"
   ],
   "note": "np.arange in exact arithmetic."
  },
  {
   "property": "C45",
   "status": "proved",
   "theorems": [
    "PyMarket.C45_muda_accepts"
   ],
   "note": "Through Market.accept_bid and Market.run; also for negative offsets."
  },
  {
   "property": "C46",
   "status": "proved",
   "theorems": [
    "PyMarket.C46_attributes"
   ],
   "note": "for huang, muda and p2p, with and without merging; also for different samplers of the merged attributes"
  },
  {
   "property": "C48",
   "status": "partial",
   "theorems": [
    "PyMarket.C48_total_partial",
    "PyMarket.C48_no_exception",
    "PyMarket.C48_refuted"
   ],
   "note": "proved when no price group has total quantity 0; with such a group the split computes 0/0, also on books made by the bundled generator (refuted with a generated witness). No exception is ever raised; what the log contains then is C105."
  },
  {
   "property": "C47",
   "status": "proved",
   "theorems": [
    "PyMarket.C47_order"
   ],
   "note": "also independent of the tie-breaking of the sort; hypothesis: no price group of total quantity 0 (C48)"
  },
  {
   "property": "C50",
   "status": "proved",
   "theorems": [
    "PyMarket.C50_drawn"
   ],
   "note": "also covers the part of the drawn range beyond the total supply, where the curve is infinite and the line is drawn at a finite height; non-negative quantities suffice"
  },
  {
   "property": "C33",
   "status": "proved",
   "theorems": [
    "PyMarket.C33_truthful",
    "PyMarket.C33_overreport",
    "PyMarket.C33_several_bids"
   ],
   "note": "proved for users with one bid, for price and quantity misreports (a buyer may also report too much); the failure for users with several bids is proved with a concrete book"
  },
  {
   "property": "C52",
   "status": "partial",
   "theorems": [
    "PyMarket.C52_edges_partial",
    "PyMarket.C52_compatible_partial",
    "PyMarket.C52_refuted"
   ],
   "note": "The code also draws an edge for a meeting without trade; proved: edges are exactly the meetings, hence exactly the trades when every meeting is compatible; witness refutes the full claim."
  },
  {
   "property": "C53",
   "status": "partial",
   "theorems": [
    "PyMarket.C53_rows_partial",
    "PyMarket.C53_refuted"
   ],
   "note": "The code passes bid ids where user ids are needed; proved when users are numbered like their bids, witness refutes the full claim."
  },
  {
   "property": "C54",
   "status": "partial",
   "theorems": [
    "PyMarket.C54_label_partial",
    "PyMarket.C54_single_bids_partial",
    "PyMarket.C54_refuted"
   ],
   "note": "The code keeps the last logged quantity; proved for pairs that meet once, in particular when every user has one bid; witness refutes the full claim."
  },
  {
   "property": "C55",
   "status": "partial",
   "theorems": [
    "PyMarket.C55_unmerged_partial",
    "PyMarket.C55_merged_partial",
    "PyMarket.C55_refuted"
   ],
   "note": "With merge=True the source column is not translated back; proved without merging and, with merging, for bids of the merged table; witness refutes the full claim."
  },
  {
   "property": "C57",
   "status": "proved",
   "theorems": [
    "PyMarket.C57_p2p",
    "PyMarket.C57_muda"
   ],
   "note": "for runs that return; hypothesis: no price group of total quantity 0 (C48)"
  },
  {
   "property": "C58",
   "status": "partial",
   "theorems": [
    "PyMarket.C58_p2p_partial",
    "PyMarket.C58_muda_partial",
    "PyMarket.C58_p2p_refuted",
    "PyMarket.C58_muda_refuted"
   ],
   "note": "Prices are rounded before merging: proved up to half a unit of the last kept decimal, witnesses refute the exact claim."
  },
  {
   "property": "C56",
   "status": "partial",
   "theorems": [
    "PyMarket.C56_accepts",
    "PyMarket.C56_exact",
    "PyMarket.C56_total_partial",
    "PyMarket.C56_refuted"
   ],
   "note": "The first half (never rejected for equal prices) is proved; the second half fails for fresh ids of merged bids (witness), is characterised exactly, and is proved when every user keeps an unmerged bid."
  },
  {
   "property": "C62",
   "status": "partial",
   "theorems": [
    "PyMarket.C62_fees_partial",
    "PyMarket.C62_refuted"
   ],
   "note": "The code raises AttributeError when a merged bid has a transaction (witness); proved that otherwise the fees come back unchanged and the transactions are split as without fees."
  },
  {
   "property": "C61",
   "status": "partial",
   "theorems": [
    "PyMarket.C61_huang_partial",
    "PyMarket.C61_huang_refuted",
    "PyMarket.C61_line_refuted",
    "PyMarket.C61_muda_partial",
    "PyMarket.C61_muda_refuted"
   ],
   "note": "Curves, price lines and (when there is a transaction) the vertical line are proved; the shaded area is short of the profit by at most a strip of width 0.01 and never equal (witness); MUDA panels proved without merging, refuted with merging (ids of the merged table used for the submitted bids)."
  },
  {
   "property": "C60",
   "status": "partial",
   "theorems": [
    "PyMarket.C60_quantity_unit",
    "PyMarket.C60_units_partial",
    "PyMarket.C60_huang_direct",
    "PyMarket.C60_refuted"
   ],
   "note": "The quantity unit never matters (all mechanisms, merging on or off). The price unit does not matter without merging, and with merging when rounding commutes with the change of unit; tiny prices refute the full claim. For the price unit the sorting algorithm is assumed to depend on comparisons only."
  },
  {
   "property": "C59",
   "status": "partial",
   "theorems": [
    "PyMarket.C59_truthful_partial",
    "PyMarket.C59_stable",
    "PyMarket.C59_price_independent",
    "PyMarket.C59_refuted",
    "PyMarket.C59_unstable_refuted",
    "PyMarket.C59_quantity_refuted"
   ],
   "note": "Proved for huang_auction itself, any sorter, any reported price, when the prices on the user's own side of the true book are pairwise different (C59_truthful_partial), and for every book when the sort is stable (C59_stable); for a sort that is not stable ties break it (C59_unstable_refuted). On any book the price paid by a winner does not depend on its report. For the class HuangAuction (which merges equal prices) the statement is false: C59_refuted. Misreporting the quantity pays even without merging: C59_quantity_refuted."
  },
  {
   "property": "C63",
   "status": "proved",
   "theorems": [
    "PyMarket.C63_equilibrium_efficient",
    "PyMarket.C63_price_supports",
    "PyMarket.C63_bound",
    "PyMarket.C63_condition_needed"
   ],
   "note": "Optimality of the equilibrium quantity for all books with a crossing, any sorter; the price supports the optimum when only one curve steps at x, with a witness that the condition is needed; any price bounds the optimum from above."
  },
  {
   "property": "C67",
   "status": "proved",
   "theorems": [
    "PyMarket.C67_no_losses",
    "PyMarket.C67_p2p_zero",
    "PyMarket.C67_muda_fees"
   ],
   "note": "At the level of Market.run followed by calculate_profits, for all mechanisms, sorters, samplers, coins and choices."
  },
  {
   "property": "C68",
   "status": "proved",
   "theorems": [
    "PyMarket.C68_coins",
    "PyMarket.C68_uniform",
    "PyMarket.C68_symmetric"
   ],
   "note": "Bijection between coin sequences of the length of the book and subsets of its bids."
  },
  {
   "property": "C70",
   "status": "proved",
   "theorems": [
    "PyMarket.C70_exhausted",
    "PyMarket.C70_half_volume",
    "PyMarket.C70_percentage"
   ],
   "note": "For all books, random choices and price coefficients, with and without merging."
  },
  {
   "property": "C64",
   "status": "proved",
   "theorems": [
    "PyMarket.C64_deficit"
   ],
   "note": "Any sorter, any book with non-negative quantities and prices and a crossing; an example attains the bound."
  },
  {
   "property": "C65",
   "status": "proved",
   "theorems": [
    "PyMarket.C65_losers",
    "PyMarket.C65_raising_matters"
   ],
   "note": "The outcome is equal as a value. Distinct prices on the side of the losing bid; C65_raising_matters shows that raising a losing buyer's price can matter."
  },
  {
   "property": "C66",
   "status": "proved",
   "theorems": [
    "PyMarket.C66_threshold",
    "PyMarket.C66_quantity",
    "PyMarket.C66_quantity_stable"
   ],
   "note": "Winning and price on any book; the quantity with distinct prices on the bid's side."
  },
  {
   "property": "C69",
   "status": "proved",
   "theorems": [
    "PyMarket.C69_no_ties",
    "PyMarket.C69_truthful",
    "PyMarket.C69_ties_matter"
   ],
   "note": "Same extra information and same transaction list as the function without merging; with ties the quantities differ (witness)."
  },
  {
   "property": "C71",
   "status": "partial",
   "theorems": [
    "PyMarket.C71_quantity",
    "PyMarket.C71_demand_partial",
    "PyMarket.C71_supply_partial",
    "PyMarket.C71_entry",
    "PyMarket.C71_refuted"
   ],
   "note": "Quantity proved in full. The price can move the wrong way when both curves step at an equilibrium quantity (witness: a new buyer lowers the price from 9 to 5.5); proved when only one curve steps at each of the two equilibria."
  },
  {
   "property": "C72",
   "status": "proved",
   "theorems": [
    "PyMarket.C72_welfare_loss"
   ],
   "note": "for huang_auction itself (before merging)"
  },
  {
   "property": "C73",
   "status": "proved",
   "theorems": [
    "PyMarket.C73_withdraw",
    "PyMarket.C73_never_submitted",
    "PyMarket.C73_setter_matters"
   ],
   "note": "C73_setter_matters shows that strictness is needed: the price setting bid loses too, but its withdrawal changes the price."
  },
  {
   "property": "C74",
   "status": "proved",
   "theorems": [
    "PyMarket.C74_last_drop",
    "PyMarket.C74_contract"
   ],
   "note": "Not restricted to curves of books; preconditions of the docstring only."
  },
  {
   "property": "C75",
   "status": "proved",
   "theorems": [
    "PyMarket.C75_huang_p2p",
    "PyMarket.C75_muda",
    "PyMarket.C75_fees"
   ],
   "note": "C75_fees: for books with non-negative quantities and user ids 0..n-1 on both sides of the renaming (otherwise C32)."
  },
  {
   "property": "C76",
   "status": "proved",
   "theorems": [
    "PyMarket.C76_one_side",
    "PyMarket.C76_surplus",
    "PyMarket.C76_two_sides"
   ],
   "note": "C76_two_sides and C33_several_bids show that neither restriction can be dropped."
  },
  {
   "property": "C77",
   "status": "partial",
   "theorems": [
    "PyMarket.C77_meetings",
    "PyMarket.C77_log",
    "PyMarket.C77_balance",
    "PyMarket.C77_prices",
    "PyMarket.C77_prices_partial",
    "PyMarket.C77_capacity_partial",
    "PyMarket.C77_capacity_refuted",
    "PyMarket.C77_prices_refuted"
   ],
   "note": "Capacity, completeness and (for p_coef other than 1/2) individual rationality hold up to the stated relative rounding error only; the exact statements are refuted in float64."
  },
  {
   "property": "C78",
   "status": "partial",
   "theorems": [
    "PyMarket.C78_nearby",
    "PyMarket.C78_rational",
    "PyMarket.C78_quantities",
    "PyMarket.C78_price_setters",
    "PyMarket.C78_balance_partial",
    "PyMarket.C78_returns_partial",
    "PyMarket.C78_returns_refuted",
    "PyMarket.C78_balance_refuted"
   ],
   "note": "Balance and termination hold up to the stated rounding error (for termination: when every quantity is at least slack * total) only; the exact statements are refuted in float64."
  },
  {
   "property": "C79",
   "status": "partial",
   "theorems": [
    "PyMarket.C79_prices",
    "PyMarket.C79_own_price",
    "PyMarket.C79_rational",
    "PyMarket.C79_returns",
    "PyMarket.C79_balance_partial",
    "PyMarket.C79_balance_refuted",
    "PyMarket.C79_negative_refuted"
   ],
   "note": "Balance and non-negative quantities hold up to rounding errors for at most seven bids per side; the general statements are refuted in float64."
  },
  {
   "property": "C80",
   "status": "partial",
   "theorems": [
    "PyMarket.C80_report",
    "PyMarket.C80_known_bids",
    "PyMarket.C80_later_bids",
    "PyMarket.C80_transparent",
    "PyMarket.C80_reuse_partial",
    "PyMarket.C80_reuse_refuted"
   ],
   "note": "Reusing the caller's dictionary is harmless only for markets whose bid table extends the first one's; refuted otherwise."
  },
  {
   "property": "C81",
   "status": "partial",
   "theorems": [
    "PyMarket.C81_exact",
    "PyMarket.C81_merge",
    "PyMarket.C81_decimals",
    "PyMarket.C81_split",
    "PyMarket.C81_same_decimals_refuted"
   ],
   "note": "Everything but one claim is proved for every format and order of summation; that bids whose prices have the same five decimals are merged is refuted in float64 and proved for prices that are decimals of at most five digits (C81_decimals)."
  },
  {
   "property": "C82",
   "status": "partial",
   "theorems": [
    "PyMarket.C82_rational",
    "PyMarket.C82_rational_decimals",
    "PyMarket.C82_quantities_partial",
    "PyMarket.C82_capacity_refuted"
   ],
   "note": "Capacity and balance hold up to rounding with explicit bounds; exact capacity is refuted in float64."
  },
  {
   "property": "C83",
   "status": "partial",
   "theorems": [
    "PyMarket.C83_huang",
    "PyMarket.C83_p2p",
    "PyMarket.C83_muda",
    "PyMarket.C83_split_huang",
    "PyMarket.C83_split_p2p",
    "PyMarket.C83_split_muda",
    "PyMarket.C83_direct_refuted"
   ],
   "note": "Proved for the three mechanisms with merging (for MUDA whenever both runs return, since it can stop with an IndexError depending on the users); for huang_auction called directly, without merging, it is refuted."
  },
  {
   "property": "C84",
   "status": "proved",
   "theorems": [
    "PyMarket.C84_volume",
    "PyMarket.C84_welfare",
    "PyMarket.C84_equilibrium_half",
    "PyMarket.C84_half_tight"
   ],
   "note": "Closed forms for both programs (IsOptimum iff IsLeast of the bound over all prices); factor two between the crossing quantity and the maximum volume, tight."
  },
  {
   "property": "C85",
   "status": "partial",
   "theorems": [
    "PyMarket.C85_fewer_units",
    "PyMarket.C85_understate_partial",
    "PyMarket.C85_understate_refuted"
   ],
   "note": "Proved while the reported prices stay the same; when the smaller quantity moves the marginal price the claim is refuted, for huang_auction and for the class HuangAuction."
  },
  {
   "property": "C86",
   "status": "proved",
   "theorems": [
    "PyMarket.C86_exact",
    "PyMarket.C86_group_sums",
    "PyMarket.C86_players",
    "PyMarket.C86_no_losses",
    "PyMarket.C86_market",
    "PyMarket.C86_traded",
    "PyMarket.C86_welfare",
    "PyMarket.C86_p2p_market",
    "PyMarket.C86_p2p_players",
    "PyMarket.C86_share_above_one"
   ],
   "note": "The value of the optimisation program is the solver's, taken as it is."
  },
  {
   "property": "C87",
   "status": "proved",
   "theorems": [
    "PyMarket.C87_runs",
    "PyMarket.C87_draws",
    "PyMarket.C87_probability",
    "PyMarket.C87_probability_factorial",
    "PyMarket.C87_reorder",
    "PyMarket.C87_submission"
   ],
   "note": "r.choice is an oracle; that it is uniform and independent is the assumption under which the counts are probabilities."
  },
  {
   "property": "C88",
   "status": "partial",
   "theorems": [
    "PyMarket.C88_huang_partial",
    "PyMarket.C88_muda_partial",
    "PyMarket.C88_distribution_partial",
    "PyMarket.C88_submission",
    "PyMarket.C88_muda_refuted",
    "PyMarket.C88_huang_refuted"
   ],
   "note": "False with equal prices on a side (refuted with witnesses); proved without them. With merge=True prices are always distinct, see C83."
  },
  {
   "property": "C89",
   "status": "partial",
   "theorems": [
    "PyMarket.C89_p2p_rational",
    "PyMarket.C89_p2p_rational_partial",
    "PyMarket.C89_p2p_quantities_partial",
    "PyMarket.C89_p2p_returns",
    "PyMarket.C89_muda_rational",
    "PyMarket.C89_muda_quantities_partial",
    "PyMarket.C89_p2p_refuted",
    "PyMarket.C89_muda_refuted"
   ],
   "note": "Exact capacity and balance are false in float64 (refuted with witnesses); proved up to rounding. The balance of MUDA is limited to fewer than eight bids per side, see C79."
  },
  {
   "property": "C90",
   "status": "partial",
   "theorems": [
    "PyMarket.C90_one_seller",
    "PyMarket.C90_one_buyer",
    "PyMarket.C90_buyer_partial",
    "PyMarket.C90_seller_partial",
    "PyMarket.C90_refuted_sellers",
    "PyMarket.C90_refuted_buyers",
    "PyMarket.C90_refuted_shading"
   ],
   "note": "The full claim is false (refuted for every coefficient). Proved for bids with a single possible counterparty."
  },
  {
   "property": "C91",
   "status": "proved",
   "theorems": [
    "PyMarket.C91_coefficient",
    "PyMarket.C91_statistics"
   ],
   "note": ""
  },
  {
   "property": "C92",
   "status": "proved",
   "theorems": [
    "PyMarket.C92_uniform",
    "PyMarket.C92_terminates",
    "PyMarket.C92_permutation",
    "PyMarket.C92_choice",
    "PyMarket.C92_p2p",
    "PyMarket.C92_muda",
    "PyMarket.C92_generate",
    "PyMarket.C92_words",
    "PyMarket.C92_twister"
   ],
   "note": "NumPy's algorithms are modelled from their documented behaviour; they are not in the repository. That the words themselves are uniform is a property of the Mersenne twister that is not proved."
  },
  {
   "property": "C93",
   "status": "partial",
   "theorems": [
    "PyMarket.C93_coins_partial",
    "PyMarket.C93_refuted",
    "PyMarket.C93_bias",
    "PyMarket.C93_near",
    "PyMarket.C93_empty_left",
    "PyMarket.C93_muda"
   ],
   "note": "Exact fairness is false (refuted); the exact distribution and its distance from the fair one are proved."
  },
  {
   "property": "C94",
   "status": "proved",
   "theorems": [
    "PyMarket.C94_returns",
    "PyMarket.C94_outcome",
    "PyMarket.C94_market"
   ],
   "note": ""
  },
  {
   "property": "C95",
   "status": "proved",
   "theorems": [
    "PyMarket.C95_efficient",
    "PyMarket.C95_statistics"
   ],
   "note": ""
  },
  {
   "property": "C96",
   "status": "partial",
   "theorems": [
    "PyMarket.C96_serves_partial",
    "PyMarket.C96_exact",
    "PyMarket.C96_some_price_serves",
    "PyMarket.C96_refuted"
   ],
   "note": "False in general (refuted); proved when only one curve steps at the clearing quantity, C96_exact says when it holds in general, and some supporting price always exists."
  },
  {
   "property": "C97",
   "status": "partial",
   "theorems": [
    "PyMarket.C97_front_buyer_partial",
    "PyMarket.C97_front_seller_partial",
    "PyMarket.C97_refuted_buyer",
    "PyMarket.C97_refuted_seller",
    "PyMarket.C97_refuted_loser"
   ],
   "note": "False in general (refuted); proved for bids that stay ahead of another trading bid of their side."
  },
  {
   "property": "C98",
   "status": "partial",
   "theorems": [
    "PyMarket.C98_muda",
    "PyMarket.C98_muda_quantity",
    "PyMarket.C98_volumes_partial",
    "PyMarket.C98_muda_merged",
    "PyMarket.C98_p2p_refuted"
   ],
   "note": "Proved for Huang's auction and MUDA; for peer to peer trading the bound x is false (refuted) and 2x holds."
  },
  {
   "property": "C99",
   "status": "partial",
   "theorems": [
    "PyMarket.C99_rounded_volume",
    "PyMarket.C99_traded_partial",
    "PyMarket.C99_welfare_partial",
    "PyMarket.C99_no_losses_partial",
    "PyMarket.C99_refuted_traded",
    "PyMarket.C99_refuted_welfare",
    "PyMarket.C99_refuted_profits"
   ],
   "note": "False in general (refuted); proved for prices with at most five decimals, with bounds for all prices."
  },
  {
   "property": "C100",
   "status": "partial",
   "theorems": [
    "PyMarket.C100_run_partial",
    "PyMarket.C100_huang_partial",
    "PyMarket.C100_huang_direct_partial",
    "PyMarket.C100_refuted_prices",
    "PyMarket.C100_refuted_traded",
    "PyMarket.C100_refuted_welfare"
   ],
   "note": "False for Huang's auction with negative bids (refuted); proved for P2P and MUDA with any prices and for Huang's auction with non-negative buying prices, with the guarantees that remain otherwise."
  },
  {
   "property": "C101",
   "status": "proved",
   "theorems": [
    "PyMarket.C101",
    "PyMarket.C101_nearest",
    "PyMarket.C101_moderate",
    "PyMarket.C101_p2p",
    "PyMarket.C101_needs_range"
   ],
   "note": "The range is part of the statement; C101_needs_range shows that it cannot be dropped."
  },
  {
   "property": "C102",
   "status": "partial",
   "theorems": [
    "PyMarket.C102_p2p_partial",
    "PyMarket.C102_muda_partial",
    "PyMarket.C102_huang_partial",
    "PyMarket.C102_clash",
    "PyMarket.C102_coefficient",
    "PyMarket.C102_generator",
    "PyMarket.C102_one_sided",
    "PyMarket.C102_refuted"
   ],
   "note": "False on one-sided markets (refuted; C102_one_sided says what happens there); proved for two-sided ones."
  },
  {
   "property": "C103",
   "status": "partial",
   "theorems": [
    "PyMarket.C103_returns",
    "PyMarket.C103_quantities",
    "PyMarket.C103_prices",
    "PyMarket.C103_distinct_partial",
    "PyMarket.C103_muda",
    "PyMarket.C103_zero",
    "PyMarket.C103_exact",
    "PyMarket.C103_refuted",
    "PyMarket.C103_below_refuted"
   ],
   "note": "Different prices on a side only if the rounding at the offset is finer than the grid (refuted for large offsets); the rest is proved, with prices up to and including the rounded offset + 1."
  },
  {
   "property": "C104",
   "status": "proved",
   "theorems": [
    "PyMarket.C104_deficit",
    "PyMarket.C104_welfare",
    "PyMarket.C104_losers",
    "PyMarket.C104_withdraw",
    "PyMarket.C104_keener_matters"
   ],
   "note": ""
  },
  {
   "property": "C105",
   "status": "proved",
   "theorems": [
    "PyMarket.C105_mark",
    "PyMarket.C105_huang",
    "PyMarket.C105_p2p",
    "PyMarket.C105_muda"
   ],
   "note": "removes the hypothesis on empty price groups from conservation, price and volume guarantees of merged runs, for the entries that are numbers"
  },
  {
   "property": "C106",
   "status": "partial",
   "theorems": [
    "PyMarket.C106_statistics_partial",
    "PyMarket.C106_refuted"
   ],
   "note": "proved for both percentages and the players' profits; the market's profit is NaN exactly when an entry is (refuted with a generated book)"
  },
  {
   "property": "C107",
   "status": "proved",
   "theorems": [
    "PyMarket.C107_residue",
    "PyMarket.C107_fees"
   ],
   "note": ""
  },
  {
   "property": "C108",
   "status": "proved",
   "theorems": [
    "PyMarket.C108_p2p",
    "PyMarket.C108_huang",
    "PyMarket.C108_muda",
    "PyMarket.C108_exact",
    "PyMarket.C108_integers",
    "PyMarket.C108_bound_needed"
   ],
   "note": "unmerged runs; the Huang quantities of the other side are covered by the error bounds of C78"
  },
  {
   "property": "C109",
   "status": "proved",
   "theorems": [
    "PyMarket.C109_rounds",
    "PyMarket.C109_deals",
    "PyMarket.C109_no_deals"
   ],
   "note": ""
  },
  {
   "property": "C110",
   "status": "proved",
   "theorems": [
    "PyMarket.C110_share",
    "PyMarket.C110_no_fixed_share"
   ],
   "note": ""
  },
  {
   "property": "C111",
   "status": "proved",
   "theorems": [
    "PyMarket.C111_price",
    "PyMarket.C111_made",
    "PyMarket.C111_huang",
    "PyMarket.C111_muda"
   ],
   "note": ""
  },
  {
   "property": "C112",
   "status": "proved",
   "theorems": [
    "PyMarket.C112_price",
    "PyMarket.C112_dips",
    "PyMarket.C112_huang",
    "PyMarket.C112_muda",
    "PyMarket.C112_p2p",
    "PyMarket.C112_single_refuted",
    "PyMarket.C112_complete_refuted"
   ],
   "note": ""
  },
  {
   "property": "C113",
   "status": "proved",
   "theorems": [
    "PyMarket.C113_bids",
    "PyMarket.C113_users",
    "PyMarket.C113_self_refuted",
    "PyMarket.C113_self_partial"
   ],
   "note": "The expected statement (nobody trades with themselves) is refuted; C113_self_partial gives the exact condition."
  },
  {
   "property": "C114",
   "status": "proved",
   "theorems": [
    "PyMarket.C114_half",
    "PyMarket.C114_needs",
    "PyMarket.C114_thin",
    "PyMarket.C114_chance",
    "PyMarket.C114_trades_refuted",
    "PyMarket.C114_somewhere_refuted"
   ],
   "note": ""
  },
  {
   "property": "C115",
   "status": "partial",
   "theorems": [
    "PyMarket.C115_volume_partial",
    "PyMarket.C115_balanced",
    "PyMarket.C115_most_partial",
    "PyMarket.C115_large_partial",
    "PyMarket.C115_wide",
    "PyMarket.C115_ties_refuted",
    "PyMarket.C115_free_refuted"
   ],
   "note": "The statement for every book (Spec.MudaTradesMost) is refuted: the code's competitive price is not usable with ties or free offers. Proved for books without them."
  },
  {
   "property": "C116",
   "status": "partial",
   "theorems": [
    "PyMarket.C116_gains_partial",
    "PyMarket.C116_most_partial",
    "PyMarket.C116_large_partial",
    "PyMarket.C116_wide",
    "PyMarket.C116_ties_refuted",
    "PyMarket.C116_free_refuted"
   ],
   "note": "The statement for every book (Spec.MudaGainsMost) is refuted by ties and by free offers; proved for books without them."
  },
  {
   "property": "C117",
   "status": "partial",
   "theorems": [
    "PyMarket.C117_prices",
    "PyMarket.C117_huang",
    "PyMarket.C117_others",
    "PyMarket.C117_uniform_refuted",
    "PyMarket.C117_muda_refuted"
   ],
   "note": "Proved for huang_auction; refuted for the uniform price of the documentation and for MUDA. With merging, dividing a bid changes nothing (C83)."
  },
  {
   "property": "C118",
   "status": "partial",
   "theorems": [
    "PyMarket.C118_share_partial",
    "PyMarket.C118_equal_partial",
    "PyMarket.C118_unrationed_partial",
    "PyMarket.C118_refuted"
   ],
   "note": "Proved for proportional rationing (equal sizes, or nobody rationed); refuted in general."
  },
  {
   "property": "C119",
   "status": "proved",
   "theorems": [
    "PyMarket.C119_intersection",
    "PyMarket.C119_unique",
    "PyMarket.C119_huang",
    "PyMarket.C119_muda",
    "PyMarket.C119_uniform"
   ],
   "note": "Exact and stated without the curves."
  },
  {
   "property": "C120",
   "status": "proved",
   "theorems": [
    "PyMarket.C120_replicas",
    "PyMarket.C120_limit"
   ],
   "note": "For every book with a crossing, every number of copies."
  },
  {
   "property": "C121",
   "status": "partial",
   "theorems": [
    "PyMarket.C121_outcome",
    "PyMarket.C121_none",
    "PyMarket.C121_totals",
    "PyMarket.C121_anonymous",
    "PyMarket.C121_split",
    "PyMarket.C121_prices_partial",
    "PyMarket.C121_refuted"
   ],
   "note": "Everything but the last clause is proved in full; submitted prices are respected up to half a unit of the fifth decimal only (refuted with a witness)."
  },
  {
   "property": "C122",
   "status": "partial",
   "theorems": [
    "PyMarket.C122_huang",
    "PyMarket.C122_competitive",
    "PyMarket.C122_volume_partial",
    "PyMarket.C122_refuted"
   ],
   "note": "Prices proved in full. The volume can fall (refuted: from 1 to 0); proved that it falls by less than the largest bid as long as a marginal pair remains."
  },
  {
   "property": "C123",
   "status": "partial",
   "theorems": [
    "PyMarket.C123_exact",
    "PyMarket.C123_nearby",
    "PyMarket.C123_rational",
    "PyMarket.C123_balance_partial",
    "PyMarket.C123_balance_refuted",
    "PyMarket.C123_refuted"
   ],
   "note": "Prices, order, limits and backward stability proved for every order of summation. Signs and balance proved up to rounding errors for sums from left to right; refuted in float64 otherwise (witnesses)."
  },
  {
   "property": "C124",
   "status": "partial",
   "theorems": [
    "PyMarket.C124_huang",
    "PyMarket.C124_huang_refuted",
    "PyMarket.C124_same_price",
    "PyMarket.C124_class_refuted",
    "PyMarket.C124_uniform_partial",
    "PyMarket.C124_uniform_refuted",
    "PyMarket.C124_muda_partial",
    "PyMarket.C124_muda_refuted",
    "PyMarket.C124_p2p_refuted"
   ],
   "note": "Absence of envy is refuted for every mechanism. Proved: exactly which bids can envy in Huang's auction, none between equal prices in the class, none with the uniform price when all willing bids are served, none within a half of MUDA net of the other's fee."
  },
  {
   "property": "C125",
   "status": "partial",
   "theorems": [
    "PyMarket.C125_huang",
    "PyMarket.C125_class_partial",
    "PyMarket.C125_class_refuted",
    "PyMarket.C125_uniform",
    "PyMarket.C125_p2p",
    "PyMarket.C125_muda_refuted"
   ],
   "note": "Proved for Huang's auction, the uniform price and peer to peer trading; with merging when all prices have five decimals (refuted otherwise). Refuted for MUDA."
  },
  {
   "property": "C126",
   "status": "partial",
   "theorems": [
    "PyMarket.C126_huang",
    "PyMarket.C126_muda",
    "PyMarket.C126_class_partial",
    "PyMarket.C126_uniform",
    "PyMarket.C126_p2p",
    "PyMarket.C126_zero_refuted",
    "PyMarket.C126_class_refuted"
   ],
   "note": "Proved for all four mechanisms when the prices are positive (refuted for prices of 0); with merging when prices and surcharge have five decimals (refuted otherwise)."
  },
  {
   "property": "C127",
   "status": "partial",
   "theorems": [
    "PyMarket.C127_sorters",
    "PyMarket.C127_huang",
    "PyMarket.C127_quantity_refuted",
    "PyMarket.C127_uniform",
    "PyMarket.C127_muda_partial",
    "PyMarket.C127_muda_trades",
    "PyMarket.C127_muda_refuted",
    "PyMarket.C127_p2p"
   ],
   "note": "Trades and prices are mirrored in all four mechanisms; MUDA's fees and exceptions when no group of buyers asks for exactly what a group of sellers offers (refuted otherwise); Huang's reported quantity when something is traded (refuted otherwise). Prices strictly between 0 and the common value; merging not covered."
  },
  {
   "property": "C128",
   "status": "partial",
   "theorems": [
    "PyMarket.C128_uniform_partial",
    "PyMarket.C128_supported",
    "PyMarket.C128_uniform_refuted",
    "PyMarket.C128_huang",
    "PyMarket.C128_huang_refuted",
    "PyMarket.C128_muda_partial",
    "PyMarket.C128_muda_refuted",
    "PyMarket.C128_p2p_partial",
    "PyMarket.C128_p2p_refuted"
   ],
   "note": "Holds for the uniform price when no more than the cleared quantity is demanded above and offered below the price, and for some price always; for Huang's auction with the loss of all bidders as the bound; for MUDA for groups of one half whose members on the longer side trade in full; for peer to peer trading for groups that did not trade. Refuted as stated for all four mechanisms."
  },
  {
   "property": "C129",
   "status": "partial",
   "theorems": [
    "PyMarket.C129_huang_partial",
    "PyMarket.C129_huang_blocked",
    "PyMarket.C129_never_stuck",
    "PyMarket.C129_huang_refuted",
    "PyMarket.C129_uniform_partial",
    "PyMarket.C129_uniform_blocked",
    "PyMarket.C129_uniform_refuted",
    "PyMarket.C129_muda_price_partial",
    "PyMarket.C129_muda_price_refuted",
    "PyMarket.C129_muda_round_partial",
    "PyMarket.C129_muda_round_both",
    "PyMarket.C129_muda_round_ends",
    "PyMarket.C129_muda_fee",
    "PyMarket.C129_muda_fee_both",
    "PyMarket.C129_muda_round_refuted",
    "PyMarket.C129_p2p_partial",
    "PyMarket.C129_p2p_refuted",
    "PyMarket.C129_merged_huang",
    "PyMarket.C129_merged_totals",
    "PyMarket.C129_merged_winners"
   ],
   "note": "Holds for Huang's auction, the uniform price and peer to peer trading whenever no unlimited buyer can trade with an unlimited seller, and for finite prices of MUDA halves. Refuted without the condition, where Huang's auction provably never trades. The trades of a round of MUDA at a given price are those of the filled book unless both sides have an unlimited bid that wants to trade; then every such bid trades in full. The fee of a user, for given trading rows, is the one with any large quantities, and zero when the traded quantity is infinite. With merging, Huang's auction always ends with finite trades of limited bids (C129_merged_huang)."
  },
  {
   "property": "C130",
   "status": "partial",
   "theorems": [
    "PyMarket.C130_winners",
    "PyMarket.C130_huang_partial",
    "PyMarket.C130_huang_refuted",
    "PyMarket.C130_muda_refuted",
    "PyMarket.C130_uniform_refuted",
    "PyMarket.C130_p2p_refuted"
   ],
   "note": "Huang's auction with a stable sort: no group can report prices with which every member gains; proved for all books and groups. That some gain and none loses is possible, and in MUDA, the uniform price and peer to peer trading whole groups gain."
  },
  {
   "property": "C131",
   "status": "partial",
   "theorems": [
    "PyMarket.C131_huang_partial",
    "PyMarket.C131_huang_blocked",
    "PyMarket.C131_huang_refuted",
    "PyMarket.C131_uniform_partial",
    "PyMarket.C131_uniform_blocked",
    "PyMarket.C131_uniform_refuted",
    "PyMarket.C131_muda_partial",
    "PyMarket.C131_muda_blocked",
    "PyMarket.C131_p2p",
    "PyMarket.C131_p2p_price",
    "PyMarket.C131_p2p_refuted"
   ],
   "note": "Proved for Huang's auction, the uniform price and the price of a half of MUDA when the buyers at any price ask for no more than is offered, and for the meetings and quantities of peer to peer trading without restriction. False otherwise: one large order at any price keeps everybody from trading, and peer to peer prices become NaN when the buyer's price has weight zero. Merging and the rounds of MUDA are left out."
  },
  {
   "property": "C132",
   "status": "partial",
   "theorems": [
    "PyMarket.C132_muda_partial",
    "PyMarket.C132_infinite",
    "PyMarket.C132_fees",
    "PyMarket.C132_refuted"
   ],
   "note": "Proved when both halves have a finite price. False otherwise: when a half has no crossing its price is infinite, and the buyers at any price of the other half trade at it. Merging is left out."
  },
  {
   "property": "C133",
   "status": "partial",
   "theorems": [
    "PyMarket.C133_p2p",
    "PyMarket.C133_uniform",
    "PyMarket.C133_huang_partial",
    "PyMarket.C133_huang_class",
    "PyMarket.C133_p2p_class",
    "PyMarket.C133_uniform_class",
    "PyMarket.C133_huang_refuted",
    "PyMarket.C133_muda_refuted"
   ],
   "note": "Proved for peer to peer and the uniform price, and for Huang's auction when no two bids of a side have the same price. The classes with merging are proved for all books with positive quantities, equal prices included (C133_huang_class, C133_p2p_class, C133_uniform_class). False for MUDA, and for the function huang_auction with equal prices under a sort that is not stable."
  },
  {
   "property": "C134",
   "status": "proved",
   "theorems": [
    "PyMarket.C134_p2p",
    "PyMarket.C134_no_infinity",
    "PyMarket.C134_infinite"
   ],
   "note": "C134_no_infinity extends C105 to groups with negative quantities whose totals are not negative. C134_infinite is a closed witness of infinite entries."
  },
  {
   "property": "C135",
   "status": "partial",
   "theorems": [
    "PyMarket.C135_equilibrium_partial",
    "PyMarket.C135_uniform_partial",
    "PyMarket.C135_huang_partial",
    "PyMarket.C135_volume",
    "PyMarket.C135_welfare",
    "PyMarket.C135_refuted"
   ],
   "note": "The volumes of Huang's auction, MUDA and peer to peer trading jump, and the uniform price can start to raise (C135_refuted). Both programs satisfy the claim. The crossing and the uniform price satisfy it when both books clear; Huang's auction up to the largest quantity of a bid."
  },
  {
   "property": "C136",
   "status": "partial",
   "theorems": [
    "PyMarket.C136_welfare",
    "PyMarket.C136_huang_partial",
    "PyMarket.C136_uniform_partial",
    "PyMarket.C136_p2p_partial",
    "PyMarket.C136_refuted"
   ],
   "note": "The program satisfies the claim. Huang's auction and the uniform price satisfy it when the order of the prices stays the same, peer to peer trading when the compatible pairs do. MUDA and changes of the order are refuted (C136_refuted)."
  },
  {
   "property": "C137",
   "status": "partial",
   "theorems": [
    "PyMarket.C137_welfare",
    "PyMarket.C137_volume",
    "PyMarket.C137_equilibrium_partial",
    "PyMarket.C137_uniform_partial",
    "PyMarket.C137_huang_partial",
    "PyMarket.C137_refuted"
   ],
   "note": "The maximal welfare and volume add up, with the cases of equality. The crossing quantity and the uniform price reach the larger of the two markets, Huang's auction but for the largest bid. The sum is refuted for every mechanism (C137_refuted)."
  },
  {
   "property": "C138",
   "status": "partial",
   "theorems": [
    "PyMarket.C138_curves_blocked",
    "PyMarket.C138_huang_blocked",
    "PyMarket.C138_uniform_blocked",
    "PyMarket.C138_muda_blocked",
    "PyMarket.C138_p2p_blocked",
    "PyMarket.C138_p2p_partial",
    "PyMarket.C138_known",
    "PyMarket.C138_refuted",
    "PyMarket.C138_huang_prices_partial",
    "PyMarket.C138_huang_prices_blocked",
    "PyMarket.C138_huang_prices_apart",
    "PyMarket.C138_huang_prices_silent",
    "PyMarket.C138_huang_prices_known",
    "PyMarket.C138_huang_prices_refuted",
    "PyMarket.C138_uniform_prices_partial",
    "PyMarket.C138_uniform_prices_blocked",
    "PyMarket.C138_uniform_prices_apart",
    "PyMarket.C138_muda_side",
    "PyMarket.C138_muda_price_partial",
    "PyMarket.C138_muda_price_blocked",
    "PyMarket.C138_muda_price_apart",
    "PyMarket.C138_muda_infinite",
    "PyMarket.C138_muda_silent",
    "PyMarket.C138_muda_prices_partial",
    "PyMarket.C138_muda_prices_refuted",
    "PyMarket.C138_merged",
    "PyMarket.C138_merged_huang",
    "PyMarket.C138_merged_p2p",
    "PyMarket.C138_merged_any",
    "PyMarket.C138_merged_silent",
    "PyMarket.C138_merged_muda_refuted",
    "PyMarket.C138_merged_quantities_partial",
    "PyMarket.C138_merged_quantities_nan",
    "PyMarket.C138_merged_quantities_refuted"
   ],
   "note": "NaN prices in peer to peer trading satisfy the claim (C138_p2p_partial). In Huang's auction, the uniform price and MUDA they do exactly if the trade does not use up the priced demand or supply (C138_huang_prices_partial, _blocked, _apart); a bid without a price never trades (C138_huang_prices_silent, C138_muda_silent, C138_merged_silent). With merging, as always in Market.run(algo='huang'), the claim holds for NaN prices (C138_merged*), except in MUDA if the largest user id has no priced bid (C138_merged_any, C138_merged_muda_refuted). NaN quantities violate it in every book and every mechanism without merging (C138_*_blocked, C138_refuted); with merging the other bids trade as if the quantity was zero (C138_merged_quantities_partial), but the bid may get a transaction of quantity NaN (C138_merged_quantities_refuted). Without NaN the model is the one of unlimited bids (C138_known)."
  }
 ]
}