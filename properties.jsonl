{"id": "C01", "title": "Double-entry conservation", "statement": "After any sequence of public calls that did not panic, the debits posted over all six accounts equal the credits posted, so the net balances of wallet, order margin, position margin, exchange fees, broker and treasury sum to zero; the broker account is never touched.", "quantifier": "every configuration, every finite history of market updates, submissions, amendments and cancellations, in debug and release builds", "why_tests_cant": "tests check a handful of histories; the claim is an invariant over unbounded histories", "anchors": ["src/accounting/in_memory_accounting.rs: create_margin_transfer", "src/accounting/utils.rs: debug_assert_accounting_equation", "src/exchange.rs: update_state, submit_market_order, submit_limit_order, amend_limit_order, cancel_limit_order"]}
{"id": "C02", "title": "Equity is starting balance plus realised PnL minus settled fees", "statement": "The sum of the user balances (user_balances().sum()) always equals the starting wallet balance plus the profit and loss realised by the fills reported to the account tracker, minus the fees paid to the exchange, where realised PnL is computed by replaying the fills through an independent position ledger.", "quantifier": "every configuration and every history", "why_tests_cant": "requires relating the running balances to an independent replay of an arbitrary fill history", "anchors": ["src/exchange.rs: user_balances, fees_paid", "src/position.rs: change_position", "src/position_inner.rs: decrease_contracts", "src/account_tracker/account_tracker_trait.rs: log_trade"]}
{"id": "C03", "title": "Only fills change equity", "statement": "An operation that reports no fill to the account tracker (accepted or rejected limit orders, cancellations, amendments, quote updates, rejected market orders) leaves user_balances().sum(), fees_paid() and the position unchanged; it can only move money between wallet and order margin.", "quantifier": "every reachable state and every single operation", "why_tests_cant": "ranges over all states and all operations", "anchors": ["src/exchange.rs: submit_limit_order, cancel_limit_order, amend_limit_order, update_state"]}
{"id": "C04", "title": "Fees charged equal the fee schedule", "statement": "With non-negative fee rates, fees_paid() plus position().outstanding_fees() equals the sum over all fills of (fill value times the maker rate for limit fills or the taker rate for market fills), each truncated to the configured precision. With negative rates (maker rebates) the same sum is exceeded by exactly the rebates that were outstanding whenever a position was closed: these are forfeited, never paid out.", "quantifier": "every history, every pair of fee rates", "why_tests_cant": "sum over unbounded fill histories with rounding at each fill", "anchors": ["src/exchange.rs: settle_filled_market_order, check_active_orders, fees_paid", "src/position_inner.rs: decrease_contracts"]}
{"id": "C05", "title": "Fees paid never decrease", "statement": "fees_paid() never decreases from one call to the next, whatever the fee rates are.", "quantifier": "every configuration (including negative fee rates), every history, every next operation", "why_tests_cant": "monotonicity over all histories", "anchors": ["src/exchange.rs: fees_paid", "src/position_inner.rs: decrease_contracts"]}
{"id": "C06", "title": "Position quantity is the signed sum of fills", "statement": "position().quantity() (negative when short) equals the sum of bought quantities minus the sum of sold quantities over all fills ever reported, and the position variant is Long, Short or Neutral exactly when that sum is positive, negative or zero.", "quantifier": "every configuration and history", "why_tests_cant": "unbounded histories of increases, reductions and flips", "anchors": ["src/position.rs: change_position, quantity"]}
{"id": "C07", "title": "Entry price rules", "statement": "A fill that reduces a position keeps its entry price; a fill that opens a position or flips it sets the entry price to the fill price; a fill that increases a position sets it to the quantity-weighted average of the old entry price and the fill price, rounded as specified.", "quantifier": "every position, fill side, price and quantity", "why_tests_cant": "all combinations of side, size comparison and price", "anchors": ["src/position.rs: change_position", "src/position_inner.rs: increase_contracts, decrease_contracts, new"]}
{"id": "C08", "title": "Weighted entry price stays within bounds", "statement": "The averaged entry price never exceeds the larger of the two averaged prices and falls short of the exact weighted mean by less than 1 + 2*10^D/(total quantity) units in the last place.", "quantifier": "all positive prices and quantities, every precision D", "why_tests_cant": "all numeric inputs with three truncations", "anchors": ["src/types/smol_currency/quote_currency.rs: new_weighted_price"]}
{"id": "C09", "title": "Cost basis when a position grows", "statement": "When a fill enlarges a position, the value of which is quantity times price in a linear contract and quantity over price in an inverse contract, position().total_cost() afterwards never exceeds total_cost() before plus the value of the fill, up to explicit rounding. In a linear contract the two are equal up to less than 1 + quantity/10^D units; in an inverse contract the cost basis can be lost because the entry price is an arithmetic mean (witness: 10 + 5 becomes 13.33333).", "quantifier": "every position, fill price and quantity", "why_tests_cant": "numeric property over all inputs; the inverse failure only shows for particular prices", "anchors": ["src/position_inner.rs: increase_contracts, total_cost"]}
{"id": "C10", "title": "Reducing a position settles exactly", "statement": "A fill that reduces a position changes the wallet by exactly: realised PnL of the reduced quantity plus the margin released for it minus all outstanding fees including this fill's; the treasury takes the other side of the PnL and the fee account receives the fees.", "quantifier": "every position, every reducing fill, every configuration", "why_tests_cant": "all numeric inputs and sign cases", "anchors": ["src/position_inner.rs: decrease_contracts", "src/position.rs: change_position"]}
{"id": "C11", "title": "Position margin of an account, and of a flat account", "statement": "The position margin balance is a function of the fills alone. In a linear contract it is quantity times entry price times the margin rate up to the rounding of each fill, so that a flat account holds at most that rounding. It is exactly zero for a flat account in debug builds (which panic instead of leaving dust), and in every build when each position is opened by one fill and closed by one fill. In release builds dust can remain, which makes a later flip panic; in inverse contracts the remainder can be large (witnesses).", "quantifier": "every history", "why_tests_cant": "the failing histories need specific rounding remainders", "anchors": ["src/position.rs: change_position (asserts 160, 178, 216, 234)", "src/position_inner.rs: increase_contracts, decrease_contracts"]}
{"id": "C12", "title": "Order ids are unique and increasing", "statement": "Every order id handed out by submit_market_order, submit_limit_order, amend_limit_order or a liquidation is strictly larger than every id handed out before; an id is never reused, also when orders are rejected, cancelled or filled.", "quantifier": "every history and every pair of accepted orders in it", "why_tests_cant": "ranges over pairs of events in unbounded histories", "anchors": ["src/exchange.rs: next_order_id, submit_market_order, submit_limit_order", "src/types/order_id.rs: incr"]}
{"id": "C13", "title": "Active orders are well formed", "statement": "In every reachable state the active limit orders have pairwise distinct ids, all smaller than the next id, strictly positive price and remaining quantity, and the filled plus remaining quantity of each equals the quantity it was accepted with.", "quantifier": "every reachable state and every active order", "why_tests_cant": "invariant over unbounded histories of partial fills, cancels and amends", "anchors": ["src/active_limit_orders.rs", "src/types/limit_order.rs: fill", "src/exchange.rs: check_active_orders"]}
{"id": "C14", "title": "Orders that are margined are the orders that are active", "statement": "When max_num_open_orders is at most 10000, the orders used to compute the order margin are at all times exactly the active limit orders, in the same order, although one list is updated immediately and the other after the matching loop. Beyond 10000 the two diverge: the 10001st order is refused but stays margined, and every later cancellation of an active order panics.", "quantifier": "every reachable state with max_num_open_orders at most 10000; a witness beyond", "why_tests_cant": "the two lists are updated by different code in different order; needs an induction over the matching loop", "anchors": ["src/order_margin.rs: update, remove", "src/active_limit_orders.rs: insert, remove_by_order_id", "src/exchange.rs: append_limit_order, check_active_orders, cancel_limit_order"]}
{"id": "C15", "title": "Open order limit", "statement": "The number of active limit orders never exceeds config.max_num_open_orders() (nor 10000); a submission that would exceed it is rejected with MaxNumberOfActiveOrders and changes nothing but the id counter.", "quantifier": "every history", "why_tests_cant": "bound over all histories", "anchors": ["src/active_limit_orders.rs: insert", "src/config.rs: max_num_open_orders", "src/exchange.rs: new, append_limit_order"]}
{"id": "C16", "title": "Limit orders never cross the book", "statement": "Every accepted limit buy is priced strictly below the current ask and every accepted limit sell strictly above the current bid; an order that price filter, quantity filter and margin rule allow is rejected with GoodTillCrossingRejectedOrder exactly if it crosses, and the error reports the order's limit price and the quote it would have traded at (the ask for a buy, the bid for a sell); no order is filled on submission.", "quantifier": "every reachable state and every submitted or amended order", "why_tests_cant": "all states and prices", "anchors": ["src/exchange.rs: submit_limit_order"]}
{"id": "C17", "title": "Rejected orders leave the account unchanged", "statement": "When submit_limit_order or submit_market_order returns an error, position, balances, fees, market state and the active orders are exactly as before; only the id counter and the tracker's submission counters may advance.", "quantifier": "every reachable state and every order (limit orders: max_num_open_orders at most 10000)", "why_tests_cant": "all states, all rejection reasons", "anchors": ["src/exchange.rs: submit_limit_order, submit_market_order"]}
{"id": "C18", "title": "Accepted limit order effect", "statement": "When submit_limit_order returns Ok, the active orders are the previous ones plus exactly the returned order, whose side, price, quantity and user id are those submitted, whose id is the next id and whose timestamp is the current one; the position is unchanged and the wallet loses exactly what the order margin gains.", "quantifier": "every reachable state and every accepted order", "why_tests_cant": "all states and orders", "anchors": ["src/exchange.rs: submit_limit_order, append_limit_order"]}
{"id": "C19", "title": "Cancel removes exactly the named order", "statement": "A successful cancel returns the active order with that id (or the first with that user id), removes it and no other order, and moves the released margin to the wallet; cancelling an id the exchange has not assigned yet gives OrderIdNotFound, one that was assigned (also to an order that was rejected) but is not active gives OrderNoLongerActive, an unknown user id gives UserOrderIdNotFound, and errors change nothing.", "quantifier": "every reachable state and every id", "why_tests_cant": "all states and ids; swap_remove reorders the list", "anchors": ["src/exchange.rs: cancel_limit_order", "src/active_limit_orders.rs: remove_by_order_id, remove_by_user_order_id"]}
{"id": "C20", "title": "Amend replaces the quantity net of fills", "statement": "amend_limit_order on an active order that already filled F gives, if accepted, a new order with a fresh id, the new side and price, and remaining quantity equal to the new total quantity minus F; if the new total is at most F the order is cancelled and AmendQtyAlreadyFilled returned; the old order is gone in both cases. It is not atomic: when the replacement is rejected the original is lost (witness).", "quantifier": "every reachable state, every order, every amendment", "why_tests_cant": "all states; the non-atomicity needs a rejected replacement", "anchors": ["src/exchange.rs: amend_limit_order"]}
{"id": "C21", "title": "Market orders fill completely at the touch", "statement": "An accepted market order is filled completely and immediately at the current ask (buy) or bid (sell), is stamped with the current market time, changes the position by exactly its quantity and does not touch the active orders.", "quantifier": "every reachable state and accepted market order", "why_tests_cant": "all states", "anchors": ["src/exchange.rs: submit_market_order, settle_filled_market_order", "src/types/market_order.rs: into_filled"]}
{"id": "C22", "title": "Market order margin rule", "statement": "A market order that opens or increases a position is accepted by the risk check iff its initial margin plus taker fee is at most the available wallet balance; one that only reduces is always accepted; one that flips is accepted iff margin plus fee of the new part is at most wallet plus position margin.", "quantifier": "every position, balance, order and price", "why_tests_cant": "decision rule over all numeric inputs", "anchors": ["src/risk_engine/isolated_margin.rs: check_market_order"]}
{"id": "C23", "title": "What can take the wallet below zero", "statement": "With a non-negative taker fee, the only calls that can take a non-negative available wallet balance below zero are a market order against the position and a market update that liquidates; every other call leaves it non-negative or panics. Both exceptions occur (witnesses).", "quantifier": "every history", "why_tests_cant": "needs all histories; the failures need specific price moves", "anchors": ["src/utils.rs: assert_user_wallet_balance", "src/exchange.rs: submit_market_order, append_limit_order, check_active_orders, liquidate"]}
{"id": "C24", "title": "Order margin balance equals the requirement", "statement": "The order margin balance equals the margin requirement of the active orders given the position after every history without market orders and liquidations in debug builds; each single call other than these keeps it equal, in release builds provided the fills of an update are orderly. In every build a market update with fills only ever releases order margin, and leaves the balance at most at the requirement. A market order or liquidation leaves orders and balance as they are, so the balance is out of line whenever the requirement changes with the position; then the next cancel panics and a later submission moves money in the wrong direction (witnesses).", "quantifier": "every history", "why_tests_cant": "needs all histories; failing ones interleave market orders with resting orders", "anchors": ["src/exchange.rs: append_limit_order, cancel_limit_order, submit_market_order, check_active_orders", "src/order_margin.rs"]}
{"id": "C25", "title": "Order margin formula", "statement": "The order margin is the initial margin requirement applied to the larger of the buy side and sell side value, where the position first offsets the opposite side's orders, best price first (i.e. the uncovered part of the i-th best order is its quantity clipped by how far cumulative quantity exceeds the position).", "quantifier": "every list of active orders, every position", "why_tests_cant": "arbitrary order lists", "anchors": ["src/order_margin.rs: order_margin_internal"]}
{"id": "C26", "title": "Adding an order never lowers the margin requirement", "statement": "The margin requirement of a set of orders plus one more is at least that of the set, for every position, in spite of per-order rounding.", "quantifier": "every order list, new order, position, margin rate", "why_tests_cant": "arbitrary order lists, prices, rounding", "anchors": ["src/order_margin.rs: order_margin_with_order", "src/exchange.rs: append_limit_order"]}
{"id": "C27", "title": "Cancelling never raises the margin requirement", "statement": "Removing an order from the active list never raises the margin requirement when the orders that would reduce the position have distinct prices, and then cancel_limit_order of an active order succeeds if the order margin is in line. With equal prices rounding can raise the requirement and the cancellation panics (witness), but never by more than one unit in the last place per remaining order; in line, this is the only way in which the cancellation of an active order can fail.", "quantifier": "every order list and position", "why_tests_cant": "the failing case needs particular roundings and the swap_remove permutation", "anchors": ["src/exchange.rs: cancel_limit_order (assert 523)", "src/order_margin.rs", "src/active_limit_orders.rs: remove_by_order_id"]}
{"id": "C28", "title": "Limit order margin rule", "statement": "A limit order with allowed price and quantity is turned down for lack of funds iff the requirement including it exceeds wallet balance plus the requirement without it; after every acceptance the wallet is non-negative.", "quantifier": "every state and order", "why_tests_cant": "all states and numeric inputs", "anchors": ["src/risk_engine/isolated_margin.rs: check_limit_order", "src/exchange.rs: append_limit_order"]}
{"id": "C29", "title": "Liquidation happens exactly on a maintenance breach", "statement": "update_state returns the Liquidate error iff, with the quotes of this update, a long position's bid is strictly below entry*(1-m) or a short position's ask strictly above entry*(1+m), m being the maintenance margin rate; a neutral account is never liquidated.", "quantifier": "every reachable state and every market update", "why_tests_cant": "all states and updates", "anchors": ["src/risk_engine/isolated_margin.rs: check_maintenance_margin", "src/exchange.rs: update_state"]}
{"id": "C30", "title": "Liquidation flattens the position", "statement": "When update_state returns Liquidate, the position is Neutral afterwards, the whole quantity was closed at the bid/ask of the update with the taker fee, and the active orders are untouched. It returns only if the position quantity passes the quantity filter; otherwise the process panics.", "quantifier": "every reachable state and market update", "why_tests_cant": "all states; the panic needs a position larger than max_quantity", "anchors": ["src/exchange.rs: liquidate, update_state"]}
{"id": "C31", "title": "No liquidation at or above entry", "statement": "A long position is never liquidated while the bid is at or above its entry price, a short never while the ask is at or below its entry price; the liquidation price lies on the losing side of the entry price.", "quantifier": "every valid configuration, every position and update", "why_tests_cant": "all rates and prices with truncation", "anchors": ["src/types/smol_currency/quote_currency.rs: liquidation_price_long, liquidation_price_short", "src/risk_engine/isolated_margin.rs"]}
{"id": "C32", "title": "Quote updates never fill limit orders", "statement": "A Bba update returns no order updates and leaves the active orders untouched, whatever the quotes.", "quantifier": "every reachable state and Bba update", "why_tests_cant": "all states", "anchors": ["src/market_update/bba_update.rs", "src/exchange.rs: check_active_orders"]}
{"id": "C33", "title": "Trade fill rule", "statement": "A Trade fills a resting buy iff it is a sell strictly below the limit price, a resting sell iff it is a buy strictly above it, and then by the smaller of the trade quantity and the remaining quantity. Orders that are not on the inverted side (Side::inverted) of the trade stay as they are.", "quantifier": "every trade and order", "why_tests_cant": "all prices and quantities", "anchors": ["src/market_update/trade_update.rs: limit_order_filled"]}
{"id": "C34", "title": "Candle fill rule", "statement": "A Candle fills a resting buy completely iff low is strictly below its price and a resting sell completely iff high is strictly above it; after a successful candle update no resting order is priced through the candle's range.", "quantifier": "every candle, order and reachable state", "why_tests_cant": "all states and candles", "anchors": ["src/market_update/candle_update.rs: limit_order_filled", "src/exchange.rs: check_active_orders"]}
{"id": "C35", "title": "SmartCandle volume rule", "statement": "A SmartCandle built from a list of trades fills a resting buy by the smaller of its remaining quantity and the total quantity of the candle's sell trades strictly below its price (symmetrically for sells), and does not fill it iff there is no such trade.", "quantifier": "every non-empty list of trades, every order", "why_tests_cant": "arbitrary trade lists; sorting, aggregation and reverse search", "anchors": ["src/market_update/smart_candle.rs: new, limit_order_filled"]}
{"id": "C36", "title": "SmartCandle equals replaying its trades", "statement": "For one resting order, the quantity filled by a SmartCandle equals the total filled by feeding its trades one after another as Trade updates.", "quantifier": "every list of trades with positive quantities and every order", "why_tests_cant": "arbitrary trade lists", "anchors": ["src/market_update/smart_candle.rs", "src/market_update/trade_update.rs", "src/types/limit_order.rs: fill"]}
{"id": "C37", "title": "Trade volume bounds each fill, not their sum", "statement": "A trade fills each resting order by at most the quantity of the trade. The quantity is not shared: the total filled is the sum over all orders hit of the smaller of trade quantity and open quantity, at most the trade quantity times the number of orders hit, and it can exceed the trade quantity (witness).", "quantifier": "every trade and every reachable state", "why_tests_cant": "the failure needs several crossing resting orders", "anchors": ["src/exchange.rs: check_active_orders", "src/market_update/trade_update.rs"]}
{"id": "C38", "title": "Every resting order is matched against every update", "statement": "After a successful update_state with a filling update, each previously active order for which the update has no fill is still active and identical; each for which it has a fill of q lost exactly q of remaining quantity (and is gone iff nothing remains); no other order appears.", "quantifier": "every reachable state and every update", "why_tests_cant": "arbitrary book sizes; in-loop mutation and deferred swap_remove", "anchors": ["src/exchange.rs: check_active_orders"]}
{"id": "C39", "title": "Order updates report exactly the fills", "statement": "The updates returned by update_state are, in matching order, one per filled order: FullyFilled with the full order quantity at the limit price for orders that left the book, PartiallyFilled with the new state of the order for orders that stay.", "quantifier": "every reachable state and every update", "why_tests_cant": "arbitrary books", "anchors": ["src/exchange.rs: check_active_orders", "src/types/order_update.rs"]}
{"id": "C40", "title": "Partial fills add up", "statement": "For any sequence of fills applied to a limit order, filled plus remaining equals the original quantity, the order is reported filled exactly when the sum reaches the original quantity, and the report carries the original quantity, the limit price and the time of the last fill.", "quantifier": "every sequence of fill quantities", "why_tests_cant": "arbitrary sequences", "anchors": ["src/types/limit_order.rs: fill, filled_quantity, total_quantity"]}
{"id": "C41", "title": "Average price of a partially filled order", "statement": "The running average price of a partially filled order equals its limit price after the first fill and never exceeds it. Truncation makes it drift below on further fills (witness), by an explicit bound per fill: the shortfall weighted by the filled quantity grows by less than the filled quantity plus two units.", "quantifier": "every sequence of partial fills", "why_tests_cant": "drift needs particular quantities", "anchors": ["src/types/limit_order.rs: fill", "src/types/smol_currency/quote_currency.rs: new_weighted_price"]}
{"id": "C42", "title": "Limit fills execute at the limit price with the maker fee", "statement": "Every fill reported for a limit order trades at exactly that order's limit price on that order's side and is charged the maker rate; every market fill is charged the taker rate.", "quantifier": "every history", "why_tests_cant": "all histories", "anchors": ["src/exchange.rs: check_active_orders, settle_filled_market_order"]}
{"id": "C43", "title": "Market state tracks the last update", "statement": "After each update the market time is that update's timestamp and step has increased by one, and the bid and ask are those of the last update that carried quotes; an update type written by the user may put another market state in place, whose quotes and step then count. The mid price lies between bid and ask, and in debug builds the quotes are never crossed unless such a user's type puts crossed quotes in place.", "quantifier": "every history of updates", "why_tests_cant": "all histories", "anchors": ["src/market_state.rs: update_state, mid_price"]}
{"id": "C44", "title": "Price filter decision", "statement": "A limit price is accepted iff it is positive, at most max_price, at least min_price, a whole number of ticks from min_price (or zero), at most mark*multiplier_up and at least mark*multiplier_down (disabled when the multiplier is zero). The default filter accepts exactly the positive whole prices up to twice the mark price.", "quantifier": "every filter, price and mark price", "why_tests_cant": "all numeric inputs", "anchors": ["src/order_filters/price_filter.rs: validate_limit_price"]}
{"id": "C45", "title": "Quantity filter decision", "statement": "An order quantity is accepted iff it is non-zero, at most max_quantity, at least min_quantity and a whole number of ticks from min_quantity (or zero). The default filter accepts every whole number but zero.", "quantifier": "every filter and quantity", "why_tests_cant": "all numeric inputs", "anchors": ["src/order_filters/quantity_filter.rs: validate_order_quantity"]}
{"id": "C46", "title": "Constructors reject bad input", "statement": "LimitOrder::new, MarketOrder::new, Leverage::new, ContractSpecification::new and Config::new succeed exactly on their documented domains and return an error otherwise, and keep their arguments. PriceFilter::new and QuantityFilter::new do the same with one exception: a zero tick size together with a minimum panics (division by zero) instead of returning InvalidTickSize.", "quantifier": "all arguments", "why_tests_cant": "all inputs", "anchors": ["src/types/limit_order.rs: new", "src/types/market_order.rs: new", "src/types/leverage.rs: new", "src/order_filters/price_filter.rs: new", "src/order_filters/quantity_filter.rs: new", "src/contract_specification.rs: new", "src/config.rs: new"]}
{"id": "C47", "title": "Margin rates are ordered", "statement": "For every valid contract specification 0 <= maintenance margin <= initial margin <= 1, and initial margin times leverage is within leverage ulps of 1; the initial margin is zero exactly when the leverage exceeds 10^D (then no position can ever be opened: it panics).", "quantifier": "every leverage, precision and fraction", "why_tests_cant": "all inputs", "anchors": ["src/types/leverage.rs: init_margin_req", "src/contract_specification.rs: new"]}
{"id": "C48", "title": "PnL laws", "statement": "PnL is zero at the entry price, antisymmetric in the sign of the quantity, non-decreasing in the exit price for a long and non-increasing for a short, for linear and inverse contracts, including rounding.", "quantifier": "all positive prices, all quantities, every precision", "why_tests_cant": "all numeric inputs", "anchors": ["src/types/smol_currency/quote_currency.rs: pnl", "src/types/smol_currency/base_currency.rs: pnl", "src/position.rs: unrealized_pnl"]}
{"id": "C49", "title": "Long and short are mirror images", "statement": "Opening, increasing, reducing, closing and flipping a short with sells/buys produces exactly the mirrored position, the same margin and fee movements and the opposite PnL as the same fills on a long.", "quantifier": "every position, fill and account state", "why_tests_cant": "all inputs over two separately written code branches", "anchors": ["src/position.rs: change_position", "src/risk_engine/isolated_margin.rs: check_market_buy_order, check_market_sell_order"]}
{"id": "C50", "title": "Limit order counters balance", "statement": "num_submitted_limit_orders equals rejected submissions plus cancelled plus fully filled plus currently active orders, and num_fully_filled_limit_orders never exceeds num_filled_limit_order_events.", "quantifier": "every history (max_num_open_orders at most 10000)", "why_tests_cant": "counting argument over all histories", "anchors": ["src/account_tracker/full_track.rs", "src/exchange.rs"]}
{"id": "C51", "title": "Turnover is the traded value", "statement": "buy_volume and sell_volume equal the sums of the values of the buy and sell fills, so turnover equals the value of all fills and never decreases.", "quantifier": "every history", "why_tests_cant": "all histories", "anchors": ["src/account_tracker/full_track.rs: log_trade, turnover", "src/exchange.rs"]}
{"id": "C52", "title": "Tracker rpnl is the sampled equity change", "statement": "rpnl() equals the sum of user balances at the last sampling time minus the starting balance; sampling happens on the first update and then at most once per elapsed sampling interval.", "quantifier": "every history", "why_tests_cant": "all histories of timestamps", "anchors": ["src/account_tracker/full_track.rs: rpnl, sample_user_balances", "src/sample_returns_trigger.rs: should_trigger"]}
{"id": "C53", "title": "Sampling cadence", "statement": "Over any sequence of updates with non-decreasing timestamps the number of balance samples taken is exactly the least, over all updates, of the number of sampling intervals begun by that update plus the number of later updates. Hence it is at most 1 + (last - first)/interval, and sampling keeps up when updates are at most one interval apart; but after a gap in the data every update is sampled until the schedule is caught up, so samples need not be an interval apart (witness).", "quantifier": "every sequence of timestamps", "why_tests_cant": "arbitrary sequences", "anchors": ["src/sample_returns_trigger.rs: should_trigger"]}
{"id": "C54", "title": "Updates without fills do not panic in release builds", "statement": "In a release build, update_state on a reachable state never panics when the update neither liquidates nor fills and the wallet is non-negative, and only changes market state, tracker and the list of updates.", "quantifier": "every reachable state and every such update", "why_tests_cant": "all states", "anchors": ["src/exchange.rs: update_state, check_active_orders"]}
{"id": "C55", "title": "Trades loaded from csv", "statement": "load_trades_from_csv succeeds exactly when no row has size zero; each trade has the price, the time in nanoseconds and the side (sell for negative sizes) of its row. Sell rows keep their negative quantity: the quantity is positive exactly for buys, and a loaded sell that reaches a resting buy order makes update_state panic.", "quantifier": "every parsed csv row", "why_tests_cant": "depends on data", "anchors": ["src/load_trades_from_csv.rs: load_trades_from_csv", "src/market_update/trade_update.rs"]}
{"id": "C56", "title": "Debug and release builds agree", "statement": "If a history runs without a panic in a debug build, the release build produces exactly the same results and state.", "quantifier": "every configuration and history", "why_tests_cant": "relational property over all histories", "anchors": ["src/exchange.rs", "src/position.rs", "src/order_margin.rs", "src/market_state.rs: update_state"]}
{"id": "C57", "title": "Covered orders need no margin", "statement": "If all active orders are on the side that reduces the position and their total quantity does not exceed it, the margin requirement is zero.", "quantifier": "every order list and position", "why_tests_cant": "arbitrary order lists", "anchors": ["src/order_margin.rs: order_margin_internal"]}
{"id": "C58", "title": "Accepted market orders do not panic", "statement": "A market order that satisfies the quantity filter and the funds check is executed without a panic when the margin it reserves or frees is at least one unit in the last place and, where a position is closed completely (flip, or debug build), the position margin is exactly the margin of the position. These conditions are exact: with a positive price, a market order panics if and only if it passes the checks and one of them fails.", "quantifier": "every reachable state and order", "why_tests_cant": "all states", "anchors": ["src/exchange.rs: submit_market_order", "src/position_inner.rs: new, increase_contracts"]}
{"id": "C59", "title": "Complete decision rule for limit orders", "statement": "A limit order submission is accepted if and only if its price and quantity are positive, both filters accept them (the price at the current mid price), the margin requirement of the active orders including it is at most wallet plus the requirement without it, it does not cross the book and fewer than max_num_open_orders orders are active; the accepted order is returned with the next id and the current market time. Which error is returned is decided by the first of these conditions, in this order, that fails.", "quantifier": "every reachable state (max_num_open_orders at most 10000) and every order for which the call returns", "why_tests_cant": "The verdict depends on filters, position, all active orders, balances and quotes at once; tests sample a few combinations.", "anchors": ["src/exchange.rs: submit_limit_order, append_limit_order", "src/risk_engine/isolated_margin.rs: check_limit_order", "src/order_filters"]}
{"id": "C60", "title": "Complete decision rule for market orders", "statement": "A market order is executed if and only if its quantity is positive and passes the quantity filter and the margin rule of C22 allows it.", "quantifier": "every reachable state and every order for which the call returns", "why_tests_cant": "All combinations of position, balances, quotes and quantity.", "anchors": ["src/exchange.rs: submit_market_order", "src/risk_engine/isolated_margin.rs: check_market_order"]}
{"id": "C61", "title": "Exported trade sizes carry the side as their sign", "statement": "The size a trade reports to trade aggregation has the magnitude of its quantity and is positive for buys and negative for sells, for every trade with positive quantity. For every trade loaded from csv it is positive, so every loaded trade looks like a buy.", "quantifier": "every trade, every parsed csv row", "why_tests_cant": "Holds for every quantity and side; tests sample a few trades and none feeds loaded sells into aggregation.", "anchors": ["src/trade_aggregation.rs: TakerTrade::size", "src/load_trades_from_csv.rs: load_trades_from_csv", "src/types/side.rs: Side::from_taker_quantity"]}
{"id": "C62", "title": "Debug builds accept exactly the market updates with allowed prices", "statement": "In a debug build update_state panics on quotes, trades and candles whose prices break the price filter (bounds or tick grid), whose bid is not below the ask, or whose candle is inconsistent, before any state changes; every update that does get through is allowed, and an allowed update that touches no order and liquidates nothing returns Ok and changes no balance, position or order. Release builds check nothing, and a smart candle is checked against the filter the caller passes, with one good trade vouching for all others. An update type written by the user is accepted exactly if its own validation accepts it.", "quantifier": "every debug configuration, state and market update", "why_tests_cant": "Ranges over all prices, filters and exchange states; tests sample a few invalid quotes.", "anchors": ["src/market_state.rs: update_state", "src/market_update/market_update_trait.rs: validate_market_update", "src/order_filters/price_filter.rs: enforce_min_price, enforce_max_price, enforce_step_size, enforce_bid_ask_spread"]}
{"id": "C63", "title": "Trading days and buy-and-hold return follow the observed updates", "statement": "num_trading_days() is the number of whole days between the first and the last market update and panics exactly when the last is earlier than the first; buy_and_hold_return() is the profit of buying with the whole starting balance at the first mid price and holding to the last, sell_and_hold_return() its negative; buying and holding does not lose in a rising market. A first update at time 0 (or with a zero mid price) is not recognised as the first.", "quantifier": "every history of API calls, both contract kinds", "why_tests_cant": "Depends on the whole history of updates, in any order of times and mixed with any other calls.", "anchors": ["src/account_tracker/full_track.rs: num_trading_days, buy_and_hold_return, sell_and_hold_return, update", "src/exchange.rs: update_state"]}
{"id": "C64", "title": "The account tracker is called exactly as documented", "statement": "Each API call makes a fixed sequence of account tracker calls: an update reports the new market state, then samples the balances if due, then reports fill and trade for each filled order in order, or submission, fill and trade of the liquidating order; market orders report submission and, if executed, fill and trade at the touch price; limit orders report their submission even if rejected; cancellations are reported only if successful; amendments report a cancellation and the submission of the part that is not filled yet.", "quantifier": "every history of API calls and every next call", "why_tests_cant": "Any user-written tracker relies on the protocol for all interleavings of calls, fills, errors and liquidations.", "anchors": ["src/account_tracker/account_tracker_trait.rs: AccountTracker", "src/exchange.rs: update_state, check_active_orders, submit_market_order, submit_limit_order, amend_limit_order, cancel_limit_order, liquidate"]}
{"id": "C65", "title": "The exchange agrees, call by call, with a one-page reference exchange", "statement": "Every sequence of API calls that does not panic gets exactly the responses of a small reference exchange (Ok values field by field, Err values with the documented precedence of checks) and leaves the same quotes, active orders, next order id, position, entry price, fees, realised profit, order margin, position margin and wallet. In particular the visible state determines all later responses. max_num_open_orders must not exceed 10000 (see C18).", "quantifier": "every configuration with max_num_open_orders ≤ 10000, every reachable state, every call and every history, including fills of several orders by one update, flips, liquidations, amendments and failing calls", "why_tests_cant": "The reference fixes the complete input/output behaviour over unbounded histories; tests compare single outcomes.", "anchors": ["src/exchange.rs: update_state, check_active_orders, submit_market_order, submit_limit_order, amend_limit_order, cancel_limit_order, liquidate", "src/risk_engine/isolated_margin.rs", "src/position.rs: change_position", "src/order_margin.rs: order_margin"]}
{"id": "C66", "title": "Managing limit orders never panics", "statement": "With non-zero step sizes, an initial margin requirement between 0 and 1 and max_num_open_orders ≤ 10000: submit_limit_order returns (Ok or Err) for every price and quantity whenever the order margin account holds exactly the requirement of the resting orders; cancel_limit_order and amend_limit_order too if, in addition, the resting orders that would reduce the position have pairwise different prices. An exchange that only ever sees limit order submissions, cancellations, amendments and quote updates never panics at all (debug builds additionally insist that the quotes satisfy the price filter). After a market order the account may not be in line and the next cancellation can panic.", "quantifier": "every such configuration, both contract kinds and builds, every reachable state with the order margin in line, every argument; every history of quoting calls", "why_tests_cant": "Absence of panics over all argument values and all histories; the assertions involved depend on accumulated rounding and on the whole book.", "anchors": ["src/exchange.rs: submit_limit_order, cancel_limit_order, amend_limit_order, append_limit_order", "src/order_margin.rs: order_margin", "src/risk_engine/isolated_margin.rs: check_limit_order"]}
{"id": "C67", "title": "Only the listed assertions can fail", "statement": "With non-zero step sizes, an initial margin requirement between 0 and 1 and max_num_open_orders ≤ 10000, a call that panics does so at one of the assertions listed for that kind of call: submit_limit_order only when the wallet would become negative; cancel_limit_order only at the two order margin checks; amend_limit_order at those three; submit_market_order at the price check, the positive-margin checks and the checks that position margin cancels; market updates additionally at the validity and matching checks of debug builds, at a liquidation order refused by the quantity filter and at a negative wallet; update types written by the user also if they answer a fill that is not positive or larger than the order. All other assertions of the code (accounting equation, order quantities, agreement of the two order books, executed orders being active, capacity, …) never fail. Every entry of the lists does occur on some reachable exchange.", "quantifier": "every such configuration, both contract kinds and both build profiles, every reachable state, every call with every argument", "why_tests_cant": "That an assertion never fires is a statement about all histories; a test can only show that it did not fire once.", "anchors": ["src/exchange.rs: all assert!/debug_assert!/expect", "src/position.rs", "src/position_inner.rs", "src/order_margin.rs", "src/accounting/transaction.rs: Transaction::new", "src/utils.rs: assert_user_wallet_balance", "src/market_update/smart_candle.rs"]}
{"id": "C68", "title": "Profit equals cash flow", "statement": "In a linear contract the gain of the account before fees (user balances plus fees paid minus starting balance) equals the proceeds of everything sold minus the cost of everything bought plus quantity times entry price of the open position, up to an explicit rounding allowance per fill. Equivalently, at any mark price, equity plus unrealised profit is the sum of what each fill has gained at that price: how fills were combined into positions does not matter. In inverse contracts this is false, because the entry price is an arithmetic mean (witness: 6.46865 credited for 4.80198 earned).", "quantifier": "every history of API calls that does not panic, every build, every mark price", "why_tests_cant": "Path independence of profit has to hold for every interleaving of opening, enlarging, reducing and flipping fills; tests fix a few paths.", "anchors": ["src/position_inner.rs: PositionInner::increase_contracts, decrease_contracts", "src/position.rs: Position::change_position", "src/types/smol_currency/quote_currency.rs: pnl, new_weighted_price", "src/exchange.rs: user_balances, fees_paid"]}
{"id": "C69", "title": "No profit without a price move", "statement": "In a linear contract an account that never bought below some price and never sold above it, as when quotes stand still, has gained nothing before fees once it is flat, up to an explicit rounding allowance per fill. The allowance is needed: the entry price is rounded down, and with coarse precision a sequence of buys and one sale at standing quotes gains money (witness).", "quantifier": "every history of API calls that does not panic, every price", "why_tests_cant": "The absence of an arbitrage against the simulator is a statement about all sequences of trades.", "anchors": ["src/position_inner.rs: PositionInner::increase_contracts, decrease_contracts", "src/types/smol_currency/quote_currency.rs: new_weighted_price", "src/exchange.rs: submit_market_order"]}
{"id": "C70", "title": "Submitting and cancelling a limit order is neutral", "statement": "When the order margin is in line (C24), an order accepted by submit_limit_order can be cancelled right away, by order id or by a user order id that no other active order has: cancel_limit_order returns that order, and active orders (including their sequence), position, all balances and the market state are as before the submission; only one order id is used up.", "quantifier": "every reachable exchange, every limit order", "why_tests_cant": "Must hold for every book, position and rounding of the margin requirement.", "anchors": ["src/exchange.rs: submit_limit_order, cancel_limit_order, append_limit_order", "src/active_limit_orders.rs: remove_by_order_id, remove_by_user_order_id", "src/order_margin.rs: OrderMargin"]}
{"id": "C71", "title": "Repeating an update changes nothing", "statement": "An update that reaches no resting order and liquidates nothing changes nothing but the market state. In particular, when the same candle or the same quotes arrive twice, the second time no order is filled and no balance, position or order changes, unless the position is liquidated.", "quantifier": "every reachable exchange, every candle and quote", "why_tests_cant": "Idempotence has to hold for every book and every candle.", "anchors": ["src/exchange.rs: update_state, check_active_orders", "src/market_update/candle_update.rs: limit_order_filled", "src/market_update/bba_update.rs"]}
{"id": "C72", "title": "Reported ratios are well defined and lie between zero and one", "statement": "The full tracker's buy_volume_ratio() never panics; it is absent exactly if the value of all fills so far is zero, and otherwise it is the value of the buys divided by the value of all fills, rounded down to a representable number in [0, 1]. limit_order_fill_ratio() and limit_order_cancellation_ratio() are undefined (NaN) exactly if no limit order was submitted; otherwise both are at least zero, they add up to at most one, and to exactly one if and only if no limit order was rejected and none is active.", "quantifier": "all configurations, all histories of calls, all positive starting balances", "why_tests_cant": "The ratios depend on the whole history of submissions, rejections, cancellations, partial and full fills.", "anchors": ["src/account_tracker/full_track.rs: FullAccountTracker::buy_volume_ratio, limit_order_fill_ratio, limit_order_cancellation_ratio"]}
{"id": "C73", "title": "Statistical moments obey their laws", "statement": "For every non-empty list of values, statistical_moments (computed without rounding) returns a mean between the smallest and largest value, a standard deviation that is at least zero, zero exactly if all values are equal, and at most half the range. Adding a constant moves only the mean; multiplying by a positive factor multiplies mean and standard deviation only; changing all signs changes only the signs of mean and skew; the order of the values does not matter. If the values are not all equal, excess kurtosis is at least the square of the skew less two, with equality (-2, skew 0) for two different values that occur equally often.", "quantifier": "all lists of real numbers of any length", "why_tests_cant": "The laws range over samples of every size and content; the repository's test checks two samples.", "anchors": ["src/account_tracker/statistical_moments.rs: statistical_moments, StatisticalMoments"]}
{"id": "C74", "title": "User order ids are opaque and only time differences matter", "statement": "Replacing the user order ids of limit orders by other distinct ids, those of market orders by any ids (0, used by liquidations, stays), and shifting all timestamps by the same amount changes nothing but these ids and timestamps in the responses and in the exchange: same acceptances, errors, fills, order ids, balances, position and panics. Merging two user order ids does change behaviour: a cancellation by user order id then hits another order.", "quantifier": "every replacement of ids and shift of time, every configuration, every call on every state (reachable or not), every history on a new exchange (a time shift needs a market update as first call)", "why_tests_cant": "It is a statement about pairs of histories and all renamings of ids and origins of time; tests use a handful of literal ids and timestamps.", "anchors": ["src/exchange.rs: update_state, submit_market_order, submit_limit_order, amend_limit_order, cancel_limit_order", "src/types/order_id.rs", "src/order_filters", "src/sample_returns_trigger.rs", "src/active_limit_orders.rs: remove"]}
{"id": "C75", "title": "Nothing is ordered or traded before the first market update", "statement": "As long as update_state has not been called, whatever else is called, no order is accepted, filled or cancelled, there are no active orders and no position, and all balances are those of a new exchange. Limit orders are rejected; a market order whose quantity passes the quantity filter panics instead of being rejected.", "quantifier": "every configuration whose price filter was built by its constructor, every history without update_state and every further call", "why_tests_cant": "Every sequence of calls on a fresh exchange must be covered; tests always quote a price first.", "anchors": ["src/exchange.rs: new, submit_market_order, submit_limit_order, settle_filled_market_order", "src/order_filters/price_filter.rs: validate_limit_price", "src/market_state.rs"]}
{"id": "C76", "title": "Margin in use is covered and leverage is limited", "statement": "The order margin balance is never negative. While the wallet balance is not negative, position margin plus order margin is at most the starting balance plus realised profit minus fees paid, and for linear contracts quantity times entry price times the initial margin rate is at most that amount minus the order margin, up to the rounding of the fills. With a negative wallet (which a losing sale can cause) margin in use can exceed what the account is worth.", "quantifier": "every configuration with at most 10000 active orders and a non-negative margin rate, every reachable state", "why_tests_cant": "It is a relation between balances, position and the sums over all fills of any history.", "anchors": ["src/exchange.rs", "src/accounting/in_memory_accounting.rs", "src/order_margin.rs", "src/position.rs: change_position"]}
{"id": "C77", "title": "Sharpe, sortino and kelly are what their names say and have the sign of the profit", "statement": "In exact arithmetic, sharpe() is the mean of the logarithmic returns between sampled balances over their standard deviation (none without returns or variation), sortino() is that mean over the standard deviation of the losses around their own mean (none unless there are two different losses), and kelly_leverage() is mean over variance (0 without variation; the variance is never negative, so its assertion holds). They depend only on the proportions of the balances. While all sampled balances are positive, they are positive exactly when the tracker reports a realised profit and negative exactly when it reports a loss (kelly is 0 if the returns do not vary).", "quantifier": "every record of tracker calls; for the sign, every configuration with a constructed price filter and every reachable state whose sampled balances are positive", "why_tests_cant": "The figures are accumulated by a recurrence over a balance history of any length; the identity with mean and deviation and the agreement of signs need induction over it.", "anchors": ["src/account_tracker/full_track.rs: sample_user_balances, sharpe, sortino, kelly_leverage, rpnl", "src/sample_returns_trigger.rs", "src/exchange.rs: update_state"]}
{"id": "C78", "title": "A position that is not liquidated is covered by its margin", "statement": "If update_state returns Ok, the margin of the position held when the update arrived covers what the position has lost at the quotes of that update, up to explicit rounding: for linear contracts in every history, with at least the difference between initial and maintenance margin to spare; for inverse contracts for a position opened by one fill, if it is short, or if it is long and the maintenance margin rate m and initial rate i satisfy m <= i/(1+i). Beyond that rate it is false: an inverse long position can lose more than the whole account, update_state still returns Ok, and selling then leaves a negative wallet.", "quantifier": "every configuration built by the constructors, every reachable state and every update that is answered Ok (inverse contracts: states whose earlier fills are round trips followed by one opening fill)", "why_tests_cant": "It must hold for every price path, entry price and rounding; tests check a few liquidation prices.", "anchors": ["src/risk_engine/isolated_margin.rs: check_maintenance_margin", "src/types/smol_currency/quote_currency.rs: liquidation_price_long, liquidation_price_short", "src/exchange.rs: update_state", "src/contract_specification.rs"]}
{"id": "C79", "title": "Amounts do not overflow within stated limits", "statement": "Run with a bounded integer type, the exchange does exactly what it does with unbounded integers, call by call and response by response, unless an arithmetic result does not fit, in which case the call panics. It never panics that way as long as prices, the contracts asked for in total, the number of limit orders submitted and the configuration satisfy an explicit inequality relating them to the width of the type. The number of submissions must be limited: on integers of any width, placing and cancelling one order often enough overflows although nothing trades and the balances are the same after every round.", "quantifier": "every integer width, every configuration, every history of calls (for the absence of overflow: every history within the limits)", "why_tests_cant": "Overflow depends on the whole history through running totals; tests run a few calls with small amounts.", "anchors": ["src/accounting/account.rs: post_debit, post_credit", "src/accounting/utils.rs: debug_assert_accounting_equation", "src/exchange.rs", "src/types/smol_currency/base_currency.rs", "src/types/smol_currency/quote_currency.rs", "src/market_update/smart_candle.rs: new"]}
{"id": "C80", "title": "Floating point numbers are converted to the nearest amount", "statement": "decimal_from_f64 applied to the double nearest to a decimal number with at most D places and fewer than 2^51 units gives exactly that number, or IntegerConversion if the integer type is too small for it. For any double whose scaled value fits an i64 the result is at most half a unit off, apart from the relative error of one multiplication, larger doubles never give smaller amounts, and opposite doubles give opposite amounts. With i64 or a wider type the conversion never fails: numbers that are too large silently become the largest amount, and NaN becomes zero.", "quantifier": "every double (finite, infinite, NaN), every number of decimals up to 22, every integer range", "why_tests_cant": "There are 2^64 doubles; a test picks a few of them.", "anchors": ["src/utils.rs: decimal_from_f64"]}
{"id": "C81", "title": "Quantised amounts are multiples that the filters accept", "statement": "new(integer, scale) with scale ≤ D is the number integer / 10^scale. quantize_round_to_zero gives the multiple of the quantum next to the amount on the side of zero; it keeps multiples as they are, preserves the order of amounts and fails exactly for a zero quantum. Quantities and prices within the bounds of a filter that are quantised to its tick size are accepted by the filter, and an order with quantised price and quantity is never refused for a step size, for all filters made by their constructors.", "quantifier": "every amount, quantum, filter and state", "why_tests_cant": "Signs, ties at the bounds and optional minima combine with arbitrary amounts; the documentation shows one of them.", "anchors": ["src/types/smol_currency/base_currency.rs: new, quantize_round_to_zero", "src/types/smol_currency/quote_currency.rs: new, quantize_round_to_zero", "src/order_filters/price_filter.rs", "src/order_filters/quantity_filter.rs"]}
{"id": "C82", "title": "A strategy that holds one position at a time cannot crash the exchange while it is solvent", "statement": "A strategy that trades with market orders only, opens a position with one order, never enlarges or partly reduces it, and closes or reverses it with one order, never makes the exchange panic as long as the wallet is not negative: neither its orders nor any valid market update, including updates that liquidate. If it sees only quotes, or other updates whose type cannot fill orders, it never panics at all. Exactly: a call panics iff the wallet is negative and the call is an update that can fill orders and does not liquidate. Position margin is then always exactly the margin of the position and order margin is zero. (Opened positions need a margin of at least one unit in the last place, and what a reversal leaves must satisfy the quantity filter.)", "quantifier": "every sound configuration, both contract kinds and both build profiles, every history of such calls with every argument", "why_tests_cant": "The claim is about every sequence of prices, orders and liquidations; rounding of margins and fees depends on all of them.", "anchors": ["src/exchange.rs: submit_market_order, update_state, liquidate, check_active_orders", "src/position.rs: change_position", "src/risk_engine/isolated_margin.rs: check_maintenance_margin"]}
{"id": "C83", "title": "What a copy of an exchange can and cannot do", "statement": "Exchange is Clone. In a release build, calls interleaved with copies in any way give the same state and responses, panics included, as the same calls without copies, up to the first answer MaxNumberOfActiveOrders. But a copy never has more open orders than it had when it was made, however large max_num_open_orders is; a copy made while no order is open never accepts a limit order. In a debug build no update that carries trades ever succeeds on a copy made while no order is open, nor on any copy unless max_num_open_orders is four, eight, sixteen, and so on.", "quantifier": "every configuration, every sequence of calls and copies", "why_tests_cant": "A copy can be made at any point of any history and copied again, and its later behaviour depends on how many orders were open at each point.", "anchors": ["src/exchange.rs: Exchange (derive Clone), append_limit_order, check_active_orders", "src/active_limit_orders.rs: insert", "src/order_margin.rs: update"]}
{"id": "C84", "title": "The sampling clock is exact for every interval up to 292 years", "statement": "With a sampling interval of at most 9223372036 seconds, and update times for which the next sample time is a 64 bit number of nanoseconds, the clock never overflows, and samples are taken exactly as with unbounded integers, in both build profiles. In a debug build, building the exchange panics for every longer interval up to 2^64 - 9223372037 seconds. An interval of 2^64 - k seconds, such as the largest u64, is taken for -k seconds: the exchange samples at every update instead of never.", "quantifier": "every interval that is a u64, every history, every sequence of update times", "why_tests_cant": "The claim is about all 2^64 intervals and all sequences of times.", "anchors": ["src/exchange.rs: new, update_state", "src/sample_returns_trigger.rs: new, should_trigger", "src/types/timestamp_ns.rs: TimestampNs", "src/config.rs: sample_returns_every_n_seconds"]}
{"id": "C85", "title": "Limit order strategies with one position panic exactly when the account is bankrupt", "statement": "Take a strategy that, without a position, rests at most a buy and a sell of equal quantity, and with a position at most the one order that closes it; it may place, amend and cancel these orders and send market orders while nothing rests. Market updates are valid, fill orders whole or not at all, and do not liquidate a position while its closing order rests. Then no call panics, with one exception: a market update that can fill orders and does not liquidate panics exactly if the wallet is negative after its fills. Updates that fill one order of a strategy without a position never panic. Position margin and order margin are always exactly those of the position and of the resting orders, and the fills keep the shape of the strategy.", "quantifier": "every sound configuration, every history of such calls, both build profiles", "why_tests_cant": "The histories are unbounded and mix orders, amendments, fills and liquidations in any way; each panic site has to be excluded for all of them.", "anchors": ["src/exchange.rs: update_state, check_active_orders, submit_limit_order, amend_limit_order, cancel_limit_order, submit_market_order", "src/order_margin.rs: order_margin", "src/position.rs: change_position", "src/risk_engine/isolated_margin.rs: check_limit_order"]}
{"id": "C86", "title": "d_ratio above one means the account beat the market", "statement": "With the feature \"quantiles\", d_ratio() exists exactly from the second sample on. In exact arithmetic, and for any estimate of the quantile that is not zero, it exceeds one exactly if the mean logarithmic return of the sampled balances, relative to its quantile, is larger than that of the sampled mid prices. It is the quotient of the two if the market rose from the first to the last sample, and two less the quotient if it fell; it divides by zero exactly if the two mid prices are the same. An account whose balances are proportional to the mid prices has ratio one. While sampled balances are positive, in a rising market the ratio is positive exactly after a profit, and in a falling market it is above two exactly after a profit.", "quantifier": "every record of tracker calls and every estimator; for the profit, every reachable state", "why_tests_cant": "The claim is about all sequences of samples and about an estimator whose error is not known.", "anchors": ["src/account_tracker/full_track.rs: d_ratio, sample_user_balances"]}
{"id": "C87", "title": "Market updates of the user's own type are obeyed exactly and accounted for", "statement": "MarketUpdate is a public trait. For every implementation of it that does not panic: if update_state returns Ok, each resting order for which limit_order_filled answered a quantity has lost exactly this quantity, booked as a maker fill at the order's own limit price, every other order is unchanged, the returned list reports exactly these fills, and the market state is the one that update_market_state left, with the time of the update and one more step. The balances change by the realised profit less the fees of these fills. A quantity that is not positive or exceeds what is open is never accepted: the call panics, or the position is liquidated before orders are looked at. A type with CAN_FILL_LIMIT_ORDERS = false never touches orders, position or balances, whatever limit_order_filled would answer, unless the position is liquidated. validate_market_update is decisive in debug builds and ignored in release builds. All other properties of this list that speak of every market update include these types.", "quantifier": "every implementation of MarketUpdate given by its answers, every reachable state", "why_tests_cant": "The implementations are the user's; no test can range over them and over the states they meet.", "anchors": ["src/market_update/market_update_trait.rs: MarketUpdate", "src/exchange.rs: update_state, check_active_orders", "src/market_state.rs: update_state"]}
{"id": "C88", "title": "Which calls panic can be foretold exactly from what the user can see", "statement": "For every configuration with non-zero tick sizes, an initial margin between zero and one and at most 10000 open orders, in debug and in release builds: there is a decidable condition on the visible state (quotes, open orders, position, realised profit, fees, order and position margin) and on the arguments of a call, written without the mechanics of the code, such that the call returns if the condition holds and panics if it does not. For a market order: it is turned down for its quantity, or it is affordable, there is a quote, and the fill can be booked (margin locked or freed does not round to zero, a closed position's margin is that at its entry price to the last unit). For a limit order: no margin moves or the wallet is not negative afterwards. For a cancellation: the margin reserved is the margin required and does not have to grow. For an update: it is valid (debug), a liquidation has an admissible quantity and can be booked, every fill has a quantity the order has left and can be booked, the margins agree before each fill and in the end (debug), and the wallet is not negative in the end. Consequently a sequence of calls runs to its end exactly if the reference exchange says that all of them return, and two reachable states that look the same panic on the same calls.", "quantifier": "every reachable state, every call with every argument, every history, debug and release builds", "why_tests_cant": "A test observes one panic or its absence; that a condition is both necessary and sufficient is a statement about all states and arguments.", "anchors": ["src/exchange.rs: update_state, submit_market_order, submit_limit_order, amend_limit_order, cancel_limit_order, check_active_orders, liquidate", "src/position.rs: change_position", "src/order_margin.rs", "src/risk_engine/isolated_margin.rs", "src/market_update/smart_candle.rs: SmartCandle::new"]}
{"id": "C89", "title": "Drawdowns are fractions of the sampled balances, blind to unrealised losses", "statement": "drawdown_user_balances() is computed from the sums of the user balances at the sampling times and drawdown_market() from the mid prices of all updates, each in their order. For every external drawdown whose answer lies between the present and the deepest fall from the peak: the user's drawdown is zero before the first sample and as long as the sampled balances never fall, never negative, and at most one unless a sampled balance was negative; the same holds for the market and its mid prices if the first is positive. As long as all fills were on one side the user's drawdown is zero, however far the market has moved against the position: unrealised losses are no drawdown.", "quantifier": "every history of calls, every drawdown function within the stated bounds, exact arithmetic", "why_tests_cant": "The repository tests two values; the bounds and the blindness to open losses concern all price paths.", "anchors": ["src/account_tracker/full_track.rs: drawdown_user_balances, drawdown_market, update, sample_user_balances"]}
{"id": "C90", "title": "A candle fills at least what the trades it summarises fill", "statement": "Feeding one candle instead of the trades whose prices it spans (or instead of the smart candle built from them) leaves no resting order with more open quantity, as long as no call reports a liquidation; a candle with a wider range, and a trade on the same side of larger quantity at a price going at least as far, leave no order with more open quantity either. The candle touches exactly the orders the trades touch if its low is the price of a sell and its high the price of a buy among them; otherwise it can completely fill an order that no trade reached.", "quantifier": "every reachable state, every list of trades of positive quantity, every candle spanning them, every two candles, every two trades", "why_tests_cant": "It compares two runs on different market data for all books and all trade lists; a test compares one pair.", "anchors": ["src/market_update/candle_update.rs: limit_order_filled", "src/market_update/trade_update.rs: limit_order_filled", "src/market_update/smart_candle.rs: limit_order_filled", "src/exchange.rs: update_state, check_active_orders"]}
{"id": "C91", "title": "The reported ratios survive single precision", "statement": "In f32 arithmetic, limit_order_fill_ratio() and limit_order_cancellation_ratio() are NaN exactly if no limit order was submitted. Otherwise each is a finite value between zero and one, within 2^-22 relative error of the exact share of the submitted orders, and zero exactly if the share is zero. Up to 2^24 submitted orders it is the single nearest to the share, and one exactly if the share is one; beyond that it can be one although an order is missing. The two reported shares can add up to more than one. buy_volume_ratio() is absent exactly if the value of all fills is zero; otherwise it lies between zero and one and differs from the share of the buys by at most 2^-24 plus one unit of the last decimal place downwards, whatever the conversion of decimals to f64 does within 2^-50.", "quantifier": "all configurations, all histories of calls with fewer than 2^64 submitted limit orders, every conversion to f64 within the stated bounds", "why_tests_cant": "Rounding errors depend on the counts; a test shows one quotient.", "anchors": ["src/account_tracker/full_track.rs: limit_order_fill_ratio, limit_order_cancellation_ratio, buy_volume_ratio"]}
{"id": "C92", "title": "A list of limit orders is accepted as a whole by one rule, in any order of submission", "statement": "Submitting a list of limit orders one after the other, with an order margin account that is in line, never panics. All of them are accepted if and only if each is admissible by itself (positive price and quantity, filters, no crossing), the free places suffice for all, and wallet plus reserved order margin cover the requirement of all orders together. Then exactly these orders are added, in order and with consecutive ids, and position, fees, position margin and the sum of wallet and order margin are unchanged. If a list is accepted as a whole so is every rearrangement of it, with the same balances and the same orders up to ids, provided the orders that reduce the position have pairwise different prices. With equal prices it can fail by one unit of rounding.", "quantifier": "all sound configurations, all reachable states in line, all lists of limit orders and all rearrangements of them", "why_tests_cant": "Acceptance of an order depends on all those before it; there are n! orders of submission.", "anchors": ["src/exchange.rs: submit_limit_order", "src/order_margin.rs: OrderMargin::order_margin_with_order", "src/risk_engine/isolated_margin.rs: check_limit_order"]}
{"id": "C93", "title": "Limits that were not hit do not matter: better terms give the same trading and no less money", "statement": "Take two configurations that differ in the starting balance, the number of open orders, the maker and taker fees, the price and quantity filters and the sampling interval only, the second being no worse in each (filters accept at least as much). If a history of calls runs on the first without panic and without an order being turned down by the filters, for lack of funds or for lack of a place, then it runs on the second with exactly the same responses, and ends with the same quotes, open orders, position, entry price, order margin and position margin. Fees paid are no higher, and the wallet is higher by exactly the additional starting balance plus the fees saved. With equal fees only the wallet differs. Without the condition on rejected orders more money can make a history panic.", "quantifier": "all pairs of sound configurations ordered in this way, all histories of calls of any length, with liquidations, amendments and rejected crossing orders", "why_tests_cant": "It compares two whole runs for every history.", "anchors": ["src/exchange.rs: Exchange::{update_state, submit_market_order, submit_limit_order, amend_limit_order, cancel_limit_order}", "src/risk_engine/isolated_margin.rs", "src/config.rs: Config", "src/contract_specification.rs: ContractSpecification"]}
{"id": "C94", "title": "Conversions between the currencies never create money and lose less than a unit", "statement": "For non-negative amounts and positive prices, convert_from always succeeds and gives the exact value rounded down to the last decimal place; a negative amount converts to minus the value of the positive one. Converting there and back at one price never gives more than there was and loses less than one unit of each currency. Converting in two parts gives what converting at once gives, or one unit of the last place less. price_paid_for_qty never fails on a cost obtained by a conversion; it is zero for a zero quantity (linear) or cost (inverse), and otherwise gives the price back up to rounding, downwards for linear and upwards for inverse contracts, within stated bounds. An amount is its absolute value times its signum, and is_positive, is_negative and zero exclude each other.", "quantifier": "all amounts, prices and precisions, linear and inverse contracts", "why_tests_cant": "Rounding depends on the numbers; a test shows a few of them.", "anchors": ["src/types/smol_currency/quote_currency.rs: convert_from, price_paid_for_qty, signum, abs, is_positive, is_negative", "src/types/smol_currency/base_currency.rs: the same", "src/types/smol_currency/mod.rs: Currency", "src/types/smol_currency/margin_currency_trait.rs: MarginCurrency"]}
{"id": "C95", "title": "Trading with one's own money cannot crash the exchange", "statement": "A strategy that uses market orders only, holds one position at a time, has leverage one and a taker fee between zero and one, and is only ever long (linear contracts) or short (inverse contracts), can be run on every market history without a panic: the wallet is never negative and always covers the fees owed. Neither condition can be dropped: with leverage two, or on the other side of the market, a liquidation can take the wallet below zero, and the next trade panics.", "quantifier": "all histories of such a strategy, all market data with positive quotes and all price gaps, all configurations of that kind, linear and inverse contracts, release and debug builds", "why_tests_cant": "A crash needs a price gap of the right size at the right moment; its absence is a statement about all price paths.", "anchors": ["src/exchange.rs: update_state, submit_market_order, liquidate", "src/risk_engine/isolated_margin.rs: check_market_order, check_maintenance_margin", "src/position.rs: change_position", "src/position_inner.rs: decrease_contracts", "src/accounting/in_memory_accounting.rs: create_margin_transfer"]}
{"id": "C96", "title": "An account can be wound down", "statement": "When the order margin is in line and the orders that would reduce the position have different prices, any set of active orders can be cancelled in any order: every cancel_limit_order returns its order, the others stay, with the margin they need, and the rest of the margin is back in the wallet. If there are quotes, the quantity filter allows an order of the size of the position, and its margin is at least one unit (in debug builds also exactly what is held), cancelling everything and submitting one opposite market order leaves no order and no position, and all the money, reduced by the profit or loss at the quotes and the fees due, is in the wallet (but for what rounding has left in the position margin). The exception: a position that is not a multiple of the quantity step (a trade of any size can fill a limit order partially) can be neither closed nor liquidated by any sequence of orders, cancellations, amendments and quotes, until another partial fill happens to undo it.", "quantifier": "every configuration with sound parameters, every reachable state with those properties, every selection and order of the cancellations; for the exception every history of such calls", "why_tests_cant": "The orders, their number and the sequence of cancellations vary without bound; that something can never be closed is a statement about all continuations.", "anchors": ["src/exchange.rs: cancel_limit_order, submit_market_order, liquidate", "src/order_margin.rs: OrderMargin::remove, order_margin", "src/order_filters/quantity_filter.rs: validate_order_quantity", "src/market_update/trade_update.rs: limit_order_filled"]}
{"id": "C97", "title": "Cutting a market order into parts changes nothing but rounding, and fees only for the better", "statement": "With a taker fee between zero and one and no rebates outstanding, two market orders of a and b contracts at the same quotes leave the same position, orders and order margin as one order of a + b, whether they open, enlarge, reduce, close or reverse the position. Fees paid and owed together are never more for the parts than for the whole and at most two units in the last place less; realised profit differs by at most one unit, position margin by at most two, and the entry price by rounding only. If the whole enlarges the position or stays within what it reduces and is accepted, then so are parts that the quantity filter allows. Cut into n parts, fees are saved, but at most two units per part. That can be all of them: orders that are small enough are free.", "quantifier": "all reachable states and quotes, both sides, all quantities, both contract kinds, all configurations with such fees; any number of parts for the fees", "why_tests_cant": "The claim compares two executions for all states and quantities; rounding decides the differences.", "anchors": ["src/exchange.rs: submit_market_order, settle_filled_market_order", "src/position.rs: change_position", "src/position_inner.rs: increase_contracts, decrease_contracts", "src/types/fee.rs: Fee", "src/risk_engine/isolated_margin.rs: check_market_order"]}
{"id": "C98", "title": "The answers tell everything: a client can keep exact books without looking at the account", "statement": "A client that only writes down the market updates it sends and the answers it gets knows, after every history without check_active_orders, every fill with side, price and quantity in order, every active order with its remaining quantity, and hence position, entry price, fees paid and owed, position margin and equity to the last unit. It needs no rule for accepting, filling or liquidating: reports of fills are told apart from earlier ones by the filled quantity of the order, an answer Liquidate stands for the position closed at the quotes, and an amendment that fails for any reason other than an unknown id stands for a cancellation. check_active_orders is the exception: it fills orders and returns nothing.", "quantifier": "every configuration, every history of API calls except check_active_orders that returns, with partial fills, amendments, rejections, flips and liquidations", "why_tests_cant": "It says that nothing ever happens to the account in any history that the answers do not reveal.", "anchors": ["src/exchange.rs: update_state, submit_market_order, submit_limit_order, amend_limit_order, cancel_limit_order, check_active_orders", "src/types/order_update.rs: LimitOrderUpdate"]}
{"id": "C99", "title": "Calls that are turned down leave no trace", "statement": "Take any history and leave out every call that was turned down: orders rejected by the constructor, the filters, the margin check, the crossing check or the limit of active orders, and cancellations and amendments of orders that are not active. On a fresh exchange, with the calls that name orders translated to the ids these orders now have, the remaining calls return, every one of them gets the same answer up to these ids, and quotes, position, all balances and active orders are the same in the end. An amendment that fails for another reason is not such a call: it has cancelled the order.", "quantifier": "every sound configuration, every history that returns in which updates of the user's own type do not fill orders", "why_tests_cant": "It compares all histories with all ways of leaving out failed calls; a rejected call could spoil a counter or a margin that matters many calls later.", "anchors": ["src/exchange.rs: submit_market_order, submit_limit_order, amend_limit_order, cancel_limit_order, next_order_id", "src/risk_engine/isolated_margin.rs: check_limit_order, check_market_order", "src/order_margin.rs"]}
{"id": "C100", "title": "Nobody trades more than they asked for", "statement": "As long as an account is not liquidated, the contracts it has bought together with those its resting buy orders can still buy are at most the contracts its accepted calls asked to buy, and likewise for selling; an accepted amendment counts with the quantity it leaves open. In every history, liquidations included, the contracts sold, all contracts open in resting orders and the contracts held long are together at most what was granted on both sides, likewise for contracts bought and held short, and the contracts ever traded are at most twice the contracts ever asked for. The exception is needed: a liquidation sells contracts nobody asked to sell.", "quantifier": "every configuration, every history that returns", "why_tests_cant": "It adds up fills, cancellations, amendments and liquidations over whole histories; a double fill or a fill of a cancelled order may need a particular sequence of updates.", "anchors": ["src/exchange.rs: update_state, check_active_orders, submit_market_order, settle_filled_market_order, liquidate, amend_limit_order, cancel_limit_order", "src/types/limit_order.rs: fill", "src/market_update/*.rs: limit_order_filled"]}
{"id": "C101", "title": "The account statistics are exact on bounded integers, within the limits of the account", "statement": "Kept on a bounded integer type, the volumes, prices and balance sums of the full account tracker, and turnover, realised profit, buy volume ratio and buy-and-hold return read off them, are those of unbounded integers unless a result does not fit, in which case the tracker panics. For every history within the limits of C79 the statistics, turnover, realised profit and buy volume ratio do not overflow. An account that itself computes without overflow is not enough: with leverage the turnover overflows while every amount of the exchange still fits. The buy-and-hold return may overflow within the limits, because a tiny first price buys arbitrarily many contracts.", "quantifier": "every integer width, every record of tracker calls; for the absence of overflow every configuration and history within the limits of C79", "why_tests_cant": "The sums grow with the length of the history; tests use few trades and small amounts.", "anchors": ["src/account_tracker/full_track.rs: log_trade, update, sample_user_balances, turnover, rpnl, buy_volume_ratio, buy_and_hold_return", "src/types/mod.rs: UserBalances::sum", "src/market_state.rs: mid_price"]}
{"id": "C102", "title": "A release build, whose integers wrap around, computes the same within limits that do not depend on the number of calls", "statement": "Where a debug build does not panic because of an integer overflow, a release build of the exchange computes exactly the same. Beyond that, in a release build the running totals of the accounts may wrap around without harm: for every history with bounded prices in which the contracts traded so far, those waiting in resting orders and those of the current call never exceed a bound together, every response, every panic, the position, the orders and the three balances are those of unbounded integers, however many calls are made and however many contracts are asked for and cancelled again. In particular placing and cancelling one order, which stops a debug build sooner or later on integers of any width, is exact for ever on 32 bits. Outside these limits the claim is false: an order whose margin and fee do not fit together is accepted by a release build although the account cannot pay for it.", "quantifier": "every integer width, configuration and history; for the absence of harmful wrap-around every history within the limits, of any length", "why_tests_cant": "Wrap-around needs amounts or numbers of calls no test reaches, and tests run with overflow checks on.", "anchors": ["src/accounting/account.rs: post_debit, post_credit", "src/accounting/in_memory_accounting.rs: create_margin_transfer", "src/exchange.rs: update_state, submit_market_order, submit_limit_order", "src/risk_engine/isolated_margin.rs: check_market_order, check_limit_order", "src/types/smol_currency/base_currency.rs: Add, Sub", "src/types/smol_currency/quote_currency.rs: Add, Sub"]}
{"id": "C103", "title": "A resting order waits exactly until enough has traded through its price", "statement": "As long as the user neither cancels nor amends it, a resting limit order is, after any further history, open by exactly its earlier open quantity less the volume that has since traded through its price; it stays in the book at its price and side while that volume is smaller, is unchanged while the volume is zero, and is gone once the volume is reached. Other orders, market orders, rejected calls and the state of the account have no influence. An update that liquidates the position is an exception: it fills no orders, even those traded through.", "quantifier": "every reachable state, resting order and further history of calls, of any length", "why_tests_cant": "It concerns every interleaving of market updates of all kinds with the other calls of the user, over histories of any length.", "anchors": ["src/exchange.rs: update_state, check_active_orders, submit_limit_order, cancel_limit_order, amend_limit_order", "src/market_update/trade_update.rs: limit_order_filled", "src/market_update/candle_update.rs: limit_order_filled", "src/market_update/smart_candle.rs: limit_order_filled", "src/active_limit_orders.rs: insert, remove_by_order_id"]}
{"id": "C104", "title": "Statistical moments in floating point: error bounds, symmetry and limits", "statement": "For up to 2^50 finite doubles of moderate size, the mean reported is off from the exact mean by at most (n+1)/2^52 of the mean absolute value, and the standard deviation is the square root, correct to half a unit in the last place, of a number off from the exact variance by at most (n+4)/2^52 of it plus twice the squared error of the mean. For values that are multiples of 2^-100 and at most 2^200, with a deviation that is not zero, the excess kurtosis is off from the exact one about the reported mean by at most (3n+20)/2^52 of the kurtosis and one rounding, so it is not below -2 but for rounding; the skew is the third moment about the reported mean over what powf returns, off by at most (n+9)/2^52 of the third absolute moment. If the values are multiples of one unit that add up to at most 2^53 units, the mean is the double nearest to the exact one, and equal values have themselves as mean and deviation zero. For every input, infinities and NaN included, the deviation is never negative, negating the values negates mean and skew and keeps the rest, and an empty input or a NaN makes everything NaN. Not guaranteed: three times 0.1 has a mean above 0.1, a deviation above zero, skew -1 and excess kurtosis -2; the mean depends on the order of the values; two finite doubles can have an infinite mean.", "quantifier": "every list of doubles, of any length (error bounds: below 2^50 values of size at most 2^400), and every behaviour of powf(1.5)", "why_tests_cant": "Rounding errors accumulate over lists of any length; a test compares a few lists with printed constants.", "anchors": ["src/account_tracker/statistical_moments.rs: statistical_moments"]}
{"id": "C105", "title": "Times in the answers are those of the market updates, and causal", "statement": "Orders are received, and market orders executed, at the time of the last market update before the call; limit orders are executed at the time of the update that fills them; whenever an order is shown again, in the book, in a report or on cancellation, its time of receipt is the one it was accepted with. If the market updates never go back in time, then no order is executed before it was received, orders with larger ids were not received earlier, and no time lies in the future. The exchange does not check that updates are in order: if they are not, an order can be reported as executed before it was received.", "quantifier": "every configuration and every history of calls, of any length; for causality, every history whose updates do not go back in time", "why_tests_cant": "It relates every answer to the whole history before it.", "anchors": ["src/exchange.rs: update_state, check_active_orders, submit_market_order, submit_limit_order, amend_limit_order, cancel_limit_order", "src/market_state.rs: update_state, current_timestamp_ns", "src/types/order_meta.rs: ExchangeOrderMeta", "src/types/limit_order.rs: fill"]}
{"id": "C106", "title": "In single precision the sampled returns never have the wrong sign, but small changes go unseen", "statement": "Sampled balances are rounded to f32 before their logarithmic returns are taken. As long as the balances are positive and neither tiny nor huge, there is one return per pair of consecutive samples; it is never negative unless the balance fell, never positive unless it rose, and zero exactly if both balances are rounded to the same f32; a change of more than 2^-22 of the balance is always seen. So the number of losses behind sortino() is at most the number of samples at which the balance fell and at least the number of those at which it fell by more than 2^-22. Not guaranteed: an account that loses money in every interval can have only zero returns, so that sharpe() and sortino() see no losses.", "quantifier": "every record of tracker calls with sampled balances between 2^-63 and 2^62, every conversion to f64 that is monotone and accurate to 2^-50, every logarithm with the right sign", "why_tests_cant": "It concerns every pair of consecutive balances and every way they are rounded; tests use a few round numbers.", "anchors": ["src/account_tracker/full_track.rs: sample_user_balances, sharpe, sortino"]}
{"id": "C107", "title": "Any accounting that keeps the books gives the same exchange", "statement": "Exchange accepts any implementation of TransactionAccounting. If the implementation starts with the user funds in the wallet, can always say what an account holds, and carries out every transfer of a positive amount between two different accounts, then every history of calls gets the same answers as with InMemoryTransactionAccounting, panics at the same call with the same panic if at all, and ends with the same market state, tracker calls, position, orders, order updates, balances and fees. Whatever an implementation does, a call that returns has changed it only by transfers of positive amounts between different accounts that it accepted. Errors it returns from a transfer reach nobody: the call panics; an error from looking up a balance is returned by the submit calls, which then have used up an order id and nothing else.", "quantifier": "every implementation of the accounting trait without interior mutability, every configuration and history of calls", "why_tests_cant": "It ranges over all implementations of a trait and all histories; tests use the one implementation of the crate.", "anchors": ["src/accounting/mod.rs: TransactionAccounting", "src/accounting/in_memory_accounting.rs: InMemoryTransactionAccounting", "src/exchange.rs: Exchange", "src/position.rs: change_position", "src/position_inner.rs", "src/utils.rs: assert_user_wallet_balance"]}
{"id": "C108", "title": "There is no priority among one's own orders", "statement": "Which fills an update causes does not depend on the order in which the resting orders were submitted or are stored: two exchanges with the same resting orders that answer an update report the same fills and are left with the same orders. Two histories with the same fills, in whatever order, end with the same position quantity and, if the fee rates are not negative, have been charged the same fees. In linear contracts they have also gained the same at every mark price, up to an allowance for rounding that depends on the number and size of the fills only; in particular the balances agree up to it once the position is closed. In inverse contracts this is false: the order in which two orders were submitted makes a material difference.", "quantifier": "every configuration, every pair of histories of calls, every update of the four built-in kinds, every mark price", "why_tests_cant": "It compares pairs of histories of any length that differ by a permutation of the fills.", "anchors": ["src/exchange.rs: update_state, check_active_orders", "src/active_limit_orders.rs: ActiveLimitOrders", "src/position.rs: change_position"]}
{"id": "C109", "title": "More decimals change nothing but rounding", "statement": "If the same trades are simulated with more decimals (the type parameter D), the position is the same. With fee rates that are not negative the fees are never less, and at most 1 + rate units in the last place of the coarser amounts more per fill. In linear contracts the gain before fees at every mark price is the same up to the rounding of the two, which is linear in the number of fills and the position held, and smaller with more decimals; so is the balance once the position is closed.", "quantifier": "every pair of configurations that differ by the number of decimals (and in anything but contract type, starting balance and fee rates), every pair of histories with the same fills, every mark price", "why_tests_cant": "It compares two instantiations of a type parameter over all pairs of histories.", "anchors": ["src/types/smol_currency/quote_currency.rs: new_weighted_price, convert_from, pnl", "src/types/smol_currency/base_currency.rs: convert_from, pnl", "src/exchange.rs: submit_market_order, check_active_orders", "src/position_inner.rs"]}
{"id": "C110", "title": "Filter errors name the reason", "statement": "validate_market_update of quotes, trades and candles answers with the first of these reasons that applies: some price is below the minimum; some price is above the maximum; some price is not a multiple of the tick size, and then the error carries the first such price (bid, ask, low, high) and the tick size; the bid is not below the ask or the low not below the high. If none applies it answers Ok. Likewise the quantity filter (zero, above maximum, below minimum, off the grid) and the limit price filter (not positive, above maximum, below minimum, off the grid, too far above the mark price, too far below it).", "quantifier": "every filter with a tick size other than zero, every update, quantity, price and mark price", "why_tests_cant": "It is an equivalence for every error over all filters and inputs; a test only shows one error for one input.", "anchors": ["src/market_update/bba_update.rs, trade_update.rs, candle_update.rs: validate_market_update", "src/order_filters/price_filter.rs: validate_limit_price, enforce_min_price, enforce_max_price, enforce_step_size, enforce_bid_ask_spread", "src/order_filters/quantity_filter.rs: validate_order_quantity"]}
{"id": "C111", "title": "Strategies add up", "statement": "If the fills of one account are, in whatever order, the fills of several separate accounts in the same contract at the same fee rates, its position is the sum of their positions and, with fee rates that are not negative, it has been charged the sum of their fees. In linear contracts its gain before fees at every mark price is the sum of their gains up to the rounding of the two. In inverse contracts it is not.", "quantifier": "every number of accounts, every combination of histories, starting balances and margin settings, every interleaving of the fills, every mark price", "why_tests_cant": "It relates arbitrarily many histories at once, for every interleaving.", "anchors": ["src/position.rs: change_position", "src/position_inner.rs", "src/exchange.rs: submit_market_order, check_active_orders, balances, position"]}
{"id": "C112", "title": "A change of units changes nothing but rounding", "statement": "If the same trades are simulated in other units - k times as many contracts at a k-th of the price in a linear contract (a split), or at k times the price in an inverse contract (a smaller quote unit) - the position has k times as many contracts and, with fee rates that are not negative, exactly the same fees are charged. In linear contracts the gain before fees is the same at every mark price, and the final balance of a closed account is the same, up to the rounding of average prices and profits.", "quantifier": "every configuration, every positive whole factor, every pair of histories whose fills differ by that change of units, every mark price", "why_tests_cant": "It compares pairs of histories of any length for every factor.", "anchors": ["src/types/smol_currency/quote_currency.rs: convert_from, pnl, new_weighted_price", "src/types/smol_currency/base_currency.rs: convert_from", "src/position_inner.rs"]}
{"id": "C113", "title": "What a trade earns", "statement": "If an account without a position gets one fill and later one opposite fill of the same size, with no fill in between, it is flat again and its balances have changed by exactly the profit from the first price to the second less the two fees (rebates only offset fees). An account whose fills are all of this kind is worth exactly its starting balance plus the results of its trades. A market order and its opposite at the same quotes cost exactly the spread and two taker fees; the second order is never refused, and with quotes that are not crossed nothing can be gained.", "quantifier": "every configuration, both kinds of contract, every reachable flat state, every pair of fills by market or limit orders and every sequence of calls in between", "why_tests_cant": "It ranges over all earlier histories, prices, quantities and calls between the two fills, and claims exact equality in spite of rounding.", "anchors": ["src/exchange.rs: settle_filled_market_order, check_active_orders", "src/position.rs: change_position", "src/position_inner.rs: decrease_contracts"]}
{"id": "C114", "title": "When the summary of the account can be printed", "statement": "Printing a FullAccountTracker (Display) panics for some histories. Apart from the figures sharpe, sortino and kelly_leverage (see C119: kelly_leverage does not panic while the sampled balances are positive) it succeeds exactly if the last market time is not before the first one that is not zero and, in linear contracts, some update had a mid price that is not zero, in inverse contracts the last mid price is not zero or the starting balance buys no contract at the first. So it succeeds when there was an update, times and mid prices are positive and time did not go backwards, and it panics in linear contracts before the first update. What it shows are the sampled profit, the volumes of the fills, the profit of buying and holding and the number of whole days.", "quantifier": "every configuration, every starting balance, every history of API calls", "why_tests_cant": "Whether it panics depends on the whole history of market updates.", "anchors": ["src/account_tracker/full_track.rs: Display::fmt, buy_and_hold_return, num_trading_days, update"]}
{"id": "C115", "title": "Market data can be thinned", "statement": "Take any history and leave out market updates that were answered with no fills and no liquidation, if the next call is a market update, too, and the quotes in between are not seen by anyone (the update left out is a trade, or the next one brings quotes of its own). The remaining calls return, each of them gets literally the same answer, and in the end quotes, time, position, all balances, active orders, and the volumes and counters of the account tracker are the same. What is sampled is not the same: the update left out would have advanced the sampling clock, and rpnl may differ.", "quantifier": "every configuration, every history of API calls that returns", "why_tests_cant": "Which updates matter depends on the orders and positions at that time; leaving one out could show up at any later call.", "anchors": ["src/exchange.rs: update_state, check_active_orders", "src/market_state.rs: update_state", "src/sample_returns_trigger.rs: should_trigger"]}
{"id": "C116", "title": "Fees follow from the turnover", "statement": "With maker and taker rates between two bounds that are not negative, all fees charged in a history are at most the upper bound times the turnover the account tracker shows, and at least the lower bound times the turnover less one unit in the last place per fill it counted. Fills too small for the rate to yield one unit pay no fee at all, however many there are.", "quantifier": "every configuration with fee rates that are not negative, every history of API calls that returns", "why_tests_cant": "Every fill rounds its fee, and the sum of the roundings depends on the whole history of fills.", "anchors": ["src/exchange.rs: settle_filled_market_order, check_active_orders, fees_paid", "src/position_inner.rs: increase_contracts, decrease_contracts", "src/account_tracker/full_track.rs: turnover"]}
{"id": "C117", "title": "Arithmetic of amounts", "statement": "The product and the quotient of two amounts, or of an amount and a number, are the exact results rounded toward zero to the number of decimals; division and remainder panic exactly for a zero divisor. One is neutral, factors commute, signs can be taken out, and order is kept. Distributing a product over a sum is off by at most one unit, regrouping a product, dividing a product by its factor and multiplying a quotient by its divisor by at most the rounding of the first result, scaled, and less than one unit. A remainder is what quantising cuts off, with the sign of the dividend and smaller than the divisor. The positive difference is zero or the difference. None of the rounded laws is exact with at least one decimal.", "quantifier": "every pair or triple of amounts, positive or negative, every number of decimals", "why_tests_cant": "Rounding errors depend on all digits of the operands, and the bounds are claims about all of them.", "anchors": ["src/types/smol_currency/base_currency.rs: one, is_one, mul, div, rem, abs_sub", "src/types/smol_currency/quote_currency.rs: one, is_one, mul, div, rem, abs_sub"]}
{"id": "C118", "title": "Only the present account matters", "statement": "Two accounts that look the same now (same quotes, position, active orders up to a constant shift of the ids, wallet and margins), on exchanges with the same contract and the same order limit but possibly different starting balances, sampling intervals and pasts, are treated the same from now on: every sequence of calls gets the same answers up to the shift of the order ids, costs the same fees, makes the same profits and leads to accounts that look the same again, or panics on both. In particular an account without position, orders and margins goes on, from the next quotes on, like a new exchange whose starting balance is what is in the wallet.", "quantifier": "every admissible configuration, every pair of reachable states that look the same, every sequence of calls, including updates of the user's own types", "why_tests_cant": "A test cannot compare all continuations of all pairs of histories; a hidden dependence on the past may show up much later.", "anchors": ["src/exchange.rs: Exchange::new, update_state, submit_market_order, submit_limit_order, amend_limit_order, cancel_limit_order", "src/accounting/in_memory_accounting.rs: InMemoryTransactionAccounting"]}
{"id": "C119", "title": "Sharpe, sortino and kelly leverage in single precision", "statement": "However the single precision sums are rounded: while the sampled balances are positive (and neither tiny nor huge), the assertion in kelly_leverage holds, and neither sharpe nor sortino nor kelly_leverage is NaN; if the balance never fell from one sample to the next none of them is negative, if it never rose none is positive, and if it never changed sharpe and sortino are undefined and kelly_leverage is zero. The mean return is between the smallest and the largest return, and equal returns have no variance. Once a balance of zero has been sampled, kelly_leverage panics and sharpe is NaN for good. The sign of the mean need not be that of the sum of the returns.", "quantifier": "every history of API calls with up to 2^64 samples, every logarithm and square root with the right signs, every list of single precision returns up to 128 in size", "why_tests_cant": "Rounding errors accumulate over arbitrarily many samples; a negative variance would show up only for special sequences.", "anchors": ["src/account_tracker/full_track.rs: sharpe, sortino, kelly_leverage, sample_user_balances"]}
{"id": "C120", "title": "Amending is cancelling and submitting again", "statement": "Amending an active order of which F has been filled to a total quantity above F does, in every respect, what cancelling it and submitting a new order with the new terms and the quantity less F does: same answer, same state, same statistics, same panic if any. Amending it to a quantity of at most F does what cancelling it does, with another answer. So whatever can be reached with amendments can be reached without them, all other calls unchanged and in the same order.", "quantifier": "every reachable state, every active order, all new terms; every history of API calls that returns", "why_tests_cant": "The two ways must agree in every state, for every order and in every counter, also when the replacement is refused.", "anchors": ["src/exchange.rs: amend_limit_order, cancel_limit_order, submit_limit_order"]}
{"id": "C121", "title": "Drawdowns in single precision", "statement": "drawdown_user_balances() and drawdown_market() are computed in f32. As long as the values (sampled balances, mid prices) are positive and neither tiny nor huge, the answer is a number from 0 to 1, zero as long as the values do not fall (for the user: as long as all fills were on the same side), not smaller than the present exact fall from the peak less 2^-21 and not larger than the deepest exact fall plus 2^-21. Not guaranteed: an account that loses money in every sampling interval can show a drawdown of exactly zero.", "quantifier": "every record of tracker calls with values between 2^-63 and 2^62, every conversion to f64 that is monotone and accurate to 2^-50, every drawdown function whose answer lies between the present and the deepest f32 fall", "why_tests_cant": "Rounding errors depend on the values; a test sees only the values it uses.", "anchors": ["src/account_tracker/full_track.rs: update, sample_user_balances, drawdown_user_balances, drawdown_market"]}
{"id": "C122", "title": "Limit orders paid for with one's own money cannot crash the exchange", "statement": "A user who holds one position at a time, enters and leaves it with limit or market orders (amending and cancelling them freely), trades without leverage (initial margin rate 1, fee rates from 0 to 1), only opens positions that cannot lose more than they cost (long for linear, short for inverse contracts) and keeps the maker fee of an entry order in the wallet while it rests, never sees a panic, whatever the market does: every call returns, the available balance is never negative and always covers the fees owed, also after liquidations. The exchange does not enforce the last condition: an accepted order for the whole balance can lead to a panic.", "quantifier": "every sound configuration without leverage, every such history of calls and market updates (valid, filling orders whole), of any length", "why_tests_cant": "The panic needs a particular price path; tests follow a few paths.", "anchors": ["src/exchange.rs: submit_limit_order, submit_market_order, amend_limit_order, cancel_limit_order, update_state, check_active_orders", "src/risk_engine/isolated_margin.rs: check_limit_order, check_market_order, check_maintenance_margin"]}
{"id": "C123", "title": "Leverage is safe while no loss exceeds the margin of the position", "statement": "A user who holds one position at a time, with any leverage, long or short, in linear or inverse contracts, entering and leaving with limit or market orders, never sees a panic, never has a negative balance and can always pay the fees owed, on every market history on which no exit, market closing or liquidation loses more, with its fee, than the margin of the position, and on which the maker fee of an entry order is in the wallet when it is filled. A price is harmless in this sense as long as value(now)*(1 - fee) >= value(entry)*(1 - initial rate) for a linear long or inverse short, and value(now)*(1 + fee) <= value(entry)*(1 + initial rate) for a linear short or inverse long; no allowance for rounding is needed.", "quantifier": "every sound configuration with fee rates that are not negative, every such history of calls and market updates of any length, every price", "why_tests_cant": "Whether the balance can become negative depends on the whole history of profits, fees and margins, with rounding at each step.", "anchors": ["src/exchange.rs: submit_limit_order, submit_market_order, amend_limit_order, cancel_limit_order, update_state, liquidate, check_active_orders", "src/risk_engine/isolated_margin.rs: check_limit_order, check_market_order, check_maintenance_margin", "src/position.rs: change_position"]}
{"id": "C124", "title": "The discriminant ratio in floating point", "statement": "d_ratio(q) is computed in f64 from returns rounded to f32. It answers exactly from the second sample on. Whatever is rounded, overflows or is lost on the way, an answer above one (also infinity) is only given if the return-to-VaR ratio of the account, formed from the reported means and quantiles, really exceeds that of the market, and an answer below one only if it really is smaller. If both ratios are of moderate size the answer is a number, within 2^-49*(1 + |user|/|market|) of the exact discriminant ratio, exactly one for equal ratios, and a lead of more than 2^-49 of the two ratios is always noticed. Not guaranteed: an account whose balance does not move by more than f32 can see, even one that loses money in every sampling interval, gets Some(NaN), whatever the market did.", "quantifier": "every record of tracker calls, every estimator of means and quantiles, every logarithm, every conversion of amounts to f64", "why_tests_cant": "Rounding errors, overflow and underflow depend on the values; a test sees only the values it uses.", "anchors": ["src/account_tracker/full_track.rs: sample_user_balances, d_ratio"]}
{"id": "C125", "title": "Liquidation comes in time on markets without large gaps", "statement": "A strategy that opens positions on margin and closes them with market orders and limit orders, one position at a time, long or short, in linear or inverse contracts, never makes the exchange panic and never owes money, if the quotes, while there is a position, move against it by no more than a fraction g from one update to the next and the initial margin beyond the maintenance margin covers such a move and the taker fee (with some slack for rounding). A limit order that opens the position must find its maker fee in the wallet when it is filled, and the order left on the other side must not be priced beyond the liquidation price; for exit orders placed later this follows, because an order that crosses the book is refused. As long as an exit order rests, the position must not be liquidated. Not guaranteed without the bound on the moves: one jump makes the exchange panic.", "quantifier": "every configuration with maker fee at most the taker fee, every gap bound and slack, every sequence of such calls and market updates", "why_tests_cant": "A test replays some market; the claim is about every path the market may take within the bound, with every rounding.", "anchors": ["src/exchange.rs: update_state, submit_market_order, submit_limit_order, amend_limit_order, check_active_orders", "src/risk_engine/isolated_margin.rs: check_maintenance_margin", "src/position.rs: change_position"]}
{"id": "C126", "title": "Cutting a limit order into parts is never worse", "statement": "If the same market updates are matched against a limit order and, in another account, against parts of it at the same price, the parts together are at every moment open by no more than the whole: a volume v that traded through the price fills v of the whole but v of each part, so n parts fill up to n times as fast (two halves of an order of ten need a trade of five). If an order that does not reduce the position is accepted, so are its parts, given room and the quantity filter, and they reserve no more margin, by up to a unit per part less. The fees of the parts are at most those of the whole.", "quantifier": "every pair of reachable states, every order and every cutting of it, every pair of further histories with the same matched updates, of any length", "why_tests_cant": "The number and size of the parts, the path of the market and everything else the two accounts do are arbitrary.", "anchors": ["src/exchange.rs: check_active_orders, submit_limit_order", "src/market_update/trade_update.rs: limit_order_filled", "src/order_margin.rs: order_margin"]}
{"id": "C127", "title": "Better prices are filled no later, and smaller orders are accepted where larger ones are", "statement": "If the same market updates are matched against two limit orders on the same side, the one at the price the market finds better is filled at least as far: no less of it is filled if it is at least as large, and no more of it is open if it is at most as large. If a limit order is accepted, so is every smaller one in its place that the quantity filter allows, without a panic, reserving no more margin and leaving no less in the wallet. If a market order is executed, so is every smaller one in its place, if the call returns (a tiny one can panic, see C58).", "quantifier": "every pair of reachable states, orders and further histories with the same matched updates of the built-in kinds with positive quantities, of any length; every reachable state with the order margin in line, every accepted order and every smaller quantity", "why_tests_cant": "Monotonicity is about all pairs of orders and all market paths; a test compares two of them.", "anchors": ["src/exchange.rs: submit_limit_order, submit_market_order, check_active_orders", "src/risk_engine/isolated_margin.rs: check_limit_order, check_market_order", "src/order_margin.rs: order_margin_internal", "src/market_update/trade_update.rs, candle_update.rs, smart_candle.rs: limit_order_filled"]}
{"id": "C128", "title": "Profit comes from moves of the price while a position is held, and from better fills", "statement": "In a linear contract what the account gains before fees over any calls, valued at any mark price, is the sum over the calls of the position held times the move of the mark, plus the sum over the fills of the quantity times the distance from the price of the fill to the mark, up to an explicit rounding allowance per fill in between (exact if there is none). An account that only takes, without resting orders, therefore gains at most position times move of the mark summed over the calls, for every mark between the quotes, liquidations included; with positions of at most q that is at most q times the way the mark has travelled.", "quantifier": "every linear configuration, every reachable state, every sequence of calls that returns, every way to read a mark price off the state", "why_tests_cant": "Holds for every path of prices and positions; a backtest checks one.", "anchors": ["src/position_inner.rs: PositionInner::increase_contracts, decrease_contracts", "src/position.rs: Position::change_position", "src/types/smol_currency/quote_currency.rs: pnl, new_weighted_price", "src/exchange.rs: update_state, submit_market_order, user_balances, fees_paid"]}
{"id": "C129", "title": "In inverse contracts, averaging the entry price costs longs and favours shorts", "statement": "The entry price is an arithmetic mean, although a contract of an inverse contract is worth one over the price. Therefore an account that is never short has gained before fees, together with the value of its position at the entry price, no more than its fills have earned, each at its own price; and one that is never long no less, both up to an explicit rounding allowance per fill. In particular a long account cannot gain at standing quotes. A short one can: selling and buying back at standing quotes makes money for it, after spread and fees (witness: 1.55 on a short worth 10).", "quantifier": "every configuration with an inverse contract, every history of API calls that returns, with positions on one side only and entry prices not rounded to zero", "why_tests_cant": "The sign of the error is a statement about all sequences of fills; single examples show single errors.", "anchors": ["src/types/smol_currency/quote_currency.rs: new_weighted_price", "src/types/smol_currency/base_currency.rs: pnl", "src/position_inner.rs: PositionInner::increase_contracts, decrease_contracts", "src/position.rs: Position::change_position", "src/exchange.rs: user_balances, fees_paid"]}
{"id": "C130", "title": "In linear contracts, rounding the entry price favours longs and costs shorts", "statement": "The average entry price is rounded down. Therefore a linear account that is never short has gained before fees, at every mark price, no less than its fills have gained at this mark, up to one unit in the last place per sale, however often and however the position was enlarged; and one that is never long no more, up to one unit per purchase. In particular an account that is never long gains at standing quotes at most one unit per purchase; one that is never short can gain more, by the rounding of its entry price (see C69).", "quantifier": "every linear configuration, every history of API calls that returns with positions on one side only, every mark price", "why_tests_cant": "The sign of the rounding error is a statement about all sequences of fills.", "anchors": ["src/types/smol_currency/quote_currency.rs: pnl, new_weighted_price", "src/position_inner.rs: PositionInner::increase_contracts, decrease_contracts", "src/position.rs: Position::change_position", "src/exchange.rs: user_balances, fees_paid"]}
{"id": "C131", "title": "Amending an order twice forgets what was filled before", "statement": "Of an order of which nothing has been filled only the last of several amendments counts: answers, orders, position, quotes and balances are those of one amendment to the last terms, apart from the ids used up. If F had been filled before the first amendment, two or more accepted amendments come to the same as one amendment to the last total quantity plus F: the new order asks for the full last quantity, although quantities in amendments are documented as totals. So an order whose total quantity is 5 from beginning to end can trade 8 (witness).", "quantifier": "every sound configuration, every reachable state, every active order, every sequence of accepted amendments of it, of any length", "why_tests_cant": "It speaks about chains of amendments of any length in every state; the tests amend an order once.", "anchors": ["src/exchange.rs: Exchange::amend_limit_order, cancel_limit_order, submit_limit_order", "src/types/limit_order.rs: total_quantity, remaining_quantity, set_remaining_quantity"]}
{"id": "C132", "title": "Between market updates only the orders that are left matter", "statement": "Between two market updates the account depends only on the orders that are left, not on how they came about: two sequences of submissions, cancellations and amendments, some of them perhaps turned down, that start from the same exchange with the order margin in line and leave orders offering the same quantities at the same prices lead to the same position, quotes and balances, if the orders that would reduce the position have pairwise different prices. In particular everything is as it was once the orders at the beginning are back. Whenever new orders are accepted as a whole and some old ones then cancelled, cancelling first and submitting then is accepted too, and leaves the same orders with the same ids and balances; the converse fails, since cancelling frees margin (witness).", "quantifier": "every sound configuration, every reachable state in line, all pairs of sequences of submissions, cancellations and amendments of any length, all lists of new orders and of orders to cancel", "why_tests_cant": "It compares arbitrary pairs of call sequences of any length; a test compares single sequences with expected numbers.", "anchors": ["src/exchange.rs: Exchange::submit_limit_order, cancel_limit_order, amend_limit_order", "src/order_margin.rs: OrderMargin::order_margin"]}
{"id": "C133", "title": "Fills by trades are not optimistic: a real order book would have filled at least as much", "statement": "The exchange is documented to assume the worst possible queue position. Let other traders place, withdraw and hit orders in a real order book with price-time priority, in any way, and feed the resulting trades to the exchange one by one or packed into smart candles, with quotes and any other calls in between. Then a resting limit order that the user leaves alone has at no time been filled by more than it would have been filled on the real exchange, had it joined the queue at its price when it was placed. This holds for one side of the book on its own, and for a complete book in which what is left of an incoming order comes to rest on its own side, so that the user's order changes what the later orders of the others meet. If the other orders always sufficed to fill the incoming ones, no trade was at the price of the order and no update reported a liquidation, both fill it by exactly the same. For candles the claim is false: a candle spanning the trades fills more than the real exchange (witness); for several own orders together it is false too (C37).", "quantifier": "every configuration, every reachable state and resting order, every history of calls that feeds the tape, every sequence of actions of the other traders before and after the order was placed, of any length", "why_tests_cant": "It compares the simulator with a different machine, a real order book, over all behaviours of all other traders; tests check single trades against expected fills.", "anchors": ["src/market_update/trade_update.rs: Trade::limit_order_filled (comment on the queue position)", "src/market_update/smart_candle.rs: SmartCandle::limit_order_filled", "src/exchange.rs: Exchange::update_state, check_active_orders"]}
{"id": "C134", "title": "Market orders are filled without slippage, never at a worse price than in a real order book", "statement": "If the quote at which a market order is filled is the best price in a real order book with price-time priority whose orders suffice for it, then on the simulated exchange a buy costs no more and a sell brings no less than taking those orders in turn. Both agree if and only if only orders at the best price are taken. So the simulation is optimistic by exactly the slippage.", "quantifier": "every configuration, every reachable state, every accepted market order, every real book that other traders can bring about", "why_tests_cant": "It compares with all order books of a real exchange; tests fill market orders at the quotes they set.", "anchors": ["src/exchange.rs: Exchange::submit_market_order, settle_filled_market_order", "README.md: \"nor does it account for slippage\""]}
{"id": "C135", "title": "Two accounts on opposite sides never gain together", "statement": "Two accounts in the same contract whose fills are opposite one by one, of the same size and with the buyer paying at least what the seller gets, have opposite positions and together gain nothing before fees: neither realised, nor together with the open positions at any quotes, and without any allowance for rounding. If the prices are equal, one gains exactly what the other loses and the entry prices are equal. So do accounts that get the same market data and submit opposite market orders, if all are filled, nobody is liquidated and quotes are never crossed. Any number of accounts in a linear contract gain nothing together up to rounding. Three accounts in an inverse contract can gain more than their fees.", "quantifier": "every pair of configurations in the same contract (margins, balances and filters may differ), every two histories whose fills are opposite, all quotes; any number of accounts in linear contracts", "why_tests_cant": "It relates all pairs of histories of two accounts and holds to the last unit; tests run one account.", "anchors": ["src/position.rs: change_position, unrealized_pnl", "src/position_inner.rs: increase_contracts, decrease_contracts", "src/types/smol_currency/quote_currency.rs: new_weighted_price, pnl", "src/types/smol_currency/base_currency.rs: pnl"]}
{"id": "C136", "title": "What the example program does, and how it ends", "statement": "The program in examples/basic.rs, on any list of positive prices (multiples of 0.1 in debug builds) and with any random bits, does at each price exactly one of the following: it looks at the price; it submits a market order over a tenth of its wallet that is filled at the quote; that order is turned down because its size is not a whole number of contracts (never for lack of funds, except for a reversal while the position margin balance is negative); it stops because its position is liquidated (\"Got REKT\"), because the order has no size (unwrap), or because the exchange panics on an order whose margins do not work out. Which of them is decided by price, wallet, position and position margin alone. Orders that enlarge the position never panic while the wallet holds 0.002 and prices are at least 1.1. If no hundredth price is a whole number it never trades and never stops. When the loop is through the summary is printed. On a market that stands still at 40000 the bits buy, buy, sell, sell, sell crash it inside the exchange.", "quantifier": "every list of prices, every sequence of random bits, debug and release builds", "why_tests_cant": "The program is random and reads one file; the statement covers all files and all random bits.", "anchors": ["examples/basic.rs: main", "src/exchange.rs: Exchange::update_state, submit_market_order", "src/position.rs: change_position", "src/account_tracker/full_track.rs: Display"]}
{"id": "C137", "title": "Better fills never hurt, and patience pays", "statement": "If two accounts in the same contract have the same fills, fill by fill, except that the second bought no dearer and sold no cheaper, then they have the same position, the second at no worse an entry price, and the second has gained no less before fees, realised and at any quotes, and is not liquidated unless the first is, at quotes no better. This is exact, in linear and inverse contracts: rounding never turns a better price into a worse result. Hence a strategy of market orders gains no more on wider quotes than on tighter ones as long as it is not liquidated, and then it is not liquidated on the tighter ones either, so widening the quotes of a simulation gives a lower bound; and a limit order that is filled at once by a later update leaves the account no worse off before fees than a market order in its place, at a strictly better price, with fees that are higher at most by what the contracts traded are worth more. Not guaranteed if the limit order is filled in parts: rounding of the average entry price can then cost more than the better price gains (witness).", "quantifier": "every pair of configurations of the same contract (with the same maintenance margin for liquidations), every pair of reachable accounts with such fills; every pair of histories of market orders and updates; every reachable state without resting orders, order, later updates and quotes", "why_tests_cant": "It compares two histories of any length under all prices; a test compares two numbers.", "anchors": ["src/position.rs: Position::change_position, unrealized_pnl", "src/position_inner.rs: increase_contracts, decrease_contracts", "src/types/smol_currency/quote_currency.rs: new_weighted_price", "src/exchange.rs: Exchange::submit_market_order, submit_limit_order, update_state", "src/risk_engine/isolated_margin.rs: check_maintenance_margin"]}
{"id": "C138", "title": "Leverage, fees and limits that are not hit do not change the trading", "statement": "The same calls on two exchanges for the same contract, with any leverage, maintenance margin, starting balance, fees, filters and number of places for orders, get the same answers and end with the same market, orders, position and entry price and the same profit before fees, to the last unit, as long as (1) no order is turned down for lack of funds, (2) filters and places are the same or turn down no order, (3) maintenance margins are the same or nobody is liquidated. With the same fee rates the fees and the profit after fees are the same too. For every sequence of calls there is a starting balance from which on no order is turned down for lack of funds; so the profit before fees of a sequence of calls is one number, whatever the leverage and fees and however large the balance, if the calls return. Funds do matter below that balance.", "quantifier": "every pair of configurations for the same contract (kind, decimals, build), every sequence of API calls that returns on both", "why_tests_cant": "It compares all pairs of configurations on all histories; a test fixes both.", "anchors": ["src/exchange.rs: Exchange", "src/risk_engine/isolated_margin.rs: check_market_order, check_limit_order", "src/contract_specification.rs: ContractSpecification::new", "src/order_margin.rs: OrderMargin", "src/order_filters/price_filter.rs: PriceFilter"]}
{"id": "C139", "title": "Only the volume that trades through each price matters", "statement": "What a list of market updates does to orders and position follows from the volumes it trades through the prices of the resting orders, for each order on its own, as long as no update reports a liquidation: the order remains with its open quantity less that volume, or is gone, and the position changes by what was filled. So two lists of updates with the same volumes leave the same orders (up to their sequence and average prices) and the same position; in linear contracts the gain before fees at every price is the same up to the rounding of the fills, and so are the fees. In particular a tape of trades may be written down in another order, with trades on one side at one price merged, packed into smart candles, with or without quotes in between. If a position is liquidated in between, the results can differ.", "quantifier": "every reachable state, every two lists of market updates, of any length, with the same volume through the price of every resting order, that return without a liquidation; every price", "why_tests_cant": "It ranges over all ways to write down the same tape and over all states; a test replays one.", "anchors": ["src/exchange.rs: update_state, check_active_orders", "src/market_update/trade_update.rs: limit_order_filled", "src/market_update/smart_candle.rs: limit_order_filled", "src/types/limit_order.rs: fill"]}
{"id": "C140", "title": "The account statistics do not see leverage", "statement": "Make the same calls on two exchanges for the same contract with the same starting balance, fees and sampling interval, but any leverage, maintenance margin, filters and number of places, under the conditions of C138 (no order lacks funds; filters and places are the same or turn down nothing; maintenance margins are the same or nobody is liquidated). Then the account tracker gets the same calls in the same sequence, but for how the balance is divided into wallet and margins. All statistics are therefore the same to the last bit: counters, turnover, rpnl, buy and hold return, and the data behind sharpe, sortino, kelly leverage, discriminant ratio and drawdowns, both as real numbers and in the floating point formats used.", "quantifier": "every pair of configurations that differ in leverage, maintenance margin, filters and places, every sequence of API calls that returns on both; every rounding of logarithms and conversions for the floating point part", "why_tests_cant": "It compares all pairs of configurations on all histories; a test fixes both.", "anchors": ["src/exchange.rs: update_state", "src/account_tracker/full_track.rs: FullAccountTracker, sample_user_balances", "src/types/mod.rs: UserBalances::sum", "src/sample_returns_trigger.rs: SampleReturnsTrigger"]}
{"id": "C141", "title": "Time plays no part in trading", "statement": "Make the same calls with other timestamps on the market updates: each timestamp may be changed on its own, and they need not even be in order. Then the same calls get the same answers but for the timestamps in them (same acceptances, errors, fills, ids), the quotes, the active orders, the position with entry price and fees and the balances of all accounts are the same after every call, and one sequence of calls panics exactly if the other does. The account tracker gets the same calls but for the times of the market states and for the samples of the balances; how many samples are taken does depend on time, and the statistics with them.", "quantifier": "every configuration (with tick sizes that are not zero and an initial margin between 0 and 1 for the part on panics), every sequence of API calls, every choice of timestamps, in any order", "why_tests_cant": "All choices of timestamps are compared on all histories; a test compares two of them on one history.", "anchors": ["src/exchange.rs: update_state, submit_market_order, submit_limit_order, check_active_orders", "src/market_state.rs: update_state, current_ts", "src/market_update/smart_candle.rs: timestamp_exchange_ns", "src/sample_returns_trigger.rs: SampleReturnsTrigger"]}
{"id": "C142", "title": "An inverse contract is a linear contract seen from the other currency", "statement": "Run an exchange for an inverse contract and one for a linear contract with the same decimals, margin, fees, quantity filter, places for orders and starting balance. Give the second the calls of the first with every price p replaced by exactly 1/p and with buy and sell, bid and ask, low and high swapped. If the first call brings quotes, nothing is liquidated, no limit order is turned down by a price filter and no fill adds to an open position, then every answer of one is the answer of the other seen from the other side (same acceptances, errors, fills, ids, quantities and times), and after the calls the quotes, active orders and entry prices are reciprocal, the positions are opposite, and the outstanding fees and the balances of all accounts are equal. Both restrictions on liquidations and on adding to a position are needed: the code averages entry prices and sets liquidation limits for inverse contracts as if they were linear.", "quantifier": "every pair of configurations with the same terms, every sequence of API calls with built-in market updates at prices that have exact reciprocals, accepted or rejected", "why_tests_cant": "Two exchanges are compared over all histories and price paths; a test compares them on one path.", "anchors": ["src/types/smol_currency/base_currency.rs: pnl, convert_from", "src/types/smol_currency/quote_currency.rs: pnl, convert_from", "src/position_inner.rs: increase_contracts, decrease_contracts", "src/risk_engine/isolated_margin.rs: check_limit_order, check_market_order, check_maintenance_margin", "src/exchange.rs: update_state"]}
{"id": "C143", "title": "Unrealised profit is what closing now would realise", "statement": "position().unrealized_pnl(bid, ask) is a promise the exchange keeps. A market order that closes the position changes the sum of the user balances by exactly the unrealised profit at the quotes, less the fees, which are those outstanding plus the taker fee of the closing trade, or nothing if rebates exceed them. A liquidation does the same at the quotes of the update. A market order that closes a part moves that part from unrealised to realised profit: realised plus unrealised profit before fees stay the same up to one unit in the last place. A position that was just opened with a market order changes no balance sum and shows exactly the spread as a loss. unrealized_pnl never panics in linear contracts, and in inverse contracts exactly if the price to close at, or the entry price, is zero.", "quantifier": "every configuration, every reachable state, every accepted closing, reducing or opening market order and every liquidation", "why_tests_cant": "Positions come from arbitrary sequences of fills with rounding at each step; a test closes one position at one price.", "anchors": ["src/position.rs: unrealized_pnl, change_position", "src/position_inner.rs: unrealized_pnl, decrease_contracts", "src/exchange.rs: submit_market_order, update_state, liquidate"]}
{"id": "C144", "title": "Every limit order has one life", "statement": "What the answers of the exchange say about an order id is one story, told in order. Either nothing is ever said and no such order is open, or the id is first given to an accepted order with nothing filled; then its partial fills are reported in turn, each with the same user id, side, price and acceptance time and with less left than before; and then the order is either open exactly as last reported, or exactly one answer has ended it: a complete fill at its price that reports the quantity it was accepted with, a cancellation that returns it as last reported, an amendment that replaces it by a later id with the amended quantity less what was filled, or a failed amendment. After an end the id is never heard of again and is not open. Filled and open quantity add up to the accepted one at every report. Calls of check_active_orders are silent: with them reports may be missing, also the last one, but what is heard is still one story in this order.", "quantifier": "every configuration, every history of API calls, accepted or rejected, of any length, and every order id", "why_tests_cant": "The answers about one order are spread over an unbounded history of calls about other orders, updates, amendments and liquidations; a test follows one order through one history.", "anchors": ["src/exchange.rs: submit_limit_order, amend_limit_order, cancel_limit_order, update_state, check_active_orders", "src/active_limit_orders.rs: insert, remove_by_order_id, remove_by_user_order_id", "src/types/limit_order.rs: into_pending, fill", "src/types/order_update.rs: LimitOrderUpdate"]}
{"id": "C145", "title": "Whole lots and admissible prices", "statement": "If the market only trades multiples of the step size of the quantity filter, then so does the account: after every history the open and the filled part of every active order, every fill, amendments and liquidations included, and the position are multiples of the step size. A position within the bounds of the filter (any position if there are none) is then a quantity the filter allows, so closing it with a market order or liquidating it cannot fail for the step size. Every resting limit order and every fill of a limit order has a price that the price filter allows, whatever the market does. If the quotes of all updates are prices the filter allows, so is the price of every fill; in debug builds, which check quotes, trades and candles, this needs no assumption about them. A market that trades fractions of a step leaves the account with a position it cannot close, and release builds trade at any quotes.", "quantifier": "every configuration, every history of API calls of any length, every market data of the stated kind", "why_tests_cant": "The step and tick grids must survive every sequence of partial fills, amendments, reversals and liquidations; a test checks the grid after one.", "anchors": ["src/order_filters/quantity_filter.rs: validate_order_quantity", "src/order_filters/price_filter.rs: validate_limit_price", "src/exchange.rs: submit_limit_order, amend_limit_order, submit_market_order, liquidate, check_active_orders", "src/market_update/trade_update.rs: limit_order_filled", "src/market_update/smart_candle.rs: limit_order_filled", "src/types/limit_order.rs: fill, set_remaining_quantity"]}
{"id": "C146", "title": "What is reported of an order depends on the market alone, what the account earns does not", "statement": "As long as the user neither cancels nor amends a resting limit order, everything the answers report of it (each partial fill with its open and filled quantity and average price, the complete fill with its times) and everything that is left of it in the end follow from the order and the market data that did not liquidate the account, by a rule that knows of no account, position or other orders. So two orders with the same terms on exchanges that may differ in contract type, leverage, fees, filters, balances, position, other orders and all other calls have the same reports, up to ids and time of submission, if they see the same market. The account as a whole has no such independence: an order that is never filled and is cancelled before anything else happens can change entry price and realised profit, because cancelling it changes the sequence in which the other orders are filled.", "quantifier": "every configuration or pair of configurations with the same number of decimals, every reachable state, resting order and further history of any length; for the comparison of two orders, updates of the user's own type do not fill orders", "why_tests_cant": "Everything else that can happen on an exchange, in any number and sequence, must have no influence on the reports of one order; a test fixes the surroundings.", "anchors": ["src/exchange.rs: check_active_orders, update_state, submit_limit_order, cancel_limit_order, amend_limit_order", "src/active_limit_orders.rs: remove_by_order_id, remove_by_user_order_id", "src/market_update/trade_update.rs: limit_order_filled", "src/market_update/candle_update.rs: limit_order_filled", "src/market_update/smart_candle.rs: limit_order_filled", "src/types/limit_order.rs: fill"]}
{"id": "C147", "title": "An account is the sum of the lives of its orders", "statement": "In every history whose calls all tell what they did (no check_active_orders), the fills of the account are, up to their sequence, those the answers to market orders tell of, one for each liquidation, and for each order id the fills told of in the life of that limit order: for each partial fill what was open and is not any more, and for a complete fill what was left. No fill is missing, none is reported twice and none belongs to no order. So two accounts without liquidations whose market orders and whose limit orders had the same fills, apart from orders that were never filled and in whichever sequence, hold the same quantity and have run up the same fees (for fee rates that are not negative), and in a linear contract they are worth the same at every price, up to the rounding allowance of C68.", "quantifier": "every configuration, every history (or pair of histories) of API calls of any length that does not panic, every price", "why_tests_cant": "Fills of many orders are interleaved over many updates, with amendments, cancellations and reused places in between; a test sees one interleaving.", "anchors": ["src/exchange.rs: update_state, check_active_orders, submit_market_order, submit_limit_order, amend_limit_order, cancel_limit_order, liquidate", "src/types/order_update.rs: LimitOrderUpdate", "src/types/limit_order.rs: fill", "src/position.rs: change_position"]}
{"id": "C148", "title": "The buy-and-hold benchmark is what buying and holding earns, at best", "statement": "An account that buys (sells) at market after the first update as many contracts as its starting balance is worth at the first mid price, and then holds without being liquidated, has after the last update an unrealised profit, at the quotes a position is valued at, of at most buy_and_hold_return() (sell_and_hold_return()), and of exactly this much if there is no spread at the first and at the last update. Its balances are still the starting balance and the fee is still outstanding, so the benchmark contains neither spread nor fees. Without leverage the benchmark cannot be traded at all if there are fees: the order is turned down.", "quantifier": "every configuration of both contract kinds, every first update and every further list of updates of any length that do not liquidate the account", "why_tests_cant": "The benchmark is computed by the account tracker from two prices, the account by the exchange from all updates; that they agree must hold for every path of the market.", "anchors": ["src/account_tracker/full_track.rs: buy_and_hold_return, sell_and_hold_return, update", "src/exchange.rs: submit_market_order, update_state", "src/position.rs: unrealized_pnl"]}
{"id": "C149", "title": "Orders that are not filled do not change what the account earns, unless one update fills two orders", "statement": "Take a history and the same history with any number of further limit orders submitted, amended and cancelled in between, none of which is ever filled. If all calls are carried out in both and no update fills two orders, the two accounts make the same trades in the same sequence: they have the same position (quantity, entry price, outstanding fees), have paid the same fees, realised the same profit, and have the same position margin and the same equity; and the other active orders are the same, in the same state. If updates fill several orders, the trades are the same but their sequence may differ: then the positions are of the same size, the same fees are charged if there are no rebates, and in linear contracts the profit with the position valued at any price is the same up to rounding.", "quantifier": "every configuration of both contract kinds, every history of calls of any length, every way to put further submissions, amendments and cancellations between the calls, any number of them", "why_tests_cant": "Submitting and cancelling rearranges the active orders and the margin in ways that depend on everything else that rests in the book; that it never reaches the trades must hold for all histories and all places at which the further calls can be made.", "anchors": ["src/exchange.rs: submit_limit_order, cancel_limit_order, amend_limit_order, check_active_orders, update_state", "src/active_limit_orders.rs: insert, remove_by_order_id, remove_by_user_order_id"]}
{"id": "C150", "title": "What can happen while the user is asleep", "statement": "The user stops trading and leaves limit orders resting; from then on there are only market updates and cancellations. As long as the account is not liquidated, whatever the market does: the position changes by no more than the open quantity of the buys and of the sells; every trade is a fill of one of the orders left, at its price, of at most its open quantity, as maker; with fee rates between 0 and 1 no more fees are charged than for all of the open quantity; and in linear contracts the balances before fees plus the position valued at any price lie between what they were plus the losses of the orders that lose at that price and what they were plus the gains of the orders that gain, up to the rounding of the fills made in the meantime. Even if the account is liquidated, any number of times, the position never leaves the range from what it was (or nothing) minus the open sells to what it was (or nothing) plus the open buys.", "quantifier": "every configuration, every reachable account, every list of market updates (of all kinds) and cancellations of any length that do not liquidate the account, every price at which to value", "why_tests_cant": "The worst case is over all paths the market can take and all ways in which they can fill the orders in parts; a test follows one path.", "anchors": ["src/exchange.rs: update_state, check_active_orders, cancel_limit_order", "src/position.rs: change_position", "src/types/limit_order.rs: fill"]}
{"id": "C151", "title": "Cancelling by the client's own id is cancelling by the exchange's id", "statement": "If one active order only has a given user order id, cancelling by this user order id does the same as cancelling that order by its order id: same answer, same effect, same panics. In every history, also with repeated user order ids, each successful cancellation by user order id can be replaced by a cancellation of the order named in its answer, and all answers and the account stay the same. With repeated ids the order cancelled is in general neither the oldest nor the newest: it depends on whether unrelated orders were cancelled before.", "quantifier": "every configuration that keeps at most 10000 orders open, every reachable account, every order, every history of any length", "why_tests_cant": "The two ways to name an order are separate code paths, once for the orders and once for the margin; that they agree after every history is a statement about all sequences in which orders were added, filled, amended and removed.", "anchors": ["src/exchange.rs: cancel_limit_order", "src/active_limit_orders.rs: remove_by_user_order_id, remove_by_order_id", "src/order_margin.rs: remove"]}
{"id": "C152", "title": "Nobody can expect to gain on a fair market", "statement": "Let the market be drawn by chance, and let the user make any calls after each update, depending on everything seen so far. If at any time what the contract is worth lies between bid and ask and is the mean of what it is worth at the end, and no update fills a buy below or a sell above what the contract is worth after it, then in linear contracts the mean of what the account gains before fees, open position included, is not positive, up to the mean of the rounding at the fills, liquidations included. So whoever can gain more than the rounding in one ending falls short of it in another that is not impossible. After fees, with rates that are not negative, it is minus the mean of the fees at best. More exactly, with any updates and any calls, if only the price is a martingale: the mean gain before fees is minus the mean of what the fills gave away against what the contract was worth, up to the mean of the rounding. Quotes fulfil the condition on fills; trades do if the contract is worth at most the price of a sale and at least the price of a purchase after it. Candles do not: on candles with quotes that never move a user can gain for certain.", "quantifier": "every linear configuration, every reachable account, every finite random market that is fair, every strategy that does not know the future, as long as no call panics", "why_tests_cant": "The mean is over all ways the market can go and the statement over all strategies; a test runs one strategy on a few paths, where chance decides.", "anchors": ["src/exchange.rs: update_state, submit_market_order, submit_limit_order, check_active_orders, liquidate", "src/position.rs: change_position", "src/market_update/trade_update.rs: limit_order_filled", "src/market_update/candle_update.rs: limit_order_filled"]}
{"id": "C153", "title": "Slippage costs what it says", "statement": "Two accounts in linear contracts that make the same trades (side and quantity, one by one) at different prices have the same position, and valued at any price one has gained more before fees than the other by the sum over the fills of quantity times difference of the prices, up to an explicit rounding allowance. So the same market orders on quotes that are wider by at most e on each side, if all are filled and nobody is liquidated, gain no more, and less by at most e times the quantity traded.", "quantifier": "every two linear configurations, every two reachable accounts with the same trades, every price at which to value; every two histories of quotes and market orders of any length", "why_tests_cant": "Average entry prices, partial closes and reversals combine the prices of all earlier fills, with rounding at each; that a difference in the prices comes through at its face value is a statement about all sequences of trades.", "anchors": ["src/exchange.rs: submit_market_order, update_state", "src/position.rs: change_position", "src/position_inner.rs: PositionInner"]}
{"id": "C154", "title": "How much candles can flatter a backtest", "statement": "On a random market that is fair but for updates that fill orders at prices better than what the contract is worth after them by at most g, the mean of what any user gains before fees in linear contracts is at most g times the mean of the quantity traded, up to the mean of the rounding at the fills. A candle is not more generous than its range from low to high if the contract is worth something in this range after it.", "quantifier": "every linear configuration, every reachable account, every finite random market whose prices are fair and whose updates are generous by at most g, every strategy that does not know the future, as long as no call panics", "why_tests_cant": "The mean is over all ways the market can go and the bound over all strategies; a test of one strategy says nothing about what the best one could take out of the candles.", "anchors": ["src/market_update/candle_update.rs: limit_order_filled", "src/exchange.rs: update_state, check_active_orders", "src/position.rs: change_position"]}
{"id": "C155", "title": "Sessions can be replayed, and users who react are covered", "statement": "Whatever decides about the calls, one by one and knowing all answers before, sending the recorded calls to a new exchange with the same configuration gives the recorded answers and the same account; a session that panics does so in a call that panics whenever it is made after the same calls. Conversely every list of calls is the session of some user. So statements about all lists of calls, like the others here, are statements about all users, adaptive or not.", "quantifier": "every configuration, every way to decide about the next call, any number of calls", "why_tests_cant": "A strategy is a function of all answers; a test runs a given one. That nothing but the calls matters is a statement about all strategies and all histories.", "anchors": ["src/exchange.rs: Exchange, update_state, submit_market_order, submit_limit_order, amend_limit_order, cancel_limit_order"]}
{"id": "C156", "title": "Fair markets of inverse contracts: longs expect no gain, shorts can", "statement": "An inverse contract is worth one over the price in coins. On a market of quotes and trades where one over the price is fair, and the quotes enclose the price, no strategy of a new account that is never short has a mean gain before fees, open position included, above the mean rounding: one unit per fill and the rounding of averaged entry prices. So whoever gains more than the rounding in one ending falls short of it in another that is not impossible. For accounts that are never long this is false: since the entry price of an enlarged position is the arithmetic mean, there is a strategy with a mean gain above rounding, spread and fees.", "quantifier": "every configuration of an inverse contract, every strategy that reacts to all it has seen, every finite market tree with its probabilities, prices and quotes", "why_tests_cant": "A mean over all branches of all markets and all strategies; a backtest samples one branch with one strategy.", "anchors": ["src/types/smol_currency/quote_currency.rs: new_weighted_price", "src/types/smol_currency/base_currency.rs: pnl", "src/position_inner.rs: PositionInner::increase_contracts, decrease_contracts", "src/exchange.rs: update_state, submit_market_order, submit_limit_order"]}
{"id": "C157", "title": "On a fair market the chance to multiply the money by n is at most one in n", "statement": "On a random market that is fair (as in C152), with fee rates that are not negative, and if no ending leaves the account with debts, whatever a user does in linear contracts: k times the probability that the account, open position and fees owed included, is worth k or more at the end is at most what it is worth now less the mean of the fees, up to the mean of the rounding at the fills. For a new account: n times the probability of n times the starting balance exceeds 1 by no more than rounding less fees, as a part of the starting balance.", "quantifier": "every linear configuration with fee rates that are not negative, every reachable account, every finite random market that is fair, every strategy that does not know the future and ends without debts, every threshold", "why_tests_cant": "A probability over all branches of all markets for all strategies; doubling up and other systems cannot be refuted by running some of them.", "anchors": ["src/exchange.rs: update_state, submit_market_order, submit_limit_order, check_active_orders, liquidate", "src/position.rs: change_position", "src/market_update/trade_update.rs: limit_order_filled"]}
