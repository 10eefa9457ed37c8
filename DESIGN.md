# A formal model of lfest-rs in Lean 4

The model covers the simulated futures exchange of MathisWellmann/lfest-rs: the
`Exchange` type, everything it calls, and the constructors of its inputs.

| where | what |
|---|---|
| `lean/Verif/Model/` | the model, function by function, each definition citing its source lines |
| `lean/Verif/Spec.lean` | the vocabulary of the theorems: ledgers, fill sequences, margin requirement, fill rules. Independent of the model's helpers |
| `lean/Verif/SpecReal.lean` | the same for the performance figures of C77, over the reals |
| `lean/Verif/SpecDrawdown.lean` | peaks and falls of a series, for C89 |
| `lean/Verif/SpecFloat.lean` | what a double is, for C80 |
| `lean/Verif/SpecSample.lean` | returns between sampled balances in single precision (C106) |
| `lean/Verif/SpecBookkeeping.lean` | accountings that keep the books, transcripts of calls, postings (C107) |
| `lean/Verif/SpecPriority.lean` | orders and reports without ids, gains at a mark price, rounding allowance for any order of fills (C108) |
| `lean/Verif/SpecDecimals.lean` | configurations and fills written with more decimals (C109) |
| `lean/Verif/SpecReasons.lean` | what is wrong with the prices of an update (C110) |
| `lean/Verif/SpecParts.lean` | several accounts in one contract (C111) |
| `lean/Verif/SpecTrips.lean` | the result of a trade from its two fills (C113) |
| `lean/Verif/SpecUnits.lean` | the same fills in other units (C112) |
| `lean/Verif/SpecReport.lean` | when a summary can be printed (C114) |
| `lean/Verif/SpecThin.lean` | which market updates can be left out (C115) |
| `lean/Verif/SpecAmount.lean` | a result rounded toward zero (C117) |
| `lean/Verif/SpecRestart.lean` | accounts that differ in their past only (C118) |
| `lean/Verif/SpecStats.lean` | what is asked of the external logarithm and square root (C119) |
| `lean/Verif/SpecDrawdown32.lean` | what is asked of the drawdowns in single precision (C121) |
| `lean/Verif/SpecDRatio.lean` | the figures behind the discriminant ratio, for C124 |
| `lean/Verif/SpecGap.lean` | markets without large gaps, for C125 |
| `lean/Verif/SpecCut.lean` | orders and their parts, for C126 |
| `lean/Verif/SpecKeen.lean` | orders at better prices, for C127 |
| `lean/Verif/SpecMoves.lean` | profit from moves and from fills, for C128 |
| `lean/Verif/SpecAverage.lean` | what fills earn in inverse contracts, for C129 |
| `lean/Verif/SpecFavour.lean` | positions on one side only, for C130 |
| `lean/Verif/SpecAgain.lean` | chains of amendments, for C131 |
| `lean/Verif/SpecPath.lean` | order management calls, offers, for C132 |
| `lean/Verif/SpecQueue.lean` | a real order book with price-time priority, for C133 and C134 |
| `lean/Verif/SpecMarket.lean` | a complete real order book, both sides, for C133 |
| `lean/Verif/SpecOpposed.lean` | accounts with opposite fills, for C135 |
| `lean/Verif/SpecExample.lean` | the turns of the example program, for C136 |
| `lean/Verif/SpecBetter.lean` | fills compared one by one, strategies on wider and tighter quotes, for C137 |
| `lean/Verif/SpecLever.lean` | configurations that differ in their terms, for C138 |
| `lean/Verif/SpecFlow.lean` | volumes of lists of updates and ways to write down a tape, for C139 |
| `lean/Verif/SpecBlind.lean` | what the account tracker sees of the balances, for C140 |
| `lean/Verif/SpecUndated.lean` | calls, answers and tracker calls without times, for C141 |
| `lean/Verif/SpecDual.lean` | calls, orders and answers at reciprocal prices with the sides swapped, for C142 |
| `lean/Verif/SpecLife.lean` | what the answers say about one order id, and the order in which it may be said, for C144 |
| `lean/Verif/SpecLots.lean` | market data in whole lots, admissible prices, for C145 |
| `lean/Verif/SpecAlone.lean` | one order and the market, with nothing else, for C146 |
| `lean/Verif/SpecLives.lean` | the fills told of by the news of an order, for C147 |
| `lean/Verif/SpecHold.lean` | buying and holding, for C148 |
| `lean/Verif/SpecBystander.lean` | a history with further orders, for C149 |
| `lean/Verif/SpecAsleep.lean` | worst and best case of the orders left resting, for C150 |
| `lean/Verif/SpecClientId.lean` | the same history with the exchange's ids, for C151 |
| `lean/Verif/SpecFair.lean` | random markets, strategies, means, for C152 |
| `lean/Verif/SpecSlip.lean` | the same trades at other prices, wider quotes, for C153 |
| `lean/Verif/SpecFlatter.lean` | generous updates, for C154 |
| `lean/Verif/SpecReplay.lean` | sessions of users who react, for C155 |
| `lean/Verif/SpecFairInverse.lean` | fair markets of inverse contracts, for C156 |
| `lean/Verif/SpecRich.lean` | probability of endings, for C157 |
| `lean/Verif/SpecSingle.lean` | what a single is, for C91 |
| `lean/Verif/SpecSolvent.lean` | the side on which a position cannot lose more than its value, for C95 and C122; losses within the margin, for C123; winding down, for C96 |
| `lean/Verif/SpecAudit.lean` | a client that keeps books from the answers, for C98 |
| `lean/Verif/SpecClean.lean` | which calls have an effect, and renaming of order ids, for C99 |
| `lean/Verif/SpecTime.lean` | times of receipt and execution (C105) |
| `lean/Verif/SpecTraded.lean` | quantities traded, left open and granted, for C100 |
| `lean/Verif/SpecRelease.lean` | contracts traded and waiting, room of a history (C102) |
| `lean/Verif/SpecWait.lean` | volume traded through the price of an order (C103) |
| `lean/Verif/SpecMoments.lean` | mean, variance and higher moments of numbers (C104) |
| `lean/Verif/SpecTerms.lean` | which configurations are no worse than another, for C93 |
| `lean/Verif/SpecBatch.lean` | lists of limit orders, for C92 |
| `lean/Verif/Reference.lean` | a one-page reference exchange (C65) |
| `lean/Verif/Returns.lean` | which calls of the reference exchange return (C88) |
| `lean/Verif/Relabel.lean` | renaming of user order ids and shift of time (C74) |
| `lean/Verif/Props/` | the property theorems, one file per group, with non-vacuity examples beside them |
| `lean/Verif/Lemmas/` | helper lemmas |
| `lean/Verif/Examples.lean` | configurations and histories used by the examples |
| `lean/Verif/Conformance.lean` | the repository's own unit tests replayed on the model |
| `seeded/LOG.jsonl` | results of editing the model the way a bug would |
| `tools/` | generate `MANIFEST.json` and the axiom list below |

## Trusted base

* Lean 4.33.0's kernel.
* Axioms: at most `propext`, `Classical.choice`, `Quot.sound`; the list per theorem is below.
  No `sorry`, no `native_decide`, no `bv_decide`, no axioms of our own. `decide +kernel` in the
  witnesses and examples evaluates in the kernel.
* The reading of the Rust source by hand. Evidence besides the cited lines: the repository's unit
  tests, replayed in `Conformance.lean`, give the asserted values. (One of them,
  `position_change_position_2`, can only pass in a release build; see the comment there.)
* The reading of the external crate `const_decimal` 0.3 (not available here):
  a `Decimal<I, D>` is a raw integer scaled by `10^D`; `+ - neg cmp` act on the raw
  integer; `a * b = (a*b)/10^D` and `a / b = (a*10^D)/b` with integer division
  truncating toward zero on a widened intermediate; division by zero panics; `%` is
  the truncated remainder of the raw integers and panics on zero.
* `Vec::with_capacity(n)` has capacity exactly `n` for `n > 0` (the standard library
  promises at least `n`). For C83 also: the clone of a vector has its length as capacity, and `push`
  on a full vector doubles the capacity, to at least four. `slice::sort_by_key` and `glidesort` are stable.

### Axioms of each theorem

Generated by `tools/axioms.py` from `#print axioms`.

<!-- AXIOMS -->
* `Classical.choice, Quot.sound, propext`: all others (438 theorems)
* `propext` (70): C04_rebate_lost, C09_inverse_cost_basis_lost, C100_liquidation_trades, C101_buy_and_hold_overflows, C101_statistics_overflow_first, C102_silent_overflow, C105_time_travel, C109_rounding, C112_rounding, C115_samples_differ, C11_debug_panics, C11_dust, C11_flip_panics, C11_inverse_stuck, C129_shorts_gain_by_wash_trades, C131_trades_too_much, C136_crashes, C136_runs_dry, C137_parts_can_lose, C138_poor, C139_liquidated_between, C141_samples, C142_not_for_liquidations, C142_not_when_adding, C144_unheard_end, C145_half_a_step, C145_odd_quotes, C146_bystanders_matter, C148_out_of_reach, C151_which_one, C154_fair, C155_scripts, C20_amend_not_atomic, C23_negative_liquidation, C23_negative_sale, C24_fill_order_breaks, C24_market_order_breaks, C24_submit_moves_wrong_way, C27_cancel_raises, C30_panics_on_quantity_filter, C37_volume_exceeded, C41_average_drifts, C53_catch_up, C54_negative_wallet_panics, C56_debug_stricter, C63_backwards_panics, C63_before_first_update, C63_zero_sentinel, C66_market_order_then_cancel_panics, C67_custom_witnesses, C67_market_witnesses, C67_order_witnesses, C67_smart_witnesses, C67_update_witnesses, C68_inverse_mismatch, C69_rounding_pump, C74_needs_distinct_ids, C76_needs_wallet, C78_inverse_long_exposed, C79_exact_unless_overflow, C79_history_exact_unless_overflow, C81_new, C83_not_equivalent, C85_liquidated_exit_panics, C90_untouched_order_filled, C93_more_money_can_panic, C94_convert_negative, C96_off_grid_reached, C97_small_orders_are_free, C99_failed_amendments_count
* `Quot.sound, propext` (59): C03_quiet_calls, C08_weighted_price, C103_liquidation_skips, C107_only_transfers, C107_refused, C107_unreadable, C107_unreadable_getters, C115_thin, C117_product, C117_product_undone, C117_quotient, C117_quotient_undone, C122_fee_can_panic, C125_jump_panics, C126_twice_as_fast, C12_liquidation_id, C132_cancelling_pays_for_orders, C133_candles_are_optimistic, C136_enlarging_works, C139_same_tape, C154_candle_range, C155_panics, C155_replay, C16_never_crosses, C19_cancel_errors, C20_amend_unknown, C26_adding_never_lowers, C27_cancel_never_raises, C29_limits_exact, C32_quotes_never_fill, C48_antisymmetric, C48_monotone, C48_sign, C48_zero_at_entry, C55_load, C55_loads_iff, C55_sell_negative, C56_release_agrees, C56_release_panics_less, C58_tiny_panics, C61_taker_size, C62_release_accepts_crossed, C62_smart_unchecked, C75_filters, C75_market_order_panics, C75_nothing_before_first_update, C83_accepts_nothing, C83_debug_panics, C83_never_more, C87_cannot_fill, C87_validation, C92_equal_prices_matter, C94_convert, C94_parts, C94_price_paid, C94_there_and_back, C95_leverage_can_panic, C95_short_can_panic, C98_silent_fills
* `none` (5): C101_exact_unless_overflow, C136_config, C46_zero_tick_panics, C67_configs_sound, C84_release_wraps
<!-- /AXIOMS -->

### What is modelled

| file | models |
|---|---|
| Model/Basic | `Panic` (one constructor per panic site), `Error`, monadic helpers |
| Model/Decimal | `const_decimal` arithmetic, `utils::{min,max}` |
| Model/Types | side, order ids, order status, limit and market orders (`new`, `into_pending`, `fill`, ...) |
| Model/Currency | `convert_from`, `pnl`, `new_weighted_price`, liquidation prices |
| Model/Accounting | T-accounts, transactions, transfers |
| Model/Config | leverage, filters, contract specification, config |
| Model/Book | `ActiveLimitOrders` |
| Model/Position | `PositionInner`, `Position::change_position` |
| Model/OrderMargin | `OrderMargin` |
| Model/Risk | `IsolatedMarginRiskEngine` |
| Model/MarketUpdate | `Bba`, `Trade`, `Candle`, `SmartCandle`, arbitrary implementations of `MarketUpdate` (`Custom`), `MarketState` |
| Model/Tracker | recorded tracker calls, `FullAccountTracker` as a fold over them, `SampleReturnsTrigger` |
| Model/Report | `Display` of `FullAccountTracker`: the entries of the summary and its panics |
| Model/Exchange | `Exchange`: all public mutating methods, `step`, `run` |
| Model/Loader | conversion of csv rows to trades, `TakerTrade` |
| Model/Moments | `statistical_moments`, over the reals |
| Model/Performance | `sharpe`, `sortino`, `kelly_leverage` of `FullAccountTracker`, over the reals |
| Model/Machine | `Exchange` again, on bounded integers |
| Model/Float | `decimal_from_f64`, with the IEEE 754 binary64 operations it uses, over the rationals |
| Model/Clone | `Exchange` with the capacities of its vectors, and `clone` |
| Model/Clock | `SampleReturnsTrigger` on 64 bit integers |
| Model/DRatio | `FullAccountTracker::d_ratio` and the samples it uses, over the reals |
| Model/Single | the ratios of `FullAccountTracker` with the IEEE 754 binary32 operations they use |
| Model/MachineTracker | the integer part of `FullAccountTracker` on integers from `-w` to `w` |
| Model/Release | the exchange with the operators of type `I` left open: checked (debug build) or wrapping (release build) |
| Model/MomentsF64 | account_tracker/statistical_moments.rs in binary64; `powf(1.5)` any function, zeros without sign |
| Model/Sample32 | `sample_user_balances` in binary32; external `LnReturn` and conversions within bounds |
| Model/DRatioF64 | `d_ratio` and its samples with `f32` samples and `f64` arithmetic; means and quantiles of the external `quantogram` arbitrary |
| Model/Stats32 | `sharpe`, `sortino`, `kelly_leverage` in binary32; external `WelfordRolling` as Welford's recurrence, external square root within bounds |
| Model/Example | `examples/basic.rs`, with arbitrary prices and random bits |
| Model/Bookkeeping | the exchange over any implementation of `TransactionAccounting` |
| Model/Amount | signs of amounts, product, quotient, remainder and positive difference (C94, C117) |
| Model/Drawdown | the values handed to the two drawdowns of `FullAccountTracker` |
| Model/Drawdown32 | the same in binary32; the answer of the external drawdown is arbitrary within bounds |

### What is not modelled, and simplifications

* Raw amounts are unbounded `Int`, except in `Model/Machine` (C79), which is the whole exchange on
  integers from `-w` to `w` and ends at the first result that does not fit. That is what a debug
  build does; `Model/Release` is the same program with
  the wrap-around of a release build for sums and differences (C102); products and quotients are the
  external crate's and stay open. The widened intermediates of
  `Decimal` multiplication and division are taken to be wide enough. `Model/MachineTracker`
  is the account tracker on such integers (C101).
* Floating point: the external drawdown (arbitrary within bounds in C89 and C121), the estimate of
  quantiles (arbitrary in C86 and C124), the conversion of decimals to `f64` (arbitrary within bounds in C91)
  (the ratio of C86 is modelled with `f32` and `f64` rounding in C124, the drawdowns of C89 with `f32` rounding in C121, the moments of C73
  with `f64` rounding in C104, the figures of C77 with `f32` rounding in C106 and C119). The ratios of C72 are modelled
  with `f32` rounding in C91. `decimal_from_f64` is modelled with binary64 rounding (C80). The views `LnReturn` and `WelfordRolling` of
  C77 come from an external crate and are modelled by their mathematical definition.
* The rendering of values as text, logging, `serde`, files and the parsing of csv text. Which
  statistics the printed summary evaluates is modelled (`Model/Report`). The conversion of a parsed
  row is modelled.
* `mock_exchange` (used in `Conformance.lean`) and `NoAccountTracker` (does nothing).
* The account tracker is a user-implementable trait. The model uses a tracker that
  records every call it receives, newest first. `FullAccountTracker` is modelled as a
  fold over that record, so theorems about the record hold for any tracker that does
  not panic. (`FullAccountTracker::log_trade` asserts `quantity > 0`, which is proved to
  hold for every recorded trade.)
* `MarketUpdate` is a user-implementable trait. An implementation is modelled by the answers it gives
  during one call (`Custom`). Implementations that panic, or whose timestamp changes within a call,
  are not modelled.
* `UserOrderId` is modelled as `Nat`, timestamps as `Int` (64 bit in `Model/Clock`, C84), order ids as
  `Nat`.
* The two Rust type parameters "base" / "quote" become a `Kind` (linear, inverse); unit
  confusion is excluded by Rust's types and is not a modelled concern.
* `TransactionAccounting` is modelled by its in-memory implementation, except in `Model/Bookkeeping`
  (C107), which takes any implementation without interior mutability. The risk engine, a private
  field, is `IsolatedMarginRiskEngine`.

### Panics

Every panic site (release `assert!`, `expect`, division by zero, `unreachable!`, and
`debug_assert!` when `Cfg.debug = true`) is a constructor of `Panic`. Functions that can
panic return `Except Panic _`. Functions returning Rust `Result` return the new state
together with an `Except Error _`, because Rust code can mutate `self` and then return
`Err`. Theorems about "every call" are about calls that return; C54, C58, C66, C67, C82, C85 and C88 say
which calls return.

## Where the obvious statement is false

The code violates the first statement one would write down for some properties. There the
English statement in `properties.jsonl` is the precise one that holds, the exceptions are
part of it, and the falsity of the obvious form is proved on a reachable witness.

| id | obvious statement | refuted by | what is proved instead |
|---|---|---|---|
| C04 | fees paid and outstanding add up to the fee schedule, rebates included | `C04_rebate_lost` | equality without rebates (`C04_fee_schedule`), exact accounting of lost rebates for all rates (`C04_all_rates`) |
| C09 | enlarging a position adds the value of the fill to its cost | `C09_inverse_cost_basis_lost` | both bounds for linear, upper bound for inverse contracts |
| C11 | a flat account holds no position margin | `C11_dust`, `C11_debug_panics`, `C11_flip_panics`, `C11_inverse_stuck` | explicit rounding bound (`C11_flat_dust`), exactness in debug builds and for simple round trips |
| C14 | the margined orders are the active orders | `C14_desync` (limit above 10000) | equality for `max_num_open_orders ≤ 10000` |
| C20 | amending is atomic | `C20_amend_not_atomic` | exact effect in every case |
| C23 | the wallet is never negative | `C23_negative_sale`, `C23_negative_liquidation` | the only two kinds of call that can do it (`C23_wallet`) |
| C24 | the order margin balance equals the requirement | `C24_market_order_breaks`, `C24_submit_moves_wrong_way`, `C24_fill_order_breaks` | preservation by every other call; exact description of what a taker order leaves behind |
| C27 | cancelling never raises the requirement | `C27_cancel_raises` | holds for distinct prices; otherwise at most one unit per remaining order (`C27_rounding_bound`) |
| C30 | liquidation always works | `C30_panics_on_quantity_filter` | exact condition (`C30_needs_allowed_quantity`) |
| C37 | a trade fills at most its quantity | `C37_volume_exceeded` | bound per order and exact total |
| C41 | the average price of a filled order is its limit price | `C41_average_drifts` | first fill exact, explicit bound on the drift |
| C46 | filter checks never panic | `C46_zero_tick_panics` | exact rules for non-zero steps |
| C53 | samples are an interval apart | `C53_catch_up` | exact number of samples |
| C54 | quiet updates never panic | `C54_negative_wallet_panics` | they do not while the wallet is non-negative |
| C55, C61 | loaded trades have positive quantity and signed size | `C55_sell_negative`, `C55_sell_panics`, `C61_loaded_sign_lost` | exact result of loading; the size rule for positive quantities |
| C58 | accepted market orders execute | `C58_tiny_panics` | they do if the margin is at least one unit |
| C62 | bad quotes are refused | `C62_release_accepts_crossed`, `C62_smart_unchecked` | exact rule for debug builds |
| C63 | the first update starts the record | `C63_zero_sentinel`, `C63_backwards_panics`, `C63_before_first_update` | holds unless the first update is at time or price zero |
| C66 | managing orders never panics | `C66_market_order_then_cancel_panics` | holds when the account is in line |
| C68 | profit equals cash flow | `C68_inverse_mismatch` | holds for linear contracts up to explicit rounding |
| C69 | standing quotes yield no profit | `C69_rounding_pump` | holds up to explicit rounding |
| C129 | standing quotes yield no profit in inverse contracts | `C129_shorts_gain_by_wash_trades` | holds for accounts that are never short, up to explicit rounding |
| C131 | an order amended to a total quantity never trades more than that | `C131_trades_too_much` | holds after one amendment (C20); exact law for chains of amendments |
| C133 | no resting order is filled by more than on a real exchange, whatever the market data | `C133_candles_are_optimistic` | proved for trades and smart candles; false for candles |
| C135 | accounts that trade against each other gain nothing together | `C135_three_accounts` | exact for two accounts, up to rounding for any number in linear contracts |
| C136 | the example program ends with its summary or with "Got REKT" | `C136_crashes`, `C136_runs_dry` | complete list of how it can end |
| C137 | a limit order filled later at a better price leaves the account no worse off than a market order | `C137_parts_can_lose` | if it is filled at once |
| C138 | leverage and starting balance do not matter for profit | `C138_poor` | if no order lacks funds |
| C139 | the same tape of trades always gives the same position | `C139_liquidated_between` | if nobody is liquidated |
| C141 | the samples of the balances do not depend on time either | `C141_samples` | trading does not; a shift of all times by the same amount changes no sample (C74) |
| C142 | the two sides also agree on averaged positions and on liquidations | `C142_not_when_adding`, `C142_not_for_liquidations` | holds without fills that add to a position and without liquidations |
| C144 | an order that no answer has ended is still open | `C144_unheard_end` | holds without calls of `check_active_orders` |
| C145 | positions are always whole lots, fills always on the price grid | `C145_half_a_step`, `C145_odd_quotes` | holds for market data in whole lots, and for admissible quotes |
| C146 | orders that are never filled do not change what the account earns | `C146_bystanders_matter` | holds for the reports of every other order |
| C148 | the benchmark can be traded | `C148_out_of_reach` | an upper bound for what can be traded, exact without spread |
| C151 | of several orders with the same user order id the oldest is cancelled | `C151_which_one` | the first in the exchange's own sequence, which cancellations and fills of other orders rearrange |
| C152 | nobody can expect to gain on a fair market of candles | `C152_candles_are_generous` | holds if no update fills better than what the contract is worth after it, as with quotes and trades |
| C78 | a position that is not liquidated is covered by its margin | `C78_inverse_long_exposed` | holds for linear contracts, for inverse shorts, and for inverse longs if m ≤ i/(1+i) |
| C79 | amounts that stay small do not overflow | `C79_every_width_overflows` | the number of submissions must be bounded as well |
| C80 | numbers that cannot be represented are reported | `C80_saturates`, `C80_nan` | they become the largest amount, or zero |
| C80 | every decimal number survives the conversion | `C80_bound_needed` | fewer than 2^51 units |
| C83 | a copy of an exchange behaves like the original | `C83_not_equivalent` | it does until it answers that it has no room (`C83_same_until_full`); exact limits of a copy |
| C84 | a very large sampling interval means that no further samples are taken | `C84_never_is_always`, `C84_release_wraps` | intervals up to 292 years are exact |
| C85 | a strategy whose account stays solvent never panics | `C85_liquidated_exit_panics` | exact for strategies that are not liquidated while an order rests (`C85_exact`) |
| C86 | `d_ratio` divides the ratio of the account by that of the market (documentation) | `C86_not_the_quotient` | it does if the market rose; two less the quotient if it fell |
| C96 | every position can be closed | `C96_off_grid_reached`, `C96_off_grid_stays` | positions the quantity filter allows (`C96_wind_down`) |
| C122 | an accepted limit order is paid for, fee included | `C122_fee_can_panic` | the user keeps the fee aside (`C122_own_money`) |
| C124 | `d_ratio` tells whether the account beat the market | `C124_loser` | `Some(NaN)` for an account whose balance never visibly moves; correct in direction whenever it is a number or infinite |

### Findings about the code

1. A market order or liquidation leaves the order margin account as it is although the
   requirement depends on the position; a later cancel panics (C24, C66).
2. Cancelling an order can panic by rounding alone when orders share a price (C27).
3. Fills happen in arena order, not price order, which can break the margin check (C24).
4. Position margin is not exactly zero for a flat account; a later flip panics (C11).
5. A margin that truncates to zero panics in `Transaction::new` (C58).
6. The wallet can become negative through closing at a loss (C23), after which even quiet
   updates panic (C54).
7. Maker rebates outstanding when a position closes are never paid (C04).
8. Liquidation goes through the quantity filter and panics when it refuses (C30).
9. `max_num_open_orders` above 10000 makes the two order books diverge (C14).
10. Amending is not atomic (C20).
11. The average price of an order drifts down with each partial fill (C41).
12. After a data gap every update is sampled until the schedule is caught up (C53).
13. Inverse contracts use an arithmetic mean as entry price, so cost basis is lost (C09), shorts
    are credited more than they earned (C68), and margin can be stuck (C11).
14. A zero tick or step size with a minimum set panics (C46).
15. `submit_market_order` before any quote panics (C67, C75).
16. `num_trading_days` panics if time runs backwards; time 0 is not recognised as a start (C63).
17. The csv loader keeps the sign of sells in the quantity (C55, C61).
18. `Leverage::default()` is zero, and the margin rate of it panics (C47).
19. The check of a smart candle is satisfied by one good trade; the exchange's own price filter
    is not consulted (C62).
20. A limit order that is filled while the quotes are crossed against it, or after a market order
    took the margin, can make the wallet negative, which panics (C67).
21. Two resting orders hit by one trade can trip a debug assertion in inverse contracts (C67).
22. With coarse precision the rounding of the entry price yields profit at standing quotes (C69).
23. Each of several resting orders is filled with the full quantity of one trade (C37).
24. `sortino` is the deviation of the losses around their own mean, so a single loss or equal losses
    yield no ratio (C77).
25. The liquidation price is `entry * (1 ∓ m)` for both contract kinds, but the loss of an inverse long
    grows like `1/price`. With a maintenance fraction above `L/(L+1)` at leverage `L`, an inverse
    long is liquidated only after it has lost more than its margin (C78).
26. Every account keeps the running totals of its debits and credits, which only grow. Placing and
    cancelling one order often enough overflows integers of any width, although the balances are the
    same after every round (C79).
27. `decimal_from_f64` returns a `Result`, but with `i64` or `i128` it never fails: a number that is
    too large becomes the largest amount that fits an `i64`, and NaN becomes zero (C80).
28. `Exchange` derives `Clone`, and its limits on the number of orders are read off the capacities of
    vectors. The vectors of a copy have no spare capacity: a copy made while no order is open refuses
    every limit order, and in a debug build panics on its next trade (C83).
29. `sample_returns_every_n_seconds` is a `u64`, cast to `i64`. The largest value, a natural way to say
    "never", becomes minus one second, and the balances are sampled at every update (C84).
30. `d_ratio` is not the quotient its documentation describes when the market fell, and it divides by
    zero when the market is back where it started (C86).
31. `drawdown_user_balances` is the drawdown of realised balances: an open position that loses half its
    value leaves it at zero until it is reduced (C89).
32. A partial fill by a trade can leave a position that is not a multiple of the quantity step. No order
    can close it, and its liquidation panics (C96, C30).
33. Fees are rounded down order by order. Orders that are small enough are free (C97).
34. `check_active_orders` is public, fills orders, and returns nothing; the order updates it collects can
    not be read (C98).
35. With leverage the turnover of the account statistics overflows long before any amount of the account
    does, and the first price may be so small that the buy-and-hold return overflows at once (C101).
36. A release build has no overflow checks. The sum of margin and fee of a very large order wraps around to a
    negative number, passes the balance check, and the position is opened with a wallet far below zero (C102).
37. An update that liquidates the position matches no orders: an order the market traded through in that very
    update stays in the book unfilled, and nothing later makes up for it (C103).
38. The statistical moments of a constant series need not be those of a constant: three returns of 0.1 have a mean above
    0.1, a standard deviation of 2^-56, skew -1 and excess kurtosis -2 (C104).
39. Market updates may go back in time without an error; orders are then reported as executed before they were received
    (C105).
40. Balances are rounded to `f32` before returns are taken: with 1,000,000,000 in the account, losses below about 30 per
    sample are invisible to sharpe, sortino and kelly (C106).
41. `TransactionAccounting` is public, but the getters of `Transaction` are `pub(crate)`: an implementation outside the crate
    cannot read the transfers it is given, only pass them on. The errors it may answer with become panics (C107).
42. The result of an inverse contract depends on the order in which one's own orders are stored. The same two resting orders,
    filled by the same candle, leave 1025.16 or 1024.01 after the position is closed (C108_inverse_priority). It comes from
    the arithmetic mean of entry prices (finding on C68).
43. In inverse contracts the profits of strategies do not add up: two strategies that gain 1.54 on accounts
    of their own lose 0.09 on a common account with the same fills (`C111_inverse`). The cause is that of
    finding 42: the average entry price is weighted by contracts.
44. Printing the account tracker before the first market update panics in linear contracts (division by
    zero), and so it does whenever market time has gone back behind the first time (`C114_printing`,
    `C114_too_early`).
45. The number and times of the samples of the tracker depend on how finely the market data is sliced, not
    only on the market and the account: the sampling clock advances by one interval per sample at most,
    and so lags behind on coarse data and samples every update until it has caught up. The same account on
    thinned data may report another `rpnl` (`C115_samples_differ`).
46. Fees are rounded down per fill, so fills worth less than one unit divided by the rate pay nothing, and
    splitting an order into such fills avoids fees altogether (`C116_small_fills_are_free`).
47. `kelly_leverage` asserts that the variance is at least zero. Once an account with a balance of exactly zero has
    been sampled the variance is NaN, and `kelly_leverage`, and with it `Display`, panics from then on (`C119_ruin`).
    The mean return in single precision can have the wrong sign (`C119_wrong_sign`).

48. **A losing account can have no drawdown** (C121). Balances are rounded to `f32` before they are handed to the drawdown (full_track.rs:303-304). An account of a thousand million that loses in every sampling interval shows a drawdown of exactly zero, as its losses are below half a unit of the rounded balance. Falls of more than 2^-21 of the peak are always seen, with that accuracy.

49. **The check of a limit order forgets the fee** (C122). `check_limit_order` compares the margin of all orders with the wallet, but not the fee of the fill (isolated_margin.rs, `check_limit_order`), while `check_market_order` counts it. An order for the whole balance is accepted and filled, the fee is owed with nothing to pay it from, and after a collapse of the price the liquidation leaves a negative wallet and the next trade panics, although the trader used no leverage.

50. **No verdict on an account that stands still** (C124). The quantile of returns that are all zero is zero, and `d_ratio` divides zero by zero: it answers `Some(NaN)`, not `None`, for an account that did not trade between the samples, and for one whose losses `f32` cannot see (full_track.rs:266-269).

51. **Cutting an order makes it fill faster** (C126). The volume of a trade is not shared among the resting orders (C37), so n equal parts of a limit order are filled by an n-th of the volume the whole needs. A backtest that cuts its orders overstates what it could have traded (trade_update.rs, exchange.rs:582-658).

52. **Wash trades make money for shorts of inverse contracts** (C129). The average entry price is weighted by contracts, which is right for linear contracts; for inverse contracts it should be the harmonic mean. A short that sells more and buys it back at once, at standing quotes, replaces its entry price by one nearer to the market and keeps the difference: a short of 1000 from 200 gains 1.55 coins at quotes 100 / 101, after the spread and all fees. A long loses in the same way (quote_currency.rs:60-70, position_inner.rs:138).
53. **A second amendment forgets what was filled before the first** (C131). The quantity of an amendment is a total, from which what has been filled is deducted, "leaving the Member in total control of the share exposure of the order" (comment in `amend_limit_order`). But the order that replaces it starts with nothing filled, so the next amendment deducts nothing: buy 5, of which 3 are filled, move it twice without changing the total quantity, and 5 more are bought, 8 in all (exchange.rs:382-420).
54. **Three accounts in an inverse contract can gain together** (C135). Two accounts buy the same amount at different prices and a third sells both to them and buys both back. The average entry price of the third account is weighted by contracts, which values its position differently from those of the other two. `C135_three_accounts` exhibits a joint gain of 0.19 after every trade has lost the spread, more than all fees; every position is closed.
55. **The repository's example crashes** (C136). `examples/basic.rs` buys and sells a tenth of its wallet at random. After two buys at the same price the margin locked is one unit below that of the whole position at its entry price, and the sale that reverses the position then fails an assertion of the exchange (`assert!` in position.rs, release builds too). `C136_crashes` runs it on a market that never moves. It also trades only when a tenth of its wallet happens to be worth a whole number of contracts: while the prices at which it trades are not whole numbers (40000.5) every order is turned down, and the error is only logged.
56. **A better price can give a worse result** (C137). A sell order at 1.6 filled in two parts of 0.1 gets an average entry price of 1.0, because each part is rounded down before the average is taken; the market order at 1.5 it replaced would have had 1.5. Filled at once, better prices never hurt, to the last unit.
57. **Liquidation limits of inverse contracts** (C142). A position is liquidated once the quote is a fixed fraction of the entry price away, for linear and inverse contracts alike. For an inverse contract the loss at that price is not that fraction of the margin: with a maintenance margin of one half, a long at 100 is liquidated below 50, where it has lost all of its value at entry, while the same position held through the linear contract on the reciprocal price is liquidated below 66.7, where it has lost half.
58. **An order that is never filled can change the profit** (C146). Cancelling or filling an order puts the last active order in its place. Orders filled by the same update are filled in the sequence of the active orders, and when an update both enlarges and reduces a position, that sequence decides how much profit is realised and what the entry price becomes. With a long position of 1 at 101 and a candle that fills a buy at 90 and a sell at 110, submitting and cancelling a third order far from the market changes both.
59. **Which of several orders with the same user order id is cancelled** (C151). It is the first in the exchange's own sequence. Removing any order puts the last one in its place, so after the cancellation of an unrelated order the newest order with the id can be hit instead of the oldest.
60. **Candles pay for bids and offers** (C152). A candle fills every buy above its low and every sell below its high, in the same update and at the limit prices, while the quotes after it can be anywhere in the range. A user who bids and offers within the range of each candle gains for certain on a market whose quotes never move. On quotes and trades no strategy gains in the mean if the market is fair. What candles add is at most their range times the quantity traded (C154).
61. **Shorts of inverse contracts gain in the mean on fair markets** (C156). Enlarging a short at another price credits coins nobody paid (C129), so a user who sells, and sells again after the price has fallen, has a positive mean gain after spread and fees on a market where one over the price is fair. Longs lose the same way.

## Proof methods

Shapes: (L) algebraic law on pure functions, (I) invariant by induction over histories,
(R) refinement to a small specification, (D) decision rule by case analysis, (N) the obvious
form is false: negation proved on a concrete witness (table above).

| id | what is modelled and how it is proved |
|---|---|
| C01 | I: balance sum per transfer, lifted through every function |
| C02 | R: abstract ledger replaying recorded fills; equity equals the ledger's |
| C03 | I/D: per operation, on the recorded tracker calls |
| C04 | R, N: ledger of fees, with a term for dropped rebates |
| C05 | I: monotone per transfer |
| C06 | R: signed sum of recorded trades |
| C07 | R/D: the position is the fold of the fills; case analysis of `change_position` |
| C08, C09 | L, I; N for inverse |
| C10 | D: exact balance changes of `decrease_contracts` |
| C11 | R, N: position margin as a fold over the fills, rounding bound by induction |
| C12 | I: ids strictly increase |
| C13 | I: book invariant, including a per-order conservation law |
| C14 | I, N: simulation between the two arenas through the matching loop |
| C15 | I |
| C16..C21 | D on `step` for every reachable state, N |
| C22, C28, C59, C60 | D: iff; complete decision rules for both kinds of order |
| C23 | I/D, N |
| C24, C27 | I, L by induction over order lists, N |
| C25, C26, C57 | L by induction over order lists; margin requirement specified by matching off sorted orders |
| C29, C30, C31 | D, N |
| C32..C39 | D and induction over the matching loop |
| C40, C41 | induction over fills, N |
| C42 | I on the recorded calls |
| C43 | R: fold over the updates |
| C44..C47 | D, N |
| C48, C49 | L: relational, mirror simulation |
| C50..C53 | I on the recorded calls, N; sampling by a max-plus formula |
| C54, C58, C66 | panic-freedom: existence of an `ok` result; C58 with the converse by inversion |
| C55, C61 | D, N |
| C56 | relational induction over debug/release runs |
| C62 | D, N |
| C63 | R: fold over the updates, N |
| C64 | D: the list of tracker calls per API call |
| C65 | R: simulation of every call by `Reference.lean`, and of whole histories |
| C67 | I: error postconditions through every function; a witness for every entry |
| C68, C69 | I: telescoping bound over the fills, N |
| C70, C71 | algebra of the reference exchange, transported by C65 |
| C72 | from C50 and C51 |
| C73 | L over the reals (Mathlib); Pearson's inequality |
| C74 | L: the step function commutes with the renaming, function by function; histories by induction |
| C75 | I: the state stays that of a new exchange until the first update |
| C76 | I, N: non-negative order margin on the reference exchange; leverage from C02 and C11 |
| C77 | R, L: Welford's recurrence equals two-pass statistics; log returns telescope |
| C78 | L, N: integer bounds on the loss at the liquidation price, combined with C29, C11 and C47 |
| C79 | R: the bounded program agrees with the unbounded one up to overflow, function by function; I: bounds on all running totals by traded and asked-for contracts; N |
| C80 | D: properties of rounding to the nearest double, error analysis of two roundings; N |
| C81 | A: laws of truncated division; D: combined with C44, C45 and C46 |
| C82 | I: invariant of histories without resting orders (position margin = margin of the position, which satisfies the quantity filter), C58_exact for each order; D |
| C83 | R: simulation between the exchange with capacities and the exchange; I: bounds on the arena and on the capacity of `ids_to_remove` |
| C84 | R: the clock on 64 bit integers against the clock on integers, by induction over the update times |
| C85 | I: invariant of histories (`Duo`: exact margins, at most two orders) with an inner induction over the matching loop; D: the panic condition as an equivalence |
| C86 | R: the folded samples against the list of samples; A: real arithmetic |
| C87 | D: the matching loop for arbitrary answers of a user's update type |
| C88 | R, D: every `assert`, `expect` and division of each call shown equivalent to a condition of `Returns.lean`, by induction on the orders for the matching loop and on the history |
| C89 | I: the values handed to the drawdowns; every sampled sum is start plus profit less fees of some initial part of the fills |
| C90 | D, R: comparison of the fill rules of the two updates order by order; the trades by induction (C42) |
| C91 | D: error analysis of binary32 rounding (nearest, monotone, relative error), on the counters of C50 and volumes of C51 |
| C92 | I: induction on the list with the decision of C59 and the requirement of C24; the requirement is invariant under permutations (C26) and depends on the terms of the orders only |
| C93 | R: simulation between two reference exchanges, transferred to the code by C65 and C88 |
| C94 | D: bounds of rounded quotients |
| C95 | I: the wallet covers the fees owed, over the reference exchange (C65) and the strategy of C82; W for the conditions |
| C96 | I: induction on the cancellations (C19, C27), then C58 and C10 for the market order; divisibility of the position as invariant for the exception |
| C97 | R: two fills against one on the ledger of the reference (C65), bounds of rounded quotients; C88 for the conditions; W |
| C98 | I: the notes of the client agree with orders and record, call by call, with C18–C21, C30, C38, C39 and C42 for the calls; W |
| C99 | R: on the reference exchange, calls commute with renaming of ids and rejected ones change only the next id; carried over to the code by C65 and C88; W |
| C100 | I: traded + open quantity per side against granted quantity, one call at a time, then induction over histories; W |
| C101 | R: agreement of the bounded and the unbounded tracker event by event; I: every event of a history within the limits is harmless, the traded quantity is bounded by C100; W |
| C102 | R: a program with open arithmetic, instantiated with checked, partly checked and wrapping operators; the wrapped totals are the images of the exact ones under reduction modulo the range, and balances are differences, so they survive it; I: a bound on balances, position and orders in terms of contracts traded and waiting, independent of the number of calls; W |
| C103 | I: over the history, the order is in the book with what is left of it, or was completed and its id does not return; W |
| C104 | L: error analysis by induction over the sum, with one rounding per step; relative errors multiply where nothing underflows; sign symmetry of every operation; W |
| C105 | I: over the history, every order in the book was accepted at its time of receipt; W |
| C106 | I over the record; L: the quotient of different singles is not rounded to one; W |
| C107 | R: lockstep of two accountings through every function; the recording accounting for the transfers |
| C108 | R: fills as a function of the book up to permutation; C06, C04 and C68 with a bound on the rounding that permutations preserve |
| C109 | L: C06, C04 and C68 at two precisions, floors of scaled numbers |
| C110 | D, L |
| C111 | L: C06, C04 and C68 summed over accounts, N |
| C112 | L: C06, C04 and C68 in two units |
| C113 | L: two steps of the ledger of C02, independent formula for their result |
| C114 | L: the tracker's marks are the first non-zero and last entries of what was observed (induction over the record); case distinction |
| C115 | L: simulation between two exchanges that agree in all but the market data shown to the tracker, the sampling clock and the number of updates; an update without fills changes nothing else |
| C116 | L: sum of the bounds of each fee, with C04, C50 and C51 |
| C117 | L: bounds of a truncated quotient for operands that are not negative; all claims are invariant under changes of sign |
| C118 | R: on the reference exchange (C65, C88) the shift of ids, fees and profits commutes with every call; the wallet is the same because the starting balance makes up for the difference |
| C119 | I, L, N: the rounded mean stays between the bounds of the values because the difference of two singles is a multiple of the finer spacing; the squares are products of factors with the same sign |
| C120 | D, I: both sides reduce to the same calls because filled quantities of active orders are not negative (C13); induction over the history |
| C121 | I, A: rounding is monotone, so the peak of the rounded values is the rounded peak; error analysis of one subtraction and one division; witness for the blind spot |
| C122 | I: the wallet covers the fees owed, over the strategies of C85 and the ledger (C03); the fills of an update are none, the entry or the exit; W for the fee |
| C123 | I: as C122, with opening and closing fills treated separately over the ledger; A for the prices, where the rounding of margin and fee cannot reach a unit |
| C124 | R: the folded samples against the list of samples; A: rounding is monotone, so no operation turns a sign; error analysis of five roundings; witness for the missing verdict |
| C125 | I: a position is within its maintenance margin at the present quotes, was opened with a cushion, and no order at rest would close it beyond its liquidation price, across calls with the reference exchange of C65; A: rounding of price, value, margin and fee in the four cases linear/inverse, long/short; then C123 |
| C126 | D: from C103 (how long an order waits), C92 (when a list of orders is accepted) and C97; A: sums of rounded values |
| C127 | D: the volume through a price is monotone in the price (C103); the margin of a list of orders is monotone in each quantity, term by term in the formula of C25; then the decision rules C59, C60, C66 |
| C128 | D: summation by parts over the calls; each fill changes profit minus cost by at most its rounding (the step of the induction of C68); market orders and liquidations fill at the touch (C21, C30) |
| C129 | D: induction over the fills; a fill in the direction of the position raises its value at the entry price by no more than the value of the fill, because the arithmetic mean is at least the harmonic mean |
| C130 | D: induction over the fills; enlarging moves the sum of C68 in one direction only, because the weighted price is rounded down, and reducing by less than one unit |
| C131 | R: induction over the chain on the reference exchange; cancelling the newest order restores the state it was accepted in, up to the next id |
| C132 | D: corollary of C24, C03 and C01 by induction over the calls; monotonicity of the requirement under removal (C27), the batch rule (C92) and C96 |
| C133 | R: simulation relation between the real book with and without the user's order (the same orders are ahead of it), by induction over the actions; combined with C103. For the complete book: order by order, the side of the user's order is no smaller and the other side no larger than without it, and what has traded beyond the price, plus what is left of the orders that would have met the user's, plus these two differences, is covered by what the user's order has been filled |
| C134 | D: C21, and the real book is sorted by price (induction over the actions) |
| C135 | I: over the two lists of fills, the entry price of the long side is at least that of the short side, because the weighted price is monotone; truncation of a profit and of the opposite loss cannot both favour the accounts; D from C68 for groups; W for inverse contracts |
| C136 | D: the program is a loop over calls, so C29, C58, C60, C17 and C21 give each turn; A for the size of the order; I over the prices; C114 for the summary; W for the crashes |
| C137 | the better account, mirrored, is on the opposite side of the other: the invariant of C135 applies; I over the fills and over pairs of histories; A for the fees; W |
| C138 | R to the reference exchange (C65), then a simulation relation that leaves out margins and fees, call by call; I over the calls for the balance that is large enough; W |
| C139 | I over the updates: what remains of each order, and a conserved sum of fills and open orders for every weight on sides and prices; I over the ways to rewrite a tape; W |
| C140 | I over the calls, with C138 for every prefix and C64 for the record; I over the record for each statistic |
| C141 | the reference exchange of C65 and its panics of C88 commute with striking out the times, function by function; I over the calls; C64 for the record |
| C142 | a relation between two reference exchanges of C65, kept by each call: exact reciprocals give the same values, profits and fees before and after rounding; I over the pair of histories; C64 and C06 for the fills |
| C143 | the settlement of C10 and the entry prices of C07 applied to the closing fill; splitting a value loses at most one unit |
| C144 | the grammar of what is heard of one id, as a recursive predicate; what each call does to an open order and to an id without one; I over the history |
| C145 | what a call can do to the fills and the active orders, as four cases; divisibility and the price rule are kept by each; I over the history |
| C146 | one order is replayed against the market data alone; each call is shown to do to the order, and to say of it, what the replay says; I over the history |
| C147 | the fills due under each id before a call are those the call tells of and those due afterwards; I over the history; sums over permuted fills |
| C148 | the one fill of the account is found from the answers; ledger of one fill; monotonicity of the profit in both prices |
| C149 | simulation: equal market data and fills, active orders equal up to ids and sequence plus the further ones; an update that fills at most one order fills the same one |
| C150 | induction over the calls with the worst (best) case of the orders left as potential; the rounding of the ledger since a given fill |
| C151 | the first order with a user order id is the only one with its order id, so both removals hit the same index of the orders and of their copy; induction over the history |
| C152 | each call leaves position times price less cost no larger (C128), so it is a supermartingale: induction over the tree of the market; rounding as in C128 |
| C153 | gain as sum over the fills plus drift (C128), compared fill by fill; simulation with enclosing quotes for the histories |
| C154 | as C152, with the generosity times the quantity traded taken off the potential |
| C155 | induction over the number of calls |
| C156 | one over the fill price against one over the fair price, per fill; induction over the market tree; C129 for the account; witness for shorts |
| C157 | C152 and Markov's inequality over the endings |
