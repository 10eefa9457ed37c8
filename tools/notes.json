{
 "C04": "C04_fee_schedule: equality for non-negative rates. C04_all_rates: for every pair of rates, exact accounting of the rebates that are dropped. C04_rebate_lost: the equality is false with a rebate.",
 "C14": "C14_margined_orders for max_num_open_orders <= 10000, the hard-coded capacity of the arena; C14_desync proves the divergence for a larger limit.",
 "C20": "C20_amend_not_atomic is the witness for the last sentence of the statement.",
 "C37": "C37_trade_volume per order, C37_total_volume the exact total, C37_volume_exceeded the witness that a trade of 2 fills 4.",
 "C41": "C41_average_price, C41_drift_bound; C41_average_drifts shows that the drift occurs.",
 "C24": "C24_order_margin_in_line, C24_debug_histories, C24_taker, C24_fills_release; witnesses C24_market_order_breaks, C24_submit_moves_wrong_way, C24_fill_order_breaks.",
 "C27": "C27_cancel_never_raises, C27_cancel_succeeds, C27_rounding_bound, C27_cancel_outcome; witness C27_cancel_raises.",
 "C09": "C09_linear_cost_basis (both bounds), C09_inverse_cost_basis (upper bound with explicit rounding), C09_inverse_cost_basis_lost (no lower bound).",
 "C53": "C53_exact, C53_at_most, C53_keeps_up; C53_catch_up is the witness of samples closer than an interval.",
 "C11": "C11_position_margin, C11_margin_of_position, C11_flat_dust, C11_debug, C11_round_trips; witnesses C11_dust, C11_debug_panics, C11_flip_panics, C11_inverse_stuck.",
 "C23": "C23_wallet; witnesses C23_negative_sale and C23_negative_liquidation.",
 "C54": "The bound on the wallet is necessary: C54_negative_wallet_panics.",
 "C58": "C58_exact is the equivalence; C58_open and C58_against are its sufficient halves with the conditions spelled out; C58_tiny_panics a concrete panic.",
 "C55": "C55_load, C55_loads_iff, C55_sell_negative, C55_sell_panics.",
 "C61": "C61_taker_size, C61_loaded_sign_lost.",
 "C62": "The last sentence of the statement is witnessed by C62_release_accepts_crossed and C62_smart_unchecked.",
 "C63": "Hypothesis: first update not at time 0 / mid price 0; the exceptions are witnessed by C63_zero_sentinel, C63_backwards_panics and C63_before_first_update.",
 "C64": "Spec.calls lists the calls for every kind of API call and response.",
 "C65": "Verif/Reference.lean is the reference exchange; Ref.view reads its state off a model state. Panics are outside the reference: the theorems are about calls that return.",
 "C66": "The last sentence is witnessed by C66_market_order_then_cancel_panics. C24 tells when the account is in line.",
 "C67": "Spec.possiblePanics gives the lists; C67_market_witnesses, C67_order_witnesses, C67_update_witnesses, C67_custom_witnesses and C67_smart_witnesses show that no entry can be dropped. Integer overflow is not modelled.",
 "C68": "C68_cash_flow, C68_flat, C68_marked; C68_inverse_mismatch shows that inverse contracts are excluded for a reason.",
 "C69": "C69_no_free_profit; witness C69_rounding_pump.",
 "C70": "C70_submit_cancel",
 "C71": "C71_no_hit, C71_repeat",
 "C72": "C72_buy_volume_ratio for the value before conversion to f32; C72_order_ratios with exact division of the counters in place of f32 division.",
 "C73": "C73_range, C73_deviation, C73_shift, C73_scale, C73_mirror, C73_order, C73_kurtosis, C73_two_values. The model uses real numbers in place of f64; rounding and NaN are outside the model.",
 "C74": "C74_call: on every state and call, the step function commutes with the relabelling (equality including panics). C74_history and C74_history_state lift it to responses and final state of histories on a new exchange. C74_needs_distinct_ids is the witness that ids must stay distinct.",
 "C75": "C75_nothing_before_first_update by an invariant over histories; C75_market_order_panics shows the panic for every valid quantity; C75_filters shows that the hypothesis on the filter holds for every constructed filter.",
 "C76": "C76_order_margin_nonneg by an invariant on the reference exchange, transferred with C65. C76_margin_in_use from the ledger law C02, C76_leverage from it and C11. C76_needs_wallet is the witness for the condition on the wallet.",
 "C77": "C77_sharpe, C77_sortino, C77_kelly: Welford recurrence equals two-pass mean and variance, by induction. C77_single_loss: one loss gives no sortino. C77_scale: proportional balances. C77_sign: the returns telescope to ln(last / first), the first sample is the starting balance. f32 rounding is not modelled; the two views of the external crate sliding_features are modelled by their documented recurrences.",
 "C16": "C16_never_crosses: accepted orders do not cross, the error is given only to crossing orders, and no submission trades. C16_rejected_iff_crosses: exact condition for the error, in terms of the specification of filters and margin requirement.",
 "C59": "C59_limit_order_decision: exact acceptance rule. C59_limit_order_errors: exact rule for each kind of error.",
 "C78": "C78_linear_covered from C29 (an Ok means no breach), C11 (margin of the position) and C47 (order of the rates). C78_inverse_short_covered and C78_inverse_long_covered for a position opened by one fill, because averaging entry prices loses the cost basis of inverse contracts (C09). C78_inverse_long_exposed is the witness that the proviso is needed.",
 "C79": "The program is modelled a second time on integers from -w to w (Model/Machine), with every arithmetic result checked. C79_exact_unless_overflow and C79_history_exact_unless_overflow relate it to the unbounded model, C79_no_overflow and C79_same_responses show that the limits Fits exclude overflow, and C79_every_width_overflows shows that the limit on submissions cannot be dropped. C79_stored_amounts_fit: every amount the bounded exchange stores fits, so no check is missing where amounts are stored. Debug builds panic on overflow; release builds would wrap, which is not modelled.",
 "C80": "Model/Float models binary64 rounding on rationals. C80_exact, C80_accuracy, C80_monotone, C80_symmetric, C80_errors. C80_saturates and C80_nan show where the obvious claim (unrepresentable values are reported) is false; C80_bound_needed that exactness ends below 2^52.",
 "C81": "C81_new, C81_quantize, C81_idempotent, C81_monotone, C81_quantity_accepted, C81_price_accepted, C81_order_on_grid. C81_constructor_needed shows that filters must come from their constructor. new with more places than D depends on an external crate and is not modelled.",
 "C82": "oneAtATime and followed in Spec describe the strategy. C82_exact, C82_quotes_never_panic, C82_solvent_never_panics, C82_margin. Outside the class panics occur: C58_exact, C11_debug_panics, C67 witnesses.",
 "C83": "Model/Clone carries the capacities of the vectors. C83_original ties it to the model of the other claims, C83_same_until_full, C83_never_more, C83_accepts_nothing, C83_debug_panics(_any). C83_not_equivalent refutes the obvious claim that a copy behaves like the original. Trusted about Vec: the capacity of a clone is its length, a push to a full vector doubles the capacity to at least four.",
 "C84": "C84_exact (against the samples of the exchange model, C53), C84_new_panics (equivalence). C84_never_is_always and C84_release_wraps show where the obvious claim fails.",
 "C85": "C85_exact is an equivalence that also names the panic. C85_entry_never_panics, C85_margins, C85_shape, C85_quotes_never_panic. C85_liquidated_exit_panics shows why liquidations while the exit rests are excluded; partial fills are excluded because the averaged entry price drifts (C41).",
 "C86": "C86_formula, C86_outperforms, C86_quotient, C86_undefined, C86_market_has_one, C86_profit. C86_not_the_quotient refutes the first sentence of the documentation (\"divides ... by ...\") on a reachable state. Exact real arithmetic; the crate quantogram is an arbitrary function.",
 "C87": "C87_obeyed, C87_accounted, C87_bad_fill, C87_cannot_fill, C87_validation. Custom updates are part of the model's update type, so the other claims cover them too.",
 "C88": "C88_returns, C88_panics, C88_history and C88_no_hidden_panics. The condition is Verif/Returns.lean (Ref.Exchange.returns). Unbounded integers as in the base model: overflow panics are C79.",
 "C89": "C89_values, C89_user, C89_unrealised, C89_market. The external crate is an arbitrary function subject to IsDrawdown; both usual readings satisfy it (examples).",
 "C90": "C90_candle_covers_trades, C90_candle_covers_smart_candle, C90_wider_candle, C90_larger_trade, C90_same_orders; the overfill is witnessed by C90_untouched_order_filled.",
 "C91": "C91_order_ratios, C91_buy_volume_ratio; negative results C91_shares_exceed_one, C91_one_without_all. The external conversion Decimal to f64 is any function satisfying ConvertsUnit; convertsUnit_nearest shows that the correctly rounded one does.",
 "C92": "C92_returns, C92_batch_rule, C92_effect, C92_any_order; negative result C92_equal_prices_matter.",
 "C93": "C93_better_terms, by simulation between two reference exchanges (C65, C88); negative result C93_more_money_can_panic.",
 "C94": "C94_convert, C94_convert_negative, C94_there_and_back, C94_parts, C94_price_paid, C94_signs.",
 "C95": "C95_own_money; C95_leverage_can_panic and C95_short_can_panic show that the conditions are needed.",
 "C96": "C96_cancel_any_order, C96_wind_down; C96_off_grid_stays and C96_off_grid_reached are the exception.",
 "C97": "C97_two_parts, C97_parts_accepted, C97_fees_of_parts, C97_small_orders_are_free.",
 "C98": "C98_answers_tell_all (fills, orders, market), C98_account (position, fees, margin, equity), C98_silent_fills (the exception).",
 "C99": "C99_no_trace (whole histories, answers and account), C99_failed_amendments_count (the exception is needed).",
 "C100": "C100_own_orders_only (per side, no liquidation), C100_with_liquidations, C100_volume (in terms of the calls alone), C100_liquidation_trades (the exception is needed).",
 "C101": "C101_exact_unless_overflow, C101_no_overflow (uses C100_volume), C101_statistics_overflow_first and C101_buy_and_hold_overflows (witnesses).",
 "C102": "Model/Release is the exchange with the arithmetic left open. C102_debug_build, C102_same_unless_overflow, C102_release_history, C102_release_asked, C102_release_responses, C102_endless_rounds (all n), C102_silent_overflow (witness for the limits).",
 "C103": "Volumes are those of SpecWait. C103_waiting, C103_still_there, C103_gone, C103_untouched, C103_from_submission, C103_same_fate; C103_liquidation_skips is the witness for the exception.",
 "C104": "binary64 model of Model/MomentsF64. C104_mean, C104_deviation, C104_mean_nearest, C104_kurtosis, C104_kurtosis_bound, C104_skew, C104_constant, C104_never_negative, C104_mirror, C104_nan; C104_equal_values_differ, C104_order_matters and C104_overflow are witnesses of what does not hold. powi is taken to square repeatedly, powf(1.5) is an arbitrary function, zeros carry no sign.",
 "C105": "Specification in SpecTime. C105_stamps, C105_causal; C105_time_travel is the witness that the order of updates is not checked.",
 "C106": "Specification in SpecSample. C106_returns, C106_losses; C106_blind is the witness for unseen losses. LnReturn and the conversion of decimals are external: the former is a function with the sign of the logarithm applied to the f32 quotient, the latter any function within the stated bounds.",
 "C107": "Specification in SpecBookkeeping. C107_in_memory, C107_same_answers, C107_same_reports, C107_only_transfers, C107_refused, C107_unreadable, C107_unreadable_getters.",
 "C108": "C108_same_fills, C108_quantity_and_fees, C108_profit, C108_flat; C108_rounding shows that the allowance is needed, C108_inverse_priority that the last part fails for inverse contracts.",
 "C109": "C109_quantity, C109_fees (both kinds of contract), C109_profit, C109_flat (linear contracts); C109_rounding shows that the allowance is needed. The theorems compare histories with the same fills: a check of margin that is decided by the last decimal may of course be decided differently.",
 "C110": "C110_market_updates, C110_quantities, C110_prices. A smart candle passes every check of its own (C62). The strings in the error are the printed amounts; the model keeps the amounts.",
 "C111": "C111_quantity_and_fees, C111_profit; C111_inverse is the counterexample for inverse contracts.",
 "C112": "C112_quantity_and_fees (both kinds of contract), C112_profit and C112_flat (linear contracts); C112_rounding shows that the allowance is needed.",
 "C113": "C113_sum_of_trades, C113_one_trade, C113_spread, C113_spread_never_gains.",
 "C114": "C114_printing (exact condition), C114_contents, C114_usual, C114_too_early. The rendering of numbers as text and the floating point entries sharpe, sortino and kelly_leverage (C77, C119) are not part of the model of the summary; C119 shows when the assertion in kelly_leverage fails.",
 "C115": "C115_thin (no hypothesis but that the history returns), C115_statistics, and C115_samples_differ (a counterexample for rpnl).",
 "C116": "C116_fees_of_turnover relates the account to the figures of the tracker; C116_small_fills_are_free shows that the allowance per fill is needed.",
 "C117": "C117_product, C117_quotient (against the specification of a result rounded toward zero, shown unique), C117_exact_laws, C117_distributes, C117_order, C117_associates, C117_product_undone, C117_quotient_undone, C117_remainder, C117_abs_sub; C117_not_exact gives the exceptions. The arithmetic of const_decimal is external and trusted as described in DESIGN.md.",
 "C118": "C118_only_the_present: the whole account, call by call, with fees and treasury; C118_starts_afresh: a flat account against a new exchange. Examples: a losing round trip and Ex.ops3 afterwards; a trade alone brings no quotes. Statistics of the account tracker other than fees and profit are not compared (they do depend on the past).",
 "C119": "C119_numbers, C119_sign, C119_steady, C119_mean (no fluctuation is made up), C119_spoilt and C119_ruin (a reachable history that makes kelly_leverage panic), C119_wrong_sign (rounding turns the sign of the mean). WelfordRolling comes from the crate sliding_features, which is not in the repository; it is modelled by Welford's recurrence in binary32 arithmetic.",
 "C120": "C120_amend and C120_amend_filled: equality of the whole results, panics included; C120_never_needed: amendments can be removed from any history. There is no priority to be lost (C108).",
 "C121": "C121_user, C121_market, C121_unrealised; C121_blind: what does not hold. Ex.present32_ok and Ex.deepest32_ok: both readings of the external drawdown meet the assumption.",
 "C122": "C122_own_money; C122_fee_can_panic: without the fee in the wallet it is false. The strategies are those of C85 (bracketed).",
 "C123": "C123_within_margin, C123_safe_prices. Strategies of C85; reversals by one market order are excluded (a market order closes exactly the position). Beyond the margin it is false: C95_leverage_can_panic.",
 "C124": "C124_returns, C124_exists, C124_direction, C124_accuracy, C124_noticed, C124_equal; C124_idle and C124_loser: what does not hold. The crate quantogram is external: its mean and quantile are arbitrary functions of the values it was given.",
 "C125": "C125_no_gaps; C125_jump_panics: the bound on the moves is needed.",
 "C126": "C126_parts_fill_faster, C126_parts_accepted, C126_fees_of_parts; C126_twice_as_fast: the gain is real.",
 "C127": "C127_better_prices_first, C127_smaller_limit_orders, C127_smaller_market_orders.",
 "C128": "C128_attribution, C128_takers_gain_only_from_moves. Inverse contracts are excluded because of C68_inverse_mismatch.",
 "C129": "C129_longs_are_credited_no_more, C129_shorts_are_credited_no_less, C129_no_free_profit_for_longs; C129_shorts_gain_by_wash_trades is the counterexample to \"standing quotes yield no profit\" for inverse contracts.",
 "C130": "C130_longs_lose_nothing_by_averaging, C130_shorts_gain_nothing_by_averaging, C130_no_free_profit_for_shorts. Sharpens the two-sided allowance of C68 and C69 on one side.",
 "C131": "C131_fills_are_forgotten, C131_only_the_last_counts; C131_trades_too_much is the witness that the documented control of the exposure is lost by the second amendment.",
 "C132": "C132_only_the_orders_left, C132_there_and_back, C132_cancel_first; C132_cancelling_pays_for_orders is the witness against the converse. Different prices are needed: C27_cancel_raises, C92_equal_prices_matter.",
 "C133": "C133_not_optimistic and C133_exact for one side of the book, C133_complete_book for both sides with leftovers that come to rest; C133_candles_are_optimistic is the witness for candles. The real books are specifications of their own (SpecQueue.lean, SpecMarket.lean): incoming orders are executed against the resting side in price-time priority; the other traders do not react to the user.",
 "C134": "C134_no_slippage, with the same real book as C133 (SpecQueue.lean).",
 "C135": "C135_never_gain_together, C135_zero_sum, C135_opposite_strategies (in terms of calls), C135_group; C135_three_accounts shows that the restriction of the last to linear contracts is needed.",
 "C136": "C136_config, C136_turn (complete behaviour), C136_stops, C136_enlarging_works, C136_never_trades, C136_summary; witnesses C136_crashes and C136_runs_dry. Amounts are unbounded; printing is not modelled beyond Model/Report.",
 "C137": "C137_better_fills (exact), C137_liquidated_no_earlier, C137_wider_quotes, C137_patience, C137_patience_fees; witness C137_parts_can_lose.",
 "C138": "C138_terms, C138_rich_enough, C138_profit_of_the_calls; witness C138_poor. Panics are excluded by hypothesis (a panicking call returns nothing); max_num_open_orders at most 10000 as in C65.",
 "C139": "C139_volumes, C139_only_volume, C139_fees, C139_same_tape; witness C139_liquidated_between. Gains and fees in linear contracts only (in inverse contracts the entry price is an arithmetic mean, C68); fees for rates that are not negative.",
 "C140": "C140_tracker_calls, C140_statistics, C140_performance. max_num_open_orders at most 10000 as in C65; panics are excluded by hypothesis.",
 "C141": "C141_answers, C141_panics, C141_tracker_calls; witness C141_samples. max_num_open_orders at most 10000 as in C65. C74 has the shift of all times by the same amount, with the samples.",
 "C142": "C142_other_side; witnesses C142_not_when_adding, C142_not_for_liquidations. max_num_open_orders at most 10000 as in C65. Both histories are taken not to panic. Updates of a user-defined type are left out.",
 "C143": "C143_close, C143_liquidation, C143_part, C143_fresh, C143_defined.",
 "C144": "C144_one_life, C144_any_history, C144_nothing_after_the_end, C144_quantity; witness C144_unheard_end.",
 "C145": "C145_whole_lots, C145_closable, C145_maker_prices, C145_all_prices, C145_debug_prices; witnesses C145_half_a_step, C145_odd_quotes. In debug builds smart candles and updates of a user-defined type are left out.",
 "C146": "C146_alone, C146_same_market; witness C146_bystanders_matter. C103 gives the open quantity in closed form; here it is all that is reported, with averages and times, and the surroundings include other configurations.",
 "C147": "C147_sum_of_lives, C147_same_lives. Together with C146: an order that is never filled can change entry price and realised profit, but not, in a linear contract, what the account is worth.",
 "C148": "C148_buy_and_hold, C148_sell_and_hold; witness C148_out_of_reach. With C143, closing then realises this profit.",
 "C149": "C149_bystanders, C149_any_updates. The complement of C146_bystanders_matter, which shows that the first claim is false with an update that fills two orders.",
 "C150": "C150_left_alone, C150_even_if_liquidated. The example attains the lower bound.",
 "C151": "C151_first, C151_unique, C151_history. C151_which_one shows the choice among repeated ids.",
 "C152": "C152_no_gain_expected, C152_no_arbitrage, C152_fees_are_lost, C152_mean_gain, C152_quotes_and_trades. C152_candles_are_generous is the counterexample for candles.",
 "C153": "C153_slippage, C153_wider_quotes.",
 "C154": "C154_flattery_is_bounded, C154_candle_range, C154_fair (generosity 0 is the condition of C152).",
 "C155": "C155_replay, C155_panics, C155_scripts. The code has no clock, no random numbers and no hash maps; the model has the state of Exchange as its only memory.",
 "C156": "C156_longs_expect_no_gain, C156_longs_have_no_arbitrage, C156_shorts_can_expect_gain. The third is finding 61, a consequence of the averaging in C129.",
 "C157": "C157_chance_to_get_rich, C157_multiplying. Markov's inequality for the mean in C152_fees_are_lost."
}