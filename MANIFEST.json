{
 "claims": [
  {
   "property": "C01",
   "status": "proved",
   "theorems": [
    "Lfest.C01_double_entry"
   ],
   "note": ""
  },
  {
   "property": "C02",
   "status": "proved",
   "theorems": [
    "Lfest.C02_equity"
   ],
   "note": ""
  },
  {
   "property": "C03",
   "status": "proved",
   "theorems": [
    "Lfest.C03_only_fills_change_equity",
    "Lfest.C03_quiet_calls"
   ],
   "note": ""
  },
  {
   "property": "C04",
   "status": "proved",
   "theorems": [
    "Lfest.C04_fee_schedule",
    "Lfest.C04_all_rates",
    "Lfest.C04_rebate_lost"
   ],
   "note": "C04_fee_schedule: equality for non-negative rates. C04_all_rates: for every pair of rates, exact accounting of the rebates that are dropped. C04_rebate_lost: the equality is false with a rebate."
  },
  {
   "property": "C05",
   "status": "proved",
   "theorems": [
    "Lfest.C05_fees_monotone"
   ],
   "note": ""
  },
  {
   "property": "C06",
   "status": "proved",
   "theorems": [
    "Lfest.C06_position_quantity"
   ],
   "note": ""
  },
  {
   "property": "C07",
   "status": "proved",
   "theorems": [
    "Lfest.C07_position_is_ledger",
    "Lfest.C07_entry_price"
   ],
   "note": ""
  },
  {
   "property": "C08",
   "status": "proved",
   "theorems": [
    "Lfest.C08_weighted_price",
    "Lfest.C08_entry_price_bounded"
   ],
   "note": ""
  },
  {
   "property": "C09",
   "status": "proved",
   "theorems": [
    "Lfest.C09_linear_cost_basis",
    "Lfest.C09_inverse_cost_basis",
    "Lfest.C09_inverse_cost_basis_lost"
   ],
   "note": "C09_linear_cost_basis (both bounds), C09_inverse_cost_basis (upper bound with explicit rounding), C09_inverse_cost_basis_lost (no lower bound)."
  },
  {
   "property": "C10",
   "status": "proved",
   "theorems": [
    "Lfest.C10_reduce_settles"
   ],
   "note": ""
  },
  {
   "property": "C11",
   "status": "proved",
   "theorems": [
    "Lfest.C11_position_margin",
    "Lfest.C11_margin_of_position",
    "Lfest.C11_flat_dust",
    "Lfest.C11_inverse_stuck",
    "Lfest.C11_debug",
    "Lfest.C11_round_trips",
    "Lfest.C11_dust",
    "Lfest.C11_debug_panics",
    "Lfest.C11_flip_panics"
   ],
   "note": "C11_position_margin, C11_margin_of_position, C11_flat_dust, C11_debug, C11_round_trips; witnesses C11_dust, C11_debug_panics, C11_flip_panics, C11_inverse_stuck."
  },
  {
   "property": "C12",
   "status": "proved",
   "theorems": [
    "Lfest.C12_ids_increase",
    "Lfest.C12_liquidation_id"
   ],
   "note": ""
  },
  {
   "property": "C13",
   "status": "proved",
   "theorems": [
    "Lfest.C13_active_orders"
   ],
   "note": ""
  },
  {
   "property": "C14",
   "status": "proved",
   "theorems": [
    "Lfest.C14_desync",
    "Lfest.C14_margined_orders"
   ],
   "note": "C14_margined_orders for max_num_open_orders <= 10000, the hard-coded capacity of the arena; C14_desync proves the divergence for a larger limit."
  },
  {
   "property": "C15",
   "status": "proved",
   "theorems": [
    "Lfest.C15_never_exceeded",
    "Lfest.C15_open_order_limit"
   ],
   "note": ""
  },
  {
   "property": "C16",
   "status": "proved",
   "theorems": [
    "Lfest.C16_never_crosses",
    "Lfest.C16_rejected_iff_crosses"
   ],
   "note": "C16_never_crosses: accepted orders do not cross, the error is given only to crossing orders, and no submission trades. C16_rejected_iff_crosses: exact condition for the error, in terms of the specification of filters and margin requirement."
  },
  {
   "property": "C17",
   "status": "proved",
   "theorems": [
    "Lfest.C17_rejected_limit",
    "Lfest.C17_rejected_market"
   ],
   "note": ""
  },
  {
   "property": "C18",
   "status": "proved",
   "theorems": [
    "Lfest.C18_accepted_limit"
   ],
   "note": ""
  },
  {
   "property": "C19",
   "status": "proved",
   "theorems": [
    "Lfest.C19_cancel_removes",
    "Lfest.C19_cancel_errors"
   ],
   "note": ""
  },
  {
   "property": "C20",
   "status": "proved",
   "theorems": [
    "Lfest.C20_amend",
    "Lfest.C20_amend_unknown",
    "Lfest.C20_amend_not_atomic"
   ],
   "note": "C20_amend_not_atomic is the witness for the last sentence of the statement."
  },
  {
   "property": "C21",
   "status": "proved",
   "theorems": [
    "Lfest.C21_market_order"
   ],
   "note": ""
  },
  {
   "property": "C22",
   "status": "proved",
   "theorems": [
    "Lfest.C22_market_margin_rule"
   ],
   "note": ""
  },
  {
   "property": "C23",
   "status": "proved",
   "theorems": [
    "Lfest.C23_wallet",
    "Lfest.C23_negative_sale",
    "Lfest.C23_negative_liquidation"
   ],
   "note": "C23_wallet; witnesses C23_negative_sale and C23_negative_liquidation."
  },
  {
   "property": "C24",
   "status": "proved",
   "theorems": [
    "Lfest.C24_order_margin_in_line",
    "Lfest.C24_taker",
    "Lfest.C24_fills_release",
    "Lfest.C24_debug_histories",
    "Lfest.C24_market_order_breaks",
    "Lfest.C24_submit_moves_wrong_way",
    "Lfest.C24_fill_order_breaks"
   ],
   "note": "C24_order_margin_in_line, C24_debug_histories, C24_taker, C24_fills_release; witnesses C24_market_order_breaks, C24_submit_moves_wrong_way, C24_fill_order_breaks."
  },
  {
   "property": "C25",
   "status": "proved",
   "theorems": [
    "Lfest.C25_order_margin_formula",
    "Lfest.C25_order_margin_with_order",
    "Lfest.C25_after_cancel",
    "Lfest.C25_after_limit"
   ],
   "note": ""
  },
  {
   "property": "C26",
   "status": "proved",
   "theorems": [
    "Lfest.C26_adding_never_lowers",
    "Lfest.C26_submission_reserves"
   ],
   "note": ""
  },
  {
   "property": "C27",
   "status": "proved",
   "theorems": [
    "Lfest.C27_cancel_never_raises",
    "Lfest.C27_cancel_succeeds",
    "Lfest.C27_cancel_raises",
    "Lfest.C27_rounding_bound",
    "Lfest.C27_cancel_outcome"
   ],
   "note": "C27_cancel_never_raises, C27_cancel_succeeds, C27_rounding_bound, C27_cancel_outcome; witness C27_cancel_raises."
  },
  {
   "property": "C28",
   "status": "proved",
   "theorems": [
    "Lfest.C28_limit_margin_rule",
    "Lfest.C28_wallet_after_acceptance"
   ],
   "note": ""
  },
  {
   "property": "C29",
   "status": "proved",
   "theorems": [
    "Lfest.C29_liquidation_iff_breach",
    "Lfest.C29_limits_exact",
    "Lfest.C29_neutral_never"
   ],
   "note": ""
  },
  {
   "property": "C30",
   "status": "proved",
   "theorems": [
    "Lfest.C30_liquidation_flattens",
    "Lfest.C30_needs_allowed_quantity",
    "Lfest.C30_panics_on_quantity_filter"
   ],
   "note": ""
  },
  {
   "property": "C31",
   "status": "proved",
   "theorems": [
    "Lfest.C31_no_liquidation_in_profit",
    "Lfest.C31_limits_on_losing_side"
   ],
   "note": ""
  },
  {
   "property": "C32",
   "status": "proved",
   "theorems": [
    "Lfest.C32_quotes_never_fill"
   ],
   "note": ""
  },
  {
   "property": "C33",
   "status": "proved",
   "theorems": [
    "Lfest.C33_trade_rule",
    "Lfest.C33_inverted_side"
   ],
   "note": ""
  },
  {
   "property": "C34",
   "status": "proved",
   "theorems": [
    "Lfest.C34_candle_rule"
   ],
   "note": ""
  },
  {
   "property": "C35",
   "status": "proved",
   "theorems": [
    "Lfest.C35_smart_candle_rule"
   ],
   "note": ""
  },
  {
   "property": "C36",
   "status": "proved",
   "theorems": [
    "Lfest.C36_smart_candle_replay"
   ],
   "note": ""
  },
  {
   "property": "C37",
   "status": "proved",
   "theorems": [
    "Lfest.C37_trade_volume",
    "Lfest.C37_total_volume",
    "Lfest.C37_volume_exceeded"
   ],
   "note": "C37_trade_volume per order, C37_total_volume the exact total, C37_volume_exceeded the witness that a trade of 2 fills 4."
  },
  {
   "property": "C38",
   "status": "proved",
   "theorems": [
    "Lfest.C38_active_after_update",
    "Lfest.C38_every_order",
    "Lfest.C38_check_active_orders"
   ],
   "note": ""
  },
  {
   "property": "C39",
   "status": "proved",
   "theorems": [
    "Lfest.C39_reports",
    "Lfest.C39_reported_orders"
   ],
   "note": ""
  },
  {
   "property": "C40",
   "status": "proved",
   "theorems": [
    "Lfest.C40_fill_sequence",
    "Lfest.C40_full_reports"
   ],
   "note": ""
  },
  {
   "property": "C41",
   "status": "proved",
   "theorems": [
    "Lfest.C41_average_price",
    "Lfest.C41_drift_bound",
    "Lfest.C41_average_drifts"
   ],
   "note": "C41_average_price, C41_drift_bound; C41_average_drifts shows that the drift occurs."
  },
  {
   "property": "C42",
   "status": "proved",
   "theorems": [
    "Lfest.C42_limit_fills",
    "Lfest.C42_fees"
   ],
   "note": ""
  },
  {
   "property": "C43",
   "status": "proved",
   "theorems": [
    "Lfest.C43_market_state",
    "Lfest.C43_update",
    "Lfest.C43_other_calls",
    "Lfest.C43_mid_between",
    "Lfest.C43_never_crossed"
   ],
   "note": ""
  },
  {
   "property": "C44",
   "status": "proved",
   "theorems": [
    "Lfest.C44_price_filter",
    "Lfest.C44_limit_price_rule",
    "Lfest.C44_default"
   ],
   "note": ""
  },
  {
   "property": "C45",
   "status": "proved",
   "theorems": [
    "Lfest.C45_quantity_filter",
    "Lfest.C45_default",
    "Lfest.C45_market_quantity_rule",
    "Lfest.C45_limit_quantity_rule"
   ],
   "note": ""
  },
  {
   "property": "C46",
   "status": "proved",
   "theorems": [
    "Lfest.C46_order_constructors",
    "Lfest.C46_invalid_orders_never_submitted",
    "Lfest.C46_price_filter_new",
    "Lfest.C46_quantity_filter_new",
    "Lfest.C46_zero_tick_panics",
    "Lfest.C46_config_constructors"
   ],
   "note": ""
  },
  {
   "property": "C47",
   "status": "proved",
   "theorems": [
    "Lfest.C47_margin_rates",
    "Lfest.C47_zero_margin_never_opens"
   ],
   "note": ""
  },
  {
   "property": "C48",
   "status": "proved",
   "theorems": [
    "Lfest.C48_zero_at_entry",
    "Lfest.C48_antisymmetric",
    "Lfest.C48_monotone",
    "Lfest.C48_sign",
    "Lfest.C48_unrealized"
   ],
   "note": ""
  },
  {
   "property": "C49",
   "status": "proved",
   "theorems": [
    "Lfest.C49_fill_mirror",
    "Lfest.C49_balances",
    "Lfest.C49_market_order"
   ],
   "note": ""
  },
  {
   "property": "C50",
   "status": "proved",
   "theorems": [
    "Lfest.C50_tracker_total",
    "Lfest.C50_limit_counters",
    "Lfest.C50_market_counters",
    "Lfest.C50_fill_counters"
   ],
   "note": ""
  },
  {
   "property": "C51",
   "status": "proved",
   "theorems": [
    "Lfest.C51_volumes",
    "Lfest.C51_turnover_mono"
   ],
   "note": ""
  },
  {
   "property": "C52",
   "status": "proved",
   "theorems": [
    "Lfest.C52_rpnl_step",
    "Lfest.C52_rpnl"
   ],
   "note": ""
  },
  {
   "property": "C53",
   "status": "proved",
   "theorems": [
    "Lfest.C53_at_most",
    "Lfest.C53_keeps_up",
    "Lfest.C53_exact",
    "Lfest.C53_catch_up"
   ],
   "note": "C53_exact, C53_at_most, C53_keeps_up; C53_catch_up is the witness of samples closer than an interval."
  },
  {
   "property": "C54",
   "status": "proved",
   "theorems": [
    "Lfest.C54_quiet_update",
    "Lfest.C54_negative_wallet_panics"
   ],
   "note": "The bound on the wallet is necessary: C54_negative_wallet_panics."
  },
  {
   "property": "C55",
   "status": "proved",
   "theorems": [
    "Lfest.C55_load",
    "Lfest.C55_loads_iff",
    "Lfest.C55_sell_negative",
    "Lfest.C55_sell_panics"
   ],
   "note": "C55_load, C55_loads_iff, C55_sell_negative, C55_sell_panics."
  },
  {
   "property": "C56",
   "status": "proved",
   "theorems": [
    "Lfest.C56_release_agrees",
    "Lfest.C56_release_panics_less",
    "Lfest.C56_debug_stricter"
   ],
   "note": ""
  },
  {
   "property": "C57",
   "status": "proved",
   "theorems": [
    "Lfest.C57_covered_orders_are_free",
    "Lfest.C57_covered_submission"
   ],
   "note": ""
  },
  {
   "property": "C58",
   "status": "proved",
   "theorems": [
    "Lfest.C58_open",
    "Lfest.C58_against",
    "Lfest.C58_exact",
    "Lfest.C58_tiny_panics"
   ],
   "note": "C58_exact is the equivalence; C58_open and C58_against are its sufficient halves with the conditions spelled out; C58_tiny_panics a concrete panic."
  },
  {
   "property": "C59",
   "status": "proved",
   "theorems": [
    "Lfest.C59_limit_order_decision",
    "Lfest.C59_limit_order_errors"
   ],
   "note": "C59_limit_order_decision: exact acceptance rule. C59_limit_order_errors: exact rule for each kind of error."
  },
  {
   "property": "C60",
   "status": "proved",
   "theorems": [
    "Lfest.C60_market_order_decision"
   ],
   "note": ""
  },
  {
   "property": "C61",
   "status": "proved",
   "theorems": [
    "Lfest.C61_taker_size",
    "Lfest.C61_loaded_sign_lost"
   ],
   "note": "C61_taker_size, C61_loaded_sign_lost."
  },
  {
   "property": "C62",
   "status": "proved",
   "theorems": [
    "Lfest.C62_accepted_are_valid",
    "Lfest.C62_invalid_panics",
    "Lfest.C62_valid_accepted",
    "Lfest.C62_release_accepts_crossed",
    "Lfest.C62_smart_unchecked"
   ],
   "note": "The last sentence of the statement is witnessed by C62_release_accepts_crossed and C62_smart_unchecked."
  },
  {
   "property": "C63",
   "status": "proved",
   "theorems": [
    "Lfest.C63_trading_days",
    "Lfest.C63_buy_and_hold",
    "Lfest.C63_direction",
    "Lfest.C63_zero_sentinel",
    "Lfest.C63_backwards_panics",
    "Lfest.C63_before_first_update"
   ],
   "note": "Hypothesis: first update not at time 0 / mid price 0; the exceptions are witnessed by C63_zero_sentinel, C63_backwards_panics and C63_before_first_update."
  },
  {
   "property": "C64",
   "status": "proved",
   "theorems": [
    "Lfest.C64_tracker_calls",
    "Lfest.C64_updates_reported"
   ],
   "note": "Spec.calls lists the calls for every kind of API call and response."
  },
  {
   "property": "C65",
   "status": "proved",
   "theorems": [
    "Lfest.C65_every_call",
    "Lfest.C65_history",
    "Lfest.C65_no_hidden_state",
    "Lfest.C65_wallet"
   ],
   "note": "Verif/Reference.lean is the reference exchange; Ref.view reads its state off a model state. Panics are outside the reference: the theorems are about calls that return."
  },
  {
   "property": "C66",
   "status": "proved",
   "theorems": [
    "Lfest.C66_submit",
    "Lfest.C66_cancel",
    "Lfest.C66_amend",
    "Lfest.C66_quoting_never_panics",
    "Lfest.C66_market_order_then_cancel_panics"
   ],
   "note": "The last sentence is witnessed by C66_market_order_then_cancel_panics. C24 tells when the account is in line."
  },
  {
   "property": "C67",
   "status": "proved",
   "theorems": [
    "Lfest.C67_possible_panics",
    "Lfest.C67_never",
    "Lfest.C67_builtin_fills",
    "Lfest.C67_quotes",
    "Lfest.C67_configs_sound",
    "Lfest.C67_market_witnesses",
    "Lfest.C67_order_witnesses",
    "Lfest.C67_update_witnesses",
    "Lfest.C67_custom_witnesses",
    "Lfest.C67_smart_witnesses"
   ],
   "note": "Spec.possiblePanics gives the lists; C67_market_witnesses, C67_order_witnesses, C67_update_witnesses, C67_custom_witnesses and C67_smart_witnesses show that no entry can be dropped. Integer overflow is not modelled."
  },
  {
   "property": "C68",
   "status": "proved",
   "theorems": [
    "Lfest.C68_cash_flow",
    "Lfest.C68_flat",
    "Lfest.C68_marked",
    "Lfest.C68_inverse_mismatch"
   ],
   "note": "C68_cash_flow, C68_flat, C68_marked; C68_inverse_mismatch shows that inverse contracts are excluded for a reason."
  },
  {
   "property": "C69",
   "status": "proved",
   "theorems": [
    "Lfest.C69_no_free_profit",
    "Lfest.C69_rounding_pump"
   ],
   "note": "C69_no_free_profit; witness C69_rounding_pump."
  },
  {
   "property": "C70",
   "status": "proved",
   "theorems": [
    "Lfest.C70_submit_cancel"
   ],
   "note": "C70_submit_cancel"
  },
  {
   "property": "C71",
   "status": "proved",
   "theorems": [
    "Lfest.C71_no_hit",
    "Lfest.C71_repeat"
   ],
   "note": "C71_no_hit, C71_repeat"
  },
  {
   "property": "C72",
   "status": "proved",
   "theorems": [
    "Lfest.C72_buy_volume_ratio",
    "Lfest.C72_order_ratios"
   ],
   "note": "C72_buy_volume_ratio for the value before conversion to f32; C72_order_ratios with exact division of the counters in place of f32 division."
  },
  {
   "property": "C73",
   "status": "proved",
   "theorems": [
    "Lfest.C73_range",
    "Lfest.C73_deviation",
    "Lfest.C73_shift",
    "Lfest.C73_scale",
    "Lfest.C73_mirror",
    "Lfest.C73_order",
    "Lfest.C73_kurtosis",
    "Lfest.C73_two_values"
   ],
   "note": "C73_range, C73_deviation, C73_shift, C73_scale, C73_mirror, C73_order, C73_kurtosis, C73_two_values. The model uses real numbers in place of f64; rounding and NaN are outside the model."
  },
  {
   "property": "C74",
   "status": "proved",
   "theorems": [
    "Lfest.C74_call",
    "Lfest.C74_history",
    "Lfest.C74_history_state",
    "Lfest.C74_needs_distinct_ids"
   ],
   "note": "C74_call: on every state and call, the step function commutes with the relabelling (equality including panics). C74_history and C74_history_state lift it to responses and final state of histories on a new exchange. C74_needs_distinct_ids is the witness that ids must stay distinct."
  },
  {
   "property": "C75",
   "status": "proved",
   "theorems": [
    "Lfest.C75_nothing_before_first_update",
    "Lfest.C75_market_order_panics",
    "Lfest.C75_filters"
   ],
   "note": "C75_nothing_before_first_update by an invariant over histories; C75_market_order_panics shows the panic for every valid quantity; C75_filters shows that the hypothesis on the filter holds for every constructed filter."
  },
  {
   "property": "C76",
   "status": "proved",
   "theorems": [
    "Lfest.C76_order_margin_nonneg",
    "Lfest.C76_margin_in_use",
    "Lfest.C76_leverage",
    "Lfest.C76_needs_wallet"
   ],
   "note": "C76_order_margin_nonneg by an invariant on the reference exchange, transferred with C65. C76_margin_in_use from the ledger law C02, C76_leverage from it and C11. C76_needs_wallet is the witness for the condition on the wallet."
  },
  {
   "property": "C77",
   "status": "proved",
   "theorems": [
    "Lfest.C77_sharpe",
    "Lfest.C77_sortino",
    "Lfest.C77_kelly",
    "Lfest.C77_single_loss",
    "Lfest.C77_sign",
    "Lfest.C77_scale"
   ],
   "note": "C77_sharpe, C77_sortino, C77_kelly: Welford recurrence equals two-pass mean and variance, by induction. C77_single_loss: one loss gives no sortino. C77_scale: proportional balances. C77_sign: the returns telescope to ln(last / first), the first sample is the starting balance. f32 rounding is not modelled; the two views of the external crate sliding_features are modelled by their documented recurrences."
  },
  {
   "property": "C78",
   "status": "proved",
   "theorems": [
    "Lfest.C78_linear_covered",
    "Lfest.C78_inverse_short_covered",
    "Lfest.C78_inverse_long_covered",
    "Lfest.C78_inverse_long_exposed"
   ],
   "note": "C78_linear_covered from C29 (an Ok means no breach), C11 (margin of the position) and C47 (order of the rates). C78_inverse_short_covered and C78_inverse_long_covered for a position opened by one fill, because averaging entry prices loses the cost basis of inverse contracts (C09). C78_inverse_long_exposed is the witness that the proviso is needed."
  },
  {
   "property": "C79",
   "status": "proved",
   "theorems": [
    "Lfest.C79_exact_unless_overflow",
    "Lfest.C79_history_exact_unless_overflow",
    "Lfest.C79_no_overflow",
    "Lfest.C79_same_responses",
    "Lfest.C79_every_width_overflows",
    "Lfest.C79_stored_amounts_fit"
   ],
   "note": "The program is modelled a second time on integers from -w to w (Model/Machine), with every arithmetic result checked. C79_exact_unless_overflow and C79_history_exact_unless_overflow relate it to the unbounded model, C79_no_overflow and C79_same_responses show that the limits Fits exclude overflow, and C79_every_width_overflows shows that the limit on submissions cannot be dropped. C79_stored_amounts_fit: every amount the bounded exchange stores fits, so no check is missing where amounts are stored. Debug builds panic on overflow; release builds would wrap, which is not modelled."
  },
  {
   "property": "C80",
   "status": "proved",
   "theorems": [
    "Lfest.C80_exact",
    "Lfest.C80_accuracy",
    "Lfest.C80_monotone",
    "Lfest.C80_symmetric",
    "Lfest.C80_errors",
    "Lfest.C80_saturates",
    "Lfest.C80_nan",
    "Lfest.C80_bound_needed"
   ],
   "note": "Model/Float models binary64 rounding on rationals. C80_exact, C80_accuracy, C80_monotone, C80_symmetric, C80_errors. C80_saturates and C80_nan show where the obvious claim (unrepresentable values are reported) is false; C80_bound_needed that exactness ends below 2^52."
  },
  {
   "property": "C81",
   "status": "proved",
   "theorems": [
    "Lfest.C81_new",
    "Lfest.C81_quantize",
    "Lfest.C81_idempotent",
    "Lfest.C81_monotone",
    "Lfest.C81_quantity_accepted",
    "Lfest.C81_price_accepted",
    "Lfest.C81_order_on_grid",
    "Lfest.C81_constructor_needed"
   ],
   "note": "C81_new, C81_quantize, C81_idempotent, C81_monotone, C81_quantity_accepted, C81_price_accepted, C81_order_on_grid. C81_constructor_needed shows that filters must come from their constructor. new with more places than D depends on an external crate and is not modelled."
  },
  {
   "property": "C82",
   "status": "proved",
   "theorems": [
    "Lfest.C82_exact",
    "Lfest.C82_quotes_never_panic",
    "Lfest.C82_solvent_never_panics",
    "Lfest.C82_margin"
   ],
   "note": "oneAtATime and followed in Spec describe the strategy. C82_exact, C82_quotes_never_panic, C82_solvent_never_panics, C82_margin. Outside the class panics occur: C58_exact, C11_debug_panics, C67 witnesses."
  },
  {
   "property": "C83",
   "status": "proved",
   "theorems": [
    "Lfest.C83_original",
    "Lfest.C83_same_until_full",
    "Lfest.C83_never_more",
    "Lfest.C83_accepts_nothing",
    "Lfest.C83_debug_panics",
    "Lfest.C83_debug_panics_any",
    "Lfest.C83_not_equivalent"
   ],
   "note": "Model/Clone carries the capacities of the vectors. C83_original ties it to the model of the other claims, C83_same_until_full, C83_never_more, C83_accepts_nothing, C83_debug_panics(_any). C83_not_equivalent refutes the obvious claim that a copy behaves like the original. Trusted about Vec: the capacity of a clone is its length, a push to a full vector doubles the capacity to at least four."
  },
  {
   "property": "C84",
   "status": "proved",
   "theorems": [
    "Lfest.C84_exact",
    "Lfest.C84_new_panics",
    "Lfest.C84_never_is_always",
    "Lfest.C84_release_wraps"
   ],
   "note": "C84_exact (against the samples of the exchange model, C53), C84_new_panics (equivalence). C84_never_is_always and C84_release_wraps show where the obvious claim fails."
  },
  {
   "property": "C85",
   "status": "proved",
   "theorems": [
    "Lfest.C85_exact",
    "Lfest.C85_margins",
    "Lfest.C85_shape",
    "Lfest.C85_entry_never_panics",
    "Lfest.C85_quotes_never_panic",
    "Lfest.C85_liquidated_exit_panics"
   ],
   "note": "C85_exact is an equivalence that also names the panic. C85_entry_never_panics, C85_margins, C85_shape, C85_quotes_never_panic. C85_liquidated_exit_panics shows why liquidations while the exit rests are excluded; partial fills are excluded because the averaged entry price drifts (C41)."
  },
  {
   "property": "C86",
   "status": "proved",
   "theorems": [
    "Lfest.C86_formula",
    "Lfest.C86_outperforms",
    "Lfest.C86_quotient",
    "Lfest.C86_undefined",
    "Lfest.C86_market_has_one",
    "Lfest.C86_profit",
    "Lfest.C86_not_the_quotient"
   ],
   "note": "C86_formula, C86_outperforms, C86_quotient, C86_undefined, C86_market_has_one, C86_profit. C86_not_the_quotient refutes the first sentence of the documentation (\"divides ... by ...\") on a reachable state. Exact real arithmetic; the crate quantogram is an arbitrary function."
  },
  {
   "property": "C87",
   "status": "proved",
   "theorems": [
    "Lfest.C87_obeyed",
    "Lfest.C87_bad_fill",
    "Lfest.C87_accounted",
    "Lfest.C87_cannot_fill",
    "Lfest.C87_validation"
   ],
   "note": "C87_obeyed, C87_accounted, C87_bad_fill, C87_cannot_fill, C87_validation. Custom updates are part of the model's update type, so the other claims cover them too."
  },
  {
   "property": "C88",
   "status": "proved",
   "theorems": [
    "Lfest.C88_returns",
    "Lfest.C88_panics",
    "Lfest.C88_history",
    "Lfest.C88_no_hidden_panics"
   ],
   "note": "C88_returns, C88_panics, C88_history and C88_no_hidden_panics. The condition is Verif/Returns.lean (Ref.Exchange.returns). Unbounded integers as in the base model: overflow panics are C79."
  },
  {
   "property": "C89",
   "status": "proved",
   "theorems": [
    "Lfest.C89_values",
    "Lfest.C89_user",
    "Lfest.C89_unrealised",
    "Lfest.C89_market"
   ],
   "note": "C89_values, C89_user, C89_unrealised, C89_market. The external crate is an arbitrary function subject to IsDrawdown; both usual readings satisfy it (examples)."
  },
  {
   "property": "C90",
   "status": "proved",
   "theorems": [
    "Lfest.C90_candle_covers_trades",
    "Lfest.C90_candle_covers_smart_candle",
    "Lfest.C90_wider_candle",
    "Lfest.C90_larger_trade",
    "Lfest.C90_same_orders",
    "Lfest.C90_untouched_order_filled"
   ],
   "note": "C90_candle_covers_trades, C90_candle_covers_smart_candle, C90_wider_candle, C90_larger_trade, C90_same_orders; the overfill is witnessed by C90_untouched_order_filled."
  },
  {
   "property": "C91",
   "status": "proved",
   "theorems": [
    "Lfest.C91_order_ratios",
    "Lfest.C91_shares_exceed_one",
    "Lfest.C91_one_without_all",
    "Lfest.C91_buy_volume_ratio"
   ],
   "note": "C91_order_ratios, C91_buy_volume_ratio; negative results C91_shares_exceed_one, C91_one_without_all. The external conversion Decimal to f64 is any function satisfying ConvertsUnit; convertsUnit_nearest shows that the correctly rounded one does."
  },
  {
   "property": "C92",
   "status": "proved",
   "theorems": [
    "Lfest.C92_returns",
    "Lfest.C92_batch_rule",
    "Lfest.C92_effect",
    "Lfest.C92_any_order",
    "Lfest.C92_equal_prices_matter"
   ],
   "note": "C92_returns, C92_batch_rule, C92_effect, C92_any_order; negative result C92_equal_prices_matter."
  },
  {
   "property": "C93",
   "status": "proved",
   "theorems": [
    "Lfest.C93_better_terms",
    "Lfest.C93_more_money_can_panic"
   ],
   "note": "C93_better_terms, by simulation between two reference exchanges (C65, C88); negative result C93_more_money_can_panic."
  },
  {
   "property": "C94",
   "status": "proved",
   "theorems": [
    "Lfest.C94_convert",
    "Lfest.C94_convert_negative",
    "Lfest.C94_there_and_back",
    "Lfest.C94_parts",
    "Lfest.C94_price_paid",
    "Lfest.C94_signs"
   ],
   "note": "C94_convert, C94_convert_negative, C94_there_and_back, C94_parts, C94_price_paid, C94_signs."
  },
  {
   "property": "C95",
   "status": "proved",
   "theorems": [
    "Lfest.C95_own_money",
    "Lfest.C95_leverage_can_panic",
    "Lfest.C95_short_can_panic"
   ],
   "note": "C95_own_money; C95_leverage_can_panic and C95_short_can_panic show that the conditions are needed."
  },
  {
   "property": "C96",
   "status": "proved",
   "theorems": [
    "Lfest.C96_cancel_any_order",
    "Lfest.C96_wind_down",
    "Lfest.C96_off_grid_stays",
    "Lfest.C96_off_grid_reached"
   ],
   "note": "C96_cancel_any_order, C96_wind_down; C96_off_grid_stays and C96_off_grid_reached are the exception."
  },
  {
   "property": "C97",
   "status": "proved",
   "theorems": [
    "Lfest.C97_two_parts",
    "Lfest.C97_parts_accepted",
    "Lfest.C97_fees_of_parts",
    "Lfest.C97_small_orders_are_free"
   ],
   "note": "C97_two_parts, C97_parts_accepted, C97_fees_of_parts, C97_small_orders_are_free."
  },
  {
   "property": "C98",
   "status": "proved",
   "theorems": [
    "Lfest.C98_answers_tell_all",
    "Lfest.C98_account",
    "Lfest.C98_silent_fills"
   ],
   "note": "C98_answers_tell_all (fills, orders, market), C98_account (position, fees, margin, equity), C98_silent_fills (the exception)."
  },
  {
   "property": "C99",
   "status": "proved",
   "theorems": [
    "Lfest.C99_no_trace",
    "Lfest.C99_failed_amendments_count"
   ],
   "note": "C99_no_trace (whole histories, answers and account), C99_failed_amendments_count (the exception is needed)."
  },
  {
   "property": "C100",
   "status": "proved",
   "theorems": [
    "Lfest.C100_own_orders_only",
    "Lfest.C100_with_liquidations",
    "Lfest.C100_volume",
    "Lfest.C100_liquidation_trades"
   ],
   "note": "C100_own_orders_only (per side, no liquidation), C100_with_liquidations, C100_volume (in terms of the calls alone), C100_liquidation_trades (the exception is needed)."
  },
  {
   "property": "C101",
   "status": "proved",
   "theorems": [
    "Lfest.C101_exact_unless_overflow",
    "Lfest.C101_no_overflow",
    "Lfest.C101_statistics_overflow_first",
    "Lfest.C101_buy_and_hold_overflows"
   ],
   "note": "C101_exact_unless_overflow, C101_no_overflow (uses C100_volume), C101_statistics_overflow_first and C101_buy_and_hold_overflows (witnesses)."
  },
  {
   "property": "C102",
   "status": "proved",
   "theorems": [
    "Lfest.C102_debug_build",
    "Lfest.C102_same_unless_overflow",
    "Lfest.C102_release_history",
    "Lfest.C102_release_asked",
    "Lfest.C102_release_responses",
    "Lfest.C102_endless_rounds",
    "Lfest.C102_silent_overflow"
   ],
   "note": "Model/Release is the exchange with the arithmetic left open. C102_debug_build, C102_same_unless_overflow, C102_release_history, C102_release_asked, C102_release_responses, C102_endless_rounds (all n), C102_silent_overflow (witness for the limits)."
  },
  {
   "property": "C103",
   "status": "proved",
   "theorems": [
    "Lfest.C103_waiting",
    "Lfest.C103_still_there",
    "Lfest.C103_gone",
    "Lfest.C103_untouched",
    "Lfest.C103_from_submission",
    "Lfest.C103_same_fate",
    "Lfest.C103_liquidation_skips"
   ],
   "note": "Volumes are those of SpecWait. C103_waiting, C103_still_there, C103_gone, C103_untouched, C103_from_submission, C103_same_fate; C103_liquidation_skips is the witness for the exception."
  },
  {
   "property": "C104",
   "status": "proved",
   "theorems": [
    "Lfest.C104_mean",
    "Lfest.C104_deviation",
    "Lfest.C104_mean_nearest",
    "Lfest.C104_constant",
    "Lfest.C104_never_negative",
    "Lfest.C104_mirror",
    "Lfest.C104_nan",
    "Lfest.C104_equal_values_differ",
    "Lfest.C104_order_matters",
    "Lfest.C104_overflow",
    "Lfest.C104_kurtosis",
    "Lfest.C104_kurtosis_bound",
    "Lfest.C104_skew"
   ],
   "note": "binary64 model of Model/MomentsF64. C104_mean, C104_deviation, C104_mean_nearest, C104_kurtosis, C104_kurtosis_bound, C104_skew, C104_constant, C104_never_negative, C104_mirror, C104_nan; C104_equal_values_differ, C104_order_matters and C104_overflow are witnesses of what does not hold. powi is taken to square repeatedly, powf(1.5) is an arbitrary function, zeros carry no sign."
  },
  {
   "property": "C105",
   "status": "proved",
   "theorems": [
    "Lfest.C105_stamps",
    "Lfest.C105_causal",
    "Lfest.C105_time_travel"
   ],
   "note": "Specification in SpecTime. C105_stamps, C105_causal; C105_time_travel is the witness that the order of updates is not checked."
  },
  {
   "property": "C106",
   "status": "proved",
   "theorems": [
    "Lfest.C106_returns",
    "Lfest.C106_losses",
    "Lfest.C106_blind"
   ],
   "note": "Specification in SpecSample. C106_returns, C106_losses; C106_blind is the witness for unseen losses. LnReturn and the conversion of decimals are external: the former is a function with the sign of the logarithm applied to the f32 quotient, the latter any function within the stated bounds."
  },
  {
   "property": "C107",
   "status": "proved",
   "theorems": [
    "Lfest.C107_in_memory",
    "Lfest.C107_same_answers",
    "Lfest.C107_same_reports",
    "Lfest.C107_only_transfers",
    "Lfest.C107_refused",
    "Lfest.C107_unreadable",
    "Lfest.C107_unreadable_getters"
   ],
   "note": "Specification in SpecBookkeeping. C107_in_memory, C107_same_answers, C107_same_reports, C107_only_transfers, C107_refused, C107_unreadable, C107_unreadable_getters."
  },
  {
   "property": "C108",
   "status": "proved",
   "theorems": [
    "Lfest.C108_same_fills",
    "Lfest.C108_quantity_and_fees",
    "Lfest.C108_profit",
    "Lfest.C108_flat",
    "Lfest.C108_rounding",
    "Lfest.C108_inverse_priority"
   ],
   "note": "C108_same_fills, C108_quantity_and_fees, C108_profit, C108_flat; C108_rounding shows that the allowance is needed, C108_inverse_priority that the last part fails for inverse contracts."
  },
  {
   "property": "C109",
   "status": "proved",
   "theorems": [
    "Lfest.C109_quantity",
    "Lfest.C109_profit",
    "Lfest.C109_fees",
    "Lfest.C109_flat",
    "Lfest.C109_rounding"
   ],
   "note": "C109_quantity, C109_fees (both kinds of contract), C109_profit, C109_flat (linear contracts); C109_rounding shows that the allowance is needed. The theorems compare histories with the same fills: a check of margin that is decided by the last decimal may of course be decided differently."
  },
  {
   "property": "C110",
   "status": "proved",
   "theorems": [
    "Lfest.C110_market_updates",
    "Lfest.C110_quantities",
    "Lfest.C110_prices"
   ],
   "note": "C110_market_updates, C110_quantities, C110_prices. A smart candle passes every check of its own (C62). The strings in the error are the printed amounts; the model keeps the amounts."
  },
  {
   "property": "C111",
   "status": "proved",
   "theorems": [
    "Lfest.C111_quantity_and_fees",
    "Lfest.C111_profit",
    "Lfest.C111_inverse"
   ],
   "note": "C111_quantity_and_fees, C111_profit; C111_inverse is the counterexample for inverse contracts."
  },
  {
   "property": "C112",
   "status": "proved",
   "theorems": [
    "Lfest.C112_quantity_and_fees",
    "Lfest.C112_profit",
    "Lfest.C112_flat",
    "Lfest.C112_rounding"
   ],
   "note": "C112_quantity_and_fees (both kinds of contract), C112_profit and C112_flat (linear contracts); C112_rounding shows that the allowance is needed."
  },
  {
   "property": "C113",
   "status": "proved",
   "theorems": [
    "Lfest.C113_sum_of_trades",
    "Lfest.C113_one_trade",
    "Lfest.C113_spread",
    "Lfest.C113_spread_never_gains"
   ],
   "note": "C113_sum_of_trades, C113_one_trade, C113_spread, C113_spread_never_gains."
  },
  {
   "property": "C114",
   "status": "proved",
   "theorems": [
    "Lfest.C114_printing",
    "Lfest.C114_contents",
    "Lfest.C114_usual",
    "Lfest.C114_too_early"
   ],
   "note": "C114_printing (exact condition), C114_contents, C114_usual, C114_too_early. The rendering of numbers as text and the floating point entries sharpe, sortino and kelly_leverage (C77, C119) are not part of the model of the summary; C119 shows when the assertion in kelly_leverage fails."
  },
  {
   "property": "C115",
   "status": "proved",
   "theorems": [
    "Lfest.C115_thin",
    "Lfest.C115_statistics",
    "Lfest.C115_samples_differ"
   ],
   "note": "C115_thin (no hypothesis but that the history returns), C115_statistics, and C115_samples_differ (a counterexample for rpnl)."
  },
  {
   "property": "C116",
   "status": "proved",
   "theorems": [
    "Lfest.C116_fees_of_turnover",
    "Lfest.C116_small_fills_are_free"
   ],
   "note": "C116_fees_of_turnover relates the account to the figures of the tracker; C116_small_fills_are_free shows that the allowance per fill is needed."
  },
  {
   "property": "C117",
   "status": "proved",
   "theorems": [
    "Lfest.C117_product",
    "Lfest.C117_quotient",
    "Lfest.C117_exact_laws",
    "Lfest.C117_distributes",
    "Lfest.C117_order",
    "Lfest.C117_remainder",
    "Lfest.C117_abs_sub",
    "Lfest.C117_associates",
    "Lfest.C117_product_undone",
    "Lfest.C117_quotient_undone",
    "Lfest.C117_not_exact"
   ],
   "note": "C117_product, C117_quotient (against the specification of a result rounded toward zero, shown unique), C117_exact_laws, C117_distributes, C117_order, C117_associates, C117_product_undone, C117_quotient_undone, C117_remainder, C117_abs_sub; C117_not_exact gives the exceptions. The arithmetic of const_decimal is external and trusted as described in DESIGN.md."
  },
  {
   "property": "C118",
   "status": "proved",
   "theorems": [
    "Lfest.C118_only_the_present",
    "Lfest.C118_starts_afresh"
   ],
   "note": "C118_only_the_present: the whole account, call by call, with fees and treasury; C118_starts_afresh: a flat account against a new exchange. Examples: a losing round trip and Ex.ops3 afterwards; a trade alone brings no quotes. Statistics of the account tracker other than fees and profit are not compared (they do depend on the past)."
  },
  {
   "property": "C119",
   "status": "proved",
   "theorems": [
    "Lfest.C119_numbers",
    "Lfest.C119_sign",
    "Lfest.C119_mean",
    "Lfest.C119_steady",
    "Lfest.C119_spoilt",
    "Lfest.C119_ruin",
    "Lfest.C119_wrong_sign"
   ],
   "note": "C119_numbers, C119_sign, C119_steady, C119_mean (no fluctuation is made up), C119_spoilt and C119_ruin (a reachable history that makes kelly_leverage panic), C119_wrong_sign (rounding turns the sign of the mean). WelfordRolling comes from the crate sliding_features, which is not in the repository; it is modelled by Welford's recurrence in binary32 arithmetic."
  },
  {
   "property": "C120",
   "status": "proved",
   "theorems": [
    "Lfest.C120_amend",
    "Lfest.C120_amend_filled",
    "Lfest.C120_never_needed"
   ],
   "note": "C120_amend and C120_amend_filled: equality of the whole results, panics included; C120_never_needed: amendments can be removed from any history. There is no priority to be lost (C108)."
  },
  {
   "property": "C121",
   "status": "proved",
   "theorems": [
    "Lfest.C121_user",
    "Lfest.C121_market",
    "Lfest.C121_unrealised",
    "Lfest.C121_blind"
   ],
   "note": "C121_user, C121_market, C121_unrealised; C121_blind: what does not hold. Ex.present32_ok and Ex.deepest32_ok: both readings of the external drawdown meet the assumption."
  },
  {
   "property": "C122",
   "status": "proved",
   "theorems": [
    "Lfest.C122_own_money",
    "Lfest.C122_fee_can_panic"
   ],
   "note": "C122_own_money; C122_fee_can_panic: without the fee in the wallet it is false. The strategies are those of C85 (bracketed)."
  },
  {
   "property": "C123",
   "status": "proved",
   "theorems": [
    "Lfest.C123_within_margin",
    "Lfest.C123_safe_prices"
   ],
   "note": "C123_within_margin, C123_safe_prices. Strategies of C85; reversals by one market order are excluded (a market order closes exactly the position). Beyond the margin it is false: C95_leverage_can_panic."
  },
  {
   "property": "C124",
   "status": "proved",
   "theorems": [
    "Lfest.C124_returns",
    "Lfest.C124_exists",
    "Lfest.C124_direction",
    "Lfest.C124_accuracy",
    "Lfest.C124_noticed",
    "Lfest.C124_equal",
    "Lfest.C124_idle",
    "Lfest.C124_loser"
   ],
   "note": "C124_returns, C124_exists, C124_direction, C124_accuracy, C124_noticed, C124_equal; C124_idle and C124_loser: what does not hold. The crate quantogram is external: its mean and quantile are arbitrary functions of the values it was given."
  },
  {
   "property": "C125",
   "status": "proved",
   "theorems": [
    "Lfest.C125_no_gaps",
    "Lfest.C125_jump_panics"
   ],
   "note": "C125_no_gaps; C125_jump_panics: the bound on the moves is needed."
  },
  {
   "property": "C126",
   "status": "proved",
   "theorems": [
    "Lfest.C126_parts_fill_faster",
    "Lfest.C126_parts_accepted",
    "Lfest.C126_fees_of_parts",
    "Lfest.C126_twice_as_fast"
   ],
   "note": "C126_parts_fill_faster, C126_parts_accepted, C126_fees_of_parts; C126_twice_as_fast: the gain is real."
  },
  {
   "property": "C127",
   "status": "proved",
   "theorems": [
    "Lfest.C127_better_prices_first",
    "Lfest.C127_smaller_limit_orders",
    "Lfest.C127_smaller_market_orders"
   ],
   "note": "C127_better_prices_first, C127_smaller_limit_orders, C127_smaller_market_orders."
  },
  {
   "property": "C128",
   "status": "proved",
   "theorems": [
    "Lfest.C128_attribution",
    "Lfest.C128_takers_gain_only_from_moves"
   ],
   "note": "C128_attribution, C128_takers_gain_only_from_moves. Inverse contracts are excluded because of C68_inverse_mismatch."
  },
  {
   "property": "C129",
   "status": "proved",
   "theorems": [
    "Lfest.C129_longs_are_credited_no_more",
    "Lfest.C129_shorts_are_credited_no_less",
    "Lfest.C129_no_free_profit_for_longs",
    "Lfest.C129_shorts_gain_by_wash_trades"
   ],
   "note": "C129_longs_are_credited_no_more, C129_shorts_are_credited_no_less, C129_no_free_profit_for_longs; C129_shorts_gain_by_wash_trades is the counterexample to \"standing quotes yield no profit\" for inverse contracts."
  },
  {
   "property": "C130",
   "status": "proved",
   "theorems": [
    "Lfest.C130_longs_lose_nothing_by_averaging",
    "Lfest.C130_shorts_gain_nothing_by_averaging",
    "Lfest.C130_no_free_profit_for_shorts"
   ],
   "note": "C130_longs_lose_nothing_by_averaging, C130_shorts_gain_nothing_by_averaging, C130_no_free_profit_for_shorts. Sharpens the two-sided allowance of C68 and C69 on one side."
  },
  {
   "property": "C131",
   "status": "proved",
   "theorems": [
    "Lfest.C131_fills_are_forgotten",
    "Lfest.C131_only_the_last_counts",
    "Lfest.C131_trades_too_much"
   ],
   "note": "C131_fills_are_forgotten, C131_only_the_last_counts; C131_trades_too_much is the witness that the documented control of the exposure is lost by the second amendment."
  },
  {
   "property": "C132",
   "status": "proved",
   "theorems": [
    "Lfest.C132_only_the_orders_left",
    "Lfest.C132_there_and_back",
    "Lfest.C132_cancel_first",
    "Lfest.C132_cancelling_pays_for_orders"
   ],
   "note": "C132_only_the_orders_left, C132_there_and_back, C132_cancel_first; C132_cancelling_pays_for_orders is the witness against the converse. Different prices are needed: C27_cancel_raises, C92_equal_prices_matter."
  },
  {
   "property": "C133",
   "status": "proved",
   "theorems": [
    "Lfest.C133_not_optimistic",
    "Lfest.C133_exact",
    "Lfest.C133_candles_are_optimistic",
    "Lfest.C133_complete_book"
   ],
   "note": "C133_not_optimistic and C133_exact for one side of the book, C133_complete_book for both sides with leftovers that come to rest; C133_candles_are_optimistic is the witness for candles. The real books are specifications of their own (SpecQueue.lean, SpecMarket.lean): incoming orders are executed against the resting side in price-time priority; the other traders do not react to the user."
  },
  {
   "property": "C134",
   "status": "proved",
   "theorems": [
    "Lfest.C134_no_slippage"
   ],
   "note": "C134_no_slippage, with the same real book as C133 (SpecQueue.lean)."
  },
  {
   "property": "C135",
   "status": "proved",
   "theorems": [
    "Lfest.C135_never_gain_together",
    "Lfest.C135_zero_sum",
    "Lfest.C135_opposite_strategies",
    "Lfest.C135_group",
    "Lfest.C135_three_accounts"
   ],
   "note": "C135_never_gain_together, C135_zero_sum, C135_opposite_strategies (in terms of calls), C135_group; C135_three_accounts shows that the restriction of the last to linear contracts is needed."
  },
  {
   "property": "C136",
   "status": "proved",
   "theorems": [
    "Lfest.C136_config",
    "Lfest.C136_turn",
    "Lfest.C136_stops",
    "Lfest.C136_enlarging_works",
    "Lfest.C136_never_trades",
    "Lfest.C136_summary",
    "Lfest.C136_crashes",
    "Lfest.C136_runs_dry"
   ],
   "note": "C136_config, C136_turn (complete behaviour), C136_stops, C136_enlarging_works, C136_never_trades, C136_summary; witnesses C136_crashes and C136_runs_dry. Amounts are unbounded; printing is not modelled beyond Model/Report."
  },
  {
   "property": "C137",
   "status": "proved",
   "theorems": [
    "Lfest.C137_better_fills",
    "Lfest.C137_liquidated_no_earlier",
    "Lfest.C137_wider_quotes",
    "Lfest.C137_patience",
    "Lfest.C137_patience_fees",
    "Lfest.C137_parts_can_lose"
   ],
   "note": "C137_better_fills (exact), C137_liquidated_no_earlier, C137_wider_quotes, C137_patience, C137_patience_fees; witness C137_parts_can_lose."
  },
  {
   "property": "C138",
   "status": "proved",
   "theorems": [
    "Lfest.C138_terms",
    "Lfest.C138_rich_enough",
    "Lfest.C138_profit_of_the_calls",
    "Lfest.C138_poor"
   ],
   "note": "C138_terms, C138_rich_enough, C138_profit_of_the_calls; witness C138_poor. Panics are excluded by hypothesis (a panicking call returns nothing); max_num_open_orders at most 10000 as in C65."
  },
  {
   "property": "C139",
   "status": "proved",
   "theorems": [
    "Lfest.C139_volumes",
    "Lfest.C139_only_volume",
    "Lfest.C139_fees",
    "Lfest.C139_same_tape",
    "Lfest.C139_liquidated_between"
   ],
   "note": "C139_volumes, C139_only_volume, C139_fees, C139_same_tape; witness C139_liquidated_between. Gains and fees in linear contracts only (in inverse contracts the entry price is an arithmetic mean, C68); fees for rates that are not negative."
  },
  {
   "property": "C140",
   "status": "proved",
   "theorems": [
    "Lfest.C140_tracker_calls",
    "Lfest.C140_statistics",
    "Lfest.C140_performance"
   ],
   "note": "C140_tracker_calls, C140_statistics, C140_performance. max_num_open_orders at most 10000 as in C65; panics are excluded by hypothesis."
  },
  {
   "property": "C141",
   "status": "proved",
   "theorems": [
    "Lfest.C141_panics",
    "Lfest.C141_answers",
    "Lfest.C141_tracker_calls",
    "Lfest.C141_samples"
   ],
   "note": "C141_answers, C141_panics, C141_tracker_calls; witness C141_samples. max_num_open_orders at most 10000 as in C65. C74 has the shift of all times by the same amount, with the samples."
  },
  {
   "property": "C142",
   "status": "proved",
   "theorems": [
    "Lfest.C142_other_side",
    "Lfest.C142_not_when_adding",
    "Lfest.C142_not_for_liquidations"
   ],
   "note": "C142_other_side; witnesses C142_not_when_adding, C142_not_for_liquidations. max_num_open_orders at most 10000 as in C65. Both histories are taken not to panic. Updates of a user-defined type are left out."
  },
  {
   "property": "C143",
   "status": "proved",
   "theorems": [
    "Lfest.C143_close",
    "Lfest.C143_liquidation",
    "Lfest.C143_part",
    "Lfest.C143_fresh",
    "Lfest.C143_defined"
   ],
   "note": "C143_close, C143_liquidation, C143_part, C143_fresh, C143_defined."
  },
  {
   "property": "C144",
   "status": "proved",
   "theorems": [
    "Lfest.C144_one_life",
    "Lfest.C144_any_history",
    "Lfest.C144_nothing_after_the_end",
    "Lfest.C144_quantity",
    "Lfest.C144_unheard_end"
   ],
   "note": "C144_one_life, C144_any_history, C144_nothing_after_the_end, C144_quantity; witness C144_unheard_end."
  },
  {
   "property": "C145",
   "status": "proved",
   "theorems": [
    "Lfest.C145_whole_lots",
    "Lfest.C145_closable",
    "Lfest.C145_maker_prices",
    "Lfest.C145_all_prices",
    "Lfest.C145_debug_prices",
    "Lfest.C145_half_a_step",
    "Lfest.C145_odd_quotes"
   ],
   "note": "C145_whole_lots, C145_closable, C145_maker_prices, C145_all_prices, C145_debug_prices; witnesses C145_half_a_step, C145_odd_quotes. In debug builds smart candles and updates of a user-defined type are left out."
  },
  {
   "property": "C146",
   "status": "proved",
   "theorems": [
    "Lfest.C146_alone",
    "Lfest.C146_same_market",
    "Lfest.C146_bystanders_matter"
   ],
   "note": "C146_alone, C146_same_market; witness C146_bystanders_matter. C103 gives the open quantity in closed form; here it is all that is reported, with averages and times, and the surroundings include other configurations."
  },
  {
   "property": "C147",
   "status": "proved",
   "theorems": [
    "Lfest.C147_sum_of_lives",
    "Lfest.C147_same_lives"
   ],
   "note": "C147_sum_of_lives, C147_same_lives. Together with C146: an order that is never filled can change entry price and realised profit, but not, in a linear contract, what the account is worth."
  },
  {
   "property": "C148",
   "status": "proved",
   "theorems": [
    "Lfest.C148_buy_and_hold",
    "Lfest.C148_sell_and_hold",
    "Lfest.C148_out_of_reach"
   ],
   "note": "C148_buy_and_hold, C148_sell_and_hold; witness C148_out_of_reach. With C143, closing then realises this profit."
  },
  {
   "property": "C149",
   "status": "proved",
   "theorems": [
    "Lfest.C149_bystanders",
    "Lfest.C149_any_updates"
   ],
   "note": "C149_bystanders, C149_any_updates. The complement of C146_bystanders_matter, which shows that the first claim is false with an update that fills two orders."
  },
  {
   "property": "C150",
   "status": "proved",
   "theorems": [
    "Lfest.C150_left_alone",
    "Lfest.C150_even_if_liquidated"
   ],
   "note": "C150_left_alone, C150_even_if_liquidated. The example attains the lower bound."
  },
  {
   "property": "C151",
   "status": "proved",
   "theorems": [
    "Lfest.C151_first",
    "Lfest.C151_unique",
    "Lfest.C151_history",
    "Lfest.C151_which_one"
   ],
   "note": "C151_first, C151_unique, C151_history. C151_which_one shows the choice among repeated ids."
  },
  {
   "property": "C152",
   "status": "proved",
   "theorems": [
    "Lfest.C152_no_gain_expected",
    "Lfest.C152_fees_are_lost",
    "Lfest.C152_no_arbitrage",
    "Lfest.C152_mean_gain",
    "Lfest.C152_quotes_and_trades",
    "Lfest.C152_candles_are_generous"
   ],
   "note": "C152_no_gain_expected, C152_no_arbitrage, C152_fees_are_lost, C152_mean_gain, C152_quotes_and_trades. C152_candles_are_generous is the counterexample for candles."
  },
  {
   "property": "C153",
   "status": "proved",
   "theorems": [
    "Lfest.C153_slippage",
    "Lfest.C153_wider_quotes"
   ],
   "note": "C153_slippage, C153_wider_quotes."
  },
  {
   "property": "C154",
   "status": "proved",
   "theorems": [
    "Lfest.C154_flattery_is_bounded",
    "Lfest.C154_candle_range",
    "Lfest.C154_fair"
   ],
   "note": "C154_flattery_is_bounded, C154_candle_range, C154_fair (generosity 0 is the condition of C152)."
  },
  {
   "property": "C155",
   "status": "proved",
   "theorems": [
    "Lfest.C155_replay",
    "Lfest.C155_panics",
    "Lfest.C155_scripts"
   ],
   "note": "C155_replay, C155_panics, C155_scripts. The code has no clock, no random numbers and no hash maps; the model has the state of Exchange as its only memory."
  },
  {
   "property": "C156",
   "status": "proved",
   "theorems": [
    "Lfest.C156_longs_expect_no_gain",
    "Lfest.C156_longs_have_no_arbitrage",
    "Lfest.C156_shorts_can_expect_gain"
   ],
   "note": "C156_longs_expect_no_gain, C156_longs_have_no_arbitrage, C156_shorts_can_expect_gain. The third is finding 61, a consequence of the averaging in C129."
  },
  {
   "property": "C157",
   "status": "proved",
   "theorems": [
    "Lfest.C157_chance_to_get_rich",
    "Lfest.C157_multiplying"
   ],
   "note": "C157_chance_to_get_rich, C157_multiplying. Markov's inequality for the mean in C152_fees_are_lost."
  }
 ]
}