{
 "claims": [
  {
   "property": "C01",
   "status": "partial",
   "theorems": [
    "Verif.Safety.level_changes_registered",
    "Verif.Safety.private_needs_context",
    "Verif.Safety.current_level_installed_partial",
    "Verif.Safety.unadded_level_reachable",
    "Verif.Safety.current_iff_reached"
   ],
   "note": "the first two sentences are proved without conditions (C265); the last one holds only if every event destination and the entry level were added with addLevel (Closed), which verify does not check; unadded_level_reachable is the witness; current_iff_reached (C269): exactly the levels reached along registered transitions become current, added or not"
  },
  {
   "property": "C02",
   "status": "partial",
   "theorems": [
    "Verif.Safety.lowest_level_wins_partial",
    "Verif.Safety.trigger_order_irrelevant_partial",
    "Verif.Safety.lowest_wins_violated",
    "Verif.Safety.priority_exact",
    "Verif.Safety.higher_request_forgotten_violated"
   ],
   "note": "holds when no triggered event leads from the current level back to itself; lowest_wins_violated is a witness that the full claim is false in the code; priority_exact gives the exact rule for all histories; higher_request_forgotten_violated: violated by all properties with a transition of the current level to itself"
  },
  {
   "property": "C03",
   "status": "proved",
   "theorems": [
    "Verif.Safety.run_executes_one_level"
   ],
   "note": ""
  },
  {
   "property": "C04",
   "status": "partial",
   "theorems": [
    "Verif.Safety.critical_handled_partial",
    "Verif.Safety.constructor_decides",
    "Verif.Safety.critical_unhandled",
    "Verif.Safety.critical_unhandled_violated",
    "Verif.Safety.critical_handled_iff"
   ],
   "note": "holds when every transition target and the entry level were added with addLevel (Closed), which the constructor does not check; critical_unhandled is a witness that a level which was never added leaves a critical output unhandled; critical_unhandled_violated: violated by all properties with a reachable level which does not list a critical output; the exact condition is C269"
  },
  {
   "property": "C05",
   "status": "partial",
   "theorems": [
    "Verif.Safety.Inst.at_most_one_partial",
    "Verif.Safety.Inst.construct_iff_none_partial",
    "Verif.Safety.Inst.failed_attempt_blocks",
    "Verif.Safety.Inst.two_instances",
    "Verif.Safety.Inst.failed_attempts_block_violated",
    "Verif.Safety.Inst.one_more_violated",
    "Verif.Safety.Inst.construct_exact"
   ],
   "note": "at most one instance while fewer than 254 construction attempts failed; two_instances is the witness beyond; both violations for all histories; the exact rule is C267"
  },
  {
   "property": "C06",
   "status": "proved",
   "theorems": [
    "Verif.Safety.registration_above",
    "Verif.Safety.registration_below",
    "Verif.Safety.registration_between",
    "Verif.Safety.registration_single",
    "Verif.Safety.first_registration_wins"
   ],
   "note": ""
  },
  {
   "property": "C07",
   "status": "partial",
   "theorems": [
    "Verif.Safety.Conc.concurrent_level_discipline_partial",
    "Verif.Safety.Conc.stale_transition",
    "Verif.Safety.Conc.concurrent_lowest_partial",
    "Verif.Safety.Conc.stale_transition_violated",
    "Verif.Safety.Conc.stale_undisciplined_violated",
    "Verif.Safety.Conc.calm_disciplined"
   ],
   "note": "a level change decided under an old level can be applied under a new one: stale_transition; for all properties with two transitions out of one level: stale_transition_violated; the part which holds is C271"
  },
  {
   "property": "C08",
   "status": "partial",
   "theorems": [
    "Verif.Safety.ignore_never",
    "Verif.Safety.check_fires",
    "Verif.Safety.check_fires_bool",
    "Verif.Safety.range_fires_partial",
    "Verif.Safety.off_range_fires",
    "Verif.Safety.leave_never_writes",
    "Verif.Safety.set_always_writes",
    "Verif.Safety.toggle_alternates",
    "Verif.Safety.range_nan_silent",
    "Verif.Safety.toggle_nan_stuck"
   ],
   "note": "NaN readings never violate a range check: range_nan_silent"
  },
  {
   "property": "C09",
   "status": "proved",
   "theorems": [
    "Verif.Sequencer.follows_protocol",
    "Verif.Sequencer.idle_after_return",
    "Verif.Sequencer.return_value",
    "Verif.Sequencer.refused_not_executed",
    "Verif.Sequencer.precondition_decides"
   ],
   "note": "for all programs, inputs and nestings of the thread machine"
  },
  {
   "property": "C10",
   "status": "proved",
   "theorems": [
    "Verif.Sequencer.executions_bounded",
    "Verif.Sequencer.executions_per_call"
   ],
   "note": ""
  },
  {
   "property": "C11",
   "status": "partial",
   "theorems": [
    "Verif.Sequencer.abort_stops_callees_partial",
    "Verif.Sequencer.aborting_returns",
    "Verif.Sequencer.abort_transient",
    "Verif.Sequencer.abort_masked_by_resume",
    "Verif.Sequencer.abort_masked_by_restart"
   ],
   "note": "the full statement `AbortStops` is false of the code in three ways (proved); it holds while the condition stays true and no resume/restart monitors interfere"
  },
  {
   "property": "C12",
   "status": "proved",
   "theorems": [
    "Verif.Sequencer.exceptions_not_nested",
    "Verif.Sequencer.exception_once",
    "Verif.Sequencer.handled_after_fire"
   ],
   "note": ""
  },
  {
   "property": "C13",
   "status": "proved",
   "theorems": [
    "Verif.Sequencer.Timeout.unset_never_fires",
    "Verif.Sequencer.Timeout.fires_iff",
    "Verif.Sequencer.Timeout.never_early",
    "Verif.Sequencer.Timeout.not_late",
    "Verif.Sequencer.Timeout.wait_not_early",
    "Verif.Sequencer.Timeout.wait_ends"
   ],
   "note": ""
  },
  {
   "property": "C14",
   "status": "proved",
   "theorems": [
    "Verif.Sequencer.Registry.names_unique",
    "Verif.Sequencer.Registry.ids_unique",
    "Verif.Sequencer.Registry.byName_exact",
    "Verif.Sequencer.Registry.byId_exact",
    "Verif.Sequencer.Registry.construct_iff",
    "Verif.Sequencer.Registry.rename_duplicates"
   ],
   "note": "renaming with setName is outside the quantifier and breaks uniqueness (rename_duplicates)"
  },
  {
   "property": "C15",
   "status": "proved",
   "theorems": [
    "Verif.Core.RingBuffer.ring_is_fifo",
    "Verif.Core.RingBuffer.popped_prefix_of_pushed"
   ],
   "note": ""
  },
  {
   "property": "C16",
   "status": "proved",
   "theorems": [
    "Verif.Core.Harmonic.harmonic_every_nth",
    "Verif.Core.Harmonic.harmonic_count",
    "Verif.Core.Harmonic.harmonic_le_one"
   ],
   "note": ""
  },
  {
   "property": "C17",
   "status": "proved",
   "theorems": [
    "Verif.Core.Executor.accepted_period",
    "Verif.Core.Executor.multiple_accepted",
    "Verif.Core.Executor.accepted_iff"
   ],
   "note": "exact arithmetic; a multiple is accepted up to the largest int and when a realtime task has a priority, exactly as the code requires"
  },
  {
   "property": "C18",
   "status": "proved",
   "theorems": [
    "Verif.Core.Executor.every_task_once_in_order"
   ],
   "note": ""
  },
  {
   "property": "C19",
   "status": "proved",
   "theorems": [
    "Verif.Core.Executor.rate_monotonic",
    "Verif.Core.Executor.priorities_valid"
   ],
   "note": ""
  },
  {
   "property": "C20",
   "status": "partial",
   "theorems": [
    "Verif.Core.Semaphore.semaphore_conserves",
    "Verif.Core.Semaphore.waits_le_posts",
    "Verif.Core.Semaphore.waits_iff",
    "Verif.Core.Async.async_at_most_once_per_run",
    "Verif.Core.Async.async_after_stop_partial",
    "Verif.Core.Async.async_ends",
    "Verif.Core.Async.one_start_after_stop",
    "Verif.Core.Async.start_after_stop_violated"
   ],
   "note": "one run can still start after stop. The part which holds is C156."
  },
  {
   "property": "C21",
   "status": "proved",
   "theorems": [
    "Verif.Core.Statistics.statistics_true",
    "Verif.Core.Statistics.statistics_reset"
   ],
   "note": "exact arithmetic; values within the double range"
  },
  {
   "property": "C22",
   "status": "proved",
   "theorems": [
    "Verif.Control.TimeDomain.stopped_runs_nothing",
    "Verif.Control.TimeDomain.all_blocks_in_order",
    "Verif.Control.TimeDomain.first_fault",
    "Verif.Control.TimeDomain.run_keeps_configuration",
    "Verif.Control.TimeDomain.configuration_of_history"
   ],
   "note": ""
  },
  {
   "property": "C23",
   "status": "proved",
   "theorems": [
    "Verif.Control.Inputs.connection_of_history",
    "Verif.Control.Inputs.connect_spec",
    "Verif.Control.Inputs.connectPtr_spec",
    "Verif.Control.Inputs.read_spec",
    "Verif.Control.Inputs.reads_unique",
    "Verif.Control.Inputs.nested_read",
    "Verif.Control.Inputs.cyclic_read_diverges"
   ],
   "note": "cyclic_read_diverges is a remark: cyclic chains of nested inputs recurse forever"
  },
  {
   "property": "C24",
   "status": "proved",
   "theorems": [
    "Verif.Control.Algebra.sum_correct",
    "Verif.Control.Algebra.sum_later_runs",
    "Verif.Control.Algebra.sum_unconnected",
    "Verif.Control.Algebra.index_checked",
    "Verif.Control.Algebra.mul_correct",
    "Verif.Control.Algebra.mux_correct",
    "Verif.Control.Algebra.mux_unconnected",
    "Verif.Control.Algebra.demux_mux",
    "Verif.Control.Algebra.mux_demux"
   ],
   "note": "exact arithmetic"
  },
  {
   "property": "C25",
   "status": "partial",
   "theorems": [
    "Verif.Control.Delay.delay_shifts_partial",
    "Verif.Control.Delay.new_length",
    "Verif.Control.Delay.delay_one_short"
   ],
   "note": "the output is the input delayed by one sample less than configured: witness delay_one_short"
  },
  {
   "property": "C26",
   "status": "partial",
   "theorems": [
    "Verif.Control.Integrator.integrates_exactly",
    "Verif.Control.Integrator.first_run",
    "Verif.Control.Integrator.disabled_keeps",
    "Verif.Control.Integrator.outside_holds",
    "Verif.Control.Integrator.stays_in_limits",
    "Verif.Control.Integrator.output_in_limits",
    "Verif.Control.Integrator.nan_without_initial_condition",
    "Verif.Control.Integrator.limit_not_reached",
    "Verif.Control.Integrator.initial_condition_unchecked",
    "Verif.Control.Integrator.stays_short_violated"
   ],
   "note": "limits hold, but the integrator stops short of the limit, the initial condition is not checked and without initial condition the output is NaN. The part which holds is C157. stays_short_violated: for all limits and sample sequences"
  },
  {
   "property": "C27",
   "status": "proved",
   "theorems": [
    "Verif.Control.Differentiator.first_sample",
    "Verif.Control.Differentiator.difference_quotient",
    "Verif.Control.Differentiator.repeated_stamp",
    "Verif.Control.Differentiator.affine_exact"
   ],
   "note": "exact arithmetic"
  },
  {
   "property": "C28",
   "status": "proved",
   "theorems": [
    "Verif.Control.Saturation.saturates",
    "Verif.Control.Saturation.inside_unchanged",
    "Verif.Control.Saturation.special_values",
    "Verif.Control.Saturation.idempotent",
    "Verif.Control.Saturation.monotone",
    "Verif.Control.Saturation.disabled_passes",
    "Verif.Control.Saturation.vector_elementwise",
    "Verif.Control.Saturation.symmetric_limit"
   ],
   "note": ""
  },
  {
   "property": "C29",
   "status": "proved",
   "theorems": [
    "Verif.Control.RateLimiter.prev_is_last_output",
    "Verif.Control.RateLimiter.rate_bounded",
    "Verif.Control.RateLimiter.follows_input",
    "Verif.Control.RateLimiter.limited_exactly",
    "Verif.Control.RateLimiter.same_stamp_holds",
    "Verif.Control.RateLimiter.passes_unlimited",
    "Verif.Control.RateLimiter.symmetric_bound",
    "Verif.Control.RateLimiter.off_until_enabled"
   ],
   "note": "exact arithmetic"
  },
  {
   "property": "C30",
   "status": "partial",
   "theorems": [
    "Verif.Control.Switch.outputs_selected",
    "Verif.Control.Switch.always_publishes",
    "Verif.Control.Switch.switches_iff",
    "Verif.Control.Switch.once_per_arming",
    "Verif.Control.Switch.manual_switch",
    "Verif.Control.Switch.new_unarmed",
    "Verif.Control.Switch.configured",
    "Verif.Control.Switch.selects_existing",
    "Verif.Control.Switch.invalid_condition_reports_switch",
    "Verif.Control.Switch.unchecked_initial_position",
    "Verif.Control.Switch.invalid_condition_violated",
    "Verif.Control.Switch.unchecked_position_violated"
   ],
   "note": "holds for a configured existing input; a condition with a non-existing target reports a switch that did not happen and the constructor does not check the initial position. The part which holds is C158. violations for all states and inputs"
  },
  {
   "property": "C31",
   "status": "partial",
   "theorems": [
    "Verif.Control.WrapAround.wraps_partial",
    "Verif.Control.WrapAround.congruent_unique",
    "Verif.Control.WrapAround.lattice_points_pass",
    "Verif.Control.WrapAround.disabled_passes",
    "Verif.Control.WrapAround.lattice_point_not_wrapped",
    "Verif.Control.WrapAround.setMinMax_no_effect",
    "Verif.Control.WrapAround.setMinMax_violated",
    "Verif.Control.WrapAroundFl.negative_remainder_violated"
   ],
   "note": "inputs that are exact multiples of the range away from the limits pass unwrapped; setMinMax has no effect; with rounding (doubles) a negative remainder gets the width added but not the lower limit, so an input near 65 pi gives nearly 2 pi for the range [-pi, pi)"
  },
  {
   "property": "C32",
   "status": "proved",
   "theorems": [
    "Verif.Control.SignalChecker.fires_iff",
    "Verif.Control.SignalChecker.at_most_once_per_reset",
    "Verif.Control.SignalChecker.never_unregistered",
    "Verif.Control.SignalChecker.first_violation_fires",
    "Verif.Control.SignalChecker.new_spec"
   ],
   "note": ""
  },
  {
   "property": "C33",
   "status": "partial",
   "theorems": [
    "Verif.Control.Transition.steady_last_sample",
    "Verif.Control.Transition.steady_uninitialised_violated",
    "Verif.Control.Transition.up_before_first",
    "Verif.Control.Transition.up_refresh",
    "Verif.Control.Transition.up_interpolates_partial",
    "Verif.Control.Transition.down_newest_older_partial",
    "Verif.Control.Transition.down_only_sent",
    "Verif.Control.Transition.ratio_one_lags",
    "Verif.Control.Transition.equal_time_skipped",
    "Verif.Control.Transition.newer_sample_delivered",
    "Verif.Control.Transition.empty_buffer_undefined",
    "Verif.Control.Transition.equal_time_skipped_violated",
    "Verif.Control.Transition.newer_sample_violated",
    "Verif.Control.Transition.empty_buffer_violated",
    "Verif.Control.Transition.ratio_one_lags_violated"
   ],
   "note": "steady mode (once a sample was sent) and the interpolation formula hold; a steady transition with a ratio below one publishes uninitialised memory before the first sample, ratio one lags by a sample, fast to slow skips a sample at exactly the requested time, may deliver a newer one and reads an empty vector; the violations hold for all states and sequences; the exact output is C270"
  },
  {
   "property": "C34",
   "status": "proved",
   "theorems": [
    "Verif.Control.Trace.trace_last_samples",
    "Verif.Control.Trace.zero_length_undefined"
   ],
   "note": "for buffer lengths of at least one; zero is not rejected and writes outside the buffer"
  },
  {
   "property": "C35",
   "status": "proved",
   "theorems": [
    "Verif.Control.Filters.Median.median_of_window",
    "Verif.Control.Filters.window_full",
    "Verif.Control.Filters.Median.disabled_passes"
   ],
   "note": ""
  },
  {
   "property": "C36",
   "status": "proved",
   "theorems": [
    "Verif.Control.Filters.MovingAverage.moving_average",
    "Verif.Control.Filters.MovingAverage.moving_average_bounded",
    "Verif.Control.Filters.MovingAverage.disabled_passes",
    "Verif.Control.Filters.LowPass.low_pass_bounded",
    "Verif.Control.Filters.LowPass.low_pass_recursion"
   ],
   "note": "exact arithmetic"
  },
  {
   "property": "C37",
   "status": "proved",
   "theorems": [
    "Verif.Control.Gain.smooth_step",
    "Verif.Control.Gain.smooth_distance",
    "Verif.Control.Gain.smooth_arrives",
    "Verif.Control.Gain.run_in_limits",
    "Verif.Control.Gain.setGain_spec"
   ],
   "note": "exact arithmetic, target within the limits"
  },
  {
   "property": "C38",
   "status": "partial",
   "theorems": [
    "Verif.Planner.ConstAcc.reaches_end",
    "Verif.Planner.ConstAcc.within_limits",
    "Verif.Planner.ConstAcc.move_nowhere",
    "Verif.Planner.ConstAcc.consistent_partial",
    "Verif.Planner.ConstAcc.stands_still_at_speed",
    "Verif.Planner.ConstAcc.stands_still_violated"
   ],
   "note": "exact arithmetic, sampling time at least 1e-12; the outputs are consistent in all runs but one: in every move which does not need the maximum velocity the planner stands still for one run (stands_still_violated). The part which holds is C164, the exact condition C276."
  },
  {
   "property": "C39",
   "status": "partial",
   "theorems": [
    "Verif.Planner.ConstJerk.reaches_end_partial",
    "Verif.Planner.ConstJerk.short_move_never_finishes",
    "Verif.Planner.ConstJerk.short_move_exact"
   ],
   "note": "holds for moves long enough to reach the maximum velocity; all shorter moves never finish in exact arithmetic: short_move_never_finishes"
  },
  {
   "property": "C40",
   "status": "partial",
   "theorems": [
    "Verif.Hal.exclusive_until_release",
    "Verif.Hal.shared_until_release_partial",
    "Verif.Hal.handed_out_registered",
    "Verif.Hal.request_succeeds_iff",
    "Verif.Hal.one_release_clears_all_holders",
    "Verif.Hal.release_clears_all_violated"
   ],
   "note": "violated for shared holders: the first release clears the reservation of all holders. The part which holds is C159. violation for all histories: release_clears_all_violated"
  },
  {
   "property": "C41",
   "status": "partial",
   "theorems": [
    "Verif.Hal.unknown_name_keeps_signals_partial",
    "Verif.Hal.add_fresh_name",
    "Verif.Hal.unknown_lookup_poisons_name",
    "Verif.Hal.unknown_release_poisons_name",
    "Verif.Hal.unknown_get_returns_null",
    "Verif.Hal.unknown_name_blocked_violated",
    "Verif.Hal.unknown_get_null_violated"
   ],
   "note": "violated: a lookup of an unknown name inserts a null entry, so the name cannot be added afterwards; violations for all names and histories; the exact rule is C268"
  },
  {
   "property": "C42",
   "status": "partial",
   "theorems": [
    "Verif.Hal.Scale.stage_right_iff",
    "Verif.Hal.Scale.chain_right_partial",
    "Verif.Hal.Scale.range_without_zero_wrong"
   ],
   "note": "violated for stages whose input range does not map zero the way the formula assumes (e.g. 4..20 mA); stage_right_iff gives the exact condition"
  },
  {
   "property": "C43",
   "status": "partial",
   "theorems": [
    "Verif.Hal.Scale.range_is_intersection_partial",
    "Verif.Hal.Scale.decreasing_range_wrong",
    "Verif.Hal.Scale.noLimit_drops_limits",
    "Verif.Hal.Scale.noLimit_first_limits",
    "Verif.Hal.Scale.decreasing_empty_violated",
    "Verif.Hal.Scale.noLimit_last_violated",
    "Verif.Hal.Scale.noLimit_single_violated"
   ],
   "note": "violated for decreasing stages and for stages with noLimit; the violations hold for all chains of these kinds"
  },
  {
   "property": "C44",
   "status": "proved",
   "theorems": [
    "Verif.Control.PeripheralOutput.run_writes",
    "Verif.Control.PeripheralOutput.only_finite_written",
    "Verif.Control.PeripheralOutput.nan_triggers_safety_event",
    "Verif.Control.PeripheralOutput.nan_without_event_faults",
    "Verif.Control.PeripheralOutput.cycle_only_finite",
    "Verif.Control.PeripheralOutput.default_safe_writes_nan",
    "Verif.Control.PeripheralOutput.later_outputs_keep_value"
   ],
   "note": "without a configured safe value NaN is written (default_safe_writes_nan)"
  },
  {
   "property": "C45",
   "status": "partial",
   "theorems": [
    "Verif.Config.round_trip_partial",
    "Verif.Config.missing_kept",
    "Verif.Config.unknown_ignored",
    "Verif.Config.empty_array_throws",
    "Verif.Config.empty_name_lost",
    "Verif.Config.empty_name_violated"
   ],
   "note": "Round trip proved for names without white space other than the empty name, all int values, all strings without newline, doubles with at most six decimals (arrays: six significant digits; others see C130) and all arrays with at least one element. Violated for arrays of length 0 (loading the saved file throws std::invalid_argument) and for the empty name (value is lost)."
  },
  {
   "property": "C46",
   "status": "partial",
   "theorems": [
    "Verif.Config.array_loaded_partial",
    "Verif.Config.array_length",
    "Verif.Config.overflow",
    "Verif.Config.overflow_file",
    "Verif.Config.darray_loaded_partial",
    "Verif.Config.doverflow"
   ],
   "note": "Violated: a line with more numbers than the array has elements writes beyond the end (overflow, overflow_file). Proved for lines with at most as many numbers: the values followed by the default value."
  },
  {
   "property": "C47",
   "status": "proved",
   "theorems": [
    "Verif.Math.Mat.access_in_bounds",
    "Verif.Math.Mat.read_after_write",
    "Verif.Math.Mat.index_access",
    "Verif.Math.Mat.mul_assoc'",
    "Verif.Math.Mat.mul_add'",
    "Verif.Math.Mat.add_laws",
    "Verif.Math.Mat.eye_laws",
    "Verif.Math.Mat.smul_laws",
    "Verif.Math.Mat.transpose_laws",
    "Verif.Math.Mat.trace_eq",
    "Verif.Math.Mat.subMatrix_block"
   ],
   "note": "elements in a commutative ring (exact arithmetic)"
  },
  {
   "property": "C48",
   "status": "partial",
   "theorems": [
    "Verif.Math.Mat.det_eq",
    "Verif.Math.Mat.inverse_right_partial",
    "Verif.Math.Mat.inverse_1x1",
    "Verif.Math.Mat.inverse_1x1_no_fault",
    "Verif.Math.Mat.inverse_5x5_wrong",
    "Verif.Math.Mat.inverse_wrong",
    "Verif.Math.Mat.inverse_right_iff"
   ],
   "note": "determinant proved for all sizes; inverse right exactly for size 3 and powers of two (inverse_right_iff), violated for all other sizes and for the zero 1x1 matrix. The part which holds is C160."
  },
  {
   "property": "C49",
   "status": "partial",
   "theorems": [
    "Verif.Math.Mat.rank_right_sorted_partial",
    "Verif.Math.Mat.rank_right_partial",
    "Verif.Math.Mat.rank_zero_iff",
    "Verif.Math.Mat.rank_overcounts",
    "Verif.Math.Mat.rank_undercounts",
    "Verif.Math.Mat.rank1_inverted",
    "Verif.Math.Mat.rank_over_violated"
   ],
   "note": "right when the sorting leaves a row echelon form; violated in general (over- and undercount witnesses) and inverted for 1x1. For 2x2 matrices the exact condition is C277"
  },
  {
   "property": "C50",
   "status": "proved",
   "theorems": [
    "Verif.Math.Fraction.eval_mul",
    "Verif.Math.Fraction.eval_smul",
    "Verif.Math.Fraction.eval_add",
    "Verif.Math.Fraction.eval_addC",
    "Verif.Math.Fraction.eval_ofVec",
    "Verif.Math.Fraction.frac_pointwise",
    "Verif.Math.Fraction.eval_div"
   ],
   "note": "Fraction(n) has denominator zero (ofVec_denominator_zero)"
  },
  {
   "property": "C51",
   "status": "partial",
   "theorems": [
    "Verif.Math.Frame.frames_unique",
    "Verif.Math.Frame.coordinate_systems_unique",
    "Verif.Math.Frame.mul_frames",
    "Verif.Math.Frame.delete_frame",
    "Verif.Math.Frame.construct_iff_partial",
    "Verif.Math.Frame.homog_acts",
    "Verif.Math.Frame.composed_acts",
    "Verif.Math.Frame.lookup_blocks_name"
   ],
   "note": "uniqueness and composition proved; \"lookup has no effect\" is violated: looking up an unknown name blocks its later construction. The part which holds is C161."
  },
  {
   "property": "C52",
   "status": "partial",
   "theorems": [
    "Verif.Control.Kalman.kalman_psd_iff",
    "Verif.Control.Kalman.many_outputs_negative",
    "Verif.Control.Kalman.kalman_psd_partial",
    "Verif.Control.Kalman.correct_psd_partial",
    "Verif.Control.Kalman.predict_psd",
    "Verif.Control.Kalman.init_psd",
    "Verif.Control.Kalman.five_outputs_negative"
   ],
   "note": "holds exactly for 3 or 2^k outputs (kalman_psd_iff); violated for every other number of outputs because of C48. The part which holds is C162."
  },
  {
   "property": "C53",
   "status": "partial",
   "theorems": [
    "Verif.Control.Corrector.corrects_partial",
    "Verif.Control.Corrector.corrects_one_partial",
    "Verif.Control.Corrector.maps_vertices",
    "Verif.Control.Corrector.maps_unique",
    "Verif.Control.Corrector.shared_edge",
    "Verif.Control.Corrector.load_rejects",
    "Verif.Control.Corrector.get_undefined"
   ],
   "note": "The geometry is proved in full, provided the reserved but not existing elements of the buffer may be used. get_undefined: for every point in a triangle the code accesses an element beyond the size of the vector. The part which holds is C166."
  },
  {
   "property": "C54",
   "status": "proved",
   "theorems": [
    "Verif.Logger.filter",
    "Verif.Logger.only_finish_writes",
    "Verif.Logger.usable",
    "Verif.Logger.sys_trace_lost",
    "Verif.Logger.sys_nested"
   ],
   "note": "Proved for the stream writer, the only one the public interface can select. A logger created before setDefaultStreamLogger dereferences a null pointer (usable). SysLogWriter, which cannot be selected with the public interface, would violate the claim (sys_trace_lost, sys_nested)."
  },
  {
   "property": "C55",
   "status": "partial",
   "theorems": [
    "Verif.Sockets.framing_partial",
    "Verif.Sockets.complete",
    "Verif.Sockets.zeros",
    "Verif.Sockets.mixture",
    "Verif.Sockets.mixture_reached",
    "Verif.Sockets.uninitialised_reached",
    "Verif.Sockets.torn",
    "Verif.Sockets.not_torn"
   ],
   "note": "Proved for every chunking: buffers published while the connection is alive are the frames, none is lost, and after a lost connection the buffer is zero. Violated when the connection is lost: the incomplete buffer is published first (mixture), in the first cycle an uninitialised one. Violated for readers: the buffer is returned by reference, reads may be torn (torn). The part which holds is C167."
  },
  {
   "property": "C56",
   "status": "partial",
   "theorems": [
    "Verif.Sockets.never_ends",
    "Verif.Sockets.stop_ignored",
    "Verif.Sockets.stop_ignored_connecting",
    "Verif.Sockets.stop_partial"
   ],
   "note": "Violated: the inner loop does not look at running (never_ends, stop_ignored), and neither does the loop which tries to connect. Proved: after stop the thread ends as soon as the connection is lost."
  },
  {
   "property": "C57",
   "status": "partial",
   "theorems": [
    "Verif.Control.Can.decoded_partial",
    "Verif.Control.Can.offset_succ",
    "Verif.Control.Can.others_ignored",
    "Verif.Control.Can.configure_node",
    "Verif.Control.Can.scale_ignored",
    "Verif.Control.Can.scale_violated",
    "Verif.Control.Can.unscaled_violated",
    "Verif.Control.Can.short_message"
   ],
   "note": "Byte ranges, assignment to signals and the node filter proved for all mappings; the decoding function of the external library is a parameter. Violated: the scale is never applied (scale_ignored, scale_violated), and a message shorter than its mapping is decoded from bytes which were not received (short_message)."
  },
  {
   "property": "C58",
   "status": "partial",
   "theorems": [
    "Verif.Control.Mouse.within_limits",
    "Verif.Control.Mouse.follows",
    "Verif.Control.Mouse.starts_at_partial",
    "Verif.Control.Mouse.start_swapped",
    "Verif.Control.Mouse.start_discarded",
    "Verif.Control.Mouse.start_wrong"
   ],
   "note": "Limits and movement proved in full. The start position is violated: x and y offsets are computed from each other's counters, and a position set before the first run is discarded. The part which holds is C165."
  },
  {
   "property": "C59",
   "status": "partial",
   "theorems": [
    "Verif.Planner.Cubic.follows_table_partial",
    "Verif.Planner.Cubic.follows_scaled_partial",
    "Verif.Planner.Cubic.samples_continuous",
    "Verif.Planner.Cubic.ends_at_rest_partial",
    "Verif.Planner.Cubic.scaled_end_partial",
    "Verif.Planner.Cubic.stops_short",
    "Verif.Planner.Cubic.reads_uninitialised",
    "Verif.Planner.Cubic.resumes_old_index",
    "Verif.Planner.Cubic.empty_row_jumps",
    "Verif.Planner.Cubic.scaled_misses",
    "Verif.Planner.Cubic.stops_short_violated",
    "Verif.Planner.Cubic.resumes_violated",
    "Verif.Planner.Cubic.empty_row_jumps_violated"
   ],
   "note": "Violated as stated. Proved: after an idle run every table with non-empty rows is followed sample by sample, continuously, and the end is reported once; the distance is right if no row time is rounded. Violations: the end value of the last row is never output, a move before the first run reads an uninitialised member, a move after reset continues at the old index, rows rounded to zero samples make the position jump, rounding changes the distance. The first and the third violation hold for all tables (stops_short_violated, resumes_violated). The jump over a sample holds for all tables with an empty row before a longer one (empty_row_jumps_violated); the exact outputs for all tables are C317."
  },
  {
   "property": "C60",
   "status": "partial",
   "theorems": [
    "Verif.Control.ZTransfer.difference_equation_partial",
    "Verif.Control.ZTransfer.run_undefined",
    "Verif.Control.ZTransfer.any_first_output"
   ],
   "note": "Violated as stated: every run reads element -1 of both history arrays (undefined), and the arrays are never initialised, so any first output is possible. Proved: if the reads are harmless, whatever they give, the difference equation holds for all k with the memory content as prehistory."
  },
  {
   "property": "C61",
   "status": "proved",
   "theorems": [
    "Verif.Safety.quiet_runs_count",
    "Verif.Safety.accepted_event_resets",
    "Verif.Safety.InputReaction.higher_event_ignored",
    "Verif.Safety.ActivationCount.count_from_start",
    "Verif.Safety.ActivationCount.count_from_request",
    "Verif.Safety.ActivationCount.count_from_entry"
   ],
   "note": ""
  },
  {
   "property": "C62",
   "status": "partial",
   "theorems": [
    "Verif.Core.Executor.short_period_rejected_partial",
    "Verif.Core.Executor.nonpositive_period_accepted",
    "Verif.Core.Executor.nonpositive_always_accepted"
   ],
   "note": "the claim is false in the code: every period which is zero or negative (and fits into int) is accepted with a divisor which is not positive; positive periods below the base period are refused"
  },
  {
   "property": "C63",
   "status": "partial",
   "theorems": [
    "Verif.Control.Switch.Combined.combined_follow",
    "Verif.Control.Switch.Combined.combine_follows",
    "Verif.Control.Switch.Combined.acyclic_returns",
    "Verif.Control.Switch.Combined.mutual_combination_diverges"
   ],
   "note": "two switches combined with each other recurse forever. The part which holds is C163."
  },
  {
   "property": "C64",
   "status": "partial",
   "theorems": [
    "Verif.Control.Gain.enabling_smooth_keeps_partial",
    "Verif.Control.Gain.enabling_smooth_reverts_violated",
    "Verif.Control.Gain.enabling_smooth_reverts"
   ],
   "note": "after setting a gain without smooth change, enabling smooth change glides back to the old target"
  },
  {
   "property": "C65",
   "status": "proved",
   "theorems": [
    "Verif.Control.Gain.parabolic_odd",
    "Verif.Control.Gain.parabolic_pos",
    "Verif.Control.Gain.parabolic_le_linear",
    "Verif.Control.Gain.parabolic_monotone",
    "Verif.Control.Gain.parabolic_no_jump"
   ],
   "note": "over the reals"
  },
  {
   "property": "C66",
   "status": "proved",
   "theorems": [
    "Verif.Sequencer.no_null_dereference",
    "Verif.Sequencer.null_dereference_possible",
    "Verif.Sequencer.deadlock_possible"
   ],
   "note": "the calling discipline is a hypothesis; without it the dereference is possible (witness)"
  },
  {
   "property": "C67",
   "status": "proved",
   "theorems": [
    "Verif.Sequencer.inactive_idle",
    "Verif.Sequencer.stale_abort_possible"
   ],
   "note": "the calling discipline is a hypothesis; without it a stale abort is possible (witness)"
  },
  {
   "property": "C68",
   "status": "partial",
   "theorems": [
    "Verif.Hal.failed_construction_partial",
    "Verif.Hal.failed_construction_keeps_claim",
    "Verif.Hal.wrong_type_claims_violated"
   ],
   "note": "violated when the claimed signal has the wrong type; violation for all histories: wrong_type_claims_violated"
  },
  {
   "property": "C69",
   "status": "proved",
   "theorems": [
    "Verif.Control.Sources.step_output",
    "Verif.Control.Sources.reset_restarts"
   ],
   "note": ""
  },
  {
   "property": "C70",
   "status": "proved",
   "theorems": [
    "Verif.Control.Sources.constant_output"
   ],
   "note": ""
  },
  {
   "property": "C71",
   "status": "proved",
   "theorems": [
    "Verif.Math.Mat.stream_row_major",
    "Verif.Math.Mat.stream_too_many",
    "Verif.Math.Mat.ctor_column_major",
    "Verif.Math.Mat.subMatrix_block"
   ],
   "note": ""
  },
  {
   "property": "C72",
   "status": "proved",
   "theorems": [
    "Verif.Math.Mat.rot_orthogonal",
    "Verif.Math.Mat.rot_add",
    "Verif.Math.Mat.rot_sense",
    "Verif.Math.Mat.cross_laws"
   ],
   "note": ""
  },
  {
   "property": "C73",
   "status": "proved",
   "theorems": [
    "Verif.Math.Mat.predicates_right",
    "Verif.Math.Mat.isInvertible_iff",
    "Verif.Math.Mat.createDiag_right",
    "Verif.Math.Mat.isOrthogonal_iff"
   ],
   "note": ""
  },
  {
   "property": "C74",
   "status": "proved",
   "theorems": [
    "Verif.Math.Mat.rows_cols",
    "Verif.Math.Mat.rows_cols_range"
   ],
   "note": ""
  },
  {
   "property": "C75",
   "status": "proved",
   "theorems": [
    "Verif.Control.Kalman.exact_start_stays_exact",
    "Verif.Control.Kalman.error_dynamics"
   ],
   "note": ""
  },
  {
   "property": "C76",
   "status": "partial",
   "theorems": [
    "Verif.Planner.Clock.finishes_partial",
    "Verif.Planner.Clock.never_finishes"
   ],
   "note": "holds for phases whose accumulated rounding error stays below 1e-12; never_finishes is a witness (0.001 s, 7981 samples) that the full claim is false"
  },
  {
   "property": "C77",
   "status": "partial",
   "theorems": [
    "Verif.Planner.ConstJerk.consistent_partial",
    "Verif.Planner.ConstJerk.within_limits_partial",
    "Verif.Planner.ConstJerk.within_limits",
    "Verif.Planner.ConstJerk.short_inconsistent_violated"
   ],
   "note": "The limits hold for all moves (within_limits). Consistency proved for moves long enough to reach the maximum velocity; violated by every shorter one (short_inconsistent_violated), which gets stuck half way. What these do exactly is C273."
  },
  {
   "property": "C78",
   "status": "proved",
   "theorems": [
    "Verif.Control.ZTransfer.parallel",
    "Verif.Control.ZTransfer.series",
    "Verif.Control.ZTransfer.gain",
    "Verif.Control.ZTransfer.feed_through",
    "Verif.Control.ZTransfer.pid_law",
    "Verif.Control.ZTransfer.pt1_law",
    "Verif.Control.ZTransfer.d_law"
   ],
   "note": "For blocks started with zeros in memory and any values read in front of the arrays (see C60)."
  },
  {
   "property": "C79",
   "status": "partial",
   "theorems": [
    "Verif.Control.Can.sent_partial",
    "Verif.Control.Can.send_receive",
    "Verif.Control.Can.negative_undefined",
    "Verif.Control.Can.overflow"
   ],
   "note": "Proved for mappings of at most eight bytes and scaled values in the range of uint32_t, with one scale per node. Violated: negative values are undefined (negative_undefined), longer mappings overflow the buffer (overflow)."
  },
  {
   "property": "C80",
   "status": "partial",
   "theorems": [
    "Verif.Control.Can.angles_partial",
    "Verif.Control.Can.order_violated"
   ],
   "note": "Proved for frames which arrive in the order of the nodes. Violated otherwise: the identifier of the frame is not looked at."
  },
  {
   "property": "C81",
   "status": "proved",
   "theorems": [
    "Verif.Core.ExecutorRun.first_call_decides",
    "Verif.Core.ExecutorRun.run_starts_iff"
   ],
   "note": ""
  },
  {
   "property": "C82",
   "status": "proved",
   "theorems": [
    "Verif.Core.ExecutorRun.cycle_not_early",
    "Verif.Core.ExecutorRun.wakes_on_grid",
    "Verif.Core.ExecutorRun.cycles_in_order"
   ],
   "note": "exact time; the branch without EtherCAT and ROS"
  },
  {
   "property": "C83",
   "status": "partial",
   "theorems": [
    "Verif.Core.ExecutorRun.all_joined",
    "Verif.Core.ExecutorRun.stop_one_more_partial",
    "Verif.Core.ExecutorRun.stop_terminates_partial",
    "Verif.Core.ExecutorRun.stop_lost"
   ],
   "note": "Proved for calls after line 276. Violated: a call of stop during the start of the executor (at least one second) is forgotten and the executor runs for ever (stop_lost)."
  },
  {
   "property": "C84",
   "status": "partial",
   "theorems": [
    "Verif.Core.PeriodicCounter.counter_true",
    "Verif.Core.PeriodicCounter.counter_reset",
    "Verif.Core.PeriodicCounter.mean_period",
    "Verif.Core.PeriodicCounter.warns_iff",
    "Verif.Core.PeriodicCounter.resetCounter_defined",
    "Verif.Core.PeriodicCounter.default_undefined"
   ],
   "note": "Statistics proved in exact arithmetic. Not satisfied: every default-constructed counter converts infinity to int, which is undefined (default_undefined); the result is never read. The part which holds is C168."
  },
  {
   "property": "C85",
   "status": "partial",
   "theorems": [
    "Verif.Core.Startup.safe_iff",
    "Verif.Core.Startup.async_partial",
    "Verif.Core.Startup.async_violated",
    "Verif.Core.Startup.thread_violated",
    "Verif.Core.Startup.mouse_violated"
   ],
   "note": "Exact criterion proved for all constructors and threads (safe_iff). Violated by Async (logger constructed after the thread is started) and by every class derived from Thread (the virtual call may reach Thread::run). The part which holds is C169."
  },
  {
   "property": "C86",
   "status": "partial",
   "theorems": [
    "Verif.Hal.Keyboard.addKeys_defined",
    "Verif.Hal.Keyboard.one_block_partial",
    "Verif.Hal.Keyboard.second_block_shows_first",
    "Verif.Hal.Keyboard.second_block_events_lost"
   ],
   "note": "Proved for one keyboard block. Violated by a second block, which shows the keys of the first and whose inputs get no events."
  },
  {
   "property": "C87",
   "status": "partial",
   "theorems": [
    "Verif.Control.Signal.contents",
    "Verif.Control.Signal.id_halves",
    "Verif.Control.Signal.same_id_iff_partial",
    "Verif.Control.Signal.wrap_violated",
    "Verif.Control.Signal.copy_violated",
    "Verif.Control.Signal.lookup_violated",
    "Verif.Control.Signal.lookup_spec"
   ],
   "note": "Contents proved. Ids are unique among 65536 consecutive signals without copies; violated beyond that, by copies, and getSignalById never finds anything."
  },
  {
   "property": "C88",
   "status": "partial",
   "theorems": [
    "Verif.Hal.XBox.buttons_partial",
    "Verif.Hal.XBox.state_and_axes",
    "Verif.Hal.XBox.failed_read_repeats",
    "Verif.Hal.XBox.axis_range_partial",
    "Verif.Hal.XBox.axis_below",
    "Verif.Hal.XBox.block_output",
    "Verif.Hal.XBox.axis_below_violated",
    "Verif.Hal.XBox.failed_read_violated"
   ],
   "note": "Proved for reads which succeed and values from -32767. Violated: a failing read processes the last event again; -32768 gives an axis below -1. Both for all histories: axis_below_violated, failed_read_violated. What happens exactly when reads fail is C274."
  },
  {
   "property": "C89",
   "status": "partial",
   "theorems": [
    "Verif.Hal.SpaceNavigator.decode_low_high",
    "Verif.Hal.SpaceNavigator.stream_partial",
    "Verif.Hal.SpaceNavigator.garbage_skipped",
    "Verif.Hal.SpaceNavigator.truncated_violated",
    "Verif.Hal.SpaceNavigator.midway_violated",
    "Verif.Hal.SpaceNavigator.events",
    "Verif.Hal.SpaceNavigator.events_fresh",
    "Verif.Hal.SpaceNavigator.rotation_unset_violated"
   ],
   "note": "Proved for streams of complete packets and for event mode. Violated by a stream which ends inside a packet (stale bytes are used) or begins inside one; the rotations are not initialised before the first motion."
  },
  {
   "property": "C91",
   "status": "partial",
   "theorems": [
    "Verif.Hal.DeviceThread.returns_partial",
    "Verif.Hal.DeviceThread.not_connected_violated",
    "Verif.Hal.DeviceThread.early_violated",
    "Verif.Hal.DeviceThread.cases_complete"
   ],
   "note": "Proved when the thread has reached its loop. Violated: a device which was not found, and a device destroyed before its thread has set running, block the destructor for ever. Blocking reads are not modelled."
  },
  {
   "property": "C92",
   "status": "partial",
   "theorems": [
    "Verif.Control.RosTime.toRos_partial",
    "Verif.Control.RosTime.roundtrip_partial",
    "Verif.Control.RosTime.toEeros_exact",
    "Verif.Control.RosTime.toEeros_mod",
    "Verif.Control.RosTime.toRos_violated",
    "Verif.Control.RosTime.first_wrong",
    "Verif.Control.RosTime.toRos_undefined"
   ],
   "note": "Exact below 2^53 ns; violated from there on: the last nanosecond of each second converts to one second late, and from 2^31 seconds the conversion is undefined."
  },
  {
   "property": "C93",
   "status": "proved",
   "theorems": [
    "Verif.Control.RosTime.getTime_mono",
    "Verif.Control.RosTime.getTime_error",
    "Verif.Control.RosTime.getTime_strict",
    "Verif.Control.RosTime.timespec_exact"
   ],
   "note": ""
  },
  {
   "property": "C90",
   "status": "partial",
   "theorems": [
    "Verif.Hal.RPLidar.defined_iff",
    "Verif.Hal.RPLidar.nothing_in_range_violated",
    "Verif.Hal.RPLidar.values_partial",
    "Verif.Hal.RPLidar.last_scan"
   ],
   "note": "Values proved for scans with at least one measurement. Violated: a scan in which nothing was measured is searched beyond the array."
  },
  {
   "property": "C94",
   "status": "partial",
   "theorems": [
    "Verif.Hal.PixyCam.valid_iff_partial",
    "Verif.Hal.PixyCam.distCam_extent",
    "Verif.Hal.PixyCam.stale_violated",
    "Verif.Hal.PixyCam.raw_position",
    "Verif.Hal.PixyCam.filter_bounds",
    "Verif.Hal.PixyCam.swapped_violated",
    "Verif.Hal.PixyCam.poisoned_violated",
    "Verif.Hal.PixyCam.filter_step"
   ],
   "note": "Region, extent, raw position and filter bounds proved. Violated: the number of markers is ignored, filtered x and y are exchanged, coinciding markers make the filter non-finite for ever."
  },
  {
   "property": "C95",
   "status": "partial",
   "theorems": [
    "Verif.Hal.SysFs.first_read_partial",
    "Verif.Hal.SysFs.inverted_violated",
    "Verif.Hal.SysFs.later_violated",
    "Verif.Hal.SysFs.set_violated",
    "Verif.Hal.SysFs.set_blocks"
   ],
   "note": "Only the first read can be right. Violated: the parameter inverted is not stored, later reads do not depend on the pin, writes stay in the buffer."
  },
  {
   "property": "C96",
   "status": "partial",
   "theorems": [
    "Verif.Core.SharedMemory.life_partial",
    "Verif.Core.SharedMemory.pointer_iff",
    "Verif.Core.SharedMemory.descriptor_violated",
    "Verif.Core.SharedMemory.initialize_violated",
    "Verif.Core.SharedMemory.destroy_twice_violated"
   ],
   "note": "Mappings are released if only constructor and destructor are used. Violated: descriptor never closed, initialize maps again, destroy unmaps twice."
  },
  {
   "property": "C97",
   "status": "partial",
   "theorems": [
    "Verif.Sequencer.Stepping.as_requested_partial",
    "Verif.Sequencer.Stepping.repeated_violated",
    "Verif.Sequencer.Stepping.empty_violated"
   ],
   "note": "Proved while the client is connected. Violated: when the client leaves, its last command is executed again, or an uninitialised variable is evaluated."
  },
  {
   "property": "C98",
   "status": "partial",
   "theorems": [
    "Verif.Sequencer.Stepping.one_step_per_command_partial",
    "Verif.Sequencer.Stepping.waits_for_command",
    "Verif.Sequencer.Stepping.two_pass_violated",
    "Verif.Sequencer.Stepping.stale_violated",
    "Verif.Sequencer.Stepping.lost_command_violated"
   ],
   "note": "At most one step per command proved for one thread. Violated with two threads (both pass), by a command kept from before, and by two quick commands (one is lost)."
  },
  {
   "property": "C99",
   "status": "proved",
   "theorems": [
    "Verif.Core.CondSemaphore.conservation",
    "Verif.Core.CondSemaphore.bounded",
    "Verif.Core.CondSemaphore.waits_accounted",
    "Verif.Core.CondSemaphore.no_lost_wakeup",
    "Verif.Core.CondSemaphore.quiescent",
    "Verif.Core.CondSemaphore.timeout_false"
   ],
   "note": ""
  },
  {
   "property": "C100",
   "status": "partial",
   "theorems": [
    "Verif.Hal.ODrive.reply_consumed",
    "Verif.Hal.ODrive.velocity_truncated_partial",
    "Verif.Hal.ODrive.fraction_lost",
    "Verif.Hal.ODrive.reply_without_point",
    "Verif.Hal.ODrive.error_message_terminates",
    "Verif.Hal.ODrive.next_reply_damaged",
    "Verif.Hal.ODrive.next_reply_violated",
    "Verif.Hal.ODrive.message_then_reply_violated"
   ],
   "note": "Proved: the reply is consumed exactly and the value is the integer part. Violated: the digits behind the point are lost (fraction_lost), replies without a point block the thread or overflow the buffer (reply_without_point), an error message ends the program. For all replies and messages: next_reply_violated, message_then_reply_violated."
  },
  {
   "property": "C101",
   "status": "partial",
   "theorems": [
    "Verif.Hal.JsonParser.creates_what_is_written",
    "Verif.Hal.JsonParser.never_notLoaded",
    "Verif.Hal.JsonParser.success_all",
    "Verif.Hal.JsonParser.devices_independent",
    "Verif.Hal.JsonParser.unknown_device_key_ignored",
    "Verif.Hal.JsonParser.order_matters",
    "Verif.Hal.JsonParser.missing_encoder_channels_accepted",
    "Verif.Hal.JsonParser.partial_creation",
    "Verif.Hal.JsonParser.library_after_violated",
    "Verif.Hal.JsonParser.type_after_violated",
    "Verif.Hal.JsonParser.objects_stay_violated"
   ],
   "note": "Proved: the loops refine a stateless reading of the file. Violated: unknown keys of a device are ignored, the order of the keys matters, missing encoder channels are never reported, objects created before a fault stay. For all files: library_after_violated, type_after_violated, objects_stay_violated."
  },
  {
   "property": "C102",
   "status": "partial",
   "theorems": [
    "Verif.Core.RosSync.Topic.cycles_le_messages",
    "Verif.Core.RosSync.Topic.message_runs_partial",
    "Verif.Core.RosSync.Topic.message_lost",
    "Verif.Core.RosSync.Topic.stop_ends_partial",
    "Verif.Core.RosSync.Topic.stop_lost",
    "Verif.Core.RosSync.Topic.second_stop_throws"
   ],
   "note": "Proved for messages and calls of stop which find the executor waiting or in a cycle. Violated: messages during a cycle are lost, a stop between the test and the waiting is lost for ever, a second stop throws."
  },
  {
   "property": "C103",
   "status": "partial",
   "theorems": [
    "Verif.Core.RosSync.Time.plan",
    "Verif.Core.RosSync.Time.not_early",
    "Verif.Core.RosSync.Time.catches_up",
    "Verif.Core.RosSync.Time.stop_ends",
    "Verif.Core.RosSync.Time.clock_set_back",
    "Verif.Core.RosSync.Time.period_partial",
    "Verif.Core.RosSync.Time.period_cut"
   ],
   "note": "Violated: the period is cut off to nanoseconds after rounding, 15.7 ms become 15.699999 ms (period_cut); nothing runs after the clock was set back (clock_set_back). The part which holds is C170."
  },
  {
   "property": "C104",
   "status": "partial",
   "theorems": [
    "Verif.Control.RosBlocks.Sub2.run_takes_last",
    "Verif.Control.RosBlocks.Sub2.no_repetition",
    "Verif.Control.RosBlocks.Sub2.newest_partial",
    "Verif.Control.RosBlocks.Sub2.older_message_last",
    "Verif.Control.RosBlocks.Sub2.queue_unbounded",
    "Verif.Control.RosBlocks.Sub2.overtaken_violated"
   ],
   "note": "Proved for callbacks in one thread. Violated: with several threads an older message can replace a newer one; the queue is not limited. The part which holds is C171. overtaken_violated: in all states with two waiting messages."
  },
  {
   "property": "C105",
   "status": "partial",
   "theorems": [
    "Verif.Control.RosBlocks.Laser.published_partial",
    "Verif.Control.RosBlocks.Laser.roundtrip_partial",
    "Verif.Control.RosBlocks.Laser.receive_iff",
    "Verif.Control.RosBlocks.Laser.intensities_are_ranges",
    "Verif.Control.RosBlocks.Laser.intensities_uninitialised",
    "Verif.Control.RosBlocks.Laser.no_intensities_undefined"
   ],
   "note": "Proved for the numbers and the ranges. Violated: the published intensities are the ranges; scans without intensities make the subscriber read behind the end of a vector."
  },
  {
   "property": "C106",
   "status": "partial",
   "theorems": [
    "Verif.Control.RosBlocks.Sub1.newest_all",
    "Verif.Control.RosBlocks.Sub1.oldest_first",
    "Verif.Control.RosBlocks.Sub1.starved",
    "Verif.Control.RosBlocks.Sub1.falls_behind"
   ],
   "note": "Proved: newest with callNewest, first in first out over all blocks without. Violated: the queue is common, a block can run without getting its message. The part which holds is C172."
  },
  {
   "property": "C107",
   "status": "partial",
   "theorems": [
    "Verif.Control.RosBlocks.Analog.roundtrip",
    "Verif.Control.RosBlocks.Analog.longer_cut",
    "Verif.Control.RosBlocks.Analog.shorter_undefined"
   ],
   "note": "Violated: a message with less values than the output is read behind its end. The part which holds is C173."
  },
  {
   "property": "C108",
   "status": "partial",
   "theorems": [
    "Verif.Hal.ODriveUsb.attaches_iff",
    "Verif.Hal.ODriveUsb.selects_partial",
    "Verif.Hal.ODriveUsb.none_violated",
    "Verif.Hal.ODriveUsb.prefix_violated",
    "Verif.Hal.ODriveUsb.leading_zero_violated",
    "Verif.Hal.ODriveUsb.endstops_violated"
   ],
   "note": "Proved for serial numbers of equal length. Violated: a shorter number which is a prefix is accepted, leading zeros are lost, no error without any device, the end switch of motor 1 is written to the configuration of motor 0."
  },
  {
   "property": "C109",
   "status": "partial",
   "theorems": [
    "Verif.Hal.ODriveUsb.no_misuse_partial",
    "Verif.Hal.ODriveUsb.misuse_violated",
    "Verif.Hal.ODriveUsb.returns_partial",
    "Verif.Hal.ODriveUsb.hangs_violated"
   ],
   "note": "Violated: the destructor deletes the communication object before the thread has ended; without calibration the destructor never returns."
  },
  {
   "property": "C110",
   "status": "partial",
   "theorems": [
    "Verif.Hal.ODriveUsb.refs_requested",
    "Verif.Hal.ODriveUsb.sends_requested",
    "Verif.Hal.ODriveUsb.still_moving_violated"
   ],
   "note": "Proved for the velocities sent. Violated: the zero set points of the destructor may never reach the drive."
  },
  {
   "property": "C111",
   "status": "partial",
   "theorems": [
    "Verif.Hal.HalArgs.fault_iff",
    "Verif.Hal.HalArgs.first_partial",
    "Verif.Hal.HalArgs.late_violated",
    "Verif.Hal.HalArgs.again_violated",
    "Verif.Hal.HalArgs.dash_violated",
    "Verif.Hal.HalArgs.long_option_violated"
   ],
   "note": "Proved for -c as first argument. Violated: -c after two operands, a second call, --config, the check for en dashes."
  },
  {
   "property": "C112",
   "status": "partial",
   "theorems": [
    "Verif.Control.Subio.ports_partial",
    "Verif.Control.Subio.assigned_owned",
    "Verif.Control.Subio.setOut_violated",
    "Verif.Control.Subio.unassigned_violated"
   ],
   "note": "Violated: setOut does not check the index, an output which was not assigned is an indeterminate pointer."
  },
  {
   "property": "C113",
   "status": "proved",
   "theorems": [
    "Verif.Hal.Realsense.transforms_points",
    "Verif.Hal.Realsense.is_rotation",
    "Verif.Hal.Realsense.not_normalised"
   ],
   "note": "float is a commutative ring; without normalisation the matrix is no rotation (not_normalised). The driver computes the matrix but never uses it."
  },
  {
   "property": "C114",
   "status": "partial",
   "theorems": [
    "Verif.Hal.Sbg.outputs_latest",
    "Verif.Hal.Sbg.acc_gyro_same_time",
    "Verif.Hal.Sbg.counted",
    "Verif.Hal.Sbg.one_device_partial",
    "Verif.Hal.Sbg.timestamp_violated",
    "Verif.Hal.Sbg.devices_violated"
   ],
   "note": "Proved with one device. Violated: the data are static, blocks of different devices show the data of whichever sent last; timestamp is that of the Euler angles only. The part which holds is C174."
  },
  {
   "property": "C115",
   "status": "partial",
   "theorems": [
    "Verif.Hal.Torn.elements_partial",
    "Verif.Hal.Torn.undisturbed_partial",
    "Verif.Hal.Torn.stored_whole",
    "Verif.Hal.Torn.torn_violated",
    "Verif.Hal.Torn.torn_neither"
   ],
   "note": "Proved: every element was received, undisturbed copies are whole. Violated: a copy can be a mixture of two messages."
  },
  {
   "property": "C116",
   "status": "partial",
   "theorems": [
    "Verif.Control.EtherCat.el1008_bit",
    "Verif.Control.EtherCat.el2008_bits",
    "Verif.Control.EtherCat.digital_roundtrip",
    "Verif.Control.EtherCat.el2008_junk_violated",
    "Verif.Control.EtherCat.el2008_all_or_nothing",
    "Verif.Control.EtherCat.first_terminal",
    "Verif.Control.EtherCat.second_terminal_violated",
    "Verif.Control.EtherCat.el3004_range",
    "Verif.Control.EtherCat.el3004_mono",
    "Verif.Control.EtherCat.el4004_raw",
    "Verif.Control.EtherCat.el4004_infinite",
    "Verif.Control.EtherCat.el4004_nan_violated",
    "Verif.Control.EtherCat.analog_roundtrip",
    "Verif.Control.EtherCat.analog_scale_violated",
    "Verif.Control.EtherCat.el4004_all",
    "Verif.Control.EtherCat.el4004_partly_violated"
   ],
   "note": "Proved for all bits and voltages. Violated: a variable which was not initialised is written (upper bits), NaN is converted to an integer, the scales of the analog terminals differ, a missing input leaves some channels written, a second digital input terminal cannot be created. The part which holds is C175."
  },
  {
   "property": "C117",
   "status": "partial",
   "theorems": [
    "Verif.Control.EtherCat.elmo_sends",
    "Verif.Control.EtherCat.elmo_other",
    "Verif.Control.EtherCat.elmo_no_target",
    "Verif.Control.EtherCat.elmo_no_limit_violated"
   ],
   "note": "Violated: without the torque limit the target is sent before the fault."
  },
  {
   "property": "C118",
   "status": "partial",
   "theorems": [
    "Verif.Logger.Pretty.reads_back",
    "Verif.Logger.Pretty.value_right",
    "Verif.Logger.Pretty.unit_right",
    "Verif.Logger.Pretty.width_partial",
    "Verif.Logger.Pretty.power_violated",
    "Verif.Logger.Pretty.not_finite_violated"
   ],
   "note": "Values proved in exact arithmetic. Violated: negative powers of 1000 are written as 1000 of the smaller unit and are wider; values which are not finite are undefined. The part which holds is C176."
  },
  {
   "property": "C119",
   "status": "partial",
   "theorems": [
    "Verif.Sockets.Data.in_order_partial",
    "Verif.Sockets.Data.tx_last",
    "Verif.Sockets.Data.rx_last",
    "Verif.Sockets.Data.run_output",
    "Verif.Sockets.Data.isNew_iff",
    "Verif.Sockets.Data.short_write_violated",
    "Verif.Sockets.Data.uninitialised_violated",
    "Verif.Sockets.Data.lost_is_new_violated"
   ],
   "note": "Proved if the system accepts whole buffers. Violated: short writes are not noticed, the first frame may be an uninitialised buffer, a lost connection counts as new data."
  },
  {
   "property": "C120",
   "status": "partial",
   "theorems": [
    "Verif.Control.CanSend.sent_partial",
    "Verif.Control.CanSend.disabled_silent",
    "Verif.Control.CanSend.construct_spec",
    "Verif.Control.CanSend.recipients",
    "Verif.Control.CanSend.byte_uninitialised_violated",
    "Verif.Control.CanSend.negative_violated",
    "Verif.Control.CanSend.speed_unset_violated"
   ],
   "note": "Proved for set points in range with a speed set, except for the second byte. Violated: the second byte of every frame is never written, negative set points are undefined, the speed is not initialised."
  },
  {
   "property": "C121",
   "status": "partial",
   "theorems": [
    "Verif.Ui.Curses.newest_kept",
    "Verif.Ui.Curses.areas_partial",
    "Verif.Ui.Curses.sequences_violated",
    "Verif.Ui.Curses.printed_iff",
    "Verif.Ui.Curses.doubled_printed",
    "Verif.Ui.Curses.percent_violated"
   ],
   "note": "Messages proved. Violated: more than LINES-21 sequences are written over the messages; texts are used as printf formats. The part which holds is C178."
  },
  {
   "property": "C122",
   "status": "partial",
   "theorems": [
    "Verif.Ui.Curses.active_no_keys",
    "Verif.Ui.Curses.dispay_ends_violated",
    "Verif.Ui.Curses.destructor_hangs_violated",
    "Verif.Ui.Curses.destroyed_partial",
    "Verif.Ui.Curses.at_most_one",
    "Verif.Ui.Curses.never_again_violated"
   ],
   "note": "At most one at a time proved. Violated: the thread ends right after dispay without reading a key; a user interface which was never shown cannot be destroyed; none can be constructed after the first. The part which holds is C177."
  },
  {
   "property": "C123",
   "status": "partial",
   "theorems": [
    "Verif.Hal.Features.called_partial",
    "Verif.Hal.Features.missing_fault",
    "Verif.Hal.Features.only_named",
    "Verif.Hal.Features.types_violated",
    "Verif.Hal.Features.null_handle_violated",
    "Verif.Hal.Features.watchdog_partial"
   ],
   "note": "Proved for channels of libraries with matching argument types. Violated: argument types are not checked; channels without a library reach any function of the program."
  },
  {
   "property": "C124",
   "status": "partial",
   "theorems": [
    "Verif.Control.SafetyLevelPub.published_partial",
    "Verif.Control.SafetyLevelPub.silent",
    "Verif.Control.SafetyLevelPub.unset_violated"
   ],
   "note": "Proved after setSafetySystem. Violated: the pointer is not initialised, the check against null does not help."
  },
  {
   "property": "C125",
   "status": "partial",
   "theorems": [
    "Verif.Hal.Buttons.names_nodup",
    "Verif.Hal.Buttons.get_spec",
    "Verif.Hal.Buttons.first_partial",
    "Verif.Hal.Buttons.gone_violated",
    "Verif.Hal.Buttons.second_violated",
    "Verif.Hal.Buttons.read_exact",
    "Verif.Hal.Buttons.construct_iff"
   ],
   "note": "Proved for the first object while it exists. Violated: inputs stay registered after the destruction; a second object throws or hangs. The result of every read is given for all histories, and a construction succeeds exactly if it is the first of the program."
  },
  {
   "property": "C126",
   "status": "partial",
   "theorems": [
    "Verif.Control.ODriveBlock.never_moves_violated",
    "Verif.Control.ODriveBlock.infinite_violated",
    "Verif.Control.ODriveBlock.currents_partial",
    "Verif.Control.ODriveBlock.consistent_partial",
    "Verif.Control.ODriveBlock.uart_violated"
   ],
   "note": "Currents proved. Violated: 1/6.28 is converted to the integer 0: every set point is zero, every velocity infinite or NaN; the block for the serial line ignores its input."
  },
  {
   "property": "C127",
   "status": "partial",
   "theorems": [
    "Verif.Math.Matrix1.algebra_partial",
    "Verif.Math.Matrix1.index_partial",
    "Verif.Math.Matrix1.index_violated",
    "Verif.Math.Matrix1.rank_violated",
    "Verif.Math.Matrix1.orthogonal_partial",
    "Verif.Math.Matrix1.orthogonal_violated",
    "Verif.Math.Matrix1.orthogonal_exact_violated"
   ],
   "note": "Algebra, determinant, trace and inverse proved. Violated: rank is wrong for every matrix; (-1) is not called orthogonal; indices are taken modulo 256 or ignored."
  },
  {
   "property": "C128",
   "status": "partial",
   "theorems": [
    "Verif.Hal.BaumerData.normal",
    "Verif.Hal.BaumerData.special",
    "Verif.Hal.BaumerData.distance_partial",
    "Verif.Hal.BaumerData.stale_violated",
    "Verif.Hal.BaumerData.unset_violated"
   ],
   "note": "Proved after a good read (exact product). Violated: failed reads are not noticed, the old distance gets new timestamps; before the first read the distance is not initialised."
  },
  {
   "property": "C129",
   "status": "partial",
   "theorems": [
    "Verif.Control.RosData.array_partial",
    "Verif.Control.RosData.received",
    "Verif.Control.RosData.short_violated",
    "Verif.Control.RosData.columns_violated",
    "Verif.Control.RosData.unconnected",
    "Verif.Control.RosData.twist_spec",
    "Verif.Control.RosData.odometry_spec",
    "Verif.Control.RosData.odometry_all"
   ],
   "note": "Proved for column vectors, twists and odometry. Violated: short messages are read behind their end; only the first column is published."
  },
  {
   "property": "C130",
   "status": "partial",
   "theorems": [
    "Verif.Config.double_round_trip_iff",
    "Verif.Config.double_error",
    "Verif.Config.small_double_violated",
    "Verif.Config.double_array_iff",
    "Verif.Config.double_array_error",
    "Verif.Config.small_element_violated"
   ],
   "note": "Violated for all doubles which are not nearest to a decimal number with six decimals (scalar) or six significant digits (array element): exact conditions and error bounds proved. Numbers of at most 5e-7 are loaded as zero; an array element of at most 2.22e-308 other than zero makes load throw std::out_of_range. The part which holds is C179."
  },
  {
   "property": "C131",
   "status": "proved",
   "theorems": [
    "Verif.External.ODriveEP.packet_fields",
    "Verif.External.ODriveEP.seq_closed",
    "Verif.External.ODriveEP.seq_repeats_iff",
    "Verif.External.ODriveEP.request_unlocks"
   ],
   "note": "bit 7 of the sequence number is always set (the constant of USB endpoints is used as mask), so the period is 16384 instead of 32768"
  },
  {
   "property": "C132",
   "status": "partial",
   "theorems": [
    "Verif.External.ODriveEP.get_partial",
    "Verif.External.ODriveEP.get_failed",
    "Verif.External.ODriveEP.get_defined_iff",
    "Verif.External.ODriveEP.empty_answer_violated",
    "Verif.External.ODriveEP.other_answer_violated",
    "Verif.External.ODriveEP.late_answer_violated"
   ],
   "note": "violated: the sequence number of an answer is only logged, after one late answer every read returns the value of the read before; an answer without data counts as success; a short answer is read behind its end"
  },
  {
   "property": "C133",
   "status": "partial",
   "theorems": [
    "Verif.External.ODriveEP.download_partial",
    "Verif.External.ODriveEP.download_exact_iff",
    "Verif.External.ODriveEP.first_failed_violated",
    "Verif.External.ODriveEP.one_failed_violated",
    "Verif.External.ODriveEP.unplugged_violated"
   ],
   "note": "proved if no request fails, and exactly then (download_exact_iff, for texts without equal neighbouring parts); violated: results of the requests are ignored, so a failure uses an indeterminate length, repeats a part and loses another, or loops for ever"
  },
  {
   "property": "C134",
   "status": "partial",
   "theorems": [
    "Verif.External.ODriveEP.init_partial",
    "Verif.External.ODriveEP.init_once",
    "Verif.External.ODriveEP.no_device_violated",
    "Verif.External.ODriveEP.release_violated"
   ],
   "note": "violated: without devices init returns 0 and keeps the list; the destructor releases interface 0 though interface 2 was claimed"
  },
  {
   "property": "C135",
   "status": "partial",
   "theorems": [
    "Verif.Sequencer.abort_all_partial",
    "Verif.Sequencer.abort_kept",
    "Verif.Sequencer.abort_ends_partial",
    "Verif.Sequencer.started_later_violated",
    "Verif.Sequencer.cleared_violated"
   ],
   "note": "Violated in general: one action may still begin after abort() (the bound 1 is reached in the example of abort_all_partial), a non-blocking sequence started by a running action after abort() resets its own flag and executes (started_later_violated), and a sequence removed from the list by clearList() is never aborted (cleared_violated). Proved: until an aborted blocking sequence returns, at most one action of it or of its callees begins; its flag stays set; and if the actions start no other sequences, a thread whose active sequences are all in the list or below one in the list is empty after a bounded number of steps and never stuck before. For monitors with behavior abort and without exception sequence (the default monitors)."
  },
  {
   "property": "C136",
   "status": "partial",
   "theorems": [
    "Verif.Control.ControlInput.follows_partial",
    "Verif.Control.ControlInput.kept_iff",
    "Verif.Control.ControlInput.reconnected_violated",
    "Verif.Control.ControlInput.disconnected_violated"
   ],
   "note": "Violated in general: the constructor keeps the signal, not the input. After the control input is connected to another output the safety system still reads the old one (reconnected_violated), and after it is disconnected the safety system reads the last value without a fault (disconnected_violated). Proved as long as nothing is disconnected, through any chain of sub-block inputs and whatever is connected meanwhile."
  },
  {
   "property": "C137",
   "status": "partial",
   "theorems": [
    "Verif.Hal.Snapshot.fields_recent",
    "Verif.Hal.Snapshot.outputs_recent",
    "Verif.Hal.Snapshot.whole_partial",
    "Verif.Hal.Snapshot.mixed_violated",
    "Verif.Hal.Snapshot.validity_violated"
   ],
   "note": "Violated for every device thread which stores at least two fields, whatever the order (mixed_violated): a run of the block between two assignments gives out fields of two measurements; with PixyCam the validity of picture n+1 comes with the position of picture n (validity_violated). Proved: every output is at most one measurement older than the one at the start of the run, and a run while nothing is being stored gives out one measurement. The part which holds is C180."
  },
  {
   "property": "C138",
   "status": "partial",
   "theorems": [
    "Verif.Sockets.SendLock.early_bounded",
    "Verif.Sockets.SendLock.early_free",
    "Verif.Sockets.SendLock.late_violated"
   ],
   "note": "Violated by the client which only sends: it keeps the mutex during write() (SocketClient.hpp:208-211), so setSendBuffer, and with it the control loop, is blocked as long as the peer takes no data (late_violated). Proved for the three others, with the bound n + 2 steps. The part which holds is C181."
  },
  {
   "property": "C139",
   "status": "partial",
   "theorems": [
    "Verif.Core.WindowsTime.time_exact_partial",
    "Verif.Core.WindowsTime.time_monotone_partial",
    "Verif.Core.WindowsTime.division_violated",
    "Verif.Core.WindowsTime.backwards_violated"
   ],
   "note": "Violated with several threads: initialized is set before the offset and the scale are stored, a second thread divides by zero (division_violated); two threads may both store the offset, the time then runs backwards (backwards_violated). Proved if one thread finishes its first call before any other call begins. Exact arithmetic."
  },
  {
   "property": "C140",
   "status": "partial",
   "theorems": [
    "Verif.Control.Dataflow.cycle_values",
    "Verif.Control.Dataflow.sorted_solves",
    "Verif.Control.Dataflow.solution_unique",
    "Verif.Control.Dataflow.order_irrelevant",
    "Verif.Control.Dataflow.fault_cuts",
    "Verif.Control.Dataflow.no_fault",
    "Verif.Control.Dataflow.reversed_cycle",
    "Verif.Control.Dataflow.reversed_delays_violated",
    "Verif.Control.Dataflow.forward_no_delay"
   ],
   "note": "Violated for orders which do not follow the signals: a chain of n blocks added in reverse order delays by n - 1 cycles (reversed_delays_violated, for every n). Proved exactly for every order what a block sees (cycle_values); for orders following the signals the cycle gives the only solution of the equations, the same for all such orders; what a fault leaves unchanged. The part which holds is C182."
  },
  {
   "property": "C141",
   "status": "partial",
   "theorems": [
    "Verif.Control.Dataflow.valid_after",
    "Verif.Control.Dataflow.loop_never_valid_violated"
   ],
   "note": "Violated for loops whose blocks give NaN for NaN: their signals stay NaN in all cycles (loop_never_valid_violated). Proved for diagrams with a rank, in any order of the blocks: a signal is valid after as many cycles as its rank requires (valid_after). The part which holds is C183."
  },
  {
   "property": "C142",
   "status": "partial",
   "theorems": [
    "Verif.Safety.Reaction.fault_reaction",
    "Verif.Safety.Reaction.bad_value_faulty",
    "Verif.Safety.Reaction.private_event_violated",
    "Verif.Safety.Reaction.no_event_violated"
   ],
   "note": "Violated if the event is registered as a private one, since the time domain triggers without context (private_event_violated), and without a registered event: the exception leaves the thread of the time domain and ends the program (no_event_violated). Proved for public events, any history and any other events, for the next run of the safety system. Time domains run in threads of their own, so it is not always the cycle of the executor which started the run of the time domain (C155). The part which holds is C184."
  },
  {
   "property": "C143",
   "status": "partial",
   "theorems": [
    "Verif.Control.TimeDiff.dt_sign",
    "Verif.Control.TimeDiff.dt_error",
    "Verif.Control.TimeDiff.dt_multiple",
    "Verif.Control.TimeDiff.millisecond_violated",
    "Verif.Control.TimeDiff.quotient",
    "Verif.Control.TimeDiff.slope_error_partial",
    "Verif.Control.TimeDiff.slope_violated",
    "Verif.Control.TimeDiff.same_seconds_violated",
    "Verif.Control.TimeDiff.change_lost_violated",
    "Verif.Control.TimeDiff.stamp_middle"
   ],
   "note": "Violated for large clocks: the time is converted to seconds before the subtraction. With the time since 1970 all differences are multiples of 2^-22 s, a cycle of 1 ms is never measured better than to 7e-5 and every slope is wrong by more than 5e-5 (millisecond_violated, slope_violated); up to 128 time stamps give the same time and the change of the input is lost (change_lost_violated). Proved: the sign, and an error of at most 2^-50 of the clock value for all stamps. Unbounded exponents. The part which holds is C185."
  },
  {
   "property": "C144",
   "status": "partial",
   "theorems": [
    "Verif.Control.GainFl.no_overshoot",
    "Verif.Control.GainFl.arrives_partial",
    "Verif.Control.GainFl.stuck_violated",
    "Verif.Control.GainFl.output_spec"
   ],
   "note": "Violated for differences below half the distance of the doubles at the gain: the gain never moves (stuck_violated). Proved: no overshoot for all doubles; arrival within 2 (distance to the target) / difference runs if the difference is at least the distance of the doubles at the bound of gain and target. The part which holds is C186."
  },
  {
   "property": "C145",
   "status": "partial",
   "theorems": [
    "Verif.Core.StatisticsFl.mean_error",
    "Verif.Core.StatisticsFl.variance_error",
    "Verif.Core.StatisticsFl.others_exact",
    "Verif.Core.StatisticsFl.negative_variance_violated",
    "Verif.Core.StatisticsFl.mean_above_max_violated",
    "Verif.Core.StatisticsFl.spread_lost_violated",
    "Verif.Core.StatisticsFl.negative_variance_all_violated",
    "Verif.Core.StatisticsFl.mean_above_all_violated"
   ],
   "note": "Violated: five periods of 0.001 s have a negative variance, the mean of three times 0.1 is above the maximum, and the values 2^e - 1, 2^e + 1 have variance 0 for every e from 28 to 52. Proved for all histories: error bounds for the mean (relative to the mean magnitude) and the variance (relative to the mean square); the other figures are exact. The part which holds is C187. Both hold in all units which differ by a power of two (C318)."
  },
  {
   "property": "C146",
   "status": "partial",
   "theorems": [
    "Verif.Control.IntegratorFl.dt_exact",
    "Verif.Control.IntegratorFl.elapsed_exact",
    "Verif.Control.IntegratorFl.integral_error_partial",
    "Verif.Control.IntegratorFl.stuck_violated",
    "Verif.Control.IntegratorFl.disabled_keeps",
    "Verif.Control.IntegratorFl.first_keeps"
   ],
   "note": "Violated for increments below half the distance of the doubles at the value reached: the output stays for ever (stuck_violated). Proved: the time differences are exact subtractions and telescope; the error of the integral is one rounding per cycle relative to the sum of magnitudes, away from the limits. The part which holds is C188."
  },
  {
   "property": "C147",
   "status": "partial",
   "theorems": [
    "Verif.Control.FiltersFl.MovingAverage.average_error",
    "Verif.Control.FiltersFl.LowPass.out_approx",
    "Verif.Control.FiltersFl.LowPass.settles_partial",
    "Verif.Control.FiltersFl.LowPass.never_reached_violated",
    "Verif.Control.FiltersFl.LowPass.below_inputs_violated",
    "Verif.Control.IeeeSettle.zero_never_reached_violated",
    "Verif.Control.UnitsFl.LowPass.never_reached_all_violated",
    "Verif.Control.UnitsFl.LowPass.below_inputs_all_violated"
   ],
   "note": "Violated for the low pass filter: with the weight 0.001 it stops 499 doubles below the constant input 1 for ever (never_reached_violated), and it leaves the range of its inputs (below_inputs_violated); with every weight below one half it never reaches the input zero from any positive output (zero_never_reached_violated). Proved: error bound of the moving average for every history, and the geometric approach of the low pass filter up to a bound given by the rounding. The part which holds is C189. Both hold in all units which differ by a power of two (C319)."
  },
  {
   "property": "C148",
   "status": "partial",
   "theorems": [
    "Verif.Math.DetFl.mul_error",
    "Verif.Math.DetFl.det_error",
    "Verif.Math.DetFl.invertible_partial",
    "Verif.Math.DetFl.sign_2x2_partial",
    "Verif.Math.DetFl.taken_for_singular_violated",
    "Verif.Math.DetFl.taken_for_invertible_violated"
   ],
   "note": "The test with != 0 is violated in both directions: invertible 2x2 matrices are taken for singular (taken_for_singular_violated, for 25 values of e) and a singular 3x3 matrix for invertible (taken_for_invertible_violated). Proved: error bounds of product and determinant for every size; matrices with a determinant above the bound are recognised; for 2x2 matrices the sign is never wrong and singular matrices are always recognised. Overflow and underflow are not modelled. The part which holds is C190."
  },
  {
   "property": "C149",
   "status": "partial",
   "theorems": [
    "Verif.Control.RateLimiterFl.rate_bounded_partial",
    "Verif.Control.RateLimiterFl.equal_times",
    "Verif.Control.RateLimiterFl.towards_partial",
    "Verif.Control.RateLimiterFl.arrives_partial",
    "Verif.Control.RateLimiterFl.passes_input_violated",
    "Verif.Control.RateLimiterFl.stuck_violated",
    "Verif.Control.UnitsFl.RateLimiter.passes_input_all_violated"
   ],
   "note": "Violated: the output can pass the input by a rounding (passes_input_violated) and never moves if the change per run is less than half the distance of the doubles at the output (stuck_violated, for all inputs and numbers of runs). Proved: the rate bound up to roundings, the direction and the bound of the overshoot, and arrival exactly at a constant input if the change per run is at least 32 times the distance of the doubles at the values, however the times vary. The overshoot exists in all units which differ by a power of two (C319)."
  },
  {
   "property": "C150",
   "status": "partial",
   "theorems": [
    "Verif.Logger.Concurrent.lines_complete",
    "Verif.Logger.Concurrent.file_prefix",
    "Verif.Logger.Concurrent.same_lines",
    "Verif.Logger.Concurrent.category_partial",
    "Verif.Logger.Concurrent.order_violated",
    "Verif.Logger.Concurrent.category_violated"
   ],
   "note": "Violated: the order on the screen and in the file can differ (order_violated) and a logger can get the category another thread asked for (category_violated), because neither getLogger nor StreamLogWriter::end takes a lock. Proved for all interleavings, if the insertion of one line into a stream is atomic: each thread's messages are complete and in order in both, stream and file contain the same lines; categories are right if calls of getLogger do not overlap. The part which holds is C191."
  },
  {
   "property": "C151",
   "status": "partial",
   "theorems": [
    "Verif.Planner.MoveRace.ends_at_target_partial",
    "Verif.Planner.MoveRace.begins_at_last_partial",
    "Verif.Planner.MoveRace.end_overwritten_violated",
    "Verif.Planner.MoveRace.begins_behind_violated"
   ],
   "note": "Holds for all interleavings if move is only called after endReached was true. Violated otherwise, although move itself tests finished: it does so without the mutex, so that the end position of the other axes can be overwritten during the last run (end_overwritten_violated), and move(end) copies the position before the test (begins_behind_violated)."
  },
  {
   "property": "C152",
   "status": "proved",
   "theorems": [
    "Verif.Core.Threads.after_order",
    "Verif.Core.Threads.created_wf"
   ],
   "note": "The lists created by the executor satisfy the hypotheses (created_wf)."
  },
  {
   "property": "C153",
   "status": "proved",
   "theorems": [
    "Verif.Core.Threads.task_rate",
    "Verif.Core.Threads.task_count",
    "Verif.Core.Threads.created_rate"
   ],
   "note": ""
  },
  {
   "property": "C154",
   "status": "partial",
   "theorems": [
    "Verif.Core.Threads.one_per_cycle_partial",
    "Verif.Core.Threads.one_per_cycle_violated"
   ],
   "note": "Violated: after a delay a task makes up for all the runs it missed, any number of times within a cycle of the executor (one_per_cycle_violated). Proved from any point at which all threads are idle."
  },
  {
   "property": "C155",
   "status": "partial",
   "theorems": [
    "Verif.Core.Threads.before_requested_partial",
    "Verif.Core.Threads.before_order_violated"
   ],
   "note": "Violated: the thread of a task is only told to run and not waited for, so in every tree of tasks the main task can run any number of times before any other task begins (before_order_violated). Proved that it has been told to run in time (before_requested_partial)."
  },
  {
   "property": "C156",
   "status": "proved",
   "theorems": [
    "Verif.Core.Semaphore.semaphore_conserves",
    "Verif.Core.Semaphore.waits_le_posts",
    "Verif.Core.Semaphore.waits_iff",
    "Verif.Core.Async.async_at_most_once_per_run"
   ],
   "note": "The part of C20 which holds."
  },
  {
   "property": "C157",
   "status": "proved",
   "theorems": [
    "Verif.Control.Integrator.integrates_exactly",
    "Verif.Control.Integrator.first_run",
    "Verif.Control.Integrator.disabled_keeps",
    "Verif.Control.Integrator.outside_holds",
    "Verif.Control.Integrator.stays_in_limits",
    "Verif.Control.Integrator.output_in_limits"
   ],
   "note": "The part of C26 which holds."
  },
  {
   "property": "C158",
   "status": "proved",
   "theorems": [
    "Verif.Control.Switch.outputs_selected",
    "Verif.Control.Switch.always_publishes",
    "Verif.Control.Switch.switches_iff",
    "Verif.Control.Switch.once_per_arming",
    "Verif.Control.Switch.manual_switch",
    "Verif.Control.Switch.new_unarmed",
    "Verif.Control.Switch.configured",
    "Verif.Control.Switch.selects_existing"
   ],
   "note": "The part of C30 which holds."
  },
  {
   "property": "C159",
   "status": "proved",
   "theorems": [
    "Verif.Hal.exclusive_until_release",
    "Verif.Hal.handed_out_registered",
    "Verif.Hal.request_succeeds_iff"
   ],
   "note": "The part of C40 which holds."
  },
  {
   "property": "C160",
   "status": "proved",
   "theorems": [
    "Verif.Math.Mat.det_eq",
    "Verif.Math.Mat.inverse_right_iff"
   ],
   "note": "The part of C48 which holds."
  },
  {
   "property": "C161",
   "status": "proved",
   "theorems": [
    "Verif.Math.Frame.frames_unique",
    "Verif.Math.Frame.coordinate_systems_unique",
    "Verif.Math.Frame.mul_frames",
    "Verif.Math.Frame.delete_frame",
    "Verif.Math.Frame.homog_acts",
    "Verif.Math.Frame.composed_acts"
   ],
   "note": "The part of C51 which holds."
  },
  {
   "property": "C162",
   "status": "proved",
   "theorems": [
    "Verif.Control.Kalman.kalman_psd_iff"
   ],
   "note": "The part of C52 which holds."
  },
  {
   "property": "C163",
   "status": "proved",
   "theorems": [
    "Verif.Control.Switch.Combined.combined_follow",
    "Verif.Control.Switch.Combined.combine_follows",
    "Verif.Control.Switch.Combined.acyclic_returns"
   ],
   "note": "The part of C63 which holds."
  },
  {
   "property": "C164",
   "status": "proved",
   "theorems": [
    "Verif.Planner.ConstAcc.reaches_end",
    "Verif.Planner.ConstAcc.within_limits",
    "Verif.Planner.ConstAcc.move_nowhere",
    "Verif.Planner.ConstAcc.setStart_spec"
   ],
   "note": "The part of C38 which holds."
  },
  {
   "property": "C165",
   "status": "proved",
   "theorems": [
    "Verif.Control.Mouse.within_limits",
    "Verif.Control.Mouse.follows"
   ],
   "note": "The part of C58 which holds."
  },
  {
   "property": "C166",
   "status": "proved",
   "theorems": [
    "Verif.Control.Corrector.maps_vertices",
    "Verif.Control.Corrector.maps_unique",
    "Verif.Control.Corrector.shared_edge",
    "Verif.Control.Corrector.load_rejects"
   ],
   "note": "The part of C53 which holds."
  },
  {
   "property": "C167",
   "status": "proved",
   "theorems": [
    "Verif.Sockets.complete",
    "Verif.Sockets.zeros"
   ],
   "note": "The part of C55 which holds."
  },
  {
   "property": "C168",
   "status": "proved",
   "theorems": [
    "Verif.Core.PeriodicCounter.counter_true",
    "Verif.Core.PeriodicCounter.counter_reset",
    "Verif.Core.PeriodicCounter.mean_period",
    "Verif.Core.PeriodicCounter.warns_iff",
    "Verif.Core.PeriodicCounter.resetCounter_defined"
   ],
   "note": "The part of C84 which holds."
  },
  {
   "property": "C169",
   "status": "proved",
   "theorems": [
    "Verif.Core.Startup.safe_iff"
   ],
   "note": "The part of C85 which holds."
  },
  {
   "property": "C170",
   "status": "proved",
   "theorems": [
    "Verif.Core.RosSync.Time.plan",
    "Verif.Core.RosSync.Time.not_early",
    "Verif.Core.RosSync.Time.catches_up",
    "Verif.Core.RosSync.Time.stop_ends"
   ],
   "note": "The part of C103 which holds."
  },
  {
   "property": "C171",
   "status": "proved",
   "theorems": [
    "Verif.Control.RosBlocks.Sub2.run_takes_last",
    "Verif.Control.RosBlocks.Sub2.no_repetition"
   ],
   "note": "The part of C104 which holds."
  },
  {
   "property": "C172",
   "status": "proved",
   "theorems": [
    "Verif.Control.RosBlocks.Sub1.newest_all",
    "Verif.Control.RosBlocks.Sub1.oldest_first"
   ],
   "note": "The part of C106 which holds."
  },
  {
   "property": "C173",
   "status": "proved",
   "theorems": [
    "Verif.Control.RosBlocks.Analog.roundtrip",
    "Verif.Control.RosBlocks.Analog.longer_cut"
   ],
   "note": "The part of C107 which holds."
  },
  {
   "property": "C174",
   "status": "proved",
   "theorems": [
    "Verif.Hal.Sbg.outputs_latest",
    "Verif.Hal.Sbg.acc_gyro_same_time",
    "Verif.Hal.Sbg.counted"
   ],
   "note": "The part of C114 which holds."
  },
  {
   "property": "C175",
   "status": "proved",
   "theorems": [
    "Verif.Control.EtherCat.el1008_bit",
    "Verif.Control.EtherCat.el2008_bits",
    "Verif.Control.EtherCat.digital_roundtrip",
    "Verif.Control.EtherCat.el2008_all_or_nothing",
    "Verif.Control.EtherCat.first_terminal",
    "Verif.Control.EtherCat.el3004_range",
    "Verif.Control.EtherCat.el3004_mono",
    "Verif.Control.EtherCat.el4004_raw",
    "Verif.Control.EtherCat.el4004_infinite",
    "Verif.Control.EtherCat.analog_roundtrip",
    "Verif.Control.EtherCat.el4004_all"
   ],
   "note": "The part of C116 which holds."
  },
  {
   "property": "C176",
   "status": "proved",
   "theorems": [
    "Verif.Logger.Pretty.reads_back",
    "Verif.Logger.Pretty.value_right",
    "Verif.Logger.Pretty.unit_right"
   ],
   "note": "The part of C118 which holds."
  },
  {
   "property": "C177",
   "status": "proved",
   "theorems": [
    "Verif.Ui.Curses.at_most_one"
   ],
   "note": "The part of C122 which holds."
  },
  {
   "property": "C178",
   "status": "proved",
   "theorems": [
    "Verif.Ui.Curses.newest_kept",
    "Verif.Ui.Curses.printed_iff",
    "Verif.Ui.Curses.doubled_printed"
   ],
   "note": "The part of C121 which holds."
  },
  {
   "property": "C179",
   "status": "proved",
   "theorems": [
    "Verif.Config.double_round_trip_iff",
    "Verif.Config.double_error",
    "Verif.Config.double_array_iff",
    "Verif.Config.double_array_error"
   ],
   "note": "The part of C130 which holds."
  },
  {
   "property": "C180",
   "status": "proved",
   "theorems": [
    "Verif.Hal.Snapshot.fields_recent",
    "Verif.Hal.Snapshot.outputs_recent"
   ],
   "note": "The part of C137 which holds."
  },
  {
   "property": "C181",
   "status": "proved",
   "theorems": [
    "Verif.Sockets.SendLock.early_bounded",
    "Verif.Sockets.SendLock.early_free"
   ],
   "note": "The part of C138 which holds."
  },
  {
   "property": "C182",
   "status": "proved",
   "theorems": [
    "Verif.Control.Dataflow.cycle_values",
    "Verif.Control.Dataflow.sorted_solves",
    "Verif.Control.Dataflow.solution_unique",
    "Verif.Control.Dataflow.order_irrelevant",
    "Verif.Control.Dataflow.fault_cuts",
    "Verif.Control.Dataflow.no_fault",
    "Verif.Control.Dataflow.forward_no_delay"
   ],
   "note": "The part of C140 which holds."
  },
  {
   "property": "C183",
   "status": "proved",
   "theorems": [
    "Verif.Control.Dataflow.valid_after"
   ],
   "note": "The part of C141 which holds."
  },
  {
   "property": "C184",
   "status": "proved",
   "theorems": [
    "Verif.Safety.Reaction.fault_reaction",
    "Verif.Safety.Reaction.bad_value_faulty"
   ],
   "note": "The part of C142 which holds."
  },
  {
   "property": "C185",
   "status": "proved",
   "theorems": [
    "Verif.Control.TimeDiff.dt_sign",
    "Verif.Control.TimeDiff.dt_error",
    "Verif.Control.TimeDiff.dt_multiple",
    "Verif.Control.TimeDiff.quotient",
    "Verif.Control.TimeDiff.stamp_middle"
   ],
   "note": "The part of C143 which holds."
  },
  {
   "property": "C186",
   "status": "proved",
   "theorems": [
    "Verif.Control.GainFl.no_overshoot",
    "Verif.Control.GainFl.output_spec"
   ],
   "note": "The part of C144 which holds."
  },
  {
   "property": "C187",
   "status": "proved",
   "theorems": [
    "Verif.Core.StatisticsFl.mean_error",
    "Verif.Core.StatisticsFl.variance_error",
    "Verif.Core.StatisticsFl.others_exact"
   ],
   "note": "The part of C145 which holds."
  },
  {
   "property": "C188",
   "status": "proved",
   "theorems": [
    "Verif.Control.IntegratorFl.dt_exact",
    "Verif.Control.IntegratorFl.elapsed_exact",
    "Verif.Control.IntegratorFl.disabled_keeps",
    "Verif.Control.IntegratorFl.first_keeps"
   ],
   "note": "The part of C146 which holds."
  },
  {
   "property": "C189",
   "status": "proved",
   "theorems": [
    "Verif.Control.FiltersFl.MovingAverage.average_error",
    "Verif.Control.FiltersFl.LowPass.out_approx"
   ],
   "note": "The part of C147 which holds."
  },
  {
   "property": "C190",
   "status": "proved",
   "theorems": [
    "Verif.Math.DetFl.mul_error",
    "Verif.Math.DetFl.det_error"
   ],
   "note": "The part of C148 which holds."
  },
  {
   "property": "C191",
   "status": "proved",
   "theorems": [
    "Verif.Logger.Concurrent.lines_complete",
    "Verif.Logger.Concurrent.file_prefix",
    "Verif.Logger.Concurrent.same_lines"
   ],
   "note": "The part of C150 which holds."
  },
  {
   "property": "C192",
   "status": "proved",
   "theorems": [
    "Verif.Sequencer.Deadlock.never_stuck",
    "Verif.Sequencer.Deadlock.bounded",
    "Verif.Sequencer.Deadlock.all_end"
   ],
   "note": "the order of the sequences is the hypothesis; without it threads block each other (C193)"
  },
  {
   "property": "C193",
   "status": "partial",
   "theorems": [
    "Verif.Sequencer.Deadlock.start_returns_partial",
    "Verif.Sequencer.Deadlock.start_waits_violated",
    "Verif.Sequencer.Deadlock.restart_self_violated",
    "Verif.Sequencer.Deadlock.self_wait_violated",
    "Verif.Sequencer.Deadlock.recursion_violated",
    "Verif.Sequencer.Deadlock.mutual_calls_violated"
   ],
   "note": "Holds if the previous run has ended. Violated otherwise: the assignment to fut waits for the thread of the previous start (start_waits_violated), so that a non-blocking sequence which starts itself blocks for ever (restart_self_violated); recursive calls lock the mutex of the sequence twice (recursion_violated), and two threads whose sequences call each other can block each other (mutual_calls_violated)."
  },
  {
   "property": "C194",
   "status": "proved",
   "theorems": [
    "Verif.Sequencer.Deadlock.result_of_run",
    "Verif.Sequencer.Deadlock.wait_again"
   ],
   "note": ""
  },
  {
   "property": "C195",
   "status": "proved",
   "theorems": [
    "Verif.Control.Special.integrator_runs",
    "Verif.Control.Special.integrator_holds",
    "Verif.Control.Special.rateLimiter_recovers",
    "Verif.Control.Special.rateLimiter_infinite",
    "Verif.Control.Special.differentiator_recovers",
    "Verif.Control.Special.movingAverage_recovers",
    "Verif.Control.Special.rateLimit_finite",
    "Verif.Control.Special.integrate_finite",
    "Verif.Control.Special.differentiate_finite"
   ],
   "note": "arithmetic with NaN and infinities, exact on numbers; on numbers the blocks are those of the other modules (\u2026_finite)"
  },
  {
   "property": "C196",
   "status": "partial",
   "theorems": [
    "Verif.Control.Special.rateLimiter_first",
    "Verif.Control.Special.lowPass_finite",
    "Verif.Control.Special.lowPass_stuck_violated",
    "Verif.Control.Special.lowPass_one_nan_violated",
    "Verif.Control.Special.lowPass_infinite_violated",
    "Verif.Control.Special.rateLimiter_stuck_violated",
    "Verif.Control.Special.rateLimiter_jump_violated",
    "Verif.Control.Special.ztf_stuck_violated",
    "Verif.Control.Special.kalman_spreads_violated",
    "Verif.Control.Special.kalman_measurement_violated",
    "Verif.Control.Special.kalman_stuck_violated"
   ],
   "note": "Holds for the blocks of C195. Violated: one NaN at the input of the low pass filter makes all later outputs NaN for every alpha, an infinite value all later outputs infinite or NaN; a rate limiter which took over an infinite value (first input, or while disabled) stays infinite for ever, and after NaN it follows any step at once; a transfer function of order one or more stays NaN for ever, even if the coefficient is 0; one measurement of NaN makes the whole state of the Kalman filter NaN for ever."
  },
  {
   "property": "C197",
   "status": "partial",
   "theorems": [
    "Verif.Control.Special.saturation_infinite",
    "Verif.Control.Special.integrator_limited",
    "Verif.Control.Special.checker_fires",
    "Verif.Control.Special.wrap_finite",
    "Verif.Control.Special.saturation_nan_violated",
    "Verif.Control.Special.wrap_violated",
    "Verif.Control.Special.checker_off_range_violated"
   ],
   "note": "Holds for the integrator, for infinite inputs of the saturation and for the signal checker with a range. Violated: NaN passes the saturation, NaN and infinite values pass the wrap around, and a checker in off-range mode never fires on NaN."
  },
  {
   "property": "C198",
   "status": "proved",
   "theorems": [
    "Verif.Examples.MockRobot.constructs",
    "Verif.Examples.MockRobot.order",
    "Verif.Examples.MockRobot.exit_stops",
    "Verif.Examples.MockRobot.only_exit_stops"
   ],
   "note": "on the model of the safety system, with events before and during every run; the signal handler runs between two runs"
  },
  {
   "property": "C199",
   "status": "proved",
   "theorems": [
    "Verif.Examples.SystemTest2.constructs",
    "Verif.Examples.SystemTest2.exit_stops",
    "Verif.Examples.SystemTest2.input_stops",
    "Verif.Examples.SystemTest2.only_exit_stops"
   ],
   "note": "on the model of the safety system; the test input and output (inTest, outTest) are left out"
  },
  {
   "property": "C200",
   "status": "partial",
   "theorems": [
    "Verif.Examples.SystemTest2.exit_ends_partial",
    "Verif.Examples.SystemTest2.exit_lost_violated",
    "Verif.Examples.SystemTest2.exit_cancelled_violated"
   ],
   "note": "Holds in the levels initializing, initialized and running if the program is not initialized again. Violated: before the first run of the safety system the current level is off, which does not know the event, so that the exit is lost and the program goes on; the event start initializing after the run which shuts down cancels the exit."
  },
  {
   "property": "C201",
   "status": "partial",
   "theorems": [
    "Verif.Examples.SystemTest1.bounded_partial",
    "Verif.Examples.SystemTest1.fires_partial",
    "Verif.Examples.SystemTest1.late_violated",
    "Verif.Examples.SystemTest1.lost_reset_violated",
    "Verif.Examples.SystemTest1.glitch_violated"
   ],
   "note": "Holds if runs are less than 80 ms apart and the level action does not overlap with a run. Violated: one run so late that the ramp passes the window of the switch, after which it never switches; a reset during the run of the integrator is lost since setInitCondition takes no lock, with the same result; switching back between the runs of integrator and switch writes one value of the old ramp to the output. Exact arithmetic."
  },
  {
   "property": "C202",
   "status": "proved",
   "theorems": [
    "Verif.Examples.MockHoming.forward",
    "Verif.Examples.MockHoming.done_stopped",
    "Verif.Examples.MockHoming.rests",
    "Verif.Examples.MockHoming.ends",
    "Verif.Examples.MockHoming.overshoot"
   ],
   "note": "exact arithmetic; the limits of the integrator are not reached; the writes of one poll are one step"
  },
  {
   "property": "C203",
   "status": "partial",
   "theorems": [
    "Verif.Examples.MockHoming.planner_stands_partial",
    "Verif.Examples.MockHoming.switch_jumps_violated"
   ],
   "note": "Violated: the planner stands at 0 until its first move, the robot at 1 or above, and nothing calls setStart; every switch after the homing makes both coordinates jump back by at least 1. Part which holds: the planner itself does not move before its first trajectory (planner_stands_partial)."
  },
  {
   "property": "C204",
   "status": "partial",
   "theorems": [
    "Verif.Control.VectorCmp.compares_every_element_partial",
    "Verif.Control.VectorCmp.equality_every_element",
    "Verif.Control.VectorCmp.nan_elements_pass_violated",
    "Verif.Control.VectorCmp.nan_smaller_and_greater_violated"
   ],
   "note": "Proved for elements which are numbers or infinities, == and != for all. Violated: the ordered operators return false only for an element with the opposite relation, which a NaN never has, so a matrix of NaNs is smaller and greater than everything."
  },
  {
   "property": "C205",
   "status": "partial",
   "theorems": [
    "Verif.Control.VectorCmp.integrates_if_inside",
    "Verif.Control.VectorCmp.elements_limited_partial",
    "Verif.Control.VectorCmp.setLimit_all_above",
    "Verif.Control.VectorCmp.one_limit_stops_all_violated",
    "Verif.Control.VectorCmp.setLimit_leaves_outside_violated",
    "Verif.Control.VectorCmp.setLimit_starts_low_violated",
    "Verif.Control.VectorCmp.nan_input_enters_violated",
    "Verif.Control.VectorCmp.nan_stays_violated"
   ],
   "note": "Proved: with numbers every element stays within the limits, and all are integrated if all stay inside. Violated: one element at its limit stops all; setLimit changes nothing if an element is inside, and moves a cleared integrator to the lower limit; a NaN in one element of the input passes the limits and stays for ever. Exact arithmetic."
  },
  {
   "property": "C206",
   "status": "partial",
   "theorems": [
    "Verif.Control.VectorCmp.fires_on_numbers_partial",
    "Verif.Control.VectorCmp.fires_once",
    "Verif.Control.VectorCmp.window_on_numbers",
    "Verif.Control.VectorCmp.nan_not_detected_violated",
    "Verif.Control.VectorCmp.window_nan_violated"
   ],
   "note": "Proved for elements which are numbers. Violated: elements which are NaN are never detected by the checker, and a vector of NaNs is within every window of a switch."
  },
  {
   "property": "C207",
   "status": "partial",
   "theorems": [
    "Verif.Control.VectorGlide.reaches_iff",
    "Verif.Control.VectorGlide.reaches_down_iff",
    "Verif.Control.VectorCmp.smooth_change_reaches_partial",
    "Verif.Control.VectorCmp.smooth_change_single",
    "Verif.Control.VectorCmp.accepts_numbers",
    "Verif.Control.VectorCmp.smooth_change_stuck_violated",
    "Verif.Control.VectorCmp.element_not_limited_violated",
    "Verif.Control.VectorCmp.nan_gain_accepted_violated"
   ],
   "note": "Proved: a growing (shrinking) matrix reaches its target exactly if all elements meet or pass it in the same run; a single element always does; setGain with numbers. Violated: as soon as one element is at or beyond its target and one at or before, the gain never moves again; elements beyond a limit are corrected only if all are; setGain accepts NaN. Exact arithmetic."
  },
  {
   "property": "C208",
   "status": "partial",
   "theorems": [
    "Verif.Examples.SystemTest3.stays_bounded_partial",
    "Verif.Examples.SystemTest3.late_safety_violated",
    "Verif.Examples.SystemTest3.lost_reset_violated",
    "Verif.Examples.SystemTest3.first_step_violated"
   ],
   "note": "Holds if the safety system runs at least once in every cycle and at most once during the run of the integrator. Violated: the checker triggers once, and the output keeps growing while the safety system does not run; setInitCondition takes no lock, so that a run of the integrator which lasts as long as level start undoes all resets and the next ramp starts above 5; the first step of a ramp covers time before its level was entered. Exact arithmetic."
  },
  {
   "property": "C209",
   "status": "proved",
   "theorems": [
    "Verif.Examples.SystemTest3.restarts",
    "Verif.Examples.SystemTest3.ramp_exact",
    "Verif.Examples.SystemTest3.reaches_five"
   ],
   "note": "composed from the models of integrator, checker and safety system; exact arithmetic; the limit of the integrator is not reached; the safety system runs at least once in every cycle and at most once during the run of the integrator"
  },
  {
   "property": "C210",
   "status": "proved",
   "theorems": [
    "Verif.Common.Race.conflict_iff",
    "Verif.Common.Race.guarded_race_free",
    "Verif.Common.Race.unlocked_races",
    "Verif.Common.Race.race_free_iff"
   ],
   "note": "Methods are lists of lock, unlock and access steps; any number of threads call any allowed methods in every interleaving. guarded_race_free: any number of mutexes; unlocked_races: one access without a mutex and a conflicting one suffice for a reachable race; race_free_iff: exact for one mutex."
  },
  {
   "property": "C211",
   "status": "partial",
   "theorems": [
    "Verif.Control.BlockRaces.Gain.race_free",
    "Verif.Control.BlockRaces.RateLimiter.race_free",
    "Verif.Control.BlockRaces.WrapAround.race_free",
    "Verif.Control.BlockRaces.Constant.race_free",
    "Verif.Control.BlockRaces.Integrator.race_free",
    "Verif.Control.BlockRaces.Switch.race_free",
    "Verif.Control.BlockRaces.PlannerAcc.race_free",
    "Verif.Control.BlockRaces.PlannerJerk.race_free",
    "Verif.Control.BlockRaces.Gain.two_violated",
    "Verif.Control.BlockRaces.Saturation.two_violated",
    "Verif.Control.BlockRaces.RateLimiter.two_violated",
    "Verif.Control.BlockRaces.WrapAround.two_violated",
    "Verif.Control.BlockRaces.Constant.two_violated",
    "Verif.Control.BlockRaces.Integrator.two_violated",
    "Verif.Control.BlockRaces.Switch.two_violated",
    "Verif.Control.BlockRaces.PlannerAcc.two_violated",
    "Verif.Control.BlockRaces.PlannerJerk.two_violated",
    "Verif.Control.BlockRaces.PlannerCubic.two_violated",
    "Verif.Control.BlockRaces.Trace.two_violated"
   ],
   "note": "VIOLATED by the code. For each class the exact set of methods which race with run (already with two threads): enable, disable and the like are never locked; Saturation.setLimit, I.setLimit and setInitCondition, Switch.arm, triggered, setCondition and switchToInput, move of the planners, everything of PathPlannerCubic and Trace. Gain.hpp:27-29 admits enable, disable and enableSmoothChange, but enableParabolicGain and printing race as well. What holds: the methods with a lock (C212)."
  },
  {
   "property": "C212",
   "status": "proved",
   "theorems": [
    "Verif.Control.BlockRaces.SignalChecker.race_free",
    "Verif.Control.BlockRaces.PeripheralOutput.race_free",
    "Verif.Control.BlockRaces.Kalman.race_free",
    "Verif.Control.BlockRaces.Semaphore.race_free",
    "Verif.Control.BlockRaces.RingBuffer.race_free",
    "Verif.Control.BlockRaces.Gain.race_free",
    "Verif.Control.BlockRaces.RateLimiter.race_free",
    "Verif.Control.BlockRaces.WrapAround.race_free",
    "Verif.Control.BlockRaces.Constant.race_free",
    "Verif.Control.BlockRaces.Integrator.race_free",
    "Verif.Control.BlockRaces.Switch.race_free",
    "Verif.Control.BlockRaces.PlannerAcc.race_free",
    "Verif.Control.BlockRaces.PlannerJerk.race_free",
    "Verif.Control.BlockRaces.Transition.two_violated"
   ],
   "note": "For any number of threads. Transition.two_violated is an equivalence: steady and down are free of races. The signals at inputs and outputs belong to the time domain of the block and are left out."
  },
  {
   "property": "C213",
   "status": "partial",
   "theorems": [
    "Verif.Control.BlockRaces.Safety.race_free",
    "Verif.Control.BlockRaces.RosSubscriber.race_free",
    "Verif.Control.BlockRaces.Socket.race_free",
    "Verif.Control.BlockRaces.RingBuffer.race_free",
    "Verif.Control.BlockRaces.Transition.two_violated",
    "Verif.Control.BlockRaces.Safety.two_violated",
    "Verif.Control.BlockRaces.Safety.trigger_violated",
    "Verif.Control.BlockRaces.RingBuffer.two_violated",
    "Verif.Control.BlockRaces.RosSubscriber.two_violated",
    "Verif.Control.BlockRaces.Socket.two_violated",
    "Verif.Control.BlockRaces.Abort.two_violated"
   ],
   "note": "VIOLATED by the code. SafetySystem::run takes no lock, so triggerEvent and getCurrentLevel of other threads race with it, and two triggerEvents race with each other (log message after unlock); RingBuffer::length, the refresh flag of transitions which go up, queue.empty() of the ROS 2 subscriber, the flags and the received data of sockets (getReceiveBuffer returns a reference) and the abort flag of sequences are accessed without a lock. What holds: asking for the level, pushing and popping, callbacks of subscribers, sending data."
  },
  {
   "property": "C214",
   "status": "proved",
   "theorems": [
    "Verif.Common.Monitor.linearizable",
    "Verif.Common.Monitor.linearizable_spec",
    "Verif.Core.RingBufferConc.ring_linearizable",
    "Verif.Core.RingBufferConc.fifo"
   ],
   "note": "length() takes no lock (C213) and is not among the calls."
  },
  {
   "property": "C215",
   "status": "proved",
   "theorems": [
    "Verif.Control.CheckerConc.checker_linearizable",
    "Verif.Control.CheckerConc.once_per_reset"
   ],
   "note": "The level of the safety system which run asks for (SignalChecker.hpp:94, 106) is an argument of the call."
  },
  {
   "property": "C216",
   "status": "partial",
   "theorems": [
    "Verif.Control.SaturationConc.within_all_limits_partial",
    "Verif.Control.SaturationConc.change_respects_partial",
    "Verif.Control.SaturationConc.passes_violated",
    "Verif.Control.SaturationConc.respects_iff"
   ],
   "note": "VIOLATED by the code: setLimit takes no lock, so a run may compare its input with the old upper and the new lower limit, and an input which is outside of both ranges passes unchanged. Exactly the changes to a range entirely below the old one are not safe (respects_iff), since setLimit writes the lower limit first and run reads the upper first. What holds: with any number of threads and changes each output lies in the hull of all limits ever set. This reads the data race (C211) as an interleaving of the accesses."
  },
  {
   "property": "C217",
   "status": "proved",
   "theorems": [
    "Verif.Control.IeeeBlocks.integrator_within",
    "Verif.Common.Ieee.round_nearest",
    "Verif.Common.Ieee.round_exact",
    "Verif.Common.Ieee.round_pinf"
   ],
   "note": "the arithmetic is that of IEEE 754 binary64: Common.Ieee defines the rounding, and the other three theorems show that it gives the nearest double, that doubles are not changed, and exactly which numbers are rounded to infinity"
  },
  {
   "property": "C218",
   "status": "partial",
   "theorems": [
    "Verif.Control.IeeeBlocks.lowPass_finite",
    "Verif.Control.IeeeBlocks.rateLimiter_within",
    "Verif.Control.IeeeBlocks.rateLimiter_overflow_violated"
   ],
   "note": "The low pass filter never overflows, up to the largest double and for every weight. The rate limiter stays within any bound of at most half the largest double if the inputs do, less two units in the last place. Violated beyond: if the change of the input and the product of the rate and the time difference are too large for a double, the output becomes infinite (and stays so, C196)."
  },
  {
   "property": "C219",
   "status": "partial",
   "theorems": [
    "Verif.Control.WrapAroundErr.error_bound",
    "Verif.Control.WrapAroundErr.large_input_violated",
    "Verif.Control.WrapAroundFl.negative_remainder_violated",
    "Verif.Control.UnitsFl.wrap_all_violated"
   ],
   "note": "VIOLATED by the code. The error is bounded by six units in the last place of the input (not of the result) for every input; 10^18 is mapped to 124.86 for the range from -pi to pi. Inputs with remainder zero pass unchanged and a negative remainder misses the lower limit (C31). Rounding without subnormal numbers and overflow. Both hold in all units which differ by a power of two (C319)."
  },
  {
   "property": "C220",
   "status": "partial",
   "theorems": [
    "Verif.Control.ZTransfer.PT1_stable",
    "Verif.Control.ZTransfer.outputs_bounded",
    "Verif.Control.ZTransfer.forgets",
    "Verif.Control.ZTransfer.keeps_violated",
    "Verif.Control.ZTransfer.I_PID_keep_violated"
   ],
   "note": "Holds for PT1 (by the factor T1/(Ts+T1) in each run) and for every block whose first coefficient of the denominator is larger than the others together. Violated: I and PID add a constant of the uninitialised memory to all outputs for ever."
  },
  {
   "property": "C221",
   "status": "proved",
   "theorems": [
    "Verif.Control.ZTransfer.rounding_stable",
    "Verif.Control.ZTransfer.value_error",
    "Verif.Control.ZTransfer.RunsFl.exists"
   ],
   "note": "rounding without subnormal numbers and overflow; the bounds are any solutions of two linear inequalities, see the case of PT1"
  },
  {
   "property": "C222",
   "status": "proved",
   "theorems": [
    "Verif.Sequencer.Reconf.retry_limit",
    "Verif.Sequencer.Reconf.executions_per_call",
    "Verif.Sequencer.Reconf.restarts_since_call"
   ],
   "note": "SequencerTest26 is the concrete case: three executions with the limit reached in the third"
  },
  {
   "property": "C223",
   "status": "proved",
   "theorems": [
    "Verif.Sequencer.Reconf.return_value",
    "Verif.Sequencer.Reconf.exceptions_not_nested",
    "Verif.Sequencer.Reconf.exception_once",
    "Verif.Sequencer.Reconf.no_null_dereference",
    "Verif.Sequencer.Reconf.inactive_idle"
   ],
   "note": "with the calling discipline of C66; a change takes effect between two steps of the thread"
  },
  {
   "property": "C224",
   "status": "partial",
   "theorems": [
    "Verif.Sequencer.Reconf.later_calls_not_retried_violated",
    "Verif.Sequencer.Reconf.retry_limit"
   ],
   "note": "Violated: nothing sets the behavior back, so after the limit was used up every later call executes the action at most once. The limit itself holds for each call."
  },
  {
   "property": "C225",
   "status": "partial",
   "theorems": [
    "Verif.Core.SyncModes.one_loop_partial",
    "Verif.Core.SyncModes.ethercat_build_runs_nothing_violated",
    "Verif.Core.SyncModes.both_ros_violated"
   ],
   "note": "Proved for builds without EtherCAT and at most one version of ROS, and for builds with EtherCAT and a stack. Violated: in a build with EtherCAT but without stack the else of line 291 belongs to the statement after the endif, no loop is executed; with both versions of ROS the text is not C++"
  },
  {
   "property": "C226",
   "status": "partial",
   "theorems": [
    "Verif.Core.RosTopic1.none_lost",
    "Verif.Core.RosTopic1.cycles_synchronised_partial",
    "Verif.Core.RosTopic1.cycle_follows",
    "Verif.Core.RosTopic1.stop_one_more",
    "Verif.Core.RosTopic1.stop_ends",
    "Verif.Core.RosTopic1.stop_extra_cycle_violated",
    "Verif.Core.RosTopic1.first_waits_twice"
   ],
   "note": "Proved until stop is called. Violated: a stop which finds the executor waiting leads to one more cycle, without a message and possibly at the time of the last cycle"
  },
  {
   "property": "C227",
   "status": "proved",
   "theorems": [
    "Verif.Safety.ReactionTime.reaction_time",
    "Verif.Safety.ReactionTime.no_reaction_after_stop"
   ],
   "note": "Runs of the safety system are single steps; the latency L is a hypothesis about the scheduler and the tasks"
  },
  {
   "property": "C228",
   "status": "partial",
   "theorems": [
    "Verif.Sequencer.Throws.no_null_partial",
    "Verif.Sequencer.Throws.not_nested_partial",
    "Verif.Sequencer.Throws.callable_partial",
    "Verif.Sequencer.Throws.action_skipped_violated",
    "Verif.Sequencer.Throws.monitors_off_violated"
   ],
   "note": "Proved: no null dereference, no nesting, the mutex is free again. Violated: after an exception of its action the next call of a sequence skips the action and returns -1; an exception which leaves an exception sequence switches off all monitors of the owner for good"
  },
  {
   "property": "C229",
   "status": "partial",
   "theorems": [
    "Verif.Control.TransitionLock.connected_partial",
    "Verif.Control.TransitionLock.waiting_ends_partial",
    "Verif.Control.TransitionLock.unconnected_violated",
    "Verif.Control.TransitionLock.relock_violated",
    "Verif.Control.TransitionLock.handover"
   ],
   "note": "Proved as long as the input of the in block is connected. Violated otherwise: the fault leaves the mutex locked, neither block completes a run with the mutex again and the next run of the in block locks it twice"
  },
  {
   "property": "C230",
   "status": "proved",
   "theorems": [
    "Verif.Control.Kalman.Optimal.covariance_true"
   ],
   "note": "Exact arithmetic, 3 or 2^k outputs (for the others see C52); expected values are any linear functional"
  },
  {
   "property": "C231",
   "status": "partial",
   "theorems": [
    "Verif.Control.Kalman.Optimal.no_better_partial",
    "Verif.Control.Kalman.Optimal.first_measurement_violated"
   ],
   "note": "Proved against all filters which leave out the first measurement too. Violated otherwise: the first correction throws its measurement away, a filter which uses it has a smaller error. Exact arithmetic, 3 or 2^k outputs"
  },
  {
   "property": "C232",
   "status": "proved",
   "theorems": [
    "Verif.Planner.ConstAcc.Fast.no_faster_motion"
   ],
   "note": "Exact arithmetic, sampling time at least 1e-12; motions on the straight line from start to end, differentiable, at rest at both ends"
  },
  {
   "property": "C233",
   "status": "partial",
   "theorems": [
    "Verif.Core.Teardown.safe_iff",
    "Verif.Core.Teardown.joined_safe_partial",
    "Verif.Core.Teardown.no_join_violated",
    "Verif.Core.Teardown.classes_violated",
    "Verif.Core.Teardown.sequence_safe_iff"
   ],
   "note": "Exact criterion. Proved for the classes which join in their own destructor. Violated for TraceWriter, ODriveUSB, ODriveUART and SequencerUI, and for every class derived from Thread without join in its destructor whose thread uses a member in its loop; a class derived from Sequence is safe exactly if its action uses none of its members (sequence_safe_iff)"
  },
  {
   "property": "C234",
   "status": "partial",
   "theorems": [
    "Verif.Control.DynBlocks.cycle_runs_all",
    "Verif.Control.DynBlocks.careful_safe_partial",
    "Verif.Control.DynBlocks.removed_not_run_partial",
    "Verif.Control.DynBlocks.inside_ub_iff",
    "Verif.Control.DynBlocks.remove_current_violated",
    "Verif.Control.DynBlocks.removed_still_runs_violated",
    "Verif.Control.DynBlocks.destroyed_block_violated"
   ],
   "note": "Violated, even if every operation on the list were atomic: to remove a block while the time domain stands at it (from another thread or from the block's own run()) frees the list node whose iterator the loop holds; stopping the time domain first does not help; a pointer already read is still called; a block destroyed without removal is called. Proved: addition at any time, removal while the loop stands elsewhere."
  },
  {
   "property": "C235",
   "status": "partial",
   "theorems": [
    "Verif.Control.WireLife.connected_reads_partial",
    "Verif.Control.WireLife.destroyed_output_violated",
    "Verif.Control.WireLife.reused_place_violated"
   ],
   "note": "Violated: no destructor disconnects the inputs, so that an input whose output was destroyed says it is connected and reads a destroyed object or, if the memory was used again, the signal of another output. Proved while the output exists."
  },
  {
   "property": "C236",
   "status": "partial",
   "theorems": [
    "Verif.Hal.LidarCopy.elements_partial",
    "Verif.Hal.LidarCopy.phantom_violated",
    "Verif.Hal.LidarCopy.all_zero_violated",
    "Verif.Hal.LidarCopy.no_zero"
   ],
   "note": "Violated for every scan and every index: a copy may contain a zero at this index between elements of the old and the new scan (phantom_violated), or zeros only (all_zero_violated), although no scan contains a zero (no_zero). Proved: each element is the initial one, from a scan, or such a zero."
  },
  {
   "property": "C237",
   "status": "partial",
   "theorems": [
    "Verif.Control.Stamps.stamp_follows",
    "Verif.Control.Stamps.follows_strict",
    "Verif.Control.Stamps.stamp_age",
    "Verif.Control.Stamps.grounded_follows",
    "Verif.Control.Stamps.advances_iff",
    "Verif.Control.Stamps.integrator_step",
    "Verif.Control.Stamps.frozen_violated",
    "Verif.Control.Stamps.dead_integrator_violated",
    "Verif.Control.Stamps.first_step_violated"
   ],
   "note": "Violated in every diagram in which the wire does not lead back to a block that reads the clock, e.g. a control loop with the feedback as first input of the sum, or behind an output that is never stamped: the time stamp stays the initial one for ever and integrators keep their value; and whenever the source runs after the integrator: in the second cycle it integrates over the whole time since the origin of the clock (first_step_violated). Proved for all other outputs."
  },
  {
   "property": "C238",
   "status": "partial",
   "theorems": [
    "Verif.Hal.DeviceRaces.ODriveUSB.race_free",
    "Verif.Hal.DeviceRaces.RPLidar.readers_free",
    "Verif.Hal.DeviceRaces.Pixy.readers_free",
    "Verif.Hal.DeviceRaces.Mouse.readers_free",
    "Verif.Hal.DeviceRaces.XBox.readers_free",
    "Verif.Hal.DeviceRaces.SpaceNav.readers_free",
    "Verif.Hal.DeviceRaces.Keyboard.block_digIn",
    "Verif.Hal.DeviceRaces.Baumer.thread_violated",
    "Verif.Hal.DeviceRaces.Baumer.others_violated",
    "Verif.Hal.DeviceRaces.RPLidar.thread_violated",
    "Verif.Hal.DeviceRaces.Pixy.thread_violated",
    "Verif.Hal.DeviceRaces.Realsense.thread_violated",
    "Verif.Hal.DeviceRaces.SBG.thread_violated",
    "Verif.Hal.DeviceRaces.SBG.two_devices_violated",
    "Verif.Hal.DeviceRaces.Keyboard.thread_violated",
    "Verif.Hal.DeviceRaces.Keyboard.others_violated",
    "Verif.Hal.DeviceRaces.Mouse.thread_violated",
    "Verif.Hal.DeviceRaces.XBox.thread_violated",
    "Verif.Hal.DeviceRaces.SpaceNav.thread_violated",
    "Verif.Hal.DeviceRaces.ODriveUSB.thread_violated",
    "Verif.Hal.DeviceRaceVars.Baumer.vars_violated",
    "Verif.Hal.DeviceRaceVars.RPLidar.vars_violated",
    "Verif.Hal.DeviceRaceVars.Pixy.vars_violated",
    "Verif.Hal.DeviceRaceVars.Realsense.vars_violated",
    "Verif.Hal.DeviceRaceVars.SBG.vars_violated",
    "Verif.Hal.DeviceRaceVars.Keyboard.vars_violated",
    "Verif.Hal.DeviceRaceVars.Mouse.vars_violated",
    "Verif.Hal.DeviceRaceVars.XBox.vars_violated",
    "Verif.Hal.DeviceRaceVars.SpaceNav.vars_violated",
    "Verif.Hal.DeviceRaceVars.ODriveUSB.vars_violated",
    "Verif.Hal.DeviceRaceVars.sbg_two_devices_violated",
    "Verif.Hal.DeviceRaceVars.keyboard_users_violated"
   ],
   "note": "Violated: no device class has a mutex, so the thread of the device races with every method which reads its data, in Keyboard, Mouse, XBox and SpaceNavigator with the destructor too; of ODriveUSB, whose data is atomic, only with the two methods of the calibration. Proved: the readers among themselves, and the other methods of ODriveUSB."
  },
  {
   "property": "C239",
   "status": "partial",
   "theorems": [
    "Verif.Hal.KeyWords.own_word_partial",
    "Verif.Hal.KeyWords.lost_violated",
    "Verif.Hal.KeyWords.lost_iff"
   ],
   "note": "Violated: the keys are bits of std::vector of bool; for every two keys in the same word of 64 there is an interleaving in which reading or resetting one of them loses the stroke of the other. Proved for keys in different words."
  },
  {
   "property": "C240",
   "status": "partial",
   "theorems": [
    "Verif.Control.Loop.direct_output",
    "Verif.Control.Loop.gainLast_output",
    "Verif.Control.Loop.direct_no_overshoot",
    "Verif.Control.Loop.direct_converges",
    "Verif.Control.Loop.direct_on_grid",
    "Verif.Control.Loop.direct_diverges",
    "Verif.Control.Loop.direct_stable_iff",
    "Verif.Control.Loop.gainLast_start_violated",
    "Verif.Control.Loop.gainLast_oscillates_violated",
    "Verif.Control.Loop.gainLast_converges_partial",
    "Verif.Control.Loop.gainLast_not_converges",
    "Verif.Control.Loop.order_decides_violated",
    "Verif.Control.Loop.order_dead_beat_violated"
   ],
   "note": "Proved for blocks added in the direction of the signals. Violated for other orders: with the gain added last the stable range is halved (0 < g P < 1), for 1 < g P < 2 the integrator runs into its limits however wide they are, and the first step depends on a time stamp that is not initialised. Exact arithmetic."
  },
  {
   "property": "C241",
   "status": "partial",
   "theorems": [
    "Verif.Control.LoopFl.no_overshoot",
    "Verif.Control.LoopFl.tracks",
    "Verif.Control.LoopFl.stuck_violated"
   ],
   "note": "Violated in the last digits: as soon as gain times time times error is below half the distance of two doubles the output stays. Proved: no overshoot, not even by the last bit, and an error of at most rho^k times the first plus one rounding of the setpoint over 1-rho. Blocks in the direction of the signals; unbounded exponents."
  },
  {
   "property": "C242",
   "status": "proved",
   "theorems": [
    "Verif.Control.LoopSat.output_eq",
    "Verif.Control.LoopSat.velocity",
    "Verif.Control.LoopSat.no_overshoot",
    "Verif.Control.LoopSat.full_velocity",
    "Verif.Control.LoopSat.arrives",
    "Verif.Control.LoopSat.then_decays"
   ],
   "note": "Exact arithmetic; blocks in the direction of the signals."
  },
  {
   "property": "C243",
   "status": "partial",
   "theorems": [
    "Verif.Control.CrossDomain.never_back",
    "Verif.Control.CrossDomain.value_first_violated",
    "Verif.Control.CrossDomain.stamp_first_violated",
    "Verif.Control.CrossDomain.together_partial",
    "Verif.Control.CrossDomain.slope_violated",
    "Verif.Control.CrossDomain.ramp_violated"
   ],
   "note": "Violated: signals have no lock; exactly which pairs can be read is proved for both orders of the reader. A differentiator in another time domain can output twice the slope of a ramp. Proved: values and time stamps never go back, and belong together if no store falls into the run of the reader. Loads and stores are atomic here (in C++ this is a data race)."
  },
  {
   "property": "C244",
   "status": "proved",
   "theorems": [
    "Verif.Control.LoopDelay.loop_delays",
    "Verif.Control.LoopDelay.one_cycle_iff",
    "Verif.Control.LoopDelay.longest_iff",
    "Verif.Control.LoopDelay.around_reverse",
    "Verif.Control.LoopDelay.around_rotate",
    "Verif.Control.LoopDelay.link",
    "Verif.Control.LoopDelay.path",
    "Verif.Control.LoopDelay.once_around",
    "Verif.Control.LoopDelay.many_around",
    "Verif.Control.LoopDelay.in_direction",
    "Verif.Control.LoopDelay.against_direction_violated"
   ],
   "note": "One connection delays by one cycle if and only if its reader was added first. against_direction_violated records that a loop added against its direction is computed once in n - 1 cycles only; nothing in the framework sorts or checks the order."
  },
  {
   "property": "C245",
   "status": "partial",
   "theorems": [
    "Verif.Planner.Derived.derivative_mean",
    "Verif.Planner.Derived.derivative_within",
    "Verif.Planner.Derived.early_violated",
    "Verif.Planner.Derived.integral_way",
    "Verif.Planner.Derived.integral_end",
    "Verif.Planner.Derived.integral_excess_violated"
   ],
   "note": "Violated: the planner advances by its sampling time but stamps with the system time, so that the derivative is the planned velocity times sampling time over period (exactly), beyond the maximum if a run is early; if the constant phase is empty the planner spends one run in it with both outputs unchanged, the derivative is zero there and the integral of the velocity ends one run of full velocity beyond the end position. Proved: derivative and limits for runs one sampling time apart, and the exact integral with a constant phase. Exact arithmetic, one element of the outputs."
  },
  {
   "property": "C246",
   "status": "partial",
   "theorems": [
    "Verif.Control.RaceVars.free_on_iff",
    "Verif.Control.RaceVars.raceFree_iff",
    "Verif.Control.RaceVars.two_on_iff",
    "Verif.Control.BlockRaceVars.Gain.vars_violated",
    "Verif.Control.BlockRaceVars.Saturation.vars_violated",
    "Verif.Control.BlockRaceVars.RateLimiter.vars_violated",
    "Verif.Control.BlockRaceVars.WrapAround.vars_violated",
    "Verif.Control.BlockRaceVars.Integrator.vars_violated",
    "Verif.Control.BlockRaceVars.Switch.vars_violated",
    "Verif.Control.BlockRaceVars.Trace.vars_violated",
    "Verif.Control.BlockRaceVars.Safety.vars_violated",
    "Verif.Control.BlockRaceVars.transition_vars_violated",
    "Verif.Control.BlockRaceVars.trigger_vars_violated",
    "Verif.Control.BlockRaceVars.planner_acc_vars_violated",
    "Verif.Control.BlockRaceVars.planner_jerk_vars_violated",
    "Verif.Control.BlockRaceVars.planner_cubic_vars_violated",
    "Verif.Hal.DeviceRaceVars.Baumer.vars_violated",
    "Verif.Hal.DeviceRaceVars.RPLidar.vars_violated",
    "Verif.Hal.DeviceRaceVars.Pixy.vars_violated",
    "Verif.Hal.DeviceRaceVars.Realsense.vars_violated",
    "Verif.Hal.DeviceRaceVars.SBG.vars_violated",
    "Verif.Hal.DeviceRaceVars.Keyboard.vars_violated",
    "Verif.Hal.DeviceRaceVars.Mouse.vars_violated",
    "Verif.Hal.DeviceRaceVars.XBox.vars_violated",
    "Verif.Hal.DeviceRaceVars.SpaceNav.vars_violated",
    "Verif.Hal.DeviceRaceVars.ODriveUSB.vars_violated",
    "Verif.Hal.DeviceRaceVars.sbg_two_devices_violated",
    "Verif.Hal.DeviceRaceVars.keyboard_users_violated"
   ],
   "note": "the full statement (no member of a block or of a device races) is false; proved are the exact rule for every single member, and with it the complete table of the racing members, class by class; for the path planners, whose `move` tests `finished` first, the members behind that test are listed as possible races only"
  },
  {
   "property": "C247",
   "status": "partial",
   "theorems": [
    "Verif.Planner.Handover.asking_race_free",
    "Verif.Planner.Handover.races_on",
    "Verif.Planner.Handover.ends_at_goal",
    "Verif.Planner.Handover.jump_violated",
    "Verif.Planner.Handover.races_violated"
   ],
   "note": "the full statement (any order of calls) is false: `run` sets `finished` before it reads the end position, and `move` tests the flag without the mutex, so a motion ordered in this moment makes the running one end at the wrong position; finer steps than C151, so that all components are concerned, and with the races; proved for a thread which waits for `endReached` first, and the exact set of racing members otherwise"
  },
  {
   "property": "C248",
   "status": "partial",
   "theorems": [
    "Verif.Control.MedianVec.vector_median_partial",
    "Verif.Control.MedianVec.median_of_weak_order_partial",
    "Verif.Control.MedianVec.insertion_in_bounds",
    "Verif.Control.MedianVec.insertion_sorts",
    "Verif.Control.MedianVec.first_scan_in_bounds",
    "Verif.Control.MedianVec.not_weak_order_violated",
    "Verif.Control.MedianVec.vector_spike_passes_violated",
    "Verif.Control.MedianVec.nan_spike_passes_violated",
    "Verif.Control.MedianVec.nan_vectors_read_outside_violated"
   ],
   "note": "Violated by the code: operator< of matrices (every element smaller) is no strict weak order for two or more elements, so std::sort has no defined result; with the algorithm of libstdc++ a spike followed by an incomparable vector (or, for doubles, by a NaN) is the output for every window of at least 5 samples, and more than 16 vectors with NaN vectors at the second, middle and last place make the first partition read behind the array. Proved: windows whose vectors are pairwise comparable give the median; up to 16 values nothing is read outside and no value is lost."
  },
  {
   "property": "C249",
   "status": "proved",
   "theorems": [
    "Verif.Sequencer.one_sleep_between_checks",
    "Verif.Sequencer.steps_between_checks",
    "Verif.Sequencer.time_between_checks"
   ],
   "note": "sequences are called only while their callers are active (as in C66); the time of a step includes the user code in it (the custom action between two calls, conditions), and the bound is relative to it; single stepping off"
  },
  {
   "property": "C250",
   "status": "partial",
   "theorems": [
    "Verif.Planner.JerkClock.finishes_partial",
    "Verif.Planner.JerkClock.no_cruise_never_finishes_violated",
    "Verif.Planner.JerkClock.long_phase_never_finishes_violated"
   ],
   "note": "the full statement is false: a motion whose dT2 is zero never leaves its third phase, for every sampling time (the constant-acceleration planner tests for an empty phase, this one does not), and with 0.001 s and 7981 samples the end of the first phase is missed; proved for motions with a phase of constant velocity whose accumulated rounding error stays below 1e-12"
  },
  {
   "property": "C251",
   "status": "proved",
   "theorems": [
    "Verif.Control.TransitionConc.transition_linearizable",
    "Verif.Control.TransitionConc.steady_fresh",
    "Verif.Control.TransitionConc.up_fresh",
    "Verif.Common.LinSim.linearizable",
    "Verif.Common.LinSim.realtime"
   ],
   "note": "Sequentially consistent memory, inputs connected, exact arithmetic"
  },
  {
   "property": "C252",
   "status": "partial",
   "theorems": [
    "Verif.Planner.CubicFile.reads_table_partial",
    "Verif.Planner.CubicFile.read_filled",
    "Verif.Planner.CubicFile.words_exist",
    "Verif.Planner.CubicFile.truncated_violated"
   ],
   "note": "Complete files are read as meant. Violated by an incomplete last row, which is filled up with copies of the last number."
  },
  {
   "property": "C253",
   "status": "partial",
   "theorems": [
    "Verif.Planner.CubicFile.init_standing_partial",
    "Verif.Planner.CubicFile.init_moving_violated",
    "Verif.Planner.CubicFile.reset_moving_violated"
   ],
   "note": "Holds for a planner which stands. During a motion init leaves it in a state in which it never reports the end and refuses every move; init and reset freeze the velocity output at its last value."
  },
  {
   "property": "C254",
   "status": "partial",
   "theorems": [
    "Verif.Common.Uninit.bad_iff",
    "Verif.Common.Uninit.bad_initAlso",
    "Verif.Control.UninitBlocks.gain_violated",
    "Verif.Control.UninitBlocks.switch_violated",
    "Verif.Control.UninitBlocks.trace_violated",
    "Verif.Control.UninitBlocks.periphOut_violated",
    "Verif.Control.UninitBlocks.median_violated",
    "Verif.Control.UninitBlocks.zTransfer_violated",
    "Verif.Control.UninitBlocks.canRecvOpen_violated",
    "Verif.Control.UninitBlocks.canSendOpen_violated",
    "Verif.Control.UninitBlocks.canSend_violated",
    "Verif.Control.UninitBlocks.canRecv_ok",
    "Verif.Control.UninitBlocks.transUp_violated",
    "Verif.Control.UninitBlocks.transSteadyUp_ok",
    "Verif.Control.UninitBlocks.transSteadyDown_violated",
    "Verif.Control.UninitBlocks.cubic_violated",
    "Verif.Control.UninitBlocks.constAcc_violated",
    "Verif.Control.UninitBlocks.kalman_violated",
    "Verif.Control.UninitBlocks.mouseIn_violated",
    "Verif.Control.UninitBlocks.xboxIn_violated",
    "Verif.Control.UninitBlocks.spaceNav_violated",
    "Verif.Control.UninitBlocks.lidar_violated",
    "Verif.Control.UninitBlocks.om70_violated",
    "Verif.Control.UninitBlocks.sensor_violated",
    "Verif.Control.UninitBlocks.sensor_never",
    "Verif.Control.UninitBlocks.laser_stamps_violated",
    "Verif.Control.UninitBlocks.diff_ok",
    "Verif.Control.UninitBlocks.integ_ok",
    "Verif.Control.UninitBlocks.step_ok",
    "Verif.Control.UninitBlocks.rateLim_ok",
    "Verif.Control.UninitBlocks.lowPass_ok",
    "Verif.Control.UninitBlocks.switch_repaired",
    "Verif.Control.UninitBlocks.canRecvOpen_half"
   ],
   "note": "Holds for D, I, Step, RateLimiter, LowPassFilter, CANreceive and the steady Transition upwards. For every other listed class the theorem names exactly the members which are read too early, and bad_initAlso shows that initialising them is enough."
  },
  {
   "property": "C255",
   "status": "partial",
   "theorems": [
    "Verif.Safety.ExitHandler.exit_locks_safety_violated",
    "Verif.Safety.ExitHandler.exit_locks_heap_violated",
    "Verif.Safety.ExitHandler.exit_after_end_violated",
    "Verif.Safety.ExitHandler.exit_returns_partial",
    "Verif.Safety.ExitHandler.exit_alive_partial",
    "Verif.Safety.ExitHandler.exit_before"
   ],
   "note": "Violated: triggerEvent locks a mutex and allocates memory. If the signal arrives in a thread which does the same, the handler never returns and no event changes the level any more. After the destruction of the safety system the handler uses the destroyed object; without exit function (as in five of the examples) it ends the program with an exception. The part which holds is C256."
  },
  {
   "property": "C256",
   "status": "proved",
   "theorems": [
    "Verif.Safety.ExitHandler.exit_returns_partial",
    "Verif.Safety.ExitHandler.exit_alive_partial",
    "Verif.Safety.ExitHandler.exit_before",
    "Verif.Common.SignalLocks.never_stuck",
    "Verif.Common.SignalLocks.all_return"
   ],
   "note": "The part of C255 which holds."
  },
  {
   "property": "C257",
   "status": "partial",
   "theorems": [
    "Verif.Sequencer.WaitAll.wait_all_partial",
    "Verif.Sequencer.WaitAll.wait_earlier_violated",
    "Verif.Sequencer.WaitAll.wait_later_violated"
   ],
   "note": "Holds if sequences start and wait for sequences constructed later only, and all are constructed before the wait (wait_all_partial). Violated otherwise, for every body of the sequence: the wait goes through the list once, so a sequence started by one which comes later in the list is missed (wait_earlier_violated), and so is one which was constructed after the list was copied (wait_later_violated). Then objects may be destroyed while their thread runs."
  },
  {
   "property": "C258",
   "status": "proved",
   "theorems": [
    "Verif.Sequencer.WaitAll.wait_alone"
   ],
   "note": "the order of construction is the hypothesis"
  },
  {
   "property": "C259",
   "status": "partial",
   "theorems": [
    "Verif.Control.CorrectorFile.reads_table",
    "Verif.Control.CorrectorFile.garbage_violated",
    "Verif.Control.CorrectorFile.incomplete_violated",
    "Verif.Control.CorrectorFile.unclosed_violated"
   ],
   "note": "Holds for files without errors (reads_table, C260). Violated for all others, whatever they contain: from the first line which does not begin like a line the rest of the file is ignored and load succeeds if there was a triangle before (garbage_violated); one or two lines at the end are ignored (incomplete_violated); the closing bracket and the semicolon are not checked (unclosed_violated)."
  },
  {
   "property": "C260",
   "status": "proved",
   "theorems": [
    "Verif.Control.CorrectorFile.reads_table"
   ],
   "note": "the conversion of numbers by fscanf is a parameter"
  },
  {
   "property": "C261",
   "status": "proved",
   "theorems": [
    "Verif.Safety.InputReaction.input_reaction",
    "Verif.Safety.InputReaction.good_inputs_stay"
   ],
   "note": ""
  },
  {
   "property": "C262",
   "status": "proved",
   "theorems": [
    "Verif.Sequencer.Timed.timeout_iff",
    "Verif.Sequencer.Timed.timeout_fires_late"
   ],
   "note": "one thread; the clock is read once per step of the machine"
  },
  {
   "property": "C263",
   "status": "partial",
   "theorems": [
    "Verif.Sequencer.Timed.timeout_once_partial",
    "Verif.Sequencer.Timed.timeout_stays",
    "Verif.Sequencer.Timed.timeout_fires_again_violated"
   ],
   "note": "holds for the behaviors abort and restart and when the timeout is reset after it has fired; a timeout with behavior resume which nobody resets fires at every further check"
  },
  {
   "property": "C264",
   "status": "proved",
   "theorems": [
    "Verif.Sequencer.Timed.wait_full"
   ],
   "note": "one thread; undisturbed means that no monitor ended the step"
  },
  {
   "property": "C265",
   "status": "proved",
   "theorems": [
    "Verif.Safety.level_changes_registered",
    "Verif.Safety.private_needs_context"
   ],
   "note": "the part of C01 which holds for all properties"
  },
  {
   "property": "C266",
   "status": "proved",
   "theorems": [
    "Verif.Safety.priority_exact"
   ],
   "note": "levels of one system have distinct ids, as addLevel and addEvent leave them"
  },
  {
   "property": "C267",
   "status": "proved",
   "theorems": [
    "Verif.Safety.Inst.construct_exact",
    "Verif.Safety.Inst.failed_attempts_block_violated"
   ],
   "note": "the exact rule behind C05; the second theorem gives the blocking"
  },
  {
   "property": "C268",
   "status": "proved",
   "theorems": [
    "Verif.Hal.add_succeeds_iff"
   ],
   "note": "the exact rule behind C41"
  },
  {
   "property": "C269",
   "status": "proved",
   "theorems": [
    "Verif.Safety.current_iff_reached",
    "Verif.Safety.critical_handled_iff"
   ],
   "note": "the exact rule behind C01 and C04; conditions as in the quantifier: every input check can pass, private transitions only in levels with a level action"
  },
  {
   "property": "C270",
   "status": "proved",
   "theorems": [
    "Verif.Control.Transition.down_exact",
    "Verif.Control.Transition.up_exact"
   ],
   "note": "the exact rule behind C33"
  },
  {
   "property": "C271",
   "status": "proved",
   "theorems": [
    "Verif.Safety.Conc.calm_disciplined"
   ],
   "note": "the part of C07 which holds"
  },
  {
   "property": "C272",
   "status": "proved",
   "theorems": [
    "Verif.Config.add_throws_iff",
    "Verif.Config.registered",
    "Verif.Config.order_irrelevant",
    "Verif.Config.registered_round_trip"
   ],
   "note": "array arguments consistent or not is decided by the number of elements between start and end"
  },
  {
   "property": "C273",
   "status": "proved",
   "theorems": [
    "Verif.Planner.ConstJerk.within_limits",
    "Verif.Planner.ConstJerk.short_move_exact"
   ],
   "note": "exact arithmetic"
  },
  {
   "property": "C274",
   "status": "proved",
   "theorems": [
    "Verif.Hal.XBox.failing_reads_exact",
    "Verif.Hal.XBox.first_read_undefined"
   ],
   "note": ""
  },
  {
   "property": "C275",
   "status": "partial",
   "theorems": [
    "Verif.Core.EtherCatSync.cycles_le_bus",
    "Verif.Core.EtherCatSync.bus_runs",
    "Verif.Core.EtherCatSync.stop_ends_partial",
    "Verif.Core.EtherCatSync.never_returns",
    "Verif.Core.EtherCatSync.stop_lost_violated"
   ],
   "note": "a stop while the executor starts is lost: it then runs any number of cycles without the bus, or waits for ever; the end of the loop needs a stack whose sync returns after its stop, else the executor hangs"
  },
  {
   "property": "C276",
   "status": "proved",
   "theorems": [
    "Verif.Planner.ConstAcc.consistent_iff",
    "Verif.Planner.ConstAcc.consistent_iff_long",
    "Verif.Planner.ConstAcc.stands_still_violated"
   ],
   "note": "exact arithmetic"
  },
  {
   "property": "C277",
   "status": "proved",
   "theorems": [
    "Verif.Math.Mat.rank_right_iff",
    "Verif.Math.Mat.rank_over_violated"
   ],
   "note": "exact arithmetic"
  },
  {
   "property": "C278",
   "status": "proved",
   "theorems": [
    "Verif.Math.Mat.det_int",
    "Verif.Math.Mat.inv_cut",
    "Verif.Math.Mat.inv_int_iff",
    "Verif.Math.Mat.inv_int_1x1",
    "Verif.Math.Mat.invertible_violated",
    "Verif.Math.Mat.det2_defined_iff",
    "Verif.Math.Mat.det2_small_ok",
    "Verif.Math.Mat.det2_overflow_violated"
   ],
   "note": "The same definitions of det and operator! as in C48, used with the integers and the division of C++. Findings: isInvertible is true and operator! returns a wrong matrix without any fault for every integer matrix with a determinant other than 0, 1 and -1; the determinant of a 2x2 matrix can overflow although its value is 0. Overflow is modelled for the 2x2 determinant only."
  },
  {
   "property": "C279",
   "status": "proved",
   "theorems": [
    "Verif.Control.Delay.delay_exact",
    "Verif.Control.Delay.delay_right_iff"
   ],
   "note": "exact arithmetic"
  },
  {
   "property": "C280",
   "status": "proved",
   "theorems": [
    "Verif.Control.WrapAround.wraps_iff",
    "Verif.Control.WrapAround.wrap_congruent"
   ],
   "note": "exact arithmetic"
  },
  {
   "property": "C281",
   "status": "proved",
   "theorems": [
    "Verif.Control.Can.receive_defined_iff",
    "Verif.Control.Can.send_defined_iff",
    "Verif.Control.Can.angles_right_iff"
   ],
   "note": "the functions of the CAN library which encode and decode numbers are parameters"
  },
  {
   "property": "C282",
   "status": "proved",
   "theorems": [
    "Verif.Hal.DeviceThread.destructor_returns_iff",
    "Verif.Hal.DeviceThread.destructible_iff",
    "Verif.Hal.RPLidar.run_defined_iff"
   ],
   "note": "blocking reads of the devices are not modelled"
  },
  {
   "property": "C283",
   "status": "proved",
   "theorems": [
    "Verif.Config.array_overflow_iff",
    "Verif.Config.array_loaded_iff"
   ],
   "note": "arrays of int; those of double are read by the same loop"
  },
  {
   "property": "C284",
   "status": "partial",
   "theorems": [
    "Verif.Control.ElmoInput.run_exact_partial",
    "Verif.Control.ElmoInput.one_frame_iff",
    "Verif.Control.ElmoInput.undisturbed",
    "Verif.Control.ElmoInput.mixture_violated",
    "Verif.Control.ElmoInput.later_violated"
   ],
   "note": "Proved: which frame each value belongs to, for all schedules, and when it is the same. Violated: frames which arrive during a run are mixed, the timestamp is older than the values."
  },
  {
   "property": "C285",
   "status": "proved",
   "theorems": [
    "Verif.Control.EtherCat.elmo_exact",
    "Verif.Control.EtherCat.elmo_fault_silent_iff"
   ],
   "note": "the drive itself belongs to another library"
  },
  {
   "property": "C286",
   "status": "proved",
   "theorems": [
    "Verif.Control.CanSend.run_ok_iff"
   ],
   "note": "the second byte of the frames is indeterminate, see C120"
  },
  {
   "property": "C287",
   "status": "proved",
   "theorems": [
    "Verif.Control.SafetyLevelPub.undefined_iff",
    "Verif.Control.SafetyLevelPub.published_exact"
   ],
   "note": "-"
  },
  {
   "property": "C288",
   "status": "proved",
   "theorems": [
    "Verif.Control.Subio.results_exact"
   ],
   "note": "-"
  },
  {
   "property": "C289",
   "status": "proved",
   "theorems": [
    "Verif.Hal.Features.call_exact"
   ],
   "note": "the search order of dlsym is a list"
  },
  {
   "property": "C290",
   "status": "proved",
   "theorems": [
    "Verif.Hal.BaumerData.block_exact"
   ],
   "note": "exact arithmetic for the factor 0.001"
  },
  {
   "property": "C291",
   "status": "proved",
   "theorems": [
    "Verif.External.ODriveEP.get_value_iff",
    "Verif.External.ODriveEP.get_error_iff",
    "Verif.External.ODriveEP.init_exact",
    "Verif.External.ODriveEP.released_iff"
   ],
   "note": "a negative device count is not modelled"
  },
  {
   "property": "C292",
   "status": "proved",
   "theorems": [
    "Verif.Core.RosSync.Topic.stop_ends_iff",
    "Verif.Core.RosSync.Topic.message_iff",
    "Verif.Core.EtherCatSync.stop_ends_iff"
   ],
   "note": "the EtherCAT part is for stacks whose sync returns after their stop"
  },
  {
   "property": "C293",
   "status": "proved",
   "theorems": [
    "Verif.Hal.ODriveUsb.selects_exact",
    "Verif.Hal.ODriveUsb.wrong_drive_iff"
   ],
   "note": "-"
  },
  {
   "property": "C294",
   "status": "proved",
   "theorems": [
    "Verif.Control.RosBlocks.Analog.parse_exact",
    "Verif.Control.RosBlocks.Laser.receive_exact",
    "Verif.Control.RosBlocks.Laser.roundtrip_iff",
    "Verif.Control.RosData.receive_exact"
   ],
   "note": "-"
  },
  {
   "property": "C295",
   "status": "proved",
   "theorems": [
    "Verif.Hal.Keyboard.blocks_exact",
    "Verif.Hal.Keyboard.own_keys_iff"
   ],
   "note": "blocks with less than 256 keys and enough names; events of the digital inputs only in C86"
  },
  {
   "property": "C296",
   "status": "proved",
   "theorems": [
    "Verif.Hal.ODrive.getVel_exact",
    "Verif.Hal.ODrive.stod_some_iff"
   ],
   "note": "numbers without exponent and without the special texts inf and nan"
  },
  {
   "property": "C297",
   "status": "proved",
   "theorems": [
    "Verif.Sequencer.Stepping.as_requested_iff",
    "Verif.Sequencer.Stepping.client_exact"
   ],
   "note": "-"
  },
  {
   "property": "C298",
   "status": "proved",
   "theorems": [
    "Verif.Control.IeeeSettle.keeps_order",
    "Verif.Control.IeeeSettle.settles"
   ],
   "note": "Doubles with rounding, subnormal numbers and overflow."
  },
  {
   "property": "C299",
   "status": "proved",
   "theorems": [
    "Verif.Control.IeeeSettle.zero_reached_iff",
    "Verif.Control.IeeeSettle.zero_never_reached_violated",
    "Verif.Control.IeeeSettle.stops_above"
   ],
   "note": "Doubles with rounding, subnormal numbers and overflow. For every weight below one half the output stays positive for ever, which violates C147."
  },
  {
   "property": "C300",
   "status": "proved",
   "theorems": [
    "Verif.Control.ExactRules4.checker_exact",
    "Verif.Control.ExactRules4.events_exact",
    "Verif.Control.ExactRules4.window_exact",
    "Verif.Control.ExactRules4.integrate_exact",
    "Verif.Control.ExactRules4.accepts_exact"
   ],
   "note": "The exact rule behind C204 to C207. Exact arithmetic with infinities and NaN."
  },
  {
   "property": "C301",
   "status": "proved",
   "theorems": [
    "Verif.Control.ExactRules4.toRos1_exact",
    "Verif.Control.ExactRules4.toRos2_exact",
    "Verif.Control.ExactRules4.roundtrip_iff"
   ],
   "note": "The exact rule behind C92 for clocks which count from 1970."
  },
  {
   "property": "C302",
   "status": "proved",
   "theorems": [
    "Verif.Sequencer.Stepping.steps_le",
    "Verif.Sequencer.Stepping.steps_reached"
   ],
   "note": "The exact rule behind C98. Atomic variables, sequentially consistent."
  },
  {
   "property": "C303",
   "status": "proved",
   "theorems": [
    "Verif.Hal.Scale.stage_right_iff"
   ],
   "note": "The exact rule behind C42."
  },
  {
   "property": "C304",
   "status": "partial",
   "theorems": [
    "Verif.Hal.ODriveCalib.offset_partial",
    "Verif.Hal.ODriveCalib.distinct",
    "Verif.Hal.ODriveCalib.switch0_partial",
    "Verif.Hal.ODriveCalib.offset_violated",
    "Verif.Hal.ODriveCalib.switch_not_read_violated",
    "Verif.Hal.ODriveCalib.pressed_unseen_violated"
   ],
   "note": "Proved for all constants but two and for the switch of motor 0. Violated: param_a1_is_homed is 3006 instead of 306 (not used), param_m1_endstop_state is 513 instead of 520, so that the end switch of motor 1 which the configuration enables is never read."
  },
  {
   "property": "C305",
   "status": "proved",
   "theorems": [
    "Verif.Hal.ODriveCalib.returns_iff",
    "Verif.Hal.ODriveCalib.commands_exact",
    "Verif.Hal.ODriveCalib.undefined_iff"
   ],
   "note": "Pauses and log messages are left out; of inductances and resistances only whether they are infinite."
  },
  {
   "property": "C306",
   "status": "partial",
   "theorems": [
    "Verif.Hal.ODriveCalib.undefined_iff",
    "Verif.Hal.ODriveCalib.returns_iff",
    "Verif.Hal.ODriveCalib.silent_drive_violated",
    "Verif.Hal.ODriveCalib.switches_ignored_violated"
   ],
   "note": "Proved for drives which answer every read. Violated: results of reads are ignored, so a drive which is not reached after the first reads counts as calibrated or is waited for without end, and a failure of one of the first reads uses an indeterminate variable; the emergency switches are not read during the calibration."
  },
  {
   "property": "C307",
   "status": "partial",
   "theorems": [
    "Verif.Hal.ODriveCalib.fed_every_pass",
    "Verif.Hal.ODriveCalib.members_exact",
    "Verif.Hal.ODriveCalib.trips_iff",
    "Verif.Hal.ODriveCalib.fast_requests_partial",
    "Verif.Hal.ODriveCalib.counter_violated",
    "Verif.Hal.ODriveCalib.currents_never_read_violated",
    "Verif.Hal.ODriveCalib.slow_requests_violated"
   ],
   "note": "Proved: velocities and switches of the last pass; the watchdog is fed in every pass and trips exactly if a pass lasts longer than a second. Violated: the counter of 500 has no effect; the currents are never read; a failed read leaves an indeterminate value; eight requests of 125 ms (the limit is 200 ms) trip the watchdog."
  },
  {
   "property": "C308",
   "status": "partial",
   "theorems": [
    "Verif.Hal.ODriveUart.calibrated_first_partial",
    "Verif.Hal.ODriveUart.setpoints_violated",
    "Verif.Hal.ODriveUart.axis1_violated",
    "Verif.Hal.ODriveUart.last_setpoint_violated"
   ],
   "note": "Proved for axis 0. Violated: the number of axes is the constant 1, axis 1 gets no command; the thread sends the constant set point 10000 in every pass, no set point of the application is ever sent; the destructor sets zero before it stops the thread, so that 10000 may follow. setSpeed is declared but not defined in the repository and taken to send its set point."
  },
  {
   "property": "C309",
   "status": "partial",
   "theorems": [
    "Verif.Control.RosSigint.never_recursive",
    "Verif.Control.RosSigint.first_registration_iff",
    "Verif.Control.RosSigint.after_init_partial",
    "Verif.Control.RosSigint.init_idempotent",
    "Verif.Control.RosSigint.ignored_violated",
    "Verif.Control.RosSigint.restart_violated",
    "Verif.Control.RosSigint.restart_calls_violated"
   ],
   "note": "Proved for the first registration if SIGINT is not ignored at that time. Violated: SIG_IGN is taken for a function, the next SIGINT jumps to address one; after a shut down the handler is lost, and a new registration after the next start is refused since customHandler is never cleared. The behaviour of rclcpp (init installs a handler, shutdown puts the old one back) is assumed."
  },
  {
   "property": "C310",
   "status": "partial",
   "theorems": [
    "Verif.Control.RosSigint.number_exact",
    "Verif.Control.RosSigint.unset",
    "Verif.Control.RosSigint.no_number",
    "Verif.Control.RosSigint.trailing_violated",
    "Verif.Control.RosSigint.negative_violated"
   ],
   "note": "Proved for decimal numbers, for texts which begin with no number and without the variable. Violated: a text which only begins with a number is taken for it, a negative number gives a domain next to two to the 64, both without an error."
  },
  {
   "property": "C311",
   "status": "partial",
   "theorems": [
    "Verif.Core.StopRos2.without_subscribers",
    "Verif.Core.StopRos2.with_subscribers_iff",
    "Verif.Core.StopRos2.one_call_partial",
    "Verif.Core.StopRos2.second_call_violated",
    "Verif.Core.StopRos2.callback_violated",
    "Verif.Core.StopRos2.no_call_violated"
   ],
   "note": "Proved without subscribers, and exactly when it holds with them: one call in each run, from outside. Violated: a second call joins a joined thread and throws, a callback joins itself or waits for ever, a run which ends without a call terminates the process. Sequential calls; the behaviour of std::thread and of the multi threaded executor of ROS is assumed."
  },
  {
   "property": "C312",
   "status": "partial",
   "theorems": [
    "Verif.Hal.Resources.mouse_balanced",
    "Verif.Hal.Resources.spaceNavigator_iff",
    "Verif.Hal.Resources.spaceNavigator_violated",
    "Verif.Hal.Resources.baumer_iff",
    "Verif.Hal.Resources.baumer_violated",
    "Verif.Hal.Resources.sbg_iff",
    "Verif.Hal.Resources.sbg_violated",
    "Verif.Hal.Resources.rplidar_iff"
   ],
   "note": "Proved for mouse and XBox, for the others exactly when it holds. Violated: a space navigator which cannot be opened calls fclose(NULL); a distance sensor which cannot be connected frees its context but keeps it, switching the laser uses it; an inertial sensor whose library cannot be initialised uses the handle all the same and destroys the interface twice; the driver of a laser scanner which cannot be connected is never given back. Interleavings of the thread with the destructor are C233; a failing modbus_new_tcp and ODriveUART are not part of the model here."
  },
  {
   "property": "C313",
   "status": "partial",
   "theorems": [
    "Verif.Hal.Resources.name_iff",
    "Verif.Hal.Resources.name_partial",
    "Verif.Hal.Resources.name_violated"
   ],
   "note": "Proved exactly when it holds. Violated: the result -1 of a failed request is taken for success, memory never written is returned as name, in particular for every device which could not be opened (a negative file number passes the test for zero)."
  },
  {
   "property": "C314",
   "status": "partial",
   "theorems": [
    "Verif.Examples.CanExample2.level_exact",
    "Verif.Examples.CanExample2.exit_iff",
    "Verif.Examples.CanExample2.exit_moving_partial",
    "Verif.Examples.CanExample2.exit_init_violated",
    "Verif.Examples.CanExample2.exit_ready_violated"
   ],
   "note": "Proved exactly when it holds. Violated: the level init has no transition for the shut down, the signal is lost; in the level ready a start of the movement in the same period wins, as stop was added last and is the highest level."
  },
  {
   "property": "C315",
   "status": "partial",
   "theorems": [
    "Verif.Examples.CanExample2.velocity_enabled",
    "Verif.Examples.CanExample2.stop_last",
    "Verif.Examples.CanExample2.first_velocity_partial",
    "Verif.Examples.CanExample2.velocities",
    "Verif.Examples.CanExample2.velocities_violated",
    "Verif.Examples.CanExample2.second_velocity_violated"
   ],
   "note": "Order of the actions proved for all courses of the level. Violated: the velocity is held in an unsigned variable, instead of -1 the value 4294967295 is set. Waiting and the reports of the states are not modelled."
  },
  {
   "property": "C316",
   "status": "proved",
   "theorems": [
    "Verif.Examples.HalTest3.exit_stops",
    "Verif.Examples.HalTest3.watchdog_stops",
    "Verif.Examples.HalTest3.dead_watchdog_stops",
    "Verif.Examples.HalTest3.never_stops"
   ],
   "note": "The device behind the watchdog is the environment."
  },
  {
   "property": "C317",
   "status": "proved",
   "theorems": [
    "Verif.Planner.Cubic.follows_any",
    "Verif.Planner.Cubic.follows_scaled_any",
    "Verif.Planner.Cubic.taken_eq_iff",
    "Verif.Planner.Cubic.time_any",
    "Verif.Planner.Cubic.empty_row_jumps_violated"
   ],
   "note": "For all tables, rows without samples included; empty_row_jumps_violated belongs to C59."
  },
  {
   "property": "C318",
   "status": "proved",
   "theorems": [
    "Verif.Core.StatisticsFl.exec_scale",
    "Verif.Core.StatisticsFl.start_free"
   ],
   "note": "Rounding without subnormal numbers and overflow."
  },
  {
   "property": "C319",
   "status": "proved",
   "theorems": [
    "Verif.Control.UnitsFl.MovingAverage.exec_scale",
    "Verif.Control.UnitsFl.LowPass.run_scale",
    "Verif.Control.UnitsFl.LowPass.runs_scale",
    "Verif.Control.UnitsFl.RateLimiter.run_scale",
    "Verif.Control.UnitsFl.RateLimiter.runs_scale",
    "Verif.Control.UnitsFl.Integrator.run_scale",
    "Verif.Control.UnitsFl.Integrator.runs_scale",
    "Verif.Control.UnitsFl.wrap_scale",
    "Verif.Control.UnitsFl.Gain.run_scale"
   ],
   "note": "Rounding without subnormal numbers and overflow."
  },
  {
   "property": "C320",
   "status": "partial",
   "theorems": [
    "Verif.External.LidarAdapter.forwards_partial",
    "Verif.External.LidarAdapter.own_failure_iff",
    "Verif.External.LidarAdapter.defined_iff",
    "Verif.External.LidarAdapter.before_connect_violated",
    "Verif.External.LidarAdapter.unknown_type_violated",
    "Verif.External.LidarAdapter.support_iff",
    "Verif.External.LidarAdapter.support_violated"
   ],
   "note": "Exact rule for all sequences of calls (defined_iff). Violated: calls before connect, unknown channel types, the answer on the control of the motor is never true for a caller which starts from false."
  },
  {
   "property": "C321",
   "status": "proved",
   "theorems": [
    "Verif.External.LidarAdapter.life",
    "Verif.External.LidarAdapter.destruct_iff"
   ],
   "note": "Proved for lidars whose connection is good; after a failed connection the destructor is harmless for the adapter exactly if channel and driver were created (destruct_iff), but the thread waits for ever (C282). The default time limits of the library are 2000 ms in the model."
  },
  {
   "property": "C322",
   "status": "partial",
   "theorems": [
    "Verif.External.ODriveMain.velocity_partial",
    "Verif.External.ODriveMain.repeats",
    "Verif.External.ODriveMain.printed",
    "Verif.External.ODriveMain.periodic",
    "Verif.External.ODriveMain.never_stopped_violated"
   ],
   "note": "All of it but the last clause is proved. Violated: the loop never ends, the commands which stop the drive are not reached."
  },
  {
   "property": "C323",
   "status": "partial",
   "theorems": [
    "Verif.External.ODriveMain.calibrate_partial",
    "Verif.External.ODriveMain.undefined_iff",
    "Verif.External.ODriveMain.first_failed_violated",
    "Verif.External.ODriveMain.second_failed_violated",
    "Verif.External.ODriveMain.mixed_violated"
   ],
   "note": "Proved if no request fails, with the exact rule for undefined behaviour. Violated: failed requests leave variables without value or with old values."
  },
  {
   "property": "C324",
   "status": "partial",
   "theorems": [
    "Verif.Math.Norm.norm_sq",
    "Verif.Math.Norm.norm_zero_iff",
    "Verif.Math.Norm.norm_smul",
    "Verif.Math.Norm.norm_add_le",
    "Verif.Math.Norm.norm_orthogonal",
    "Verif.Math.Norm.norm_rotation",
    "Verif.Math.Norm.normD_nan_iff",
    "Verif.Math.Norm.sum_accurate_partial",
    "Verif.Math.Norm.overflow_violated",
    "Verif.Math.Norm.underflow_violated"
   ],
   "note": "All laws proved over the real numbers; the sum under the root is accurate for elements of moderate size. Violated with doubles: the norm is infinite as soon as a finite element reaches 2^512, and 0 for all matrices with elements of at most 2^-538."
  },
  {
   "property": "C325",
   "status": "proved",
   "theorems": [
    "Verif.Math.Print.print_inj",
    "Verif.Math.Print.brackets"
   ],
   "note": "How a single element is written is a parameter; the six digits of a stream are not distinct for doubles which differ less."
  },
  {
   "property": "C326",
   "status": "proved",
   "theorems": [
    "Verif.Math.Elementwise.each_element",
    "Verif.Math.Elementwise.laws"
   ],
   "note": "The elements for all element types and operations, so also for doubles; the laws for exact numbers."
  },
  {
   "property": "C327",
   "status": "partial",
   "theorems": [
    "Verif.Control.GainVec.linear_output",
    "Verif.Control.GainVec.superposition",
    "Verif.Control.GainVec.parabolic_partial",
    "Verif.Control.GainVec.parabolic_bounded",
    "Verif.Control.GainVec.indeterminate_violated",
    "Verif.Control.GainVec.determinate_iff",
    "Verif.Control.GainVec.disabled_output",
    "Verif.Control.GainVec.default_ew",
    "Verif.Control.GainVec.default_sums",
    "Verif.Control.GainVec.default_violated"
   ],
   "note": "Exact arithmetic. Violated: the parabolic profile with a gain matrix, or with a number by elements, puts out uninitialised memory (determinate_iff: exactly there); the default gain matrix is filled with ones, so a default block adds up the columns (gain 1 exactly for one row)."
  },
  {
   "property": "C328",
   "status": "partial",
   "theorems": [
    "Verif.Control.GainLimits.asked_partial",
    "Verif.Control.GainLimits.short_violated",
    "Verif.Control.GainLimits.unsigned_violated",
    "Verif.Control.GainLimits.long_violated",
    "Verif.Control.GainLimits.asked_iff"
   ],
   "note": "Proved for signed types of 32 bits and unsigned types of less. Violated: all integer types get the limits of int32_t; int8_t and int16_t always amplify with 0, uint32_t and uint64_t always with 2^w - 2^31, int64_t is cut. asked_iff: exactly these types. The conversion of the limits of double to a float gain is not modelled."
  },
  {
   "property": "C329",
   "status": "partial",
   "theorems": [
    "Verif.Control.Defaults.cleared_smallest",
    "Verif.Control.Defaults.constant_iff_partial",
    "Verif.Control.Defaults.constant_violated"
   ],
   "note": "Proved for signals. A constant source has the smallest value exactly for signed types of 32 bits and unsigned types of less; violated for all others: a default source of type bool is true, int8_t and int16_t are 0, uint32_t is 2^31."
  },
  {
   "property": "C330",
   "status": "partial",
   "theorems": [
    "Verif.Control.IntBlocks.integrate_iff",
    "Verif.Control.IntBlocks.integral_partial",
    "Verif.Control.IntBlocks.stuck_violated",
    "Verif.Control.IntBlocks.fast_violated",
    "Verif.Control.IntBlocks.matrix_violated",
    "Verif.Control.IntBlocks.matrix_iff"
   ],
   "note": "Doubles exact, no overflow, away from the limits. A run is within a unit, exact exactly if input times time is an integer; the errors add up. Violated: increments below a unit are lost for ever from 0 on and count as a whole unit below 0; an integrator of matrices of integers never moves with sampling times below a second."
  },
  {
   "property": "C331",
   "status": "partial",
   "theorems": [
    "Verif.Control.IntBlocks.between_partial",
    "Verif.Control.IntBlocks.rest_iff",
    "Verif.Control.IntBlocks.never_violated",
    "Verif.Control.IntBlocks.from_above",
    "Verif.Control.IntBlocks.from_below",
    "Verif.Control.IntBlocks.matrix_zero_violated",
    "Verif.Control.IntBlocks.rounding_violated"
   ],
   "note": "Proved for values from 0 on: between last output and input; from above the input is reached. Violated: from below the filter rests short of the input by up to the reciprocal of the weight (rest_iff: exactly there); a filter of matrices of integers puts out zeros; with rounding (IEEE) a constant 3 is put out as 2 with weight 0.3."
  },
  {
   "property": "C332",
   "status": "partial",
   "theorems": [
    "Verif.Control.IntBlocks.average_error",
    "Verif.Control.IntBlocks.average_partial",
    "Verif.Control.IntBlocks.constant_average",
    "Verif.Control.IntBlocks.constant_violated"
   ],
   "note": "The error is below one unit per coefficient. Violated: the average of N equal values is the value exactly if N divides it, otherwise the next smaller multiple of N."
  },
  {
   "property": "C333",
   "status": "partial",
   "theorems": [
    "Verif.Control.IntBlocks.derivative_partial",
    "Verif.Control.IntBlocks.derivative_violated",
    "Verif.Control.IntBlocks.limiter_passes",
    "Verif.Control.IntBlocks.limiter_partial",
    "Verif.Control.IntBlocks.rise_violated",
    "Verif.Control.IntBlocks.fall_violated"
   ],
   "note": "Each run is accurate to a unit. Violated: the differentiator of matrices of integers divides by zero exactly with sampling times below a second; a limiter whose rate allows less than a unit per run never rises from 0 on and falls faster than allowed."
  },
  {
   "property": "C334",
   "status": "partial",
   "theorems": [
    "Verif.Hal.ScaleFinite.finite_partial",
    "Verif.Hal.ScaleFinite.max_finite_partial",
    "Verif.Hal.ScaleFinite.accepted_iff",
    "Verif.Hal.ScaleFinite.points_finite",
    "Verif.Hal.ScaleFinite.max_infinite_violated"
   ],
   "note": "Violated: line 326 tests rangeMin twice, a zero scale with an output range below the offset is accepted with an upper limit of minus infinity. Proved: everything else is finite, for all chains without a zero scale everything, and the special values agree with the exact model of C42 and C43."
  },
  {
   "property": "C335",
   "status": "partial",
   "theorems": [
    "Verif.Ui.CursesText.visible_iff",
    "Verif.Ui.CursesText.centred",
    "Verif.Ui.CursesText.legible_iff",
    "Verif.Ui.CursesText.status_last",
    "Verif.Ui.CursesText.narrow_violated",
    "Verif.Ui.CursesText.named_iff"
   ],
   "note": "Violated: a title longer than the line is not shown at all, commands overlap below 40 columns, the state starting is shown as unknown. All rules exact. The directory is not part of the build of the library."
  },
  {
   "property": "C336",
   "status": "partial",
   "theorems": [
    "Verif.Ui.CursesText.overrun_iff",
    "Verif.Ui.CursesText.typed_partial"
   ],
   "note": "Violated: ten or more characters overrun the buffer. Proved for every number below 1000000000."
  },
  {
   "property": "C337",
   "status": "proved",
   "theorems": [
    "Verif.Control.GainConc.gain_linearizable",
    "Verif.Control.GainConc.one_whole_gain"
   ],
   "note": "One step per element. enabled and smoothChange are constant: the documentation excludes them (27-29), C211 is about them. One whole gain is proved without smooth change, with limits which are not changed."
  },
  {
   "property": "C338",
   "status": "partial",
   "theorems": [
    "Verif.Control.GainConc.never_wrong",
    "Verif.Control.GainConc.mixed_unnoticed_violated"
   ],
   "note": "Proved: the message never appears. Violated: a mixed result whose first element was multiplied with B counts as permitted, whatever the others are, so the program finds only one of the two kinds of mixed results."
  },
  {
   "property": "C339",
   "status": "partial",
   "theorems": [
    "Verif.Logger.Stamp.stamp_partial",
    "Verif.Logger.Stamp.stamp_near",
    "Verif.Logger.Stamp.stamp_violated",
    "Verif.Logger.Stamp.stamp_order_violated",
    "Verif.Logger.Stamp.stamp_order_partial"
   ],
   "note": "Violated: in the last 127 ns of every second (clock counting from 1970, 2006 to 2038) the milliseconds are rounded up to 000 while the seconds are cut off, so the message shows a time 999 ms early and the shown times go back. Proved: exact more than 2 us away from a change of the milliseconds, otherwise at most 1 ms off or the beginning of the second. Date and time of day (localtime_r) are not modelled."
  },
  {
   "property": "C340",
   "status": "proved",
   "theorems": [
    "Verif.Logger.Header.continued_column",
    "Verif.Logger.Header.aligned_iff",
    "Verif.Logger.Header.other_shifted"
   ],
   "note": "Aligned exactly for 0 to 9 and A to Z, which includes all permitted categories; the first line of any other category is shifted (other_shifted). The terminal (tabs of eight columns, escape sequences) is a specification."
  },
  {
   "property": "C341",
   "status": "proved",
   "theorems": [
    "Verif.Logger.Header.header_inj"
   ],
   "note": "Dates with up to four digits of the year."
  },
  {
   "property": "C342",
   "status": "proved",
   "theorems": [
    "Verif.Logger.Header.message_lines",
    "Verif.Logger.Header.message_colour",
    "Verif.Logger.Header.screen_rows"
   ],
   "note": "Texts without escape, tab and newline."
  },
  {
   "property": "C343",
   "status": "partial",
   "theorems": [
    "Verif.Logger.Header.field_partial",
    "Verif.Logger.Header.field_violated"
   ],
   "note": "Violated: begin sets the fill character to 0 and does not set it back, a short value gets zeros in front of it, also in front of its sign. Proved: right exactly if the value fills its field."
  },
  {
   "property": "C344",
   "status": "partial",
   "theorems": [
    "Verif.Logger.LogFile.file_exact_partial",
    "Verif.Logger.LogFile.name_iff",
    "Verif.Logger.LogFile.truncated_violated",
    "Verif.Logger.LogFile.overwritten_violated"
   ],
   "note": "Violated: a second writer with the same name in the same second truncates the file, the messages so far are lost and the next ones come after zero bytes. Proved: exact for all histories without two writers of the same file, and two writers have the same file exactly if name and second are the same. One thread (C150, C191 for several)."
  },
  {
   "property": "C345",
   "status": "partial",
   "theorems": [
    "Verif.Logger.LogFile.terminal_partial",
    "Verif.Logger.LogFile.killed_violated",
    "Verif.Logger.LogFile.missing_bounded"
   ],
   "note": "Violated for a pipe or a file: end flushes the stream of the entry, not the stream of the screen. Proved: on a terminal (emptied at each end of a line) everything is shown, otherwise less than the size of the buffer is missing."
  },
  {
   "property": "C346",
   "status": "partial",
   "theorems": [
    "Verif.Examples.StandaloneClient.rows_partial",
    "Verif.Examples.StandaloneClient.rows_iff",
    "Verif.Examples.StandaloneClient.mixed_violated",
    "Verif.Examples.StandaloneClient.closed_violated",
    "Verif.Examples.StandaloneClient.received_iff"
   ],
   "note": "Violated: the client takes whatever one read delivers as a record; after a shorter portion the row is a mixture of two records, at the begin it shows memory never written, and after the end of the stream the last row again and again. Proved: exact if and only if every read delivers a whole record."
  },
  {
   "property": "C347",
   "status": "partial",
   "theorems": [
    "Verif.Examples.StandaloneClient.connections_exact",
    "Verif.Examples.StandaloneClient.reconnect_partial",
    "Verif.Examples.StandaloneClient.sigpipe_violated",
    "Verif.Examples.StandaloneClient.read_ignored_violated"
   ],
   "note": "Violated: writing to a connection closed by the server raises SIGPIPE, which ends the program, and the end of the stream seen by read is not looked at. Proved: a new connection for each write which fails without a signal, the number of connections exactly."
  },
  {
   "property": "C348",
   "status": "proved",
   "theorems": [
    "Verif.Examples.StandaloneClient.sent_exact"
   ],
   "note": "In exact arithmetic; writes are complete."
  },
  {
   "property": "C349",
   "status": "partial",
   "theorems": [
    "Verif.Core.TaskLate.in_order",
    "Verif.Core.TaskLate.begins_exact",
    "Verif.Core.TaskLate.recovers",
    "Verif.Core.TaskLate.on_time_partial",
    "Verif.Core.TaskLate.falls_behind",
    "Verif.Core.TaskLate.bounded_iff"
   ],
   "note": "Violated if runs take longer than the period: requests are kept and never dropped, the task falls behind without bound. Proved: the begin of each run exactly, the bound if runs and delays fit into the period, and how fast a delay is made up for. Times of requests, durations and delays are the environment."
  },
  {
   "property": "C350",
   "status": "partial",
   "theorems": [
    "Verif.Core.TaskLate.distance_partial",
    "Verif.Core.TaskLate.squeezed_violated",
    "Verif.Core.TaskLate.burst_violated"
   ],
   "note": "Violated after a run which took too long: the runs kept by the semaphore follow each other without a pause, a controller sees sampling times shorter than its period. Proved within the delays if there is enough time."
  },
  {
   "property": "C351",
   "status": "proved",
   "theorems": [
    "Verif.Core.TaskLate.after_on_time",
    "Verif.Core.TaskLate.after_order"
   ],
   "note": "The bound has the form of the hypothesis of C349, so that it applies to chains of tasks of any length."
  },
  {
   "property": "C352",
   "status": "partial",
   "theorems": [
    "Verif.Examples.TraceTest.rows_exact",
    "Verif.Examples.TraceTest.aligned_iff",
    "Verif.Examples.TraceTest.aligned_partial",
    "Verif.Examples.TraceTest.run_between_violated",
    "Verif.Examples.TraceTest.within_run_violated"
   ],
   "note": "Violated if the time domain runs a trace between the two calls of enable, or both calls come between the two traces of one run, and the program ends before the traces are full: rows shifted by one run, the last one possibly read behind the end of the array. Proved exactly when it holds."
  },
  {
   "property": "C353",
   "status": "partial",
   "theorems": [
    "Verif.Examples.RtTest.dt_nearest",
    "Verif.Examples.RtTest.stops_partial",
    "Verif.Examples.RtTest.stops_at_once",
    "Verif.Examples.RtTest.stops_iff",
    "Verif.Examples.RtTest.overflow_violated"
   ],
   "note": "Violated from 2147484 seconds (24.8 days) on: the int which counts cycles overflows before it reaches the limit. Proved for all smaller numbers, with the quotient rounded to double; zero, negative numbers and texts which are no number give one cycle."
  },
  {
   "property": "C354",
   "status": "partial",
   "theorems": [
    "Verif.Control.DelayFl.length_partial",
    "Verif.Control.DelayFl.written_partial",
    "Verif.Control.DelayFl.written_near",
    "Verif.Control.DelayFl.written_one",
    "Verif.Control.DelayFl.quotient_scale",
    "Verif.Control.DelayFl.tenth_violated",
    "Verif.Control.DelayFl.milli_violated",
    "Verif.Control.DelayFl.two_short_violated"
   ],
   "note": "Violated with 0.3 s at 0.1 s, 43 ms at 1 ms and all their doublings: the rounded quotient lies just below n and is cut, so the buffer is one element shorter. Proved that it is never off by more and never longer, that one sampling time is always right, and that numbers which are doubles give n."
  },
  {
   "property": "C355",
   "status": "partial",
   "theorems": [
    "Verif.Core.ShmName.same_iff",
    "Verif.Core.ShmName.same_partial",
    "Verif.Core.ShmName.leaves_violated",
    "Verif.Core.ShmName.twice_violated"
   ],
   "note": "Violated as soon as any object of this name is destroyed, since each destructor removes the name: later objects work with other memory than those still alive; destroy followed by the destructor removes the name of somebody else. Proved exactly when two objects share the memory."
  },
  {
   "property": "C356",
   "status": "partial",
   "theorems": [
    "Verif.Core.ShmName.removed_iff",
    "Verif.Core.ShmName.left_violated",
    "Verif.Core.ShmName.codes",
    "Verif.Core.ShmName.again_violated"
   ],
   "note": "Violated if ftruncate or mmap fails: the name created by the constructor stays for ever; destroy reports 0 any number of times. Proved exactly when the name is removed, and what each code of initialize means."
  },
  {
   "property": "C357",
   "status": "partial",
   "theorems": [
    "Verif.Core.ExecutorFl.every_iff",
    "Verif.Core.ExecutorFl.doubles_partial",
    "Verif.Core.ExecutorFl.otherwise",
    "Verif.Core.ExecutorFl.tenth_refused_violated",
    "Verif.Core.ExecutorFl.milli_refused_violated",
    "Verif.Core.ExecutorFl.milli_early_violated"
   ],
   "note": "Violated: 0.3 s with a base period of 0.1 s and 43 ms with 1 ms are refused as too far off; 172 ms with 1 ms and all its doublings are accepted and run one base period too early. Proved exactly when the number is right, and that otherwise it is refused up to 99 periods and one less from 101 periods on. In exact arithmetic it holds (C17)."
  },
  {
   "property": "C358",
   "status": "partial",
   "theorems": [
    "Verif.Core.ExecutorFl.computed_iff",
    "Verif.Core.ExecutorFl.computed_pow_partial",
    "Verif.Core.ExecutorFl.computed_whole_partial",
    "Verif.Core.ExecutorFl.computed_otherwise",
    "Verif.Core.ExecutorFl.hundredth_refused_violated",
    "Verif.Core.ExecutorFl.hundredth_early_violated",
    "Verif.Core.ExecutorFl.transition_test"
   ],
   "note": "Violated: with dt = 0.01 the period 29 * dt is refused as too far off, 116 * dt and its doublings are accepted and run one base period too early. Proved exactly when the number is right, for all powers of two, for whole seconds, and for the program TransitionBlockTest."
  },
  {
   "property": "C359",
   "status": "partial",
   "theorems": [
    "Verif.Core.MonitorFl.on_time",
    "Verif.Core.MonitorFl.monotone",
    "Verif.Core.MonitorFl.warns_partial",
    "Verif.Core.MonitorFl.limit_violated"
   ],
   "note": "Violated at the limit: with 1 ms and 0.1 a period of 0.9 ms is warned about although it deviates by no more than the tolerance. Proved for all periods which are not within N/2^48 of the limit, that a period on time is never warned about, and that warnings are monotone in tolerance and deviation. In exact arithmetic it holds (C168)."
  }
 ]
}