Verif.Safety.level_changes_registered: propext, Classical.choice, Quot.sound
Verif.Safety.private_needs_context: propext
Verif.Safety.current_level_installed_partial: propext, Classical.choice, Quot.sound
Verif.Safety.unadded_level_reachable: propext, Quot.sound
Verif.Safety.current_iff_reached: propext, Classical.choice, Quot.sound
Verif.Safety.lowest_level_wins_partial: propext, Classical.choice, Quot.sound
Verif.Safety.trigger_order_irrelevant_partial: propext, Quot.sound
Verif.Safety.lowest_wins_violated: none
Verif.Safety.priority_exact: propext, Classical.choice, Quot.sound
Verif.Safety.higher_request_forgotten_violated: propext, Quot.sound
Verif.Safety.run_executes_one_level: propext, Classical.choice, Quot.sound
Verif.Safety.critical_handled_partial: propext, Classical.choice, Quot.sound
Verif.Safety.constructor_decides: propext, Classical.choice, Quot.sound
Verif.Safety.critical_unhandled: propext, Quot.sound
Verif.Safety.critical_unhandled_violated: propext, Classical.choice, Quot.sound
Verif.Safety.critical_handled_iff: propext, Classical.choice, Quot.sound
Verif.Safety.Inst.at_most_one_partial: propext, Quot.sound
Verif.Safety.Inst.construct_iff_none_partial: propext, Quot.sound
Verif.Safety.Inst.failed_attempt_blocks: none
Verif.Safety.Inst.two_instances: none
Verif.Safety.Inst.failed_attempts_block_violated: propext, Classical.choice, Quot.sound
Verif.Safety.Inst.one_more_violated: propext, Quot.sound
Verif.Safety.Inst.construct_exact: propext, Classical.choice, Quot.sound
Verif.Safety.registration_above: propext, Quot.sound
Verif.Safety.registration_below: propext, Quot.sound
Verif.Safety.registration_between: propext, Quot.sound
Verif.Safety.registration_single: propext, Quot.sound
Verif.Safety.first_registration_wins: propext, Quot.sound
Verif.Safety.Conc.concurrent_level_discipline_partial: propext, Quot.sound
Verif.Safety.Conc.stale_transition: propext, Quot.sound
Verif.Safety.Conc.concurrent_lowest_partial: propext, Quot.sound
Verif.Safety.Conc.stale_transition_violated: propext, Quot.sound
Verif.Safety.Conc.stale_undisciplined_violated: propext, Quot.sound
Verif.Safety.Conc.calm_disciplined: propext, Quot.sound
Verif.Safety.ignore_never: none
Verif.Safety.check_fires: propext
Verif.Safety.check_fires_bool: propext, Quot.sound
Verif.Safety.range_fires_partial: propext, Quot.sound
Verif.Safety.off_range_fires: propext, Classical.choice, Quot.sound
Verif.Safety.leave_never_writes: propext
Verif.Safety.set_always_writes: propext
Verif.Safety.toggle_alternates: propext, Classical.choice, Quot.sound
Verif.Safety.range_nan_silent: propext
Verif.Safety.toggle_nan_stuck: propext
Verif.Sequencer.follows_protocol: propext, Quot.sound
Verif.Sequencer.idle_after_return: propext, Quot.sound
Verif.Sequencer.return_value: propext, Quot.sound
Verif.Sequencer.refused_not_executed: propext, Classical.choice, Quot.sound
Verif.Sequencer.precondition_decides: propext, Quot.sound
Verif.Sequencer.executions_bounded: propext, Quot.sound
Verif.Sequencer.executions_per_call: propext, Quot.sound
Verif.Sequencer.abort_stops_callees_partial: propext, Classical.choice, Quot.sound
Verif.Sequencer.aborting_returns: propext, Quot.sound
Verif.Sequencer.abort_transient: propext, Quot.sound
Verif.Sequencer.abort_masked_by_resume: propext, Quot.sound
Verif.Sequencer.abort_masked_by_restart: propext, Quot.sound
Verif.Sequencer.exceptions_not_nested: propext, Classical.choice, Quot.sound
Verif.Sequencer.exception_once: propext, Classical.choice, Quot.sound
Verif.Sequencer.handled_after_fire: propext, Classical.choice, Quot.sound
Verif.Sequencer.Timeout.unset_never_fires: propext, Quot.sound
Verif.Sequencer.Timeout.fires_iff: propext, Classical.choice, Quot.sound
Verif.Sequencer.Timeout.never_early: propext, Classical.choice, Quot.sound
Verif.Sequencer.Timeout.not_late: propext, Classical.choice, Quot.sound
Verif.Sequencer.Timeout.wait_not_early: propext, Classical.choice, Quot.sound
Verif.Sequencer.Timeout.wait_ends: propext, Classical.choice, Quot.sound
Verif.Sequencer.Registry.names_unique: propext, Quot.sound
Verif.Sequencer.Registry.ids_unique: propext, Quot.sound
Verif.Sequencer.Registry.byName_exact: propext, Quot.sound
Verif.Sequencer.Registry.byId_exact: propext, Quot.sound
Verif.Sequencer.Registry.construct_iff: propext, Classical.choice, Quot.sound
Verif.Sequencer.Registry.rename_duplicates: none
Verif.Core.RingBuffer.ring_is_fifo: propext, Quot.sound
Verif.Core.RingBuffer.popped_prefix_of_pushed: propext, Quot.sound
Verif.Core.Harmonic.harmonic_every_nth: propext, Quot.sound
Verif.Core.Harmonic.harmonic_count: propext, Quot.sound
Verif.Core.Harmonic.harmonic_le_one: propext
Verif.Core.Executor.accepted_period: propext, Classical.choice, Quot.sound
Verif.Core.Executor.multiple_accepted: propext, Classical.choice, Quot.sound
Verif.Core.Executor.accepted_iff: propext, Classical.choice, Quot.sound
Verif.Core.Executor.every_task_once_in_order: propext, Quot.sound
Verif.Core.Executor.rate_monotonic: propext, Classical.choice, Quot.sound
Verif.Core.Executor.priorities_valid: propext, Classical.choice, Quot.sound
Verif.Core.Semaphore.semaphore_conserves: propext, Quot.sound
Verif.Core.Semaphore.waits_le_posts: propext, Classical.choice, Quot.sound
Verif.Core.Semaphore.waits_iff: propext, Quot.sound
Verif.Core.Async.async_at_most_once_per_run: propext, Quot.sound
Verif.Core.Async.async_after_stop_partial: propext
Verif.Core.Async.async_ends: propext, Quot.sound
Verif.Core.Async.one_start_after_stop: none
Verif.Core.Async.start_after_stop_violated: propext, Classical.choice, Quot.sound
Verif.Core.Statistics.statistics_true: propext, Classical.choice, Quot.sound
Verif.Core.Statistics.statistics_reset: propext, Quot.sound
Verif.Control.TimeDomain.stopped_runs_nothing: propext
Verif.Control.TimeDomain.all_blocks_in_order: propext, Quot.sound
Verif.Control.TimeDomain.first_fault: propext, Quot.sound
Verif.Control.TimeDomain.run_keeps_configuration: propext
Verif.Control.TimeDomain.configuration_of_history: propext
Verif.Control.Inputs.connection_of_history: propext
Verif.Control.Inputs.connect_spec: propext
Verif.Control.Inputs.connectPtr_spec: propext
Verif.Control.Inputs.read_spec: propext, Quot.sound
Verif.Control.Inputs.reads_unique: propext, Quot.sound
Verif.Control.Inputs.nested_read: propext, Quot.sound
Verif.Control.Inputs.cyclic_read_diverges: propext
Verif.Control.Algebra.sum_correct: propext, Classical.choice, Quot.sound
Verif.Control.Algebra.sum_later_runs: propext, Classical.choice, Quot.sound
Verif.Control.Algebra.sum_unconnected: propext
Verif.Control.Algebra.index_checked: propext
Verif.Control.Algebra.mul_correct: none
Verif.Control.Algebra.mux_correct: propext, Quot.sound
Verif.Control.Algebra.mux_unconnected: propext
Verif.Control.Algebra.demux_mux: propext, Quot.sound
Verif.Control.Algebra.mux_demux: propext, Quot.sound
Verif.Control.Delay.delay_shifts_partial: propext, Classical.choice, Quot.sound
Verif.Control.Delay.new_length: propext, Classical.choice, Quot.sound
Verif.Control.Delay.delay_one_short: propext, Classical.choice, Quot.sound
Verif.Control.Integrator.integrates_exactly: propext, Classical.choice, Quot.sound
Verif.Control.Integrator.first_run: propext, Quot.sound
Verif.Control.Integrator.disabled_keeps: propext, Quot.sound
Verif.Control.Integrator.outside_holds: propext, Classical.choice, Quot.sound
Verif.Control.Integrator.stays_in_limits: propext, Quot.sound
Verif.Control.Integrator.output_in_limits: propext, Quot.sound
Verif.Control.Integrator.nan_without_initial_condition: propext, Quot.sound
Verif.Control.Integrator.limit_not_reached: propext, Classical.choice, Quot.sound
Verif.Control.Integrator.initial_condition_unchecked: propext, Classical.choice, Quot.sound
Verif.Control.Integrator.stays_short_violated: propext, Quot.sound
Verif.Control.Differentiator.first_sample: propext, Quot.sound
Verif.Control.Differentiator.difference_quotient: propext, Classical.choice, Quot.sound
Verif.Control.Differentiator.repeated_stamp: propext, Classical.choice, Quot.sound
Verif.Control.Differentiator.affine_exact: propext, Classical.choice, Quot.sound
Verif.Control.Saturation.saturates: propext, Classical.choice, Quot.sound
Verif.Control.Saturation.inside_unchanged: propext, Quot.sound
Verif.Control.Saturation.special_values: propext, Quot.sound
Verif.Control.Saturation.idempotent: propext, Classical.choice, Quot.sound
Verif.Control.Saturation.monotone: propext, Quot.sound
Verif.Control.Saturation.disabled_passes: propext, Quot.sound
Verif.Control.Saturation.vector_elementwise: propext, Quot.sound
Verif.Control.Saturation.symmetric_limit: propext, Classical.choice, Quot.sound
Verif.Control.RateLimiter.prev_is_last_output: propext, Quot.sound
Verif.Control.RateLimiter.rate_bounded: propext, Classical.choice, Quot.sound
Verif.Control.RateLimiter.follows_input: propext, Classical.choice, Quot.sound
Verif.Control.RateLimiter.limited_exactly: propext, Classical.choice, Quot.sound
Verif.Control.RateLimiter.same_stamp_holds: propext, Classical.choice, Quot.sound
Verif.Control.RateLimiter.passes_unlimited: propext, Quot.sound
Verif.Control.RateLimiter.symmetric_bound: propext, Classical.choice, Quot.sound
Verif.Control.RateLimiter.off_until_enabled: propext, Quot.sound
Verif.Control.Switch.outputs_selected: propext, Quot.sound
Verif.Control.Switch.always_publishes: propext, Quot.sound
Verif.Control.Switch.switches_iff: propext, Quot.sound
Verif.Control.Switch.once_per_arming: propext, Classical.choice, Quot.sound
Verif.Control.Switch.manual_switch: propext, Quot.sound
Verif.Control.Switch.new_unarmed: propext, Classical.choice, Quot.sound
Verif.Control.Switch.configured: propext, Classical.choice, Quot.sound
Verif.Control.Switch.selects_existing: propext, Classical.choice, Quot.sound
Verif.Control.Switch.invalid_condition_reports_switch: propext, Classical.choice, Quot.sound
Verif.Control.Switch.unchecked_initial_position: propext, Classical.choice, Quot.sound
Verif.Control.Switch.invalid_condition_violated: propext, Quot.sound
Verif.Control.Switch.unchecked_position_violated: propext, Quot.sound
Verif.Control.WrapAround.wraps_partial: propext, Classical.choice, Quot.sound
Verif.Control.WrapAround.congruent_unique: propext, Classical.choice, Quot.sound
Verif.Control.WrapAround.lattice_points_pass: propext, Classical.choice, Quot.sound
Verif.Control.WrapAround.disabled_passes: propext, Quot.sound
Verif.Control.WrapAround.lattice_point_not_wrapped: propext, Classical.choice, Quot.sound
Verif.Control.WrapAround.setMinMax_no_effect: propext, Quot.sound
Verif.Control.WrapAround.setMinMax_violated: propext, Classical.choice, Quot.sound
Verif.Control.WrapAroundFl.negative_remainder_violated: propext, Classical.choice, Quot.sound
Verif.Control.SignalChecker.fires_iff: propext, Quot.sound
Verif.Control.SignalChecker.at_most_once_per_reset: propext, Quot.sound
Verif.Control.SignalChecker.never_unregistered: propext, Quot.sound
Verif.Control.SignalChecker.first_violation_fires: propext, Classical.choice, Quot.sound
Verif.Control.SignalChecker.new_spec: propext, Quot.sound
Verif.Control.Transition.steady_last_sample: propext, Quot.sound
Verif.Control.Transition.steady_uninitialised_violated: propext, Quot.sound
Verif.Control.Transition.up_before_first: propext, Quot.sound
Verif.Control.Transition.up_refresh: propext, Quot.sound
Verif.Control.Transition.up_interpolates_partial: propext, Classical.choice, Quot.sound
Verif.Control.Transition.down_newest_older_partial: propext, Classical.choice, Quot.sound
Verif.Control.Transition.down_only_sent: propext, Quot.sound
Verif.Control.Transition.ratio_one_lags: propext, Classical.choice, Quot.sound
Verif.Control.Transition.equal_time_skipped: propext, Classical.choice, Quot.sound
Verif.Control.Transition.newer_sample_delivered: propext, Classical.choice, Quot.sound
Verif.Control.Transition.empty_buffer_undefined: propext, Classical.choice, Quot.sound
Verif.Control.Transition.equal_time_skipped_violated: propext, Classical.choice, Quot.sound
Verif.Control.Transition.newer_sample_violated: propext, Classical.choice, Quot.sound
Verif.Control.Transition.empty_buffer_violated: propext, Classical.choice, Quot.sound
Verif.Control.Transition.ratio_one_lags_violated: propext, Classical.choice, Quot.sound
Verif.Control.Trace.trace_last_samples: propext, Quot.sound
Verif.Control.Trace.zero_length_undefined: none
Verif.Control.Filters.Median.median_of_window: propext, Classical.choice, Quot.sound
Verif.Control.Filters.window_full: propext, Quot.sound
Verif.Control.Filters.Median.disabled_passes: propext, Quot.sound
Verif.Control.Filters.MovingAverage.moving_average: propext, Classical.choice, Quot.sound
Verif.Control.Filters.MovingAverage.moving_average_bounded: propext, Classical.choice, Quot.sound
Verif.Control.Filters.MovingAverage.disabled_passes: propext, Quot.sound
Verif.Control.Filters.LowPass.low_pass_bounded: propext, Classical.choice, Quot.sound
Verif.Control.Filters.LowPass.low_pass_recursion: propext, Quot.sound
Verif.Control.Gain.smooth_step: propext, Classical.choice, Quot.sound
Verif.Control.Gain.smooth_distance: propext, Classical.choice, Quot.sound
Verif.Control.Gain.smooth_arrives: propext, Classical.choice, Quot.sound
Verif.Control.Gain.run_in_limits: propext, Classical.choice, Quot.sound
Verif.Control.Gain.setGain_spec: propext, Quot.sound
Verif.Planner.ConstAcc.reaches_end: propext, Classical.choice, Quot.sound
Verif.Planner.ConstAcc.within_limits: propext, Classical.choice, Quot.sound
Verif.Planner.ConstAcc.move_nowhere: propext, Classical.choice, Quot.sound
Verif.Planner.ConstAcc.consistent_partial: propext, Classical.choice, Quot.sound
Verif.Planner.ConstAcc.stands_still_at_speed: propext, Classical.choice, Quot.sound
Verif.Planner.ConstAcc.stands_still_violated: propext, Classical.choice, Quot.sound
Verif.Planner.ConstJerk.reaches_end_partial: propext, Classical.choice, Quot.sound
Verif.Planner.ConstJerk.short_move_never_finishes: propext, Classical.choice, Quot.sound
Verif.Planner.ConstJerk.short_move_exact: propext, Classical.choice, Quot.sound
Verif.Hal.exclusive_until_release: propext
Verif.Hal.shared_until_release_partial: propext
Verif.Hal.handed_out_registered: propext
Verif.Hal.request_succeeds_iff: propext
Verif.Hal.one_release_clears_all_holders: propext
Verif.Hal.release_clears_all_violated: propext
Verif.Hal.unknown_name_keeps_signals_partial: propext, Quot.sound
Verif.Hal.add_fresh_name: propext
Verif.Hal.unknown_lookup_poisons_name: propext
Verif.Hal.unknown_release_poisons_name: propext
Verif.Hal.unknown_get_returns_null: propext
Verif.Hal.unknown_name_blocked_violated: propext, Quot.sound
Verif.Hal.unknown_get_null_violated: propext
Verif.Hal.Scale.stage_right_iff: propext, Classical.choice, Quot.sound
Verif.Hal.Scale.chain_right_partial: propext, Classical.choice, Quot.sound
Verif.Hal.Scale.range_without_zero_wrong: propext, Classical.choice, Quot.sound
Verif.Hal.Scale.range_is_intersection_partial: propext, Classical.choice, Quot.sound
Verif.Hal.Scale.decreasing_range_wrong: propext, Classical.choice, Quot.sound
Verif.Hal.Scale.noLimit_drops_limits: propext, Classical.choice, Quot.sound
Verif.Hal.Scale.noLimit_first_limits: propext, Classical.choice, Quot.sound
Verif.Hal.Scale.decreasing_empty_violated: propext, Classical.choice, Quot.sound
Verif.Hal.Scale.noLimit_last_violated: propext, Quot.sound
Verif.Hal.Scale.noLimit_single_violated: propext, Quot.sound
Verif.Control.PeripheralOutput.run_writes: propext
Verif.Control.PeripheralOutput.only_finite_written: propext, Classical.choice, Quot.sound
Verif.Control.PeripheralOutput.nan_triggers_safety_event: propext, Quot.sound
Verif.Control.PeripheralOutput.nan_without_event_faults: propext, Quot.sound
Verif.Control.PeripheralOutput.cycle_only_finite: propext, Classical.choice, Quot.sound
Verif.Control.PeripheralOutput.default_safe_writes_nan: propext
Verif.Control.PeripheralOutput.later_outputs_keep_value: propext
Verif.Config.round_trip_partial: propext, Classical.choice, Quot.sound
Verif.Config.missing_kept: propext, Classical.choice, Quot.sound
Verif.Config.unknown_ignored: propext, Classical.choice, Quot.sound
Verif.Config.empty_array_throws: propext, Classical.choice, Quot.sound
Verif.Config.empty_name_lost: propext, Classical.choice, Quot.sound
Verif.Config.empty_name_violated: propext, Classical.choice, Quot.sound
Verif.Config.array_loaded_partial: propext, Classical.choice, Quot.sound
Verif.Config.array_length: propext, Classical.choice, Quot.sound
Verif.Config.overflow: propext, Classical.choice, Quot.sound
Verif.Config.overflow_file: propext, Classical.choice, Quot.sound
Verif.Config.darray_loaded_partial: propext, Classical.choice, Quot.sound
Verif.Config.doverflow: propext, Classical.choice, Quot.sound
Verif.Math.Mat.access_in_bounds: propext, Classical.choice, Quot.sound
Verif.Math.Mat.read_after_write: propext, Classical.choice, Quot.sound
Verif.Math.Mat.index_access: propext, Quot.sound
Verif.Math.Mat.mul_assoc': propext, Classical.choice, Quot.sound
Verif.Math.Mat.mul_add': propext, Classical.choice, Quot.sound
Verif.Math.Mat.add_laws: propext, Classical.choice, Quot.sound
Verif.Math.Mat.eye_laws: propext, Classical.choice, Quot.sound
Verif.Math.Mat.smul_laws: propext, Classical.choice, Quot.sound
Verif.Math.Mat.transpose_laws: propext, Classical.choice, Quot.sound
Verif.Math.Mat.trace_eq: propext, Classical.choice, Quot.sound
Verif.Math.Mat.subMatrix_block: propext, Classical.choice, Quot.sound
Verif.Math.Mat.det_eq: propext, Classical.choice, Quot.sound
Verif.Math.Mat.inverse_right_partial: propext, Classical.choice, Quot.sound
Verif.Math.Mat.inverse_1x1: propext, Classical.choice, Quot.sound
Verif.Math.Mat.inverse_1x1_no_fault: propext, Classical.choice, Quot.sound
Verif.Math.Mat.inverse_5x5_wrong: propext, Classical.choice, Quot.sound
Verif.Math.Mat.inverse_wrong: propext, Classical.choice, Quot.sound
Verif.Math.Mat.inverse_right_iff: propext, Classical.choice, Quot.sound
Verif.Math.Mat.rank_right_sorted_partial: propext, Classical.choice, Quot.sound
Verif.Math.Mat.rank_right_partial: propext, Classical.choice, Quot.sound
Verif.Math.Mat.rank_zero_iff: propext, Classical.choice, Quot.sound
Verif.Math.Mat.rank_overcounts: propext, Classical.choice, Quot.sound
Verif.Math.Mat.rank_undercounts: propext, Classical.choice, Quot.sound
Verif.Math.Mat.rank1_inverted: propext, Classical.choice, Quot.sound
Verif.Math.Mat.rank_over_violated: propext, Classical.choice, Quot.sound
Verif.Math.Fraction.eval_mul: propext, Classical.choice, Quot.sound
Verif.Math.Fraction.eval_smul: propext, Classical.choice, Quot.sound
Verif.Math.Fraction.eval_add: propext, Classical.choice, Quot.sound
Verif.Math.Fraction.eval_addC: propext, Classical.choice, Quot.sound
Verif.Math.Fraction.eval_ofVec: propext, Classical.choice, Quot.sound
Verif.Math.Fraction.frac_pointwise: propext, Classical.choice, Quot.sound
Verif.Math.Fraction.eval_div: propext, Classical.choice, Quot.sound
Verif.Math.Frame.frames_unique: propext, Quot.sound
Verif.Math.Frame.coordinate_systems_unique: propext, Quot.sound
Verif.Math.Frame.mul_frames: propext, Classical.choice, Quot.sound
Verif.Math.Frame.delete_frame: propext, Quot.sound
Verif.Math.Frame.construct_iff_partial: propext, Quot.sound
Verif.Math.Frame.homog_acts: propext, Classical.choice, Quot.sound
Verif.Math.Frame.composed_acts: propext, Classical.choice, Quot.sound
Verif.Math.Frame.lookup_blocks_name: propext, Quot.sound
Verif.Control.Kalman.kalman_psd_iff: propext, Classical.choice, Quot.sound
Verif.Control.Kalman.many_outputs_negative: propext, Classical.choice, Quot.sound
Verif.Control.Kalman.kalman_psd_partial: propext, Classical.choice, Quot.sound
Verif.Control.Kalman.correct_psd_partial: propext, Classical.choice, Quot.sound
Verif.Control.Kalman.predict_psd: propext, Classical.choice, Quot.sound
Verif.Control.Kalman.init_psd: propext, Classical.choice, Quot.sound
Verif.Control.Kalman.five_outputs_negative: propext, Classical.choice, Quot.sound
Verif.Control.Corrector.corrects_partial: propext, Classical.choice, Quot.sound
Verif.Control.Corrector.corrects_one_partial: propext, Classical.choice, Quot.sound
Verif.Control.Corrector.maps_vertices: propext, Quot.sound
Verif.Control.Corrector.maps_unique: propext, Classical.choice, Quot.sound
Verif.Control.Corrector.shared_edge: propext, Classical.choice, Quot.sound
Verif.Control.Corrector.load_rejects: propext, Classical.choice, Quot.sound
Verif.Control.Corrector.get_undefined: propext, Classical.choice, Quot.sound
Verif.Logger.filter: propext, Quot.sound
Verif.Logger.only_finish_writes: propext, Quot.sound
Verif.Logger.usable: propext, Quot.sound
Verif.Logger.sys_trace_lost: none
Verif.Logger.sys_nested: none
Verif.Sockets.framing_partial: propext, Quot.sound
Verif.Sockets.complete: propext, Quot.sound
Verif.Sockets.zeros: propext, Quot.sound
Verif.Sockets.mixture: propext, Quot.sound
Verif.Sockets.mixture_reached: propext
Verif.Sockets.uninitialised_reached: propext, Quot.sound
Verif.Sockets.torn: propext, Quot.sound
Verif.Sockets.not_torn: propext, Quot.sound
Verif.Sockets.never_ends: propext, Quot.sound
Verif.Sockets.stop_ignored: propext, Quot.sound
Verif.Sockets.stop_ignored_connecting: propext
Verif.Sockets.stop_partial: propext, Quot.sound
Verif.Control.Can.decoded_partial: propext, Quot.sound
Verif.Control.Can.offset_succ: propext
Verif.Control.Can.others_ignored: propext, Quot.sound
Verif.Control.Can.configure_node: propext, Classical.choice, Quot.sound
Verif.Control.Can.scale_ignored: propext, Quot.sound
Verif.Control.Can.scale_violated: propext, Classical.choice, Quot.sound
Verif.Control.Can.unscaled_violated: propext, Classical.choice, Quot.sound
Verif.Control.Can.short_message: propext, Classical.choice, Quot.sound
Verif.Control.Mouse.within_limits: propext, Quot.sound
Verif.Control.Mouse.follows: propext, Quot.sound
Verif.Control.Mouse.starts_at_partial: propext, Quot.sound
Verif.Control.Mouse.start_swapped: propext, Quot.sound
Verif.Control.Mouse.start_discarded: propext, Quot.sound
Verif.Control.Mouse.start_wrong: propext, Classical.choice, Quot.sound
Verif.Planner.Cubic.follows_table_partial: propext, Classical.choice, Quot.sound
Verif.Planner.Cubic.follows_scaled_partial: propext, Classical.choice, Quot.sound
Verif.Planner.Cubic.samples_continuous: propext, Classical.choice, Quot.sound
Verif.Planner.Cubic.ends_at_rest_partial: propext, Classical.choice, Quot.sound
Verif.Planner.Cubic.scaled_end_partial: propext, Classical.choice, Quot.sound
Verif.Planner.Cubic.stops_short: propext, Classical.choice, Quot.sound
Verif.Planner.Cubic.reads_uninitialised: propext, Classical.choice, Quot.sound
Verif.Planner.Cubic.resumes_old_index: propext, Classical.choice, Quot.sound
Verif.Planner.Cubic.empty_row_jumps: propext, Classical.choice, Quot.sound
Verif.Planner.Cubic.scaled_misses: propext, Classical.choice, Quot.sound
Verif.Planner.Cubic.stops_short_violated: propext, Classical.choice, Quot.sound
Verif.Planner.Cubic.resumes_violated: propext, Quot.sound
Verif.Planner.Cubic.empty_row_jumps_violated: propext, Quot.sound
Verif.Control.ZTransfer.difference_equation_partial: propext, Classical.choice, Quot.sound
Verif.Control.ZTransfer.run_undefined: propext, Quot.sound
Verif.Control.ZTransfer.any_first_output: propext, Classical.choice, Quot.sound
Verif.Safety.quiet_runs_count: propext, Quot.sound
Verif.Safety.accepted_event_resets: propext, Quot.sound
Verif.Safety.InputReaction.higher_event_ignored: propext, Quot.sound
Verif.Safety.ActivationCount.count_from_start: propext, Quot.sound
Verif.Safety.ActivationCount.count_from_request: propext, Quot.sound
Verif.Safety.ActivationCount.count_from_entry: propext, Quot.sound
Verif.Core.Executor.short_period_rejected_partial: propext, Classical.choice, Quot.sound
Verif.Core.Executor.nonpositive_period_accepted: propext, Classical.choice, Quot.sound
Verif.Core.Executor.nonpositive_always_accepted: propext, Classical.choice, Quot.sound
Verif.Control.Switch.Combined.combined_follow: propext, Quot.sound
Verif.Control.Switch.Combined.combine_follows: propext, Quot.sound
Verif.Control.Switch.Combined.acyclic_returns: propext, Classical.choice, Quot.sound
Verif.Control.Switch.Combined.mutual_combination_diverges: propext, Classical.choice, Quot.sound
Verif.Control.Gain.enabling_smooth_keeps_partial: propext, Classical.choice, Quot.sound
Verif.Control.Gain.enabling_smooth_reverts_violated: propext, Classical.choice, Quot.sound
Verif.Control.Gain.enabling_smooth_reverts: propext, Classical.choice, Quot.sound
Verif.Control.Gain.parabolic_odd: propext, Classical.choice, Quot.sound
Verif.Control.Gain.parabolic_pos: propext, Classical.choice, Quot.sound
Verif.Control.Gain.parabolic_le_linear: propext, Classical.choice, Quot.sound
Verif.Control.Gain.parabolic_monotone: propext, Classical.choice, Quot.sound
Verif.Control.Gain.parabolic_no_jump: propext, Classical.choice, Quot.sound
Verif.Sequencer.no_null_dereference: propext, Classical.choice, Quot.sound
Verif.Sequencer.null_dereference_possible: propext, Quot.sound
Verif.Sequencer.deadlock_possible: propext, Quot.sound
Verif.Sequencer.inactive_idle: propext, Classical.choice, Quot.sound
Verif.Sequencer.stale_abort_possible: propext, Quot.sound
Verif.Hal.failed_construction_partial: propext
Verif.Hal.failed_construction_keeps_claim: propext
Verif.Hal.wrong_type_claims_violated: propext
Verif.Control.Sources.step_output: propext, Quot.sound
Verif.Control.Sources.reset_restarts: propext, Quot.sound
Verif.Control.Sources.constant_output: propext, Quot.sound
Verif.Math.Mat.stream_row_major: propext, Classical.choice, Quot.sound
Verif.Math.Mat.stream_too_many: propext, Quot.sound
Verif.Math.Mat.ctor_column_major: propext, Quot.sound
Verif.Math.Mat.subMatrix_block: propext, Classical.choice, Quot.sound
Verif.Math.Mat.rot_orthogonal: propext, Classical.choice, Quot.sound
Verif.Math.Mat.rot_add: propext, Classical.choice, Quot.sound
Verif.Math.Mat.rot_sense: propext, Classical.choice, Quot.sound
Verif.Math.Mat.cross_laws: propext, Classical.choice, Quot.sound
Verif.Math.Mat.predicates_right: propext, Classical.choice, Quot.sound
Verif.Math.Mat.isInvertible_iff: propext, Classical.choice, Quot.sound
Verif.Math.Mat.createDiag_right: propext, Classical.choice, Quot.sound
Verif.Math.Mat.isOrthogonal_iff: propext, Classical.choice, Quot.sound
Verif.Math.Mat.rows_cols: propext, Classical.choice, Quot.sound
Verif.Math.Mat.rows_cols_range: propext, Quot.sound
Verif.Control.Kalman.exact_start_stays_exact: propext, Classical.choice, Quot.sound
Verif.Control.Kalman.error_dynamics: propext, Classical.choice, Quot.sound
Verif.Planner.Clock.finishes_partial: propext, Classical.choice, Quot.sound
Verif.Planner.Clock.never_finishes: propext, Classical.choice, Quot.sound
Verif.Planner.ConstJerk.consistent_partial: propext, Classical.choice, Quot.sound
Verif.Planner.ConstJerk.within_limits_partial: propext, Classical.choice, Quot.sound
Verif.Planner.ConstJerk.within_limits: propext, Classical.choice, Quot.sound
Verif.Planner.ConstJerk.short_inconsistent_violated: propext, Classical.choice, Quot.sound
Verif.Control.ZTransfer.parallel: propext, Classical.choice, Quot.sound
Verif.Control.ZTransfer.series: propext, Classical.choice, Quot.sound
Verif.Control.ZTransfer.gain: propext, Classical.choice, Quot.sound
Verif.Control.ZTransfer.feed_through: propext, Classical.choice, Quot.sound
Verif.Control.ZTransfer.pid_law: propext, Classical.choice, Quot.sound
Verif.Control.ZTransfer.pt1_law: propext, Classical.choice, Quot.sound
Verif.Control.ZTransfer.d_law: propext, Classical.choice, Quot.sound
Verif.Control.Can.sent_partial: propext, Quot.sound
Verif.Control.Can.send_receive: propext, Quot.sound
Verif.Control.Can.negative_undefined: propext, Quot.sound
Verif.Control.Can.overflow: propext, Classical.choice, Quot.sound
Verif.Control.Can.angles_partial: propext, Quot.sound
Verif.Control.Can.order_violated: propext, Quot.sound
Verif.Core.ExecutorRun.first_call_decides: propext, Quot.sound
Verif.Core.ExecutorRun.run_starts_iff: propext, Quot.sound
Verif.Core.ExecutorRun.cycle_not_early: propext, Classical.choice, Quot.sound
Verif.Core.ExecutorRun.wakes_on_grid: propext, Classical.choice, Quot.sound
Verif.Core.ExecutorRun.cycles_in_order: propext, Classical.choice, Quot.sound
Verif.Core.ExecutorRun.all_joined: propext, Classical.choice, Quot.sound
Verif.Core.ExecutorRun.stop_one_more_partial: propext, Classical.choice, Quot.sound
Verif.Core.ExecutorRun.stop_terminates_partial: propext, Classical.choice, Quot.sound
Verif.Core.ExecutorRun.stop_lost: propext, Quot.sound
Verif.Core.PeriodicCounter.counter_true: propext, Quot.sound
Verif.Core.PeriodicCounter.counter_reset: propext, Quot.sound
Verif.Core.PeriodicCounter.mean_period: propext, Classical.choice, Quot.sound
Verif.Core.PeriodicCounter.warns_iff: propext, Classical.choice, Quot.sound
Verif.Core.PeriodicCounter.resetCounter_defined: propext, Classical.choice, Quot.sound
Verif.Core.PeriodicCounter.default_undefined: propext, Quot.sound
Verif.Core.Startup.safe_iff: propext, Classical.choice, Quot.sound
Verif.Core.Startup.async_partial: propext, Classical.choice, Quot.sound
Verif.Core.Startup.async_violated: propext, Classical.choice, Quot.sound
Verif.Core.Startup.thread_violated: propext, Classical.choice, Quot.sound
Verif.Core.Startup.mouse_violated: propext
Verif.Hal.Keyboard.addKeys_defined: propext, Quot.sound
Verif.Hal.Keyboard.one_block_partial: propext, Classical.choice, Quot.sound
Verif.Hal.Keyboard.second_block_shows_first: propext, Classical.choice, Quot.sound
Verif.Hal.Keyboard.second_block_events_lost: propext, Classical.choice, Quot.sound
Verif.Control.Signal.contents: propext, Classical.choice, Quot.sound
Verif.Control.Signal.id_halves: propext, Classical.choice, Quot.sound
Verif.Control.Signal.same_id_iff_partial: propext, Classical.choice, Quot.sound
Verif.Control.Signal.wrap_violated: propext, Classical.choice, Quot.sound
Verif.Control.Signal.copy_violated: propext, Quot.sound
Verif.Control.Signal.lookup_violated: propext
Verif.Control.Signal.lookup_spec: propext, Quot.sound
Verif.Hal.XBox.buttons_partial: propext, Quot.sound
Verif.Hal.XBox.state_and_axes: propext, Quot.sound
Verif.Hal.XBox.failed_read_repeats: propext, Classical.choice, Quot.sound
Verif.Hal.XBox.axis_range_partial: propext, Classical.choice, Quot.sound
Verif.Hal.XBox.axis_below: propext, Classical.choice, Quot.sound
Verif.Hal.XBox.block_output: propext, Quot.sound
Verif.Hal.XBox.axis_below_violated: propext, Classical.choice, Quot.sound
Verif.Hal.XBox.failed_read_violated: propext, Quot.sound
Verif.Hal.SpaceNavigator.decode_low_high: propext, Classical.choice, Quot.sound
Verif.Hal.SpaceNavigator.stream_partial: propext, Classical.choice, Quot.sound
Verif.Hal.SpaceNavigator.garbage_skipped: propext, Quot.sound
Verif.Hal.SpaceNavigator.truncated_violated: propext, Classical.choice, Quot.sound
Verif.Hal.SpaceNavigator.midway_violated: propext, Classical.choice, Quot.sound
Verif.Hal.SpaceNavigator.events: propext, Classical.choice, Quot.sound
Verif.Hal.SpaceNavigator.events_fresh: propext, Classical.choice, Quot.sound
Verif.Hal.SpaceNavigator.rotation_unset_violated: propext, Classical.choice, Quot.sound
Verif.Hal.DeviceThread.returns_partial: propext, Quot.sound
Verif.Hal.DeviceThread.not_connected_violated: propext
Verif.Hal.DeviceThread.early_violated: propext, Quot.sound
Verif.Hal.DeviceThread.cases_complete: propext
Verif.Control.RosTime.toRos_partial: propext, Classical.choice, Quot.sound
Verif.Control.RosTime.roundtrip_partial: propext, Classical.choice, Quot.sound
Verif.Control.RosTime.toEeros_exact: propext, Classical.choice, Quot.sound
Verif.Control.RosTime.toEeros_mod: propext, Quot.sound
Verif.Control.RosTime.toRos_violated: propext, Classical.choice, Quot.sound
Verif.Control.RosTime.first_wrong: propext, Classical.choice, Quot.sound
Verif.Control.RosTime.toRos_undefined: propext, Classical.choice, Quot.sound
Verif.Control.RosTime.getTime_mono: propext, Classical.choice, Quot.sound
Verif.Control.RosTime.getTime_error: propext, Classical.choice, Quot.sound
Verif.Control.RosTime.getTime_strict: propext, Classical.choice, Quot.sound
Verif.Control.RosTime.timespec_exact: propext, Quot.sound
Verif.Hal.RPLidar.defined_iff: propext, Quot.sound
Verif.Hal.RPLidar.nothing_in_range_violated: propext, Quot.sound
Verif.Hal.RPLidar.values_partial: propext, Classical.choice, Quot.sound
Verif.Hal.RPLidar.last_scan: propext, Quot.sound
Verif.Hal.PixyCam.valid_iff_partial: propext, Classical.choice, Quot.sound
Verif.Hal.PixyCam.distCam_extent: propext, Classical.choice, Quot.sound
Verif.Hal.PixyCam.stale_violated: propext, Classical.choice, Quot.sound
Verif.Hal.PixyCam.raw_position: propext, Classical.choice, Quot.sound
Verif.Hal.PixyCam.filter_bounds: propext, Classical.choice, Quot.sound
Verif.Hal.PixyCam.swapped_violated: propext, Classical.choice, Quot.sound
Verif.Hal.PixyCam.poisoned_violated: propext, Classical.choice, Quot.sound
Verif.Hal.PixyCam.filter_step: propext, Classical.choice, Quot.sound
Verif.Hal.SysFs.first_read_partial: propext
Verif.Hal.SysFs.inverted_violated: propext
Verif.Hal.SysFs.later_violated: propext, Classical.choice, Quot.sound
Verif.Hal.SysFs.set_violated: propext, Quot.sound
Verif.Hal.SysFs.set_blocks: propext, Classical.choice, Quot.sound
Verif.Core.SharedMemory.life_partial: propext, Quot.sound
Verif.Core.SharedMemory.pointer_iff: propext
Verif.Core.SharedMemory.descriptor_violated: propext, Quot.sound
Verif.Core.SharedMemory.initialize_violated: propext, Quot.sound
Verif.Core.SharedMemory.destroy_twice_violated: propext, Quot.sound
Verif.Sequencer.Stepping.as_requested_partial: propext, Quot.sound
Verif.Sequencer.Stepping.repeated_violated: propext, Quot.sound
Verif.Sequencer.Stepping.empty_violated: none
Verif.Sequencer.Stepping.one_step_per_command_partial: propext, Quot.sound
Verif.Sequencer.Stepping.waits_for_command: propext
Verif.Sequencer.Stepping.two_pass_violated: propext, Quot.sound
Verif.Sequencer.Stepping.stale_violated: propext, Quot.sound
Verif.Sequencer.Stepping.lost_command_violated: propext, Quot.sound
Verif.Core.CondSemaphore.conservation: propext, Quot.sound
Verif.Core.CondSemaphore.bounded: propext, Quot.sound
Verif.Core.CondSemaphore.waits_accounted: propext, Quot.sound
Verif.Core.CondSemaphore.no_lost_wakeup: propext, Classical.choice, Quot.sound
Verif.Core.CondSemaphore.quiescent: propext, Classical.choice, Quot.sound
Verif.Core.CondSemaphore.timeout_false: propext, Quot.sound
Verif.Hal.ODrive.reply_consumed: propext, Classical.choice, Quot.sound
Verif.Hal.ODrive.velocity_truncated_partial: propext, Classical.choice, Quot.sound
Verif.Hal.ODrive.fraction_lost: propext, Classical.choice, Quot.sound
Verif.Hal.ODrive.reply_without_point: propext, Classical.choice, Quot.sound
Verif.Hal.ODrive.error_message_terminates: propext, Classical.choice, Quot.sound
Verif.Hal.ODrive.next_reply_damaged: propext, Classical.choice, Quot.sound
Verif.Hal.ODrive.next_reply_violated: propext, Classical.choice, Quot.sound
Verif.Hal.ODrive.message_then_reply_violated: propext, Classical.choice, Quot.sound
Verif.Hal.JsonParser.creates_what_is_written: propext, Classical.choice, Quot.sound
Verif.Hal.JsonParser.never_notLoaded: propext, Classical.choice, Quot.sound
Verif.Hal.JsonParser.success_all: propext, Classical.choice, Quot.sound
Verif.Hal.JsonParser.devices_independent: propext, Classical.choice, Quot.sound
Verif.Hal.JsonParser.unknown_device_key_ignored: propext, Classical.choice, Quot.sound
Verif.Hal.JsonParser.order_matters: propext
Verif.Hal.JsonParser.missing_encoder_channels_accepted: propext, Classical.choice, Quot.sound
Verif.Hal.JsonParser.partial_creation: propext
Verif.Hal.JsonParser.library_after_violated: propext, Classical.choice, Quot.sound
Verif.Hal.JsonParser.type_after_violated: propext, Classical.choice, Quot.sound
Verif.Hal.JsonParser.objects_stay_violated: propext, Classical.choice, Quot.sound
Verif.Core.RosSync.Topic.cycles_le_messages: propext, Classical.choice, Quot.sound
Verif.Core.RosSync.Topic.message_runs_partial: propext
Verif.Core.RosSync.Topic.message_lost: propext
Verif.Core.RosSync.Topic.stop_ends_partial: propext, Classical.choice, Quot.sound
Verif.Core.RosSync.Topic.stop_lost: propext
Verif.Core.RosSync.Topic.second_stop_throws: propext
Verif.Core.RosSync.Time.plan: propext, Quot.sound
Verif.Core.RosSync.Time.not_early: propext, Classical.choice, Quot.sound
Verif.Core.RosSync.Time.catches_up: propext, Quot.sound
Verif.Core.RosSync.Time.stop_ends: propext, Classical.choice, Quot.sound
Verif.Core.RosSync.Time.clock_set_back: propext
Verif.Core.RosSync.Time.period_partial: propext, Classical.choice, Quot.sound
Verif.Core.RosSync.Time.period_cut: propext, Classical.choice, Quot.sound
Verif.Control.RosBlocks.Sub2.run_takes_last: propext, Quot.sound
Verif.Control.RosBlocks.Sub2.no_repetition: propext, Classical.choice, Quot.sound
Verif.Control.RosBlocks.Sub2.newest_partial: propext, Quot.sound
Verif.Control.RosBlocks.Sub2.older_message_last: propext, Quot.sound
Verif.Control.RosBlocks.Sub2.queue_unbounded: propext, Quot.sound
Verif.Control.RosBlocks.Sub2.overtaken_violated: propext, Classical.choice, Quot.sound
Verif.Control.RosBlocks.Laser.published_partial: propext, Quot.sound
Verif.Control.RosBlocks.Laser.roundtrip_partial: propext, Quot.sound
Verif.Control.RosBlocks.Laser.receive_iff: propext, Quot.sound
Verif.Control.RosBlocks.Laser.intensities_are_ranges: propext
Verif.Control.RosBlocks.Laser.intensities_uninitialised: propext
Verif.Control.RosBlocks.Laser.no_intensities_undefined: propext, Quot.sound
Verif.Control.RosBlocks.Sub1.newest_all: propext, Quot.sound
Verif.Control.RosBlocks.Sub1.oldest_first: propext
Verif.Control.RosBlocks.Sub1.starved: propext, Quot.sound
Verif.Control.RosBlocks.Sub1.falls_behind: propext, Quot.sound
Verif.Control.RosBlocks.Analog.roundtrip: propext, Classical.choice, Quot.sound
Verif.Control.RosBlocks.Analog.longer_cut: propext, Classical.choice, Quot.sound
Verif.Control.RosBlocks.Analog.shorter_undefined: propext, Classical.choice, Quot.sound
Verif.Hal.ODriveUsb.attaches_iff: propext, Quot.sound
Verif.Hal.ODriveUsb.selects_partial: propext, Classical.choice, Quot.sound
Verif.Hal.ODriveUsb.none_violated: propext, Quot.sound
Verif.Hal.ODriveUsb.prefix_violated: propext, Classical.choice, Quot.sound
Verif.Hal.ODriveUsb.leading_zero_violated: propext, Quot.sound
Verif.Hal.ODriveUsb.endstops_violated: propext, Quot.sound
Verif.Hal.ODriveUsb.no_misuse_partial: propext
Verif.Hal.ODriveUsb.misuse_violated: propext
Verif.Hal.ODriveUsb.returns_partial: propext
Verif.Hal.ODriveUsb.hangs_violated: propext
Verif.Hal.ODriveUsb.refs_requested: propext
Verif.Hal.ODriveUsb.sends_requested: propext, Quot.sound
Verif.Hal.ODriveUsb.still_moving_violated: propext
Verif.Hal.HalArgs.fault_iff: propext, Quot.sound
Verif.Hal.HalArgs.first_partial: propext, Classical.choice, Quot.sound
Verif.Hal.HalArgs.late_violated: propext, Classical.choice, Quot.sound
Verif.Hal.HalArgs.again_violated: propext, Classical.choice, Quot.sound
Verif.Hal.HalArgs.dash_violated: propext, Classical.choice, Quot.sound
Verif.Hal.HalArgs.long_option_violated: propext, Classical.choice, Quot.sound
Verif.Control.Subio.ports_partial: propext, Quot.sound
Verif.Control.Subio.assigned_owned: propext, Quot.sound
Verif.Control.Subio.setOut_violated: propext, Quot.sound
Verif.Control.Subio.unassigned_violated: propext, Quot.sound
Verif.Hal.Realsense.transforms_points: propext, Classical.choice, Quot.sound
Verif.Hal.Realsense.is_rotation: propext, Classical.choice, Quot.sound
Verif.Hal.Realsense.not_normalised: propext, Classical.choice, Quot.sound
Verif.Hal.Sbg.outputs_latest: propext
Verif.Hal.Sbg.acc_gyro_same_time: none
Verif.Hal.Sbg.counted: propext, Quot.sound
Verif.Hal.Sbg.one_device_partial: propext, Classical.choice, Quot.sound
Verif.Hal.Sbg.timestamp_violated: propext, Quot.sound
Verif.Hal.Sbg.devices_violated: propext, Quot.sound
Verif.Hal.Torn.elements_partial: propext, Quot.sound
Verif.Hal.Torn.undisturbed_partial: propext, Classical.choice, Quot.sound
Verif.Hal.Torn.stored_whole: propext, Classical.choice, Quot.sound
Verif.Hal.Torn.torn_violated: propext, Classical.choice, Quot.sound
Verif.Hal.Torn.torn_neither: propext, Classical.choice, Quot.sound
Verif.Control.EtherCat.el1008_bit: propext, Classical.choice, Quot.sound
Verif.Control.EtherCat.el2008_bits: propext, Classical.choice, Quot.sound
Verif.Control.EtherCat.digital_roundtrip: propext, Classical.choice, Quot.sound
Verif.Control.EtherCat.el2008_junk_violated: propext, Classical.choice, Quot.sound
Verif.Control.EtherCat.el2008_all_or_nothing: propext, Quot.sound
Verif.Control.EtherCat.first_terminal: propext
Verif.Control.EtherCat.second_terminal_violated: propext
Verif.Control.EtherCat.el3004_range: propext, Classical.choice, Quot.sound
Verif.Control.EtherCat.el3004_mono: propext, Classical.choice, Quot.sound
Verif.Control.EtherCat.el4004_raw: propext, Classical.choice, Quot.sound
Verif.Control.EtherCat.el4004_infinite: propext, Classical.choice, Quot.sound
Verif.Control.EtherCat.el4004_nan_violated: propext, Quot.sound
Verif.Control.EtherCat.analog_roundtrip: propext, Classical.choice, Quot.sound
Verif.Control.EtherCat.analog_scale_violated: propext, Classical.choice, Quot.sound
Verif.Control.EtherCat.el4004_all: propext, Classical.choice, Quot.sound
Verif.Control.EtherCat.el4004_partly_violated: propext, Classical.choice, Quot.sound
Verif.Control.EtherCat.elmo_sends: none
Verif.Control.EtherCat.elmo_other: none
Verif.Control.EtherCat.elmo_no_target: propext
Verif.Control.EtherCat.elmo_no_limit_violated: none
Verif.Logger.Pretty.reads_back: propext, Classical.choice, Quot.sound
Verif.Logger.Pretty.value_right: propext, Classical.choice, Quot.sound
Verif.Logger.Pretty.unit_right: none
Verif.Logger.Pretty.width_partial: propext, Classical.choice, Quot.sound
Verif.Logger.Pretty.power_violated: propext, Classical.choice, Quot.sound
Verif.Logger.Pretty.not_finite_violated: propext, Classical.choice, Quot.sound
Verif.Sockets.Data.in_order_partial: propext, Classical.choice, Quot.sound
Verif.Sockets.Data.tx_last: propext, Quot.sound
Verif.Sockets.Data.rx_last: propext, Quot.sound
Verif.Sockets.Data.run_output: propext
Verif.Sockets.Data.isNew_iff: propext, Quot.sound
Verif.Sockets.Data.short_write_violated: propext, Classical.choice, Quot.sound
Verif.Sockets.Data.uninitialised_violated: propext, Quot.sound
Verif.Sockets.Data.lost_is_new_violated: propext
Verif.Control.CanSend.sent_partial: propext, Classical.choice, Quot.sound
Verif.Control.CanSend.disabled_silent: propext, Quot.sound
Verif.Control.CanSend.construct_spec: propext, Quot.sound
Verif.Control.CanSend.recipients: propext, Quot.sound
Verif.Control.CanSend.byte_uninitialised_violated: propext, Quot.sound
Verif.Control.CanSend.negative_violated: propext, Quot.sound
Verif.Control.CanSend.speed_unset_violated: propext, Classical.choice, Quot.sound
Verif.Ui.Curses.newest_kept: propext, Quot.sound
Verif.Ui.Curses.areas_partial: propext, Classical.choice, Quot.sound
Verif.Ui.Curses.sequences_violated: propext, Quot.sound
Verif.Ui.Curses.printed_iff: propext, Classical.choice, Quot.sound
Verif.Ui.Curses.doubled_printed: propext, Quot.sound
Verif.Ui.Curses.percent_violated: propext
Verif.Ui.Curses.active_no_keys: propext
Verif.Ui.Curses.dispay_ends_violated: propext, Quot.sound
Verif.Ui.Curses.destructor_hangs_violated: propext
Verif.Ui.Curses.destroyed_partial: propext, Quot.sound
Verif.Ui.Curses.at_most_one: propext, Classical.choice, Quot.sound
Verif.Ui.Curses.never_again_violated: propext, Quot.sound
Verif.Hal.Features.called_partial: propext, Classical.choice, Quot.sound
Verif.Hal.Features.missing_fault: propext, Quot.sound
Verif.Hal.Features.only_named: propext
Verif.Hal.Features.types_violated: propext, Classical.choice, Quot.sound
Verif.Hal.Features.null_handle_violated: propext, Classical.choice, Quot.sound
Verif.Hal.Features.watchdog_partial: propext, Classical.choice, Quot.sound
Verif.Control.SafetyLevelPub.published_partial: propext, Quot.sound
Verif.Control.SafetyLevelPub.silent: propext
Verif.Control.SafetyLevelPub.unset_violated: propext, Quot.sound
Verif.Hal.Buttons.names_nodup: none
Verif.Hal.Buttons.get_spec: propext, Classical.choice, Quot.sound
Verif.Hal.Buttons.first_partial: propext, Classical.choice, Quot.sound
Verif.Hal.Buttons.gone_violated: propext, Quot.sound
Verif.Hal.Buttons.second_violated: propext, Quot.sound
Verif.Hal.Buttons.read_exact: propext, Classical.choice, Quot.sound
Verif.Hal.Buttons.construct_iff: propext, Quot.sound
Verif.Control.ODriveBlock.never_moves_violated: propext, Classical.choice, Quot.sound
Verif.Control.ODriveBlock.infinite_violated: propext, Classical.choice, Quot.sound
Verif.Control.ODriveBlock.currents_partial: propext, Quot.sound
Verif.Control.ODriveBlock.consistent_partial: propext, Classical.choice, Quot.sound
Verif.Control.ODriveBlock.uart_violated: propext, Quot.sound
Verif.Math.Matrix1.algebra_partial: propext, Classical.choice, Quot.sound
Verif.Math.Matrix1.index_partial: propext, Quot.sound
Verif.Math.Matrix1.index_violated: propext, Quot.sound
Verif.Math.Matrix1.rank_violated: propext, Classical.choice, Quot.sound
Verif.Math.Matrix1.orthogonal_partial: propext, Classical.choice, Quot.sound
Verif.Math.Matrix1.orthogonal_violated: propext, Classical.choice, Quot.sound
Verif.Math.Matrix1.orthogonal_exact_violated: propext, Classical.choice, Quot.sound
Verif.Hal.BaumerData.normal: propext, Classical.choice, Quot.sound
Verif.Hal.BaumerData.special: propext, Classical.choice, Quot.sound
Verif.Hal.BaumerData.distance_partial: propext, Classical.choice, Quot.sound
Verif.Hal.BaumerData.stale_violated: propext, Classical.choice, Quot.sound
Verif.Hal.BaumerData.unset_violated: propext, Classical.choice, Quot.sound
Verif.Control.RosData.array_partial: propext, Quot.sound
Verif.Control.RosData.received: propext, Quot.sound
Verif.Control.RosData.short_violated: propext, Quot.sound
Verif.Control.RosData.columns_violated: propext, Quot.sound
Verif.Control.RosData.unconnected: propext
Verif.Control.RosData.twist_spec: propext
Verif.Control.RosData.odometry_spec: propext
Verif.Control.RosData.odometry_all: propext
Verif.Config.double_round_trip_iff: propext, Classical.choice, Quot.sound
Verif.Config.double_error: propext, Classical.choice, Quot.sound
Verif.Config.small_double_violated: propext, Classical.choice, Quot.sound
Verif.Config.double_array_iff: propext, Classical.choice, Quot.sound
Verif.Config.double_array_error: propext, Classical.choice, Quot.sound
Verif.Config.small_element_violated: propext, Classical.choice, Quot.sound
Verif.External.ODriveEP.packet_fields: propext, Classical.choice, Quot.sound
Verif.External.ODriveEP.seq_closed: propext, Classical.choice, Quot.sound
Verif.External.ODriveEP.seq_repeats_iff: propext, Classical.choice, Quot.sound
Verif.External.ODriveEP.request_unlocks: propext
Verif.External.ODriveEP.get_partial: propext, Quot.sound
Verif.External.ODriveEP.get_failed: propext, Quot.sound
Verif.External.ODriveEP.get_defined_iff: propext, Classical.choice, Quot.sound
Verif.External.ODriveEP.empty_answer_violated: propext
Verif.External.ODriveEP.other_answer_violated: propext
Verif.External.ODriveEP.late_answer_violated: propext, Quot.sound
Verif.External.ODriveEP.download_partial: propext, Quot.sound
Verif.External.ODriveEP.download_exact_iff: propext, Classical.choice, Quot.sound
Verif.External.ODriveEP.first_failed_violated: none
Verif.External.ODriveEP.one_failed_violated: propext, Classical.choice, Quot.sound
Verif.External.ODriveEP.unplugged_violated: propext, Classical.choice, Quot.sound
Verif.External.ODriveEP.init_partial: propext, Classical.choice, Quot.sound
Verif.External.ODriveEP.init_once: propext, Quot.sound
Verif.External.ODriveEP.no_device_violated: propext, Quot.sound
Verif.External.ODriveEP.release_violated: propext, Classical.choice, Quot.sound
Verif.Sequencer.abort_all_partial: propext, Classical.choice, Quot.sound
Verif.Sequencer.abort_kept: propext, Classical.choice, Quot.sound
Verif.Sequencer.abort_ends_partial: propext, Classical.choice, Quot.sound
Verif.Sequencer.started_later_violated: propext, Quot.sound
Verif.Sequencer.cleared_violated: propext, Quot.sound
Verif.Control.ControlInput.follows_partial: propext
Verif.Control.ControlInput.kept_iff: propext, Quot.sound
Verif.Control.ControlInput.reconnected_violated: propext, Quot.sound
Verif.Control.ControlInput.disconnected_violated: propext, Quot.sound
Verif.Hal.Snapshot.fields_recent: propext, Quot.sound
Verif.Hal.Snapshot.outputs_recent: propext, Quot.sound
Verif.Hal.Snapshot.whole_partial: propext, Quot.sound
Verif.Hal.Snapshot.mixed_violated: propext, Quot.sound
Verif.Hal.Snapshot.validity_violated: propext, Quot.sound
Verif.Sockets.SendLock.early_bounded: propext, Quot.sound
Verif.Sockets.SendLock.early_free: propext, Quot.sound
Verif.Sockets.SendLock.late_violated: propext, Quot.sound
Verif.Core.WindowsTime.time_exact_partial: propext, Classical.choice, Quot.sound
Verif.Core.WindowsTime.time_monotone_partial: propext, Classical.choice, Quot.sound
Verif.Core.WindowsTime.division_violated: propext, Quot.sound
Verif.Core.WindowsTime.backwards_violated: propext, Classical.choice, Quot.sound
Verif.Control.Dataflow.cycle_values: propext, Quot.sound
Verif.Control.Dataflow.sorted_solves: propext, Quot.sound
Verif.Control.Dataflow.solution_unique: propext, Quot.sound
Verif.Control.Dataflow.order_irrelevant: propext, Quot.sound
Verif.Control.Dataflow.fault_cuts: propext, Quot.sound
Verif.Control.Dataflow.no_fault: propext, Quot.sound
Verif.Control.Dataflow.reversed_cycle: propext, Classical.choice, Quot.sound
Verif.Control.Dataflow.reversed_delays_violated: propext, Classical.choice, Quot.sound
Verif.Control.Dataflow.forward_no_delay: propext, Classical.choice, Quot.sound
Verif.Control.Dataflow.valid_after: propext, Classical.choice, Quot.sound
Verif.Control.Dataflow.loop_never_valid_violated: propext, Quot.sound
Verif.Safety.Reaction.fault_reaction: propext, Classical.choice, Quot.sound
Verif.Safety.Reaction.bad_value_faulty: propext, Quot.sound
Verif.Safety.Reaction.private_event_violated: propext, Quot.sound
Verif.Safety.Reaction.no_event_violated: propext, Quot.sound
Verif.Control.TimeDiff.dt_sign: propext, Classical.choice, Quot.sound
Verif.Control.TimeDiff.dt_error: propext, Classical.choice, Quot.sound
Verif.Control.TimeDiff.dt_multiple: propext, Classical.choice, Quot.sound
Verif.Control.TimeDiff.millisecond_violated: propext, Classical.choice, Quot.sound
Verif.Control.TimeDiff.quotient: propext, Classical.choice, Quot.sound
Verif.Control.TimeDiff.slope_error_partial: propext, Classical.choice, Quot.sound
Verif.Control.TimeDiff.slope_violated: propext, Classical.choice, Quot.sound
Verif.Control.TimeDiff.same_seconds_violated: propext, Classical.choice, Quot.sound
Verif.Control.TimeDiff.change_lost_violated: propext, Classical.choice, Quot.sound
Verif.Control.TimeDiff.stamp_middle: propext, Classical.choice, Quot.sound
Verif.Control.GainFl.no_overshoot: propext, Classical.choice, Quot.sound
Verif.Control.GainFl.arrives_partial: propext, Classical.choice, Quot.sound
Verif.Control.GainFl.stuck_violated: propext, Classical.choice, Quot.sound
Verif.Control.GainFl.output_spec: propext, Classical.choice, Quot.sound
Verif.Core.StatisticsFl.mean_error: propext, Classical.choice, Quot.sound
Verif.Core.StatisticsFl.variance_error: propext, Classical.choice, Quot.sound
Verif.Core.StatisticsFl.others_exact: propext, Classical.choice, Quot.sound
Verif.Core.StatisticsFl.negative_variance_violated: propext, Classical.choice, Quot.sound
Verif.Core.StatisticsFl.mean_above_max_violated: propext, Classical.choice, Quot.sound
Verif.Core.StatisticsFl.spread_lost_violated: propext, Classical.choice, Quot.sound
Verif.Core.StatisticsFl.negative_variance_all_violated: propext, Classical.choice, Quot.sound
Verif.Core.StatisticsFl.mean_above_all_violated: propext, Classical.choice, Quot.sound
Verif.Control.IntegratorFl.dt_exact: propext, Classical.choice, Quot.sound
Verif.Control.IntegratorFl.elapsed_exact: propext, Classical.choice, Quot.sound
Verif.Control.IntegratorFl.integral_error_partial: propext, Classical.choice, Quot.sound
Verif.Control.IntegratorFl.stuck_violated: propext, Classical.choice, Quot.sound
Verif.Control.IntegratorFl.disabled_keeps: propext, Classical.choice, Quot.sound
Verif.Control.IntegratorFl.first_keeps: propext, Classical.choice, Quot.sound
Verif.Control.FiltersFl.MovingAverage.average_error: propext, Classical.choice, Quot.sound
Verif.Control.FiltersFl.LowPass.out_approx: propext, Classical.choice, Quot.sound
Verif.Control.FiltersFl.LowPass.settles_partial: propext, Classical.choice, Quot.sound
Verif.Control.FiltersFl.LowPass.never_reached_violated: propext, Classical.choice, Quot.sound
Verif.Control.FiltersFl.LowPass.below_inputs_violated: propext, Classical.choice, Quot.sound
Verif.Control.IeeeSettle.zero_never_reached_violated: propext, Classical.choice, Quot.sound
Verif.Control.UnitsFl.LowPass.never_reached_all_violated: propext, Classical.choice, Quot.sound
Verif.Control.UnitsFl.LowPass.below_inputs_all_violated: propext, Classical.choice, Quot.sound
Verif.Math.DetFl.mul_error: propext, Classical.choice, Quot.sound
Verif.Math.DetFl.det_error: propext, Classical.choice, Quot.sound
Verif.Math.DetFl.invertible_partial: propext, Classical.choice, Quot.sound
Verif.Math.DetFl.sign_2x2_partial: propext, Classical.choice, Quot.sound
Verif.Math.DetFl.taken_for_singular_violated: propext, Classical.choice, Quot.sound
Verif.Math.DetFl.taken_for_invertible_violated: propext, Classical.choice, Quot.sound
Verif.Control.RateLimiterFl.rate_bounded_partial: propext, Classical.choice, Quot.sound
Verif.Control.RateLimiterFl.equal_times: propext, Classical.choice, Quot.sound
Verif.Control.RateLimiterFl.towards_partial: propext, Classical.choice, Quot.sound
Verif.Control.RateLimiterFl.arrives_partial: propext, Classical.choice, Quot.sound
Verif.Control.RateLimiterFl.passes_input_violated: propext, Classical.choice, Quot.sound
Verif.Control.RateLimiterFl.stuck_violated: propext, Classical.choice, Quot.sound
Verif.Control.UnitsFl.RateLimiter.passes_input_all_violated: propext, Classical.choice, Quot.sound
Verif.Logger.Concurrent.lines_complete: propext
Verif.Logger.Concurrent.file_prefix: propext
Verif.Logger.Concurrent.same_lines: propext, Classical.choice, Quot.sound
Verif.Logger.Concurrent.category_partial: propext, Quot.sound
Verif.Logger.Concurrent.order_violated: propext
Verif.Logger.Concurrent.category_violated: propext
Verif.Planner.MoveRace.ends_at_target_partial: propext, Quot.sound
Verif.Planner.MoveRace.begins_at_last_partial: propext, Quot.sound
Verif.Planner.MoveRace.end_overwritten_violated: propext, Quot.sound
Verif.Planner.MoveRace.begins_behind_violated: propext, Quot.sound
Verif.Core.Threads.after_order: propext, Classical.choice, Quot.sound
Verif.Core.Threads.created_wf: propext, Classical.choice, Quot.sound
Verif.Core.Threads.task_rate: propext, Classical.choice, Quot.sound
Verif.Core.Threads.task_count: propext, Classical.choice, Quot.sound
Verif.Core.Threads.created_rate: propext, Classical.choice, Quot.sound
Verif.Core.Threads.one_per_cycle_partial: propext, Classical.choice, Quot.sound
Verif.Core.Threads.one_per_cycle_violated: propext, Classical.choice, Quot.sound
Verif.Core.Threads.before_requested_partial: propext, Classical.choice, Quot.sound
Verif.Core.Threads.before_order_violated: propext, Classical.choice, Quot.sound
Verif.Core.Semaphore.semaphore_conserves: propext, Quot.sound
Verif.Core.Semaphore.waits_le_posts: propext, Classical.choice, Quot.sound
Verif.Core.Semaphore.waits_iff: propext, Quot.sound
Verif.Core.Async.async_at_most_once_per_run: propext, Quot.sound
Verif.Control.Integrator.integrates_exactly: propext, Classical.choice, Quot.sound
Verif.Control.Integrator.first_run: propext, Quot.sound
Verif.Control.Integrator.disabled_keeps: propext, Quot.sound
Verif.Control.Integrator.outside_holds: propext, Classical.choice, Quot.sound
Verif.Control.Integrator.stays_in_limits: propext, Quot.sound
Verif.Control.Integrator.output_in_limits: propext, Quot.sound
Verif.Control.Switch.outputs_selected: propext, Quot.sound
Verif.Control.Switch.always_publishes: propext, Quot.sound
Verif.Control.Switch.switches_iff: propext, Quot.sound
Verif.Control.Switch.once_per_arming: propext, Classical.choice, Quot.sound
Verif.Control.Switch.manual_switch: propext, Quot.sound
Verif.Control.Switch.new_unarmed: propext, Classical.choice, Quot.sound
Verif.Control.Switch.configured: propext, Classical.choice, Quot.sound
Verif.Control.Switch.selects_existing: propext, Classical.choice, Quot.sound
Verif.Hal.exclusive_until_release: propext
Verif.Hal.handed_out_registered: propext
Verif.Hal.request_succeeds_iff: propext
Verif.Math.Mat.det_eq: propext, Classical.choice, Quot.sound
Verif.Math.Mat.inverse_right_iff: propext, Classical.choice, Quot.sound
Verif.Math.Frame.frames_unique: propext, Quot.sound
Verif.Math.Frame.coordinate_systems_unique: propext, Quot.sound
Verif.Math.Frame.mul_frames: propext, Classical.choice, Quot.sound
Verif.Math.Frame.delete_frame: propext, Quot.sound
Verif.Math.Frame.homog_acts: propext, Classical.choice, Quot.sound
Verif.Math.Frame.composed_acts: propext, Classical.choice, Quot.sound
Verif.Control.Kalman.kalman_psd_iff: propext, Classical.choice, Quot.sound
Verif.Control.Switch.Combined.combined_follow: propext, Quot.sound
Verif.Control.Switch.Combined.combine_follows: propext, Quot.sound
Verif.Control.Switch.Combined.acyclic_returns: propext, Classical.choice, Quot.sound
Verif.Planner.ConstAcc.reaches_end: propext, Classical.choice, Quot.sound
Verif.Planner.ConstAcc.within_limits: propext, Classical.choice, Quot.sound
Verif.Planner.ConstAcc.move_nowhere: propext, Classical.choice, Quot.sound
Verif.Planner.ConstAcc.setStart_spec: propext, Classical.choice, Quot.sound
Verif.Control.Mouse.within_limits: propext, Quot.sound
Verif.Control.Mouse.follows: propext, Quot.sound
Verif.Control.Corrector.maps_vertices: propext, Quot.sound
Verif.Control.Corrector.maps_unique: propext, Classical.choice, Quot.sound
Verif.Control.Corrector.shared_edge: propext, Classical.choice, Quot.sound
Verif.Control.Corrector.load_rejects: propext, Classical.choice, Quot.sound
Verif.Sockets.complete: propext, Quot.sound
Verif.Sockets.zeros: propext, Quot.sound
Verif.Core.PeriodicCounter.counter_true: propext, Quot.sound
Verif.Core.PeriodicCounter.counter_reset: propext, Quot.sound
Verif.Core.PeriodicCounter.mean_period: propext, Classical.choice, Quot.sound
Verif.Core.PeriodicCounter.warns_iff: propext, Classical.choice, Quot.sound
Verif.Core.PeriodicCounter.resetCounter_defined: propext, Classical.choice, Quot.sound
Verif.Core.Startup.safe_iff: propext, Classical.choice, Quot.sound
Verif.Core.RosSync.Time.plan: propext, Quot.sound
Verif.Core.RosSync.Time.not_early: propext, Classical.choice, Quot.sound
Verif.Core.RosSync.Time.catches_up: propext, Quot.sound
Verif.Core.RosSync.Time.stop_ends: propext, Classical.choice, Quot.sound
Verif.Control.RosBlocks.Sub2.run_takes_last: propext, Quot.sound
Verif.Control.RosBlocks.Sub2.no_repetition: propext, Classical.choice, Quot.sound
Verif.Control.RosBlocks.Sub1.newest_all: propext, Quot.sound
Verif.Control.RosBlocks.Sub1.oldest_first: propext
Verif.Control.RosBlocks.Analog.roundtrip: propext, Classical.choice, Quot.sound
Verif.Control.RosBlocks.Analog.longer_cut: propext, Classical.choice, Quot.sound
Verif.Hal.Sbg.outputs_latest: propext
Verif.Hal.Sbg.acc_gyro_same_time: none
Verif.Hal.Sbg.counted: propext, Quot.sound
Verif.Control.EtherCat.el1008_bit: propext, Classical.choice, Quot.sound
Verif.Control.EtherCat.el2008_bits: propext, Classical.choice, Quot.sound
Verif.Control.EtherCat.digital_roundtrip: propext, Classical.choice, Quot.sound
Verif.Control.EtherCat.el2008_all_or_nothing: propext, Quot.sound
Verif.Control.EtherCat.first_terminal: propext
Verif.Control.EtherCat.el3004_range: propext, Classical.choice, Quot.sound
Verif.Control.EtherCat.el3004_mono: propext, Classical.choice, Quot.sound
Verif.Control.EtherCat.el4004_raw: propext, Classical.choice, Quot.sound
Verif.Control.EtherCat.el4004_infinite: propext, Classical.choice, Quot.sound
Verif.Control.EtherCat.analog_roundtrip: propext, Classical.choice, Quot.sound
Verif.Control.EtherCat.el4004_all: propext, Classical.choice, Quot.sound
Verif.Logger.Pretty.reads_back: propext, Classical.choice, Quot.sound
Verif.Logger.Pretty.value_right: propext, Classical.choice, Quot.sound
Verif.Logger.Pretty.unit_right: none
Verif.Ui.Curses.at_most_one: propext, Classical.choice, Quot.sound
Verif.Ui.Curses.newest_kept: propext, Quot.sound
Verif.Ui.Curses.printed_iff: propext, Classical.choice, Quot.sound
Verif.Ui.Curses.doubled_printed: propext, Quot.sound
Verif.Config.double_round_trip_iff: propext, Classical.choice, Quot.sound
Verif.Config.double_error: propext, Classical.choice, Quot.sound
Verif.Config.double_array_iff: propext, Classical.choice, Quot.sound
Verif.Config.double_array_error: propext, Classical.choice, Quot.sound
Verif.Hal.Snapshot.fields_recent: propext, Quot.sound
Verif.Hal.Snapshot.outputs_recent: propext, Quot.sound
Verif.Sockets.SendLock.early_bounded: propext, Quot.sound
Verif.Sockets.SendLock.early_free: propext, Quot.sound
Verif.Control.Dataflow.cycle_values: propext, Quot.sound
Verif.Control.Dataflow.sorted_solves: propext, Quot.sound
Verif.Control.Dataflow.solution_unique: propext, Quot.sound
Verif.Control.Dataflow.order_irrelevant: propext, Quot.sound
Verif.Control.Dataflow.fault_cuts: propext, Quot.sound
Verif.Control.Dataflow.no_fault: propext, Quot.sound
Verif.Control.Dataflow.forward_no_delay: propext, Classical.choice, Quot.sound
Verif.Control.Dataflow.valid_after: propext, Classical.choice, Quot.sound
Verif.Safety.Reaction.fault_reaction: propext, Classical.choice, Quot.sound
Verif.Safety.Reaction.bad_value_faulty: propext, Quot.sound
Verif.Control.TimeDiff.dt_sign: propext, Classical.choice, Quot.sound
Verif.Control.TimeDiff.dt_error: propext, Classical.choice, Quot.sound
Verif.Control.TimeDiff.dt_multiple: propext, Classical.choice, Quot.sound
Verif.Control.TimeDiff.quotient: propext, Classical.choice, Quot.sound
Verif.Control.TimeDiff.stamp_middle: propext, Classical.choice, Quot.sound
Verif.Control.GainFl.no_overshoot: propext, Classical.choice, Quot.sound
Verif.Control.GainFl.output_spec: propext, Classical.choice, Quot.sound
Verif.Core.StatisticsFl.mean_error: propext, Classical.choice, Quot.sound
Verif.Core.StatisticsFl.variance_error: propext, Classical.choice, Quot.sound
Verif.Core.StatisticsFl.others_exact: propext, Classical.choice, Quot.sound
Verif.Control.IntegratorFl.dt_exact: propext, Classical.choice, Quot.sound
Verif.Control.IntegratorFl.elapsed_exact: propext, Classical.choice, Quot.sound
Verif.Control.IntegratorFl.disabled_keeps: propext, Classical.choice, Quot.sound
Verif.Control.IntegratorFl.first_keeps: propext, Classical.choice, Quot.sound
Verif.Control.FiltersFl.MovingAverage.average_error: propext, Classical.choice, Quot.sound
Verif.Control.FiltersFl.LowPass.out_approx: propext, Classical.choice, Quot.sound
Verif.Math.DetFl.mul_error: propext, Classical.choice, Quot.sound
Verif.Math.DetFl.det_error: propext, Classical.choice, Quot.sound
Verif.Logger.Concurrent.lines_complete: propext
Verif.Logger.Concurrent.file_prefix: propext
Verif.Logger.Concurrent.same_lines: propext, Classical.choice, Quot.sound
Verif.Sequencer.Deadlock.never_stuck: propext, Classical.choice, Quot.sound
Verif.Sequencer.Deadlock.bounded: propext, Classical.choice, Quot.sound
Verif.Sequencer.Deadlock.all_end: propext, Classical.choice, Quot.sound
Verif.Sequencer.Deadlock.start_returns_partial: propext, Quot.sound
Verif.Sequencer.Deadlock.start_waits_violated: propext, Quot.sound
Verif.Sequencer.Deadlock.restart_self_violated: propext, Quot.sound
Verif.Sequencer.Deadlock.self_wait_violated: propext, Quot.sound
Verif.Sequencer.Deadlock.recursion_violated: propext, Quot.sound
Verif.Sequencer.Deadlock.mutual_calls_violated: propext, Quot.sound
Verif.Sequencer.Deadlock.result_of_run: propext, Quot.sound
Verif.Sequencer.Deadlock.wait_again: propext
Verif.Control.Special.integrator_runs: propext, Quot.sound
Verif.Control.Special.integrator_holds: propext, Quot.sound
Verif.Control.Special.rateLimiter_recovers: propext, Quot.sound
Verif.Control.Special.rateLimiter_infinite: propext, Classical.choice, Quot.sound
Verif.Control.Special.differentiator_recovers: propext, Quot.sound
Verif.Control.Special.movingAverage_recovers: propext, Quot.sound
Verif.Control.Special.rateLimit_finite: propext, Quot.sound
Verif.Control.Special.integrate_finite: propext, Quot.sound
Verif.Control.Special.differentiate_finite: propext, Quot.sound
Verif.Control.Special.rateLimiter_first: propext, Quot.sound
Verif.Control.Special.lowPass_finite: propext, Quot.sound
Verif.Control.Special.lowPass_stuck_violated: propext, Quot.sound
Verif.Control.Special.lowPass_one_nan_violated: propext, Quot.sound
Verif.Control.Special.lowPass_infinite_violated: propext, Classical.choice, Quot.sound
Verif.Control.Special.rateLimiter_stuck_violated: propext, Classical.choice, Quot.sound
Verif.Control.Special.rateLimiter_jump_violated: propext, Quot.sound
Verif.Control.Special.ztf_stuck_violated: propext, Quot.sound
Verif.Control.Special.kalman_spreads_violated: propext, Quot.sound
Verif.Control.Special.kalman_measurement_violated: propext, Quot.sound
Verif.Control.Special.kalman_stuck_violated: propext, Quot.sound
Verif.Control.Special.saturation_infinite: propext, Quot.sound
Verif.Control.Special.integrator_limited: propext, Quot.sound
Verif.Control.Special.checker_fires: propext, Quot.sound
Verif.Control.Special.wrap_finite: propext, Quot.sound
Verif.Control.Special.saturation_nan_violated: propext, Quot.sound
Verif.Control.Special.wrap_violated: propext, Classical.choice, Quot.sound
Verif.Control.Special.checker_off_range_violated: propext, Quot.sound
Verif.Examples.MockRobot.constructs: none
Verif.Examples.MockRobot.order: propext, Classical.choice, Quot.sound
Verif.Examples.MockRobot.exit_stops: propext, Classical.choice, Quot.sound
Verif.Examples.MockRobot.only_exit_stops: propext, Classical.choice, Quot.sound
Verif.Examples.SystemTest2.constructs: none
Verif.Examples.SystemTest2.exit_stops: propext, Classical.choice, Quot.sound
Verif.Examples.SystemTest2.input_stops: propext, Classical.choice, Quot.sound
Verif.Examples.SystemTest2.only_exit_stops: propext, Classical.choice, Quot.sound
Verif.Examples.SystemTest2.exit_ends_partial: propext, Classical.choice, Quot.sound
Verif.Examples.SystemTest2.exit_lost_violated: propext, Classical.choice, Quot.sound
Verif.Examples.SystemTest2.exit_cancelled_violated: propext, Classical.choice, Quot.sound
Verif.Examples.SystemTest1.bounded_partial: propext, Classical.choice, Quot.sound
Verif.Examples.SystemTest1.fires_partial: propext, Classical.choice, Quot.sound
Verif.Examples.SystemTest1.late_violated: propext, Classical.choice, Quot.sound
Verif.Examples.SystemTest1.lost_reset_violated: propext, Classical.choice, Quot.sound
Verif.Examples.SystemTest1.glitch_violated: propext, Classical.choice, Quot.sound
Verif.Examples.MockHoming.forward: propext, Classical.choice, Quot.sound
Verif.Examples.MockHoming.done_stopped: propext, Classical.choice, Quot.sound
Verif.Examples.MockHoming.rests: propext, Classical.choice, Quot.sound
Verif.Examples.MockHoming.ends: propext, Classical.choice, Quot.sound
Verif.Examples.MockHoming.overshoot: propext, Classical.choice, Quot.sound
Verif.Examples.MockHoming.planner_stands_partial: propext, Classical.choice, Quot.sound
Verif.Examples.MockHoming.switch_jumps_violated: propext, Classical.choice, Quot.sound
Verif.Control.VectorCmp.compares_every_element_partial: propext, Classical.choice, Quot.sound
Verif.Control.VectorCmp.equality_every_element: propext, Classical.choice, Quot.sound
Verif.Control.VectorCmp.nan_elements_pass_violated: propext, Classical.choice, Quot.sound
Verif.Control.VectorCmp.nan_smaller_and_greater_violated: propext, Classical.choice, Quot.sound
Verif.Control.VectorCmp.integrates_if_inside: propext, Classical.choice, Quot.sound
Verif.Control.VectorCmp.elements_limited_partial: propext, Classical.choice, Quot.sound
Verif.Control.VectorCmp.setLimit_all_above: propext, Classical.choice, Quot.sound
Verif.Control.VectorCmp.one_limit_stops_all_violated: propext, Classical.choice, Quot.sound
Verif.Control.VectorCmp.setLimit_leaves_outside_violated: propext, Classical.choice, Quot.sound
Verif.Control.VectorCmp.setLimit_starts_low_violated: propext, Classical.choice, Quot.sound
Verif.Control.VectorCmp.nan_input_enters_violated: propext, Classical.choice, Quot.sound
Verif.Control.VectorCmp.nan_stays_violated: propext, Quot.sound
Verif.Control.VectorCmp.fires_on_numbers_partial: propext, Classical.choice, Quot.sound
Verif.Control.VectorCmp.fires_once: propext, Quot.sound
Verif.Control.VectorCmp.window_on_numbers: propext, Classical.choice, Quot.sound
Verif.Control.VectorCmp.nan_not_detected_violated: propext, Classical.choice, Quot.sound
Verif.Control.VectorCmp.window_nan_violated: propext, Classical.choice, Quot.sound
Verif.Control.VectorGlide.reaches_iff: propext, Classical.choice, Quot.sound
Verif.Control.VectorGlide.reaches_down_iff: propext, Classical.choice, Quot.sound
Verif.Control.VectorCmp.smooth_change_reaches_partial: propext, Classical.choice, Quot.sound
Verif.Control.VectorCmp.smooth_change_single: propext, Classical.choice, Quot.sound
Verif.Control.VectorCmp.accepts_numbers: propext, Classical.choice, Quot.sound
Verif.Control.VectorCmp.smooth_change_stuck_violated: propext, Classical.choice, Quot.sound
Verif.Control.VectorCmp.element_not_limited_violated: propext, Classical.choice, Quot.sound
Verif.Control.VectorCmp.nan_gain_accepted_violated: propext, Classical.choice, Quot.sound
Verif.Examples.SystemTest3.stays_bounded_partial: propext, Classical.choice, Quot.sound
Verif.Examples.SystemTest3.late_safety_violated: propext, Classical.choice, Quot.sound
Verif.Examples.SystemTest3.lost_reset_violated: propext, Classical.choice, Quot.sound
Verif.Examples.SystemTest3.first_step_violated: propext, Classical.choice, Quot.sound
Verif.Examples.SystemTest3.restarts: propext, Classical.choice, Quot.sound
Verif.Examples.SystemTest3.ramp_exact: propext, Classical.choice, Quot.sound
Verif.Examples.SystemTest3.reaches_five: propext, Classical.choice, Quot.sound
Verif.Common.Race.conflict_iff: propext, Quot.sound
Verif.Common.Race.guarded_race_free: propext, Classical.choice, Quot.sound
Verif.Common.Race.unlocked_races: propext, Classical.choice, Quot.sound
Verif.Common.Race.race_free_iff: propext, Classical.choice, Quot.sound
Verif.Control.BlockRaces.Gain.race_free: propext, Classical.choice, Quot.sound
Verif.Control.BlockRaces.RateLimiter.race_free: propext, Classical.choice, Quot.sound
Verif.Control.BlockRaces.WrapAround.race_free: propext, Classical.choice, Quot.sound
Verif.Control.BlockRaces.Constant.race_free: propext, Classical.choice, Quot.sound
Verif.Control.BlockRaces.Integrator.race_free: propext, Classical.choice, Quot.sound
Verif.Control.BlockRaces.Switch.race_free: propext, Classical.choice, Quot.sound
Verif.Control.BlockRaces.PlannerAcc.race_free: propext, Classical.choice, Quot.sound
Verif.Control.BlockRaces.PlannerJerk.race_free: propext, Classical.choice, Quot.sound
Verif.Control.BlockRaces.Gain.two_violated: propext, Classical.choice, Quot.sound
Verif.Control.BlockRaces.Saturation.two_violated: propext, Classical.choice, Quot.sound
Verif.Control.BlockRaces.RateLimiter.two_violated: propext, Classical.choice, Quot.sound
Verif.Control.BlockRaces.WrapAround.two_violated: propext, Classical.choice, Quot.sound
Verif.Control.BlockRaces.Constant.two_violated: propext, Classical.choice, Quot.sound
Verif.Control.BlockRaces.Integrator.two_violated: propext, Classical.choice, Quot.sound
Verif.Control.BlockRaces.Switch.two_violated: propext, Classical.choice, Quot.sound
Verif.Control.BlockRaces.PlannerAcc.two_violated: propext, Classical.choice, Quot.sound
Verif.Control.BlockRaces.PlannerJerk.two_violated: propext, Classical.choice, Quot.sound
Verif.Control.BlockRaces.PlannerCubic.two_violated: propext, Classical.choice, Quot.sound
Verif.Control.BlockRaces.Trace.two_violated: propext, Classical.choice, Quot.sound
Verif.Control.BlockRaces.SignalChecker.race_free: propext, Classical.choice, Quot.sound
Verif.Control.BlockRaces.PeripheralOutput.race_free: propext, Classical.choice, Quot.sound
Verif.Control.BlockRaces.Kalman.race_free: propext, Classical.choice, Quot.sound
Verif.Control.BlockRaces.Semaphore.race_free: propext, Classical.choice, Quot.sound
Verif.Control.BlockRaces.RingBuffer.race_free: propext, Classical.choice, Quot.sound
Verif.Control.BlockRaces.Gain.race_free: propext, Classical.choice, Quot.sound
Verif.Control.BlockRaces.RateLimiter.race_free: propext, Classical.choice, Quot.sound
Verif.Control.BlockRaces.WrapAround.race_free: propext, Classical.choice, Quot.sound
Verif.Control.BlockRaces.Constant.race_free: propext, Classical.choice, Quot.sound
Verif.Control.BlockRaces.Integrator.race_free: propext, Classical.choice, Quot.sound
Verif.Control.BlockRaces.Switch.race_free: propext, Classical.choice, Quot.sound
Verif.Control.BlockRaces.PlannerAcc.race_free: propext, Classical.choice, Quot.sound
Verif.Control.BlockRaces.PlannerJerk.race_free: propext, Classical.choice, Quot.sound
Verif.Control.BlockRaces.Transition.two_violated: propext, Classical.choice, Quot.sound
Verif.Control.BlockRaces.Safety.race_free: propext, Classical.choice, Quot.sound
Verif.Control.BlockRaces.RosSubscriber.race_free: propext, Classical.choice, Quot.sound
Verif.Control.BlockRaces.Socket.race_free: propext, Classical.choice, Quot.sound
Verif.Control.BlockRaces.RingBuffer.race_free: propext, Classical.choice, Quot.sound
Verif.Control.BlockRaces.Transition.two_violated: propext, Classical.choice, Quot.sound
Verif.Control.BlockRaces.Safety.two_violated: propext, Classical.choice, Quot.sound
Verif.Control.BlockRaces.Safety.trigger_violated: propext, Classical.choice, Quot.sound
Verif.Control.BlockRaces.RingBuffer.two_violated: propext, Classical.choice, Quot.sound
Verif.Control.BlockRaces.RosSubscriber.two_violated: propext, Classical.choice, Quot.sound
Verif.Control.BlockRaces.Socket.two_violated: propext, Classical.choice, Quot.sound
Verif.Control.BlockRaces.Abort.two_violated: propext, Classical.choice, Quot.sound
Verif.Common.Monitor.linearizable: propext, Quot.sound
Verif.Common.Monitor.linearizable_spec: propext, Quot.sound
Verif.Core.RingBufferConc.ring_linearizable: propext, Quot.sound
Verif.Core.RingBufferConc.fifo: propext, Quot.sound
Verif.Control.CheckerConc.checker_linearizable: propext, Quot.sound
Verif.Control.CheckerConc.once_per_reset: propext, Quot.sound
Verif.Control.SaturationConc.within_all_limits_partial: propext, Quot.sound
Verif.Control.SaturationConc.change_respects_partial: propext, Quot.sound
Verif.Control.SaturationConc.passes_violated: propext, Quot.sound
Verif.Control.SaturationConc.respects_iff: propext, Quot.sound
Verif.Control.IeeeBlocks.integrator_within: propext, Classical.choice, Quot.sound
Verif.Common.Ieee.round_nearest: propext, Classical.choice, Quot.sound
Verif.Common.Ieee.round_exact: propext, Classical.choice, Quot.sound
Verif.Common.Ieee.round_pinf: propext, Classical.choice, Quot.sound
Verif.Control.IeeeBlocks.lowPass_finite: propext, Classical.choice, Quot.sound
Verif.Control.IeeeBlocks.rateLimiter_within: propext, Classical.choice, Quot.sound
Verif.Control.IeeeBlocks.rateLimiter_overflow_violated: propext, Classical.choice, Quot.sound
Verif.Control.WrapAroundErr.error_bound: propext, Classical.choice, Quot.sound
Verif.Control.WrapAroundErr.large_input_violated: propext, Classical.choice, Quot.sound
Verif.Control.WrapAroundFl.negative_remainder_violated: propext, Classical.choice, Quot.sound
Verif.Control.UnitsFl.wrap_all_violated: propext, Classical.choice, Quot.sound
Verif.Control.ZTransfer.PT1_stable: propext, Classical.choice, Quot.sound
Verif.Control.ZTransfer.outputs_bounded: propext, Classical.choice, Quot.sound
Verif.Control.ZTransfer.forgets: propext, Classical.choice, Quot.sound
Verif.Control.ZTransfer.keeps_violated: propext, Classical.choice, Quot.sound
Verif.Control.ZTransfer.I_PID_keep_violated: propext, Classical.choice, Quot.sound
Verif.Control.ZTransfer.rounding_stable: propext, Classical.choice, Quot.sound
Verif.Control.ZTransfer.value_error: propext, Classical.choice, Quot.sound
Verif.Control.ZTransfer.RunsFl.exists: propext, Classical.choice, Quot.sound
Verif.Sequencer.Reconf.retry_limit: propext, Classical.choice, Quot.sound
Verif.Sequencer.Reconf.executions_per_call: propext, Classical.choice, Quot.sound
Verif.Sequencer.Reconf.restarts_since_call: propext, Classical.choice, Quot.sound
Verif.Sequencer.Reconf.return_value: propext, Classical.choice, Quot.sound
Verif.Sequencer.Reconf.exceptions_not_nested: propext, Classical.choice, Quot.sound
Verif.Sequencer.Reconf.exception_once: propext, Classical.choice, Quot.sound
Verif.Sequencer.Reconf.no_null_dereference: propext, Classical.choice, Quot.sound
Verif.Sequencer.Reconf.inactive_idle: propext, Classical.choice, Quot.sound
Verif.Sequencer.Reconf.later_calls_not_retried_violated: propext, Classical.choice, Quot.sound
Verif.Sequencer.Reconf.retry_limit: propext, Classical.choice, Quot.sound
Verif.Core.SyncModes.one_loop_partial: propext
Verif.Core.SyncModes.ethercat_build_runs_nothing_violated: propext
Verif.Core.SyncModes.both_ros_violated: propext
Verif.Core.RosTopic1.none_lost: propext, Quot.sound
Verif.Core.RosTopic1.cycles_synchronised_partial: propext, Quot.sound
Verif.Core.RosTopic1.cycle_follows: propext, Quot.sound
Verif.Core.RosTopic1.stop_one_more: propext, Quot.sound
Verif.Core.RosTopic1.stop_ends: propext, Quot.sound
Verif.Core.RosTopic1.stop_extra_cycle_violated: propext
Verif.Core.RosTopic1.first_waits_twice: propext, Quot.sound
Verif.Safety.ReactionTime.reaction_time: propext, Classical.choice, Quot.sound
Verif.Safety.ReactionTime.no_reaction_after_stop: propext, Quot.sound
Verif.Sequencer.Throws.no_null_partial: propext, Classical.choice, Quot.sound
Verif.Sequencer.Throws.not_nested_partial: propext, Classical.choice, Quot.sound
Verif.Sequencer.Throws.callable_partial: propext, Classical.choice, Quot.sound
Verif.Sequencer.Throws.action_skipped_violated: propext, Classical.choice, Quot.sound
Verif.Sequencer.Throws.monitors_off_violated: propext, Classical.choice, Quot.sound
Verif.Control.TransitionLock.connected_partial: propext, Quot.sound
Verif.Control.TransitionLock.waiting_ends_partial: propext, Quot.sound
Verif.Control.TransitionLock.unconnected_violated: propext, Quot.sound
Verif.Control.TransitionLock.relock_violated: propext
Verif.Control.TransitionLock.handover: propext, Quot.sound
Verif.Control.Kalman.Optimal.covariance_true: propext, Classical.choice, Quot.sound
Verif.Control.Kalman.Optimal.no_better_partial: propext, Classical.choice, Quot.sound
Verif.Control.Kalman.Optimal.first_measurement_violated: propext, Classical.choice, Quot.sound
Verif.Planner.ConstAcc.Fast.no_faster_motion: propext, Classical.choice, Quot.sound
Verif.Core.Teardown.safe_iff: propext, Classical.choice, Quot.sound
Verif.Core.Teardown.joined_safe_partial: propext, Classical.choice, Quot.sound
Verif.Core.Teardown.no_join_violated: propext, Classical.choice, Quot.sound
Verif.Core.Teardown.classes_violated: propext, Classical.choice, Quot.sound
Verif.Core.Teardown.sequence_safe_iff: propext, Classical.choice, Quot.sound
Verif.Control.DynBlocks.cycle_runs_all: propext, Quot.sound
Verif.Control.DynBlocks.careful_safe_partial: propext, Quot.sound
Verif.Control.DynBlocks.removed_not_run_partial: propext, Quot.sound
Verif.Control.DynBlocks.inside_ub_iff: propext, Quot.sound
Verif.Control.DynBlocks.remove_current_violated: propext, Quot.sound
Verif.Control.DynBlocks.removed_still_runs_violated: propext, Quot.sound
Verif.Control.DynBlocks.destroyed_block_violated: propext, Quot.sound
Verif.Control.WireLife.connected_reads_partial: propext
Verif.Control.WireLife.destroyed_output_violated: propext, Quot.sound
Verif.Control.WireLife.reused_place_violated: propext, Quot.sound
Verif.Hal.LidarCopy.elements_partial: propext, Quot.sound
Verif.Hal.LidarCopy.phantom_violated: propext, Classical.choice, Quot.sound
Verif.Hal.LidarCopy.all_zero_violated: propext, Classical.choice, Quot.sound
Verif.Hal.LidarCopy.no_zero: propext, Classical.choice, Quot.sound
Verif.Control.Stamps.stamp_follows: propext, Quot.sound
Verif.Control.Stamps.follows_strict: propext, Quot.sound
Verif.Control.Stamps.stamp_age: propext, Classical.choice, Quot.sound
Verif.Control.Stamps.grounded_follows: propext
Verif.Control.Stamps.advances_iff: propext, Classical.choice, Quot.sound
Verif.Control.Stamps.integrator_step: propext, Quot.sound
Verif.Control.Stamps.frozen_violated: propext, Quot.sound
Verif.Control.Stamps.dead_integrator_violated: propext, Quot.sound
Verif.Control.Stamps.first_step_violated: propext, Quot.sound
Verif.Hal.DeviceRaces.ODriveUSB.race_free: propext, Classical.choice, Quot.sound
Verif.Hal.DeviceRaces.RPLidar.readers_free: propext, Classical.choice, Quot.sound
Verif.Hal.DeviceRaces.Pixy.readers_free: propext, Classical.choice, Quot.sound
Verif.Hal.DeviceRaces.Mouse.readers_free: propext, Classical.choice, Quot.sound
Verif.Hal.DeviceRaces.XBox.readers_free: propext, Classical.choice, Quot.sound
Verif.Hal.DeviceRaces.SpaceNav.readers_free: propext, Classical.choice, Quot.sound
Verif.Hal.DeviceRaces.Keyboard.block_digIn: propext, Classical.choice, Quot.sound
Verif.Hal.DeviceRaces.Baumer.thread_violated: propext, Classical.choice, Quot.sound
Verif.Hal.DeviceRaces.Baumer.others_violated: propext, Classical.choice, Quot.sound
Verif.Hal.DeviceRaces.RPLidar.thread_violated: propext, Classical.choice, Quot.sound
Verif.Hal.DeviceRaces.Pixy.thread_violated: propext, Classical.choice, Quot.sound
Verif.Hal.DeviceRaces.Realsense.thread_violated: propext, Classical.choice, Quot.sound
Verif.Hal.DeviceRaces.SBG.thread_violated: propext, Classical.choice, Quot.sound
Verif.Hal.DeviceRaces.SBG.two_devices_violated: propext, Classical.choice, Quot.sound
Verif.Hal.DeviceRaces.Keyboard.thread_violated: propext, Classical.choice, Quot.sound
Verif.Hal.DeviceRaces.Keyboard.others_violated: propext, Classical.choice, Quot.sound
Verif.Hal.DeviceRaces.Mouse.thread_violated: propext, Classical.choice, Quot.sound
Verif.Hal.DeviceRaces.XBox.thread_violated: propext, Classical.choice, Quot.sound
Verif.Hal.DeviceRaces.SpaceNav.thread_violated: propext, Classical.choice, Quot.sound
Verif.Hal.DeviceRaces.ODriveUSB.thread_violated: propext, Classical.choice, Quot.sound
Verif.Hal.DeviceRaceVars.Baumer.vars_violated: propext, Classical.choice, Quot.sound
Verif.Hal.DeviceRaceVars.RPLidar.vars_violated: propext, Classical.choice, Quot.sound
Verif.Hal.DeviceRaceVars.Pixy.vars_violated: propext, Classical.choice, Quot.sound
Verif.Hal.DeviceRaceVars.Realsense.vars_violated: propext, Classical.choice, Quot.sound
Verif.Hal.DeviceRaceVars.SBG.vars_violated: propext, Classical.choice, Quot.sound
Verif.Hal.DeviceRaceVars.Keyboard.vars_violated: propext, Classical.choice, Quot.sound
Verif.Hal.DeviceRaceVars.Mouse.vars_violated: propext, Classical.choice, Quot.sound
Verif.Hal.DeviceRaceVars.XBox.vars_violated: propext, Classical.choice, Quot.sound
Verif.Hal.DeviceRaceVars.SpaceNav.vars_violated: propext, Classical.choice, Quot.sound
Verif.Hal.DeviceRaceVars.ODriveUSB.vars_violated: propext, Classical.choice, Quot.sound
Verif.Hal.DeviceRaceVars.sbg_two_devices_violated: propext, Classical.choice, Quot.sound
Verif.Hal.DeviceRaceVars.keyboard_users_violated: propext, Classical.choice, Quot.sound
Verif.Hal.KeyWords.own_word_partial: propext
Verif.Hal.KeyWords.lost_violated: propext, Quot.sound
Verif.Hal.KeyWords.lost_iff: propext, Classical.choice, Quot.sound
Verif.Control.Loop.direct_output: propext, Classical.choice, Quot.sound
Verif.Control.Loop.gainLast_output: propext, Classical.choice, Quot.sound
Verif.Control.Loop.direct_no_overshoot: propext, Classical.choice, Quot.sound
Verif.Control.Loop.direct_converges: propext, Classical.choice, Quot.sound
Verif.Control.Loop.direct_on_grid: propext, Classical.choice, Quot.sound
Verif.Control.Loop.direct_diverges: propext, Classical.choice, Quot.sound
Verif.Control.Loop.direct_stable_iff: propext, Classical.choice, Quot.sound
Verif.Control.Loop.gainLast_start_violated: propext, Classical.choice, Quot.sound
Verif.Control.Loop.gainLast_oscillates_violated: propext, Classical.choice, Quot.sound
Verif.Control.Loop.gainLast_converges_partial: propext, Classical.choice, Quot.sound
Verif.Control.Loop.gainLast_not_converges: propext, Classical.choice, Quot.sound
Verif.Control.Loop.order_decides_violated: propext, Classical.choice, Quot.sound
Verif.Control.Loop.order_dead_beat_violated: propext, Classical.choice, Quot.sound
Verif.Control.LoopFl.no_overshoot: propext, Classical.choice, Quot.sound
Verif.Control.LoopFl.tracks: propext, Classical.choice, Quot.sound
Verif.Control.LoopFl.stuck_violated: propext, Classical.choice, Quot.sound
Verif.Control.LoopSat.output_eq: propext, Classical.choice, Quot.sound
Verif.Control.LoopSat.velocity: propext, Classical.choice, Quot.sound
Verif.Control.LoopSat.no_overshoot: propext, Classical.choice, Quot.sound
Verif.Control.LoopSat.full_velocity: propext, Classical.choice, Quot.sound
Verif.Control.LoopSat.arrives: propext, Classical.choice, Quot.sound
Verif.Control.LoopSat.then_decays: propext, Classical.choice, Quot.sound
Verif.Control.CrossDomain.never_back: propext, Classical.choice, Quot.sound
Verif.Control.CrossDomain.value_first_violated: propext, Classical.choice, Quot.sound
Verif.Control.CrossDomain.stamp_first_violated: propext, Classical.choice, Quot.sound
Verif.Control.CrossDomain.together_partial: propext, Quot.sound
Verif.Control.CrossDomain.slope_violated: propext, Classical.choice, Quot.sound
Verif.Control.CrossDomain.ramp_violated: propext, Classical.choice, Quot.sound
Verif.Control.LoopDelay.loop_delays: propext, Classical.choice, Quot.sound
Verif.Control.LoopDelay.one_cycle_iff: propext, Classical.choice, Quot.sound
Verif.Control.LoopDelay.longest_iff: propext, Classical.choice, Quot.sound
Verif.Control.LoopDelay.around_reverse: propext, Classical.choice, Quot.sound
Verif.Control.LoopDelay.around_rotate: propext, Quot.sound
Verif.Control.LoopDelay.link: propext, Classical.choice, Quot.sound
Verif.Control.LoopDelay.path: propext, Classical.choice, Quot.sound
Verif.Control.LoopDelay.once_around: propext, Classical.choice, Quot.sound
Verif.Control.LoopDelay.many_around: propext, Classical.choice, Quot.sound
Verif.Control.LoopDelay.in_direction: propext, Classical.choice, Quot.sound
Verif.Control.LoopDelay.against_direction_violated: propext, Classical.choice, Quot.sound
Verif.Planner.Derived.derivative_mean: propext, Classical.choice, Quot.sound
Verif.Planner.Derived.derivative_within: propext, Classical.choice, Quot.sound
Verif.Planner.Derived.early_violated: propext, Classical.choice, Quot.sound
Verif.Planner.Derived.integral_way: propext, Classical.choice, Quot.sound
Verif.Planner.Derived.integral_end: propext, Classical.choice, Quot.sound
Verif.Planner.Derived.integral_excess_violated: propext, Classical.choice, Quot.sound
Verif.Control.RaceVars.free_on_iff: propext, Classical.choice, Quot.sound
Verif.Control.RaceVars.raceFree_iff: propext, Quot.sound
Verif.Control.RaceVars.two_on_iff: propext, Classical.choice, Quot.sound
Verif.Control.BlockRaceVars.Gain.vars_violated: propext, Classical.choice, Quot.sound
Verif.Control.BlockRaceVars.Saturation.vars_violated: propext, Classical.choice, Quot.sound
Verif.Control.BlockRaceVars.RateLimiter.vars_violated: propext, Classical.choice, Quot.sound
Verif.Control.BlockRaceVars.WrapAround.vars_violated: propext, Classical.choice, Quot.sound
Verif.Control.BlockRaceVars.Integrator.vars_violated: propext, Classical.choice, Quot.sound
Verif.Control.BlockRaceVars.Switch.vars_violated: propext, Classical.choice, Quot.sound
Verif.Control.BlockRaceVars.Trace.vars_violated: propext, Classical.choice, Quot.sound
Verif.Control.BlockRaceVars.Safety.vars_violated: propext, Classical.choice, Quot.sound
Verif.Control.BlockRaceVars.transition_vars_violated: propext, Classical.choice, Quot.sound
Verif.Control.BlockRaceVars.trigger_vars_violated: propext, Classical.choice, Quot.sound
Verif.Control.BlockRaceVars.planner_acc_vars_violated: propext, Classical.choice, Quot.sound
Verif.Control.BlockRaceVars.planner_jerk_vars_violated: propext, Classical.choice, Quot.sound
Verif.Control.BlockRaceVars.planner_cubic_vars_violated: propext, Classical.choice, Quot.sound
Verif.Hal.DeviceRaceVars.Baumer.vars_violated: propext, Classical.choice, Quot.sound
Verif.Hal.DeviceRaceVars.RPLidar.vars_violated: propext, Classical.choice, Quot.sound
Verif.Hal.DeviceRaceVars.Pixy.vars_violated: propext, Classical.choice, Quot.sound
Verif.Hal.DeviceRaceVars.Realsense.vars_violated: propext, Classical.choice, Quot.sound
Verif.Hal.DeviceRaceVars.SBG.vars_violated: propext, Classical.choice, Quot.sound
Verif.Hal.DeviceRaceVars.Keyboard.vars_violated: propext, Classical.choice, Quot.sound
Verif.Hal.DeviceRaceVars.Mouse.vars_violated: propext, Classical.choice, Quot.sound
Verif.Hal.DeviceRaceVars.XBox.vars_violated: propext, Classical.choice, Quot.sound
Verif.Hal.DeviceRaceVars.SpaceNav.vars_violated: propext, Classical.choice, Quot.sound
Verif.Hal.DeviceRaceVars.ODriveUSB.vars_violated: propext, Classical.choice, Quot.sound
Verif.Hal.DeviceRaceVars.sbg_two_devices_violated: propext, Classical.choice, Quot.sound
Verif.Hal.DeviceRaceVars.keyboard_users_violated: propext, Classical.choice, Quot.sound
Verif.Planner.Handover.asking_race_free: propext, Quot.sound
Verif.Planner.Handover.races_on: propext, Quot.sound
Verif.Planner.Handover.ends_at_goal: propext, Classical.choice, Quot.sound
Verif.Planner.Handover.jump_violated: propext, Quot.sound
Verif.Planner.Handover.races_violated: propext, Quot.sound
Verif.Control.MedianVec.vector_median_partial: propext, Classical.choice, Quot.sound
Verif.Control.MedianVec.median_of_weak_order_partial: propext, Classical.choice, Quot.sound
Verif.Control.MedianVec.insertion_in_bounds: propext, Quot.sound
Verif.Control.MedianVec.insertion_sorts: propext, Classical.choice, Quot.sound
Verif.Control.MedianVec.first_scan_in_bounds: propext, Quot.sound
Verif.Control.MedianVec.not_weak_order_violated: propext, Classical.choice, Quot.sound
Verif.Control.MedianVec.vector_spike_passes_violated: propext, Classical.choice, Quot.sound
Verif.Control.MedianVec.nan_spike_passes_violated: propext, Classical.choice, Quot.sound
Verif.Control.MedianVec.nan_vectors_read_outside_violated: propext, Quot.sound
Verif.Sequencer.one_sleep_between_checks: propext, Classical.choice, Quot.sound
Verif.Sequencer.steps_between_checks: propext, Classical.choice, Quot.sound
Verif.Sequencer.time_between_checks: propext, Classical.choice, Quot.sound
Verif.Planner.JerkClock.finishes_partial: propext, Classical.choice, Quot.sound
Verif.Planner.JerkClock.no_cruise_never_finishes_violated: propext, Classical.choice, Quot.sound
Verif.Planner.JerkClock.long_phase_never_finishes_violated: propext, Classical.choice, Quot.sound
Verif.Control.TransitionConc.transition_linearizable: propext, Quot.sound
Verif.Control.TransitionConc.steady_fresh: propext, Quot.sound
Verif.Control.TransitionConc.up_fresh: propext, Classical.choice, Quot.sound
Verif.Common.LinSim.linearizable: propext
Verif.Common.LinSim.realtime: propext, Quot.sound
Verif.Planner.CubicFile.reads_table_partial: propext, Classical.choice, Quot.sound
Verif.Planner.CubicFile.read_filled: propext, Classical.choice, Quot.sound
Verif.Planner.CubicFile.words_exist: propext, Quot.sound
Verif.Planner.CubicFile.truncated_violated: propext, Classical.choice, Quot.sound
Verif.Planner.CubicFile.init_standing_partial: propext, Quot.sound
Verif.Planner.CubicFile.init_moving_violated: propext, Quot.sound
Verif.Planner.CubicFile.reset_moving_violated: propext, Quot.sound
Verif.Common.Uninit.bad_iff: propext, Quot.sound
Verif.Common.Uninit.bad_initAlso: propext, Quot.sound
Verif.Control.UninitBlocks.gain_violated: propext, Quot.sound
Verif.Control.UninitBlocks.switch_violated: propext, Quot.sound
Verif.Control.UninitBlocks.trace_violated: propext, Quot.sound
Verif.Control.UninitBlocks.periphOut_violated: propext, Quot.sound
Verif.Control.UninitBlocks.median_violated: propext, Quot.sound
Verif.Control.UninitBlocks.zTransfer_violated: propext, Quot.sound
Verif.Control.UninitBlocks.canRecvOpen_violated: propext, Quot.sound
Verif.Control.UninitBlocks.canSendOpen_violated: propext, Quot.sound
Verif.Control.UninitBlocks.canSend_violated: propext, Quot.sound
Verif.Control.UninitBlocks.canRecv_ok: propext, Quot.sound
Verif.Control.UninitBlocks.transUp_violated: propext, Quot.sound
Verif.Control.UninitBlocks.transSteadyUp_ok: propext, Quot.sound
Verif.Control.UninitBlocks.transSteadyDown_violated: propext, Quot.sound
Verif.Control.UninitBlocks.cubic_violated: propext, Quot.sound
Verif.Control.UninitBlocks.constAcc_violated: propext, Quot.sound
Verif.Control.UninitBlocks.kalman_violated: propext, Quot.sound
Verif.Control.UninitBlocks.mouseIn_violated: propext, Quot.sound
Verif.Control.UninitBlocks.xboxIn_violated: propext, Quot.sound
Verif.Control.UninitBlocks.spaceNav_violated: propext, Quot.sound
Verif.Control.UninitBlocks.lidar_violated: propext, Quot.sound
Verif.Control.UninitBlocks.om70_violated: propext, Quot.sound
Verif.Control.UninitBlocks.sensor_violated: propext, Quot.sound
Verif.Control.UninitBlocks.sensor_never: propext, Quot.sound
Verif.Control.UninitBlocks.laser_stamps_violated: propext, Quot.sound
Verif.Control.UninitBlocks.diff_ok: propext, Quot.sound
Verif.Control.UninitBlocks.integ_ok: propext, Quot.sound
Verif.Control.UninitBlocks.step_ok: propext, Quot.sound
Verif.Control.UninitBlocks.rateLim_ok: propext, Quot.sound
Verif.Control.UninitBlocks.lowPass_ok: propext, Quot.sound
Verif.Control.UninitBlocks.switch_repaired: propext, Quot.sound
Verif.Control.UninitBlocks.canRecvOpen_half: propext, Quot.sound
Verif.Safety.ExitHandler.exit_locks_safety_violated: propext, Quot.sound
Verif.Safety.ExitHandler.exit_locks_heap_violated: propext, Quot.sound
Verif.Safety.ExitHandler.exit_after_end_violated: propext, Quot.sound
Verif.Safety.ExitHandler.exit_returns_partial: propext, Classical.choice, Quot.sound
Verif.Safety.ExitHandler.exit_alive_partial: propext, Quot.sound
Verif.Safety.ExitHandler.exit_before: propext, Quot.sound
Verif.Safety.ExitHandler.exit_returns_partial: propext, Classical.choice, Quot.sound
Verif.Safety.ExitHandler.exit_alive_partial: propext, Quot.sound
Verif.Safety.ExitHandler.exit_before: propext, Quot.sound
Verif.Common.SignalLocks.never_stuck: propext, Classical.choice, Quot.sound
Verif.Common.SignalLocks.all_return: propext, Classical.choice, Quot.sound
Verif.Sequencer.WaitAll.wait_all_partial: propext, Classical.choice, Quot.sound
Verif.Sequencer.WaitAll.wait_earlier_violated: propext
Verif.Sequencer.WaitAll.wait_later_violated: propext
Verif.Sequencer.WaitAll.wait_alone: propext, Classical.choice, Quot.sound
Verif.Control.CorrectorFile.reads_table: propext, Classical.choice, Quot.sound
Verif.Control.CorrectorFile.garbage_violated: propext, Classical.choice, Quot.sound
Verif.Control.CorrectorFile.incomplete_violated: propext, Classical.choice, Quot.sound
Verif.Control.CorrectorFile.unclosed_violated: propext, Classical.choice, Quot.sound
Verif.Control.CorrectorFile.reads_table: propext, Classical.choice, Quot.sound
Verif.Safety.InputReaction.input_reaction: propext, Classical.choice, Quot.sound
Verif.Safety.InputReaction.good_inputs_stay: propext, Classical.choice, Quot.sound
Verif.Sequencer.Timed.timeout_iff: propext, Classical.choice, Quot.sound
Verif.Sequencer.Timed.timeout_fires_late: propext, Classical.choice, Quot.sound
Verif.Sequencer.Timed.timeout_once_partial: propext, Classical.choice, Quot.sound
Verif.Sequencer.Timed.timeout_stays: propext, Classical.choice, Quot.sound
Verif.Sequencer.Timed.timeout_fires_again_violated: propext, Classical.choice, Quot.sound
Verif.Sequencer.Timed.wait_full: propext, Classical.choice, Quot.sound
Verif.Safety.level_changes_registered: propext, Classical.choice, Quot.sound
Verif.Safety.private_needs_context: propext
Verif.Safety.priority_exact: propext, Classical.choice, Quot.sound
Verif.Safety.Inst.construct_exact: propext, Classical.choice, Quot.sound
Verif.Safety.Inst.failed_attempts_block_violated: propext, Classical.choice, Quot.sound
Verif.Hal.add_succeeds_iff: propext, Quot.sound
Verif.Safety.current_iff_reached: propext, Classical.choice, Quot.sound
Verif.Safety.critical_handled_iff: propext, Classical.choice, Quot.sound
Verif.Control.Transition.down_exact: propext, Classical.choice, Quot.sound
Verif.Control.Transition.up_exact: propext, Classical.choice, Quot.sound
Verif.Safety.Conc.calm_disciplined: propext, Quot.sound
Verif.Config.add_throws_iff: propext, Quot.sound
Verif.Config.registered: propext, Quot.sound
Verif.Config.order_irrelevant: propext, Classical.choice, Quot.sound
Verif.Config.registered_round_trip: propext, Classical.choice, Quot.sound
Verif.Planner.ConstJerk.within_limits: propext, Classical.choice, Quot.sound
Verif.Planner.ConstJerk.short_move_exact: propext, Classical.choice, Quot.sound
Verif.Hal.XBox.failing_reads_exact: propext, Quot.sound
Verif.Hal.XBox.first_read_undefined: propext, Quot.sound
Verif.Core.EtherCatSync.cycles_le_bus: propext, Quot.sound
Verif.Core.EtherCatSync.bus_runs: propext
Verif.Core.EtherCatSync.stop_ends_partial: propext, Quot.sound
Verif.Core.EtherCatSync.never_returns: propext
Verif.Core.EtherCatSync.stop_lost_violated: propext, Quot.sound
Verif.Planner.ConstAcc.consistent_iff: propext, Classical.choice, Quot.sound
Verif.Planner.ConstAcc.consistent_iff_long: propext, Classical.choice, Quot.sound
Verif.Planner.ConstAcc.stands_still_violated: propext, Classical.choice, Quot.sound
Verif.Math.Mat.rank_right_iff: propext, Classical.choice, Quot.sound
Verif.Math.Mat.rank_over_violated: propext, Classical.choice, Quot.sound
Verif.Math.Mat.det_int: propext, Classical.choice, Quot.sound
Verif.Math.Mat.inv_cut: propext, Classical.choice, Quot.sound
Verif.Math.Mat.inv_int_iff: propext, Classical.choice, Quot.sound
Verif.Math.Mat.inv_int_1x1: propext, Quot.sound
Verif.Math.Mat.invertible_violated: propext, Classical.choice, Quot.sound
Verif.Math.Mat.det2_defined_iff: propext, Classical.choice, Quot.sound
Verif.Math.Mat.det2_small_ok: propext, Classical.choice, Quot.sound
Verif.Math.Mat.det2_overflow_violated: propext, Classical.choice, Quot.sound
Verif.Control.Delay.delay_exact: propext, Classical.choice, Quot.sound
Verif.Control.Delay.delay_right_iff: propext, Classical.choice, Quot.sound
Verif.Control.WrapAround.wraps_iff: propext, Classical.choice, Quot.sound
Verif.Control.WrapAround.wrap_congruent: propext, Classical.choice, Quot.sound
Verif.Control.Can.receive_defined_iff: propext, Classical.choice, Quot.sound
Verif.Control.Can.send_defined_iff: propext, Classical.choice, Quot.sound
Verif.Control.Can.angles_right_iff: propext, Classical.choice, Quot.sound
Verif.Hal.DeviceThread.destructor_returns_iff: propext, Quot.sound
Verif.Hal.DeviceThread.destructible_iff: propext
Verif.Hal.RPLidar.run_defined_iff: propext, Quot.sound
Verif.Config.array_overflow_iff: propext, Classical.choice, Quot.sound
Verif.Config.array_loaded_iff: propext, Classical.choice, Quot.sound
Verif.Control.ElmoInput.run_exact_partial: propext, Quot.sound
Verif.Control.ElmoInput.one_frame_iff: propext, Quot.sound
Verif.Control.ElmoInput.undisturbed: propext, Quot.sound
Verif.Control.ElmoInput.mixture_violated: propext, Quot.sound
Verif.Control.ElmoInput.later_violated: propext, Quot.sound
Verif.Control.EtherCat.elmo_exact: propext
Verif.Control.EtherCat.elmo_fault_silent_iff: propext
Verif.Control.CanSend.run_ok_iff: propext, Classical.choice, Quot.sound
Verif.Control.SafetyLevelPub.undefined_iff: propext, Classical.choice, Quot.sound
Verif.Control.SafetyLevelPub.published_exact: propext, Quot.sound
Verif.Control.Subio.results_exact: propext, Quot.sound
Verif.Hal.Features.call_exact: propext, Quot.sound
Verif.Hal.BaumerData.block_exact: propext, Classical.choice, Quot.sound
Verif.External.ODriveEP.get_value_iff: propext, Classical.choice, Quot.sound
Verif.External.ODriveEP.get_error_iff: propext, Classical.choice, Quot.sound
Verif.External.ODriveEP.init_exact: propext, Classical.choice, Quot.sound
Verif.External.ODriveEP.released_iff: propext, Classical.choice, Quot.sound
Verif.Core.RosSync.Topic.stop_ends_iff: propext, Classical.choice, Quot.sound
Verif.Core.RosSync.Topic.message_iff: propext
Verif.Core.EtherCatSync.stop_ends_iff: propext, Quot.sound
Verif.Hal.ODriveUsb.selects_exact: propext, Classical.choice, Quot.sound
Verif.Hal.ODriveUsb.wrong_drive_iff: propext, Classical.choice, Quot.sound
Verif.Control.RosBlocks.Analog.parse_exact: propext, Classical.choice, Quot.sound
Verif.Control.RosBlocks.Laser.receive_exact: propext, Quot.sound
Verif.Control.RosBlocks.Laser.roundtrip_iff: propext, Quot.sound
Verif.Control.RosData.receive_exact: propext, Quot.sound
Verif.Hal.Keyboard.blocks_exact: propext, Classical.choice, Quot.sound
Verif.Hal.Keyboard.own_keys_iff: propext, Classical.choice, Quot.sound
Verif.Hal.ODrive.getVel_exact: propext, Classical.choice, Quot.sound
Verif.Hal.ODrive.stod_some_iff: propext, Quot.sound
Verif.Sequencer.Stepping.as_requested_iff: propext, Quot.sound
Verif.Sequencer.Stepping.client_exact: propext, Quot.sound
Verif.Control.IeeeSettle.keeps_order: propext, Classical.choice, Quot.sound
Verif.Control.IeeeSettle.settles: propext, Classical.choice, Quot.sound
Verif.Control.IeeeSettle.zero_reached_iff: propext, Classical.choice, Quot.sound
Verif.Control.IeeeSettle.zero_never_reached_violated: propext, Classical.choice, Quot.sound
Verif.Control.IeeeSettle.stops_above: propext, Classical.choice, Quot.sound
Verif.Control.ExactRules4.checker_exact: propext, Classical.choice, Quot.sound
Verif.Control.ExactRules4.events_exact: propext, Classical.choice, Quot.sound
Verif.Control.ExactRules4.window_exact: propext, Classical.choice, Quot.sound
Verif.Control.ExactRules4.integrate_exact: propext, Classical.choice, Quot.sound
Verif.Control.ExactRules4.accepts_exact: propext, Classical.choice, Quot.sound
Verif.Control.ExactRules4.toRos1_exact: propext, Classical.choice, Quot.sound
Verif.Control.ExactRules4.toRos2_exact: propext, Classical.choice, Quot.sound
Verif.Control.ExactRules4.roundtrip_iff: propext, Classical.choice, Quot.sound
Verif.Sequencer.Stepping.steps_le: propext, Classical.choice, Quot.sound
Verif.Sequencer.Stepping.steps_reached: propext, Quot.sound
Verif.Hal.Scale.stage_right_iff: propext, Classical.choice, Quot.sound
Verif.Hal.ODriveCalib.offset_partial: none
Verif.Hal.ODriveCalib.distinct: none
Verif.Hal.ODriveCalib.switch0_partial: propext
Verif.Hal.ODriveCalib.offset_violated: none
Verif.Hal.ODriveCalib.switch_not_read_violated: propext, Quot.sound
Verif.Hal.ODriveCalib.pressed_unseen_violated: propext
Verif.Hal.ODriveCalib.returns_iff: propext, Quot.sound
Verif.Hal.ODriveCalib.commands_exact: propext, Quot.sound
Verif.Hal.ODriveCalib.undefined_iff: propext, Quot.sound
Verif.Hal.ODriveCalib.undefined_iff: propext, Quot.sound
Verif.Hal.ODriveCalib.returns_iff: propext, Quot.sound
Verif.Hal.ODriveCalib.silent_drive_violated: propext, Quot.sound
Verif.Hal.ODriveCalib.switches_ignored_violated: propext
Verif.Hal.ODriveCalib.fed_every_pass: propext
Verif.Hal.ODriveCalib.members_exact: propext, Quot.sound
Verif.Hal.ODriveCalib.trips_iff: propext, Classical.choice, Quot.sound
Verif.Hal.ODriveCalib.fast_requests_partial: propext, Classical.choice, Quot.sound
Verif.Hal.ODriveCalib.counter_violated: propext, Quot.sound
Verif.Hal.ODriveCalib.currents_never_read_violated: propext
Verif.Hal.ODriveCalib.slow_requests_violated: propext, Classical.choice, Quot.sound
Verif.Hal.ODriveUart.calibrated_first_partial: propext, Quot.sound
Verif.Hal.ODriveUart.setpoints_violated: propext, Quot.sound
Verif.Hal.ODriveUart.axis1_violated: propext, Quot.sound
Verif.Hal.ODriveUart.last_setpoint_violated: propext, Quot.sound
Verif.Control.RosSigint.never_recursive: propext
Verif.Control.RosSigint.first_registration_iff: propext, Quot.sound
Verif.Control.RosSigint.after_init_partial: none
Verif.Control.RosSigint.init_idempotent: propext
Verif.Control.RosSigint.ignored_violated: propext
Verif.Control.RosSigint.restart_violated: propext
Verif.Control.RosSigint.restart_calls_violated: none
Verif.Control.RosSigint.number_exact: propext, Quot.sound
Verif.Control.RosSigint.unset: propext
Verif.Control.RosSigint.no_number: propext
Verif.Control.RosSigint.trailing_violated: propext, Quot.sound
Verif.Control.RosSigint.negative_violated: propext, Quot.sound
Verif.Core.StopRos2.without_subscribers: propext
Verif.Core.StopRos2.with_subscribers_iff: propext, Quot.sound
Verif.Core.StopRos2.one_call_partial: propext
Verif.Core.StopRos2.second_call_violated: propext
Verif.Core.StopRos2.callback_violated: propext
Verif.Core.StopRos2.no_call_violated: propext
Verif.Hal.Resources.mouse_balanced: propext, Quot.sound
Verif.Hal.Resources.spaceNavigator_iff: propext, Quot.sound
Verif.Hal.Resources.spaceNavigator_violated: propext, Quot.sound
Verif.Hal.Resources.baumer_iff: propext, Classical.choice, Quot.sound
Verif.Hal.Resources.baumer_violated: propext, Classical.choice, Quot.sound
Verif.Hal.Resources.sbg_iff: propext, Quot.sound
Verif.Hal.Resources.sbg_violated: propext, Quot.sound
Verif.Hal.Resources.rplidar_iff: propext, Quot.sound
Verif.Hal.Resources.name_iff: propext, Quot.sound
Verif.Hal.Resources.name_partial: propext
Verif.Hal.Resources.name_violated: propext
Verif.Examples.CanExample2.level_exact: propext, Classical.choice, Quot.sound
Verif.Examples.CanExample2.exit_iff: propext
Verif.Examples.CanExample2.exit_moving_partial: propext, Classical.choice, Quot.sound
Verif.Examples.CanExample2.exit_init_violated: propext
Verif.Examples.CanExample2.exit_ready_violated: propext
Verif.Examples.CanExample2.velocity_enabled: propext, Quot.sound
Verif.Examples.CanExample2.stop_last: propext, Quot.sound
Verif.Examples.CanExample2.first_velocity_partial: propext
Verif.Examples.CanExample2.velocities: propext, Quot.sound
Verif.Examples.CanExample2.velocities_violated: propext, Quot.sound
Verif.Examples.CanExample2.second_velocity_violated: propext, Quot.sound
Verif.Examples.HalTest3.exit_stops: propext, Classical.choice, Quot.sound
Verif.Examples.HalTest3.watchdog_stops: propext, Classical.choice, Quot.sound
Verif.Examples.HalTest3.dead_watchdog_stops: propext, Classical.choice, Quot.sound
Verif.Examples.HalTest3.never_stops: propext, Classical.choice, Quot.sound
Verif.Planner.Cubic.follows_any: propext, Classical.choice, Quot.sound
Verif.Planner.Cubic.follows_scaled_any: propext, Classical.choice, Quot.sound
Verif.Planner.Cubic.taken_eq_iff: propext, Quot.sound
Verif.Planner.Cubic.time_any: propext, Quot.sound
Verif.Planner.Cubic.empty_row_jumps_violated: propext, Quot.sound
Verif.Core.StatisticsFl.exec_scale: propext, Classical.choice, Quot.sound
Verif.Core.StatisticsFl.start_free: propext, Classical.choice, Quot.sound
Verif.Control.UnitsFl.MovingAverage.exec_scale: propext, Classical.choice, Quot.sound
Verif.Control.UnitsFl.LowPass.run_scale: propext, Classical.choice, Quot.sound
Verif.Control.UnitsFl.LowPass.runs_scale: propext, Classical.choice, Quot.sound
Verif.Control.UnitsFl.RateLimiter.run_scale: propext, Classical.choice, Quot.sound
Verif.Control.UnitsFl.RateLimiter.runs_scale: propext, Classical.choice, Quot.sound
Verif.Control.UnitsFl.Integrator.run_scale: propext, Classical.choice, Quot.sound
Verif.Control.UnitsFl.Integrator.runs_scale: propext, Classical.choice, Quot.sound
Verif.Control.UnitsFl.wrap_scale: propext, Classical.choice, Quot.sound
Verif.Control.UnitsFl.Gain.run_scale: propext, Classical.choice, Quot.sound
Verif.External.LidarAdapter.forwards_partial: propext
Verif.External.LidarAdapter.own_failure_iff: propext
Verif.External.LidarAdapter.defined_iff: propext, Classical.choice, Quot.sound
Verif.External.LidarAdapter.before_connect_violated: propext, Quot.sound
Verif.External.LidarAdapter.unknown_type_violated: propext
Verif.External.LidarAdapter.support_iff: propext, Quot.sound
Verif.External.LidarAdapter.support_violated: propext, Quot.sound
Verif.External.LidarAdapter.life: propext, Quot.sound
Verif.External.LidarAdapter.destruct_iff: propext, Quot.sound
Verif.External.ODriveMain.velocity_partial: propext, Classical.choice, Quot.sound
Verif.External.ODriveMain.repeats: propext, Classical.choice, Quot.sound
Verif.External.ODriveMain.printed: propext, Classical.choice, Quot.sound
Verif.External.ODriveMain.periodic: propext, Classical.choice, Quot.sound
Verif.External.ODriveMain.never_stopped_violated: propext, Classical.choice, Quot.sound
Verif.External.ODriveMain.calibrate_partial: propext
Verif.External.ODriveMain.undefined_iff: propext
Verif.External.ODriveMain.first_failed_violated: none
Verif.External.ODriveMain.second_failed_violated: propext
Verif.External.ODriveMain.mixed_violated: propext
Verif.Math.Norm.norm_sq: propext, Classical.choice, Quot.sound
Verif.Math.Norm.norm_zero_iff: propext, Classical.choice, Quot.sound
Verif.Math.Norm.norm_smul: propext, Classical.choice, Quot.sound
Verif.Math.Norm.norm_add_le: propext, Classical.choice, Quot.sound
Verif.Math.Norm.norm_orthogonal: propext, Classical.choice, Quot.sound
Verif.Math.Norm.norm_rotation: propext, Classical.choice, Quot.sound
Verif.Math.Norm.normD_nan_iff: propext, Classical.choice, Quot.sound
Verif.Math.Norm.sum_accurate_partial: propext, Classical.choice, Quot.sound
Verif.Math.Norm.overflow_violated: propext, Classical.choice, Quot.sound
Verif.Math.Norm.underflow_violated: propext, Classical.choice, Quot.sound
Verif.Math.Print.print_inj: propext, Classical.choice, Quot.sound
Verif.Math.Print.brackets: propext, Classical.choice, Quot.sound
Verif.Math.Elementwise.each_element: propext, Classical.choice, Quot.sound
Verif.Math.Elementwise.laws: propext, Classical.choice, Quot.sound
Verif.Control.GainVec.linear_output: propext, Classical.choice, Quot.sound
Verif.Control.GainVec.superposition: propext, Classical.choice, Quot.sound
Verif.Control.GainVec.parabolic_partial: propext, Classical.choice, Quot.sound
Verif.Control.GainVec.parabolic_bounded: propext, Classical.choice, Quot.sound
Verif.Control.GainVec.indeterminate_violated: propext, Classical.choice, Quot.sound
Verif.Control.GainVec.determinate_iff: propext, Classical.choice, Quot.sound
Verif.Control.GainVec.disabled_output: propext, Classical.choice, Quot.sound
Verif.Control.GainVec.default_ew: propext, Classical.choice, Quot.sound
Verif.Control.GainVec.default_sums: propext, Classical.choice, Quot.sound
Verif.Control.GainVec.default_violated: propext, Classical.choice, Quot.sound
Verif.Control.GainLimits.asked_partial: propext, Classical.choice, Quot.sound
Verif.Control.GainLimits.short_violated: propext, Classical.choice, Quot.sound
Verif.Control.GainLimits.unsigned_violated: propext, Classical.choice, Quot.sound
Verif.Control.GainLimits.long_violated: propext, Classical.choice, Quot.sound
Verif.Control.GainLimits.asked_iff: propext, Classical.choice, Quot.sound
Verif.Control.Defaults.cleared_smallest: propext, Classical.choice, Quot.sound
Verif.Control.Defaults.constant_iff_partial: propext, Classical.choice, Quot.sound
Verif.Control.Defaults.constant_violated: propext, Classical.choice, Quot.sound
Verif.Control.IntBlocks.integrate_iff: propext, Classical.choice, Quot.sound
Verif.Control.IntBlocks.integral_partial: propext, Classical.choice, Quot.sound
Verif.Control.IntBlocks.stuck_violated: propext, Classical.choice, Quot.sound
Verif.Control.IntBlocks.fast_violated: propext, Classical.choice, Quot.sound
Verif.Control.IntBlocks.matrix_violated: propext, Classical.choice, Quot.sound
Verif.Control.IntBlocks.matrix_iff: propext, Classical.choice, Quot.sound
Verif.Control.IntBlocks.between_partial: propext, Classical.choice, Quot.sound
Verif.Control.IntBlocks.rest_iff: propext, Classical.choice, Quot.sound
Verif.Control.IntBlocks.never_violated: propext, Classical.choice, Quot.sound
Verif.Control.IntBlocks.from_above: propext, Classical.choice, Quot.sound
Verif.Control.IntBlocks.from_below: propext, Classical.choice, Quot.sound
Verif.Control.IntBlocks.matrix_zero_violated: propext, Classical.choice, Quot.sound
Verif.Control.IntBlocks.rounding_violated: propext, Classical.choice, Quot.sound
Verif.Control.IntBlocks.average_error: propext, Classical.choice, Quot.sound
Verif.Control.IntBlocks.average_partial: propext, Classical.choice, Quot.sound
Verif.Control.IntBlocks.constant_average: propext, Classical.choice, Quot.sound
Verif.Control.IntBlocks.constant_violated: propext, Classical.choice, Quot.sound
Verif.Control.IntBlocks.derivative_partial: propext, Classical.choice, Quot.sound
Verif.Control.IntBlocks.derivative_violated: propext, Classical.choice, Quot.sound
Verif.Control.IntBlocks.limiter_passes: propext, Classical.choice, Quot.sound
Verif.Control.IntBlocks.limiter_partial: propext, Classical.choice, Quot.sound
Verif.Control.IntBlocks.rise_violated: propext, Classical.choice, Quot.sound
Verif.Control.IntBlocks.fall_violated: propext, Classical.choice, Quot.sound
Verif.Hal.ScaleFinite.finite_partial: propext, Quot.sound
Verif.Hal.ScaleFinite.max_finite_partial: propext, Classical.choice, Quot.sound
Verif.Hal.ScaleFinite.accepted_iff: propext, Classical.choice, Quot.sound
Verif.Hal.ScaleFinite.points_finite: propext, Classical.choice, Quot.sound
Verif.Hal.ScaleFinite.max_infinite_violated: propext, Classical.choice, Quot.sound
Verif.Ui.CursesText.visible_iff: propext, Classical.choice, Quot.sound
Verif.Ui.CursesText.centred: propext, Classical.choice, Quot.sound
Verif.Ui.CursesText.legible_iff: propext, Classical.choice, Quot.sound
Verif.Ui.CursesText.status_last: propext, Classical.choice, Quot.sound
Verif.Ui.CursesText.narrow_violated: propext, Quot.sound
Verif.Ui.CursesText.named_iff: propext
Verif.Ui.CursesText.overrun_iff: propext, Quot.sound
Verif.Ui.CursesText.typed_partial: propext, Classical.choice, Quot.sound
Verif.Control.GainConc.gain_linearizable: propext, Classical.choice, Quot.sound
Verif.Control.GainConc.one_whole_gain: propext, Classical.choice, Quot.sound
Verif.Control.GainConc.never_wrong: propext, Classical.choice, Quot.sound
Verif.Control.GainConc.mixed_unnoticed_violated: propext, Classical.choice, Quot.sound
Verif.Logger.Stamp.stamp_partial: propext, Classical.choice, Quot.sound
Verif.Logger.Stamp.stamp_near: propext, Classical.choice, Quot.sound
Verif.Logger.Stamp.stamp_violated: propext, Classical.choice, Quot.sound
Verif.Logger.Stamp.stamp_order_violated: propext, Classical.choice, Quot.sound
Verif.Logger.Stamp.stamp_order_partial: propext, Classical.choice, Quot.sound
Verif.Logger.Header.continued_column: propext
Verif.Logger.Header.aligned_iff: propext, Classical.choice, Quot.sound
Verif.Logger.Header.other_shifted: propext, Classical.choice, Quot.sound
Verif.Logger.Header.header_inj: propext, Classical.choice, Quot.sound
Verif.Logger.Header.message_lines: propext, Classical.choice, Quot.sound
Verif.Logger.Header.message_colour: propext, Classical.choice, Quot.sound
Verif.Logger.Header.screen_rows: propext, Classical.choice, Quot.sound
Verif.Logger.Header.field_partial: propext, Quot.sound
Verif.Logger.Header.field_violated: propext, Quot.sound
Verif.Logger.LogFile.file_exact_partial: propext, Quot.sound
Verif.Logger.LogFile.name_iff: propext, Classical.choice, Quot.sound
Verif.Logger.LogFile.truncated_violated: propext
Verif.Logger.LogFile.overwritten_violated: propext, Quot.sound
Verif.Logger.LogFile.terminal_partial: propext, Quot.sound
Verif.Logger.LogFile.killed_violated: propext, Quot.sound
Verif.Logger.LogFile.missing_bounded: propext, Quot.sound
Verif.Examples.StandaloneClient.rows_partial: propext, Classical.choice, Quot.sound
Verif.Examples.StandaloneClient.rows_iff: propext, Classical.choice, Quot.sound
Verif.Examples.StandaloneClient.mixed_violated: propext, Classical.choice, Quot.sound
Verif.Examples.StandaloneClient.closed_violated: propext, Quot.sound
Verif.Examples.StandaloneClient.received_iff: propext, Classical.choice, Quot.sound
Verif.Examples.StandaloneClient.connections_exact: propext, Quot.sound
Verif.Examples.StandaloneClient.reconnect_partial: propext, Quot.sound
Verif.Examples.StandaloneClient.sigpipe_violated: propext, Quot.sound
Verif.Examples.StandaloneClient.read_ignored_violated: propext, Classical.choice, Quot.sound
Verif.Examples.StandaloneClient.sent_exact: propext, Quot.sound
Verif.Core.TaskLate.in_order: propext, Classical.choice, Quot.sound
Verif.Core.TaskLate.begins_exact: propext, Classical.choice, Quot.sound
Verif.Core.TaskLate.recovers: propext, Classical.choice, Quot.sound
Verif.Core.TaskLate.on_time_partial: propext, Classical.choice, Quot.sound
Verif.Core.TaskLate.falls_behind: propext, Classical.choice, Quot.sound
Verif.Core.TaskLate.bounded_iff: propext, Classical.choice, Quot.sound
Verif.Core.TaskLate.distance_partial: propext, Classical.choice, Quot.sound
Verif.Core.TaskLate.squeezed_violated: propext, Quot.sound
Verif.Core.TaskLate.burst_violated: propext, Classical.choice, Quot.sound
Verif.Core.TaskLate.after_on_time: propext, Classical.choice, Quot.sound
Verif.Core.TaskLate.after_order: propext, Classical.choice, Quot.sound
Verif.Examples.TraceTest.rows_exact: propext, Quot.sound
Verif.Examples.TraceTest.aligned_iff: propext, Classical.choice, Quot.sound
Verif.Examples.TraceTest.aligned_partial: propext, Classical.choice, Quot.sound
Verif.Examples.TraceTest.run_between_violated: propext, Quot.sound
Verif.Examples.TraceTest.within_run_violated: propext, Quot.sound
Verif.Examples.RtTest.dt_nearest: propext, Classical.choice, Quot.sound
Verif.Examples.RtTest.stops_partial: propext, Classical.choice, Quot.sound
Verif.Examples.RtTest.stops_at_once: propext, Classical.choice, Quot.sound
Verif.Examples.RtTest.stops_iff: propext, Classical.choice, Quot.sound
Verif.Examples.RtTest.overflow_violated: propext, Classical.choice, Quot.sound
Verif.Control.DelayFl.length_partial: propext, Classical.choice, Quot.sound
Verif.Control.DelayFl.written_partial: propext, Classical.choice, Quot.sound
Verif.Control.DelayFl.written_near: propext, Classical.choice, Quot.sound
Verif.Control.DelayFl.written_one: propext, Classical.choice, Quot.sound
Verif.Control.DelayFl.quotient_scale: propext, Classical.choice, Quot.sound
Verif.Control.DelayFl.tenth_violated: propext, Classical.choice, Quot.sound
Verif.Control.DelayFl.milli_violated: propext, Classical.choice, Quot.sound
Verif.Control.DelayFl.two_short_violated: propext, Classical.choice, Quot.sound
Verif.Core.ShmName.same_iff: propext, Classical.choice, Quot.sound
Verif.Core.ShmName.same_partial: propext, Classical.choice, Quot.sound
Verif.Core.ShmName.leaves_violated: propext, Quot.sound
Verif.Core.ShmName.twice_violated: propext, Quot.sound
Verif.Core.ShmName.removed_iff: propext
Verif.Core.ShmName.left_violated: propext
Verif.Core.ShmName.codes: propext, Quot.sound
Verif.Core.ShmName.again_violated: propext
Verif.Core.ExecutorFl.every_iff: propext, Classical.choice, Quot.sound
Verif.Core.ExecutorFl.doubles_partial: propext, Classical.choice, Quot.sound
Verif.Core.ExecutorFl.otherwise: propext, Classical.choice, Quot.sound
Verif.Core.ExecutorFl.tenth_refused_violated: propext, Classical.choice, Quot.sound
Verif.Core.ExecutorFl.milli_refused_violated: propext, Classical.choice, Quot.sound
Verif.Core.ExecutorFl.milli_early_violated: propext, Classical.choice, Quot.sound
Verif.Core.ExecutorFl.computed_iff: propext, Classical.choice, Quot.sound
Verif.Core.ExecutorFl.computed_pow_partial: propext, Classical.choice, Quot.sound
Verif.Core.ExecutorFl.computed_whole_partial: propext, Classical.choice, Quot.sound
Verif.Core.ExecutorFl.computed_otherwise: propext, Classical.choice, Quot.sound
Verif.Core.ExecutorFl.hundredth_refused_violated: propext, Classical.choice, Quot.sound
Verif.Core.ExecutorFl.hundredth_early_violated: propext, Classical.choice, Quot.sound
Verif.Core.ExecutorFl.transition_test: propext, Classical.choice, Quot.sound
Verif.Core.MonitorFl.on_time: propext, Classical.choice, Quot.sound
Verif.Core.MonitorFl.monotone: propext, Classical.choice, Quot.sound
Verif.Core.MonitorFl.warns_partial: propext, Classical.choice, Quot.sound
Verif.Core.MonitorFl.limit_violated: propext, Classical.choice, Quot.sound
