{
 "claims": [
  {
   "property": "C01",
   "status": "proved",
   "theorems": [
    "Paramz.IndexOps.index_arrays_canonical",
    "Paramz.IndexOps.items_exact"
   ],
   "note": ""
  },
  {
   "property": "C02",
   "status": "partial",
   "theorems": [
    "Paramz.IndexOps.step_refines",
    "Paramz.IndexOps.index_history_refines",
    "Paramz.IndexOps.remove_returns_partial",
    "Paramz.IndexOps.remove_returns_fails"
   ],
   "note": "The returned array of remove() is exact when the request has no repeated index; with repeated indices the returned array is wrong (witness)."
  },
  {
   "property": "C03",
   "status": "proved",
   "theorems": [
    "Paramz.IndexOps.shift_right_exact",
    "Paramz.IndexOps.shift_left_exact",
    "Paramz.IndexOps.shift_round_trip"
   ],
   "note": ""
  },
  {
   "property": "C04",
   "status": "proved",
   "theorems": [
    "Paramz.IndexOps.view_reads_window",
    "Paramz.IndexOps.view_add_window",
    "Paramz.IndexOps.view_remove_window",
    "Paramz.IndexOps.view_add_unchecked_fails",
    "Paramz.IndexOps.view_clear_window",
    "Paramz.IndexOps.copy_exact"
   ],
   "note": "The claim is about in-window indices; view_add_unchecked_fails shows the view does not check the window."
  },
  {
   "property": "C05",
   "status": "proved",
   "theorems": [
    "Paramz.IndexOps.properties_for_exact",
    "Paramz.IndexOps.properties_dict_for_exact",
    "Paramz.IndexOps.properties_for_owner",
    "Paramz.IndexOps.properties_dict_for_owner"
   ],
   "note": ""
  },
  {
   "property": "C06",
   "status": "proved",
   "theorems": [
    "Paramz.Observer.notify_calls_in_order",
    "Paramz.Observer.callOrder_unique"
   ],
   "note": ""
  },
  {
   "property": "C07",
   "status": "proved",
   "theorems": [
    "Paramz.Observer.remove_observer_exact"
   ],
   "note": ""
  },
  {
   "property": "C08",
   "status": "proved",
   "theorems": [
    "Paramz.Observer.round_undisturbed"
   ],
   "note": ""
  },
  {
   "property": "C09",
   "status": "partial",
   "theorems": [
    "Paramz.Cache.cached_call_coherent_partial",
    "Paramz.Cache.cached_call_coherent_writes_partial",
    "Paramz.Cache.keyword_names_fail",
    "Paramz.Cache.view_write_fails",
    "Paramz.Cache.view_eviction_fails",
    "Paramz.Cache.updates_off_fails",
    "Paramz.Cache.limit_zero_fails"
   ],
   "note": "Coherent for all histories without views of observable arrays, with limit != 0 and when calls of equally many inputs are spelled alike; each excluded case has a witness."
  },
  {
   "property": "C10",
   "status": "proved",
   "theorems": [
    "Paramz.Cache.cacher_refines_fifo",
    "Paramz.Cache.cache_contents_exact"
   ],
   "note": "For limit >= 1 and objects that do not share observer lists."
  },
  {
   "property": "C11",
   "status": "proved",
   "theorems": [
    "Paramz.Cache.no_recompute"
   ],
   "note": ""
  },
  {
   "property": "C12",
   "status": "partial",
   "theorems": [
    "Paramz.Cache.registered_exactly_partial",
    "Paramz.Cache.view_eviction_fails"
   ],
   "note": "Proved when objects do not share observer lists; views of observable arrays share one, and then eviction of the view unregisters the array (witness)."
  },
  {
   "property": "C13",
   "status": "proved",
   "theorems": [
    "Paramz.Cache.cache_id_unambiguous",
    "Paramz.Cache.keyword_order_irrelevant"
   ],
   "note": ""
  },
  {
   "property": "C14",
   "status": "proved",
   "theorems": [
    "Paramz.Cache.failing_operation_clean",
    "Paramz.Cache.empty_cache_recomputes"
   ],
   "note": ""
  },
  {
   "property": "C15",
   "status": "proved",
   "theorems": [
    "Paramz.Transform.transformed_in_domain"
   ],
   "note": "Over the reals; floats can round onto the boundary."
  },
  {
   "property": "C16",
   "status": "partial",
   "theorems": [
    "Paramz.Transform.f_finv_partial",
    "Paramz.Transform.logexp_f_finv_small",
    "Paramz.Transform.negExponent_f_finv_fails",
    "Paramz.Transform.exponent_clips_fails"
   ],
   "note": "All classes but NegativeExponent, for which f(finv(y)) = 1/y."
  },
  {
   "property": "C17",
   "status": "partial",
   "theorems": [
    "Paramz.Transform.finv_f_partial",
    "Paramz.Transform.negExponent_finv_f_fails",
    "Paramz.Transform.square_finv_f_fails",
    "Paramz.Transform.logexp_step_fails"
   ],
   "note": "All classes but NegativeExponent (reads back -x) and Square at negative values (reads back |x|)."
  },
  {
   "property": "C18",
   "status": "partial",
   "theorems": [
    "Paramz.Transform.gradfactor_chain_rule_partial",
    "Paramz.Transform.negExponent_gradfactor_fails",
    "Paramz.Transform.square_gradfactor_fails"
   ],
   "note": "All classes but NegativeExponent (wrong sign everywhere) and Square at negative values (wrong sign)."
  },
  {
   "property": "C19",
   "status": "proved",
   "theorems": [
    "Paramz.Transform.initialize_sound",
    "Paramz.Transform.initialize_logistic_middle",
    "Paramz.Transform.initialize_zero_fails"
   ],
   "note": "initialize_zero_fails: the boundary value 0 is kept although it has no finite optimiser value."
  },
  {
   "property": "C20",
   "status": "proved",
   "theorems": [
    "Paramz.Transform.log_jacobian_exact",
    "Paramz.Transform.log_jacobian_grad_exact",
    "Paramz.Transform.negExponent_log_jacobian_fails"
   ],
   "note": "For Logexp and Exponent as claimed; NegativeExponent inherits an unusable log_jacobian."
  },
  {
   "property": "C21",
   "status": "proved",
   "theorems": [
    "Paramz.Singleton.one_object_per_class",
    "Paramz.Singleton.one_logistic_per_bounds",
    "Paramz.Singleton.logistic_succeeds",
    "Paramz.Singleton.logistic_halfbuilt_fails",
    "Paramz.Singleton.unpickle_duplicates_fails"
   ],
   "note": "For constructor calls; unpickling makes duplicates (witness)."
  },
  {
   "property": "C22",
   "status": "partial",
   "theorems": [
    "Paramz.Hier.Heap.link_keeps_param_partial",
    "Paramz.Hier.Heap.link_keeps_linked_partial",
    "Paramz.Hier.Heap.link_links",
    "Paramz.Hier.Heap.constraints_from_leaves",
    "Paramz.Hier.Heap.lazy_link_constraints_fails",
    "Paramz.Hier.Heap.lazy_nested_link_fails"
   ],
   "note": "For every history of good requests and every position. Not covered: linking below a root that was built with initialize=False and not initialised yet (witness of lost constraints), positions beyond the end of the list."
  },
  {
   "property": "C23",
   "status": "proved",
   "theorems": [
    "Paramz.Hier.Heap.unlink_keeps_param",
    "Paramz.Hier.Heap.unlink_keeps_unlinked",
    "Paramz.Hier.Heap.unlink_separates"
   ],
   "note": "In every state reached by a history of good requests (LinkOK)."
  },
  {
   "property": "C24",
   "status": "proved",
   "theorems": [
    "Paramz.Hier.Heap.size_is_sum",
    "Paramz.Hier.Heap.offset_is_position",
    "Paramz.Hier.Heap.position_unique",
    "Paramz.Hier.Heap.leaves_tile",
    "Paramz.Hier.Heap.position_beyond_end_fails"
   ],
   "note": "In every state reached by a history of good requests; a position beyond the end of the list breaks it (witness)."
  },
  {
   "property": "C25",
   "status": "partial",
   "theorems": [
    "Paramz.Hier.Heap.forest",
    "Paramz.Hier.Heap.link_decides_partial",
    "Paramz.Hier.Heap.link_child_rejected",
    "Paramz.Hier.Heap.unlink_other_rejected",
    "Paramz.Hier.Heap.link_error_keeps",
    "Paramz.Hier.Heap.no_marks",
    "Paramz.Hier.Heap.link_into_own_child_fails",
    "Paramz.Hier.Heap.link_into_itself_fails",
    "Paramz.Hier.Heap.second_attempt_fails"
   ],
   "note": "The forest is kept by every history of good requests, and it is decided exactly which of them are rejected. Requests to link an object into itself or below itself are not rejected, and a rejected move is accepted when repeated (witnesses)."
  },
  {
   "property": "C26",
   "status": "proved",
   "theorems": [
    "Paramz.Hier.Heap.constrain_exact",
    "Paramz.Hier.Heap.unconstrain_exact",
    "Paramz.Hier.Heap.at_most_one_transformation",
    "Paramz.Hier.Heap.hits_object",
    "Paramz.Hier.Heap.hits_part"
   ],
   "note": "In every state reached by a history of good requests."
  },
  {
   "property": "C27",
   "status": "proved",
   "theorems": [
    "Paramz.Hier.Heap.fix_exact",
    "Paramz.Hier.Heap.unfix_exact",
    "Paramz.Hier.Heap.unfix_fix",
    "Paramz.Hier.Heap.isFixed_iff"
   ],
   "note": "In every state reached by a history of good requests."
  },
  {
   "property": "C28",
   "status": "proved",
   "theorems": [
    "Paramz.Hier.Heap.passed_iff",
    "Paramz.Hier.Heap.mask_exact",
    "Paramz.Hier.Heap.stays_ready",
    "Paramz.Hier.Heap.submodel_mask_fails",
    "Paramz.Hier.Heap.orphan_part_fix_fails"
   ],
   "note": "For the root of a hierarchy, as claimed. It does not extend to sub-models or to a part of a Param without parent (witnesses)."
  },
  {
   "property": "C40",
   "status": "partial",
   "theorems": [
    "Paramz.Hier.Graph.traverse_visits_partial",
    "Paramz.Hier.Graph.traverse_raises",
    "Paramz.Hier.Graph.traverse_parents_visits_partial",
    "Paramz.Hier.Heap.reach_skel",
    "Paramz.Hier.Heap.traverse_marks_left_fails"
   ],
   "note": "Everything but the last clause: after an exception marks stay behind and later traversals skip objects (witness)."
  },
  {
   "property": "C29",
   "status": "proved",
   "theorems": [
    "Paramz.Opt.read_lists_free",
    "Paramz.Opt.size_transformed_exact"
   ],
   "note": "For a read after a change; reads in any history are C32."
  },
  {
   "property": "C30",
   "status": "proved",
   "theorems": [
    "Paramz.Opt.set_keeps_fixed",
    "Paramz.Opt.set_writes_free",
    "Paramz.Opt.set_in_domain"
   ],
   "note": "In every state reached by a history of good requests."
  },
  {
   "property": "C31",
   "status": "partial",
   "theorems": [
    "Paramz.Opt.set_then_read",
    "Paramz.Opt.read_then_set",
    "Paramz.Opt.set_then_read_float_partial",
    "Paramz.Opt.set_then_read_close_partial",
    "Paramz.Opt.read_then_set_float_partial"
   ],
   "note": "Round trips hold wherever the transformations round trip; NegativeExponent and negative values of Square do not (C16, C17)."
  },
  {
   "property": "C32",
   "status": "partial",
   "theorems": [
    "Paramz.Opt.never_stale_partial",
    "Paramz.Opt.update_on_refreshes",
    "Paramz.Opt.stale_after_unconstrain_fails",
    "Paramz.Opt.stale_with_updates_off_fails",
    "Paramz.Opt.stale_after_link_fails",
    "Paramz.Opt.returned_array_shared_fails"
   ],
   "note": "Holds for all histories without unannounced change. unconstrain, linking and anything done with updates off leave a stale array (witnesses)."
  },
  {
   "property": "C33",
   "status": "partial",
   "theorems": [
    "Paramz.Opt.gradient_lists_free_partial",
    "Paramz.Opt.gradient_at_point",
    "Paramz.Opt.gradient_changed_fails",
    "Paramz.Opt.gradient_twice_fails"
   ],
   "note": "First half proved; computing the gradient changes the model gradient in place (proved for all models)."
  },
  {
   "property": "C34",
   "status": "proved",
   "theorems": [
    "Paramz.Opt.transformed_positions",
    "Paramz.Opt.transformed_positions_partition"
   ],
   "note": ""
  },
  {
   "property": "C49",
   "status": "proved",
   "theorems": [
    "Paramz.Opt.randomize_keeps_fixed",
    "Paramz.Opt.randomize_in_domain",
    "Paramz.Opt.randomize_keeps_switch"
   ],
   "note": "For any generator that returns as many finite numbers as it is asked for; fixed elements are kept even otherwise."
  },
  {
   "property": "C37",
   "status": "proved",
   "theorems": [
    "Paramz.Notify.write_updates_ancestors",
    "Paramz.Notify.write_stops_at_off",
    "Paramz.Notify.above_exists"
   ],
   "note": ""
  },
  {
   "property": "C38",
   "status": "proved",
   "theorems": [
    "Paramz.Notify.trigger_update_spec",
    "Paramz.Notify.trigger_update_once",
    "Paramz.Notify.awake_iff"
   ],
   "note": "An object is fixed iff all its elements are, so one without elements is skipped (awake_iff)."
  },
  {
   "property": "C39",
   "status": "partial",
   "theorems": [
    "Paramz.Notify.update_model_switches",
    "Paramz.Notify.update_off_silences_partial",
    "Paramz.Notify.update_on_spec_partial",
    "Paramz.Notify.update_on_root",
    "Paramz.Notify.update_on_skips_siblings_fails",
    "Paramz.Notify.linked_while_off_fails"
   ],
   "note": "Silence proved for everything in the hierarchy at that time and all histories. update_model(True) below the root does not update siblings; objects linked while updates are off are not silent (witnesses)."
  },
  {
   "property": "C41",
   "status": "partial",
   "theorems": [
    "Paramz.Names.connect_unique",
    "Paramz.Names.connect_terminates",
    "Paramz.Names.link_unique_partial",
    "Paramz.Names.append_keeps_names",
    "Paramz.Names.rename_unique",
    "Paramz.Names.reach_unique",
    "Paramz.Names.Settled.keeps",
    "Paramz.Names.Settled.unique",
    "Paramz.Names.link_below_root_fails",
    "Paramz.Names.recursion_limit_fails"
   ],
   "note": "Proved for the root of an initialised hierarchy and all name patterns. A parameter linked into an object below the root is not renamed, and renaming is recursive, so for any interpreter limit there are lists that exceed it (witnesses)."
  },
  {
   "property": "C42",
   "status": "partial",
   "theorems": [
    "Paramz.Names.adjust_identifier_partial",
    "Paramz.Names.adjust_shape",
    "Paramz.Names.adjust_idempotent",
    "Paramz.Names.adjust_keeps_identifiers",
    "Paramz.Names.adjust_newline_fails",
    "Paramz.Names.adjust_keyword_fails"
   ],
   "note": "Idempotence for all strings; identifier unless the name ends in a line break; Python keywords are accepted."
  },
  {
   "property": "C52",
   "status": "partial",
   "theorems": [
    "Paramz.Names.attributes_partial",
    "Paramz.Names.attribute_clash_fails"
   ],
   "note": "No stale attributes, for all histories at the root. Two parameters with different names and equal printed names share one attribute."
  },
  {
   "property": "C43",
   "status": "partial",
   "theorems": [
    "Paramz.Ravel.raveled_selects_partial",
    "Paramz.Ravel.raveled_full",
    "Paramz.Ravel.raveled_basic",
    "Paramz.Ravel.positions_in_order",
    "Paramz.Ravel.position_lt",
    "Paramz.Ravel.position_inj",
    "Paramz.Ravel.ravel_position",
    "Paramz.Ravel.raveled_empty_fails",
    "Paramz.Ravel.raveled_separated_fails",
    "Paramz.Ravel.raveled_chained_fails"
   ],
   "note": "For all shapes, contents and selections by integers, slices and neighbouring index arrays. Empty selections raise, index arrays separated by a slice and indexing an already indexed Param give wrong positions (witnesses)."
  },
  {
   "property": "C53",
   "status": "proved",
   "theorems": [
    "Paramz.Ravel.transformed_spec",
    "Paramz.Ravel.transformed_reads"
   ],
   "note": ""
  },
  {
   "property": "C44",
   "status": "partial",
   "theorems": [
    "Paramz.Concat.setitem_unselected",
    "Paramz.Concat.setitem_selected_partial",
    "Paramz.Concat.setitem_all",
    "Paramz.Concat.parents_spec",
    "Paramz.Concat.first_assignment_updates_partial",
    "Paramz.Concat.setitem_middle_fails",
    "Paramz.Concat.second_assignment_silent_fails"
   ],
   "note": "Whole-parameter (and prefix) selections are exact, and unselected positions always stay; a selection inside a parameter stores wrong values. Only the first assignment updates the parents (iterator used up)."
  },
  {
   "property": "C54",
   "status": "partial",
   "theorems": [
    "Paramz.Concat.getitem_reads_partial",
    "Paramz.Concat.getitem_zero_fails"
   ],
   "note": "Parameters whose selected values are all zero are left out."
  },
  {
   "property": "C45",
   "status": "partial",
   "theorems": [
    "Paramz.Run.failures_spec_partial",
    "Paramz.Run.objective_failures",
    "Paramz.Run.eleventh_raises",
    "Paramz.Run.gradient_failure_fails"
   ],
   "note": "All histories of outcomes; complete for the objective. For gradients the handler computes the gradient again: if that fails the exception is raised at once."
  },
  {
   "property": "C46",
   "status": "partial",
   "theorems": [
    "Paramz.Run.best_run_partial",
    "Paramz.Run.all_failed",
    "Paramz.Run.robust_finishes",
    "Paramz.Run.first_failure_propagates",
    "Paramz.Run.argmin_spec",
    "Paramz.Run.best_run_nan_fails",
    "Paramz.Run.best_run_shared_fails"
   ],
   "note": "All numbers of restarts and outcome sequences if no objective is nan and every run returns an array of its own. A run that returns its start (SCG without an accepted step) shares memory with the model and is overwritten by the next run."
  },
  {
   "property": "C47",
   "status": "proved",
   "theorems": [
    "Paramz.Run.SCG.scg_spec",
    "Paramz.Run.SCG.scg_not_worse",
    "Paramz.Run.SCG.scg_status"
   ],
   "note": "Exact arithmetic in any ordered field, objective values may be infinite or nan; vanishing search directions included."
  },
  {
   "property": "C48",
   "status": "proved",
   "theorems": [
    "Paramz.Run.Lookup.lookup_spec",
    "Paramz.Run.Lookup.lookup_keyError",
    "Paramz.Run.Lookup.lookup_self",
    "Paramz.Run.Lookup.lookup_case",
    "Paramz.Run.Lookup.documented_names_fail"
   ],
   "note": "The documented name 'sgd' does not exist."
  },
  {
   "property": "C50",
   "status": "partial",
   "theorems": [
    "Paramz.Opt.flat_names_partial",
    "Paramz.Opt.flat_names_free_partial",
    "Paramz.Opt.flat_names_distinct",
    "Paramz.Opt.flat_names_empty_fails"
   ],
   "note": "Params with at least one element; an empty Param gets a name and shifts the rest."
  },
  {
   "property": "C51",
   "status": "proved",
   "theorems": [
    "Paramz.Run.Time.time_roundtrip"
   ],
   "note": "Exact arithmetic in any ordered field with floors; rounding is left out."
  },
  {
   "property": "C35",
   "status": "partial",
   "theorems": [
    "Paramz.Memory.State.values_kept_partial",
    "Paramz.Memory.State.link_values_partial",
    "Paramz.Memory.State.unlink_values_partial",
    "Paramz.Memory.State.initialize_values",
    "Paramz.Memory.State.link_values_fails",
    "Paramz.Memory.State.unlink_values_fails",
    "Paramz.Memory.State.emptied_root_fails",
    "Paramz.Memory.State.uninitialised_parts_fails"
   ],
   "note": "All histories of Proper calls, any contents of unused and freed memory. Values below a grandchild of the root are lost when something is linked below it; a root that lost its last parameter overwrites that parameter when one of the same size is linked; parts made with initialize=False lose their values."
  },
  {
   "property": "C36",
   "status": "proved",
   "theorems": [
    "Paramz.Memory.State.write_visible",
    "Paramz.Memory.State.read_same",
    "Paramz.Memory.State.constructed_done",
    "Paramz.Memory.State.done_stays",
    "Paramz.Memory.State.write_visible_uninitialised_fails"
   ],
   "note": "All admissible histories; connected means that the constructor of the object is over and it has been initialised."
  },
  {
   "property": "C55",
   "status": "partial",
   "theorems": [
    "Paramz.Memory.State.separate_params_partial",
    "Paramz.Memory.State.separate_params_fails"
   ],
   "note": "All histories of Proper calls. Two Params share memory after one of them was the last to leave a root and the other, of the same size, was linked next."
  },
  {
   "property": "C56",
   "status": "partial",
   "theorems": [
    "Paramz.Opt.gradient_is_derivative_partial",
    "Paramz.Opt.gradient_is_derivative_fails"
   ],
   "note": "All hierarchies, objectives and vectors where C18 holds; up to 2.4e-16 relative where Logexp switches branches. NegativeExponent hands out the negative of the derivative."
  },
  {
   "property": "C57",
   "status": "partial",
   "theorems": [
    "Paramz.Opt.checkgrad_keeps_values_partial",
    "Paramz.Opt.checkgrad_keeps_floats_partial",
    "Paramz.Opt.checkgrad_keeps_values_fails"
   ],
   "note": "Quick and verbose, all parts; values for which f(finv(v)) = v (C16) and copies that are up to date (C32). Values constrained by NegativeExponent become their reciprocal."
  },
  {
   "property": "C58",
   "status": "partial",
   "theorems": [
    "Paramz.Opt.verbose_answer",
    "Paramz.Opt.verbose_accepts",
    "Paramz.Opt.verbose_detects",
    "Paramz.Opt.quick_check_partial",
    "Paramz.Opt.quick_two_fails",
    "Paramz.Opt.quick_two_wrong_fails",
    "Paramz.Opt.quick_zero_fails",
    "Paramz.Opt.quick_right_fails"
   ],
   "note": "Complete for the verbose check in exact arithmetic. The quick check accepts wrong and rejects right gradients: witnesses."
  },
  {
   "property": "C59",
   "status": "partial",
   "theorems": [
    "Paramz.Hier.Heap.copy_shape",
    "Paramz.Hier.Heap.copy_constraints",
    "Paramz.Hier.Heap.copy_keeps_original",
    "Paramz.Hier.Heap.copy_independent",
    "Paramz.Hier.Heap.copy_alike",
    "Paramz.Hier.Heap.copy_mask_partial",
    "Paramz.Hier.Heap.copy_reach",
    "Paramz.Hier.Heap.Calm.clean",
    "Paramz.Hier.Heap.copy_param_mask_fails",
    "Paramz.Hier.Heap.copy_parents_fails"
   ],
   "note": "All histories, with copies among the calls; complete when no earlier call raised and the copied object is a Parameterized. The copy of a Param loses its mask; marks left by a rejected link make the copy keep its parents."
  },
  {
   "property": "C60",
   "status": "proved",
   "theorems": [
    "Paramz.Memory.State.copy_values",
    "Paramz.Memory.State.copy_array_values",
    "Paramz.Memory.State.copy_initialised",
    "Paramz.Memory.State.copy_keeps_values",
    "Paramz.Memory.State.copy_separate",
    "Paramz.Hier.Heap.Calm.clean"
   ],
   "note": "All histories, with copies among the calls; CopyOK holds for all objects when no call raised (Calm.clean). C35, C36 and C55 hold for histories with copies too."
  },
  {
   "property": "C61",
   "status": "partial",
   "theorems": [
    "Paramz.Select.grep_found",
    "Paramz.Select.grep_root_partial",
    "Paramz.Select.flattened_spec",
    "Paramz.Select.setItem_assigns",
    "Paramz.Select.setItem_number_partial",
    "Paramz.Select.setItem_number_raises",
    "Paramz.Select.grep_below_root_fails",
    "Paramz.Select.grep_bad_name_fails"
   ],
   "note": "All hierarchies, names, regular expressions (any predicate on names). Exact for every object with names that start below the root, so relative to m only if m is the root: m.rbf['variance'] finds nothing. A name that cannot be printed raises NameError and leaves visit marks."
  },
  {
   "property": "C62",
   "status": "partial",
   "theorems": [
    "Paramz.Run.SCG.given_partial",
    "Paramz.Run.SCG.given_shared",
    "Paramz.Run.SCG.given_fails",
    "Paramz.Run.SCG.scg_own_partial",
    "Paramz.Run.SCG.shared_theta",
    "Paramz.Run.SCG.shared_descent",
    "Paramz.Run.SCG.shared_fails"
   ],
   "note": "Holds with fixed parameters. Without them every gradient handed out is the gradient array of the model: all read the same, and SCG is gradient descent without conjugate directions or curvature (shared_descent, shared_theta)."
  },
  {
   "property": "C63",
   "status": "partial",
   "theorems": [
    "Paramz.Run.Records.optimize_records_partial",
    "Paramz.Run.Records.no_record",
    "Paramz.Run.Records.runs_history_partial",
    "Paramz.Run.Records.restarts_best_partial",
    "Paramz.Run.Records.reused_fails",
    "Paramz.Run.Records.reused_best_fails",
    "Paramz.Run.Records.climin_fails",
    "Paramz.Run.Records.climin_restarts_fails",
    "Paramz.Run.Records.undocumented_fails"
   ],
   "note": "All histories in which no optimiser object is used twice, with TNC, L-BFGS-B, BFGS, simplex, SCG ending with a code that has a message. The objective is a function of the point (no numerical failures, C45)."
  },
  {
   "property": "C64",
   "status": "partial",
   "theorems": [
    "Paramz.Ridge.ridge_gradient_partial",
    "Paramz.Ridge.objective_gradient",
    "Paramz.Ridge.objective_above",
    "Paramz.Ridge.phi_sum",
    "Paramz.Ridge.basis_fails",
    "Paramz.Ridge.outputs_fails"
   ],
   "note": "Over the reals, all bases, data, degrees and histories. Updating the basis alone adds to the old gradient; as many outputs as inputs (more than one) are accepted with a wrong gradient."
  },
  {
   "property": "C65",
   "status": "partial",
   "theorems": [
    "Paramz.Notify.told_partial",
    "Paramz.Notify.fresh_partial",
    "Paramz.Notify.fresh_after_update_on_partial",
    "Paramz.Notify.registered_stays",
    "Paramz.Notify.fixed_not_told_fails",
    "Paramz.Notify.off_fixed_fails",
    "Paramz.Notify.lowest_not_told_fails",
    "Paramz.Notify.link_not_told_fails"
   ],
   "note": "All hierarchies and histories. Fails for Params that are wholly fixed when a node above is assigned to or updates are switched back on, for observers of priority -inf, and linking/unlinking tells nobody."
  },
  {
   "property": "C66",
   "status": "partial",
   "theorems": [
    "Paramz.Opt.optimize_scg_partial",
    "Paramz.Opt.optimize_any",
    "Paramz.Opt.answers_depend_on_x",
    "Paramz.Opt.optimize_calls",
    "Paramz.Opt.optimize_in_domain",
    "Paramz.Opt.grads_finite",
    "Paramz.Opt.optimize_worse_fails"
   ],
   "note": "SCG composed with the model of transformations and fixing, over the reals, all hierarchies with one constraint per element, all objectives; initial values finite and within the limits where inverses are exact (C16). Fails for NegativeExponent and others of C16: the starting point is read as another one, and the model can end worse."
  },
  {
   "property": "C67",
   "status": "partial",
   "theorems": [
    "Paramz.Opt.restarts_scg_partial"
   ],
   "note": "As C66, for objectives that are never nan and models with at least one fixed element; without these C46's witnesses apply."
  },
  {
   "property": "C68",
   "status": "partial",
   "theorems": [
    "Paramz.Switch.off_decorated",
    "Paramz.Switch.on_decorated",
    "Paramz.Switch.on_from_start",
    "Paramz.Switch.runs_on_self",
    "Paramz.Switch.attribute_partial",
    "Paramz.Switch.made_off",
    "Paramz.Switch.off_clears",
    "Paramz.Switch.copied_attribute_fails",
    "Paramz.Switch.copy_runs_original_fails",
    "Paramz.Switch.replaced_fails",
    "Paramz.Switch.copy_forgets_fails",
    "Paramz.Switch.linked_later_fails",
    "Paramz.Switch.explicit_off_fails"
   ],
   "note": "Decorated methods: proved for all histories. Cachers in attributes: unless another cacher was made for the method, which copying does too. Copies forget the switch, cachers in attributes of copies run the original's method, objects linked later are not switched."
  },
  {
   "property": "C69",
   "status": "partial",
   "theorems": [
    "Paramz.Notify.cached_partial",
    "Paramz.Notify.cached_in_update_partial",
    "Paramz.Notify.told_before_partial",
    "Paramz.Notify.below_same",
    "Paramz.Notify.call_call",
    "Paramz.Notify.linked_stale_fails",
    "Paramz.Notify.fixed_stale_fails",
    "Paramz.Notify.off_stale_fails",
    "Paramz.Notify.parent_in_update_fails",
    "Paramz.Notify.sibling_in_update_fails"
   ],
   "note": "Proved for all histories with updates on that do not link or unlink below the object. Linking below the object, assigning through a node to a wholly fixed object, and changes while updates are off leave the old result; inside parameters_changed of a sibling or of an object below, the old result is returned."
  },
  {
   "property": "C70",
   "status": "partial",
   "theorems": [
    "Paramz.Hier.Heap.load_shape",
    "Paramz.Hier.Heap.load_keeps",
    "Paramz.Hier.Heap.load_constraints",
    "Paramz.Hier.Heap.load_mask_partial",
    "Paramz.Hier.Heap.load_independent",
    "Paramz.Memory.State.load_values",
    "Paramz.Memory.State.load_array_values",
    "Paramz.Memory.State.load_one_array",
    "Paramz.Memory.State.load_keeps_values",
    "Paramz.Memory.State.load_separate",
    "Paramz.Hier.Heap.load_part_fails",
    "Paramz.Hier.Heap.load_release_fails",
    "Paramz.Hier.Heap.load_param_mask_fails"
   ],
   "note": "All histories, for models saved as a whole: shape, values, constraints, memory. A part of a model can be saved but never loaded; a Param loaded on its own has no mask; taking the fixing off a parameter of a loaded model with unconstrain() or constrain leaves it out of the optimiser."
  },
  {
   "property": "C71",
   "status": "partial",
   "theorems": [
    "Paramz.ObsArray.observed_partial",
    "Paramz.ObsArray.known_partial",
    "Paramz.ObsArray.observers_in_order",
    "Paramz.ObsArray.only_observers",
    "Paramz.ObsArray.one_round",
    "Paramz.ObsArray.off_silent",
    "Paramz.ObsArray.copy_alone",
    "Paramz.ObsArray.part_values",
    "Paramz.ObsArray.inplacePart_values",
    "Paramz.ObsArray.silent_part_fails",
    "Paramz.ObsArray.loud_part_fails",
    "Paramz.ObsArray.copy_told_fails",
    "Paramz.ObsArray.early_round_fails",
    "Paramz.ObsArray.again_fails",
    "Paramz.ObsArray.past_observers_fails"
   ],
   "note": "All histories of proper operations through arrays with updates on. A part keeps the switch it was made with; copies made by indexing share the observers; ObsAr(a) loses them; ObsAr(a.values) and a.values bypass them."
  },
  {
   "property": "C72",
   "status": "partial",
   "theorems": [
    "Paramz.ObsArray.cached_array_partial",
    "Paramz.ObsArray.store_limit",
    "Paramz.ObsArray.part_write_stale_fails",
    "Paramz.ObsArray.whole_write_stale_fails",
    "Paramz.ObsArray.part_evicted_fails"
   ],
   "note": "All histories in which an array and its parts do not mix. Otherwise results stay out of date: a write through a part, a write through the whole when the result is for a part, and every write after the result for a part was dropped."
  },
  {
   "property": "C73",
   "status": "partial",
   "theorems": [
    "Paramz.Concat.several_constraints",
    "Paramz.Concat.several_values",
    "Paramz.Concat.several_reach",
    "Paramz.Concat.several_raises",
    "Paramz.Concat.several_updates_partial",
    "Paramz.Concat.fix_half_fails",
    "Paramz.Concat.fixed_again_fails"
   ],
   "note": "Constraints, values and mask for all calls that do not raise; only fix with a value of the wrong shape raises, and then half of the parameters have been changed. c.constrain('fixed') updates nothing when c has been used before."
  },
  {
   "property": "C74",
   "status": "partial",
   "theorems": [
    "Paramz.Run.Messages.messages_same_partial",
    "Paramz.Run.Messages.display_removed",
    "Paramz.Run.Messages.printed",
    "Paramz.Run.Messages.printed_current_partial",
    "Paramz.Run.Messages.printed_lags",
    "Paramz.Run.Messages.last_gradient",
    "Paramz.Run.Messages.failed_start_breaks",
    "Paramz.Run.Messages.printed_fails",
    "Paramz.Run.Messages.printed_gradient_fails",
    "Paramz.Run.Messages.messages_same_fails",
    "Paramz.Run.Messages.failed_start_fails",
    "Paramz.Run.Messages.messages_restarts_fails",
    "Paramz.Notify.display_before_update"
   ],
   "note": "The same model, result and observers when the objective can be computed at the beginning and in the middle of an update; removal of the display without that assumption once the run has started. The code violates the rest: what is shown is the state before the model's own update, a failing first evaluation leaves the display registered for good, and every line printed uses up a random number."
  },
  {
   "property": "C75",
   "status": "partial",
   "theorems": [
    "Paramz.Print.table_truthful_partial",
    "Paramz.Print.trail_inj",
    "Paramz.Print.elements_truthful_partial",
    "Paramz.Print.elements_whole",
    "Paramz.Print.table_empty_fails",
    "Paramz.Print.elements_empty_fails",
    "Paramz.Print.elements_chained_fails",
    "Paramz.Print.elements_separated_fails"
   ],
   "note": "Both tables for parameters with elements, and parts given by integers, slices and adjoining integer arrays. The code violates the rest: one Param without elements makes the table of the whole model raise, and tables of parts of parts, or of parts by separated integer arrays, show indices and constraints of other elements."
  },
  {
   "property": "C76",
   "status": "partial",
   "theorems": [
    "Paramz.Opt.stays_in_domain_partial",
    "Paramz.Opt.transformations_land",
    "Paramz.Opt.constrained_values_valid_partial",
    "Paramz.Opt.constrain_copy_fails",
    "Paramz.Opt.write_outside_fails",
    "Paramz.Memory.State.life_in_domain_partial",
    "Paramz.Memory.State.life_values_valid_partial"
   ],
   "note": "Every history of calls on objects and on parts that share memory, direct writes only of values in the domain; over exact reals; with linking, unlinking and copying in between as far as these keep values (C35). The code violates the rest: constraining p[[0, 2]] puts the constraint on the model but corrects only a copy of the values, and direct writes are not looked at."
  },
  {
   "property": "C77",
   "status": "partial",
   "theorems": [
    "Paramz.Opt.set_part",
    "Paramz.Opt.randomize_part",
    "Paramz.Opt.read_part",
    "Paramz.Opt.read_param_partial",
    "Paramz.Opt.unfixed_part",
    "Paramz.Opt.read_history_partial",
    "Paramz.Opt.read_after_set_partial",
    "Paramz.Opt.set_part_seen",
    "Paramz.Opt.part_roundtrip",
    "Paramz.Opt.param_lists_fixed_fails",
    "Paramz.Opt.param_roundtrip_fails",
    "Paramz.Opt.param_stale_fails",
    "Paramz.Opt.part_mask_fails",
    "Paramz.Opt.part_unconstrain_fails",
    "Paramz.Opt.part_fixed_fails",
    "Paramz.Opt.part_off_fails"
   ],
   "note": "Setting and randomising: proved for every object, node or Param, at any depth. Reading: proved for nodes along every history in which updates stay on, no transformation of the node is removed by unconstrain, a wholly fixed node is not written to from above, and the node's fixes stay once it has stored a mask. Each of these conditions is needed, and Params list their fixed elements and are never told of changes (seven witnesses)."
  },
  {
   "property": "C78",
   "status": "partial",
   "theorems": [
    "Paramz.Memory.State.read_by_params_partial",
    "Paramz.Memory.State.set_by_params_partial",
    "Paramz.Memory.State.moved_read_partial",
    "Paramz.Memory.State.moved_permutes_partial",
    "Paramz.Memory.State.set_moved_read_partial",
    "Paramz.Memory.State.copied_read",
    "Paramz.Memory.State.moved_read_fails",
    "Paramz.Opt.stale_after_link_fails"
   ],
   "note": "Proved for all histories whose calls keep values (the conditions of C35) and for reads after the model was told of a change. Missing: linking or unlinking deep in a hierarchy destroys values (C35), and linking itself tells nobody, so a read directly after it may return uninitialised memory (witnesses)."
  },
  {
   "property": "C79",
   "status": "partial",
   "theorems": [
    "Paramz.Observer.remove_by_equality",
    "Paramz.Observer.remove_raised_keeps",
    "Paramz.Observer.remove_by_identity_partial",
    "Paramz.Observer.called_by_identity_partial",
    "Paramz.Observer.array_observer_fails",
    "Paramz.Observer.bystander_fails",
    "Paramz.Observer.equal_value_fails",
    "Paramz.Observer.nan_fails",
    "Paramz.Observer.change_priority_fails"
   ],
   "note": "The exact effect is proved for an arbitrary ==; the claim itself holds for histories in which == of the removed observers agrees with identity. Missing, with witnesses: arrays of two or more elements (ValueError, also for other observers of that priority), equal numbers (another registration is lost), not-a-number (nothing is removed)."
  },
  {
   "property": "C80",
   "status": "partial",
   "theorems": [
    "Paramz.Hier.Multi.plain_as_before_partial",
    "Paramz.Hier.Multi.link_keeps_names_partial",
    "Paramz.Hier.Multi.unlink_keeps_names_partial",
    "Paramz.Hier.Multi.names_from_leaves_partial",
    "Paramz.Hier.Multi.set_exact_partial",
    "Paramz.Hier.Multi.unset_exact_partial",
    "Paramz.Hier.Multi.constraining_keeps_names",
    "Paramz.Hier.Multi.at_most_one_partial",
    "Paramz.Hier.Multi.copy_has_names_partial",
    "Paramz.Hier.Multi.copy_names_independent_partial",
    "Paramz.Hier.Multi.missing_name_raises",
    "Paramz.Hier.Multi.add_keeps",
    "Paramz.Hier.Multi.missing_name_fails",
    "Paramz.Hier.Multi.extra_name_fails"
   ],
   "note": "Proved for histories in which all objects have the same names. Missing, with witnesses: a parameter without a name of the new parent (KeyError after the constraints and properties of the parameters already linked have been moved), a parameter with a name the parent lacks (KeyError after it has been linked; the name and its properties are lost). add_index_operation on an object that is already linked and loading are not part of these histories."
  },
  {
   "property": "C81",
   "status": "partial",
   "theorems": [
    "Paramz.Select.aug_item_partial",
    "Paramz.Select.aug_number_partial",
    "Paramz.Select.aug_number_raises",
    "Paramz.Select.aug_positions",
    "Paramz.Select.aug_attr",
    "Paramz.Select.augVar_values",
    "Paramz.Select.aug_updates_partial",
    "Paramz.Select.aug_one_updates",
    "Paramz.Select.updated_twice_fails",
    "Paramz.Select.uninitialised_fails",
    "Paramz.Select.only_part_fails",
    "Paramz.Select.one_position_fails",
    "Paramz.Select.variable_lost_fails",
    "Paramz.Select.attr_bad_name_fails"
   ],
   "note": "Values exact for initialised objects of all hierarchies with printable names; names are relative to the root (as in C61). Missing, with witnesses: objects not yet initialised (raises after the change), a part as the only match and single positions (TypeError), recalculation happens twice or more, a variable holding a concatenation becomes None, m.name op= c raises after the change if a sibling's name cannot be printed."
  },
  {
   "property": "C82",
   "status": "partial",
   "theorems": [
    "Paramz.Memory.State.gradient_window",
    "Paramz.Memory.State.gradient_parts",
    "Paramz.Memory.State.gradient_set",
    "Paramz.Memory.State.gradient_set_self",
    "Paramz.Memory.State.gradient_set_raises",
    "Paramz.Memory.State.gradient_separate_partial",
    "Paramz.Memory.State.gradient_kept_partial",
    "Paramz.Memory.State.gradient_lost_fails",
    "Paramz.Memory.State.gradient_uninitialised_fails",
    "Paramz.Memory.State.gradient_part_freed_fails",
    "Paramz.Memory.State.gradient_copy_apart",
    "Paramz.Memory.State.gradient_load_apart",
    "Paramz.Memory.State.gradient_load_parts"
   ],
   "note": "Sharing and assignment for all histories. Separation and keeping under the conditions of C35 (calls Proper, Params not AtRisk); beyond them gradients are lost as values are (gradient_lost_fails). Witnesses: an object that is not initialised has no gradient to assign to; an array made from the gradient of a Param before it is connected is left with freed memory. Histories include copies, whose gradients are new arrays (gradient_copy_apart). A model loaded after any such history: gradient_load_apart, gradient_load_parts; calls on the loaded model other than assignments to gradients are not covered."
  },
  {
   "property": "C83",
   "status": "partial",
   "theorems": [
    "Paramz.Names.World.attributes_are_parameters_partial",
    "Paramz.Names.World.call_makes_neat",
    "Paramz.Names.World.call_keeps_neat",
    "Paramz.Names.World.built_neat",
    "Paramz.Names.World.call_returns",
    "Paramz.Names.World.bad_name_linked",
    "Paramz.Names.World.bad_name_raises",
    "Paramz.Names.World.left_over_refused",
    "Paramz.Names.World.below_root_fails",
    "Paramz.Names.World.moved_attribute_fails",
    "Paramz.Names.World.left_over_attribute_fails"
   ],
   "note": "Soundness of attributes for all histories, with exceptions, in which no object is renamed that a raising unlink has left over (left_over_attribute_fails). Different names and found attributes for all histories in which parameters are linked to objects without parent that are initialised or in their constructor, and no call raised; below an initialised root linking neither renames nor adds attributes (below_root_fails), and moving a parameter there loses its attribute (moved_attribute_fails). call_makes_neat and call_keeps_neat say for every call which objects are in order. A name that cannot be printed is linked although the call raises, and every later call on that object raises (bad_name_linked, bad_name_raises). call_returns supposes that nothing is linked below itself."
  },
  {
   "property": "C84",
   "status": "partial",
   "theorems": [
    "Paramz.Cache.recursive_call_coherent_partial",
    "Paramz.Cache.recursive_call_constant_partial",
    "Paramz.Cache.noSelf_of_positional",
    "Paramz.Cache.full_cache_fails",
    "Paramz.Cache.caught_exception_fails",
    "Paramz.Cache.ignored_argument_fails"
   ],
   "note": "With writes: if there is room for all inputs in play (or the limit is negative) and inner calls do not raise; without writes: for every limit other than 0 and with inner exceptions. The full claim is false: a full cache throws the outer entry out while it is renewed and it comes back without observers (full_cache_fails), an inner exception that is caught does the same (caught_exception_fails), recursion over an ignored argument puts a key into the queue twice and a later call raises KeyError (ignored_argument_fails). No call may lead to a call with the same inputs; for positional arguments without ignored ones this follows from returning (noSelf_of_positional). As in C09: calls with equally many inputs are spelled alike, no views, limit not 0. The body sees the contents of objects and does not write to them."
  },
  {
   "property": "C85",
   "status": "partial",
   "theorems": [
    "Paramz.Opt.parallel_scg_partial",
    "Paramz.Opt.parallel_agrees",
    "Paramz.Run.parallel_best",
    "Paramz.Run.parallel_raises",
    "Paramz.Run.parallel_interrupted",
    "Paramz.Run.parallel_keeps",
    "Paramz.Run.parallel_robust_fails",
    "Paramz.Run.parallel_nothing_fails"
   ],
   "note": "With SCG, values within the limits of C16 and objectives that are never nan (as C67), when no job raises; for any optimiser at the level of results: Run.parallel_best, parallel_raises, parallel_interrupted, parallel_keeps. The full claim is false: robust=True does not skip a job that raises, the whole call raises (parallel_robust_fails); with nothing to optimise the call raises AttributeError after appending None to optimization_runs (parallel_nothing_fails). Agreement with the serial variant assumes a fixed element, because without one serial records share memory with the model (C67). Workers get their copy by pickling; that the optimiser sees no difference is C78."
  },
  {
   "property": "C86",
   "status": "partial",
   "theorems": [
    "Paramz.Run.Failing.failing_run_returns",
    "Paramz.Run.Failing.failing_run_status",
    "Paramz.Run.Failing.failing_run_raises_partial",
    "Paramz.Run.Failing.few_failures_return",
    "Paramz.Run.Failing.objective_tolerated",
    "Paramz.Run.Failing.objective_refused",
    "Paramz.Run.Failing.grads_answers",
    "Paramz.Run.Failing.no_failures",
    "Paramz.Run.Failing.left_at_failure_fails",
    "Paramz.Run.Failing.stale_gradient_fails",
    "Paramz.Run.Failing.optimum_raises_fails"
   ],
   "note": "Proved for SCG run against the model as it is, with its arrays and failure count; no_failures is a refinement: without failures it is the SCG of C47. The full claim is false: an exception leaves the model at the failing point (left_at_failure_fails), the gradient handed out after a failure has the factors of the constraints applied once more with every failure (stale_gradient_fails), and a run that starts at an exact optimum asks at nan until the model has failed too often (optimum_raises_fails)."
  },
  {
   "property": "C87",
   "status": "partial",
   "theorems": [
    "Paramz.Memory.State.kept_part_values_partial",
    "Paramz.Memory.State.kept_part_calls_partial",
    "Paramz.Memory.State.kept_part_constraints",
    "Paramz.Memory.State.kept_part_detached",
    "Paramz.Memory.State.kept_part_stale_fails",
    "Paramz.Memory.State.kept_part_memory_fails",
    "Paramz.Memory.State.kept_part_fix_fails",
    "Paramz.Memory.State.kept_part_orphan_fails",
    "Paramz.Memory.State.kept_part_index_fails"
   ],
   "note": "Proved for all histories that do not change the hierarchy the parameter is in; the constraints (not the mask) are right after any history. False when something is linked or unlinked in that hierarchy: kept_part_detached shows in general that the part has lost the parameter, the witnesses that it may set the wrong mask entries, none, or raise IndexError."
  },
  {
   "property": "C88",
   "status": "partial",
   "theorems": [
    "Paramz.Names.Desk.attribute_write_partial",
    "Paramz.Names.Desk.parameter_write",
    "Paramz.Names.Desk.attribute_read",
    "Paramz.Names.Desk.attribute_plain",
    "Paramz.Names.Desk.stored_parameter_partial",
    "Paramz.Names.Desk.clash_fails",
    "Paramz.Names.Desk.renamed_fails",
    "Paramz.Names.Desk.hidden_fails"
   ],
   "note": "All histories of names and attributes; values after other calls are arbitrary. False where printed names clash (m.a_b reads one parameter and m.a_b = v assigns another), where a stored parameter was renamed (the assignment replaces the attribute), and where an attribute stored before hides a parameter."
  },
  {
   "property": "C89",
   "status": "partial",
   "theorems": [
    "Paramz.Select.save_holds_partial",
    "Paramz.Select.save_returns_iff",
    "Paramz.Select.save_load_partial",
    "Paramz.Select.save_param",
    "Paramz.Select.save_clash_fails",
    "Paramz.Select.save_whole_clash_fails",
    "Paramz.Select.save_uninitialised_fails",
    "Paramz.Select.save_marks_fails"
   ],
   "note": "All hierarchies of initialised objects without left-over visit marks. save_returns_iff says exactly which models can be saved. False: names that differ only in dot and underscore, or a parameter called param_array (TypeError); objects that are not initialised (memory contents are saved); visit marks left by a search that raised (values are saved under the names of other parameters)."
  },
  {
   "property": "C90",
   "status": "partial",
   "theorems": [
    "Paramz.Notify.Site.raise_leaves",
    "Paramz.Notify.Site.raise_keeps_updates_on",
    "Paramz.Notify.Site.assign_raises",
    "Paramz.Notify.Site.returns_current",
    "Paramz.Notify.Site.never_raises_current",
    "Paramz.Notify.Site.retry_current",
    "Paramz.Notify.Site.recovered",
    "Paramz.Notify.Site.failed_attempts_no_trace",
    "Paramz.Notify.Site.optimizer_current_partial",
    "Paramz.Notify.Site.stale_array_fails",
    "Paramz.Notify.Site.still_behind_fails",
    "Paramz.Notify.Site.fixed_behind_fails"
   ],
   "note": "Exceptions of parameters_changed and of callbacks; transformations do not raise. The array is never stale if only the root raises (optimizer_current_partial). False: if an object below the root raises, the root's optimizer_array stays that of the old values and setting it to itself takes the assignment back (stale_array_fails); later assignments to other parameters return although the object is still behind (still_behind_fails); updating the root does not reach objects all of whose elements are fixed (fixed_behind_fails)."
  },
  {
   "property": "C91",
   "status": "partial",
   "theorems": [
    "Paramz.Memory.State.optimize_within",
    "Paramz.Memory.State.optimize_alike_partial",
    "Paramz.Memory.State.copy_alike",
    "Paramz.Memory.State.copy_apart",
    "Paramz.Memory.State.copy_later",
    "Paramz.Memory.State.moved_alike_partial",
    "Paramz.Memory.State.stale_start_fails",
    "Paramz.Memory.State.load_alike",
    "Paramz.Memory.State.load_apart",
    "Paramz.Memory.Bench.failing_within",
    "Paramz.Memory.Bench.failing_alike_partial",
    "Paramz.Memory.Bench.failing_copy_alike_partial",
    "Paramz.Memory.Bench.failing_load_alike_partial",
    "Paramz.Memory.Bench.never_failing",
    "Paramz.Memory.Bench.failing_objective",
    "Paramz.Memory.Bench.tired_start_fails",
    "Paramz.Memory.Bench.other_gradient_fails"
   ],
   "note": "Optimisers are trees of questions and answers. Proved for copies, loaded models and any equal models, with evaluations that raise (C45). The exceptions are false: the optimiser's array of the original is not up to date (C32, stale_start_fails); an earlier run ended with an exception, so that _fail_count is not that of the equal model (tired_start_fails; a copy takes it along); the gradient array was left transformed and the next parameters_changed raises before it sets the gradient (other_gradient_fails)."
  },
  {
   "property": "C92",
   "status": "partial",
   "theorems": [
    "Paramz.Opt.watching_with_fixes",
    "Paramz.Opt.watching_partial",
    "Paramz.Opt.watching_failures_with_fixes",
    "Paramz.Opt.watching_failures_partial",
    "Paramz.Opt.attempt_as_call",
    "Paramz.Opt.gradients_without_objective",
    "Paramz.Opt.watching_scg_fails"
   ],
   "note": "With fixes it holds for every optimiser. Without fixes the optimiser is given the stored array of the model itself, which every read refreshes: it holds for optimisers that copy their start and for those that work in it and evaluate only where they stand, and is false for SCG (watching_scg_fails). The theorems with failures in their names are the same for models whose evaluations may fail at some points, with updates on; attempt_as_call: evaluations give what they give according to C45, and count failures in the same way; gradients are given also where only the objective raises (gradients_without_objective)."
  },
  {
   "property": "C93",
   "status": "partial",
   "theorems": [
    "Paramz.Memory.Box.model_is_sheet_partial",
    "Paramz.Memory.Box.other_sheets",
    "Paramz.Memory.Box.same_sheet_alike",
    "Paramz.Memory.Box.copy_behaves",
    "Paramz.Memory.State.exists_sheet",
    "Paramz.Memory.State.IsSheet.unique",
    "Paramz.Memory.State.sheet_stale_fails"
   ],
   "note": "Refinement: the hierarchy with its memory, index dictionaries and masks is a refinement of the list (`Sheet`, a separate specification without hierarchy). Excluded: looking at `optimizer_array` after constraints were removed without any announced change (C32, false there: sheet_stale_fails); parts obtained by integer arrays when they are constrained or assigned through the part object (they are copies); updates switched off; evaluations that raise; changes of the hierarchy in between (C35, C78)."
  },
  {
   "property": "C94",
   "status": "partial",
   "theorems": [
    "Paramz.Memory.State.link_pastes_partial",
    "Paramz.Memory.State.link_leaves_partial",
    "Paramz.Memory.State.unlink_cuts_partial",
    "Paramz.Memory.State.unlink_leaves_partial",
    "Paramz.Memory.State.link_moves_partial",
    "Paramz.Memory.State.link_shuffles_partial",
    "Paramz.Memory.State.there_and_back",
    "Paramz.Memory.State.same_after_return",
    "Paramz.Memory.State.safe_link",
    "Paramz.Memory.State.safe_unlink",
    "Paramz.Memory.State.link_values_fails",
    "Paramz.Memory.State.unlink_values_fails"
   ],
   "note": "For objects whose Params do not lose their values (Safe: nobody AtRisk in the sense of C35; safe_link and safe_unlink give simple conditions: up to children of a root for linking, grandchildren for unlinking). Calls are Admissible and Proper as in C22 and C35. The last sentence is for parameters of a model or of a child of the model, when the optimiser's copy is not marked as up to date."
  },
  {
   "property": "C95",
   "status": "partial",
   "theorems": [
    "Paramz.Run.Settings.heard_partial",
    "Paramz.Run.Settings.nothing_else_partial",
    "Paramz.Run.Settings.refused_iff",
    "Paramz.Run.Settings.unheard_fails",
    "Paramz.Run.Settings.object_fails",
    "Paramz.Run.Settings.restarts_same",
    "Paramz.Run.Settings.restarts_count",
    "Paramz.Run.Settings.climin_steps"
   ],
   "note": "Proved for all settings except an explicit list (Unheard) of those that are accepted and ignored without a word, for which unheard_fails shows that they never have an effect; with an optimiser object instead of a name all settings are ignored (object_fails). Not modelled: inf and nan, positional arguments, what scipy and climin do with what they are handed."
  },
  {
   "property": "C96",
   "status": "partial",
   "theorems": [
    "Paramz.Memory.program_is_plan_partial",
    "Paramz.Memory.switched_program_is_plan_partial",
    "Paramz.Memory.plan_stale_fails",
    "Paramz.Memory.off_stale_fails"
   ],
   "note": "Proved for programs in which no parameter lies in the danger zone of C35 (links and unlinks in hierarchies that are deep), arrays are not looked at after an unannounced link or unlink (C32; plan_stale_fails shows what is seen then), and arrays, optimisation are asked of whole models. With updates switched off and on in switched_program_is_plan_partial, where arrays are not looked at while changes are unannounced (off_stale_fails shows what is seen then); objective and gradients are assumed to be functions of the values of the model also where parts of it are off. Missing: evaluations that raise."
  },
  {
   "property": "C97",
   "status": "partial",
   "theorems": [
    "Paramz.Layout.table_lines_up",
    "Paramz.Layout.lined_unique",
    "Paramz.Layout.param_lines_up_partial",
    "Paramz.Layout.param_lines_up_fails",
    "Paramz.Layout.concat_lines_up_partial",
    "Paramz.Layout.html_closed",
    "Paramz.Layout.param_html_fails",
    "Paramz.Layout.details_fails"
   ],
   "note": "Proved for Parameterized (text and html). For Params exactly when no value is longer in the printed format than the width computed with another format (param_lines_up_fails is a case where it is). The table of a Param in html is never closed (param_html_fails), the details of a model never line up (details_fails)."
  },
  {
   "property": "C98",
   "status": "partial",
   "theorems": [
    "Paramz.Memory.alike_behave_alike_partial",
    "Paramz.Memory.copy_behaves_alike_partial",
    "Paramz.Memory.Alike.match",
    "Paramz.Memory.matching_behave_alike_partial",
    "Paramz.Memory.alike_stale_fails"
   ],
   "note": "Under the conditions of C96 on both programs. With later links, unlinks, copies and new Params in matching_behave_alike_partial, up to and including the first refused move within a model (C99). False where an array is out of date (C32): alike_stale_fails."
  },
  {
   "property": "C99",
   "status": "partial",
   "theorems": [
    "Paramz.Memory.program_is_predicted_partial",
    "Paramz.Memory.move_again_fails"
   ],
   "note": "Under the conditions of C96, up to and including the first refused move within a model. False after it: the search that raised leaves its marks behind, and the same move is carried out when asked for again (move_again_fails, compare C25). Positions beyond the end and linking something into itself are excluded (C24, C25)."
  },
  {
   "property": "C100",
   "status": "partial",
   "theorems": [
    "Paramz.Drawing.drawing_shows_hierarchy",
    "Paramz.Drawing.shape_lost_iff",
    "Paramz.Drawing.shapes_partial",
    "Paramz.Drawing.shape_fails"
   ],
   "note": "Nodes, labels and arrows are proved in full. Shapes are right as long as objects observe only what is inside them, as the library itself arranges it; an object that observes something drawn before it and not containing it loses its shape (shape_lost_iff is exact, shape_fails a case). build_pydot() of a Param raises TypeError. pydot's add_node and add_edge are assumed as described in Print/Drawing.lean."
  },
  {
   "property": "C101",
   "status": "proved",
   "theorems": [
    "Paramz.Memory.State.param_is_array",
    "Paramz.Memory.State.others_are_apart",
    "Paramz.Memory.State.array_changes",
    "Paramz.Memory.State.parted_for_good",
    "Paramz.Memory.State.array_is_forgotten",
    "Paramz.Memory.State.param_is_array_fails"
   ],
   "note": "Proved as stated. The documentation claims more: it says that the memory of the array given is the memory of the Param, which fails in every model (param_is_array_fails). While a hierarchy is linked but not yet initialised nothing is claimed about the sharing. X is flat here."
  },
  {
   "property": "C102",
   "status": "partial",
   "theorems": [
    "Paramz.Memory.alone_or_among_others_partial",
    "Paramz.Memory.matching_behave_alike_partial"
   ],
   "note": "Under the conditions of C96 and C99 on both programs: arrays up to date when looked at, no raising evaluations, updates on, up to and including the first refused move within a model. Where they fail the claim is false (C32, C25)."
  },
  {
   "property": "C103",
   "status": "partial",
   "theorems": [
    "Paramz.Notify.remake_free_partial",
    "Paramz.Notify.remake_linked",
    "Paramz.Notify.remade_is_not_heard",
    "Paramz.Notify.remade_is_not_heard_fails",
    "Paramz.Notify.remade_denies_fails"
   ],
   "note": "True for everything but p, and for a p in no model. False for a parameter of a model, since no object is made: p itself is renamed and forgets its constraints and observers. What happens instead is proved: the model is never told of changes of p again until p is linked anew (remade_is_not_heard), p denies constraints that still hold in the model, and they come back with the next renewal of views (remake_linked). Names and memory are not part of this model."
  },
  {
   "property": "C104",
   "status": "partial",
   "theorems": [
    "Paramz.Observer.printed_list_partial",
    "Paramz.Observer.printed_determines",
    "Paramz.Observer.getitem_dead_fails",
    "Paramz.Observer.printed_break_fails"
   ],
   "note": "Text and length are proved in full. a.observers[i] is right after anything that looks through the list (len, str, iteration); directly after an observer has gone it is not: it gives registrations without observer and old positions (getitem_dead_fails). Without the condition on line breaks the text does not decide (printed_break_fails). Not modelled: None as the first priority, which raises."
  },
  {
   "property": "C105",
   "status": "partial",
   "theorems": [
    "Paramz.Opt.many_checked",
    "Paramz.Opt.verbose_many",
    "Paramz.Opt.quick_many",
    "Paramz.Opt.many_keeps_values_partial",
    "Paramz.Opt.many_empty_fails"
   ],
   "note": "Proved for selections with at least one Param and optimiser arrays that are up to date (C32); the last sentence under the conditions of C57. Selections without any Param raise IndexError instead of answering True (many_empty_fails). The list handed to np.hstack is a generator, which newer versions of numpy refuse with TypeError: proved for versions that accept it."
  },
  {
   "property": "C106",
   "status": "partial",
   "theorems": [
    "Paramz.IndexOps.Mem.separate",
    "Paramz.IndexOps.Mem.given_partial",
    "Paramz.IndexOps.Mem.stays",
    "Paramz.IndexOps.Mem.owner_array_fails",
    "Paramz.IndexOps.Mem.owner_array_left"
   ],
   "note": "The first sentence is proved for histories in which the user writes only into arrays of their own. The second one holds for arrays given by remove and by views (parameters inside a model); x[t] of an owner (the model itself, or a parameter outside of any) gives the stored array: later shifts move it and writing into it changes the constraints (owner_array_fails), until add or remove stores another one (owner_array_left)."
  },
  {
   "property": "C107",
   "status": "partial",
   "theorems": [
    "Paramz.IndexOps.size_counts",
    "Paramz.IndexOps.size_owner",
    "Paramz.IndexOps.del_absent_partial",
    "Paramz.IndexOps.del_absent_fails"
   ],
   "note": "size is proved. del x[t] raises for properties never named before, and raises only if no element has t; but not always then: reading x[t] makes a later del x[t] pass, and views never raise (del_absent_fails)."
  },
  {
   "property": "C108",
   "status": "partial",
   "theorems": [
    "Paramz.ArrayList.contains_iff",
    "Paramz.ArrayList.index_exact",
    "Paramz.ArrayList.inherited_partial",
    "Paramz.ArrayList.inherited_fails"
   ],
   "note": "Proved for in and index. remove and count are inherited from list and compare with ==: they are right only if nothing else in the list compares equal or raises; otherwise another parameter with the same value is removed, or ValueError is raised (inherited_fails)."
  }
 ]
}