{
 "claims": [
  {
   "property": "C01",
   "status": "proved",
   "theorems": [
    "Verif.Sweep.C01_indices_enumerate",
    "Verif.Sweep.C01_each_combination_once",
    "Verif.Sweep.C01_limit"
   ],
   "note": "number of runs at most 2^53 (float division in the index computation)"
  },
  {
   "property": "C02",
   "status": "proved",
   "theorems": [
    "Verif.Sweep.C02_results_at_index",
    "Verif.Sweep.C02_no_sweep"
   ],
   "note": "first sweep without the combinatorial flag (otherwise the run raises, see C03)"
  },
  {
   "property": "C03",
   "status": "partial",
   "theorems": [
    "Verif.Sweep.C03_lockstep_partial",
    "Verif.Sweep.C03_first_combinatorial_always_fails",
    "Verif.Sweep.C03_first_combinatorial_run_fails",
    "Verif.Sweep.C03_short_list_fails",
    "Verif.Sweep.C03_point_iff",
    "Verif.Sweep.C03_all_points_iff"
   ],
   "note": "false of the code when the first sweep has combinatorial=True: negation proved; lockstep proved otherwise"
  },
  {
   "property": "C04",
   "status": "partial",
   "theorems": [
    "Verif.Results.C04_parallel_eq_sequential_partial",
    "Verif.Results.C04_parallel_calculated_lost",
    "Verif.Results.C04_calculated_differs"
   ],
   "note": "results and states proved equal for every schedule; false for calculated quantities (lost in parallel runs): negation proved"
  },
  {
   "property": "C05",
   "status": "partial",
   "theorems": [
    "Verif.Results.C05_reset_run_independent_of_history",
    "Verif.Results.C05_noreset_truncates",
    "Verif.Results.C05_noreset_scalar_raises"
   ],
   "note": "reset runs proved independent of history; resetRes=False does not keep earlier results: negations proved"
  },
  {
   "property": "C06",
   "status": "proved",
   "theorems": [
    "Verif.Results.C06_running_average",
    "Verif.Results.C06_fresh_at_start"
   ],
   "note": ""
  },
  {
   "property": "C07",
   "status": "proved",
   "theorems": [
    "Verif.Evol.C07_trajectory",
    "Verif.Evol.C07_closed",
    "Verif.Evol.C07_open"
   ],
   "note": "protocols of a simulation do not share storage keys or current-state parameters"
  },
  {
   "property": "C08",
   "status": "proved",
   "theorems": [
    "Verif.Evol.C08_sim_compute",
    "Verif.Evol.C08_protocol_compute",
    "Verif.Evol.C08_system_compute",
    "Verif.Evol.C08_pre_post_once"
   ],
   "note": ""
  },
  {
   "property": "C09",
   "status": "partial",
   "theorems": [
    "Verif.Evol.C09_sampling_free_partial",
    "Verif.Evol.C09_sample_counts",
    "Verif.Evol.C09_no_sampling",
    "Verif.Evol.C09_gate_applied_repeatedly",
    "Verif.Evol.C09_gate_sampling_changes_evolution",
    "Verif.Evol.C09_free_protocol_changes_evolution",
    "Verif.Open.C09_open_exact",
    "Verif.Open.C09_open_advance",
    "Verif.Open.C09_open_decay",
    "Verif.Open.C09_open_changes"
   ],
   "note": "proved for closed protocols whose steps are free evolutions; false with gates among the steps, for plain free-evolution protocols and for all open protocols: negations proved"
  },
  {
   "property": "C10",
   "status": "partial",
   "theorems": [
    "Verif.Time.C10_read_covers_partial",
    "Verif.Time.C10_timeList",
    "Verif.Time.C10_setters",
    "Verif.Time.C10_count_and_step",
    "Verif.Time.C10_read_stable",
    "Verif.Time.C10_order_irrelevant",
    "Verif.Time.C10_assigned_count_reads_plus_one",
    "Verif.Time.C10_assigned_count_witness",
    "Verif.Time.C10_decimals"
   ],
   "note": "exact rationals; an assigned stepCount n always reads back n+1: negation proved"
  },
  {
   "property": "C11",
   "status": "partial",
   "theorems": [
    "Verif.Bound.C11_follows_partial",
    "Verif.Bound.C11_follows_rebind_partial",
    "Verif.Bound.C11_stepCount_partial",
    "Verif.Bound.C11_parent_partial",
    "Verif.Bound.C11_override_partial",
    "Verif.Bound.C11_detached",
    "Verif.Bound.C11_equal_value_not_overridden",
    "Verif.Bound.C11_own_step_kept",
    "Verif.Bound.C11_own_step_replaced",
    "Verif.Bound.C11_own_step_changed",
    "Verif.Bound.C11_copied_when_bound",
    "Verif.Bound.C11_reading_detaches"
   ],
   "note": "holds in hierarchies of simulations for children bound before anything is assigned on them (or with re=True) and for assignments of a new value; negations proved for equal values, an own step size that is replaced when binding, values copied when binding, and values filled in when reading stepCount"
  },
  {
   "property": "C12",
   "status": "partial",
   "theorems": [
    "Verif.Bound.C12_terminates_partial",
    "Verif.Bound.C12_acyclic_partial",
    "Verif.Bound.C12_cycle",
    "Verif.Bound.C12_self"
   ],
   "note": "holds when simulations are bound along a hierarchy; negation proved: a parent can be bound to its child after an assignment, and a simulation to itself"
  },
  {
   "property": "C13",
   "status": "partial",
   "theorems": [
    "Verif.Flags.C13_marks_partial",
    "Verif.Flags.C13_equal",
    "Verif.Flags.C13_history",
    "Verif.Flags.C13_cycle",
    "Verif.Bound.C13_untold_follower"
   ],
   "note": "for parameters assigned through setAttr (frequency, order, operator, time parameters, ...); ratio, implementation and phase are assigned without marking"
  },
  {
   "property": "C14",
   "status": "partial",
   "theorems": [
    "Verif.Cache.C14_current_partial",
    "Verif.Cache.C14_ratio",
    "Verif.Cache.C14_added_step",
    "Verif.Cache.C14_step_asked_first",
    "Verif.Cache.C14_protocol_update"
   ],
   "note": "holds for every history of assignments and calls when updates belong to evolutions (one system each), no protocol is fixed or conjugated and changes mark every protocol that uses them; negations proved for ratio, for added computed steps, for steps asked first, and for updates of a protocol with steps"
  },
  {
   "property": "C15",
   "status": "partial",
   "theorems": [
    "Verif.Cache.C15_bound_partial",
    "Verif.Cache.C15_repeat_partial",
    "Verif.Cache.C15_copy_before_original",
    "Verif.Cache.C15_updates"
   ],
   "note": "holds without updates and with no copy placed before its original; negations proved for both"
  },
  {
   "property": "C16",
   "status": "partial",
   "theorems": [
    "Verif.Flags.C16_exact",
    "Verif.Flags.C16_terminates",
    "Verif.Flags.C16_fresh_call",
    "Verif.Flags.C16_first_call_partial",
    "Verif.Flags.C16_second_call_does_nothing",
    "Verif.Flags.C16_second_call_witness"
   ],
   "note": "holds for every call with an explicit empty list and for the first call without an argument; a second call without an argument removes nothing: negation proved"
  },
  {
   "property": "C17",
   "status": "partial",
   "theorems": [
    "Verif.Cache.C17_first_partial",
    "Verif.Cache.C17_stale",
    "Verif.Cache.C17_witness"
   ],
   "note": "right at the first use; every later use returns the same matrix: negation proved"
  },
  {
   "property": "C18",
   "status": "partial",
   "theorems": [
    "Verif.Cache.C18_product_partial",
    "Verif.Cache.C18_updates_partial"
   ],
   "note": "same restrictions as C14"
  },
  {
   "property": "C19",
   "status": "partial",
   "theorems": [
    "Verif.Cache.C19_constant_partial",
    "Verif.Cache.C19_prepare_computes_nothing",
    "Verif.Cache.C19_none"
   ],
   "note": "constant once computed; the preparation does not compute it, and after a change it is None: negation proved"
  },
  {
   "property": "C20",
   "status": "partial",
   "theorems": [
    "Verif.Cache.C20_restored_partial",
    "Verif.Cache.C20_group_partial",
    "Verif.Cache.C20_restored_iff",
    "Verif.Cache.C20_agreeing_partial",
    "Verif.Cache.C20_group",
    "Verif.Cache.C20_several_systems",
    "Verif.Cache.C20_same_attribute"
   ],
   "note": "holds for updates of one system with different attributes in a step, and for systems that had equal values; for an evolution the exact condition is proved; negations proved otherwise"
  },
  {
   "property": "C21",
   "status": "partial",
   "theorems": [
    "Verif.Names.C21_forms_partial",
    "Verif.Names.C21_clash"
   ],
   "note": "holds unless an object has an alias equal to the default name of another object; negation proved for that case"
  },
  {
   "property": "C22",
   "status": "partial",
   "theorems": [
    "Verif.Names.C22_lookup_partial",
    "Verif.Names.C22_alias_refused_partial",
    "Verif.Names.C22_hidden"
   ],
   "note": "holds unless an alias equals a default name generated later; negation proved"
  },
  {
   "property": "C23",
   "status": "proved",
   "theorems": [
    "Verif.Names.C23_unique",
    "Verif.Names.C23_reset",
    "Verif.Names.C23_name_fixed",
    "Verif.Names.C23_name_first",
    "Verif.Names.C23_names_stable",
    "Verif.Names.C23_library",
    "Verif.Names.C23_subclass_without_counters"
   ],
   "note": "fails for classes derived by the user without own counters (proved)"
  },
  {
   "property": "C24",
   "status": "proved",
   "theorems": [
    "Verif.Names.C24_each_once",
    "Verif.Names.C24_value",
    "Verif.Names.C24_trailing_empty"
   ],
   "note": ""
  },
  {
   "property": "C25",
   "status": "partial",
   "theorems": [
    "Verif.Names.C25_equal_keys",
    "Verif.Names.C25_set",
    "Verif.Names.C25_get_set",
    "Verif.Names.C25_set_other",
    "Verif.Names.C25_get",
    "Verif.Names.C25_del",
    "Verif.Names.C25_del_removes_partial",
    "Verif.Names.C25_del_ambiguous",
    "Verif.Names.C25_pop",
    "Verif.Names.C25_setdefault",
    "Verif.Names.C25_update",
    "Verif.Names.C25_wf_set",
    "Verif.Names.C25_wf_del",
    "Verif.Names.C25_wf_update",
    "Verif.Names.C25_copy",
    "Verif.Names.C25_update_no_copy"
   ],
   "note": "a key equal to several stored keys is still contained after deletion: negation proved; all other laws proved in general"
  },
  {
   "property": "C26",
   "status": "partial",
   "theorems": [
    "Verif.Tree.C26_positions_partial",
    "Verif.Tree.C26_dimension",
    "Verif.Tree.C26_removal",
    "Verif.Tree.C26_addition",
    "Verif.Tree.C26_float_dimension",
    "Verif.Tree.C26_float_addition",
    "Verif.Tree.C26_float_wrong"
   ],
   "note": "for all histories in which sub-systems are added to outermost composites and removed composites are not used again; the exceptions are C27 and C28; with the floating point division of the code up to a total dimension of 2^53, false above"
  },
  {
   "property": "C27",
   "status": "partial",
   "theorems": [
    "Verif.Tree.C27_iff",
    "Verif.Tree.C27_not_consistent",
    "Verif.Tree.C27_outermost_partial"
   ],
   "note": "false for the code: growing a nested composite next to any system of dimension two or more breaks the positions (exact condition proved); true for outermost composites"
  },
  {
   "property": "C28",
   "status": "partial",
   "theorems": [
    "Verif.Tree.C28_stands_alone_partial",
    "Verif.Tree.C28_dimension_lost",
    "Verif.Tree.C28_zero"
   ],
   "note": "false for the code: all dimensions of a removed system become one, and inner positions of a removed composite may become zero; it does stand alone"
  },
  {
   "property": "C29",
   "status": "proved",
   "theorems": [
    "Verif.Tree.C29_place",
    "Verif.Tree.C29_commute",
    "Verif.Tree.C29_hamiltonian",
    "Verif.Tree.mem_paths",
    "Verif.Tree.paths_nodup"
   ],
   "note": "Embedded operator identity x op^order x identity with the size of the whole, commutation of operators of any two systems side by side at any depth, Hamiltonian = sum over all systems and terms (each counted exactly once). Matrices recomputed (stored ones are C67); frequencies numerical."
  },
  {
   "property": "C30",
   "status": "partial",
   "theorems": [
    "Verif.Tree.Copy.C30_last",
    "Verif.Tree.Copy.C30_hamiltonian",
    "Verif.Tree.Copy.C30_copy_partial",
    "Verif.Tree.Copy.C30_only_if",
    "Verif.Tree.Copy.C30_rmul_partial",
    "Verif.Tree.Copy.C30_rmul_zero",
    "Verif.Tree.Copy.C30_two_terms",
    "Verif.Tree.Copy.C30_deep_coupling",
    "Verif.Tree.Copy.C30_initial_state",
    "Verif.Tree.Copy.C30_empty_composite"
   ],
   "note": "false for the code: only the last term is kept (exact condition proved), deep couplings and single systems with an initial state cannot be copied; proved for all structures with at most one term per system."
  },
  {
   "property": "C31",
   "status": "partial",
   "theorems": [
    "Verif.Tree.Heap.C31_self",
    "Verif.Tree.Heap.C31_cycle",
    "Verif.Tree.Heap.C31_direct_partial",
    "Verif.Tree.Heap.C31_careful_partial",
    "Verif.Tree.Heap.C31_objects"
   ],
   "note": "false for the code: a system can be added to itself and in longer cycles; cycles of two different systems are refused, careful histories stay well-founded"
  },
  {
   "property": "C32",
   "status": "partial",
   "theorems": [
    "Verif.Init.C32_product",
    "Verif.Init.C32_dimension",
    "Verif.Init.C32_norm_partial",
    "Verif.Init.C32_accepted",
    "Verif.Init.C32_read_after_assign",
    "Verif.Init.C32_part_partial",
    "Verif.Init.C32_array_norm",
    "Verif.Init.C32_part_ignored",
    "Verif.Init.C32_stale",
    "Verif.Init.C32_read_dimension",
    "Verif.Init.C32_missing"
   ],
   "note": "what is created, its dimension, what is accepted and read-after-assignment are proved for every structure; false for the code: arrays are not normalised, an assignment to a part is ignored once the composite has its own input, outer composites keep a stale state."
  },
  {
   "property": "C33",
   "status": "partial",
   "theorems": [
    "Verif.Sim.Couplings.C33_symmetric",
    "Verif.Sim.Couplings.C33_given",
    "Verif.Sim.Couplings.C33_sound",
    "Verif.Sim.Couplings.C33_composite_partial",
    "Verif.Sim.Couplings.C33_valueError_partial",
    "Verif.Sim.Couplings.C33_recursion",
    "Verif.Sim.Couplings.C33_unbound",
    "Verif.Sim.Couplings.C33_cavity_ignored",
    "Verif.Sim.Couplings.C33_qubit_then_spin",
    "Verif.Sim.Couplings.C33_lone_ignored",
    "Verif.Sim.Couplings.C33_qubit_then_spin_raises",
    "Verif.Sim.Couplings.C33_composite_iff",
    "Verif.Sim.Couplings.C33_terms"
   ],
   "note": "order independence proved in general; false for the code: RecursionError without a spin, unbound variable for two non-spins, a lone given cavity is ignored, Qubit followed by Spin fails."
  },
  {
   "property": "C34",
   "status": "partial",
   "theorems": [
    "Verif.Sim.Pool.C34_false",
    "Verif.Sim.Pool.C34_true",
    "Verif.Sim.Pool.C34_none",
    "Verif.Sim.Pool.C34_repeats_partial",
    "Verif.Sim.Pool.C34_sticky",
    "Verif.Sim.Pool.C34_raises"
   ],
   "note": "exact behaviour for every history proved; 'p=None does what the last call did' is false after a pool run followed by a single-process run."
  },
  {
   "property": "C35",
   "status": "partial",
   "theorems": [
    "Verif.Sim.Csv.C35_file_partial",
    "Verif.Sim.Csv.C35_one_row",
    "Verif.Sim.Csv.C35_flat",
    "Verif.Sim.Csv.C35_parts_partial",
    "Verif.Sim.Csv.C35_collision",
    "Verif.Sim.Csv.C35_key_collision",
    "Verif.Sim.Csv.natFmt_faithful"
   ],
   "note": "read-back of every part proved for keys without trailing digit and one index level or lists up to ten elements; name collisions, lost nesting of one-row tables and the failure on plain lists are proved."
  },
  {
   "property": "C36",
   "status": "partial",
   "theorems": [
    "Verif.Sim.Remove.C36_object_exact",
    "Verif.Sim.Remove.C36_object_partial",
    "Verif.Sim.Remove.C36_other_sweep_raises",
    "Verif.Sim.Remove.C36_sweep",
    "Verif.Sim.Remove.C36_system_partial",
    "Verif.Sim.Remove.C36_system_raises_iff",
    "Verif.Sim.Remove.C36_after_run",
    "Verif.Sim.Remove.C36_protocol_partial",
    "Verif.Sim.Remove.C36_protocol_raises_iff",
    "Verif.Sim.Remove.C36_protocol_by_name"
   ],
   "note": "the intended effect is proved whenever nothing is raised, and the exact condition for raising; KeyErrors for sweeps over other systems and after a run are proved."
  },
  {
   "property": "C37",
   "status": "proved",
   "theorems": [
    "Verif.Toolbox.C37_populations",
    "Verif.Toolbox.C37_amplitudes",
    "Verif.Toolbox.C37_list",
    "Verif.Toolbox.C37_int",
    "Verif.Toolbox.C37_refused_iff",
    "Verif.Toolbox.C37_refused_list",
    "Verif.Toolbox.C37_refused_populations"
   ],
   "note": ""
  },
  {
   "property": "C38",
   "status": "proved",
   "theorems": [
    "Verif.NMat.C38_defined",
    "Verif.NMat.C38_grouping",
    "Verif.NMat.C38_shape",
    "Verif.NMat.C38_entry",
    "Verif.NMat.C38_mixed_product",
    "Verif.NMat.C38_hc",
    "Verif.NMat.C38_trace",
    "Verif.NMat.C38_innerProd",
    "Verif.NMat.C38_norm",
    "Verif.NMat.C38_int",
    "Verif.NMat.C38_ints",
    "Verif.NMat.C38_one"
   ],
   "note": ""
  },
  {
   "property": "C39",
   "status": "proved",
   "theorems": [
    "Verif.Toolbox.C39_vec2Mat_mat2Vec",
    "Verif.Toolbox.C39_mat2Vec_vec2Mat",
    "Verif.Toolbox.C39_column_stacking",
    "Verif.Toolbox.C39_kron_mul_vec",
    "Verif.Toolbox.C39_preSO",
    "Verif.Toolbox.C39_postSO",
    "Verif.Toolbox.C39_prepostSO",
    "Verif.Toolbox.C39_prepostSO_default",
    "Verif.Toolbox.C39_prepostSO_default_not_conjugation"
   ],
   "note": "the default of _prepostSO (B=A) is not conjugation: proved separately"
  },
  {
   "property": "C40",
   "status": "proved",
   "theorems": [
    "Verif.Toolbox.C40_traceless",
    "Verif.Toolbox.C40_hermitian",
    "Verif.Toolbox.C40_exp_trace",
    "Verif.Toolbox.C40_exp_hermitian",
    "Verif.Toolbox.C40_no_dissipation",
    "Verif.Toolbox.C40_trajectory"
   ],
   "note": "collapse operators given as ready-made superoperators are assumed to have the respective property themselves"
  },
  {
   "property": "C41",
   "status": "proved",
   "theorems": [
    "Verif.Toolbox.C41_compose",
    "Verif.Toolbox.C41_zero",
    "Verif.Toolbox.C41_unitary",
    "Verif.Toolbox.C41_norm_kept",
    "Verif.Toolbox.C41_protocol_unitary",
    "Verif.Toolbox.C41_schroedinger"
   ],
   "note": ""
  },
  {
   "property": "C42",
   "status": "proved",
   "theorems": [
    "Verif.Toolbox.C42_spin_algebra",
    "Verif.Toolbox.C42_dimension",
    "Verif.Toolbox.C42_Jz_entries",
    "Verif.Toolbox.C42_half"
   ],
   "note": "exact complex numbers"
  },
  {
   "property": "C43",
   "status": "proved",
   "theorems": [
    "Verif.Toolbox.C43_adjoint",
    "Verif.Toolbox.C43_number",
    "Verif.Toolbox.C43_commutator",
    "Verif.Toolbox.C43_destroy_basis",
    "Verif.Toolbox.C43_create_basis",
    "Verif.Toolbox.C43_number_basis",
    "Verif.Toolbox.C43_parity",
    "Verif.Toolbox.C43_parity_involution",
    "Verif.Toolbox.C43_displacement_unitary",
    "Verif.Toolbox.C43_squeeze_unitary",
    "Verif.Toolbox.C43_displacement_inverse"
   ],
   "note": ""
  },
  {
   "property": "C44",
   "status": "proved",
   "theorems": [
    "Verif.Toolbox.C44_exp",
    "Verif.Toolbox.C44_compose",
    "Verif.Toolbox.C44_unitary",
    "Verif.Toolbox.C44_period",
    "Verif.Toolbox.C44_spinRotation_half",
    "Verif.Toolbox.C44_axis_names",
    "Verif.Toolbox.C44_spinRotation",
    "Verif.Toolbox.C44_gate_implementations",
    "Verif.Toolbox.C44_gate_phase_ignored"
   ],
   "note": "rounding to 15 digits not modelled; with a phase other than 1 the two gate implementations differ (proved)"
  },
  {
   "property": "C45",
   "status": "proved",
   "theorems": [
    "Verif.PTrace.C45_defined",
    "Verif.PTrace.C45_trace",
    "Verif.PTrace.C45_hermitian",
    "Verif.PTrace.C45_positive",
    "Verif.PTrace.C45_linear",
    "Verif.PTrace.C45_product",
    "Verif.PTrace.C45_two_factors",
    "Verif.PTrace.C45_duality",
    "Verif.PTrace.C45_duality_tensor",
    "Verif.PTrace.C45_order",
    "Verif.PTrace.C45_ket",
    "Verif.PTrace.C45_negative_index"
   ],
   "note": "distinct non-negative indices; negative ones fail (proved for a witness)"
  },
  {
   "property": "C46",
   "status": "proved",
   "theorems": [
    "Verif.Toolbox.C46_inner_outer",
    "Verif.Toolbox.C46_expectation_representation",
    "Verif.Toolbox.C46_dimension_one_differs",
    "Verif.Toolbox.C46_expectation_real",
    "Verif.Toolbox.C46_expectation_linear",
    "Verif.Toolbox.C46_expectation_linear_hermitian",
    "Verif.Toolbox.C46_fidelity_representation",
    "Verif.Toolbox.C46_fidelity_symmetric",
    "Verif.Toolbox.C46_fidelity_range",
    "Verif.Toolbox.C46_fidelity_self",
    "Verif.Toolbox.C46_fidelity_one",
    "Verif.Toolbox.C46_variance_nonneg",
    "Verif.Toolbox.C46_bell_orthonormal"
   ],
   "note": "dimensions other than one; in dimension one a ket is taken for a density matrix (proved)"
  },
  {
   "property": "C47",
   "status": "partial",
   "theorems": [
    "Verif.Toolbox.C47_hermitian_gates_partial",
    "Verif.Toolbox.C47_agrees_iff_hermitian",
    "Verif.Toolbox.C47_rotations_wrong",
    "Verif.Toolbox.C47_trace_witness"
   ],
   "note": "false of the code unless the gate matrix is Hermitian: negation proved"
  },
  {
   "property": "C48",
   "status": "partial",
   "theorems": [
    "Verif.Toolbox.C48_exp_partial",
    "Verif.Toolbox.C48_defined_partial",
    "Verif.Toolbox.C48_nan",
    "Verif.Toolbox.C48_hermitian",
    "Verif.Toolbox.C48_unitary",
    "Verif.Toolbox.C48_identity",
    "Verif.Toolbox.C48_compose",
    "Verif.Toolbox.C48_not_JCHam",
    "Verif.Toolbox.C48_rabi"
   ],
   "note": "unitarity, identity and composition proved wherever the function returns numbers; it equals the exponential of JCHam(wq/2), not of JCHam(wq): negation proved; NaN for a resonant uncoupled system"
  },
  {
   "property": "C49",
   "status": "proved",
   "theorems": [
    "Verif.Toolbox.C49_ipr_bounds",
    "Verif.Toolbox.C49_ipr_basis",
    "Verif.Toolbox.C49_ipr_one_iff",
    "Verif.Toolbox.C49_ipr_uniform",
    "Verif.Toolbox.C49_ipr_standard_basis",
    "Verif.Toolbox.C49_ipr_any_basis",
    "Verif.Toolbox.C49_ipr_orthonormal",
    "Verif.Toolbox.C49_purity_bounds",
    "Verif.Toolbox.C49_purity_pure",
    "Verif.Toolbox.C49_purity_mixed",
    "Verif.Toolbox.C49_purity_one",
    "Verif.Toolbox.C49_entropy_bounds",
    "Verif.Toolbox.C49_entropy_mixed",
    "Verif.Toolbox.C49_entropy_pure",
    "Verif.Toolbox.C49_entropy_base2"
   ],
   "note": ""
  },
  {
   "property": "C50",
   "status": "partial",
   "theorems": [
    "Verif.Toolbox.Rmt.C50_wigner_nonneg",
    "Verif.Toolbox.Rmt.C50_wigner_mass",
    "Verif.Toolbox.Rmt.C50_eigen_mass",
    "Verif.Toolbox.Rmt.C50_eigen_four",
    "Verif.Toolbox.Rmt.C50_eigen_partial",
    "Verif.Toolbox.Rmt.C50_clipped",
    "Verif.Toolbox.Rmt.C50_poisson"
   ],
   "note": "Wigner-Dyson and eigenvector densities for beta 1, 2 proved in every dimension; beta 4 has the wrong normalisation and clipping changes the mass: both proved."
  },
  {
   "property": "C51",
   "status": "partial",
   "theorems": [
    "Verif.Evol.C51_each_value_once_partial",
    "Verif.Evol.C51_each_value_once_iff",
    "Verif.Evol.C51_combinations",
    "Verif.Evol.C51_wraps_around",
    "Verif.Evol.C51_wraps_around_without_totalTime",
    "Verif.Evol.C51_clock_kept",
    "Verif.Evol.C51_first_list_decides",
    "Verif.Evol.C51_run_before"
   ],
   "note": "holds if and only if floor(T/dt)+1 equals the number of values (C51_each_value_once_iff); exact behaviour for any number of sweeps in C51_combinations; false otherwise (extra step wraps to the first value; without a total time the first list decides the number of steps of all later runs)"
  },
  {
   "property": "C52",
   "status": "partial",
   "theorems": [
    "Verif.Sim.FreeEvol.C52_result",
    "Verif.Sim.FreeEvol.C52_order_partial",
    "Verif.Sim.FreeEvol.C52_kept",
    "Verif.Sim.FreeEvol.C52_idempotent",
    "Verif.Sim.FreeEvol.C52_reachable",
    "Verif.Sim.FreeEvol.C52_lost",
    "Verif.Sim.FreeEvol.C52_reordered"
   ],
   "note": "exact result, kept protocols and systems, and idempotence proved for all dictionaries; the order changes only for a placeholder whose free evolution was added too."
  },
  {
   "property": "C53",
   "status": "partial",
   "theorems": [
    "Verif.Open.C53_own_rates_doubled",
    "Verif.Open.C53_steps_once_partial",
    "Verif.Open.C53_getUnitary_once_partial",
    "Verif.Open.C53_decay_witness",
    "Verif.Open.C53_not_once",
    "Verif.Open.C53_open_iff",
    "Verif.Open.C53_closed_agrees"
   ],
   "note": "unitary() uses the own dissipators of the protocol twice: negation proved; dissipators of steps, and getUnitary() without arguments, are right"
  },
  {
   "property": "C54",
   "status": "partial",
   "theorems": [
    "Verif.Tree.Pauli.C54_exact",
    "Verif.Tree.Pauli.C54_single_partial",
    "Verif.Tree.Pauli.C54_wrongly_accepted",
    "Verif.Tree.Pauli.C54_wrongly_refused",
    "Verif.Tree.Pauli.C54_operator"
   ],
   "note": "exact condition proved; false for systems with several terms and for couplings (negations proved)"
  },
  {
   "property": "C55",
   "status": "proved",
   "theorems": [
    "Verif.Toolbox.C55_completely_positive",
    "Verif.Toolbox.C55_density_matrix",
    "Verif.Toolbox.C55_trajectory",
    "Verif.Toolbox.C55_decay",
    "Verif.Toolbox.C55_negative_rate"
   ],
   "note": "collapse operators given as ready-made superoperators must be in Lindblad form; non-negative rates are needed, as proved by C55_negative_rate"
  },
  {
   "property": "C56",
   "status": "partial",
   "theorems": [
    "Verif.Toolbox.Wig.C56_closed_form_partial",
    "Verif.Toolbox.Wig.C56_parity",
    "Verif.Toolbox.Wig.C56_mass",
    "Verif.Toolbox.Wig.C56_vacuum"
   ],
   "note": "the loops compute the weighted closed-form sum and the parity at the origin, for every dimension and Hermitian matrix; the normalisation is false for the code: the integral is proved to be twice the trace."
  },
  {
   "property": "C57",
   "status": "partial",
   "theorems": [
    "Verif.Toolbox.Husimi.C57_flat_partial",
    "Verif.Toolbox.Husimi.C57_mass",
    "Verif.Toolbox.Husimi.C57_ket_raises",
    "Verif.Toolbox.Husimi.C57_density_raises",
    "Verif.Toolbox.Husimi.C57_ket_square",
    "Verif.Toolbox.Husimi.C57_vacuum_wrong"
   ],
   "note": "_qfuncPure is right for one-dimensional arrays; HusimiQ itself is false: it raises for density matrices and for kets unless the grid size is one or the dimension, and then the values are wrong."
  },
  {
   "property": "C58",
   "status": "proved",
   "theorems": [
    "Verif.Toolbox.C58_normalise",
    "Verif.Toolbox.C58_normalise_scale",
    "Verif.Toolbox.C58_mixture",
    "Verif.Toolbox.C58_density",
    "Verif.Toolbox.C58_refused_iff",
    "Verif.Toolbox.C58_probabilities",
    "Verif.Toolbox.C58_no_weights",
    "Verif.Toolbox.C58_weights_scale",
    "Verif.Toolbox.C58_truncated",
    "Verif.Toolbox.C58_expectation",
    "Verif.Toolbox.C58_single",
    "Verif.Toolbox.C58_docstring",
    "Verif.Toolbox.C58_basis",
    "Verif.Toolbox.C58_complete",
    "Verif.Toolbox.C58_overwritten",
    "Verif.Toolbox.C58_second_call"
   ],
   "note": "division by a zero trace (NaN entries in NumPy) counts as refused; C58_docstring shows that the result printed in the docstring is not what is returned"
  },
  {
   "property": "C59",
   "status": "proved",
   "theorems": [
    "Verif.Toolbox.C59_metric",
    "Verif.Toolbox.C59_unitary",
    "Verif.Toolbox.C59_measurement",
    "Verif.Toolbox.C59_le_one",
    "Verif.Toolbox.C59_open_evolution",
    "Verif.Toolbox.C59_pure",
    "Verif.Toolbox.C59_kets",
    "Verif.Toolbox.C59_kets_sign"
   ],
   "note": "eigenvalues are exact roots of the characteristic polynomial; collapse operators given as matrices"
  },
  {
   "property": "C60",
   "status": "proved",
   "theorems": [
    "Verif.Toolbox.C60_pure",
    "Verif.Toolbox.C60_pure_product",
    "Verif.Toolbox.C60_documented",
    "Verif.Toolbox.C60_documented_exists",
    "Verif.Toolbox.C60_ket_density",
    "Verif.Toolbox.C60_range",
    "Verif.Toolbox.C60_local_unitary",
    "Verif.Toolbox.C60_mixture",
    "Verif.Toolbox.C60_separable",
    "Verif.Toolbox.C60_bell",
    "Verif.Toolbox.C60_sorted"
   ],
   "note": "exact eigenvalues, without the final rounding to 15 decimals; that concurrence zero implies separability is not claimed"
  },
  {
   "property": "C61",
   "status": "proved",
   "theorems": [
    "Verif.Toolbox.Gates.C61_cnot",
    "Verif.Toolbox.Gates.C61_cphase",
    "Verif.Toolbox.Gates.C61_unitary",
    "Verif.Toolbox.Gates.C61_cphase_add",
    "Verif.Toolbox.Gates.C61_cphase_eq_iff",
    "Verif.Toolbox.Gates.C61_cphase_swap",
    "Verif.Toolbox.Gates.C61_relations",
    "Verif.Toolbox.Gates.C61_bell",
    "Verif.Toolbox.Gates.C61_entangle"
   ],
   "note": "exact arithmetic"
  },
  {
   "property": "C62",
   "status": "proved",
   "theorems": [
    "Verif.Toolbox.Thermo.C62_nbar_raises",
    "Verif.Toolbox.Thermo.C62_nbar_mean",
    "Verif.Toolbox.Thermo.C62_nbar_balance",
    "Verif.Toolbox.Thermo.C62_nbar_monotone",
    "Verif.Toolbox.Thermo.C62_nbar_zero",
    "Verif.Toolbox.Thermo.C62_nbar_negative",
    "Verif.Toolbox.Thermo.C62_polarisation",
    "Verif.Toolbox.Thermo.C62_populations",
    "Verif.Toolbox.Thermo.C62_docstring",
    "Verif.Toolbox.Thermo.C62_range",
    "Verif.Toolbox.Thermo.C62_polarisation_nbar",
    "Verif.Toolbox.Thermo.C62_thermal_state"
   ],
   "note": "real arithmetic without overflow; HeatCurrent is not modelled, its last line calls a method tr that neither NumPy nor SciPy matrices have"
  },
  {
   "property": "C63",
   "status": "proved",
   "theorems": [
    "Verif.Toolbox.EigStat.C63_flat",
    "Verif.Toolbox.EigStat.C63_symp",
    "Verif.Toolbox.EigStat.C63_sum",
    "Verif.Toolbox.EigStat.C63_odd",
    "Verif.Toolbox.EigStat.C63_odd_unitary",
    "Verif.Toolbox.EigStat.C63_ket",
    "Verif.Toolbox.EigStat.C63_docstring"
   ],
   "note": "the eigenvectors are an argument; the eigenvalue routine of SciPy is not modelled"
  },
  {
   "property": "C64",
   "status": "proved",
   "theorems": [
    "Verif.Toolbox.C64_norm",
    "Verif.Toolbox.spectralNorm_isSome",
    "Verif.Toolbox.C64_norm_unique",
    "Verif.Toolbox.C64_norm_laws",
    "Verif.Toolbox.C64_norm_unitary",
    "Verif.Toolbox.C64_norm_unitary_right",
    "Verif.Toolbox.C64_uncertainty",
    "Verif.Toolbox.C64_eigenstate",
    "Verif.Toolbox.C64_bounded",
    "Verif.Toolbox.C64_scale",
    "Verif.Toolbox.C64_columns"
   ],
   "note": "exact eigenvalues; columns of dimension one are read as rows by the library and excluded"
  },
  {
   "property": "C65",
   "status": "proved",
   "theorems": [
    "Verif.Env.Drive.C65_support",
    "Verif.Env.Drive.C65_sum",
    "Verif.Env.Drive.C65_gap",
    "Verif.Env.Drive.C65_accuracy",
    "Verif.Env.Drive.C65_affine",
    "Verif.Env.Drive.C65_rotation",
    "Verif.Env.Drive.C65_rotation_scaled",
    "Verif.Env.Drive.C65_rotation_exact",
    "Verif.Env.Drive.C65_totalShape"
   ],
   "note": "real numbers; t0, t1 and func are set"
  },
  {
   "property": "C66",
   "status": "partial",
   "theorems": [
    "Verif.Env.Bath.C66_nbar",
    "Verif.Env.Bath.C66_jRate",
    "Verif.Env.Bath.C66_in_effect",
    "Verif.Env.Bath.C66_current_partial",
    "Verif.Env.Bath.C66_temperature_ignored",
    "Verif.Env.Bath.C66_argument_order",
    "Verif.Env.Bath.C66_members",
    "Verif.Env.Bath.C66_shared",
    "Verif.Env.Bath.C66_balance",
    "Verif.Env.Bath.C66_stationary",
    "Verif.Env.Bath.C66_thermal"
   ],
   "note": "number, rate, detailed balance and stationarity proved; 'the rate in effect is the current one' is false for the code: it is the one at the last assignment of the system, exact behaviour proved."
  },
  {
   "property": "C67",
   "status": "partial",
   "theorems": [
    "Verif.Ham.C67_current_partial",
    "Verif.Ham.C67_found",
    "Verif.Ham.C67_unique",
    "Verif.Ham.C67_term",
    "Verif.Ham.C67_unitary",
    "Verif.Ham.C67_evaluation_neutral",
    "Verif.Ham.C67_resetTerms_keeps",
    "Verif.Ham.C67_resetTerms_witness",
    "Verif.Ham.C67_resetSubSys_keeps",
    "Verif.Ham.C67_resetSubSys_witness",
    "Verif.Ham.C67_same_system_keeps",
    "Verif.Ham.C67_same_system_witness",
    "Verif.Ham.C67_fixed_unitary_keeps",
    "Verif.Ham.C67_fixed_witness",
    "Verif.Ham.C67_readded_witness",
    "Verif.Ham.C67_removal_drops",
    "Verif.Ham.C67_outer_coupling_witness"
   ],
   "note": "proved for all histories that avoid five operations; the claim is false of the code after each of these (resetTerms, resetSubSys, the same qSystem again, unitary with a fixed free evolution, re-adding a removed term), negations proved."
  },
  {
   "property": "C68",
   "status": "proved",
   "theorems": [
    "Verif.Tree.C68_term_adjoint",
    "Verif.Tree.C68_hermitian",
    "Verif.Tree.C68_selfadjoint",
    "Verif.Tree.C68_unitary",
    "Verif.Tree.C68_conserved",
    "Verif.Tree.C68_same_system_twice",
    "Verif.Tree.C68_adjoint_not_added",
    "Verif.Tree.C68_complex_frequency"
   ],
   "note": "exact matrices; the sampling of results and stored matrices are the subject of other claims; dimension one excluded for expectation values"
  },
  {
   "property": "C69",
   "status": "proved",
   "theorems": [
    "Verif.Toolbox.C69_unit_disc",
    "Verif.Toolbox.C69_one",
    "Verif.Toolbox.C69_exists",
    "Verif.Toolbox.C69_steady",
    "Verif.Toolbox.C69_attracts",
    "Verif.Toolbox.C69_only_last_iff",
    "Verif.Toolbox.C69_decay",
    "Verif.Toolbox.C69_closed",
    "Verif.Toolbox.C69_closed_alias",
    "Verif.Toolbox.C69_degenerate"
   ],
   "note": "exact eigenvalues; the choice of eigenvectors and the order of equal magnitudes are arbitrary"
  },
  {
   "property": "C70",
   "status": "partial",
   "theorems": [
    "Verif.Old.C70_place",
    "Verif.Old.C70_two_body",
    "Verif.Old.C70_coupling_partial",
    "Verif.Old.C70_hamiltonian_partial",
    "Verif.Old.C70_unitary_partial",
    "Verif.Old.C70_rest_ignored",
    "Verif.Old.C70_one_system",
    "Verif.Old.C70_three_body",
    "Verif.Old.C70_arguments",
    "Verif.Old.C70_endless",
    "Verif.Old.C70_composite_first",
    "Verif.Old.C70_one_operator",
    "Verif.Old.C70_removal_raises",
    "Verif.Old.C70_coupled_stays",
    "Verif.Old.C70_uncoupled_kept",
    "Verif.Old.C70_after_exception"
   ],
   "note": "proved for couplings of pairs (any structure, equal to the newer class) and for regular argument sequences; false for the code: third and later systems of a term are ignored, addTerm can loop forever, ignore the call or raise, and removing a coupled system always raises: all negations proved."
  },
  {
   "property": "C71",
   "status": "partial",
   "theorems": [
    "Verif.Old.C71_addition",
    "Verif.Old.C71_nested_growth",
    "Verif.Old.C71_cached_dimension",
    "Verif.Old.C71_dimension_partial",
    "Verif.Old.C71_three_levels",
    "Verif.Old.C71_three_levels_iff",
    "Verif.Old.C71_removal",
    "Verif.Old.C71_inner_removal",
    "Verif.Old.C71_inner_removal_partial",
    "Verif.Old.C71_positions_partial"
   ],
   "note": "proved for all histories that add to and remove from outermost composites and set dimensions below at most two composites; below three composites the exact condition is proved (C71_three_levels_iff); false otherwise (negations proved)."
  },
  {
   "property": "C72",
   "status": "partial",
   "theorems": [
    "Verif.Whole.C72_run_partial",
    "Verif.Whole.C72_alone_partial",
    "Verif.Whole.C72_parallel_partial",
    "Verif.Whole.C72_rerun_partial",
    "Verif.Whole.C72_unmarked",
    "Verif.Whole.C72_schroedinger"
   ],
   "note": "proved for closed systems, protocols without fixed steps and conjugated copies (the restrictions of C14) and sweeps as in C02; samples inside steps: C81, time-dependent sweeps: C82, open systems: C77; false for a sweep over an attribute whose assignment marks nothing, e.g. phase of a SpinRotation (negation proved)."
  },
  {
   "property": "C73",
   "status": "partial",
   "theorems": [
    "Verif.TimeDep.C73_run_partial",
    "Verif.TimeDep.C73_evolution_partial",
    "Verif.TimeDep.C73_parallel_partial",
    "Verif.TimeDep.C73_rerun_partial",
    "Verif.TimeDep.C73_follows_partial",
    "Verif.TimeDep.C73_visit",
    "Verif.TimeDep.C73_schroedinger",
    "Verif.TimeDep.C73_second_simulation",
    "Verif.TimeDep.C73_own_step_size",
    "Verif.TimeDep.C73_sub_system_step",
    "Verif.TimeDep.C73_called_often"
   ],
   "note": "proved for functions that use no time dependent attribute, simulations of the systems bound to the running one, and the restrictions of C72; false for the code if a system is in two simulations, has its own step size, is a sub-system with its own step, or if a function uses what it assigns (negations proved)."
  },
  {
   "property": "C74",
   "status": "partial",
   "theorems": [
    "Verif.Obj.C74_parameters",
    "Verif.Obj.C74_own_first",
    "Verif.Obj.C74_unknown",
    "Verif.Obj.C74_where",
    "Verif.Obj.C74_write_read_partial",
    "Verif.Obj.C74_kwargs",
    "Verif.Obj.C74_sim_total_time",
    "Verif.Obj.C74_super_system",
    "Verif.Obj.C74_steps",
    "Verif.Obj.C74_read_only"
   ],
   "note": "proved for all classes, names, getters and setters, except that an AttributeError inside a setter is taken for a missing attribute (negations proved for superSys and subSys of protocols), and that the six attributes simTotalTime, ... are read as the tuple of all parameters (negation proved)."
  },
  {
   "property": "C75",
   "status": "partial",
   "theorems": [
    "Verif.Obj.C75_state_partial",
    "Verif.Obj.C75_library",
    "Verif.Obj.C75_names",
    "Verif.Obj.C75_no_slots",
    "Verif.Obj.C75_underscore",
    "Verif.Obj.C75_same_slot",
    "Verif.Obj.C75_registry_changed"
   ],
   "note": "proved for all classes of the library and for derived classes that define __slots__, repeat no private slot and have no leading underscore; false for other derived classes, and the registry of the sending process is changed (negations proved). Pickle's own traversal is trusted."
  },
  {
   "property": "C76",
   "status": "partial",
   "theorems": [
    "Verif.Sim.FreeEvol.C76_evolutions_partial",
    "Verif.Sim.FreeEvol.C76_created_twice",
    "Verif.Sim.FreeEvol.C76_list_ignores",
    "Verif.Sim.FreeEvol.C76_after_run",
    "Verif.Sim.FreeEvol.C76_remove_free"
   ],
   "note": "proved for all sequences of calls that add systems with their own protocols before the first run; false for createSubSys with a protocol, lists with a protocol, removal of the free evolution, and calls after a run (negations proved)."
  },
  {
   "property": "C77",
   "status": "partial",
   "theorems": [
    "Verif.Cache.C77_current_partial",
    "Verif.Cache.C77_getUnitary_before",
    "Verif.Cache.C77_step_asked",
    "Verif.Cache.C77_second_protocol",
    "Verif.Cache.C77_added_later",
    "Verif.Whole.C77_run_partial",
    "Verif.Whole.C77_lindblad",
    "Verif.Whole.C77_mixed_start"
   ],
   "note": "proved for histories in which every protocol is used with one list of dissipators, under the restrictions of C72, with the own dissipators of the protocol counted twice (C53); false for steps asked for on their own, shared steps, getUnitary() before unitary(), dissipators added later, and mixed initial states (negations proved)."
  },
  {
   "property": "C78",
   "status": "partial",
   "theorems": [
    "Verif.Env.Jump.C78_current_partial",
    "Verif.Env.Jump.C78_acts_partial",
    "Verif.Env.Jump.C78_assigned",
    "Verif.Env.Jump.C78_stays",
    "Verif.Env.Jump.C78_lost",
    "Verif.Env.Jump.C78_repair",
    "Verif.Env.Jump.C78_members",
    "Verif.Env.Jump.C78_order_witness",
    "Verif.Env.Jump.C78_moved",
    "Verif.Env.Jump.C78_composite"
   ],
   "note": "proved: after all histories in which positions change only in the structure concerned and a dissipator gets its system once, a jump matrix that is present is the current one; false in that the matrix is lost (and every run raises) after a change of the structure, for a dissipator moved to another system, and for composites (negations proved)."
  },
  {
   "property": "C79",
   "status": "partial",
   "theorems": [
    "Verif.Init.C79_accepted_iff",
    "Verif.Init.C79_unit_partial",
    "Verif.Init.C79_populations",
    "Verif.Init.C79_reduced",
    "Verif.Init.C79_initial_state",
    "Verif.Init.C79_bra",
    "Verif.Init.C79_zero",
    "Verif.Init.C79_truncated",
    "Verif.Init.C79_rows_witness"
   ],
   "note": "norm, populations, reduced states, agreement with initial states and acceptance are proved for all lists; false for the code: surplus dimensions or inputs are dropped silently, so the state can have fewer rows than the product of the dimensions."
  },
  {
   "property": "C80",
   "status": "proved",
   "theorems": [
    "Verif.Toolbox.C80_kets",
    "Verif.Toolbox.C80_symmetric",
    "Verif.Toolbox.C80_ge_pure",
    "Verif.Toolbox.C80_pure",
    "Verif.Toolbox.C80_unitary",
    "Verif.Toolbox.C80_range",
    "Verif.Toolbox.C80_zero_iff",
    "Verif.Toolbox.C80_mixed_differs"
   ],
   "note": "for all dimensions and states; scipy.linalg.sqrtm is taken as the positive square root of a positive semidefinite matrix."
  },
  {
   "property": "C81",
   "status": "partial",
   "theorems": [
    "Verif.Whole.C81_run_partial",
    "Verif.Whole.C81_parallel_partial",
    "Verif.Whole.C81_counts",
    "Verif.Whole.C81_independent",
    "Verif.Whole.C81_one_sample",
    "Verif.Whole.C81_schroedinger",
    "Verif.Whole.C81_swept_samples",
    "Verif.Whole.C81_nested_samples",
    "Verif.Whole.C81_updates_ignored",
    "Verif.Whole.C81_stays_on"
   ],
   "note": "proved for closed systems under the restrictions of C72, for protocols that have a step with several samples before the sweeps are applied; false for a swept number of samples, samples in nested protocols, and protocols with updates of their own (negations proved)."
  },
  {
   "property": "C82",
   "status": "partial",
   "theorems": [
    "Verif.Whole.C82_run_partial",
    "Verif.Whole.C82_parallel_partial",
    "Verif.Whole.C82_rerun_partial",
    "Verif.Whole.C82_schroedinger",
    "Verif.Whole.C82_initial",
    "Verif.Whole.C82_step_count",
    "Verif.Whole.C82_short_range",
    "Verif.Whole.C82_range_parallel",
    "Verif.Whole.C82_range_combinations"
   ],
   "note": "proved for closed systems under the restrictions of C72 and time-dependent sweeps with the default function and a list (or a range not shorter than the evolution), if neither the initial states nor the number of steps use a time-dependent attribute; false otherwise (negations proved)."
  },
  {
   "property": "C83",
   "status": "partial",
   "theorems": [
    "Verif.Whole.C83_product_partial",
    "Verif.Whole.C83_left_partial",
    "Verif.Whole.C83_repeated_partial",
    "Verif.Whole.C83_others_partial",
    "Verif.Whole.C83_unprepared",
    "Verif.Whole.C83_empty",
    "Verif.Whole.C83_calls",
    "Verif.Whole.C83_reading_changes",
    "Verif.Whole.C83_step_stale"
   ],
   "note": "proved under the restrictions of C14 for one protocol with time-dependent sweeps that is no step of another and has no updates, after timeDependency.prepare(); false without prepare() (which the library never calls) and for a step with time-dependent sweeps (negations proved)."
  },
  {
   "property": "C84",
   "status": "partial",
   "theorems": [
    "Verif.Toolbox.C84_fock_partial",
    "Verif.Toolbox.C84_pauli_partial",
    "Verif.Toolbox.C84_power_positive",
    "Verif.Toolbox.C84_spin_dimension",
    "Verif.Toolbox.C84_errors_lost",
    "Verif.Toolbox.C84_raises_iff",
    "Verif.Toolbox.C84_boson_powers",
    "Verif.Toolbox.C84_ladder_nilpotent",
    "Verif.Toolbox.C84_pauli_powers"
   ],
   "note": "proved for the bosonic and the Pauli operators; false for the code: the spin operators are returned for the spin dim instead of the dimension, and invalid dimensions raise nothing (negations proved)."
  },
  {
   "property": "C85",
   "status": "partial",
   "theorems": [
    "Verif.Sweep.C85_values_partial",
    "Verif.Sweep.C85_integers_partial",
    "Verif.Sweep.C85_exact",
    "Verif.Sweep.C85_beyond_iff",
    "Verif.Sweep.C85_count",
    "Verif.Sweep.C85_extra",
    "Verif.Sweep.C85_accuracy",
    "Verif.Sweep.C85_log",
    "Verif.Sweep.C85_current",
    "Verif.Sweep.C85_stale",
    "Verif.Sweep.C85_assigned",
    "Verif.Sweep.C85_rerun",
    "Verif.Sweep.C85_silent",
    "Verif.Sweep.C85_no_list_iff"
   ],
   "note": "values proved for all ranges (exactly for integers and without rounding, with error bounds in double precision); false for the code: values beyond sweepMax, a list once read is not made again, errors are dropped (negations proved). NumPy's arange and logspace are modelled, overflow is not."
  },
  {
   "property": "C86",
   "status": "partial",
   "theorems": [
    "Verif.Sweep.C86_assigns_partial",
    "Verif.Sweep.C86_owner",
    "Verif.Sweep.C86_silent",
    "Verif.Sweep.C86_raises_iff",
    "Verif.Sweep.C86_order",
    "Verif.Sweep.C86_last_wins"
   ],
   "note": "proved for systems that have the attribute; false for the code if the first system does not have it: nothing is raised and no system is swept (negations proved)."
  },
  {
   "property": "C87",
   "status": "partial",
   "theorems": [
    "Verif.Sweep.C87_points_partial",
    "Verif.Sweep.C87_stale",
    "Verif.Sweep.C87_leftover",
    "Verif.Sweep.C87_error_leaves",
    "Verif.Sweep.C87_raises",
    "Verif.Sweep.C87_commands"
   ],
   "note": "proved for every history when there are sweeps at the time of the run (first not combinatorial, lists long enough); without sweeps the claim is false: C87_stale gives the number of points and the nesting for every history, C87_leftover and C87_error_leaves give witnesses for attributes that are not restored; single process"
  },
  {
   "property": "C88",
   "status": "partial",
   "theorems": [
    "Verif.Results.C88_returns_partial",
    "Verif.Results.C88_returns_plain",
    "Verif.Results.C88_returns_nothing",
    "Verif.Results.C88_others_lost",
    "Verif.Results.C88_rerun_raises"
   ],
   "note": "C88_returns_partial needs a first sweep that is not combinatorial, lists long enough for the runs and at most 2^53 points (as C02). Return of an empty list, the raise of the next run without reset and the loss of foreign results are proved as they are in the code."
  },
  {
   "property": "C89",
   "status": "partial",
   "theorems": [
    "Verif.StateBound.C89_follows_partial",
    "Verif.StateBound.C89_linked",
    "Verif.StateBound.C89_current",
    "Verif.StateBound.C89_other_system",
    "Verif.StateBound.C89_protocol_current",
    "Verif.StateBound.C89_own",
    "Verif.StateBound.C89_own_time_raises",
    "Verif.StateBound.C89_moved",
    "Verif.StateBound.C89_failed_kept",
    "Verif.StateBound.C89_none_system",
    "Verif.StateBound.C89_none_protocol",
    "Verif.StateBound.C89_none_single",
    "Verif.StateBound.C89_single",
    "Verif.StateBound.leafAlg_fits"
   ],
   "note": "Proved for all programs. Partial because following ends when the protocol is given a time parameter: then reading raises as soon as the stored state does not fit (C89_own_time_raises), and a protocol given another system keeps the state of the old one (C89_moved). Assigning None ends the following too (C89_none_protocol). Composite inputs are C32."
  },
  {
   "property": "C90",
   "status": "partial",
   "theorems": [
    "Verif.Args.C90_frequency",
    "Verif.Args.C90_flag",
    "Verif.Args.C90_decorator_index",
    "Verif.Args.C90_numpy_rejected",
    "Verif.Args.C90_hamiltonian",
    "Verif.Args.C90_sweep_list",
    "Verif.Args.C90_integer_range_raises",
    "Verif.Args.C90_float_range",
    "Verif.Args.C90_integer_range",
    "Verif.Args.C90_dimension",
    "Verif.Args.C90_decorator",
    "Verif.Args.C90_decorator_named",
    "Verif.Args.C90_key",
    "Verif.Args.C90_name"
   ],
   "note": "False for NumPy integers and single precision numbers (C90_numpy_rejected), therefore for frequency sweeps over integer ranges (C90_integer_range_raises); what is accepted is proved as an equivalence."
  },
  {
   "property": "C91",
   "status": "partial",
   "theorems": [
    "Verif.Term.C91_shapes",
    "Verif.Term.C91_operator_iff",
    "Verif.Term.C91_operator_stored",
    "Verif.Term.C91_order",
    "Verif.Term.C91_operator_raises_partial",
    "Verif.Term.C91_matrix_partial",
    "Verif.Term.C91_matrix_raises_partial",
    "Verif.Term.C91_dimension",
    "Verif.Term.C91_failed_used",
    "Verif.Term.C91_create"
   ],
   "note": "False after an assignment to a coupling that failed because of a Pauli operator: C91_failed_used says what is used then. Proved for all other histories."
  },
  {
   "property": "C92",
   "status": "partial",
   "theorems": [
    "Verif.Term.First.C92_first_partial",
    "Verif.Term.First.C92_hamiltonian_partial",
    "Verif.Term.First.C92_create",
    "Verif.Term.First.C92_remove",
    "Verif.Term.First.C92_replace",
    "Verif.Term.First.C92_read_adds",
    "Verif.Term.First.C92_removed",
    "Verif.Term.First.C92_reset"
   ],
   "note": "For all programs that do not take away the first term, assignments reach the first term of the dictionary and nothing else. False after the first term was removed or the terms were reset: proved for all programs leading there."
  },
  {
   "property": "C93",
   "status": "proved",
   "theorems": [
    "Verif.Term.Remove.C93_removed",
    "Verif.Term.Remove.C93_absent",
    "Verif.Term.Remove.C93_own"
   ],
   "note": "For arbitrary finite graphs of systems, with a bound for the depth of calls."
  },
  {
   "property": "C94",
   "status": "proved",
   "theorems": [
    "Verif.Toolbox.Loop.C94_loopIt",
    "Verif.Toolbox.Loop.C94_calls_unique"
   ],
   "note": "Inputs are finite lists."
  },
  {
   "property": "C95",
   "status": "partial",
   "theorems": [
    "Verif.Term.Shared.C95_current_partial",
    "Verif.Term.Shared.C95_copies",
    "Verif.Term.Shared.C95_noticed",
    "Verif.Term.Shared.C95_stale",
    "Verif.Term.Shared.C95_stale_witness",
    "Verif.Term.Shared.C95_delete",
    "Verif.Term.Shared.C95_frequency",
    "Verif.Term.Shared.C95_change_only_shows"
   ],
   "note": "proved for all programs that change no list while a coupling holds it; false of the code otherwise (negation proved for all states), and the exact condition under which an assignment is noticed is proved for all programs"
  },
  {
   "property": "C96",
   "status": "partial",
   "theorems": [
    "Verif.Tree.Plus.C96_plus_partial",
    "Verif.Tree.Plus.C96_single_first",
    "Verif.Tree.Plus.C96_untyped_composite",
    "Verif.Tree.Plus.C96_untyped_first",
    "Verif.Tree.Plus.C96_raises",
    "Verif.Tree.Plus.C96_contents",
    "Verif.Tree.Plus.C96_sum",
    "Verif.Tree.Plus.C96_order",
    "Verif.Tree.Plus.C96_chain",
    "Verif.Tree.Plus.C96_not_associative",
    "Verif.Tree.Plus.C96_used_twice",
    "Verif.Tree.Plus.C96_present",
    "Verif.Tree.Plus.C96_double",
    "Verif.Tree.Plus.C96_objects"
   ],
   "note": "Proved for a composite in front and for two single systems, and for all left bracketed sums. False of the code for a single system in front of a composite (order), a system without kind in front of a composite (dropped) or behind a single system (exception), and operands used twice (positions): each proved."
  },
  {
   "property": "C97",
   "status": "partial",
   "theorems": [
    "Verif.Names.C97_found_partial",
    "Verif.Names.C97_collected",
    "Verif.Names.C97_stays_dead",
    "Verif.Names.C97_reserved",
    "Verif.Names.C97_lookup_dead",
    "Verif.Names.C97_pickle_keeps",
    "Verif.Names.C97_exists",
    "Verif.Names.C97_unknown"
   ],
   "note": "Finding existing objects is proved under the condition of C22. False of the code: names of collected objects stay reserved, their lookup gives None, and pickling keeps every object (each proved for all programs)."
  },
  {
   "property": "C98",
   "status": "partial",
   "theorems": [
    "Verif.Results.C98_values_partial",
    "Verif.Results.C98_calls_partial",
    "Verif.Results.C98_average_overwrites",
    "Verif.Results.C98_raises",
    "Verif.Results.C98_start",
    "Verif.Results.C98_method_lost"
   ],
   "note": "Proved for keys under which nothing is averaged, and for the mean; exceptions are characterised. False of the code: an average throws away earlier values, a value after an average raises, resultsMethod with average or without a string loses the value."
  },
  {
   "property": "C99",
   "status": "partial",
   "theorems": [
    "Verif.OldInit.C99_same_partial",
    "Verif.OldInit.C99_newer_then_older",
    "Verif.OldInit.C99_product",
    "Verif.OldInit.C99_none_iff",
    "Verif.OldInit.C99_none_stands",
    "Verif.OldInit.C99_assign_raises",
    "Verif.OldInit.C99_input_kept",
    "Verif.OldInit.C99_read_raises",
    "Verif.OldInit.C99_copy_iff",
    "Verif.OldInit.C99_copy_after",
    "Verif.OldInit.C99_state_never_set",
    "Verif.OldInit.C99_array"
   ],
   "note": "Proved for the private method _createAstate, which builds the same states as the newer class for inputs without None and plain integer dimensions. False of the code for the public property: for every tree, history and input assigning raises (which error is proved), reading raises, and copying afterwards raises."
  },
  {
   "property": "C100",
   "status": "partial",
   "theorems": [
    "Verif.Gate.C100_rotation",
    "Verif.Gate.C100_flip",
    "Verif.Gate.C100_unknown_implementation",
    "Verif.Gate.C100_unitary",
    "Verif.Gate.C100_answer",
    "Verif.Gate.C100_after_mark",
    "Verif.Gate.C100_quiet",
    "Verif.Gate.C100_current_partial",
    "Verif.Gate.C100_phase_stale",
    "Verif.Gate.C100_open_stale",
    "Verif.Gate.C100_removed_stale",
    "Verif.Gate.C100_spinRotation_implementation",
    "Verif.Gate.C100_bad_axis",
    "Verif.Gate.C100_size_forgotten",
    "Verif.Gate.C100_systems",
    "Verif.Gate.C100_order"
   ],
   "note": "Which matrix is computed, which one is answered and when it is current are proved for all histories. False of the code when phase, implementation, the systems or the dissipators change after the first question (proved for all gates), after an unknown axis, and for instant gates on systems that are no qubits."
  },
  {
   "property": "C101",
   "status": "partial",
   "theorems": [
    "Verif.Names.C101_restart_partial",
    "Verif.Names.C101_own_part",
    "Verif.Names.C101_old_lookup",
    "Verif.Names.C101_old_alias_iff",
    "Verif.Names.C101_old_alias_any",
    "Verif.Names.C101_old_alias_witness",
    "Verif.Names.C101_same_names",
    "Verif.Names.C101_replaces",
    "Verif.Names.C101_results_kept",
    "Verif.Names.C101_results_replaced",
    "Verif.Names.C101_results_first",
    "Verif.Names.C101_results_wrong"
   ],
   "note": "New objects behave as in a fresh session and older objects keep finding each other (proved for all histories). False of the code: aliases of older objects are checked against the newer objects, names occur twice and replace each other in dictionaries, and the result objects are kept (negations proved)."
  },
  {
   "property": "C102",
   "status": "partial",
   "theorems": [
    "Verif.Units.C102_follows_partial",
    "Verif.Units.C102_attribute",
    "Verif.Units.C102_item",
    "Verif.Units.C102_decided",
    "Verif.Units.C102_update_ignored",
    "Verif.Units.C102_attribute_only",
    "Verif.Units.C102_deleted",
    "Verif.Units.C102_unknown",
    "Verif.Units.C102_shadowed",
    "Verif.Units.C102_get"
   ],
   "note": "Proved for histories of settings[...] = ... with strings; for all histories what the attribute, the item and the constant are is given exactly. False of the code after update, attribute assignments and del, for hasattr and for constants.get (negations proved)."
  },
  {
   "property": "C103",
   "status": "partial",
   "theorems": [
    "Verif.Names.Res.C103_aliases_partial",
    "Verif.Names.Res.C103_lookup_partial",
    "Verif.Names.Res.C103_tuple",
    "Verif.Names.Res.C103_half_done",
    "Verif.Names.Res.C103_list_stops",
    "Verif.Names.Res.C103_witness"
   ],
   "note": "Proved for all programs whose alias assignments are strings or lists of strings and in which nothing is refused; the lookups also need that no alias equals a later generated name (see C22). False of the code for tuples and nested lists, and an assignment that raises leaves the object with the alias and the results without it (negations proved for all states)."
  },
  {
   "property": "C104",
   "status": "partial",
   "theorems": [
    "Verif.SpinJ.C104_spin_partial",
    "Verif.SpinJ.C104_refused_iff",
    "Verif.SpinJ.C104_rounded",
    "Verif.SpinJ.C104_no_number",
    "Verif.SpinJ.C104_constructor",
    "Verif.SpinJ.C104_levels",
    "Verif.SpinJ.C104_always",
    "Verif.SpinJ.C104_old_negative",
    "Verif.SpinJ.C104_old_rounded",
    "Verif.SpinJ.C104_qubit",
    "Verif.SpinJ.C104_qubit_keywords",
    "Verif.SpinJ.C104_qubit_changed",
    "Verif.SpinJ.C104_pauli"
   ],
   "note": "Proved for all multiples of one half, with the levels of the Hamiltonian, and for all histories that jValue and dimension agree. False of the code for other positive numbers (rounded down), for negative numbers in the older class, for spin 0 (no Hamiltonian) and for qubits, which can be given any spin (negations proved)."
  }
 ]
}
