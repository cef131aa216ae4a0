{"claims": [
 {"property": "C01", "status": "proved", "theorems": ["Pyphs.C01_myrange_spec", "Pyphs.C01_myrange_iff", "Pyphs.C01_myrange_error", "Pyphs.C01_myrange_roundtrip"], "note": ""},
 {"property": "C02", "status": "proved", "theorems": ["Pyphs.Core.C02_move_storage", "Pyphs.Core.C02_move_dissipative", "Pyphs.Core.C02_move_port", "Pyphs.Core.C02_move_connector", "Pyphs.Core.C02_move", "Pyphs.Core.C02_moves_history", "Pyphs.Core.C02_out_of_range_counterexample"], "note": ""},
 {"property": "C03", "status": "proved", "theorems": ["Pyphs.Core.C03_decomposition", "Pyphs.Core.C03_unique", "Pyphs.Core.C03_power", "Pyphs.Core.C03_conservative_iff", "Pyphs.Core.C03_passive_iff"], "note": ""},
 {"property": "C04", "status": "proved", "theorems": ["Pyphs.Core.C04_set_M", "Pyphs.Core.C04_get_set_M", "Pyphs.Core.C04_set_J", "Pyphs.Core.C04_set_R", "Pyphs.Core.C04_set_J_diag", "Pyphs.Core.C04_set_R_diag", "Pyphs.Core.C04_overlap_counterexample", "Pyphs.Core.C04_set_J_diag_nonskew_counterexample"], "note": ""},
 {"property": "C05", "status": "proved", "theorems": ["Pyphs.Core.C05_add_history", "Pyphs.Core.C05_add_error", "Pyphs.Core.C05_set_after_add_resets"], "note": ""},
 {"property": "C06", "status": "proved", "theorems": ["Pyphs.Core.C06_sum", "Pyphs.Core.C06_sum_wf", "Pyphs.Core.C06_power", "Pyphs.Core.C06_conservative_iff", "Pyphs.Core.C06_passive_iff"], "note": ""},
 {"property": "C07", "status": "proved", "theorems": ["Pyphs.Core.C07_add_connector", "Pyphs.Core.C07_add_connector_error", "Pyphs.Core.C07_history"], "note": ""},
 {"property": "C08", "status": "proved", "theorems": ["Pyphs.Core.C08_connect", "Pyphs.Core.C08_connect_error"], "note": ""},
 {"property": "C09", "status": "proved", "theorems": ["Pyphs.Core.C09_power", "Pyphs.Core.C09_quad", "Pyphs.Core.C09_conservative", "Pyphs.Core.C09_passive"], "note": ""},
 {"property": "C10", "status": "proved", "theorems": ["Pyphs.Core.C10_sign_of_code", "Pyphs.Core.C10_documented_sign_counterexample", "Pyphs.Core.C10_documented_by_swap"], "note": ""},
 {"property": "C11", "status": "proved", "theorems": ["Pyphs.Core.C11_reduce", "Pyphs.Core.C11_reduce_error", "Pyphs.Core.C11_force_error", "Pyphs.Core.C11_force_all", "Pyphs.Core.C11_force_counterexample"], "note": ""},
 {"property": "C12", "status": "proved", "theorems": ["Pyphs.Core.C12_power", "Pyphs.Core.C12_passive"], "note": ""},
 {"property": "C13", "status": "proved", "theorems": ["Pyphs.Core.C13_linear_nonlinear"], "note": ""},
 {"property": "C14", "status": "proved", "theorems": ["Pyphs.Core.C14_monovar_multivar", "Pyphs.Core.C14_symmetry_needed"], "note": ""},
 {"property": "C15", "status": "proved", "theorems": ["Pyphs.Scheme.C15_coupling_counterexample", "Pyphs.Scheme.C15_linear_exact", "Pyphs.Scheme.C15_quadratic_form"], "note": ""},
 {"property": "C16", "status": "proved", "theorems": ["Pyphs.Scheme.C16_boundary_counterexample", "Pyphs.Scheme.C16_exact", "Pyphs.Scheme.C16_taylor", "Pyphs.Scheme.C16_gradient_at_zero", "Pyphs.Scheme.C16_separable_of_cross"], "note": ""},
 {"property": "C17", "status": "proved", "theorems": ["Pyphs.Scheme.C17_exact", "Pyphs.Scheme.C17_midpoint"], "note": ""},
 {"property": "C18", "status": "proved", "theorems": ["Pyphs.Scheme.C18_not_exact", "Pyphs.Scheme.C18_theta_not_exact", "Pyphs.Scheme.C18_theta", "Pyphs.Scheme.C18_trapez", "Pyphs.Scheme.C18_midpoint_exact", "Pyphs.Scheme.C18_trapez_exact"], "note": ""},
 {"property": "C19", "status": "proved", "theorems": ["Pyphs.Core.C19_balance", "Pyphs.Core.C19_pd_error", "Pyphs.Core.C19_dissipated_nonneg", "Pyphs.Core.C19_energy_derivative"], "note": ""},
 {"property": "C20", "status": "proved", "theorems": ["Pyphs.Scheme.C20_split_counterexample", "Pyphs.Scheme.C20_defect", "Pyphs.Scheme.C20_balance", "Pyphs.Scheme.C20_passive", "Pyphs.Scheme.C20_gradient_exact"], "note": "The balance holds for every exact discrete gradient; C20_split_counterexample shows that the default option split=True can produce a gradient that is not exact."},
 {"property": "C21", "status": "proved", "theorems": ["Pyphs.Scheme.C21_energy", "Pyphs.Scheme.C21_passive", "Pyphs.Scheme.C21_no_input"], "note": ""},
 {"property": "C22", "status": "proved", "theorems": ["Pyphs.Scheme.C22_reduced_solves", "Pyphs.Scheme.C22_solution_reduced", "Pyphs.Scheme.C22_G_indep", "Pyphs.Scheme.C22_jacobian"], "note": ""},
 {"property": "C23", "status": "proved", "theorems": ["Pyphs.Numeric.C23_terminates", "Pyphs.Numeric.C23_exit", "Pyphs.Numeric.C23_converged", "Pyphs.Numeric.C23_progress"], "note": ""},
 {"property": "C24", "status": "proved", "theorems": ["Pyphs.Numeric.C24_step", "Pyphs.Numeric.C24_history", "Pyphs.Numeric.C24_inputs", "Pyphs.Numeric.C24_slots"], "note": ""},
 {"property": "C25", "status": "proved", "theorems": ["Pyphs.Numeric.C25_value", "Pyphs.Numeric.C25_error_iff", "Pyphs.Numeric.C25_exists", "Pyphs.Numeric.C25_frozen", "Pyphs.C25_find", "Pyphs.C25_find_values"], "note": ""},
 {"property": "C26", "status": "proved", "theorems": ["Pyphs.Numeric.C26_schedule", "Pyphs.Numeric.C26_cycle"], "note": ""},
 {"property": "C27", "status": "proved", "theorems": ["Pyphs.Sym.C27_theta", "Pyphs.Sym.C27_split", "Pyphs.Sym.C27_split_counterexample", "Pyphs.Sym.C27_theta_zero", "Pyphs.Sym.C27_gradient_shifted", "Pyphs.Sym.C27_trapez", "Pyphs.Sym.C27_trapez_split"], "note": "Holds without split (C27_theta, C27_trapez) and for theta=0; C27_split and C27_trapez_split give the point really used with split=True, C27_split_counterexample refutes the documented one."},
 {"property": "C28", "status": "proved", "theorems": ["Pyphs.Sym.C28_values", "Pyphs.Sym.C28_resolved", "Pyphs.Sym.C28_chain_counterexample", "Pyphs.Sym.C28_order_counterexample", "Pyphs.Sym.C28_caller_dict_modified"], "note": "Values preserved (C28_values) and flat dictionaries resolved (C28_resolved); chains are not resolved (C28_chain_counterexample, C28_order_counterexample)."},
 {"property": "C29", "status": "proved", "theorems": ["Pyphs.Cpp.C29_construct", "Pyphs.Cpp.C29_method", "Pyphs.Cpp.C29_update", "Pyphs.Cpp.C29_history", "Pyphs.Cpp.C29_run"], "note": "Update, histories, construction and whole simulations for every program (C29_update, C29_history, C29_construct, C29_run) and for the programs of numerical methods (C29_method), as long as the Python update does not raise. Numbers are exact; Matrix::inverse is assumed right on invertible matrices."},
 {"property": "C30", "status": "proved", "theorems": ["Pyphs.Cpp.C30_as_new", "Pyphs.Cpp.C30_rate", "Pyphs.Cpp.C30_stale", "Pyphs.Cpp.C30_stale_example"], "note": "What the user expects is false: coefficients without arguments are never updated (C30_stale, C30_stale_example). The property states the exact condition: when none of them contains the sample rate the object behaves as a Numeric built with the new rate (C30_as_new, C30_rate)."},
 {"property": "C31", "status": "proved", "theorems": ["Pyphs.Cpp.C31_default", "Pyphs.Cpp.C31_user", "Pyphs.Cpp.C31_order", "Pyphs.Cpp.C31_wrong", "Pyphs.Cpp.C31_text", "Pyphs.Cpp.C31_rows", "Pyphs.Cpp.C31_first"], "note": "True without dictionary (C31_default) and when the keys of the method come first in the dictionary (C31_user), which is necessary for distinct values (C31_order); C31_wrong shows exchanged values and an index out of bounds, C31_text that two dictionaries give a text which is not C++. C31_rows: the rows of the table of several dictionaries, and when a key is missing; C31_first: the generated code reads the first row."},
 {"property": "C32", "status": "proved", "theorems": ["Pyphs.H5.C32_chunks", "Pyphs.H5.C32_any_chunk", "Pyphs.H5.C32_empty_never_ends", "Pyphs.H5.C32_width_counterexample", "Pyphs.H5.C32_length_counterexample"], "note": "Holds for rectangular sequences with the announced number of rows and a positive number of rows; the counterexamples show what happens otherwise."},
 {"property": "C33", "status": "proved", "theorems": ["Pyphs.H5.C33_partition", "Pyphs.H5.C33_repeat_counterexample", "Pyphs.H5.C33_dump", "Pyphs.H5.C33_history", "Pyphs.H5.C33_component", "Pyphs.H5.C33_component_counterexample", "Pyphs.H5.C33_init"], "note": "Partition for distinct names (C33_partition), dump/read (C33_dump, C33_history, C33_component); counterexamples for repeated names and unchecked component indices."},
 {"property": "C34", "status": "proved", "theorems": ["Pyphs.H5.C34_prefix", "Pyphs.H5.C34_from_init", "Pyphs.H5.C34_stop"], "note": "Prefix of the complete run for every interruption point; the window stop also limits the run (C34_stop). HDF5 buffering is not modelled."},
 {"property": "C35", "status": "proved", "theorems": ["Pyphs.H5.C35_stored", "Pyphs.H5.C35_time", "Pyphs.H5.C35_stack", "Pyphs.H5.C35_expression", "Pyphs.H5.C35_expression_step_one", "Pyphs.H5.C35_constant", "Pyphs.H5.C35_observers_counterexample", "Pyphs.H5.C35_powers", "Pyphs.H5.C35_step_counterexample", "Pyphs.H5.C35_clip_counterexample", "Pyphs.H5.C35_negative_counterexample"], "note": "Holds for windows inside the file (stored signals, time) and, for expressions, when the step divides the length; counterexamples for the remaining cases."},
 {"property": "C36", "status": "proved", "theorems": ["Pyphs.H5.C36_window", "Pyphs.H5.C36_integers", "Pyphs.H5.C36_raise", "Pyphs.H5.C36_set_get", "Pyphs.H5.C36_times", "Pyphs.H5.C36_float_counterexample", "Pyphs.H5.C36_init", "Pyphs.H5.C36_init_counterexample"], "note": "Holds for integer assignments in every history; counterexamples for float values and for init_data."},
 {"property": "C37", "status": "proved", "theorems": ["Pyphs.Sim.C37_configure", "Pyphs.Sim.C37_simulation", "Pyphs.Sim.C37_protected", "Pyphs.Sim.C37_defaults", "Pyphs.Sim.C37_own_load", "Pyphs.Sim.C37_disjoint", "Pyphs.Sim.C37_consistent", "Pyphs.Sim.C37_load_counterexample", "Pyphs.Sim.C37_method_counterexample", "Pyphs.Sim.C37_init_counterexample"], "note": "Unknown keys are rejected by the constructors, accepted keys override exactly, the defaults other than the shared load options are never modified; counterexamples for the load options, a shared method and Simulation.init."},
 {"property": "C38", "status": "proved", "theorems": ["Pyphs.Numeric.C38_init", "Pyphs.Numeric.C38_reject"], "note": "An argument that shares symbols with another key of inits (v, vl, vnl, dx, w) gets the value of the last one; C38_init requires disjoint symbols."},
 {"property": "C39", "status": "proved", "theorems": ["Pyphs.Graph.C39_every_interleaving", "Pyphs.Graph.C39_start", "Pyphs.Graph.C39_analysis"], "note": ""},
 {"property": "C40", "status": "proved", "theorems": ["Pyphs.Graph.C40_one_edge_per_node", "Pyphs.Graph.C40_matching"], "note": ""},
 {"property": "C41", "status": "proved", "theorems": ["Pyphs.Graph.C41_init_ends", "Pyphs.Graph.C41_iteration_ends", "Pyphs.Graph.C41_ends_or_stuck", "Pyphs.Graph.C41_ends_if_controls_given", "Pyphs.Graph.C41_ring_never_ends"], "note": "Each phase ends (C41_init_ends, C41_iteration_ends), the analysis ends when the controls are given, and otherwise it ends or reaches a state that repeats; C41_ring_never_ends shows that the code does not end on a ring of resistors."},
 {"property": "C42", "status": "proved", "theorems": ["Pyphs.Graph.C42_any_order", "Pyphs.Graph.C42_skew", "Pyphs.Graph.C42_kirchhoff"], "note": ""},
 {"property": "C43", "status": "proved", "theorems": ["Pyphs.Graph.C43_order", "Pyphs.Graph.C43_built"], "note": ""},
 {"property": "C44", "status": "proved", "theorems": ["Pyphs.Graph.C44_structure", "Pyphs.Graph.C44_repeat", "Pyphs.Graph.C44_period", "Pyphs.Graph.C44_counterexample"], "note": "Everything but the ratios of the connectors is the same at each call (C44_structure), all is the same when no ratio is inverted (C44_repeat), and the result has period two otherwise (C44_period); C44_counterexample shows that two calls can differ."},
 {"property": "C45", "status": "proved", "theorems": ["Pyphs.Graph.C45_network_parallel_nonreal", "Pyphs.Graph.C45_network_serial_nonreal", "Pyphs.Graph.C45_network_parallel_real", "Pyphs.Graph.C45_network_serial_real", "Pyphs.Graph.C45_parallel_real", "Pyphs.Graph.C45_serial_real", "Pyphs.Graph.C45_parallel_linear", "Pyphs.Graph.C45_serial_linear", "Pyphs.Graph.C45_power_parallel", "Pyphs.Graph.C45_parallel_nonreal", "Pyphs.Graph.C45_serial_nonreal", "Pyphs.Graph.C45_storage_nonreal", "Pyphs.Graph.C45_storage_linear", "Pyphs.Graph.C45_storage_real", "Pyphs.Graph.C45_storage_real_counterexample"], "note": "Linear formulas for any number of components (C45_parallel_linear, C45_serial_linear, C45_storage_linear), increasing nonlinear laws, networks (C45_network_*) and energies (C45_storage_*). The solver and the integrator are assumed to return a right inverse and a primitive. Cluster detection is not modelled. Merged realizable storages need equal initial states (C45_storage_real_counterexample)."},
 {"property": "C46", "status": "proved", "theorems": ["Pyphs.Netlist.C46_space_lost", "Pyphs.Netlist.C46_constant_label", "Pyphs.Netlist.C46_keyword_label", "Pyphs.Netlist.C46_number_label", "Pyphs.Netlist.C46_one_tuple", "Pyphs.Netlist.C46_colon", "Pyphs.Netlist.C46_roundtrip", "Pyphs.Netlist.C46_comments"], "note": ""},
 {"property": "C47", "status": "proved", "theorems": ["Pyphs.Netlist.C47_add", "Pyphs.Netlist.C47_get", "Pyphs.Netlist.C47_del", "Pyphs.Netlist.C47_set", "Pyphs.Netlist.C47_aligned", "Pyphs.Netlist.C47_plus", "Pyphs.Netlist.C47_plus_self", "Pyphs.Netlist.C47_set_mixture"], "note": ""},
 {"property": "C48", "status": "proved", "theorems": ["Pyphs.Compo.C48_resistor", "Pyphs.Compo.C48_damper", "Pyphs.Compo.C48_damperDual", "Pyphs.Compo.C48_inverse", "Pyphs.Compo.C48_passive", "Pyphs.Compo.C48_name_clash"], "note": ""},
 {"property": "C49", "status": "proved", "theorems": ["Pyphs.Compo.C49_triode_active", "Pyphs.Compo.C49_diode", "Pyphs.Compo.C49_diode_inverse", "Pyphs.Compo.C49_bjt", "Pyphs.Compo.C49_potentiometer", "Pyphs.Compo.C49_felt"], "note": ""},
 {"property": "C50", "status": "proved", "theorems": ["Pyphs.Compo.C50_capacitor", "Pyphs.Compo.C50_inductor", "Pyphs.Compo.C50_mass", "Pyphs.Compo.C50_stiffness", "Pyphs.Compo.C50_massDual", "Pyphs.Compo.C50_stiffnessDual", "Pyphs.Compo.C50_magCapacitor", "Pyphs.Compo.C50_linear_energy", "Pyphs.Compo.C50_default_capacitance", "Pyphs.Compo.C50_springcubic", "Pyphs.Compo.C50_springsat", "Pyphs.Compo.C50_capacitorsat", "Pyphs.Compo.C50_thermCapacitor", "Pyphs.Compo.C50_felt", "Pyphs.Compo.C50_label_clash"], "note": ""},
 {"property": "C51", "status": "proved", "theorems": ["Pyphs.Graph.C51_controls", "Pyphs.Graph.C51_lossless", "Pyphs.Graph.C51_gyrator", "Pyphs.Graph.C51_transformer", "Pyphs.Graph.C51_gyrator_counterexample", "Pyphs.Graph.C51_transformer_counterexample"], "note": "Losslessness for every ratio in all control configurations (C51_lossless) with the exact relations produced (C51_gyrator, C51_transformer); the counterexamples show that the sign or the value of the ratio differs from the documented one in one configuration of each."},
 {"property": "C52", "status": "proved", "theorems": ["Pyphs.Compo.C52_transfer", "Pyphs.Compo.C52_trajectory", "Pyphs.Compo.C52_documented_sign"], "note": ""},
 {"property": "C53", "status": "proved", "theorems": ["Pyphs.Pwl.C53_origin", "Pyphs.Pwl.C53_points", "Pyphs.Pwl.C53_segments", "Pyphs.Pwl.C53_ends", "Pyphs.Pwl.C53_origin_needed", "Pyphs.Pwl.C53_monotone", "Pyphs.Pwl.C53_dissipative_passive", "Pyphs.Pwl.C53_unsorted_active", "Pyphs.Pwl.C53_storage_energy", "Pyphs.Pwl.C53_storage_extrapolation", "Pyphs.Pwl.C53_integral", "Pyphs.Pwl.C53_storage_integrated"], "note": ""},
 {"property": "C54", "status": "proved", "theorems": ["Pyphs.C54_decimate", "Pyphs.C54_decimate_error", "Pyphs.C54_removeDuplicates", "Pyphs.C54_interleave", "Pyphs.C54_getStrings", "Pyphs.C54_getStrings_order"], "note": ""},
 {"property": "C55", "status": "proved", "theorems": ["Pyphs.Signals.C55_content", "Pyphs.Signals.C55_length", "Pyphs.Signals.C55_documented_length", "Pyphs.Signals.C55_duration", "Pyphs.Signals.C55_no_cycle", "Pyphs.Signals.C55_bounded", "Pyphs.Signals.C55_counterexample", "Pyphs.Signals.C55_ratio_raises"], "note": "Fails as documented: only the last cycle is kept, so the length is that of one cycle (C55_counterexample, C55_documented_length). Content, length, duration and amplitude proved for what the code does."},
 {"property": "C56", "status": "proved", "theorems": ["Pyphs.Signals.C56_fade_silent", "Pyphs.Signals.C56_round_trip", "Pyphs.Signals.C56_normalize", "Pyphs.Signals.C56_out_of_range", "Pyphs.Signals.C56_stable"], "note": "Round trip within one quantisation step for samples in [-1,1], with normalization, and exact second round trip. Out of range samples raise (C56_out_of_range). Header and resampling not modelled."},
 {"property": "C57", "status": "proved", "theorems": ["Pyphs.Copy.C57_shared", "Pyphs.Copy.C57_counterexample", "Pyphs.Copy.C57_load_extra", "Pyphs.Copy.C57_load_missing", "Pyphs.Copy.C57_value_semantics", "Pyphs.Copy.C57_methods_plain", "Pyphs.Copy.C57_copy", "Pyphs.Copy.C57_independent", "Pyphs.Copy.C57_interleaved", "Pyphs.Copy.C57_save_load"], "note": "Proved for every program that does not change the coefficient of a shared connector (refinement to plain values). Fails for connector coefficients (C57_shared, C57_counterexample) and for load with different names (C57_load_extra, C57_load_missing)."},
 {"property": "C58", "status": "proved", "theorems": ["Pyphs.Core.C58_output", "Pyphs.Core.C58_connector_counterexample"], "note": ""},
 {"property": "C59", "status": "proved", "theorems": ["Pyphs.Numeric.C59_consistent", "Pyphs.Numeric.C59_balance"], "note": ""},
 {"property": "C60", "status": "proved", "theorems": ["Pyphs.Graph.C60_prescribed"], "note": ""},
 {"property": "C61", "status": "proved", "theorems": ["Pyphs.Frac.C61_intec", "Pyphs.Frac.C61_intfc", "Pyphs.Frac.C61_derec", "Pyphs.Frac.C61_derfc", "Pyphs.Frac.C61_derfc_counterexample", "Pyphs.Frac.C61_integrator_transfer", "Pyphs.Frac.C61_derivator_transfer", "Pyphs.Frac.C61_integrator_passive", "Pyphs.Frac.C61_derivator_passive"], "note": "Proved for Fracintec, Fracintfc and Fracderec. Fracderfc violates its documentation: C61_derfc gives the law it really has (poles multiplied by (g mu)^4), C61_derfc_counterexample a solution of the equations of a core that violates the documented one."},
 {"property": "C62", "status": "proved", "theorems": ["Verif.Split.C62_split", "Verif.Split.C62_assemble", "Verif.Split.C62_roundtrip", "Verif.Split.C62_ports", "Verif.Split.C62_out_label", "Verif.Split.C62_hanging_loop", "Verif.Split.C62_floating_loop"], "note": "Proved for all graphs without self-loops and without hanging loops (NoHang), all enumeration orders. Outside: sp_split never ends (C62_hanging_loop) or raises (C62_floating_loop); labels that contain _out_ are lost (C62_out_label)."},
 {"property": "C63", "status": "proved", "theorems": ["Pyphs.Circuit.C63_core", "Pyphs.Circuit.C63_step", "Pyphs.Circuit.C63_outputs"], "note": "Constitutive laws may depend on parameters and on the variable of the edge, not on states or gradients (StaticLaws); serial/parallel merges and Core.substitute are not part of the chain."},
 {"property": "C64", "status": "proved", "theorems": ["Pyphs.Circuit.C64_counterexample", "Pyphs.Circuit.C64_balance", "Pyphs.Circuit.C64_exact", "Pyphs.Circuit.C64_quadratic", "Pyphs.Circuit.C64_groups", "Pyphs.Circuit.C64_nosplit"], "note": "The code violates the property with its default split=True (C64_counterexample): a nonlinear storage on a current source is classified linear. Proved without condition on options for quadratic energies (C64_quadratic), for every smooth energy with split=False (C64_nosplit), and for every option under the exact condition on the groups of states (C64_groups). The implicit equations are supposed solved exactly."},
 {"property": "C65", "status": "proved", "theorems": ["Pyphs.Record.C65_balance", "Pyphs.Record.C65_deltaH", "Pyphs.Record.C65_passive", "Pyphs.Record.C65_step_counterexample", "Pyphs.Record.C65_file"], "note": "For systems without observers. SplitOK (the equations classified linear are affine) is a hypothesis, derived from Method for circuits in C66_split_exact. With a step of several samples the last value of dtE('deltaH') is divided by the step (C65_step_counterexample)."},
 {"property": "C66", "status": "proved", "theorems": ["Pyphs.Circuit.C66_split_exact", "Pyphs.Circuit.C66_update", "Pyphs.Circuit.C66_passive"], "note": "Contract on sympy (JacSound): the free symbols of an entry of the Jacobian contain the symbols on which it depends. Regular components: distinct names, twice differentiable energy that does not contain the increments, differentiable laws that do not contain them. In C22_jacobian differentiability is asked at the point only, since the discrete gradient is a Piecewise."},
 {"property": "C67", "status": "proved", "theorems": ["Pyphs.Record.C67_run", "Pyphs.Circuit.C67_circuit", "Pyphs.Circuit.C67_passive", "Pyphs.Numeric.C67_nonsing", "Pyphs.Numeric.C67_update", "Pyphs.Numeric.C67_coupled_fails"], "note": "Monotone components: energy without cross derivatives between distinct states and with a nonnegative second derivative, dissipative laws that depend on no other unknown and have a nonnegative derivative. Without the condition on cross derivatives the code violates the claim (C67_coupled_fails: a LinAlgError at each update of a lossless strictly convex system whose steps have one solution). Real arithmetic, no rounding."},
 {"property": "C68", "status": "proved", "theorems": ["Pyphs.Circuit.C68_options", "Pyphs.Circuit.C68_simulation", "Pyphs.Numeric.C68_unique"], "note": "Same rule: same sample rate and the same theta or trapezoidal rule, or any rules with the same weight for quadratic energies. Exact solution of the equations of each step is a hypothesis (SolvedRun)."},
 {"property": "C69", "status": "proved", "theorems": ["Pyphs.Circuit.C69_linear", "Pyphs.Circuit.C69_passive", "Pyphs.Circuit.C69_same", "Pyphs.Numeric.C69_converges"], "note": "Linear circuit: quadratic energy and dissipative laws whose derivative is constant in the own variable. The relative stopping criterion makes the bound eps relative to the scale of the first residual as in the code. Real arithmetic, no rounding."},
 {"property": "C70", "status": "proved", "theorems": ["Pyphs.Circuit.C70_circuit", "Pyphs.Circuit.C70_linear", "Pyphs.Numeric.C70_step"], "note": "The second derivative of the energy with respect to each state is a constant k; the norm is the sum of k times squared differences of the states at the end of the steps. The slack of a step is 2/fs*(2*tol*sum of the differences of the laws), zero for a zero tolerance. For weights below 1/2 nothing is claimed. Systems without observers."},
 {"property": "C71", "status": "proved", "theorems": ["Pyphs.Sym.C71_values", "Pyphs.Sym.C71_extends", "Pyphs.Sym.C71_none_left", "Pyphs.Sym.C71_ends", "Pyphs.Sym.C71_collision", "Pyphs.Sym.C71_raises"], "note": "The names 'inv'+parameter must be new (FreshInv); otherwise the code overwrites the parameter of that name (C71_collision). An expression that sympy simplifies to a symbol or a general number makes the call raise TypeError outside matrices and dictionaries (C71_raises). Contract on sympy: simplify keeps values and adds no symbol (SimpAt, SimpFree), arguments of a simplified expression do not simplify to numbers (SimpDeep, for C71_none_left only)."},
 {"property": "C72", "status": "proved", "theorems": ["Pyphs.Faust.C72_circuit", "Pyphs.Faust.C72_linear", "Pyphs.Faust.C72_half_speed", "Pyphs.Faust.C72_misordered", "Pyphs.Faust.C72_invmat", "Pyphs.Faust.C72_stereo", "Pyphs.Faust.C72_process", "Pyphs.Faust.C72_typed", "Pyphs.Faust.C72_interleaved", "Pyphs.Faust.C72_python"], "note": "The code violates the expected property: the memorised signals are delayed twice (C72_half_speed), and nonlinear states with linear dissipations are misordered (C72_misordered). Proved: what the programs compute otherwise (C72_interleaved, C72_python, C72_linear, C72_circuit), their acceptance (C72_typed, C72_stereo), the process (C72_process) and the expressions (C72_invmat). Hypotheses: no observers and no parameters (for the comparison with Python), at least one state and one output, the Python solver makes all its iterations (eps < 0), has nothing to solve, or ends with a residual of zero. Trusted: the semantics of the Faust constructions in Faust/Model.lean."},
 {"property": "C73", "status": "proved", "theorems": ["Pyphs.Cpp.C73_method", "Pyphs.Cpp.C73_loop", "Pyphs.Cpp.C73_run", "Pyphs.Cpp.C73_circuit", "Pyphs.Cpp.C73_stop", "Pyphs.Cpp.C73_float"], "note": "C73_loop: any object and any layout; C73_method, C73_run: numerical methods, from the construction; C73_circuit: circuits of monotone components. Where the two simulations differ: C73_stop (load window), C73_float (initial values in single precision). Exact arithmetic; the members of the struct are contiguous doubles; the updates in Python must succeed (always true in C73_circuit)."},
 {"property": "C74", "status": "proved", "theorems": ["Pyphs.Circuit.C74_circuit", "Pyphs.Circuit.C74_run", "Pyphs.Numeric.C74_step"], "note": "C74_step: any method with a structure that creates no power and laws that are nondecreasing functions of their own unknown; C74_circuit: circuits (the names of the inputs are no unknowns of the step), in terms of the equations of the circuit; C74_run: all the steps of a simulation. With the discrete gradient the energy must be quadratic. Not claimed: that the iterations converge to this solution."},
 {"property": "C75", "status": "proved", "theorems": ["Pyphs.Circuit.C75_exact", "Pyphs.Circuit.C75_runs"], "note": "C75_exact: against the exact solution of C74; C75_runs: two simulations with other tolerances, numbers of iterations, starting points. Hypotheses: quadratic energy, laws with slopes bounded by L, solver converged at each step (always true for linear circuits, C69). Exact arithmetic."},
 {"property": "C76", "status": "proved", "theorems": ["Pyphs.Beam.C76_names", "Pyphs.Beam.C76_collision", "Pyphs.Beam.C76_beam", "Pyphs.Beam.C76_power", "Pyphs.Beam.C76_mobility", "Pyphs.Beam.C76_reciprocal", "Pyphs.Beam.C76_passive"], "note": "C76_beam: the network in any assembled graph; C76_power, C76_passive, C76_mobility, C76_reciprocal: consequences of the modal equations; C76_names, C76_collision: the labels (they collide with 12 contacts and 11 modes). Hypotheses: coefficients and dampings not zero (the code divides by them), contacts are not inner nodes of the beam."},
 {"property": "C77", "status": "proved", "theorems": ["Pyphs.Beam.C77_shape", "Pyphs.Beam.C77_mode", "Pyphs.Beam.C77_projection", "Pyphs.Beam.C77_point", "Pyphs.Beam.C77_clamped_end", "Pyphs.Beam.C77_felt", "Pyphs.Beam.C77_instance", "Pyphs.Beam.C77_window", "Pyphs.Beam.C77_orthogonal"], "note": "C77_shape, C77_mode: the function is a normalised clamped-free mode; C77_window: the weight; C77_projection, C77_point, C77_felt: the coefficients; C77_orthogonal; C77_clamped_end: coefficient 0 at the clamped end. For k*w = pi the code computes 0/0. Where the window leaves the beam the formula integrates the analytic continuation of the mode."},
 {"property": "C78", "status": "proved", "theorems": ["Pyphs.Beam.C78_waves", "Pyphs.Beam.C78_frequency", "Pyphs.Beam.C78_length", "Pyphs.Beam.C78_cantilever", "Pyphs.Beam.C78_modes", "Pyphs.Beam.C78_roots"], "note": "C78_roots, C78_modes: all the modes; C78_waves, C78_frequency, C78_length: the functions; C78_cantilever: from the parameters to the equations. Exact arithmetic; roots that are exactly points of the grid are excluded (the code would then count them twice)."},
 {"property": "C79", "status": "proved", "theorems": ["Pyphs.Juce.C79_block", "Pyphs.Juce.C79_jump", "Pyphs.Juce.C79_channels", "Pyphs.Juce.C79_name", "Pyphs.Juce.C79_ports", "Pyphs.Juce.C79_defaults", "Pyphs.Juce.C79_smooth", "Pyphs.Juce.C79_stuck", "Pyphs.Juce.C79_method", "Pyphs.Juce.C79_run", "Pyphs.Juce.C79_circuit", "Pyphs.Juce.C79_memory", "Pyphs.Juce.C79_prepare", "Pyphs.Juce.C79_stream"], "note": "C79_block: one block, any positions of the sliders, any object with the four functions used; C79_memory, C79_prepare, C79_smooth: what is kept between blocks; C79_stream, C79_method, C79_run, C79_circuit: sequences of blocks, methods, with prepareToPlay, circuits; C79_ports: the indices. Violated: C79_stuck (all blocks), C79_jump (witness): with two or more parameters all but the last one restart at each block; C79_channels: 1 input with 2 outputs does not compile, 2 inputs with 1 output leave the scaled input in the second channel, stereo effects fail on a mono bus; C79_name: parameters whose name begins with inputGain or outputGain are never set."},
 {"property": "C80", "status": "proved", "theorems": ["Pyphs.Params.C80_names", "Pyphs.Params.C80_capture_counterexample", "Pyphs.Params.C80_shared_name_counterexample", "Pyphs.Params.C80_fixed_parameter_counterexample", "Pyphs.Params.C80_twice_counterexample", "Pyphs.Params.C80_label_counterexample", "Pyphs.Params.C80_misspelt_counterexample", "Pyphs.Params.C80_values", "Pyphs.Params.C80_parameters", "Pyphs.Params.C80_resolved", "Pyphs.Params.C80_defaults"], "note": "C80_values: values of the symbols that agree with core.subs; C80_resolved: after substitution, any values; C80_parameters: core.p and core.subs; C80_defaults: default values; C80_names: simple names satisfy the hypotheses. Violated for other names: C80_capture_counterexample (keys are replaced one after the other), C80_shared_name_counterexample (two tuples of one name), C80_fixed_parameter_counterexample (a parameter which is also a named value has no effect), C80_twice_counterexample (a shared parameter is twice in core.p), C80_label_counterexample (state 'x'+label equal to label_key of another component); C80_misspelt_counterexample: unknown keyword arguments are accepted and ignored."},
 {"property": "C81", "status": "proved", "theorems": ["Pyphs.Circuit.C81_split_counterexample", "Pyphs.Circuit.C81_step", "Pyphs.Circuit.C81_outputs", "Pyphs.Circuit.C81_exact", "Pyphs.Circuit.C81_quadratic", "Pyphs.Circuit.C81_nosplit"], "note": "C81_step: equations of a step for all options; C81_outputs: solutions for given inputs and outputs; C81_exact, C81_quadratic, C81_nosplit: passivity. Disagreement: with split=True the structure is evaluated twice, so the laws are taken at the end of the step and not in the middle (C81_split_counterexample). Passivity holds nevertheless."},
 {"property": "C82", "status": "proved", "theorems": ["Pyphs.Numeric.C82_observers", "Pyphs.Numeric.C82_motion", "Pyphs.Pickup.C82_pickup", "Pyphs.Pickup.C82_induction"], "note": "C82_pickup: laws of the coil in any graph; C82_induction: the voltage is the derivative of the flux; C82_observers: values of observers in an update; C82_motion: position and velocity given by Observerec. The parameter H0 of the pickup is documented as the constant force of the magnet but it is removed and has no effect: the force is an input that the user must give. The reaction of an observer is EPS*q and not zero as its comment says."},
 {"property": "C83", "status": "proved", "theorems": ["Pyphs.Cpp.C83_cpp_update", "Pyphs.Cpp.C83_cpp_construct", "Pyphs.Cpp.C83_cpp_step", "Pyphs.Cpp.C83_cpp_loop", "Pyphs.Cpp.C83_cpp_build", "Pyphs.Cpp.C83_cpp_run", "Pyphs.Record.C83_run", "Pyphs.Record.C83_file", "Pyphs.Record.C83_balance", "Pyphs.Numeric.C83_update", "Pyphs.Numeric.C83_ignored"], "note": "C83_update, C83_ignored, C83_run: updates and runs with constants; C83_file, C83_balance: the data file and its power balance (ps misses the power of the constants, a disagreement with C65); C83_cpp_update, C83_cpp_construct, C83_cpp_step, C83_cpp_build, C83_cpp_loop, C83_cpp_run: the generated C++ code."},
 {"property": "C84", "status": "proved", "theorems": ["Pyphs.System.C84_default_counterexample", "Pyphs.System.C84_capacitor_counterexample", "Pyphs.System.C84_mfv_counterexample", "Pyphs.System.C84_build", "Pyphs.System.C84_equations", "Pyphs.System.C84_simulation", "Pyphs.System.C84_energy", "Pyphs.System.C84_none"], "note": "C84_build: graph and core of a netlist; C84_equations: the method solves the equations described by the lines, and its outputs; C84_simulation: existence and convergence of the simulation, and what each update does; C84_energy: energy balance. Lines on which the code does not do what is documented are excluded by Works and shown in C84_default_counterexample, C84_capacitor_counterexample, C84_mfv_counterexample. That the graph can be analysed (Compiled.analysed) is a hypothesis."},
 {"property": "C85", "status": "proved", "theorems": ["Pyphs.Arc.C85_reference_counterexample", "Pyphs.Arc.C85_name_counterexample", "Pyphs.Arc.C85_idle", "Pyphs.Arc.C85_equations", "Pyphs.Arc.C85_simulation", "Pyphs.Arc.C85_energy"], "note": "C85_idle: analysable graphs are unchanged; C85_equations, C85_simulation, C85_energy: netlists with merged storages, in terms of the components of the netlist (lift gives the state of each component from that of the merged one). The removal of edges from a series connection (several effort-controlled storages or dissipatives in series) is not modelled: it gives Err.unmodelled, which contradicts the hypothesis Built.prepared, so the theorems say nothing of these graphs. C85_reference_counterexample, C85_name_counterexample: disagreements."},
 {"property": "C86", "status": "proved", "theorems": ["Pyphs.Nonlin.C86_label_counterexample", "Pyphs.Nonlin.C86_names_counterexample", "Pyphs.Nonlin.C86_build", "Pyphs.Nonlin.C86_equations", "Pyphs.Nonlin.C86_groups", "Pyphs.Nonlin.C86_simulation", "Pyphs.Nonlin.C86_laws", "Pyphs.Nonlin.C86_unique", "Pyphs.Nonlin.C86_exists"], "note": "C86_build: graph and core; C86_equations: the method solves the equations described by the lines, in the domains of the laws, and its outputs; C86_groups: when the discrete gradient is applied to each nonlinear storage (hypothesis Fits): without splitting and if sympy finds the vanishing second derivatives, or for the other rules, or for linear storages; C86_simulation: updates, passivity and energy balance of the runs which solve the equations (convergence of the solver is a hypothesis here, see C23); C86_laws: the documented laws are physical; C86_unique: uniqueness of the solution of a step. That the graph can be analysed (Compiled.analysed) is a hypothesis. C86_label_counterexample, C86_names_counterexample: disagreements, excluded by WorksNl. C86_exists: the equations of a step have exactly one solution, for every state and input, when the laws are smooth and increasing on the whole line and the analysis computes the diodes from their voltages (Smooth); JacSound is needed only if the method splits; with the discrete gradient the storages must be linear."},
 {"property": "C87", "status": "proved", "theorems": ["Pyphs.Signals.Lowpass.C87_filter", "Pyphs.Signals.Lowpass.C87_sinusoid", "Pyphs.Signals.Lowpass.C87_ramp", "Pyphs.Signals.Lowpass.C87_linear", "Pyphs.Signals.Lowpass.C87_empty", "Pyphs.Signals.Lowpass.C87_short"], "note": "C87_filter: existence, coefficients, length and samples of the result; C87_sinusoid, C87_ramp: away from the ends; C87_linear. C87_short: the result is longer than a short signal. Real numbers, floats are not modelled; nothing is proved about the attenuation above the cutoff frequency."},
 {"property": "C88", "status": "proved", "theorems": ["Pyphs.Signals.Transfer.C88_frequencies", "Pyphs.Signals.Transfer.C88_sinusoid", "Pyphs.Signals.Transfer.C88_proportional", "Pyphs.Signals.Transfer.C88_values", "Pyphs.Signals.Transfer.C88_offset", "Pyphs.Signals.Transfer.C88_empty"], "note": "C88_frequencies: which bins are returned; C88_values: all the values, for any two signals; C88_sinusoid, C88_proportional, C88_offset: what they are for sinusoids, for proportional signals, and with constants added. The model of scipy.signal.welch (window of Hann, detrending, segments, scaling) is trusted; real numbers."},
 {"property": "C89", "status": "proved", "theorems": ["Pyphs.Signals.Wave.C89_values", "Pyphs.Signals.Wave.C89_sweep", "Pyphs.Signals.Wave.C89_sweep_phase", "Pyphs.Signals.Wave.C89_sweep_frequency", "Pyphs.Signals.Wave.C89_short_sweep", "Pyphs.Signals.Wave.C89_peak_counterexample"], "note": "C89_values: all kinds but the sweep; C89_sweep, C89_sweep_phase, C89_sweep_frequency: the sweep; C89_short_sweep: one sample; C89_peak_counterexample: disagreement with the documentation of the amplitude. The phases of scipy.signal.chirp are as in its source (trusted); real numbers."},
 {"property": "C90", "status": "proved", "theorems": ["Pyphs.Doc.C90_total", "Pyphs.Doc.C90_grid", "Pyphs.Doc.C90_unique", "Pyphs.Doc.C90_counterexamples"], "note": "Texts are lists of characters; the conversion str of numbers is not modelled."},
 {"property": "C91", "status": "proved", "theorems": ["Pyphs.Doc.C91_line", "Pyphs.Doc.C91_no_parameters", "Pyphs.Doc.C91_dictionary", "Pyphs.Doc.C91_complete", "Pyphs.Doc.C91_numeral"], "note": "The two components of pwl (default 'example.txt') are outside the model of literals. The metadata of the dictionary are copied in the model. Only the netlist line of the documentation is modelled."}
]}
