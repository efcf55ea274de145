{
"Primate.C01_cov_mean": [
"propext",
"Classical.choice",
"Quot.sound"
],
"Primate.C01_initial": [
"propext",
"Quot.sound"
],
"Primate.C01_mean": [
"propext",
"Classical.choice",
"Quot.sound"
],
"Primate.C02_covariance": [
"propext",
"Classical.choice",
"Quot.sound"
],
"Primate.C02_infinite": [
"propext",
"Classical.choice",
"Quot.sound"
],
"Primate.C03_batching_and_order": [
"propext",
"Classical.choice",
"Quot.sound"
],
"Primate.C04_covariance_psd": [
"propext",
"Classical.choice",
"Quot.sound"
],
"Primate.C04_variance": [
"propext",
"Classical.choice",
"Quot.sound"
],
"Primate.C05_empty_batch": [
"propext",
"Quot.sound"
],
"Primate.C05_empty_batch_cov": [
"propext",
"Quot.sound"
],
"Primate.C05_promotion": [
"propext"
],
"Primate.C05_rejected_iff": [
"propext",
"Quot.sound"
],
"Primate.C05_rejected_no_effect": [
"propext",
"Quot.sound"
],
"Primate.C06_centred_nested_partial": [
"propext",
"Classical.choice",
"Quot.sound"
],
"Primate.C06_equivariant_partial": [
"propext",
"Classical.choice",
"Quot.sound"
],
"Primate.C06_full_confidence_partial": [
"propext",
"Classical.choice",
"Quot.sound"
],
"Primate.C06_normal_constant": [
"propext",
"Classical.choice",
"Quot.sound"
],
"Primate.C06_rejects": [
"propext",
"Classical.choice",
"Quot.sound"
],
"Primate.C06_width_partial": [
"propext",
"Classical.choice",
"Quot.sound"
],
"Primate.C07_bookkeeping": [
"propext",
"Classical.choice",
"Quot.sound"
],
"Primate.C07_errors": [
"propext",
"Classical.choice",
"Quot.sound"
],
"Primate.C07_initial": [
"propext",
"Classical.choice",
"Quot.sound"
],
"Primate.C08_laws": [
"propext",
"Classical.choice",
"Quot.sound"
],
"Primate.C08_raises": [
"propext",
"Classical.choice",
"Quot.sound"
],
"Primate.C08_values": [
"propext",
"Classical.choice",
"Quot.sound"
],
"Primate.C09_count_exact": [
"propext",
"Classical.choice",
"Quot.sound"
],
"Primate.C09_count_monotone": [
"propext",
"Classical.choice",
"Quot.sound"
],
"Primate.C100_counterexample": [
"propext",
"Classical.choice",
"Quot.sound"
],
"Primate.C100_full_mode_partial": [
"propext",
"Classical.choice",
"Quot.sound"
],
"Primate.C100_matrix_function": [
"propext",
"Classical.choice",
"Quot.sound"
],
"Primate.C100_samples_partial": [
"propext",
"Classical.choice",
"Quot.sound"
],
"Primate.C100_shape": [
"propext",
"Classical.choice",
"Quot.sound"
],
"Primate.C101_bound": [
"propext",
"Classical.choice",
"Quot.sound"
],
"Primate.C101_frobenius": [
"propext",
"Classical.choice",
"Quot.sound"
],
"Primate.C101_variance": [
"propext",
"Classical.choice",
"Quot.sound"
],
"Primate.C102_counterexample": [
"propext",
"Classical.choice",
"Quot.sound"
],
"Primate.C102_jacobi_partial": [
"propext",
"Classical.choice",
"Quot.sound"
],
"Primate.C102_rejects": [
"propext",
"Classical.choice",
"Quot.sound"
],
"Primate.C103_counterexample": [
"propext",
"Classical.choice",
"Quot.sound"
],
"Primate.C103_quad_near_optimal_partial": [
"propext",
"Classical.choice",
"Quot.sound"
],
"Primate.C104_counterexample": [
"propext",
"Classical.choice",
"Quot.sound"
],
"Primate.C104_exp_partial": [
"propext",
"Classical.choice",
"Quot.sound"
],
"Primate.C104_inverse_partial": [
"propext",
"Classical.choice",
"Quot.sound"
],
"Primate.C104_log_partial": [
"propext",
"Classical.choice",
"Quot.sound"
],
"Primate.C104_one_sided_partial": [
"propext",
"Classical.choice",
"Quot.sound"
],
"Primate.C105_counterexample": [
"propext",
"Classical.choice",
"Quot.sound"
],
"Primate.C105_slq_bias_partial": [
"propext",
"Classical.choice",
"Quot.sound"
],
"Primate.C106_constant_exact": [
"propext",
"Classical.choice",
"Quot.sound"
],
"Primate.C106_mean_rounding": [
"propext",
"Classical.choice",
"Quot.sound"
],
"Primate.C107_covariance_rounding": [
"propext",
"Classical.choice",
"Quot.sound"
],
"Primate.C107_sum_of_squares_monotone": [
"propext",
"Classical.choice",
"Quot.sound"
],
"Primate.C108_degrees_interlace": [
"propext",
"Classical.choice",
"Quot.sound"
],
"Primate.C108_ritz_interlace": [
"propext",
"Classical.choice",
"Quot.sound"
],
"Primate.C109_dependent_raises": [
"propext",
"Classical.choice",
"Quot.sound"
],
"Primate.C109_rademacher_raises": [
"propext",
"Classical.choice",
"Quot.sound"
],
"Primate.C109_unbiased": [
"propext",
"Classical.choice",
"Quot.sound"
],
"Primate.C10_decision": [
"propext",
"Classical.choice",
"Quot.sound"
],
"Primate.C10_first_update": [
"propext",
"Classical.choice",
"Quot.sound"
],
"Primate.C10_initial": [
"propext",
"Classical.choice",
"Quot.sound"
],
"Primate.C10_never": [
"propext",
"Classical.choice",
"Quot.sound"
],
"Primate.C10_string_ord": [
"propext",
"Classical.choice",
"Quot.sound"
],
"Primate.C110_sample_size": [
"propext",
"Classical.choice",
"Quot.sound"
],
"Primate.C110_tail": [
"propext",
"Classical.choice",
"Quot.sound"
],
"Primate.C110_tail_entries": [
"propext",
"Classical.choice",
"Quot.sound"
],
"Primate.C110_tail_spectrum": [
"propext",
"Classical.choice",
"Quot.sound"
],
"Primate.C111_accept_iff": [
"propext",
"Classical.choice",
"Quot.sound"
],
"Primate.C111_accepted_but_raises": [
"propext",
"Classical.choice",
"Quot.sound"
],
"Primate.C111_constants": [
"propext",
"Classical.choice",
"Quot.sound"
],
"Primate.C111_degree": [
"propext",
"Classical.choice",
"Quot.sound"
],
"Primate.C111_entrywise": [
"propext",
"Classical.choice",
"Quot.sound"
],
"Primate.C111_errors": [
"propext",
"Classical.choice",
"Quot.sound"
],
"Primate.C111_last_accepted": [
"propext",
"Classical.choice",
"Quot.sound"
],
"Primate.C111_matvec_switch": [
"propext",
"Classical.choice",
"Quot.sound"
],
"Primate.C111_quad_entrywise": [
"propext",
"Classical.choice",
"Quot.sound"
],
"Primate.C111_quad_switch": [
"propext",
"Classical.choice",
"Quot.sound"
],
"Primate.C111_refused_but_works": [
"propext",
"Classical.choice",
"Quot.sound"
],
"Primate.C111_two_rows": [
"propext",
"Classical.choice",
"Quot.sound"
],
"Primate.C112_normal": [
"propext",
"Classical.choice",
"Quot.sound"
],
"Primate.C112_rademacher": [
"propext",
"Classical.choice",
"Quot.sound"
],
"Primate.C112_sphere": [
"propext",
"Classical.choice",
"Quot.sound"
],
"Primate.C113_hutchpp": [
"propext",
"Classical.choice",
"Quot.sound"
],
"Primate.C114_counterexample": [
"propext",
"Classical.choice",
"Quot.sound"
],
"Primate.C114_no_record": [
"propext",
"Classical.choice",
"Quot.sound"
],
"Primate.C114_numbers": [
"propext",
"Classical.choice",
"Quot.sound"
],
"Primate.C114_record_partial": [
"propext",
"Classical.choice",
"Quot.sound"
],
"Primate.C114_reused_buffer": [
"propext",
"Classical.choice",
"Quot.sound"
],
"Primate.C115_callable": [
"propext",
"Classical.choice",
"Quot.sound"
],
"Primate.C115_consumed": [
"propext",
"Classical.choice",
"Quot.sound"
],
"Primate.C115_diag_stream": [
"propext",
"Classical.choice",
"Quot.sound"
],
"Primate.C115_generator_continues": [
"propext",
"Classical.choice",
"Quot.sound"
],
"Primate.C115_hutch_stream": [
"propext",
"Classical.choice",
"Quot.sound"
],
"Primate.C115_hutchpp": [
"propext",
"Classical.choice",
"Quot.sound"
],
"Primate.C115_int_seed": [
"propext",
"Classical.choice",
"Quot.sound"
],
"Primate.C115_negative_seed": [
"propext",
"Classical.choice",
"Quot.sound"
],
"Primate.C116_hutch_rounding": [
"propext",
"Classical.choice",
"Quot.sound"
],
"Primate.C116_tail": [
"propext",
"Classical.choice",
"Quot.sound"
],
"Primate.C117_rademacher": [
"propext",
"Classical.choice",
"Quot.sound"
],
"Primate.C117_xdiag": [
"propext",
"Classical.choice",
"Quot.sound"
],
"Primate.C117_xdiag_rank": [
"propext",
"Classical.choice",
"Quot.sound"
],
"Primate.C117_xtrace": [
"propext",
"Classical.choice",
"Quot.sound"
],
"Primate.C117_xtrace_singular": [
"propext",
"Classical.choice",
"Quot.sound"
],
"Primate.C118_exact": [
"propext",
"Classical.choice",
"Quot.sound"
],
"Primate.C118_mean": [
"propext",
"Classical.choice",
"Quot.sound"
],
"Primate.C118_mse": [
"propext",
"Classical.choice",
"Quot.sound"
],
"Primate.C119_hutch": [
"propext",
"Classical.choice",
"Quot.sound"
],
"Primate.C119_hutchpp": [
"propext",
"Classical.choice",
"Quot.sound"
],
"Primate.C11_constructor": [
"propext",
"Classical.choice",
"Quot.sound"
],
"Primate.C11_decision": [
"propext",
"Classical.choice",
"Quot.sound"
],
"Primate.C11_few": [
"propext",
"Classical.choice",
"Quot.sound"
],
"Primate.C11_unsupported": [
"propext",
"Classical.choice",
"Quot.sound"
],
"Primate.C120_no_expectation": [
"propext",
"Classical.choice",
"Quot.sound"
],
"Primate.C120_unbiased_partial": [
"propext",
"Classical.choice",
"Quot.sound"
],
"Primate.C121_factor": [
"propext",
"Classical.choice",
"Quot.sound"
],
"Primate.C121_rademacher": [
"propext",
"Classical.choice",
"Quot.sound"
],
"Primate.C122_matvec": [
"propext",
"Classical.choice",
"Quot.sound"
],
"Primate.C122_matvec_history": [
"propext",
"Classical.choice",
"Quot.sound"
],
"Primate.C122_nodes": [
"propext",
"Classical.choice",
"Quot.sound"
],
"Primate.C122_quad": [
"propext",
"Classical.choice",
"Quot.sound"
],
"Primate.C122_quad_history": [
"propext",
"Classical.choice",
"Quot.sound"
],
"Primate.C123_any_criterion": [
"propext",
"Classical.choice",
"Quot.sound"
],
"Primate.C123_count": [
"propext",
"Classical.choice",
"Quot.sound"
],
"Primate.C123_rademacher": [
"propext",
"Classical.choice",
"Quot.sound"
],
"Primate.C124_exp_matvec": [
"propext",
"Classical.choice",
"Quot.sound"
],
"Primate.C124_exp_quad": [
"propext",
"Classical.choice",
"Quot.sound"
],
"Primate.C124_identity_quad": [
"propext",
"Classical.choice",
"Quot.sound"
],
"Primate.C124_inverse_quad": [
"propext",
"Classical.choice",
"Quot.sound"
],
"Primate.C124_lipschitz_matvec": [
"propext",
"Classical.choice",
"Quot.sound"
],
"Primate.C124_lipschitz_quad": [
"propext",
"Classical.choice",
"Quot.sound"
],
"Primate.C124_log_quad": [
"propext",
"Classical.choice",
"Quot.sound"
],
"Primate.C124_trace_exp": [
"propext",
"Classical.choice",
"Quot.sound"
],
"Primate.C125_bias": [
"propext",
"Classical.choice",
"Quot.sound"
],
"Primate.C125_default_biased": [
"propext",
"Classical.choice",
"Quot.sound"
],
"Primate.C125_wald": [
"propext",
"Classical.choice",
"Quot.sound"
],
"Primate.C126_rate": [
"propext",
"Classical.choice",
"Quot.sound"
],
"Primate.C127_hutch": [
"propext",
"Classical.choice",
"Quot.sound"
],
"Primate.C128_interval": [
"propext",
"Classical.choice",
"Quot.sound"
],
"Primate.C128_margin": [
"propext",
"Classical.choice",
"Quot.sound"
],
"Primate.C128_normal": [
"propext",
"Classical.choice",
"Quot.sound"
],
"Primate.C129_never": [
"propext",
"Classical.choice",
"Quot.sound"
],
"Primate.C129_terminates": [
"propext",
"Classical.choice",
"Quot.sound"
],
"Primate.C12_counterexample": [
"propext",
"Classical.choice",
"Quot.sound"
],
"Primate.C12_degrees_partial": [
"propext",
"Classical.choice",
"Quot.sound"
],
"Primate.C12_never_later_partial": [
"propext",
"Classical.choice",
"Quot.sound"
],
"Primate.C130_interval": [
"propext",
"Classical.choice",
"Quot.sound"
],
"Primate.C130_margin": [
"propext",
"Classical.choice",
"Quot.sound"
],
"Primate.C131_atol": [
"propext",
"Classical.choice",
"Quot.sound"
],
"Primate.C131_rademacher": [
"propext",
"Classical.choice",
"Quot.sound"
],
"Primate.C131_rtol": [
"propext",
"Classical.choice",
"Quot.sound"
],
"Primate.C131_samples": [
"propext",
"Classical.choice",
"Quot.sound"
],
"Primate.C132_binary64": [
"propext",
"Classical.choice",
"Quot.sound"
],
"Primate.C132_local_errors": [
"propext",
"Classical.choice",
"Quot.sound"
],
"Primate.C133_ritz_near": [
"propext",
"Classical.choice",
"Quot.sound"
],
"Primate.C134_paige": [
"propext",
"Classical.choice",
"Quot.sound"
],
"Primate.C135_nodes_in_range": [
"propext",
"Classical.choice",
"Quot.sound"
],
"Primate.C136_binary64": [
"propext",
"Classical.choice",
"Quot.sound"
],
"Primate.C136_quad_accuracy": [
"propext",
"Classical.choice",
"Quot.sound"
],
"Primate.C137_matvec_accuracy": [
"propext",
"Classical.choice",
"Quot.sound"
],
"Primate.C138_binary64": [
"propext",
"Classical.choice",
"Quot.sound"
],
"Primate.C138_full_orthogonality": [
"propext",
"Classical.choice",
"Quot.sound"
],
"Primate.C138_public_not_full": [
"propext",
"Classical.choice",
"Quot.sound"
],
"Primate.C139_nodes_full": [
"propext",
"Classical.choice",
"Quot.sound"
],
"Primate.C13_decision": [
"propext",
"Classical.choice",
"Quot.sound"
],
"Primate.C13_false": [
"propext",
"Classical.choice",
"Quot.sound"
],
"Primate.C13_linear": [
"propext",
"Classical.choice",
"Quot.sound"
],
"Primate.C140_quad_full": [
"propext",
"Classical.choice",
"Quot.sound"
],
"Primate.C141_matvec_full": [
"propext",
"Classical.choice",
"Quot.sound"
],
"Primate.C142_binary64": [
"propext",
"Classical.choice",
"Quot.sound"
],
"Primate.C142_empty": [
"propext",
"Classical.choice",
"Quot.sound"
],
"Primate.C142_quad_columns": [
"propext",
"Classical.choice",
"Quot.sound"
],
"Primate.C142_slq_rounding": [
"propext",
"Classical.choice",
"Quot.sound"
],
"Primate.C142_tail": [
"propext",
"Classical.choice",
"Quot.sound"
],
"Primate.C143_diag_rounding": [
"propext",
"Classical.choice",
"Quot.sound"
],
"Primate.C143_tail": [
"propext",
"Classical.choice",
"Quot.sound"
],
"Primate.C144_apply": [
"propext",
"Classical.choice",
"Quot.sound"
],
"Primate.C144_matvec": [
"propext",
"Classical.choice",
"Quot.sound"
],
"Primate.C144_quad": [
"propext",
"Classical.choice",
"Quot.sound"
],
"Primate.C144_quadForm": [
"propext",
"Classical.choice",
"Quot.sound"
],
"Primate.C144_slq": [
"propext",
"Classical.choice",
"Quot.sound"
],
"Primate.C144_tail": [
"propext",
"Classical.choice",
"Quot.sound"
],
"Primate.C145_array_partial": [
"propext",
"Classical.choice",
"Quot.sound"
],
"Primate.C145_shape_changed": [
"propext",
"Classical.choice",
"Quot.sound"
],
"Primate.C145_short_input": [
"propext",
"Classical.choice",
"Quot.sound"
],
"Primate.C146_early_stop": [
"propext",
"Classical.choice",
"Quot.sound"
],
"Primate.C146_spread": [
"propext",
"Classical.choice",
"Quot.sound"
],
"Primate.C146_steps": [
"propext",
"Classical.choice",
"Quot.sound"
],
"Primate.C147_backward_stable": [
"propext",
"Classical.choice",
"Quot.sound"
],
"Primate.C147_exact": [
"propext",
"Classical.choice",
"Quot.sound"
],
"Primate.C147_solver": [
"propext",
"Classical.choice",
"Quot.sound"
],
"Primate.C147_values": [
"propext",
"Classical.choice",
"Quot.sound"
],
"Primate.C147_values_only": [
"propext",
"Classical.choice",
"Quot.sound"
],
"Primate.C148_names": [
"propext",
"Classical.choice",
"Quot.sound"
],
"Primate.C148_rademacher_exact": [
"propext",
"Classical.choice",
"Quot.sound"
],
"Primate.C148_rademacher_pdf": [
"propext",
"Classical.choice",
"Quot.sound"
],
"Primate.C148_slq_sampler": [
"propext",
"Classical.choice",
"Quot.sound"
],
"Primate.C148_slq_sphere": [
"propext",
"Classical.choice",
"Quot.sound"
],
"Primate.C148_sphere": [
"propext",
"Classical.choice",
"Quot.sound"
],
"Primate.C148_sphere_binary64": [
"propext",
"Classical.choice",
"Quot.sound"
],
"Primate.C148_sphere_norm": [
"propext",
"Classical.choice",
"Quot.sound"
],
"Primate.C149_exact": [
"propext",
"Classical.choice",
"Quot.sound"
],
"Primate.C149_forward": [
"propext",
"Classical.choice",
"Quot.sound"
],
"Primate.C149_inverse": [
"propext",
"Classical.choice",
"Quot.sound"
],
"Primate.C149_update": [
"propext",
"Classical.choice",
"Quot.sound"
],
"Primate.C14_counterexample": [
"propext",
"Classical.choice",
"Quot.sound"
],
"Primate.C14_partial_sums_partial": [
"propext",
"Classical.choice",
"Quot.sound"
],
"Primate.C150_least_squares": [
"propext",
"Classical.choice",
"Quot.sound"
],
"Primate.C150_smallest_variance": [
"propext",
"Classical.choice",
"Quot.sound"
],
"Primate.C151_core": [
"propext",
"Classical.choice",
"Quot.sound"
],
"Primate.C151_errors": [
"propext",
"Classical.choice",
"Quot.sound"
],
"Primate.C151_full_rank": [
"propext",
"Classical.choice",
"Quot.sound"
],
"Primate.C151_hutchpp": [
"propext",
"Classical.choice",
"Quot.sound"
],
"Primate.C151_low_rank": [
"propext",
"Classical.choice",
"Quot.sound"
],
"Primate.C152_matvec": [
"propext",
"Classical.choice",
"Quot.sound"
],
"Primate.C152_rejects": [
"propext",
"Classical.choice",
"Quot.sound"
],
"Primate.C152_symmetric": [
"propext",
"Classical.choice",
"Quot.sound"
],
"Primate.C153_count": [
"propext",
"Classical.choice",
"Quot.sound"
],
"Primate.C153_counterexample": [
"propext",
"Classical.choice",
"Quot.sound"
],
"Primate.C153_criteria": [
"propext",
"Classical.choice",
"Quot.sound"
],
"Primate.C153_diverges": [
"propext",
"Classical.choice",
"Quot.sound"
],
"Primate.C153_estimate": [
"propext",
"Classical.choice",
"Quot.sound"
],
"Primate.C153_finite": [
"propext",
"Classical.choice",
"Quot.sound"
],
"Primate.C153_hutch": [
"propext",
"Classical.choice",
"Quot.sound"
],
"Primate.C153_loop": [
"propext",
"Classical.choice",
"Quot.sound"
],
"Primate.C153_matrix": [
"propext",
"Classical.choice",
"Quot.sound"
],
"Primate.C154_agree": [
"propext",
"Classical.choice",
"Quot.sound"
],
"Primate.C154_diverges": [
"propext",
"Classical.choice",
"Quot.sound"
],
"Primate.C154_finite": [
"propext",
"Classical.choice",
"Quot.sound"
],
"Primate.C154_matrix": [
"propext",
"Classical.choice",
"Quot.sound"
],
"Primate.C154_not_finite": [
"propext",
"Classical.choice",
"Quot.sound"
],
"Primate.C154_zero": [
"propext",
"Classical.choice",
"Quot.sound"
],
"Primate.C155_counterexample": [
"propext",
"Classical.choice",
"Quot.sound"
],
"Primate.C155_finite": [
"propext",
"Classical.choice",
"Quot.sound"
],
"Primate.C155_hutch": [
"propext",
"Classical.choice",
"Quot.sound"
],
"Primate.C155_inv": [
"propext",
"Classical.choice",
"Quot.sound"
],
"Primate.C155_inv_wrong": [
"propext",
"Classical.choice",
"Quot.sound"
],
"Primate.C155_log": [
"propext",
"Classical.choice",
"Quot.sound"
],
"Primate.C155_scalar": [
"propext",
"Classical.choice",
"Quot.sound"
],
"Primate.C155_sqrt": [
"propext",
"Classical.choice",
"Quot.sound"
],
"Primate.C155_state": [
"propext",
"Classical.choice",
"Quot.sound"
],
"Primate.C156_best": [
"propext",
"Classical.choice",
"Quot.sound"
],
"Primate.C156_biased": [
"propext",
"Classical.choice",
"Quot.sound"
],
"Primate.C156_estimated": [
"propext",
"Classical.choice",
"Quot.sound"
],
"Primate.C156_fixed": [
"propext",
"Classical.choice",
"Quot.sound"
],
"Primate.C157_xdiag": [
"propext",
"Classical.choice",
"Quot.sound"
],
"Primate.C157_xtrace": [
"propext",
"Classical.choice",
"Quot.sound"
],
"Primate.C158_count_bound": [
"propext",
"Classical.choice",
"Quot.sound"
],
"Primate.C158_criterion": [
"propext",
"Classical.choice",
"Quot.sound"
],
"Primate.C158_hutch": [
"propext",
"Classical.choice",
"Quot.sound"
],
"Primate.C158_interval": [
"propext",
"Classical.choice",
"Quot.sound"
],
"Primate.C158_rademacher": [
"propext",
"Classical.choice",
"Quot.sound"
],
"Primate.C159_errors": [
"propext",
"Classical.choice",
"Quot.sound"
],
"Primate.C159_exact": [
"propext",
"Classical.choice",
"Quot.sound"
],
"Primate.C159_exp_log": [
"propext",
"Classical.choice",
"Quot.sound"
],
"Primate.C159_keywords": [
"propext",
"Classical.choice",
"Quot.sound"
],
"Primate.C159_matrix": [
"propext",
"Classical.choice",
"Quot.sound"
],
"Primate.C159_negative_q": [
"propext",
"Classical.choice",
"Quot.sound"
],
"Primate.C159_plateaus": [
"propext",
"Classical.choice",
"Quot.sound"
],
"Primate.C159_smoothstep": [
"propext",
"Classical.choice",
"Quot.sound"
],
"Primate.C159_softsign": [
"propext",
"Classical.choice",
"Quot.sound"
],
"Primate.C159_sqrt_inv": [
"propext",
"Classical.choice",
"Quot.sound"
],
"Primate.C15_confidence": [
"propext",
"Classical.choice",
"Quot.sound"
],
"Primate.C15_count": [
"propext",
"Classical.choice",
"Quot.sound"
],
"Primate.C15_count_float": [
"propext",
"Classical.choice",
"Quot.sound"
],
"Primate.C15_ignores_others": [
"propext",
"Classical.choice",
"Quot.sound"
],
"Primate.C15_invalid": [
"propext",
"Classical.choice",
"Quot.sound"
],
"Primate.C15_knee": [
"propext",
"Classical.choice",
"Quot.sound"
],
"Primate.C15_passthrough": [
"propext",
"Classical.choice",
"Quot.sound"
],
"Primate.C15_tolerance": [
"propext",
"Classical.choice",
"Quot.sound"
],
"Primate.C15_unexpected": [
"propext",
"Classical.choice",
"Quot.sound"
],
"Primate.C160_accuracy": [
"propext",
"Classical.choice",
"Quot.sound"
],
"Primate.C160_default": [
"propext",
"Classical.choice",
"Quot.sound"
],
"Primate.C160_draws": [
"propext",
"Classical.choice",
"Quot.sound"
],
"Primate.C160_errors": [
"propext",
"Classical.choice",
"Quot.sound"
],
"Primate.C160_exactly_symmetric": [
"propext",
"Classical.choice",
"Quot.sound"
],
"Primate.C160_haar_default": [
"propext",
"Classical.choice",
"Quot.sound"
],
"Primate.C160_haar_not_symmetric": [
"propext",
"Classical.choice",
"Quot.sound"
],
"Primate.C160_spectrum": [
"propext",
"Classical.choice",
"Quot.sound"
],
"Primate.C160_symmetric": [
"propext",
"Classical.choice",
"Quot.sound"
],
"Primate.C161_entry": [
"propext",
"Classical.choice",
"Quot.sound"
],
"Primate.C161_errors": [
"propext",
"Classical.choice",
"Quot.sound"
],
"Primate.C161_inexact": [
"propext",
"Classical.choice",
"Quot.sound"
],
"Primate.C161_rayleigh": [
"propext",
"Classical.choice",
"Quot.sound"
],
"Primate.C162_absorbed": [
"propext",
"Classical.choice",
"Quot.sound"
],
"Primate.C162_call": [
"propext",
"Classical.choice",
"Quot.sound"
],
"Primate.C162_complete": [
"propext",
"Classical.choice",
"Quot.sound"
],
"Primate.C162_flat": [
"propext",
"Classical.choice",
"Quot.sound"
],
"Primate.C162_sound": [
"propext",
"Classical.choice",
"Quot.sound"
],
"Primate.C163_bounds": [
"propext",
"Classical.choice",
"Quot.sound"
],
"Primate.C163_degenerate": [
"propext",
"Classical.choice",
"Quot.sound"
],
"Primate.C163_errors": [
"propext",
"Classical.choice",
"Quot.sound"
],
"Primate.C163_recurrence": [
"propext",
"Classical.choice",
"Quot.sound"
],
"Primate.C163_weights": [
"propext",
"Classical.choice",
"Quot.sound"
],
"Primate.C164_any": [
"propext",
"Classical.choice",
"Quot.sound"
],
"Primate.C164_constant": [
"propext",
"Classical.choice",
"Quot.sound"
],
"Primate.C164_early": [
"propext",
"Classical.choice",
"Quot.sound"
],
"Primate.C164_estimated": [
"propext",
"Classical.choice",
"Quot.sound"
],
"Primate.C164_first_observation": [
"propext",
"Classical.choice",
"Quot.sound"
],
"Primate.C164_fixed": [
"propext",
"Classical.choice",
"Quot.sound"
],
"Primate.C164_fixed_ok": [
"propext",
"Classical.choice",
"Quot.sound"
],
"Primate.C164_system": [
"propext",
"Classical.choice",
"Quot.sound"
],
"Primate.C165_hutch": [
"propext",
"Classical.choice",
"Quot.sound"
],
"Primate.C165_knee": [
"propext",
"Classical.choice",
"Quot.sound"
],
"Primate.C165_no_record": [
"propext",
"Classical.choice",
"Quot.sound"
],
"Primate.C166_count_bound": [
"propext",
"Classical.choice",
"Quot.sound"
],
"Primate.C166_criterion": [
"propext",
"Classical.choice",
"Quot.sound"
],
"Primate.C166_errors": [
"propext",
"Classical.choice",
"Quot.sound"
],
"Primate.C166_hutch": [
"propext",
"Classical.choice",
"Quot.sound"
],
"Primate.C166_not_count": [
"propext",
"Classical.choice",
"Quot.sound"
],
"Primate.C166_rademacher": [
"propext",
"Classical.choice",
"Quot.sound"
],
"Primate.C166_unrecorded": [
"propext",
"Classical.choice",
"Quot.sound"
],
"Primate.C167_count_bound": [
"propext",
"Classical.choice",
"Quot.sound"
],
"Primate.C167_errors": [
"propext",
"Classical.choice",
"Quot.sound"
],
"Primate.C167_slq": [
"propext",
"Classical.choice",
"Quot.sound"
],
"Primate.C16_keys": [
"propext",
"Classical.choice",
"Quot.sound"
],
"Primate.C16_partition": [
"propext",
"Classical.choice",
"Quot.sound"
],
"Primate.C17_fixed_alpha": [
"propext",
"Classical.choice",
"Quot.sound"
],
"Primate.C17_length_mismatch": [
"propext",
"Classical.choice",
"Quot.sound"
],
"Primate.C18_affine_exact": [
"propext",
"Classical.choice",
"Quot.sound"
],
"Primate.C19_counterexample": [
"propext",
"Classical.choice",
"Quot.sound"
],
"Primate.C19_two_or_more_partial": [
"propext",
"Classical.choice",
"Quot.sound"
],
"Primate.C20_deterministic": [
"propext",
"Classical.choice",
"Quot.sound"
],
"Primate.C20_first_stop": [
"propext",
"Classical.choice",
"Quot.sound"
],
"Primate.C20_quadForm": [
"propext",
"Classical.choice",
"Quot.sound"
],
"Primate.C21_default": [
"propext",
"Classical.choice",
"Quot.sound"
],
"Primate.C21_full": [
"propext",
"Classical.choice",
"Quot.sound"
],
"Primate.C21_scalar": [
"propext",
"Classical.choice",
"Quot.sound"
],
"Primate.C22_isotropic": [
"propext",
"Classical.choice",
"Quot.sound"
],
"Primate.C22_unbiased": [
"propext",
"Classical.choice",
"Quot.sound"
],
"Primate.C23_confidence": [
"propext",
"Classical.choice",
"Quot.sound"
],
"Primate.C23_exact": [
"propext",
"Classical.choice",
"Quot.sound"
],
"Primate.C24_columns": [
"propext",
"Classical.choice",
"Quot.sound"
],
"Primate.C24_hutch": [
"propext",
"Classical.choice",
"Quot.sound"
],
"Primate.C24_state": [
"propext",
"Classical.choice",
"Quot.sound"
],
"Primate.C25_counterexample": [
"propext",
"Classical.choice",
"Quot.sound"
],
"Primate.C25_estimate_field": [
"propext",
"Classical.choice",
"Quot.sound"
],
"Primate.C25_result_partial": [
"propext",
"Classical.choice",
"Quot.sound"
],
"Primate.C26_diag": [
"propext",
"Classical.choice",
"Quot.sound"
],
"Primate.C26_hutch": [
"propext",
"Classical.choice",
"Quot.sound"
],
"Primate.C26_hutchpp": [
"propext",
"Classical.choice",
"Quot.sound"
],
"Primate.C27_accepts_partial": [
"propext",
"Classical.choice",
"Quot.sound"
],
"Primate.C27_counterexample": [
"propext",
"Classical.choice",
"Quot.sound"
],
"Primate.C27_divisible_iff": [
"propext",
"Classical.choice",
"Quot.sound"
],
"Primate.C28_exact": [
"propext",
"Classical.choice",
"Quot.sound"
],
"Primate.C28_exact_full": [
"propext",
"Classical.choice",
"Quot.sound"
],
"Primate.C29_modes": [
"propext",
"Classical.choice",
"Quot.sound"
],
"Primate.C29_unbiased": [
"propext",
"Classical.choice",
"Quot.sound"
],
"Primate.C30_leave_one_out": [
"propext",
"Classical.choice",
"Quot.sound"
],
"Primate.C30_leave_one_out_sphere": [
"propext",
"Classical.choice",
"Quot.sound"
],
"Primate.C30_projector_exists": [
"propext",
"Classical.choice",
"Quot.sound"
],
"Primate.C31_batch": [
"propext",
"Classical.choice",
"Quot.sound"
],
"Primate.C31_estimate": [
"propext",
"Classical.choice",
"Quot.sound"
],
"Primate.C31_raises_iff": [
"propext",
"Classical.choice",
"Quot.sound"
],
"Primate.C31_terminates": [
"propext",
"Classical.choice",
"Quot.sound"
],
"Primate.C32_counterexample": [
"propext",
"Classical.choice",
"Quot.sound"
],
"Primate.C32_ignored": [
"propext",
"Classical.choice",
"Quot.sound"
],
"Primate.C33_counterexample": [
"propext",
"Classical.choice",
"Quot.sound"
],
"Primate.C33_exact_partial": [
"propext",
"Classical.choice",
"Quot.sound"
],
"Primate.C34_inverse": [
"propext",
"Classical.choice",
"Quot.sound"
],
"Primate.C34_sequence": [
"propext",
"Classical.choice",
"Quot.sound"
],
"Primate.C34_shape": [
"propext",
"Classical.choice",
"Quot.sound"
],
"Primate.C34_triangular": [
"propext",
"Classical.choice",
"Quot.sound"
],
"Primate.C35_counterexample": [
"propext",
"Classical.choice",
"Quot.sound"
],
"Primate.C35_first_partial": [
"propext",
"Classical.choice",
"Quot.sound"
],
"Primate.C35_running_mean": [
"propext",
"Classical.choice",
"Quot.sound"
],
"Primate.C36_exact": [
"propext",
"Classical.choice",
"Quot.sound"
],
"Primate.C36_exact_rademacher": [
"propext",
"Classical.choice",
"Quot.sound"
],
"Primate.C36_unbiased": [
"propext",
"Classical.choice",
"Quot.sound"
],
"Primate.C37_budget": [
"propext",
"Classical.choice",
"Quot.sound"
],
"Primate.C37_call": [
"propext",
"Classical.choice",
"Quot.sound"
],
"Primate.C37_leave_one_out": [
"propext",
"Classical.choice",
"Quot.sound"
],
"Primate.C37_no_budget": [
"propext",
"Classical.choice",
"Quot.sound"
],
"Primate.C37_singular": [
"propext",
"Classical.choice",
"Quot.sound"
],
"Primate.C38_lanczos_ok_iff": [
"propext",
"Classical.choice",
"Quot.sound"
],
"Primate.C38_matrix_function_in_bounds": [
"propext",
"Classical.choice",
"Quot.sound"
],
"Primate.C38_native_in_bounds": [
"propext",
"Classical.choice",
"Quot.sound"
],
"Primate.C38_one_column_overruns": [
"propext",
"Classical.choice",
"Quot.sound"
],
"Primate.C39_lanczos_tridiagonal": [
"propext",
"Classical.choice",
"Quot.sound"
],
"Primate.C39_steps": [
"propext",
"Classical.choice",
"Quot.sound"
],
"Primate.C40_orth_independent": [
"propext",
"Classical.choice",
"Quot.sound"
],
"Primate.C41_caller_arrays": [
"propext",
"Classical.choice",
"Quot.sound"
],
"Primate.C41_formats": [
"propext",
"Classical.choice",
"Quot.sound"
],
"Primate.C41_nonpositive_degree": [
"propext",
"Classical.choice",
"Quot.sound"
],
"Primate.C42_counterexample": [
"propext",
"Classical.choice",
"Quot.sound"
],
"Primate.C42_ritz_bounds_partial": [
"propext",
"Classical.choice",
"Quot.sound"
],
"Primate.C42_ritz_full_partial": [
"propext",
"Classical.choice",
"Quot.sound"
],
"Primate.C43_golub_welsch": [
"propext",
"Classical.choice",
"Quot.sound"
],
"Primate.C44_quad_exact_poly": [
"propext",
"Classical.choice",
"Quot.sound"
],
"Primate.C45_counterexample": [
"propext",
"Classical.choice",
"Quot.sound"
],
"Primate.C45_matvec_near_optimal_partial": [
"propext",
"Classical.choice",
"Quot.sound"
],
"Primate.C46_counterexample": [
"propext",
"Classical.choice",
"Quot.sound"
],
"Primate.C46_matvec_exact_partial": [
"propext",
"Classical.choice",
"Quot.sound"
],
"Primate.C46_quad_exact_partial": [
"propext",
"Classical.choice",
"Quot.sound"
],
"Primate.C47_counterexample": [
"propext",
"Classical.choice",
"Quot.sound"
],
"Primate.C47_quad_history_partial": [
"propext",
"Classical.choice",
"Quot.sound"
],
"Primate.C48_matvec_history": [
"propext",
"Classical.choice",
"Quot.sound"
],
"Primate.C49_quad_caller_array": [
"propext",
"Classical.choice",
"Quot.sound"
],
"Primate.C49_quad_columns": [
"propext",
"Classical.choice",
"Quot.sound"
],
"Primate.C49_quad_homogeneous": [
"propext",
"Classical.choice",
"Quot.sound"
],
"Primate.C49_quad_zero": [
"propext",
"Classical.choice",
"Quot.sound"
],
"Primate.C50_fttr_agrees": [
"propext",
"Classical.choice",
"Quot.sound"
],
"Primate.C50_fttr_size_one": [
"propext",
"Classical.choice",
"Quot.sound"
],
"Primate.C50_fttr_weights": [
"propext",
"Classical.choice",
"Quot.sound"
],
"Primate.C51_counterexample": [
"propext",
"Classical.choice",
"Quot.sound"
],
"Primate.C51_fttr_degree_ignored": [
"propext",
"Classical.choice",
"Quot.sound"
],
"Primate.C51_fttr_full_degree_partial": [
"propext",
"Classical.choice",
"Quot.sound"
],
"Primate.C52_degree_clipped": [
"propext",
"Classical.choice",
"Quot.sound"
],
"Primate.C52_degree_zero": [
"propext",
"Classical.choice",
"Quot.sound"
],
"Primate.C52_negative_degree": [
"propext",
"Classical.choice",
"Quot.sound"
],
"Primate.C52_outputs": [
"propext",
"Classical.choice",
"Quot.sound"
],
"Primate.C52_padding": [
"propext",
"Classical.choice",
"Quot.sound"
],
"Primate.C52_rejects": [
"propext",
"Classical.choice",
"Quot.sound"
],
"Primate.C52_rejects_int": [
"propext",
"Classical.choice",
"Quot.sound"
],
"Primate.C52_unknown_method": [
"propext",
"Classical.choice",
"Quot.sound"
],
"Primate.C53_counterexample": [
"propext",
"Classical.choice",
"Quot.sound"
],
"Primate.C53_division_by_zero": [
"propext",
"Classical.choice",
"Quot.sound"
],
"Primate.C53_eigenpairs_partial": [
"propext",
"Classical.choice",
"Quot.sound"
],
"Primate.C53_orthogonal_trace": [
"propext",
"Classical.choice",
"Quot.sound"
],
"Primate.C53_sweep_partial": [
"propext",
"Classical.choice",
"Quot.sound"
],
"Primate.C54_solvers_terminate": [
"propext",
"Classical.choice",
"Quot.sound"
],
"Primate.C54_tqli_terminates": [
"propext",
"Classical.choice",
"Quot.sound"
],
"Primate.C55_auto": [
"propext",
"Classical.choice",
"Quot.sound"
],
"Primate.C55_caller_arrays": [
"propext",
"Classical.choice",
"Quot.sound"
],
"Primate.C55_empty": [
"propext",
"Classical.choice",
"Quot.sound"
],
"Primate.C55_lengths": [
"propext",
"Classical.choice",
"Quot.sound"
],
"Primate.C55_memory_results": [
"propext",
"Classical.choice",
"Quot.sound"
],
"Primate.C55_rejects": [
"propext",
"Classical.choice",
"Quot.sound"
],
"Primate.C56_balanced": [
"propext",
"Classical.choice",
"Quot.sound"
],
"Primate.C56_isotropic": [
"propext",
"Classical.choice",
"Quot.sound"
],
"Primate.C56_signs": [
"propext",
"Classical.choice",
"Quot.sound"
],
"Primate.C57_sphere": [
"propext",
"Classical.choice",
"Quot.sound"
],
"Primate.C58_columns": [
"propext",
"Classical.choice",
"Quot.sound"
],
"Primate.C58_int_size": [
"propext",
"Classical.choice",
"Quot.sound"
],
"Primate.C58_names": [
"propext",
"Classical.choice",
"Quot.sound"
],
"Primate.C58_numpy_int_size": [
"propext",
"Classical.choice",
"Quot.sound"
],
"Primate.C58_tuple": [
"propext",
"Classical.choice",
"Quot.sound"
],
"Primate.C59_fill": [
"propext",
"Classical.choice",
"Quot.sound"
],
"Primate.C59_partition": [
"propext",
"Classical.choice",
"Quot.sound"
],
"Primate.C59_rejects": [
"propext",
"Classical.choice",
"Quot.sound"
],
"Primate.C60_haar": [
"propext",
"Classical.choice",
"Quot.sound"
],
"Primate.C60_symmetric": [
"propext",
"Classical.choice",
"Quot.sound"
],
"Primate.C60_symmetric_default": [
"propext",
"Classical.choice",
"Quot.sound"
],
"Primate.C60_symmetric_draws": [
"propext",
"Classical.choice",
"Quot.sound"
],
"Primate.C60_symmetric_rejects": [
"propext",
"Classical.choice",
"Quot.sound"
],
"Primate.C61_counterexample": [
"propext",
"Classical.choice",
"Quot.sound"
],
"Primate.C61_default_partial": [
"propext",
"Classical.choice",
"Quot.sound"
],
"Primate.C61_flag_ignored": [
"propext",
"Classical.choice",
"Quot.sound"
],
"Primate.C62_bounds": [
"propext",
"Classical.choice",
"Quot.sound"
],
"Primate.C62_limit": [
"propext",
"Classical.choice",
"Quot.sound"
],
"Primate.C62_monotone_q": [
"propext",
"Classical.choice",
"Quot.sound"
],
"Primate.C62_negative_q": [
"propext",
"Classical.choice",
"Quot.sound"
],
"Primate.C62_sign": [
"propext",
"Classical.choice",
"Quot.sound"
],
"Primate.C62_uniform": [
"propext",
"Classical.choice",
"Quot.sound"
],
"Primate.C63_degenerate": [
"propext",
"Classical.choice",
"Quot.sound"
],
"Primate.C63_degree": [
"propext",
"Classical.choice",
"Quot.sound"
],
"Primate.C63_step": [
"propext",
"Classical.choice",
"Quot.sound"
],
"Primate.C64_count": [
"propext",
"Classical.choice",
"Quot.sound"
],
"Primate.C64_rank": [
"propext",
"Classical.choice",
"Quot.sound"
],
"Primate.C65_builtins": [
"propext",
"Classical.choice",
"Quot.sound"
],
"Primate.C65_other": [
"propext",
"Classical.choice",
"Quot.sound"
],
"Primate.C65_softsign_unreachable": [
"propext",
"Classical.choice",
"Quot.sound"
],
"Primate.C66_counterexample": [
"propext",
"Classical.choice",
"Quot.sound"
],
"Primate.C66_rejects": [
"propext",
"Classical.choice",
"Quot.sound"
],
"Primate.C66_symmetric_part": [
"propext",
"Classical.choice",
"Quot.sound"
],
"Primate.C66_symmetric_partial": [
"propext",
"Classical.choice",
"Quot.sound"
],
"Primate.C67_errors": [
"propext",
"Classical.choice",
"Quot.sound"
],
"Primate.C67_interval": [
"propext",
"Classical.choice",
"Quot.sound"
],
"Primate.C67_spectrum": [
"propext",
"Classical.choice",
"Quot.sound"
],
"Primate.C68_linear_raises": [
"propext",
"Classical.choice",
"Quot.sound"
],
"Primate.C68_linear_true": [
"propext",
"Classical.choice",
"Quot.sound"
],
"Primate.C68_valid_attribute_error": [
"propext",
"Classical.choice",
"Quot.sound"
],
"Primate.C68_valid_iff": [
"propext",
"Classical.choice",
"Quot.sound"
],
"Primate.C68_valid_rejects": [
"propext",
"Classical.choice",
"Quot.sound"
],
"Primate.C69_attributes": [
"propext",
"Classical.choice",
"Quot.sound"
],
"Primate.C69_callable": [
"propext",
"Classical.choice",
"Quot.sound"
],
"Primate.C69_degree_rejected": [
"propext",
"Classical.choice",
"Quot.sound"
],
"Primate.C69_function": [
"propext",
"Classical.choice",
"Quot.sound"
],
"Primate.C69_init": [
"propext",
"Classical.choice",
"Quot.sound"
],
"Primate.C70_array_counterexample": [
"propext",
"Classical.choice",
"Quot.sound"
],
"Primate.C70_array_partial": [
"propext",
"Quot.sound"
],
"Primate.C70_iter": [
"propext",
"Classical.choice",
"Quot.sound"
],
"Primate.C70_reject": [
"propext",
"Quot.sound"
],
"Primate.C71_mod": [
"propext",
"Classical.choice",
"Quot.sound"
],
"Primate.C71_params": [
"propext",
"Classical.choice",
"Quot.sound"
],
"Primate.C72_raises": [
"propext",
"Classical.choice",
"Quot.sound"
],
"Primate.C72_values": [
"propext",
"Classical.choice",
"Quot.sound"
],
"Primate.C72_zero": [
"propext",
"Classical.choice",
"Quot.sound"
],
"Primate.C73_dense_partial": [
"propext",
"Classical.choice",
"Quot.sound"
],
"Primate.C73_orth_counterexample": [
"propext",
"Classical.choice",
"Quot.sound"
],
"Primate.C73_unbiased_partial": [
"propext",
"Classical.choice",
"Quot.sound"
],
"Primate.C74_always_raises": [
"propext",
"Classical.choice",
"Quot.sound"
],
"Primate.C75_agree": [
"propext",
"Classical.choice",
"Quot.sound"
],
"Primate.C75_same_output": [
"propext",
"Classical.choice",
"Quot.sound"
],
"Primate.C76_criteria": [
"propext",
"Classical.choice",
"Quot.sound"
],
"Primate.C77_counterexample": [
"propext",
"Classical.choice",
"Quot.sound"
],
"Primate.C77_names_partial": [
"propext",
"Classical.choice",
"Quot.sound"
],
"Primate.C78_callback_unfilled": [
"propext",
"Classical.choice",
"Quot.sound"
],
"Primate.C78_result_partial": [
"propext",
"Classical.choice",
"Quot.sound"
],
"Primate.C79_terminates": [
"propext",
"Classical.choice",
"Quot.sound"
],
"Primate.C80_callable_rejected": [
"propext",
"Classical.choice",
"Quot.sound"
],
"Primate.C81_counterexample": [
"propext",
"Classical.choice",
"Quot.sound"
],
"Primate.C81_nodes_in_hull_partial": [
"propext",
"Classical.choice",
"Quot.sound"
],
"Primate.C82_computed_partial": [
"propext",
"Classical.choice",
"Quot.sound"
],
"Primate.C82_counterexample": [
"propext",
"Classical.choice",
"Quot.sound"
],
"Primate.C82_dispatch": [
"propext"
],
"Primate.C82_lost": [
"propext",
"Classical.choice",
"Quot.sound"
],
"Primate.C82_matrix_function": [
"propext"
],
"Primate.C83_matvec_homogeneous": [
"propext",
"Classical.choice",
"Quot.sound"
],
"Primate.C84_out_float32": [
"propext",
"Classical.choice",
"Quot.sound"
],
"Primate.C84_out_fortran": [
"propext",
"Classical.choice",
"Quot.sound"
],
"Primate.C84_out_rejects": [
"propext",
"Classical.choice",
"Quot.sound"
],
"Primate.C85_orthogonal": [
"propext",
"Classical.choice",
"Quot.sound"
],
"Primate.C85_span": [
"propext",
"Classical.choice",
"Quot.sound"
],
"Primate.C86_affine": [
"propext",
"Classical.choice",
"Quot.sound"
],
"Primate.C86_dense": [
"propext",
"Classical.choice",
"Quot.sound"
],
"Primate.C86_gram_counterexample": [
"propext",
"Classical.choice",
"Quot.sound"
],
"Primate.C86_gram_overflow": [
"propext",
"Classical.choice",
"Quot.sound"
],
"Primate.C86_short_buffers": [
"propext",
"Classical.choice",
"Quot.sound"
],
"Primate.C86_sparse_partial": [
"propext",
"Classical.choice",
"Quot.sound"
],
"Primate.C87_constructor": [
"propext",
"Classical.choice",
"Quot.sound"
],
"Primate.C87_exact_partial": [
"propext",
"Classical.choice",
"Quot.sound"
],
"Primate.C87_short": [
"propext",
"Classical.choice",
"Quot.sound"
],
"Primate.C87_strided_counterexample": [
"propext",
"Classical.choice",
"Quot.sound"
],
"Primate.C88_bound_partial": [
"propext",
"Classical.choice",
"Quot.sound"
],
"Primate.C88_counterexample": [
"propext",
"Classical.choice",
"Quot.sound"
],
"Primate.C88_not_recorded": [
"propext",
"Classical.choice",
"Quot.sound"
],
"Primate.C89_counterexample": [
"propext",
"Classical.choice",
"Quot.sound"
],
"Primate.C89_estimator": [
"propext",
"Classical.choice",
"Quot.sound"
],
"Primate.C89_line": [
"propext",
"Classical.choice",
"Quot.sound"
],
"Primate.C89_markers_partial": [
"propext",
"Classical.choice",
"Quot.sound"
],
"Primate.C89_not_recorded": [
"propext",
"Classical.choice",
"Quot.sound"
],
"Primate.C90_counterexample": [
"propext",
"Classical.choice",
"Quot.sound"
],
"Primate.C90_refines": [
"propext",
"Classical.choice",
"Quot.sound"
],
"Primate.C90_scalar_partial": [
"propext",
"Classical.choice",
"Quot.sound"
],
"Primate.C90_tracks": [
"propext",
"Classical.choice",
"Quot.sound"
],
"Primate.C91_asserts": [
"propext",
"Classical.choice",
"Quot.sound"
],
"Primate.C91_counterexample": [
"propext",
"Classical.choice",
"Quot.sound"
],
"Primate.C91_run_partial": [
"propext",
"Classical.choice",
"Quot.sound"
],
"Primate.C91_tol_zero_partial": [
"propext",
"Classical.choice",
"Quot.sound"
],
"Primate.C91_zero_vector": [
"propext",
"Classical.choice",
"Quot.sound"
],
"Primate.C92_column_partial": [
"propext",
"Classical.choice",
"Quot.sound"
],
"Primate.C92_counterexample": [
"propext",
"Classical.choice",
"Quot.sound"
],
"Primate.C92_identity_partial": [
"propext",
"Classical.choice",
"Quot.sound"
],
"Primate.C92_operator": [
"propext",
"Classical.choice",
"Quot.sound"
],
"Primate.C93_counterexample": [
"propext",
"Classical.choice",
"Quot.sound"
],
"Primate.C93_exact_partial": [
"propext",
"Classical.choice",
"Quot.sound"
],
"Primate.C94_count_partial": [
"propext",
"Classical.choice",
"Quot.sound"
],
"Primate.C94_counterexample": [
"propext",
"Classical.choice",
"Quot.sound"
],
"Primate.C94_nonpositive": [
"propext",
"Classical.choice",
"Quot.sound"
],
"Primate.C95_csm": [
"propext",
"Classical.choice",
"Quot.sound"
],
"Primate.C95_empty": [
"propext",
"Classical.choice",
"Quot.sound"
],
"Primate.C96_chebyshev": [
"propext",
"Classical.choice",
"Quot.sound"
],
"Primate.C96_symmetric": [
"propext",
"Classical.choice",
"Quot.sound"
],
"Primate.C96_variance": [
"propext",
"Classical.choice",
"Quot.sound"
],
"Primate.C97_rademacher_raises": [
"propext",
"Classical.choice",
"Quot.sound"
],
"Primate.C97_unbiased": [
"propext",
"Classical.choice",
"Quot.sound"
],
"Primate.C98_counterexample": [
"propext",
"Classical.choice",
"Quot.sound"
],
"Primate.C98_rectangular": [
"propext",
"Classical.choice",
"Quot.sound"
],
"Primate.C98_square": [
"propext",
"Classical.choice",
"Quot.sound"
],
"Primate.C99_commas": [
"propext",
"Classical.choice",
"Quot.sound"
],
"Primate.C99_confidence": [
"propext",
"Classical.choice",
"Quot.sound"
],
"Primate.C99_confidence_raises": [
"propext",
"Classical.choice",
"Quot.sound"
],
"Primate.C99_control_variates": [
"propext",
"Classical.choice",
"Quot.sound"
],
"Primate.C99_count_knee": [
"propext",
"Classical.choice",
"Quot.sound"
],
"Primate.C99_counterexample": [
"propext",
"Classical.choice",
"Quot.sound"
],
"Primate.C99_entry": [
"propext",
"Classical.choice",
"Quot.sound"
],
"Primate.C99_estimate": [
"propext",
"Classical.choice",
"Quot.sound"
],
"Primate.C99_hutch_message": [
"propext",
"Classical.choice",
"Quot.sound"
],
"Primate.C99_reports_partial": [
"propext",
"Classical.choice",
"Quot.sound"
],
"Primate.C99_summary": [
"propext",
"Classical.choice",
"Quot.sound"
],
"Primate.C99_text": [
"propext",
"Classical.choice",
"Quot.sound"
],
"Primate.C99_tolerance": [
"propext",
"Classical.choice",
"Quot.sound"
]
}