Verif.C01_dec_bits_dec: propext, Classical.choice, Quot.sound
Verif.C02_bits_dec_bits: propext, Classical.choice, Quot.sound
Verif.C03_overflow: propext, Classical.choice, Quot.sound
Verif.C04_array: propext, Classical.choice, Quot.sound
Verif.C05_cache_transparent: propext, Classical.choice, Quot.sound
Verif.C05_direct_refuted: propext
Verif.C06_shapes: propext, Classical.choice, Quot.sound
Verif.C06_hamming: propext, Classical.choice, Quot.sound
Verif.C07_euclid: propext, Classical.choice, Quot.sound
Verif.C07_antipodal: propext, Classical.choice, Quot.sound
Verif.C08_upsample: propext, Classical.choice, Quot.sound
Verif.C08_decimate: propext, Classical.choice, Quot.sound
Verif.C08_zero: propext, Classical.choice, Quot.sound
Verif.C09_power: propext, Classical.choice, Quot.sound
Verif.C09_upsample: propext, Classical.choice, Quot.sound
Verif.C10_interleave_inverse: propext, Classical.choice, Quot.sound
Verif.C11_short: propext, Quot.sound
Verif.C11_long: propext, Classical.choice, Quot.sound
Verif.C12_pnsequence: propext, Classical.choice, Quot.sound
Verif.C13_algebra: propext, Classical.choice, Quot.sound
Verif.C13_period: propext, Classical.choice, Quot.sound
Verif.C14_zc: propext, Classical.choice, Quot.sound
Verif.C14_arguments: propext, Classical.choice, Quot.sound
Verif.C15_zc_autocorrelation: propext, Classical.choice, Quot.sound
Verif.C16_zc_shift: propext, Classical.choice, Quot.sound
Verif.C17_frequency_offset: propext, Classical.choice, Quot.sound
Verif.C18_rcos: propext, Classical.choice, Quot.sound
Verif.C18_rcos_continuous: propext, Classical.choice, Quot.sound
Verif.C19_rrcos: propext, Classical.choice, Quot.sound
Verif.C19_rrcos_continuous: propext, Classical.choice, Quot.sound
Verif.C20_gauss_rect: propext, Classical.choice, Quot.sound
Verif.C21_add: propext, Classical.choice, Quot.sound
Verif.C21_add_laws: propext, Classical.choice, Quot.sound
Verif.C22_mul: propext, Classical.choice, Quot.sound
Verif.C22_mul_laws: propext, Classical.choice, Quot.sound
Verif.C23_primitive: propext, Classical.choice, Quot.sound
Verif.C23_inverse: propext, Classical.choice, Quot.sound
Verif.C24_polydivide: propext, Classical.choice, Quot.sound
Verif.C24_polydivide_diverges: propext, Classical.choice, Quot.sound
Verif.C25_tuple_to_power: propext, Classical.choice, Quot.sound
Verif.C25_roundtrip_partial: propext, Classical.choice, Quot.sound
Verif.C25_power_to_tuple_refuted: propext, Classical.choice, Quot.sound
Verif.C25_power_to_tuple_exact: propext, Classical.choice, Quot.sound
Verif.C26_order: propext, Classical.choice, Quot.sound
Verif.C27_cosets: propext, Classical.choice, Quot.sound
Verif.C28_minpolys: propext, Classical.choice, Quot.sound
Verif.C29_genpoly_actual: propext, Classical.choice, Quot.sound
Verif.C29_genpoly_partial: propext, Classical.choice, Quot.sound
Verif.C29_genpoly_complete_partial: propext, Classical.choice, Quot.sound
Verif.C29_genpoly_errors: propext, Quot.sound
Verif.C29_genpoly_refuted: propext, Classical.choice, Quot.sound
Verif.C30_poly_to_string: propext, Classical.choice, Quot.sound
Verif.C30_injective: propext, Classical.choice, Quot.sound
Verif.C31_convolution: propext, Classical.choice, Quot.sound
Verif.C31_generator_wider_than_memory: propext
Verif.C32_linear: propext, Classical.choice, Quot.sound
Verif.C32_legacy_is_matrix: propext, Classical.choice, Quot.sound
Verif.C33_length: propext, Classical.choice, Quot.sound
Verif.C33_trellis_WF: propext, Classical.choice, Quot.sound
Verif.C33_double_outLen: propext, Classical.choice, Quot.sound
Verif.C33_length_double: propext, Classical.choice, Quot.sound
Verif.C33_double_refuted: propext, Classical.choice, Quot.sound
Verif.C34_zero_tail: propext, Classical.choice, Quot.sound
Verif.C34_two_inputs_refuted: propext
Verif.C35_rsc_termination_refuted: propext
Verif.C35_rsc_termination_iff: propext, Classical.choice, Quot.sound
Verif.C35_rsc_termination_legacy: propext, Classical.choice, Quot.sound
Verif.C36_puncture_refuted: propext
Verif.C36_puncture_partial: propext, Classical.choice, Quot.sound
Verif.C37_puncturing: propext, Quot.sound
Verif.C37_depuncturing: propext, Quot.sound
Verif.C37_roundtrip: propext, Quot.sound
Verif.C38_maximum_likelihood: propext, Classical.choice, Quot.sound
Verif.C38_path_metrics: propext, Classical.choice, Quot.sound
Verif.C38_hard: propext, Classical.choice, Quot.sound
Verif.C38_soft: propext, Classical.choice, Quot.sound
Verif.C38_unquantized: propext, Classical.choice, Quot.sound
Verif.C38_feedforward_balanced: propext, Classical.choice, Quot.sound
Verif.C38_feedback_balanced: propext, Classical.choice, Quot.sound
Verif.C38_legacy_balanced: propext, Classical.choice, Quot.sound
Verif.C39_double_decLen: propext, Classical.choice, Quot.sound
Verif.C39_terminated: propext, Classical.choice, Quot.sound
Verif.C39_feedforward: propext, Classical.choice, Quot.sound
Verif.C40_continuous_partial: propext, Classical.choice, Quot.sound
Verif.C40_continuous_refuted: propext, Quot.sound
Verif.C40_continuous_soft: propext, Classical.choice, Quot.sound
Verif.C41_input_after_hard: propext, Classical.choice, Quot.sound
Verif.C41_input_after_soft: propext, Classical.choice, Quot.sound
Verif.C41_input_modified_refuted: propext, Quot.sound
Verif.C42_half_distance: propext, Classical.choice, Quot.sound
Verif.C43_unknown_type_typeError: propext, Classical.choice, Quot.sound
Verif.C43_unknown_type_refuted: propext, Classical.choice, Quot.sound
Verif.C44_soft_loglikelihood: propext, Classical.choice, Quot.sound
Verif.C44_soft_order: propext, Classical.choice, Quot.sound
Verif.C44_erasure_constant: propext, Classical.choice, Quot.sound
Verif.C44_erasure_neutral: propext, Classical.choice, Quot.sound
Verif.C45_determined: propext, Classical.choice, Quot.sound
Verif.C45_default_depth_one_input: propext, Classical.choice, Quot.sound
Verif.C45_default_depth_refuted: propext, Quot.sound
Verif.C46_rate: propext, Classical.choice, Quot.sound
Verif.C46_standard_pattern: propext, Classical.choice, Quot.sound
Verif.C46_depuncture: propext, Classical.choice, Quot.sound
Verif.C46_partial_pattern_refuted: propext, Classical.choice, Quot.sound
Verif.C47_actual_code: propext, Quot.sound
Verif.C47_generators_refuted: propext, Classical.choice, Quot.sound
Verif.C47_catastrophic: propext, Classical.choice, Quot.sound
Verif.C48_mcs: propext, Quot.sound
Verif.C49_chain: propext, Classical.choice, Quot.sound
Verif.C50_streams_partial: propext, Classical.choice, Quot.sound
Verif.C50_memoryless: propext, Classical.choice, Quot.sound
Verif.C50_length_refuted: propext
Verif.C51_posterior: propext, Classical.choice, Quot.sound
Verif.C51_bad_priors: propext, Classical.choice, Quot.sound
Verif.C51_short_parity: propext, Classical.choice, Quot.sound
Verif.C52_decisions: propext, Classical.choice, Quot.sound
Verif.C53_turbo: propext, Classical.choice, Quot.sound
Verif.C53_default: propext, Classical.choice, Quot.sound
Verif.C53_no_iterations: propext, Classical.choice, Quot.sound
Verif.C54_roundtrip: propext, Classical.choice, Quot.sound
Verif.C54_empty: propext, Quot.sound
Verif.C55_maps: propext, Classical.choice, Quot.sound
Verif.C55_padding: propext, Classical.choice, Quot.sound
Verif.C56_errors: propext, Classical.choice, Quot.sound
Verif.C56_integral: propext, Classical.choice, Quot.sound
Verif.C56_unimodular: propext, Classical.choice, Quot.sound
Verif.C56_triangular: propext, Classical.choice, Quot.sound
Verif.C56_singular: propext, Classical.choice, Quot.sound
Verif.C56_refuted: propext, Classical.choice, Quot.sound
Verif.C57_blocks: propext, Classical.choice, Quot.sound
Verif.C57_encode: propext, Classical.choice, Quot.sound
Verif.C58_kept: propext, Classical.choice, Quot.sound
Verif.C58_stable: propext, Classical.choice, Quot.sound
Verif.C58_signs: propext, Classical.choice, Quot.sound
Verif.C58_length: propext, Classical.choice, Quot.sound
Verif.C58_singular: propext, Classical.choice, Quot.sound
Verif.C58_roundtrip: propext, Classical.choice, Quot.sound
Verif.C59_blocks: propext, Classical.choice, Quot.sound
Verif.C60_scale: propext, Classical.choice, Quot.sound
Verif.C60_flip_msa: propext, Classical.choice, Quot.sound
Verif.C60_flip_spa: propext, Classical.choice, Quot.sound
Verif.C61_roundtrip: propext, Classical.choice, Quot.sound
Verif.C61_excluded: propext, Classical.choice, Quot.sound
Verif.C62_nearest: propext, Classical.choice, Quot.sound
Verif.C63_gray: propext, Classical.choice, Quot.sound
Verif.C63_plain: propext, Classical.choice, Quot.sound
Verif.C63_refused: propext, Classical.choice, Quot.sound
Verif.C64_psk: propext, Classical.choice, Quot.sound
Verif.C64_refused: propext, Classical.choice, Quot.sound
Verif.C65_qam: propext, Classical.choice, Quot.sound
Verif.C65_refused: propext, Classical.choice, Quot.sound
Verif.C66_assign: propext, Classical.choice, Quot.sound
Verif.C66_history: propext, Classical.choice, Quot.sound
Verif.C67_llr: propext, Classical.choice, Quot.sound
Verif.C67_sign: propext, Classical.choice, Quot.sound
Verif.C67_noiseless: propext, Classical.choice, Quot.sound
Verif.C68_ml: propext, Classical.choice, Quot.sound
Verif.C68_empty: propext, Classical.choice, Quot.sound
Verif.C69_valid: propext, Classical.choice, Quot.sound
Verif.C69_metric: propext, Classical.choice, Quot.sound
Verif.C69_first_entry: propext, Classical.choice, Quot.sound
Verif.C69_ml: propext, Classical.choice, Quot.sound
Verif.C69_refused: propext, Classical.choice, Quot.sound
Verif.C70_equal_magnitudes_partial: propext, Classical.choice, Quot.sound
Verif.C70_ml_partial: propext, Classical.choice, Quot.sound
Verif.C70_tall_refuted: propext, Classical.choice, Quot.sound
Verif.C70_single_refuted: propext, Classical.choice, Quot.sound
Verif.C70_reliability_refuted: propext, Classical.choice, Quot.sound
Verif.C70_value_partial: propext, Classical.choice, Quot.sound
Verif.C70_numbers_partial: propext, Classical.choice, Quot.sound
Verif.C71_blr: propext, Classical.choice, Quot.sound
Verif.C72_values: propext, Classical.choice, Quot.sound
Verif.C72_sign: propext, Classical.choice, Quot.sound
Verif.C72_refused: propext, Classical.choice, Quot.sound
Verif.C73_ofdm_refuted: propext, Classical.choice, Quot.sound
Verif.C74_bsc: propext, Classical.choice, Quot.sound
Verif.C74_bec: propext, Classical.choice, Quot.sound
Verif.C74_bsc_probability: propext, Classical.choice, Quot.sound
Verif.C74_bec_probability: propext, Classical.choice, Quot.sound
Verif.C75_db_lin: propext, Classical.choice, Quot.sound
Verif.C75_siso_db_lin: propext, Classical.choice, Quot.sound
Verif.C75_positive: propext, Classical.choice, Quot.sound
Verif.C75_decreasing: propext, Classical.choice, Quot.sound
Verif.C75_siso_powers: propext, Classical.choice, Quot.sound
Verif.C75_mimo_noise_power: propext, Classical.choice, Quot.sound
Verif.C76_propagate_errors: propext, Classical.choice, Quot.sound
Verif.C76_propagate_output: propext, Classical.choice, Quot.sound
Verif.C76_rejected_unchanged: propext, Classical.choice, Quot.sound
Verif.C76_invariant: propext, Classical.choice, Quot.sound
Verif.C76_setter: propext, Classical.choice, Quot.sound
Verif.C76_negative_variance_refuted: propext, Classical.choice, Quot.sound
Verif.C77_uncorr_rician: propext, Classical.choice, Quot.sound
Verif.C77_expo_corr_rician: propext, Classical.choice, Quot.sound
Verif.C77_uncorr_rayleigh: propext, Classical.choice, Quot.sound
Verif.C77_expo_corr_rayleigh: propext, Classical.choice, Quot.sound
Verif.C78_errors: propext, Classical.choice, Quot.sound
Verif.C78_propagate: propext, Classical.choice, Quot.sound
Verif.C79_rejects_large: propext, Classical.choice, Quot.sound
Verif.C79_small_refuted: propext, Classical.choice, Quot.sound
Verif.C79_hermitian: propext, Classical.choice, Quot.sound
Verif.C79_posSemidef: propext, Classical.choice, Quot.sound
Verif.C80_chunk: propext, Classical.choice, Quot.sound
Verif.C80_zero: propext, Classical.choice, Quot.sound
Verif.C81_errors: propext, Classical.choice, Quot.sound
Verif.C81_short: propext, Classical.choice, Quot.sound
Verif.C81_performance: propext, Classical.choice, Quot.sound
Verif.C81_ratios: propext, Classical.choice, Quot.sound
Verif.C81_chunk_bounds: propext, Classical.choice, Quot.sound
Verif.C81_nothing_sent: propext, Classical.choice, Quot.sound
Verif.C81_toplevel: propext, Classical.choice, Quot.sound
Verif.C82_metrics_partial: propext, Classical.choice, Quot.sound
Verif.C82_actual_partial: propext, Classical.choice, Quot.sound
Verif.C82_chunk_errors: propext, Classical.choice, Quot.sound
Verif.C82_refuted: propext, Classical.choice, Quot.sound
Verif.C83_idd: propext, Classical.choice, Quot.sound
Verif.C83_zero: propext, Classical.choice, Quot.sound
Verif.C84_awgn: propext, Classical.choice, Quot.sound
Verif.C84_awgn_empty: propext, Classical.choice, Quot.sound
Verif.C85_specular: propext, Classical.choice, Quot.sound
Verif.C86_kronecker: propext, Classical.choice, Quot.sound
Verif.C87_setter: propext, Classical.choice, Quot.sound
Verif.C87_atomic_refuted: propext, Classical.choice, Quot.sound
Verif.C87_invariant: propext, Classical.choice, Quot.sound
Verif.C87_default: propext, Classical.choice, Quot.sound
Verif.C88_received: propext, Classical.choice, Quot.sound
Verif.C88_buffer: propext, Classical.choice, Quot.sound
Verif.C88_refuted: propext, Classical.choice, Quot.sound
Verif.C89_msa: propext, Classical.choice, Quot.sound
Verif.C89_spa_partial: propext, Classical.choice, Quot.sound
Verif.C89_spa_one: propext, Classical.choice, Quot.sound
Verif.C89_errors: propext, Classical.choice, Quot.sound
Verif.C89_refuted: propext, Classical.choice, Quot.sound
Verif.C89_zero_nan: propext, Classical.choice, Quot.sound
Verif.C90_exact: propext, Classical.choice, Quot.sound
Verif.C91_right_signs: propext, Classical.choice, Quot.sound
Verif.C92_trellis: propext, Classical.choice, Quot.sound
Verif.C92_roundtrip_trellis: propext, Classical.choice, Quot.sound
Verif.C92_roundtrip: propext, Classical.choice, Quot.sound
Verif.C93_hard: propext, Classical.choice, Quot.sound
Verif.C93_soft: propext, Classical.choice, Quot.sound
Verif.C93_qam: propext, Classical.choice, Quot.sound
Verif.C93_psk: propext, Classical.choice, Quot.sound
Verif.C94_performance: propext, Classical.choice, Quot.sound
Verif.C94_metrics: propext, Classical.choice, Quot.sound
Verif.C94_uncoded: propext, Classical.choice, Quot.sound
Verif.C95_wifi: propext, Classical.choice, Quot.sound
Verif.C95_real_channel: propext, Classical.choice, Quot.sound
Verif.C96_maximal: propext, Classical.choice, Quot.sound
Verif.C96_table: propext, Classical.choice, Quot.sound
Verif.C97_limit_denominator: propext, Classical.choice, Quot.sound
Verif.C97_float_rate: propext, Classical.choice, Quot.sound
Verif.C97_links: propext, Classical.choice, Quot.sound
Verif.C98_several_inputs: propext, Classical.choice, Quot.sound
Verif.C98_one_input: propext, Classical.choice, Quot.sound
Verif.C98_unit_registers: propext, Classical.choice, Quot.sound
Verif.C98_refuted: propext
Verif.C98_caller_matrix_refuted: propext
Verif.C99_tree: propext, Classical.choice, Quot.sound
Verif.C99_numbers: propext, Classical.choice, Quot.sound
Verif.C99_early_stop: propext, Classical.choice, Quot.sound
Verif.C100_bitarray2dec: propext, Classical.choice, Quot.sound
Verif.C100_roundtrip_partial: propext, Classical.choice, Quot.sound
Verif.C100_roundtrip_refuted: propext, Classical.choice, Quot.sound
Verif.C100_gf_mul_partial: propext, Classical.choice, Quot.sound
Verif.C100_trellis_partial: propext, Classical.choice, Quot.sound
Verif.C100_modulate_partial: propext, Classical.choice, Quot.sound
Verif.C101_numpy1_small_partial: propext, Classical.choice, Quot.sound
Verif.C101_numpy1_large: propext, Classical.choice, Quot.sound
Verif.C101_numpy2: propext, Classical.choice, Quot.sound
Verif.C101_refuted: propext, Classical.choice, Quot.sound
Verif.C102_diagram_partial: propext, Classical.choice, Quot.sound
Verif.C102_layout: propext, Classical.choice, Quot.sound
Verif.C102_colour_refuted: propext, Classical.choice, Quot.sound
Verif.C102_state_order_refuted: propext, Classical.choice, Quot.sound
Verif.C102_count_partial: propext, Classical.choice, Quot.sound
Verif.C102_legend_refuted: propext, Classical.choice, Quot.sound
Verif.C103_fsm: propext, Classical.choice, Quot.sound
Verif.C103_vertical: propext, Classical.choice, Quot.sound
Verif.C104_zc_spectrum: propext, Classical.choice, Quot.sound
Verif.C104_zc_cross: propext, Classical.choice, Quot.sound
Verif.C105_rcos_spectrum: propext, Classical.choice, Quot.sound
Verif.C105_rrcos_spectrum: propext, Classical.choice, Quot.sound
Verif.C105_band: propext, Classical.choice, Quot.sound
Verif.C105_matched: propext, Classical.choice, Quot.sound
Verif.C105_orthogonal: propext, Classical.choice, Quot.sound
Verif.C105_gauss_spectrum: propext, Classical.choice, Quot.sound
Verif.C106_map: propext, Classical.choice, Quot.sound
Verif.C106_turbo: propext, Classical.choice, Quot.sound
Verif.C106_viterbi: propext, Classical.choice, Quot.sound
Verif.C107_gap: propext, Classical.choice, Quot.sound
Verif.C107_siso: propext, Classical.choice, Quot.sound
Verif.C107_opposite: propext, Classical.choice, Quot.sound
Verif.C107_convention_refuted: propext, Classical.choice, Quot.sound
Verif.C108_viterbi: propext, Classical.choice, Quot.sound
Verif.C108_ldpc: propext, Classical.choice, Quot.sound
Verif.C108_ldpc_refuted: propext, Classical.choice, Quot.sound
Verif.C109_default_refuted: propext, Classical.choice, Quot.sound
Verif.C109_finite: propext, Classical.choice, Quot.sound
Verif.C109_infinite: propext, Classical.choice, Quot.sound
Verif.C109_far: propext, Classical.choice, Quot.sound
Verif.C109_clean: propext, Classical.choice, Quot.sound
Verif.C110_free_distance: propext, Classical.choice, Quot.sound
Verif.C110_feedforward: propext, Classical.choice, Quot.sound
Verif.C110_57: propext, Classical.choice, Quot.sound
Verif.C110_5_15: propext, Classical.choice, Quot.sound
Verif.C110_133_171: propext, Classical.choice, Quot.sound
Verif.C110_57_unquantized: propext, Classical.choice, Quot.sound
Verif.C110_four_errors_refuted: propext, Quot.sound
Verif.C110_three_errors_refuted: propext, Quot.sound
Verif.C110_trellis3: propext, Classical.choice, Quot.sound
Verif.C110_trellis3_refuted: propext, Quot.sound
Verif.C110_sparse: propext, Classical.choice, Quot.sound
Verif.C110_feedforward_sparse: propext, Classical.choice, Quot.sound
Verif.C110_57_sparse: propext, Classical.choice, Quot.sound
Verif.C110_5_15_sparse: propext, Classical.choice, Quot.sound
Verif.C110_133_171_sparse: propext, Classical.choice, Quot.sound
Verif.C110_133_171_sparse4: propext, Classical.choice, Quot.sound
Verif.C110_local: propext, Classical.choice, Quot.sound
Verif.C110_errors: propext, Classical.choice, Quot.sound
Verif.C110_any_state: propext, Classical.choice, Quot.sound
Verif.C110_unquantized: propext, Classical.choice, Quot.sound
Verif.C111_labels: propext, Classical.choice, Quot.sound
Verif.C111_distinct: propext, Classical.choice, Quot.sound
Verif.C111_qam: propext, Classical.choice, Quot.sound
Verif.C111_psk: propext, Classical.choice, Quot.sound
Verif.C112_pattern: propext, Classical.choice, Quot.sound
Verif.C112_girth: propext, Classical.choice, Quot.sound
Verif.C112_errors: propext, Classical.choice, Quot.sound
Verif.C112_single: propext, Classical.choice, Quot.sound
Verif.C113_erasures: propext, Classical.choice, Quot.sound
Verif.C113_stopping: propext, Classical.choice, Quot.sound
Verif.C113_exact: propext, Classical.choice, Quot.sound
Verif.C114_link: propext, Classical.choice, Quot.sound
Verif.C114_wimax1440: propext, Classical.choice, Quot.sound
Verif.C114_wimax960: propext, Classical.choice, Quot.sound
Verif.C114_gallager964: propext, Classical.choice, Quot.sound
Verif.C114_refuted: propext, Classical.choice, Quot.sound
Verif.C114_refuted_963: propext, Classical.choice, Quot.sound
Verif.C115_state_equations: propext, Classical.choice, Quot.sound
Verif.C115_matrix_actual: propext, Classical.choice, Quot.sound
Verif.C115_matrix_iff: propext, Classical.choice, Quot.sound
Verif.C115_matrix_refuted: propext, Classical.choice, Quot.sound
Verif.C115_integer_actual: propext, Classical.choice, Quot.sound
Verif.C115_integer_iff: propext, Classical.choice, Quot.sound
Verif.C115_integer_systematic: propext, Classical.choice, Quot.sound
Verif.C116_isi_free: propext, Classical.choice, Quot.sound
Verif.C116_odd_refuted: propext, Classical.choice, Quot.sound
Verif.C117_ml: propext, Classical.choice, Quot.sound
Verif.C117_kbest: propext, Classical.choice, Quot.sound
Verif.C117_ml_qr: propext, Classical.choice, Quot.sound
Verif.C117_noise_free: propext, Classical.choice, Quot.sound
Verif.C117_best_first: propext, Classical.choice, Quot.sound
Verif.C118_gray: propext, Classical.choice, Quot.sound
Verif.C118_any: propext, Classical.choice, Quot.sound
Verif.C118_qam: propext, Classical.choice, Quot.sound
Verif.C118_psk: propext, Classical.choice, Quot.sound
Verif.C118_chain: propext, Classical.choice, Quot.sound
Verif.C118_57_qam: propext, Classical.choice, Quot.sound
Verif.C119_bsc: propext, Classical.choice, Quot.sound
Verif.C119_57: propext, Classical.choice, Quot.sound
Verif.C120_awgn: propext, Classical.choice, Quot.sound
Verif.C120_siso: propext, Classical.choice, Quot.sound
Verif.C120_reliable: propext, Classical.choice, Quot.sound
Verif.C121_vote: propext, Classical.choice, Quot.sound
Verif.C121_pattern: propext, Classical.choice, Quot.sound
Verif.C121_errors: propext, Classical.choice, Quot.sound
Verif.C121_posterior_refuted: propext, Classical.choice, Quot.sound
Verif.C122_turbo: propext, Classical.choice, Quot.sound
Verif.C122_exact: propext, Classical.choice, Quot.sound
Verif.C122_roundtrip: propext, Classical.choice, Quot.sound
Verif.C122_roundtrip_refuted: propext, Classical.choice, Quot.sound
Verif.C123_parity: propext, Classical.choice, Quot.sound
Verif.C123_bec: propext, Classical.choice, Quot.sound
Verif.C123_corrects: propext, Classical.choice, Quot.sound
Verif.C123_probability: propext, Classical.choice, Quot.sound
Verif.C123_erasures_refuted: propext, Classical.choice, Quot.sound
Verif.C123_bpsk: propext, Classical.choice, Quot.sound
Verif.C124_consistent: propext, Classical.choice, Quot.sound
Verif.C124_bias: propext, Classical.choice, Quot.sound
Verif.C124_unbiased: propext, Classical.choice, Quot.sound
Verif.C124_bsc: propext, Classical.choice, Quot.sound
Verif.C124_unbiased_refuted: propext, Classical.choice, Quot.sound
Verif.C124_bsc_bias: propext, Classical.choice, Quot.sound
Verif.C124_bsc_precision: propext, Classical.choice, Quot.sound
Verif.C125_union: propext, Classical.choice, Quot.sound
Verif.C125_lower: propext, Classical.choice, Quot.sound
Verif.C125_qpsk: propext, Classical.choice, Quot.sound
Verif.C125_qam4: propext, Classical.choice, Quot.sound
Verif.C125_bpsk: propext, Classical.choice, Quot.sound
Verif.C125_psk: propext, Classical.choice, Quot.sound
Verif.C125_qam: propext, Classical.choice, Quot.sound
Verif.C125_awgn: propext, Classical.choice, Quot.sound
Verif.C126_unquantized: propext, Classical.choice, Quot.sound
Verif.C126_hard: propext, Classical.choice, Quot.sound
Verif.C126_57_awgn: propext, Classical.choice, Quot.sound
Verif.C126_57_bsc: propext, Classical.choice, Quot.sound
Verif.C127_general: propext, Classical.choice, Quot.sound
Verif.C127_soft: propext, Classical.choice, Quot.sound
Verif.C127_57_bpsk: propext, Classical.choice, Quot.sound
Verif.C128_wifi: propext, Classical.choice, Quot.sound
Verif.C128_explicit: propext, Classical.choice, Quot.sound
Verif.C129_bec: propext, Classical.choice, Quot.sound
Verif.C129_bec_exact: propext, Classical.choice, Quot.sound
Verif.C129_bec_bounds: propext, Classical.choice, Quot.sound
Verif.C129_bec_blocks: propext, Classical.choice, Quot.sound
Verif.C129_bsc_blocks: propext, Classical.choice, Quot.sound
Verif.C129_gallager964: propext, Classical.choice, Quot.sound
Verif.C129_wimax1440: propext, Classical.choice, Quot.sound
Verif.C130_whole: propext, Classical.choice, Quot.sound
Verif.C130_refused_partial: propext, Classical.choice, Quot.sound
Verif.C130_refuted: propext, Classical.choice, Quot.sound
Verif.C130_negative: propext, Classical.choice, Quot.sound
Verif.C131_exact: propext, Classical.choice, Quot.sound
Verif.C131_integers: propext, Classical.choice, Quot.sound
Verif.C132_union: propext, Classical.choice, Quot.sound
Verif.C132_rayleigh: propext, Classical.choice, Quot.sound
Verif.C132_binary: propext, Classical.choice, Quot.sound
Verif.C132_single: propext, Classical.choice, Quot.sound
Verif.C133_window: propext, Classical.choice, Quot.sound
Verif.C133_unquantized: propext, Classical.choice, Quot.sound
Verif.C133_double: propext, Classical.choice, Quot.sound
Verif.C133_margin: propext, Classical.choice, Quot.sound
Verif.C133_hard: propext, Classical.choice, Quot.sound
Verif.C133_soft: propext, Classical.choice, Quot.sound
Verif.C133_soft_double: propext, Classical.choice, Quot.sound
Verif.C133_noise_free: propext, Classical.choice, Quot.sound
Verif.C134_nearest: propext, Classical.choice, Quot.sound
Verif.C134_margin: propext, Classical.choice, Quot.sound
Verif.C134_noise: propext, Classical.choice, Quot.sound
Verif.C134_roundtrip: propext, Classical.choice, Quot.sound
Verif.C134_qam: propext, Classical.choice, Quot.sound
Verif.C134_psk: propext, Classical.choice, Quot.sound
Verif.C134_awgn: propext, Classical.choice, Quot.sound
Verif.C135_llr: propext, Classical.choice, Quot.sound
Verif.C135_bounded: propext, Classical.choice, Quot.sound
Verif.C135_sign: propext, Classical.choice, Quot.sound
Verif.C136_chain: propext, Classical.choice, Quot.sound
Verif.C136_gallager964: propext, Classical.choice, Quot.sound
Verif.C136_wimax1440: propext, Classical.choice, Quot.sound
Verif.C137_rcos_partial: propext, Classical.choice, Quot.sound
Verif.C137_rcos_refuted: propext, Classical.choice, Quot.sound
Verif.C137_gaussian: propext, Classical.choice, Quot.sound
Verif.C137_rrcos_partial: propext, Classical.choice, Quot.sound
Verif.C137_rrcos_refuted: propext, Classical.choice, Quot.sound
Verif.C138_refuted: propext, Classical.choice, Quot.sound
Verif.C138_small_partial: propext, Classical.choice, Quot.sound
Verif.C139_samples: propext, Classical.choice, Quot.sound
Verif.C139_autocorrelation: propext, Classical.choice, Quot.sound
Verif.C139_refuted: propext, Classical.choice, Quot.sound
Verif.C139_errors: propext, Classical.choice, Quot.sound
Verif.C140_general: propext, Classical.choice, Quot.sound
Verif.C140_soft: propext, Classical.choice, Quot.sound
Verif.C140_57_bpsk: propext, Classical.choice, Quot.sound
Verif.C140_unquantized: propext, Classical.choice, Quot.sound
Verif.C140_hard: propext, Classical.choice, Quot.sound
Verif.C140_57_bsc: propext, Classical.choice, Quot.sound
Verif.C140_57_awgn: propext, Classical.choice, Quot.sound
Verif.C141_qam_bits: propext, Classical.choice, Quot.sound
Verif.C141_qam16: propext, Classical.choice, Quot.sound
Verif.C141_qam64: propext, Classical.choice, Quot.sound
Verif.C141_qam_symbols: propext, Classical.choice, Quot.sound
Verif.C141_symbol_api: propext, Classical.choice, Quot.sound
Verif.C141_link: propext, Classical.choice, Quot.sound
Verif.C141_bits_symbols: propext, Classical.choice, Quot.sound
Verif.C141_psk: propext, Classical.choice, Quot.sound
Verif.C141_psk_bits: propext, Classical.choice, Quot.sound
Verif.C142_regular: propext, Classical.choice, Quot.sound
Verif.C142_uncorr_rician: propext, Classical.choice, Quot.sound
Verif.C142_expo_corr_rician: propext, Classical.choice, Quot.sound
Verif.C142_output: propext, Classical.choice, Quot.sound
Verif.C142_history: propext, Classical.choice, Quot.sound
Verif.C142_zero_mean: propext, Classical.choice, Quot.sound
Verif.C142_refuted: propext, Classical.choice, Quot.sound
Verif.C142_negative_k: propext, Classical.choice, Quot.sound
Verif.C142_zero_correlation: propext, Classical.choice, Quot.sound
Verif.C142_snr: propext, Classical.choice, Quot.sound
Verif.C142_siso_regular: propext, Classical.choice, Quot.sound
Verif.C142_siso_output: propext, Classical.choice, Quot.sound
Verif.C142_siso_negative_variance: propext, Classical.choice, Quot.sound
Verif.C142_k_factor: propext, Classical.choice, Quot.sound
Verif.C143_symbol: propext, Classical.choice, Quot.sound
Verif.C143_modem: propext, Classical.choice, Quot.sound
Verif.C143_probability: propext, Classical.choice, Quot.sound
Verif.C143_vanishes: propext, Classical.choice, Quot.sound
Verif.C143_bits_vanish: propext, Classical.choice, Quot.sound
Verif.C143_awgn: propext, Classical.choice, Quot.sound
Verif.C143_refuted: propext, Classical.choice, Quot.sound
Verif.C143_ml: propext, Classical.choice, Quot.sound
Verif.C143_viterbi: propext, Classical.choice, Quot.sound
Verif.C144_symbols: propext, Classical.choice, Quot.sound
Verif.C144_bits: propext, Classical.choice, Quot.sound
Verif.C144_soft_hard: propext, Classical.choice, Quot.sound
Verif.C144_guess: propext, Classical.choice, Quot.sound
Verif.C144_half: propext, Classical.choice, Quot.sound
Verif.C144_ml: propext, Classical.choice, Quot.sound
Verif.C145_map: propext, Classical.choice, Quot.sound
Verif.C145_map_block: propext, Classical.choice, Quot.sound
Verif.C145_uncoded: propext, Classical.choice, Quot.sound
Verif.C145_prior: propext, Classical.choice, Quot.sound
Verif.C146_rcos: propext, Classical.choice, Quot.sound
Verif.C146_rrcos: propext, Classical.choice, Quot.sound
Verif.C146_gauss: propext, Classical.choice, Quot.sound
Verif.C146_finite: propext, Classical.choice, Quot.sound
Verif.C146_signs: propext, Classical.choice, Quot.sound
Verif.C147_nearest: propext, Classical.choice, Quot.sound
Verif.C147_margin: propext, Classical.choice, Quot.sound
Verif.C147_noise: propext, Classical.choice, Quot.sound
Verif.C147_dot: propext, Classical.choice, Quot.sound
Verif.C147_contract: propext, Classical.choice, Quot.sound
Verif.C147_double: propext, Classical.choice, Quot.sound
Verif.C148_unique: propext, Classical.choice, Quot.sound
Verif.C148_kbest: propext, Classical.choice, Quot.sound
Verif.C148_kbest_optimal: propext, Classical.choice, Quot.sound
Verif.C148_best_first: propext, Classical.choice, Quot.sound
Verif.C148_regular: propext, Classical.choice, Quot.sound
Verif.C149_gap: propext, Classical.choice, Quot.sound
Verif.C149_values: propext, Classical.choice, Quot.sound
Verif.C149_sign: propext, Classical.choice, Quot.sound
Verif.C150_ml_partial: propext, Classical.choice, Quot.sound
Verif.C150_real_parts: propext, Classical.choice, Quot.sound
Verif.C150_no_imaginary: propext, Classical.choice, Quot.sound
Verif.C150_type_error: propext, Classical.choice, Quot.sound
Verif.C150_refused: propext, Classical.choice, Quot.sound
Verif.C150_refuted: propext, Classical.choice, Quot.sound
