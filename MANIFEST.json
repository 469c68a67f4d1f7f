{
 "claims": [
  {
   "property": "C01",
   "status": "proved",
   "theorems": [
    "Verif.C01_dec_bits_dec"
   ],
   "note": "All widths and numbers below 2^w."
  },
  {
   "property": "C02",
   "status": "proved",
   "theorems": [
    "Verif.C02_bits_dec_bits"
   ],
   "note": "All bit lists, including the empty one."
  },
  {
   "property": "C03",
   "status": "proved",
   "theorems": [
    "Verif.C03_overflow"
   ],
   "note": "Complete characterisation: IndexError iff n >= 2^(2w), otherwise folded bits (negative index wrap-around)."
  },
  {
   "property": "C04",
   "status": "proved",
   "theorems": [
    "Verif.C04_array"
   ],
   "note": "All arrays of naturals, including arrays whose elements raise."
  },
  {
   "property": "C05",
   "status": "proved",
   "theorems": [
    "Verif.C05_cache_transparent",
    "Verif.C05_direct_refuted"
   ],
   "note": "Invariant over all histories and cache sizes; the exception named in the property (direct use of decimal2bitarray) is shown to be real by C05_direct_refuted."
  },
  {
   "property": "C06",
   "status": "proved",
   "theorems": [
    "Verif.C06_shapes",
    "Verif.C06_hamming"
   ],
   "note": "Bit arrays of equal length; C06_shapes covers the remaining shapes (ValueError unless lengths agree or one has length one, in which case numpy broadcasts)."
  },
  {
   "property": "C07",
   "status": "proved",
   "theorems": [
    "Verif.C07_euclid",
    "Verif.C07_antipodal"
   ],
   "note": "Exact real arithmetic."
  },
  {
   "property": "C08",
   "status": "proved",
   "theorems": [
    "Verif.C08_upsample",
    "Verif.C08_decimate",
    "Verif.C08_zero"
   ],
   "note": "All contents of the uninitialised array."
  },
  {
   "property": "C09",
   "status": "proved",
   "theorems": [
    "Verif.C09_power",
    "Verif.C09_upsample"
   ],
   "note": "Exact arithmetic; the empty signal raises."
  },
  {
   "property": "C10",
   "status": "proved",
   "theorems": [
    "Verif.C10_interleave_inverse"
   ],
   "note": "All permutations, all element types."
  },
  {
   "property": "C11",
   "status": "proved",
   "theorems": [
    "Verif.C11_short",
    "Verif.C11_long"
   ],
   "note": "All permutations, all element types."
  },
  {
   "property": "C12",
   "status": "proved",
   "theorems": [
    "Verif.C12_pnsequence"
   ],
   "note": "Complete characterisation incl. the order-0 corner."
  },
  {
   "property": "C13",
   "status": "proved",
   "theorems": [
    "Verif.C13_algebra",
    "Verif.C13_period"
   ],
   "note": "Linearity, zero seed, prefix stability, pure periodicity (pigeonhole)."
  },
  {
   "property": "C14",
   "status": "proved",
   "theorems": [
    "Verif.C14_zc",
    "Verif.C14_arguments"
   ],
   "note": "Integer arguments."
  },
  {
   "property": "C15",
   "status": "proved",
   "theorems": [
    "Verif.C15_zc_autocorrelation"
   ],
   "note": "All lags, exact complex arithmetic."
  },
  {
   "property": "C16",
   "status": "proved",
   "theorems": [
    "Verif.C16_zc_shift"
   ],
   "note": "All integers q."
  },
  {
   "property": "C17",
   "status": "proved",
   "theorems": [
    "Verif.C17_frequency_offset"
   ],
   "note": "Fs != 0; Fs = 0 raises."
  },
  {
   "property": "C18",
   "status": "proved",
   "theorems": [
    "Verif.C18_rcos",
    "Verif.C18_rcos_continuous"
   ],
   "note": "Exact real arithmetic."
  },
  {
   "property": "C19",
   "status": "proved",
   "theorems": [
    "Verif.C19_rrcos",
    "Verif.C19_rrcos_continuous"
   ],
   "note": "Exact real arithmetic."
  },
  {
   "property": "C20",
   "status": "proved",
   "theorems": [
    "Verif.C20_gauss_rect"
   ],
   "note": "Exact real arithmetic."
  },
  {
   "property": "C21",
   "status": "proved",
   "theorems": [
    "Verif.C21_add",
    "Verif.C21_add_laws"
   ],
   "note": "All m <= 16, all array sizes; closure needs operands in the field."
  },
  {
   "property": "C22",
   "status": "proved",
   "theorems": [
    "Verif.C22_mul",
    "Verif.C22_mul_laws"
   ],
   "note": "All m in 1..16, all arrays of field elements; product characterised as remainder in GF(2)[x] and the ring laws."
  },
  {
   "property": "C23",
   "status": "proved",
   "theorems": [
    "Verif.C23_primitive",
    "Verif.C23_inverse"
   ],
   "note": "Primitivity of all 16 table polynomials by kernel-computed powers and the factorisation of 2^m-1; for m = 1 the integer 2 is not a field element, so the generator statement is for m >= 2 and the inverse statement for m >= 1."
  },
  {
   "property": "C24",
   "status": "proved",
   "theorems": [
    "Verif.C24_polydivide",
    "Verif.C24_polydivide_diverges"
   ],
   "note": "Termination, correctness, uniqueness for y >= 2; divergence for y <= 1 for every iteration allowance."
  },
  {
   "property": "C25",
   "status": "partial",
   "theorems": [
    "Verif.C25_tuple_to_power",
    "Verif.C25_roundtrip_partial",
    "Verif.C25_power_to_tuple_refuted",
    "Verif.C25_power_to_tuple_exact"
   ],
   "note": "tuple_to_power proved for all m. The round trip is proved for exponents <= 62 (all elements when m <= 6); for m >= 7 it is false because 2**i is int64 (C25_power_to_tuple_refuted). C25_power_to_tuple_exact describes power_to_tuple for every exponent."
  },
  {
   "property": "C26",
   "status": "proved",
   "theorems": [
    "Verif.C26_order"
   ],
   "note": "Least e >= 1 with a^e = 1, powers taken with the modelled multiplication."
  },
  {
   "property": "C27",
   "status": "proved",
   "theorems": [
    "Verif.C27_cosets"
   ],
   "note": "All m in 1..16, all arrays of distinct elements, including the zero element (its own class)."
  },
  {
   "property": "C28",
   "status": "proved",
   "theorems": [
    "Verif.C28_minpolys"
   ],
   "note": "All m in 1..16, all arrays of field elements: root, non-zero, divides every annihilating binary polynomial."
  },
  {
   "property": "C29",
   "status": "partial",
   "theorems": [
    "Verif.C29_genpoly_actual",
    "Verif.C29_genpoly_partial",
    "Verif.C29_genpoly_complete_partial",
    "Verif.C29_genpoly_errors",
    "Verif.C29_genpoly_refuted"
   ],
   "note": "C29_genpoly_actual: for every odd n whose least m with n | 2^m-1 is <= 16 and every k < n the result is exactly the list of divisors of x^(2^m-1)-1 of degree n-k (through float64). Hence for n = 2^m-1 and n-k <= 52 the list is exactly the divisors of x^n-1 of degree n-k (C29_genpoly_partial), and for all other n it is complete (C29_genpoly_complete_partial) but not sound: for n a proper divisor of 2^m-1 the property is false (C29_genpoly_refuted, n=5, k=1). Error cases characterised. Exact integers; for the machine integers of NumPy 1 and 2 (TypeError on reducible generators for m >= 6, OverflowError) see C101."
  },
  {
   "property": "C30",
   "status": "proved",
   "theorems": [
    "Verif.C30_poly_to_string",
    "Verif.C30_injective"
   ],
   "note": "Exact text for every integer and injectivity."
  },
  {
   "property": "C31",
   "status": "proved",
   "theorems": [
    "Verif.C31_convolution",
    "Verif.C31_generator_wider_than_memory"
   ],
   "note": "All k, n, memory layouts, formats and generator matrices whose polynomials fit their registers; all messages; 'cont' and 'term'. Assumes int(N/rate) is exact for the block length. C31_generator_wider_than_memory shows that a generator longer than its register reads uninitialised memory."
  },
  {
   "property": "C32",
   "status": "proved",
   "theorems": [
    "Verif.C32_linear",
    "Verif.C32_legacy_is_matrix"
   ],
   "note": "All matrix trellises with or without feedback; C32_legacy_is_matrix reduces the integer-feedback construction (k=1) to the matrix one."
  },
  {
   "property": "C33",
   "status": "proved",
   "theorems": [
    "Verif.C33_length",
    "Verif.C33_trellis_WF",
    "Verif.C33_double_outLen",
    "Verif.C33_length_double",
    "Verif.C33_double_refuted"
   ],
   "note": "C33_length: every well-formed trellis, message and termination string under exactness of int(N/rate). C33_double_outLen / C33_length_double discharge that for all rates with n <= 9 (and 1/n, n <= 48) in round-to-nearest-even double arithmetic (lengths < 2^51); C33_double_refuted: ValueError for every 9-in 14-out encoder."
  },
  {
   "property": "C34",
   "status": "proved",
   "theorems": [
    "Verif.C34_zero_tail",
    "Verif.C34_two_inputs_refuted"
   ],
   "note": "Rate 1/n as claimed; C34_two_inputs_refuted shows that the restriction to one input is needed."
  },
  {
   "property": "C35",
   "status": "partial",
   "theorems": [
    "Verif.C35_rsc_termination_refuted",
    "Verif.C35_rsc_termination_iff",
    "Verif.C35_rsc_termination_legacy"
   ],
   "note": "False as stated (C35_rsc_termination_refuted). C35_rsc_termination_iff: for one-input recursive codes the encoder always terminates in state 0 iff the feedback polynomial is 1 + D^M."
  },
  {
   "property": "C36",
   "status": "partial",
   "theorems": [
    "Verif.C36_puncture_refuted",
    "Verif.C36_puncture_partial"
   ],
   "note": "False as stated (C36_puncture_refuted): the output has the unpunctured length. Proved: selected bits followed by zeros, and the claim holds iff nothing is punctured."
  },
  {
   "property": "C37",
   "status": "proved",
   "theorems": [
    "Verif.C37_puncturing",
    "Verif.C37_depuncturing",
    "Verif.C37_roundtrip"
   ],
   "note": "All patterns and messages of any element type; the index idx-shift*N with negative wrap-around is modelled literally."
  },
  {
   "property": "C38",
   "status": "proved",
   "theorems": [
    "Verif.C38_maximum_likelihood",
    "Verif.C38_path_metrics",
    "Verif.C38_hard",
    "Verif.C38_soft",
    "Verif.C38_unquantized",
    "Verif.C38_feedforward_balanced",
    "Verif.C38_feedback_balanced",
    "Verif.C38_legacy_balanced"
   ],
   "note": "For every balanced trellis (each state entered by 2^k branches; proved for every trellis built by the constructor without feedback, with one-input feedback and by the legacy constructor), every received block of N whole groups, every uninitialised memory; hard = Hamming, soft = likelihood of the LLRs, unquantized = squared distance. Window = whole block."
  },
  {
   "property": "C39",
   "status": "proved",
   "theorems": [
    "Verif.C39_double_decLen",
    "Verif.C39_terminated",
    "Verif.C39_feedforward"
   ],
   "note": "Hard decisions; every balanced trellis with distinct outputs from each state and a zero loop at 0, every message ending in state 0, every depth 2 <= tb <= N + M/k. Instantiated for every feedforward one-input code in C39_feedforward. The length int(len*rate) is shown exact in double arithmetic by C39_double_decLen (rates as in C33)."
  },
  {
   "property": "C40",
   "status": "partial",
   "theorems": [
    "Verif.C40_continuous_partial",
    "Verif.C40_continuous_refuted",
    "Verif.C40_continuous_soft"
   ],
   "note": "False as stated for hard decisions (C40_continuous_refuted): the decoder pads with zero bits for M/k-1 steps. Proved for trellises with M < 2k (hard), and for every balanced trellis with distinct branch outputs with soft decisions (C40_continuous_soft)."
  },
  {
   "property": "C41",
   "status": "partial",
   "theorems": [
    "Verif.C41_input_after_hard",
    "Verif.C41_input_after_soft",
    "Verif.C41_input_modified_refuted"
   ],
   "note": "False as stated for hard decisions (C41_input_modified_refuted): the last block is overwritten. Exact after-state proved for hard; unchanged for soft."
  },
  {
   "property": "C42",
   "status": "proved",
   "theorems": [
    "Verif.C42_half_distance"
   ],
   "note": "Block code = code words of the padded length seen by the decoder; either M < 2k or the message drives the encoder to state 0."
  },
  {
   "property": "C43",
   "status": "partial",
   "theorems": [
    "Verif.C43_unknown_type_typeError",
    "Verif.C43_unknown_type_refuted"
   ],
   "note": "False as stated (C43_unknown_type_refuted): TypeError is raised instead for every non-empty block (C43_unknown_type_typeError)."
  },
  {
   "property": "C44",
   "status": "proved",
   "theorems": [
    "Verif.C44_soft_loglikelihood",
    "Verif.C44_soft_order",
    "Verif.C44_erasure_constant",
    "Verif.C44_erasure_neutral"
   ],
   "note": "Exact real arithmetic."
  },
  {
   "property": "C45",
   "status": "partial",
   "theorems": [
    "Verif.C45_determined",
    "Verif.C45_default_depth_one_input",
    "Verif.C45_default_depth_refuted"
   ],
   "note": "False as stated for several inputs (C45_default_depth_refuted). Proved for every depth that fits, and for one-input codes with the default depth."
  },
  {
   "property": "C46",
   "status": "proved",
   "theorems": [
    "Verif.C46_rate",
    "Verif.C46_standard_pattern",
    "Verif.C46_depuncture",
    "Verif.C46_partial_pattern_refuted"
   ],
   "note": "For whole puncturing periods, as stated; C46_partial_pattern_refuted shows that the receiver's length formula fails for messages ending inside a period."
  },
  {
   "property": "C47",
   "status": "partial",
   "theorems": [
    "Verif.C47_actual_code",
    "Verif.C47_generators_refuted",
    "Verif.C47_catastrophic"
   ],
   "note": "False: the literals 133, 171 are decimal, they fold to 5 and 43 in 7 bits. C47_generators_refuted (in both bit orders), C47_actual_code says which code is built and C47_catastrophic that it is catastrophic (inverting all bits of a message of any length changes at most 5 coded bits)."
  },
  {
   "property": "C48",
   "status": "proved",
   "theorems": [
    "Verif.C48_mcs"
   ],
   "note": ""
  },
  {
   "property": "C49",
   "status": "proved",
   "theorems": [
    "Verif.C49_chain"
   ],
   "note": "Stronger than the claim: the message itself is returned, for all LLRs with the right signs, all messages of whole puncturing periods with at least 2 bits."
  },
  {
   "property": "C50",
   "status": "partial",
   "theorems": [
    "Verif.C50_streams_partial",
    "Verif.C50_memoryless",
    "Verif.C50_length_refuted"
   ],
   "note": "Proved for all messages, permutations and systematic rate-1/2 one-input trellises with memory: first stream = message, second = parities of the message, third starts with the parities of the interleaved message. False as stated: the third stream has length 2L+M (refuted by C50_length_refuted), and memoryless trellises give empty streams (C50_memoryless)."
  },
  {
   "property": "C51",
   "status": "proved",
   "theorems": [
    "Verif.C51_posterior",
    "Verif.C51_bad_priors",
    "Verif.C51_short_parity"
   ],
   "note": "Exact reals. map_decode's values equal the log ratio of sums over all 2^L input sequences of prior times Gaussian densities (spec uses Mathlib's gaussianPDFReal)."
  },
  {
   "property": "C52",
   "status": "proved",
   "theorems": [
    "Verif.C52_decisions"
   ],
   "note": "Bits are 1 iff the joint density with 1 exceeds that with 0; all zeros in any mode other than 'decode'."
  },
  {
   "property": "C53",
   "status": "proved",
   "theorems": [
    "Verif.C53_turbo",
    "Verif.C53_default",
    "Verif.C53_no_iterations"
   ],
   "note": "All permutations and iteration counts; also zero iterations -> unbound variable error."
  },
  {
   "property": "C54",
   "status": "proved",
   "theorems": [
    "Verif.C54_roundtrip",
    "Verif.C54_empty"
   ],
   "note": "Character-level model of both functions: for every 0/1 matrix with a row and no empty row/column the file is written, parsed back to the same sizes, degrees, adjacency lists, and build_matrix gives the same matrix; an empty row or column gives IndexError. Not modelled: file system (mode 'x'), int32 overflow."
  },
  {
   "property": "C55",
   "status": "proved",
   "theorems": [
    "Verif.C55_maps",
    "Verif.C55_padding"
   ],
   "note": "C55_maps: the edge maps invert the adjacency lists, for every file that is read without error; C55_padding: shape and -1 padding of all four tables."
  },
  {
   "property": "C56",
   "status": "proved",
   "theorems": [
    "Verif.C56_errors",
    "Verif.C56_integral",
    "Verif.C56_unimodular",
    "Verif.C56_triangular",
    "Verif.C56_singular",
    "Verif.C56_refuted"
   ],
   "note": "Proved for triangular codes (documented scope), for determinant +-1 and for every code with S^-1 P integral. Outside this scope false: C56_refuted gives a code (read from a design file) and a message whose encoded word violates the checks; C56_singular: RuntimeError if the last columns are singular over the rationals; C56_errors: sizes for which build_matrix raises. float32 rounding of the inverse is not modelled."
  },
  {
   "property": "C57",
   "status": "proved",
   "theorems": [
    "Verif.C57_blocks",
    "Verif.C57_encode"
   ],
   "note": "Blocks in order, zero padding, ValueError iff pad is False and the length is no multiple."
  },
  {
   "property": "C58",
   "status": "proved",
   "theorems": [
    "Verif.C58_kept",
    "Verif.C58_stable",
    "Verif.C58_signs",
    "Verif.C58_length",
    "Verif.C58_singular",
    "Verif.C58_roundtrip"
   ],
   "note": "C58_kept is the claim; C58_stable: once a codeword is found more iterations change nothing; C58_signs: decisions are the signs of the LLRs, input clipped in place; C58_length: wrong lengths fail; C58_roundtrip: encoder then LLRs of the right signs then decoder; C58_singular: parameters from a design file with singular last columns cannot be decoded."
  },
  {
   "property": "C59",
   "status": "proved",
   "theorems": [
    "Verif.C59_blocks"
   ],
   "note": "Concatenation of two block sequences decodes to the concatenation of the results."
  },
  {
   "property": "C60",
   "status": "proved",
   "theorems": [
    "Verif.C60_scale",
    "Verif.C60_flip_msa",
    "Verif.C60_flip_spa"
   ],
   "note": "C60_scale, C60_flip_msa (also C60_flip_spa); the flip theorems assume that no returned LLR is exactly 0 since the sign of zero is taken as bit 0."
  },
  {
   "property": "C61",
   "status": "proved",
   "theorems": [
    "Verif.C61_roundtrip",
    "Verif.C61_excluded"
   ],
   "note": "Modem consistency (C66) is the only hypothesis on the object."
  },
  {
   "property": "C62",
   "status": "proved",
   "theorems": [
    "Verif.C62_nearest"
   ],
   "note": ""
  },
  {
   "property": "C63",
   "status": "proved",
   "theorems": [
    "Verif.C63_gray",
    "Verif.C63_plain",
    "Verif.C63_refused"
   ],
   "note": "sympy's GrayCode is a library contract (reflected binary code)."
  },
  {
   "property": "C64",
   "status": "proved",
   "theorems": [
    "Verif.C64_psk",
    "Verif.C64_refused"
   ],
   "note": "Exact complex exponentials."
  },
  {
   "property": "C65",
   "status": "proved",
   "theorems": [
    "Verif.C65_qam",
    "Verif.C65_refused"
   ],
   "note": "All sizes, including which sizes are refused."
  },
  {
   "property": "C66",
   "status": "proved",
   "theorems": [
    "Verif.C66_assign",
    "Verif.C66_history"
   ],
   "note": ""
  },
  {
   "property": "C67",
   "status": "proved",
   "theorems": [
    "Verif.C67_llr",
    "Verif.C67_sign",
    "Verif.C67_noiseless"
   ],
   "note": "Exact arithmetic, no overflow of exp. C67_sign covers noisy symbols with an explicit bound on the noise variance."
  },
  {
   "property": "C68",
   "status": "proved",
   "theorems": [
    "Verif.C68_ml",
    "Verif.C68_empty"
   ],
   "note": "mimo_ml as written (repeat/tile table, first argmin), exact complex arithmetic; empty constellation raises."
  },
  {
   "property": "C69",
   "status": "proved",
   "theorems": [
    "Verif.C69_valid",
    "Verif.C69_metric",
    "Verif.C69_first_entry",
    "Verif.C69_ml",
    "Verif.C69_refused"
   ],
   "note": "kbest loop as written; numpy.linalg.qr and argsort are parameters with their contracts. Hard output is a vector of points for every K>=1; accumulated metric = true squared distance up to one constant; first entry optimal for every K; ML for K >= m^(n-1); refusals."
  },
  {
   "property": "C70",
   "status": "partial",
   "theorems": [
    "Verif.C70_equal_magnitudes_partial",
    "Verif.C70_ml_partial",
    "Verif.C70_tall_refuted",
    "Verif.C70_single_refuted",
    "Verif.C70_reliability_refuted",
    "Verif.C70_value_partial",
    "Verif.C70_numbers_partial"
   ],
   "note": "best_first_detector as written (chains of siblings, insort, radius, trimming). Proved: termination, all values share one magnitude <= llr_max and describe one vector; with untrimmed stacks and a square channel the signs are ML and non-zero when ML is unique, and C70_value_partial gives the exact magnitude: min(llr_max, gap to the best vector that differs from the ML vector in a symbol other than the first) - the sibling of a leaf is dropped, so alternatives in the first symbol are never compared (C70_numbers_partial: 16 where max-log gives 4). Refuted: magnitudes do not reflect reliability (C70_reliability_refuted), tall channels and single-row channels always raise TypeError."
  },
  {
   "property": "C71",
   "status": "proved",
   "theorems": [
    "Verif.C71_blr"
   ],
   "note": "kron with the identity, all shapes and weights."
  },
  {
   "property": "C72",
   "status": "proved",
   "theorems": [
    "Verif.C72_values",
    "Verif.C72_sign",
    "Verif.C72_refused"
   ],
   "note": "max_log_approx in extended reals, any demode returning equally long words; values, infinite cases, sign and refusals."
  },
  {
   "property": "C73",
   "status": "partial",
   "theorems": [
    "Verif.C73_ofdm_refuted"
   ],
   "note": "False: ofdm_tx and ofdm_rx raise TypeError on every non-empty input (C73_ofdm_refuted)."
  },
  {
   "property": "C74",
   "status": "proved",
   "theorems": [
    "Verif.C74_bsc",
    "Verif.C74_bec",
    "Verif.C74_bsc_probability",
    "Verif.C74_bec_probability"
   ],
   "note": "Heap model: the caller's array is a heap cell; draws are a parameter. Also the flip / erasure probability under uniform draws."
  },
  {
   "property": "C75",
   "status": "proved",
   "theorems": [
    "Verif.C75_db_lin",
    "Verif.C75_siso_db_lin",
    "Verif.C75_positive",
    "Verif.C75_decreasing",
    "Verif.C75_siso_powers",
    "Verif.C75_mimo_noise_power"
   ],
   "note": "Exact reals; noise power as an integral over normal draws, through set_SNR_lin and propagate of SISO and MIMO channels."
  },
  {
   "property": "C76",
   "status": "partial",
   "theorems": [
    "Verif.C76_propagate_errors",
    "Verif.C76_propagate_output",
    "Verif.C76_rejected_unchanged",
    "Verif.C76_invariant",
    "Verif.C76_setter",
    "Verif.C76_negative_variance_refuted"
   ],
   "note": "Invariant, atomicity of refused operations, propagate output and errors proved for all histories. Refuted: the documented condition |param[1]|+|param[0]|^2=1 (a negative variance is accepted, C76_negative_variance_refuted)."
  },
  {
   "property": "C77",
   "status": "proved",
   "theorems": [
    "Verif.C77_uncorr_rician",
    "Verif.C77_expo_corr_rician",
    "Verif.C77_uncorr_rayleigh",
    "Verif.C77_expo_corr_rayleigh"
   ],
   "note": "Exact arithmetic, shapes as type parameters, non-zero mean (a zero mean gives nan in numpy and is outside the model)."
  },
  {
   "property": "C78",
   "status": "proved",
   "theorems": [
    "Verif.C78_errors",
    "Verif.C78_propagate"
   ],
   "note": "sqrtm is an arbitrary parameter."
  },
  {
   "property": "C79",
   "status": "partial",
   "theorems": [
    "Verif.C79_rejects_large",
    "Verif.C79_small_refuted",
    "Verif.C79_hermitian",
    "Verif.C79_posSemidef"
   ],
   "note": "Proved: modulus > 1.0001 refused, unchanged channel; for modulus 1 Hermitian, unit diagonal, exact entries, PSD without betas. Refuted: |t| < 1 is accepted and gives a non-Hermitian matrix (C79_small_refuted)."
  },
  {
   "property": "C80",
   "status": "proved",
   "theorems": [
    "Verif.C80_chunk",
    "Verif.C80_zero"
   ],
   "note": "All rates, sizes and requests (rate as a rational; limit_denominator of a float rate is standard library and not modelled)."
  },
  {
   "property": "C81",
   "status": "proved",
   "theorems": [
    "Verif.C81_errors",
    "Verif.C81_short",
    "Verif.C81_performance",
    "Verif.C81_ratios",
    "Verif.C81_chunk_bounds",
    "Verif.C81_nothing_sent",
    "Verif.C81_toplevel"
   ],
   "note": "link_performance is equivalent to an inductively specified simulation for arbitrary callbacks; bounds on ratios and bits; error cases."
  },
  {
   "property": "C82",
   "status": "partial",
   "theorems": [
    "Verif.C82_metrics_partial",
    "Verif.C82_actual_partial",
    "Verif.C82_chunk_errors",
    "Verif.C82_refuted"
   ],
   "note": "Proved for one chunk per transmission (default); for several chunks the BER is too large by that factor and chunk errors are capped at 1: C82_refuted shows BER 2. C82_actual_partial gives the real content for every number of chunks."
  },
  {
   "property": "C83",
   "status": "proved",
   "theorems": [
    "Verif.C83_idd",
    "Verif.C83_zero"
   ],
   "note": "All detectors, decoders, iteration counts; real arithmetic; callbacks do not modify their arguments."
  },
  {
   "property": "C84",
   "status": "proved",
   "theorems": [
    "Verif.C84_awgn",
    "Verif.C84_awgn_empty"
   ],
   "note": "Exact reals, normal draws."
  },
  {
   "property": "C85",
   "status": "proved",
   "theorems": [
    "Verif.C85_specular"
   ],
   "note": "Exact reals."
  },
  {
   "property": "C86",
   "status": "proved",
   "theorems": [
    "Verif.C86_kronecker"
   ],
   "note": "Pairwise independent normal draws; sqrtm satisfies S S^H = R (true of the principal root of a Hermitian PSD matrix)."
  },
  {
   "property": "C87",
   "status": "partial",
   "theorems": [
    "Verif.C87_setter",
    "Verif.C87_atomic_refuted",
    "Verif.C87_invariant",
    "Verif.C87_default"
   ],
   "note": "Invariant proved for all histories. Refuted: a refused expo_corr call with a negative beta has already changed the channel (C87_atomic_refuted)."
  },
  {
   "property": "C88",
   "status": "partial",
   "theorems": [
    "Verif.C88_received",
    "Verif.C88_buffer",
    "Verif.C88_refuted"
   ],
   "note": "Order and completeness proved for every receiver and buffer; the buffer length is exact for rates k/n with n <= 9 or 1/n with n <= 48 (C88_buffer with rateOK_small), but too long by one for rate 7/10 and 21 bits (C88_refuted: an uninitialised entry reaches the decoder)."
  },
  {
   "property": "C89",
   "status": "partial",
   "theorems": [
    "Verif.C89_msa",
    "Verif.C89_spa_partial",
    "Verif.C89_spa_one",
    "Verif.C89_errors",
    "Verif.C89_refuted",
    "Verif.C89_zero_nan"
   ],
   "note": "Min-sum: complete (C89_msa). Sum-product: proved while no message is zero (C89_spa_partial, C89_spa_one); false with an erased bit (C89_refuted): its output LLR is nan for every code, LLRs and number of iterations unless the signs already satisfy the checks, and the nan spreads one check per iteration (C89_zero_nan)."
  },
  {
   "property": "C90",
   "status": "proved",
   "theorems": [
    "Verif.C90_exact"
   ],
   "note": "Exact arithmetic, non-zero LLRs of magnitude at most 500 (the clipping range)."
  },
  {
   "property": "C91",
   "status": "proved",
   "theorems": [
    "Verif.C91_right_signs"
   ],
   "note": "Proved through a Griffiths correlation inequality over the linear code; includes soft a priori values of the right sign."
  },
  {
   "property": "C92",
   "status": "proved",
   "theorems": [
    "Verif.C92_trellis",
    "Verif.C92_roundtrip_trellis",
    "Verif.C92_roundtrip"
   ],
   "note": "Constructor with integer feedback; also C92_roundtrip_trellis for any well-formed linear systematic trellis. outLen is the exact int(N/rate)."
  },
  {
   "property": "C93",
   "status": "proved",
   "theorems": [
    "Verif.C93_hard",
    "Verif.C93_soft",
    "Verif.C93_qam",
    "Verif.C93_psk"
   ],
   "note": "C93_hard and C93_soft for any consistent modem; C93_qam and C93_psk give the minimum distances (2 and 2 sin(pi/m))."
  },
  {
   "property": "C94",
   "status": "proved",
   "theorems": [
    "Verif.C94_performance",
    "Verif.C94_metrics",
    "Verif.C94_uncoded"
   ],
   "note": "C94_performance and C94_metrics for any link model; C94_uncoded instantiates it for uncoded modulation over SISOFlatChannel. The generator is a parameter whose normal draws are bounded by A (an ideal Gaussian is unbounded; any finite execution meets some A)."
  },
  {
   "property": "C95",
   "status": "proved",
   "theorems": [
    "Verif.C95_wifi",
    "Verif.C95_real_channel"
   ],
   "note": "Trellis memory garbage (np.empty) is arbitrary; rates are exact fractions. C95_real_channel: the default real channel raises TypeError on the first transmission."
  },
  {
   "property": "C96",
   "status": "proved",
   "theorems": [
    "Verif.C96_maximal",
    "Verif.C96_table"
   ],
   "note": "PrimitiveMask: characteristic polynomial irreducible and X of order 2^m-1 modulo it; C96_table: met by the tabulated polynomials, m = 1..16."
  },
  {
   "property": "C97",
   "status": "proved",
   "theorems": [
    "Verif.C97_limit_denominator",
    "Verif.C97_float_rate",
    "Verif.C97_links"
   ],
   "note": "limit_denominator is the CPython algorithm (continued fractions). Doubles are rationals with 53-bit mantissas, rounding to nearest even."
  },
  {
   "property": "C98",
   "status": "partial",
   "theorems": [
    "Verif.C98_several_inputs",
    "Verif.C98_one_input",
    "Verif.C98_unit_registers",
    "Verif.C98_refuted",
    "Verif.C98_caller_matrix_refuted"
   ],
   "note": "Proved: one input (C98_one_input, agrees with the matrix form through C32_legacy_is_matrix); registers of one delay and feedback 0 for any number of inputs (C98_unit_registers). Refuted: ValueError whenever the second register has two delays or more (C98_several_inputs), a wrong register is read for memory (2,1) (C98_refuted), and with 'rsc' the caller's matrix is overwritten (C98_caller_matrix_refuted)."
  },
  {
   "property": "C99",
   "status": "proved",
   "theorems": [
    "Verif.C99_tree",
    "Verif.C99_numbers",
    "Verif.C99_early_stop"
   ],
   "note": "C99_tree: exact posterior LLRs when the decoder runs to the end; if it stops early it stops at a codeword (C99_early_stop: then the output LLRs are in general not the posteriors, for every iteration count). C99_numbers: a concrete run meeting the hypotheses. Real arithmetic; messages exactly 0 excluded (0/0 in the code, see C89)."
  },
  {
   "property": "C100",
   "status": "partial",
   "theorems": [
    "Verif.C100_bitarray2dec",
    "Verif.C100_roundtrip_partial",
    "Verif.C100_roundtrip_refuted",
    "Verif.C100_gf_mul_partial",
    "Verif.C100_trellis_partial",
    "Verif.C100_modulate_partial"
   ],
   "note": "Proved exactly: NumPy 1 is exact up to 63 bits (beyond, a float comes back); NumPy 2 is exact for arrays shorter than the scalar width and raises OverflowError otherwise. Refuted for NumPy 2: bitarray2dec(dec2bitarray(5, 8)) raises (C100_roundtrip_refuted), hence GF products for m >= 5, trellises with >= 8 delays or outputs, and modulation of int8 bits with >= 8 bits per symbol. Arrays of int8 keep parities under wrap-around; int64 default integers (64-bit Linux)."
  },
  {
   "property": "C101",
   "status": "partial",
   "theorems": [
    "Verif.C101_numpy1_small_partial",
    "Verif.C101_numpy1_large",
    "Verif.C101_numpy2",
    "Verif.C101_refuted"
   ],
   "note": "Exact characterisation: NumPy 1 and m <= 5 as claimed (C101_numpy1_small_partial); NumPy 1 and 6 <= m <= 16: TypeError iff some divisor of the degree asked for is reducible, otherwise the claim (C101_numpy1_large); NumPy 2: claim for m <= 2, OverflowError for m = 3, 4 whenever there is something to return, always OverflowError for m >= 5 (C101_numpy2). C101_refuted: (63,57) and (7,4)."
  },
  {
   "property": "C102",
   "status": "partial",
   "theorems": [
    "Verif.C102_diagram_partial",
    "Verif.C102_layout",
    "Verif.C102_colour_refuted",
    "Verif.C102_state_order_refuted",
    "Verif.C102_count_partial",
    "Verif.C102_legend_refuted"
   ],
   "note": "The whole drawing is characterised (C102_diagram_partial, C102_layout, C102_count_partial). Refuted: with distinct colours every arrow has the colour of another input (off by one, C102_colour_refuted), the legend entry 0-input of the (5,7) code is an input-1 arrow (C102_legend_refuted), the caller's state_order is reversed in place (C102_state_order_refuted), parallel transitions are drawn once. Drawing = list of objects handed to matplotlib, real coordinates."
  },
  {
   "property": "C103",
   "status": "proved",
   "theorems": [
    "Verif.C103_fsm",
    "Verif.C103_vertical"
   ],
   "note": "Positions as computed (rounded cos/sin) are a parameter; if two different joined states have exactly the same abscissa the code divides by zero (C103_vertical)."
  },
  {
   "property": "C104",
   "status": "proved",
   "theorems": [
    "Verif.C104_zc_spectrum",
    "Verif.C104_zc_cross"
   ],
   "note": "Any N; for even N two valid roots never differ by a coprime number, so the cross-correlation statement concerns odd N."
  },
  {
   "property": "C105",
   "status": "proved",
   "theorems": [
    "Verif.C105_rcos_spectrum",
    "Verif.C105_rrcos_spectrum",
    "Verif.C105_band",
    "Verif.C105_matched",
    "Verif.C105_orthogonal",
    "Verif.C105_gauss_spectrum"
   ],
   "note": "Exact reals. The root raised-cosine pulse is scaled as in the code (value Ts at f = 0); cascade and orthogonality include roll-off 0. Band limitation of the continuous-time pulse for roll-off > 0; the truncation to N taps is not a claim."
  },
  {
   "property": "C106",
   "status": "proved",
   "theorems": [
    "Verif.C106_map",
    "Verif.C106_turbo",
    "Verif.C106_viterbi"
   ],
   "note": "Exact reals. Ties (LLR exactly 0, several nearest paths) are excluded or described. Viterbi: the codeword's path must end in state 0 when the decoder appends padding steps (else the padding is not its continuation)."
  },
  {
   "property": "C107",
   "status": "partial",
   "theorems": [
    "Verif.C107_gap",
    "Verif.C107_siso",
    "Verif.C107_opposite",
    "Verif.C107_convention_refuted"
   ],
   "note": "The general bound is proved (C107_gap). The shared convention is false (C107_convention_refuted): with two points demodulate returns exactly minus twice max_log_approx for every observation. What holds is C107_siso: max_log_approx(noise_var) + demodulate(2 noise_var) is within log(m/2) of 0, so signs are opposite (C107_opposite)."
  },
  {
   "property": "C108",
   "status": "partial",
   "theorems": [
    "Verif.C108_viterbi",
    "Verif.C108_ldpc",
    "Verif.C108_ldpc_refuted"
   ],
   "note": "Viterbi as stated (C108_viterbi). LDPC: true after negating the soft outputs (C108_ldpc); false as stated (C108_ldpc_refuted): ldpc_bp_decode takes positive for 0, demodulate returns positive for 1, and codes whose checks all have even weight decode to the complement of every transmitted word."
  },
  {
   "property": "C109",
   "status": "partial",
   "theorems": [
    "Verif.C109_default_refuted",
    "Verif.C109_finite",
    "Verif.C109_infinite",
    "Verif.C109_far",
    "Verif.C109_clean"
   ],
   "note": "As stated refuted: the default noise_var = 0 gives nan for every input (C109_default_refuted), far symbols give nan (C109_far), clean symbols at low noise give infinities of the right sign (C109_infinite, C109_clean); finite exactly in the remaining range up to the underflow threshold between 745 and 746 (C109_finite). Rounding of sums, quotients and logarithms not modelled."
  },
  {
   "property": "C110",
   "status": "partial",
   "theorems": [
    "Verif.C110_free_distance",
    "Verif.C110_feedforward",
    "Verif.C110_57",
    "Verif.C110_5_15",
    "Verif.C110_133_171",
    "Verif.C110_57_unquantized",
    "Verif.C110_four_errors_refuted",
    "Verif.C110_three_errors_refuted",
    "Verif.C110_trellis3",
    "Verif.C110_trellis3_refuted",
    "Verif.C110_sparse",
    "Verif.C110_feedforward_sparse",
    "Verif.C110_57_sparse",
    "Verif.C110_5_15_sparse",
    "Verif.C110_133_171_sparse",
    "Verif.C110_133_171_sparse4",
    "Verif.C110_local",
    "Verif.C110_errors",
    "Verif.C110_any_state",
    "Verif.C110_unquantized"
   ],
   "note": "Proved: C110_local (any error pattern, segment-wise condition), C110_errors (up to e errors, any linear balanced trellis, any traceback depth above the column distance order), C110_unquantized (noise energy below the distance), C110_sparse (unboundedly many sparse errors), C110_free_distance, and closed theorems for all messages for generators (5,7), (5,15) octal, (133,171) octal with the default depth. False as one would expect for four errors with (133,171): the decoder does not use the final state, the last message bit is lost (C110_four_errors_refuted); with 4 errors all but the last 5 bits are proved correct. C110_three_errors_refuted: the limit 2 for (5,7) is sharp. Without return to state 0 (recursive/feedback encoders): C110_any_state; instance C110_trellis3 for the k = 2 feedback trellis of the example script (one error, all but the last 2 bits), with the refuted remainder C110_trellis3_refuted."
  },
  {
   "property": "C111",
   "status": "proved",
   "theorems": [
    "Verif.C111_labels",
    "Verif.C111_distinct",
    "Verif.C111_qam",
    "Verif.C111_psk"
   ],
   "note": "C111_labels (any modem), C111_distinct, C111_qam, C111_psk."
  },
  {
   "property": "C112",
   "status": "proved",
   "theorems": [
    "Verif.C112_pattern",
    "Verif.C112_girth",
    "Verif.C112_errors",
    "Verif.C112_single"
   ],
   "note": "C112_pattern (one block, any set of unreliable positions), C112_girth, C112_errors (codes without 4-cycles), C112_single (one position per block, many blocks). Exact real arithmetic, as for C89; LLRs -0.0 are not modelled."
  },
  {
   "property": "C113",
   "status": "proved",
   "theorems": [
    "Verif.C113_erasures",
    "Verif.C113_stopping",
    "Verif.C113_exact"
   ],
   "note": "C113_exact gives every decoded bit: it is right unless it is a one inside a stopping set of erased positions, and then it is 0; C113_erasures and C113_stopping are its two extremes."
  },
  {
   "property": "C114",
   "status": "partial",
   "theorems": [
    "Verif.C114_link",
    "Verif.C114_wimax1440",
    "Verif.C114_wimax960",
    "Verif.C114_gallager964",
    "Verif.C114_refuted",
    "Verif.C114_refuted_963"
   ],
   "note": "True for both WiMAX files (C114_wimax1440, C114_wimax960: encoder, decoder; the files are byte for byte what write_ldpc_params writes for their matrices) and for the decoder with Gallager 96.33.964 (C114_gallager964). False otherwise: C114_refuted: the encoder works over the rationals, the last columns of 96.33.964 have determinant -675, and the message 1,0,...,0 gets a word that violates checks; C114_refuted_963: the last columns of 96.3.963 are singular, build_matrix fails (in exact arithmetic; a floating point LU need not notice)."
  },
  {
   "property": "C115",
   "status": "partial",
   "theorems": [
    "Verif.C115_state_equations",
    "Verif.C115_matrix_actual",
    "Verif.C115_matrix_iff",
    "Verif.C115_matrix_refuted",
    "Verif.C115_integer_actual",
    "Verif.C115_integer_iff",
    "Verif.C115_integer_systematic"
   ],
   "note": "As stated false; exact truth proved. C115_state_equations (any number of inputs: unique register sequences and outputs), C115_matrix_actual/C115_matrix_iff: f y_j = (g_j + g_j(0)(f+1)) u, so stream j is g_j/f iff g_j(0) = 0 or there is no feedback (C115_matrix_refuted: f = 1+D+D^2, g = 1+D^2). C115_integer_actual/C115_integer_iff: with integer feedback f y_j = (g_j + (1+g_j(0))(f+1)) u, right iff g_j(0) = 1 or no feedback; C115_integer_systematic holds in full."
  },
  {
   "property": "C116",
   "status": "proved",
   "theorems": [
    "Verif.C116_isi_free",
    "Verif.C116_odd_refuted"
   ],
   "note": "C116_isi_free. Even N only: with an odd number of taps the filter has no sample at t = 0 and the claim fails (C116_odd_refuted: N = 1 scales the symbol by 2/pi). Exact reals."
  },
  {
   "property": "C117",
   "status": "proved",
   "theorems": [
    "Verif.C117_ml",
    "Verif.C117_kbest",
    "Verif.C117_ml_qr",
    "Verif.C117_noise_free",
    "Verif.C117_best_first"
   ],
   "note": "C117_ml, C117_ml_qr, C117_kbest, C117_noise_free, C117_best_first. Exact arithmetic; QR and argsort are parameters with their contracts."
  },
  {
   "property": "C118",
   "status": "proved",
   "theorems": [
    "Verif.C118_gray",
    "Verif.C118_any",
    "Verif.C118_qam",
    "Verif.C118_psk",
    "Verif.C118_chain",
    "Verif.C118_57_qam"
   ],
   "note": "C118_gray, C118_any (symbol noise to bit errors), C118_qam, C118_psk (Gray radius), C118_chain (any feedforward rate 1/n code, any modem), C118_57_qam (documentation code, default depth). Exact arithmetic."
  },
  {
   "property": "C119",
   "status": "proved",
   "theorems": [
    "Verif.C119_bsc",
    "Verif.C119_57"
   ],
   "note": "C119_bsc (general), C119_57. Draws: independent uniform reals."
  },
  {
   "property": "C120",
   "status": "proved",
   "theorems": [
    "Verif.C120_awgn",
    "Verif.C120_siso",
    "Verif.C120_reliable"
   ],
   "note": "C120_awgn, C120_siso, C120_reliable. Draws: real normal variables, exact arithmetic."
  },
  {
   "property": "C121",
   "status": "proved",
   "theorems": [
    "Verif.C121_vote",
    "Verif.C121_pattern",
    "Verif.C121_errors",
    "Verif.C121_posterior_refuted"
   ],
   "note": "C121_vote, C121_pattern, C121_errors; that the outputs are then not the posterior LLRs: C121_posterior_refuted (refutes, for double precision, what C90 proves for exact arithmetic). One block; the contract `Saturating` (Spec/SpaFloat) is satisfiable (cutFloats_saturating)."
  },
  {
   "property": "C122",
   "status": "partial",
   "theorems": [
    "Verif.C122_turbo",
    "Verif.C122_exact",
    "Verif.C122_roundtrip",
    "Verif.C122_roundtrip_refuted"
   ],
   "note": "Refuted as stated (C122_roundtrip_refuted): exact truth is C122_turbo / C122_roundtrip: one iteration returns the message, two or more return zeros only, although exact arithmetic (C92) returns the message. Contract satisfiable (underflowFloats_ok)."
  },
  {
   "property": "C123",
   "status": "partial",
   "theorems": [
    "Verif.C123_parity",
    "Verif.C123_bec",
    "Verif.C123_corrects",
    "Verif.C123_probability",
    "Verif.C123_erasures_refuted",
    "Verif.C123_bpsk"
   ],
   "note": "Refuted as stated (C123_erasures_refuted); exact truth: C123_parity for arbitrary samples, C123_bec and C123_bpsk, correction of erased zeros C123_corrects, error probability C123_probability."
  },
  {
   "property": "C124",
   "status": "partial",
   "theorems": [
    "Verif.C124_consistent",
    "Verif.C124_bias",
    "Verif.C124_unbiased",
    "Verif.C124_bsc",
    "Verif.C124_unbiased_refuted",
    "Verif.C124_bsc_bias",
    "Verif.C124_bsc_precision"
   ],
   "note": "Consistency proved (C124_consistent, closed for a bsc link: C124_bsc). Unbiasedness as stated refuted (C124_unbiased_refuted: mean p + p(1-p)/2 for err_min = 1, send_max = 2); exact: unbiased with the stated variance when err_min >= send_max (C124_unbiased), never biased downwards (C124_bias). Both closed for a bsc link: C124_bsc_bias, C124_bsc_precision (variance p(1-p)/n and a confidence interval)."
  },
  {
   "property": "C125",
   "status": "proved",
   "theorems": [
    "Verif.C125_union",
    "Verif.C125_lower",
    "Verif.C125_qpsk",
    "Verif.C125_qam4",
    "Verif.C125_bpsk",
    "Verif.C125_psk",
    "Verif.C125_qam",
    "Verif.C125_awgn"
   ],
   "note": "Convergence for every consistent modem (C125_awgn); exact value for BPSK, QPSK and 4-QAM (Q(sqrt(SNR)) for the latter two), upper bounds for PSK and QAM, union bound and lower bound for every constellation."
  },
  {
   "property": "C126",
   "status": "proved",
   "theorems": [
    "Verif.C126_unquantized",
    "Verif.C126_hard",
    "Verif.C126_57_awgn",
    "Verif.C126_57_bsc"
   ],
   "note": "General union bounds for both metrics (C126_unquantized, C126_hard), closed forms for the (5,7) code through channels.awgn and channels.bsc (C126_57_awgn, C126_57_bsc)."
  },
  {
   "property": "C127",
   "status": "proved",
   "theorems": [
    "Verif.C127_general",
    "Verif.C127_soft",
    "Verif.C127_57_bpsk"
   ],
   "note": "Union bound for terminated messages C127_soft; C127_general also covers encodings that are not terminated and code bits that were not transmitted (puncturing); the whole BPSK chain with the (5,7) code in closed form C127_57_bpsk."
  },
  {
   "property": "C128",
   "status": "proved",
   "theorems": [
    "Verif.C128_wifi",
    "Verif.C128_explicit"
   ],
   "note": "Union bounds C128_wifi; explicit number C128_explicit. The schemes with 16 or more points are not covered (their soft values are not linear in the noise); for them C95 covers bounded noise."
  },
  {
   "property": "C129",
   "status": "proved",
   "theorems": [
    "Verif.C129_bec",
    "Verif.C129_bec_exact",
    "Verif.C129_bec_bounds",
    "Verif.C129_bec_blocks",
    "Verif.C129_bsc_blocks",
    "Verif.C129_gallager964",
    "Verif.C129_wimax1440"
   ],
   "note": "Exact probability C129_bec_exact; bounds C129_bec_bounds, C129_bec_blocks, C129_bsc_blocks; shipped designs C129_gallager964 (its encoder does not produce code words: C114_refuted), C129_wimax1440."
  },
  {
   "property": "C130",
   "status": "partial",
   "theorems": [
    "Verif.C130_whole",
    "Verif.C130_refused_partial",
    "Verif.C130_refuted",
    "Verif.C130_negative"
   ],
   "note": "False as stated: block length + 1 LLRs are accepted when the last one is not negative (C130_refuted) and return block length + 1 bits; with a negative last one exactly if no iteration is asked for or all checks have even size (C130_negative). Every other length is refused (C130_refused_partial); whole blocks behave as in the other claims (C130_whole)."
  },
  {
   "property": "C131",
   "status": "proved",
   "theorems": [
    "Verif.C131_exact",
    "Verif.C131_integers"
   ],
   "note": "Infinite or nan input LLRs and -0.0 are not modelled. The summation order is the one of sum(0) on a sparse matrix (in row order, from 0); the proof gives the same for any order since every partial sum is exact."
  },
  {
   "property": "C132",
   "status": "proved",
   "theorems": [
    "Verif.C132_union",
    "Verif.C132_rayleigh",
    "Verif.C132_binary",
    "Verif.C132_single"
   ],
   "note": "Exact arithmetic; draws are modelled as independent standard normals; sqrtm of the identity is the identity (contract of scipy)."
  },
  {
   "property": "C133",
   "status": "proved",
   "theorems": [
    "Verif.C133_window",
    "Verif.C133_unquantized",
    "Verif.C133_double",
    "Verif.C133_margin",
    "Verif.C133_hard",
    "Verif.C133_soft",
    "Verif.C133_soft_double",
    "Verif.C133_noise_free"
   ],
   "note": "No overflow or underflow (with samples that are doubles of magnitude up to 2^500 there is none: |x -+ 1| is 0 or at least 2^-53); np.log(np.exp(r)+1) has an assumed absolute accuracy."
  },
  {
   "property": "C134",
   "status": "proved",
   "theorems": [
    "Verif.C134_nearest",
    "Verif.C134_margin",
    "Verif.C134_noise",
    "Verif.C134_roundtrip",
    "Verif.C134_qam",
    "Verif.C134_psk",
    "Verif.C134_awgn"
   ],
   "note": "No overflow or underflow. The contract is met by rounding to 53 bits (demodFloats_exist)."
  },
  {
   "property": "C135",
   "status": "proved",
   "theorems": [
    "Verif.C135_llr",
    "Verif.C135_bounded",
    "Verif.C135_sign"
   ],
   "note": "No overflow. The contract is met by rounding to 53 bits (softFloats_exist). What happens beyond 650 noise variances (underflow, infinities, nan): C109."
  },
  {
   "property": "C136",
   "status": "proved",
   "theorems": [
    "Verif.C136_chain",
    "Verif.C136_gallager964",
    "Verif.C136_wimax1440"
   ],
   "note": "Upper bounds; the draws of awgn are assumed independent standard normal. Exact arithmetic."
  },
  {
   "property": "C137",
   "status": "partial",
   "theorems": [
    "Verif.C137_rcos_partial",
    "Verif.C137_rcos_refuted",
    "Verif.C137_gaussian",
    "Verif.C137_rrcos_partial",
    "Verif.C137_rrcos_refuted"
   ],
   "note": "False as stated: rcosfilter(2n, 0.65, 1, 13) has an infinite tap and rrcosfilter(2n, 0.3, 1, 12) a tap off by more than 0.07 where the pulse is about 0.107, because the sample next to Ts/(2 alpha) (Ts/(4 alpha)) differs from it by a rounding error and is not recognised. Proved: everywhere else (not within a relative distance of about 2^-46 of the singular points) the error is at most 2^-46 (1+w^2)/|1-w^2| (times 1+|pi t/Ts| for rrcosfilter, roll-off in [0,1]), and a sample that is recognised is accurate to 2^-48. gaussianfilter and rectfilter have no such points: relative error at most (E+2)/2^49 with E the exponent (C137_gaussian)."
  },
  {
   "property": "C138",
   "status": "partial",
   "theorems": [
    "Verif.C138_refuted",
    "Verif.C138_small_partial"
   ],
   "note": "False as stated: for every n >= 53 the code with n checks joining parity bits i, i-1, i-3 (and the single message bit in check 0), read from its design file, encodes the message 1 to a word that violates a check, however the inversion rounds, whereas exact arithmetic yields a codeword. Proved: codewords whenever the inverse is exact and the sums of magnitudes in its product with the message columns stay within 2^24. Assumes scipy's behaviour (int8 is converted to float32 by spsolve)."
  },
  {
   "property": "C139",
   "status": "partial",
   "theorems": [
    "Verif.C139_samples",
    "Verif.C139_autocorrelation",
    "Verif.C139_refuted",
    "Verif.C139_errors"
   ],
   "note": "Proved: which arguments are accepted (C139_errors); amplitude one up to 2^-50 for all arguments; samples accurate to 2^-50 + 7/2^53 |phase|; for a shift within the length and N <= 2^23 autocorrelation exact up to 3 N^3/2^46. False for arbitrary shifts: zcsequence(1, 4, 2**53-1) has a sample wrong by more than 0.49 (C139_refuted)."
  },
  {
   "property": "C140",
   "status": "proved",
   "theorems": [
    "Verif.C140_general",
    "Verif.C140_soft",
    "Verif.C140_57_bpsk",
    "Verif.C140_unquantized",
    "Verif.C140_hard",
    "Verif.C140_57_bsc",
    "Verif.C140_57_awgn"
   ],
   "note": "Bounds of C126/C127 for the decoder in doubles: hard decisions unchanged up to 2^53 received bits; soft decisions with the factor exp(2E/(lam sigma^2)) per event and exp(eta/(lam sigma^2)) per place; unquantized with a slightly larger standard deviation and an additional tail term. Instances with the (5,7) code from mkTrellis to the decoded bits. The channel and the encoder compute exactly; the noise samples are real normal variables."
  },
  {
   "property": "C141",
   "status": "proved",
   "theorems": [
    "Verif.C141_qam_bits",
    "Verif.C141_qam16",
    "Verif.C141_qam64",
    "Verif.C141_qam_symbols",
    "Verif.C141_symbol_api",
    "Verif.C141_link",
    "Verif.C141_bits_symbols",
    "Verif.C141_psk",
    "Verif.C141_psk_bits"
   ],
   "note": "Exact formulas for all square QAM sizes, two-sided bounds for PSK; noise samples are real normal variables and the receiver computes exactly."
  },
  {
   "property": "C142",
   "status": "partial",
   "theorems": [
    "Verif.C142_regular",
    "Verif.C142_uncorr_rician",
    "Verif.C142_expo_corr_rician",
    "Verif.C142_output",
    "Verif.C142_history",
    "Verif.C142_zero_mean",
    "Verif.C142_refuted",
    "Verif.C142_negative_k",
    "Verif.C142_zero_correlation",
    "Verif.C142_snr",
    "Verif.C142_siso_regular",
    "Verif.C142_siso_output",
    "Verif.C142_siso_negative_variance",
    "Verif.C142_k_factor"
   ],
   "note": "True for arguments in the documented range (C142_regular, C142_siso_regular: the channel then behaves as in Model/Channels). False in general (C142_refuted): a zero mean, or a k-factor between -1 and 0, passes the energy check of the Rician setters as nan, and every output is nan; a SISO channel accepts a negative variance; a negative energy or rate gives a nan noise level. Exact conditions: C142_uncorr_rician, C142_output, C142_siso_output, C142_snr. expo_corr_rayleigh_fading(0, r) is accepted and makes propagate raise ValueError. k-factors below -1 are accepted with a negative definite correlation matrix (C142_negative_k)."
  },
  {
   "property": "C143",
   "status": "proved",
   "theorems": [
    "Verif.C143_symbol",
    "Verif.C143_modem",
    "Verif.C143_probability",
    "Verif.C143_vanishes",
    "Verif.C143_bits_vanish",
    "Verif.C143_awgn",
    "Verif.C143_refuted",
    "Verif.C143_ml",
    "Verif.C143_viterbi"
   ],
   "note": "For right decisions. Numbers of wrong bits are not monotone: C143_refuted gives a bit group and a noise value in 64-QAM with one wrong bit, and two wrong bits when the noise is scaled down by a third (Gray labels two steps apart differ in two bits, three steps apart in one). C143_ml includes singular channels, where vectors with the same noise-free image are told apart by the order of the table only. C143_viterbi covers the window of the whole block."
  },
  {
   "property": "C144",
   "status": "proved",
   "theorems": [
    "Verif.C144_symbols",
    "Verif.C144_bits",
    "Verif.C144_soft_hard",
    "Verif.C144_guess",
    "Verif.C144_half",
    "Verif.C144_ml"
   ],
   "note": "Competing receivers range over all measurable functions of the received value(s), one symbol (or one vector) at a time. C144_ml needs the points of the constellation to be distinct. The bit error probability of hard decisions is not optimal among bit receivers; C144_soft_hard compares it with soft signs."
  },
  {
   "property": "C145",
   "status": "proved",
   "theorems": [
    "Verif.C145_map",
    "Verif.C145_map_block",
    "Verif.C145_uncoded",
    "Verif.C145_prior"
   ],
   "note": "The law of the received values is the product of Gaussian measures, the competitors are the measurable functions of the whole received block."
  },
  {
   "property": "C146",
   "status": "proved",
   "theorems": [
    "Verif.C146_rcos",
    "Verif.C146_rrcos",
    "Verif.C146_gauss",
    "Verif.C146_finite",
    "Verif.C146_signs"
   ],
   "note": "Also shows that the exact-real model of Model/Filters, on which C18, C19, C105 and C137 rest, is what the code computes for every non-zero Ts (before rounding)."
  },
  {
   "property": "C147",
   "status": "proved",
   "theorems": [
    "Verif.C147_nearest",
    "Verif.C147_margin",
    "Verif.C147_noise",
    "Verif.C147_dot",
    "Verif.C147_contract",
    "Verif.C147_double"
   ],
   "note": "No overflow or underflow. C147_contract and C147_double concern operations (complex sum, complex product, difference, norm) that round their result once; the other theorems hold for any operations within the bounds, whatever the order of the sums."
  },
  {
   "property": "C148",
   "status": "proved",
   "theorems": [
    "Verif.C148_unique",
    "Verif.C148_kbest",
    "Verif.C148_kbest_optimal",
    "Verif.C148_best_first",
    "Verif.C148_regular"
   ],
   "note": "Channels that map two vectors to the same point are outside the claim: there the detectors may differ, by the order in which they list the vectors. For best_first_detector the magnitudes of the values are the subject of C70_value_partial."
  },
  {
   "property": "C149",
   "status": "proved",
   "theorems": [
    "Verif.C149_gap",
    "Verif.C149_values",
    "Verif.C149_sign"
   ],
   "note": "demode is a parameter that maps the concatenation of vectors to the concatenation of their words. With fewer candidates the values are those of C72 for the candidates kept."
  },
  {
   "property": "C150",
   "status": "partial",
   "theorems": [
    "Verif.C150_ml_partial",
    "Verif.C150_real_parts",
    "Verif.C150_no_imaginary",
    "Verif.C150_type_error",
    "Verif.C150_refused",
    "Verif.C150_refuted"
   ],
   "note": "Refuted as stated. True for a complex channel or received vector with a constellation whose first point is a Python complex or complex128, and for real points without that type (C150_ml_partial). If the first point is an int, a float or a numpy.complex64, kbest silently detects over the real parts (C150_real_parts, C150_no_imaginary, C150_refuted); real y and h with a constellation of complex type raise TypeError (C150_type_error). mimo_ml and best_first_detector keep the types. Nothing is missing."
  }
 ]
}