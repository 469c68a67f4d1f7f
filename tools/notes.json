{
 "C01": {
  "status": "proved",
  "note": "All widths and numbers below 2^w."
 },
 "C02": {
  "status": "proved",
  "note": "All bit lists, including the empty one."
 },
 "C03": {
  "status": "proved",
  "note": "Complete characterisation: IndexError iff n >= 2^(2w), otherwise folded bits (negative index wrap-around)."
 },
 "C04": {
  "status": "proved",
  "note": "All arrays of naturals, including arrays whose elements raise."
 },
 "C05": {
  "status": "proved",
  "note": "Invariant over all histories and cache sizes; the exception named in the property (direct use of decimal2bitarray) is shown to be real by C05_direct_refuted."
 },
 "C06": {
  "status": "proved",
  "note": "Bit arrays of equal length; C06_shapes covers the remaining shapes (ValueError unless lengths agree or one has length one, in which case numpy broadcasts)."
 },
 "C07": {
  "status": "proved",
  "note": "Exact real arithmetic."
 },
 "C08": {
  "status": "proved",
  "note": "All contents of the uninitialised array."
 },
 "C09": {
  "status": "proved",
  "note": "Exact arithmetic; the empty signal raises."
 },
 "C10": {
  "status": "proved",
  "note": "All permutations, all element types."
 },
 "C100": {
  "status": "partial",
  "note": "Proved exactly: NumPy 1 is exact up to 63 bits (beyond, a float comes back); NumPy 2 is exact for arrays shorter than the scalar width and raises OverflowError otherwise. Refuted for NumPy 2: bitarray2dec(dec2bitarray(5, 8)) raises (C100_roundtrip_refuted), hence GF products for m >= 5, trellises with >= 8 delays or outputs, and modulation of int8 bits with >= 8 bits per symbol. Arrays of int8 keep parities under wrap-around; int64 default integers (64-bit Linux)."
 },
 "C101": {
  "status": "partial",
  "note": "Exact characterisation: NumPy 1 and m <= 5 as claimed (C101_numpy1_small_partial); NumPy 1 and 6 <= m <= 16: TypeError iff some divisor of the degree asked for is reducible, otherwise the claim (C101_numpy1_large); NumPy 2: claim for m <= 2, OverflowError for m = 3, 4 whenever there is something to return, always OverflowError for m >= 5 (C101_numpy2). C101_refuted: (63,57) and (7,4)."
 },
 "C102": {
  "status": "partial",
  "note": "The whole drawing is characterised (C102_diagram_partial, C102_layout, C102_count_partial). Refuted: with distinct colours every arrow has the colour of another input (off by one, C102_colour_refuted), the legend entry 0-input of the (5,7) code is an input-1 arrow (C102_legend_refuted), the caller's state_order is reversed in place (C102_state_order_refuted), parallel transitions are drawn once. Drawing = list of objects handed to matplotlib, real coordinates."
 },
 "C103": {
  "status": "proved",
  "note": "Positions as computed (rounded cos/sin) are a parameter; if two different joined states have exactly the same abscissa the code divides by zero (C103_vertical)."
 },
 "C104": {
  "status": "proved",
  "note": "Any N; for even N two valid roots never differ by a coprime number, so the cross-correlation statement concerns odd N."
 },
 "C105": {
  "status": "proved",
  "note": "Exact reals. The root raised-cosine pulse is scaled as in the code (value Ts at f = 0); cascade and orthogonality include roll-off 0. Band limitation of the continuous-time pulse for roll-off > 0; the truncation to N taps is not a claim."
 },
 "C106": {
  "status": "proved",
  "note": "Exact reals. Ties (LLR exactly 0, several nearest paths) are excluded or described. Viterbi: the codeword's path must end in state 0 when the decoder appends padding steps (else the padding is not its continuation)."
 },
 "C107": {
  "status": "partial",
  "note": "The general bound is proved (C107_gap). The shared convention is false (C107_convention_refuted): with two points demodulate returns exactly minus twice max_log_approx for every observation. What holds is C107_siso: max_log_approx(noise_var) + demodulate(2 noise_var) is within log(m/2) of 0, so signs are opposite (C107_opposite)."
 },
 "C108": {
  "status": "partial",
  "note": "Viterbi as stated (C108_viterbi). LDPC: true after negating the soft outputs (C108_ldpc); false as stated (C108_ldpc_refuted): ldpc_bp_decode takes positive for 0, demodulate returns positive for 1, and codes whose checks all have even weight decode to the complement of every transmitted word."
 },
 "C109": {
  "status": "partial",
  "note": "As stated refuted: the default noise_var = 0 gives nan for every input (C109_default_refuted), far symbols give nan (C109_far), clean symbols at low noise give infinities of the right sign (C109_infinite, C109_clean); finite exactly in the remaining range up to the underflow threshold between 745 and 746 (C109_finite). Rounding of sums, quotients and logarithms not modelled."
 },
 "C11": {
  "status": "proved",
  "note": "All permutations, all element types."
 },
 "C110": {
  "status": "partial",
  "note": "Proved: C110_local (any error pattern, segment-wise condition), C110_errors (up to e errors, any linear balanced trellis, any traceback depth above the column distance order), C110_unquantized (noise energy below the distance), C110_sparse (unboundedly many sparse errors), C110_free_distance, and closed theorems for all messages for generators (5,7), (5,15) octal, (133,171) octal with the default depth. False as one would expect for four errors with (133,171): the decoder does not use the final state, the last message bit is lost (C110_four_errors_refuted); with 4 errors all but the last 5 bits are proved correct. C110_three_errors_refuted: the limit 2 for (5,7) is sharp. Without return to state 0 (recursive/feedback encoders): C110_any_state; instance C110_trellis3 for the k = 2 feedback trellis of the example script (one error, all but the last 2 bits), with the refuted remainder C110_trellis3_refuted."
 },
 "C111": {
  "status": "proved",
  "note": "C111_labels (any modem), C111_distinct, C111_qam, C111_psk."
 },
 "C112": {
  "status": "proved",
  "note": "C112_pattern (one block, any set of unreliable positions), C112_girth, C112_errors (codes without 4-cycles), C112_single (one position per block, many blocks). Exact real arithmetic, as for C89; LLRs -0.0 are not modelled."
 },
 "C113": {
  "status": "proved",
  "note": "C113_exact gives every decoded bit: it is right unless it is a one inside a stopping set of erased positions, and then it is 0; C113_erasures and C113_stopping are its two extremes."
 },
 "C114": {
  "status": "partial",
  "note": "True for both WiMAX files (C114_wimax1440, C114_wimax960: encoder, decoder; the files are byte for byte what write_ldpc_params writes for their matrices) and for the decoder with Gallager 96.33.964 (C114_gallager964). False otherwise: C114_refuted: the encoder works over the rationals, the last columns of 96.33.964 have determinant -675, and the message 1,0,...,0 gets a word that violates checks; C114_refuted_963: the last columns of 96.3.963 are singular, build_matrix fails (in exact arithmetic; a floating point LU need not notice)."
 },
 "C115": {
  "status": "partial",
  "note": "As stated false; exact truth proved. C115_state_equations (any number of inputs: unique register sequences and outputs), C115_matrix_actual/C115_matrix_iff: f y_j = (g_j + g_j(0)(f+1)) u, so stream j is g_j/f iff g_j(0) = 0 or there is no feedback (C115_matrix_refuted: f = 1+D+D^2, g = 1+D^2). C115_integer_actual/C115_integer_iff: with integer feedback f y_j = (g_j + (1+g_j(0))(f+1)) u, right iff g_j(0) = 1 or no feedback; C115_integer_systematic holds in full."
 },
 "C116": {
  "status": "proved",
  "note": "C116_isi_free. Even N only: with an odd number of taps the filter has no sample at t = 0 and the claim fails (C116_odd_refuted: N = 1 scales the symbol by 2/pi). Exact reals."
 },
 "C117": {
  "status": "proved",
  "note": "C117_ml, C117_ml_qr, C117_kbest, C117_noise_free, C117_best_first. Exact arithmetic; QR and argsort are parameters with their contracts."
 },
 "C118": {
  "status": "proved",
  "note": "C118_gray, C118_any (symbol noise to bit errors), C118_qam, C118_psk (Gray radius), C118_chain (any feedforward rate 1/n code, any modem), C118_57_qam (documentation code, default depth). Exact arithmetic."
 },
 "C119": {
  "status": "proved",
  "note": "C119_bsc (general), C119_57. Draws: independent uniform reals."
 },
 "C12": {
  "status": "proved",
  "note": "Complete characterisation incl. the order-0 corner."
 },
 "C120": {
  "status": "proved",
  "note": "C120_awgn, C120_siso, C120_reliable. Draws: real normal variables, exact arithmetic."
 },
 "C121": {
  "status": "proved",
  "note": "C121_vote, C121_pattern, C121_errors; that the outputs are then not the posterior LLRs: C121_posterior_refuted (refutes, for double precision, what C90 proves for exact arithmetic). One block; the contract `Saturating` (Spec/SpaFloat) is satisfiable (cutFloats_saturating)."
 },
 "C122": {
  "status": "partial",
  "note": "Refuted as stated (C122_roundtrip_refuted): exact truth is C122_turbo / C122_roundtrip: one iteration returns the message, two or more return zeros only, although exact arithmetic (C92) returns the message. Contract satisfiable (underflowFloats_ok)."
 },
 "C123": {
  "status": "partial",
  "note": "Refuted as stated (C123_erasures_refuted); exact truth: C123_parity for arbitrary samples, C123_bec and C123_bpsk, correction of erased zeros C123_corrects, error probability C123_probability."
 },
 "C124": {
  "status": "partial",
  "note": "Consistency proved (C124_consistent, closed for a bsc link: C124_bsc). Unbiasedness as stated refuted (C124_unbiased_refuted: mean p + p(1-p)/2 for err_min = 1, send_max = 2); exact: unbiased with the stated variance when err_min >= send_max (C124_unbiased), never biased downwards (C124_bias). Both closed for a bsc link: C124_bsc_bias, C124_bsc_precision (variance p(1-p)/n and a confidence interval)."
 },
 "C125": {
  "status": "proved",
  "note": "Convergence for every consistent modem (C125_awgn); exact value for BPSK, QPSK and 4-QAM (Q(sqrt(SNR)) for the latter two), upper bounds for PSK and QAM, union bound and lower bound for every constellation."
 },
 "C126": {
  "status": "proved",
  "note": "General union bounds for both metrics (C126_unquantized, C126_hard), closed forms for the (5,7) code through channels.awgn and channels.bsc (C126_57_awgn, C126_57_bsc)."
 },
 "C127": {
  "status": "proved",
  "note": "Union bound for terminated messages C127_soft; C127_general also covers encodings that are not terminated and code bits that were not transmitted (puncturing); the whole BPSK chain with the (5,7) code in closed form C127_57_bpsk."
 },
 "C128": {
  "status": "proved",
  "note": "Union bounds C128_wifi; explicit number C128_explicit. The schemes with 16 or more points are not covered (their soft values are not linear in the noise); for them C95 covers bounded noise."
 },
 "C129": {
  "status": "proved",
  "note": "Exact probability C129_bec_exact; bounds C129_bec_bounds, C129_bec_blocks, C129_bsc_blocks; shipped designs C129_gallager964 (its encoder does not produce code words: C114_refuted), C129_wimax1440."
 },
 "C13": {
  "status": "proved",
  "note": "Linearity, zero seed, prefix stability, pure periodicity (pigeonhole)."
 },
 "C130": {
  "status": "partial",
  "note": "False as stated: block length + 1 LLRs are accepted when the last one is not negative (C130_refuted) and return block length + 1 bits; with a negative last one exactly if no iteration is asked for or all checks have even size (C130_negative). Every other length is refused (C130_refused_partial); whole blocks behave as in the other claims (C130_whole)."
 },
 "C131": {
  "status": "proved",
  "note": "Infinite or nan input LLRs and -0.0 are not modelled. The summation order is the one of sum(0) on a sparse matrix (in row order, from 0); the proof gives the same for any order since every partial sum is exact."
 },
 "C132": {
  "status": "proved",
  "note": "Exact arithmetic; draws are modelled as independent standard normals; sqrtm of the identity is the identity (contract of scipy)."
 },
 "C133": {
  "status": "proved",
  "note": "No overflow or underflow (with samples that are doubles of magnitude up to 2^500 there is none: |x -+ 1| is 0 or at least 2^-53); np.log(np.exp(r)+1) has an assumed absolute accuracy."
 },
 "C134": {
  "status": "proved",
  "note": "No overflow or underflow. The contract is met by rounding to 53 bits (demodFloats_exist)."
 },
 "C135": {
  "status": "proved",
  "note": "No overflow. The contract is met by rounding to 53 bits (softFloats_exist). What happens beyond 650 noise variances (underflow, infinities, nan): C109."
 },
 "C136": {
  "status": "proved",
  "note": "Upper bounds; the draws of awgn are assumed independent standard normal. Exact arithmetic."
 },
 "C137": {
  "status": "partial",
  "note": "False as stated: rcosfilter(2n, 0.65, 1, 13) has an infinite tap and rrcosfilter(2n, 0.3, 1, 12) a tap off by more than 0.07 where the pulse is about 0.107, because the sample next to Ts/(2 alpha) (Ts/(4 alpha)) differs from it by a rounding error and is not recognised. Proved: everywhere else (not within a relative distance of about 2^-46 of the singular points) the error is at most 2^-46 (1+w^2)/|1-w^2| (times 1+|pi t/Ts| for rrcosfilter, roll-off in [0,1]), and a sample that is recognised is accurate to 2^-48. gaussianfilter and rectfilter have no such points: relative error at most (E+2)/2^49 with E the exponent (C137_gaussian)."
 },
 "C138": {
  "status": "partial",
  "note": "False as stated: for every n >= 53 the code with n checks joining parity bits i, i-1, i-3 (and the single message bit in check 0), read from its design file, encodes the message 1 to a word that violates a check, however the inversion rounds, whereas exact arithmetic yields a codeword. Proved: codewords whenever the inverse is exact and the sums of magnitudes in its product with the message columns stay within 2^24. Assumes scipy's behaviour (int8 is converted to float32 by spsolve)."
 },
 "C139": {
  "status": "partial",
  "note": "Proved: which arguments are accepted (C139_errors); amplitude one up to 2^-50 for all arguments; samples accurate to 2^-50 + 7/2^53 |phase|; for a shift within the length and N <= 2^23 autocorrelation exact up to 3 N^3/2^46. False for arbitrary shifts: zcsequence(1, 4, 2**53-1) has a sample wrong by more than 0.49 (C139_refuted)."
 },
 "C14": {
  "status": "proved",
  "note": "Integer arguments."
 },
 "C140": {
  "status": "proved",
  "note": "Bounds of C126/C127 for the decoder in doubles: hard decisions unchanged up to 2^53 received bits; soft decisions with the factor exp(2E/(lam sigma^2)) per event and exp(eta/(lam sigma^2)) per place; unquantized with a slightly larger standard deviation and an additional tail term. Instances with the (5,7) code from mkTrellis to the decoded bits. The channel and the encoder compute exactly; the noise samples are real normal variables."
 },
 "C141": {
  "status": "proved",
  "note": "Exact formulas for all square QAM sizes, two-sided bounds for PSK; noise samples are real normal variables and the receiver computes exactly."
 },
 "C142": {
  "status": "partial",
  "note": "True for arguments in the documented range (C142_regular, C142_siso_regular: the channel then behaves as in Model/Channels). False in general (C142_refuted): a zero mean, or a k-factor between -1 and 0, passes the energy check of the Rician setters as nan, and every output is nan; a SISO channel accepts a negative variance; a negative energy or rate gives a nan noise level. Exact conditions: C142_uncorr_rician, C142_output, C142_siso_output, C142_snr. expo_corr_rayleigh_fading(0, r) is accepted and makes propagate raise ValueError. k-factors below -1 are accepted with a negative definite correlation matrix (C142_negative_k)."
 },
 "C143": {
  "status": "proved",
  "note": "For right decisions. Numbers of wrong bits are not monotone: C143_refuted gives a bit group and a noise value in 64-QAM with one wrong bit, and two wrong bits when the noise is scaled down by a third (Gray labels two steps apart differ in two bits, three steps apart in one). C143_ml includes singular channels, where vectors with the same noise-free image are told apart by the order of the table only. C143_viterbi covers the window of the whole block."
 },
 "C144": {
  "status": "proved",
  "note": "Competing receivers range over all measurable functions of the received value(s), one symbol (or one vector) at a time. C144_ml needs the points of the constellation to be distinct. The bit error probability of hard decisions is not optimal among bit receivers; C144_soft_hard compares it with soft signs."
 },
 "C145": {
  "status": "proved",
  "note": "The law of the received values is the product of Gaussian measures, the competitors are the measurable functions of the whole received block."
 },
 "C146": {
  "status": "proved",
  "note": "Also shows that the exact-real model of Model/Filters, on which C18, C19, C105 and C137 rest, is what the code computes for every non-zero Ts (before rounding)."
 },
 "C147": {
  "status": "proved",
  "note": "No overflow or underflow. C147_contract and C147_double concern operations (complex sum, complex product, difference, norm) that round their result once; the other theorems hold for any operations within the bounds, whatever the order of the sums."
 },
 "C148": {
  "status": "proved",
  "note": "Channels that map two vectors to the same point are outside the claim: there the detectors may differ, by the order in which they list the vectors. For best_first_detector the magnitudes of the values are the subject of C70_value_partial."
 },
 "C149": {
  "status": "proved",
  "note": "demode is a parameter that maps the concatenation of vectors to the concatenation of their words. With fewer candidates the values are those of C72 for the candidates kept."
 },
 "C15": {
  "status": "proved",
  "note": "All lags, exact complex arithmetic."
 },
 "C150": {
  "status": "partial",
  "note": "Refuted as stated. True for a complex channel or received vector with a constellation whose first point is a Python complex or complex128, and for real points without that type (C150_ml_partial). If the first point is an int, a float or a numpy.complex64, kbest silently detects over the real parts (C150_real_parts, C150_no_imaginary, C150_refuted); real y and h with a constellation of complex type raise TypeError (C150_type_error). mimo_ml and best_first_detector keep the types. Nothing is missing."
 },
 "C16": {
  "status": "proved",
  "note": "All integers q."
 },
 "C17": {
  "status": "proved",
  "note": "Fs != 0; Fs = 0 raises."
 },
 "C18": {
  "status": "proved",
  "note": "Exact real arithmetic."
 },
 "C19": {
  "status": "proved",
  "note": "Exact real arithmetic."
 },
 "C20": {
  "status": "proved",
  "note": "Exact real arithmetic."
 },
 "C21": {
  "status": "proved",
  "note": "All m <= 16, all array sizes; closure needs operands in the field."
 },
 "C22": {
  "status": "proved",
  "note": "All m in 1..16, all arrays of field elements; product characterised as remainder in GF(2)[x] and the ring laws."
 },
 "C23": {
  "status": "proved",
  "note": "Primitivity of all 16 table polynomials by kernel-computed powers and the factorisation of 2^m-1; for m = 1 the integer 2 is not a field element, so the generator statement is for m >= 2 and the inverse statement for m >= 1."
 },
 "C24": {
  "status": "proved",
  "note": "Termination, correctness, uniqueness for y >= 2; divergence for y <= 1 for every iteration allowance."
 },
 "C25": {
  "status": "partial",
  "note": "tuple_to_power proved for all m. The round trip is proved for exponents <= 62 (all elements when m <= 6); for m >= 7 it is false because 2**i is int64 (C25_power_to_tuple_refuted). C25_power_to_tuple_exact describes power_to_tuple for every exponent."
 },
 "C26": {
  "status": "proved",
  "note": "Least e >= 1 with a^e = 1, powers taken with the modelled multiplication."
 },
 "C27": {
  "status": "proved",
  "note": "All m in 1..16, all arrays of distinct elements, including the zero element (its own class)."
 },
 "C28": {
  "status": "proved",
  "note": "All m in 1..16, all arrays of field elements: root, non-zero, divides every annihilating binary polynomial."
 },
 "C29": {
  "status": "partial",
  "note": "C29_genpoly_actual: for every odd n whose least m with n | 2^m-1 is <= 16 and every k < n the result is exactly the list of divisors of x^(2^m-1)-1 of degree n-k (through float64). Hence for n = 2^m-1 and n-k <= 52 the list is exactly the divisors of x^n-1 of degree n-k (C29_genpoly_partial), and for all other n it is complete (C29_genpoly_complete_partial) but not sound: for n a proper divisor of 2^m-1 the property is false (C29_genpoly_refuted, n=5, k=1). Error cases characterised. Exact integers; for the machine integers of NumPy 1 and 2 (TypeError on reducible generators for m >= 6, OverflowError) see C101."
 },
 "C30": {
  "status": "proved",
  "note": "Exact text for every integer and injectivity."
 },
 "C31": {
  "status": "proved",
  "note": "All k, n, memory layouts, formats and generator matrices whose polynomials fit their registers; all messages; 'cont' and 'term'. Assumes int(N/rate) is exact for the block length. C31_generator_wider_than_memory shows that a generator longer than its register reads uninitialised memory."
 },
 "C32": {
  "status": "proved",
  "note": "All matrix trellises with or without feedback; C32_legacy_is_matrix reduces the integer-feedback construction (k=1) to the matrix one."
 },
 "C33": {
  "status": "proved",
  "note": "C33_length: every well-formed trellis, message and termination string under exactness of int(N/rate). C33_double_outLen / C33_length_double discharge that for all rates with n <= 9 (and 1/n, n <= 48) in round-to-nearest-even double arithmetic (lengths < 2^51); C33_double_refuted: ValueError for every 9-in 14-out encoder."
 },
 "C34": {
  "status": "proved",
  "note": "Rate 1/n as claimed; C34_two_inputs_refuted shows that the restriction to one input is needed."
 },
 "C35": {
  "status": "partial",
  "note": "False as stated (C35_rsc_termination_refuted). C35_rsc_termination_iff: for one-input recursive codes the encoder always terminates in state 0 iff the feedback polynomial is 1 + D^M."
 },
 "C36": {
  "status": "partial",
  "note": "False as stated (C36_puncture_refuted): the output has the unpunctured length. Proved: selected bits followed by zeros, and the claim holds iff nothing is punctured."
 },
 "C37": {
  "status": "proved",
  "note": "All patterns and messages of any element type; the index idx-shift*N with negative wrap-around is modelled literally."
 },
 "C38": {
  "status": "proved",
  "note": "For every balanced trellis (each state entered by 2^k branches; proved for every trellis built by the constructor without feedback, with one-input feedback and by the legacy constructor), every received block of N whole groups, every uninitialised memory; hard = Hamming, soft = likelihood of the LLRs, unquantized = squared distance. Window = whole block."
 },
 "C39": {
  "status": "proved",
  "note": "Hard decisions; every balanced trellis with distinct outputs from each state and a zero loop at 0, every message ending in state 0, every depth 2 <= tb <= N + M/k. Instantiated for every feedforward one-input code in C39_feedforward. The length int(len*rate) is shown exact in double arithmetic by C39_double_decLen (rates as in C33)."
 },
 "C40": {
  "status": "partial",
  "note": "False as stated for hard decisions (C40_continuous_refuted): the decoder pads with zero bits for M/k-1 steps. Proved for trellises with M < 2k (hard), and for every balanced trellis with distinct branch outputs with soft decisions (C40_continuous_soft)."
 },
 "C41": {
  "status": "partial",
  "note": "False as stated for hard decisions (C41_input_modified_refuted): the last block is overwritten. Exact after-state proved for hard; unchanged for soft."
 },
 "C42": {
  "status": "proved",
  "note": "Block code = code words of the padded length seen by the decoder; either M < 2k or the message drives the encoder to state 0."
 },
 "C43": {
  "status": "partial",
  "note": "False as stated (C43_unknown_type_refuted): TypeError is raised instead for every non-empty block (C43_unknown_type_typeError)."
 },
 "C44": {
  "status": "proved",
  "note": "Exact real arithmetic."
 },
 "C45": {
  "status": "partial",
  "note": "False as stated for several inputs (C45_default_depth_refuted). Proved for every depth that fits, and for one-input codes with the default depth."
 },
 "C46": {
  "status": "proved",
  "note": "For whole puncturing periods, as stated; C46_partial_pattern_refuted shows that the receiver's length formula fails for messages ending inside a period."
 },
 "C47": {
  "status": "partial",
  "note": "False: the literals 133, 171 are decimal, they fold to 5 and 43 in 7 bits. C47_generators_refuted (in both bit orders), C47_actual_code says which code is built and C47_catastrophic that it is catastrophic (inverting all bits of a message of any length changes at most 5 coded bits)."
 },
 "C48": {
  "status": "proved",
  "note": ""
 },
 "C49": {
  "status": "proved",
  "note": "Stronger than the claim: the message itself is returned, for all LLRs with the right signs, all messages of whole puncturing periods with at least 2 bits."
 },
 "C50": {
  "status": "partial",
  "note": "Proved for all messages, permutations and systematic rate-1/2 one-input trellises with memory: first stream = message, second = parities of the message, third starts with the parities of the interleaved message. False as stated: the third stream has length 2L+M (refuted by C50_length_refuted), and memoryless trellises give empty streams (C50_memoryless)."
 },
 "C51": {
  "status": "proved",
  "note": "Exact reals. map_decode's values equal the log ratio of sums over all 2^L input sequences of prior times Gaussian densities (spec uses Mathlib's gaussianPDFReal)."
 },
 "C52": {
  "status": "proved",
  "note": "Bits are 1 iff the joint density with 1 exceeds that with 0; all zeros in any mode other than 'decode'."
 },
 "C53": {
  "status": "proved",
  "note": "All permutations and iteration counts; also zero iterations -> unbound variable error."
 },
 "C54": {
  "status": "proved",
  "note": "Character-level model of both functions: for every 0/1 matrix with a row and no empty row/column the file is written, parsed back to the same sizes, degrees, adjacency lists, and build_matrix gives the same matrix; an empty row or column gives IndexError. Not modelled: file system (mode 'x'), int32 overflow."
 },
 "C55": {
  "status": "proved",
  "note": "C55_maps: the edge maps invert the adjacency lists, for every file that is read without error; C55_padding: shape and -1 padding of all four tables."
 },
 "C56": {
  "status": "proved",
  "note": "Proved for triangular codes (documented scope), for determinant +-1 and for every code with S^-1 P integral. Outside this scope false: C56_refuted gives a code (read from a design file) and a message whose encoded word violates the checks; C56_singular: RuntimeError if the last columns are singular over the rationals; C56_errors: sizes for which build_matrix raises. float32 rounding of the inverse is not modelled."
 },
 "C57": {
  "status": "proved",
  "note": "Blocks in order, zero padding, ValueError iff pad is False and the length is no multiple."
 },
 "C58": {
  "status": "proved",
  "note": "C58_kept is the claim; C58_stable: once a codeword is found more iterations change nothing; C58_signs: decisions are the signs of the LLRs, input clipped in place; C58_length: wrong lengths fail; C58_roundtrip: encoder then LLRs of the right signs then decoder; C58_singular: parameters from a design file with singular last columns cannot be decoded."
 },
 "C59": {
  "status": "proved",
  "note": "Concatenation of two block sequences decodes to the concatenation of the results."
 },
 "C60": {
  "status": "proved",
  "note": "C60_scale, C60_flip_msa (also C60_flip_spa); the flip theorems assume that no returned LLR is exactly 0 since the sign of zero is taken as bit 0."
 },
 "C61": {
  "status": "proved",
  "note": "Modem consistency (C66) is the only hypothesis on the object."
 },
 "C62": {
  "status": "proved",
  "note": ""
 },
 "C63": {
  "status": "proved",
  "note": "sympy's GrayCode is a library contract (reflected binary code)."
 },
 "C64": {
  "status": "proved",
  "note": "Exact complex exponentials."
 },
 "C65": {
  "status": "proved",
  "note": "All sizes, including which sizes are refused."
 },
 "C66": {
  "status": "proved",
  "note": ""
 },
 "C67": {
  "status": "proved",
  "note": "Exact arithmetic, no overflow of exp. C67_sign covers noisy symbols with an explicit bound on the noise variance."
 },
 "C68": {
  "status": "proved",
  "note": "mimo_ml as written (repeat/tile table, first argmin), exact complex arithmetic; empty constellation raises."
 },
 "C69": {
  "status": "proved",
  "note": "kbest loop as written; numpy.linalg.qr and argsort are parameters with their contracts. Hard output is a vector of points for every K>=1; accumulated metric = true squared distance up to one constant; first entry optimal for every K; ML for K >= m^(n-1); refusals."
 },
 "C70": {
  "status": "partial",
  "note": "best_first_detector as written (chains of siblings, insort, radius, trimming). Proved: termination, all values share one magnitude <= llr_max and describe one vector; with untrimmed stacks and a square channel the signs are ML and non-zero when ML is unique, and C70_value_partial gives the exact magnitude: min(llr_max, gap to the best vector that differs from the ML vector in a symbol other than the first) - the sibling of a leaf is dropped, so alternatives in the first symbol are never compared (C70_numbers_partial: 16 where max-log gives 4). Refuted: magnitudes do not reflect reliability (C70_reliability_refuted), tall channels and single-row channels always raise TypeError."
 },
 "C71": {
  "status": "proved",
  "note": "kron with the identity, all shapes and weights."
 },
 "C72": {
  "status": "proved",
  "note": "max_log_approx in extended reals, any demode returning equally long words; values, infinite cases, sign and refusals."
 },
 "C73": {
  "status": "partial",
  "note": "False: ofdm_tx and ofdm_rx raise TypeError on every non-empty input (C73_ofdm_refuted)."
 },
 "C74": {
  "status": "proved",
  "note": "Heap model: the caller's array is a heap cell; draws are a parameter. Also the flip / erasure probability under uniform draws."
 },
 "C75": {
  "status": "proved",
  "note": "Exact reals; noise power as an integral over normal draws, through set_SNR_lin and propagate of SISO and MIMO channels."
 },
 "C76": {
  "status": "partial",
  "note": "Invariant, atomicity of refused operations, propagate output and errors proved for all histories. Refuted: the documented condition |param[1]|+|param[0]|^2=1 (a negative variance is accepted, C76_negative_variance_refuted)."
 },
 "C77": {
  "status": "proved",
  "note": "Exact arithmetic, shapes as type parameters, non-zero mean (a zero mean gives nan in numpy and is outside the model)."
 },
 "C78": {
  "status": "proved",
  "note": "sqrtm is an arbitrary parameter."
 },
 "C79": {
  "status": "partial",
  "note": "Proved: modulus > 1.0001 refused, unchanged channel; for modulus 1 Hermitian, unit diagonal, exact entries, PSD without betas. Refuted: |t| < 1 is accepted and gives a non-Hermitian matrix (C79_small_refuted)."
 },
 "C80": {
  "status": "proved",
  "note": "All rates, sizes and requests (rate as a rational; limit_denominator of a float rate is standard library and not modelled)."
 },
 "C81": {
  "status": "proved",
  "note": "link_performance is equivalent to an inductively specified simulation for arbitrary callbacks; bounds on ratios and bits; error cases."
 },
 "C82": {
  "status": "partial",
  "note": "Proved for one chunk per transmission (default); for several chunks the BER is too large by that factor and chunk errors are capped at 1: C82_refuted shows BER 2. C82_actual_partial gives the real content for every number of chunks."
 },
 "C83": {
  "status": "proved",
  "note": "All detectors, decoders, iteration counts; real arithmetic; callbacks do not modify their arguments."
 },
 "C84": {
  "status": "proved",
  "note": "Exact reals, normal draws."
 },
 "C85": {
  "status": "proved",
  "note": "Exact reals."
 },
 "C86": {
  "status": "proved",
  "note": "Pairwise independent normal draws; sqrtm satisfies S S^H = R (true of the principal root of a Hermitian PSD matrix)."
 },
 "C87": {
  "status": "partial",
  "note": "Invariant proved for all histories. Refuted: a refused expo_corr call with a negative beta has already changed the channel (C87_atomic_refuted)."
 },
 "C88": {
  "status": "partial",
  "note": "Order and completeness proved for every receiver and buffer; the buffer length is exact for rates k/n with n <= 9 or 1/n with n <= 48 (C88_buffer with rateOK_small), but too long by one for rate 7/10 and 21 bits (C88_refuted: an uninitialised entry reaches the decoder)."
 },
 "C89": {
  "status": "partial",
  "note": "Min-sum: complete (C89_msa). Sum-product: proved while no message is zero (C89_spa_partial, C89_spa_one); false with an erased bit (C89_refuted): its output LLR is nan for every code, LLRs and number of iterations unless the signs already satisfy the checks, and the nan spreads one check per iteration (C89_zero_nan)."
 },
 "C90": {
  "status": "proved",
  "note": "Exact arithmetic, non-zero LLRs of magnitude at most 500 (the clipping range)."
 },
 "C91": {
  "status": "proved",
  "note": "Proved through a Griffiths correlation inequality over the linear code; includes soft a priori values of the right sign."
 },
 "C92": {
  "status": "proved",
  "note": "Constructor with integer feedback; also C92_roundtrip_trellis for any well-formed linear systematic trellis. outLen is the exact int(N/rate)."
 },
 "C93": {
  "status": "proved",
  "note": "C93_hard and C93_soft for any consistent modem; C93_qam and C93_psk give the minimum distances (2 and 2 sin(pi/m))."
 },
 "C94": {
  "status": "proved",
  "note": "C94_performance and C94_metrics for any link model; C94_uncoded instantiates it for uncoded modulation over SISOFlatChannel. The generator is a parameter whose normal draws are bounded by A (an ideal Gaussian is unbounded; any finite execution meets some A)."
 },
 "C95": {
  "status": "proved",
  "note": "Trellis memory garbage (np.empty) is arbitrary; rates are exact fractions. C95_real_channel: the default real channel raises TypeError on the first transmission."
 },
 "C96": {
  "status": "proved",
  "note": "PrimitiveMask: characteristic polynomial irreducible and X of order 2^m-1 modulo it; C96_table: met by the tabulated polynomials, m = 1..16."
 },
 "C97": {
  "status": "proved",
  "note": "limit_denominator is the CPython algorithm (continued fractions). Doubles are rationals with 53-bit mantissas, rounding to nearest even."
 },
 "C98": {
  "status": "partial",
  "note": "Proved: one input (C98_one_input, agrees with the matrix form through C32_legacy_is_matrix); registers of one delay and feedback 0 for any number of inputs (C98_unit_registers). Refuted: ValueError whenever the second register has two delays or more (C98_several_inputs), a wrong register is read for memory (2,1) (C98_refuted), and with 'rsc' the caller's matrix is overwritten (C98_caller_matrix_refuted)."
 },
 "C99": {
  "status": "proved",
  "note": "C99_tree: exact posterior LLRs when the decoder runs to the end; if it stops early it stops at a codeword (C99_early_stop: then the output LLRs are in general not the posteriors, for every iteration count). C99_numbers: a concrete run meeting the hypotheses. Real arithmetic; messages exactly 0 excluded (0/0 in the code, see C89)."
 }
}