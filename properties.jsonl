{"id": "C01", "title": "Integer to bits to integer", "statement": "For every width w and every non-negative integer n < 2^w, dec2bitarray(n, w) returns exactly w values, all 0 or 1, most significant first, and bitarray2dec of them is n.", "quantifier": "all widths w and all integers n < 2^w", "why_tests_cant": "unbounded widths and values; the test suite checks 3 literals", "anchors": ["commpy/utilities.py:dec2bitarray", "commpy/utilities.py:decimal2bitarray", "commpy/utilities.py:bitarray2dec"]}
{"id": "C02", "title": "Bits to integer to bits", "statement": "For every array b of 0/1 values, bitarray2dec(b) < 2^len(b) and dec2bitarray(bitarray2dec(b), len(b)) is b.", "quantifier": "all bit arrays of every length", "why_tests_cant": "unbounded domain", "anchors": ["commpy/utilities.py:bitarray2dec", "commpy/utilities.py:dec2bitarray"]}
{"id": "C03", "title": "Numbers wider than the requested width", "statement": "dec2bitarray(n, w) raises IndexError exactly when n >= 2^(2w); for 2^w <= n < 2^(2w) it does not raise but returns the bitwise OR of the low w bits and the next w bits of n (negative index wrap-around).", "quantifier": "all widths and all integers", "why_tests_cant": "a boundary behaviour over all (n, w); no test feeds an overflowing value", "anchors": ["commpy/utilities.py:decimal2bitarray"]}
{"id": "C04", "title": "Array conversion is element-wise", "statement": "dec2bitarray applied to a sequence of integers returns the concatenation, in order, of the per-integer conversions, and raises exactly when one of the elements raises.", "quantifier": "all sequences of integers and all widths", "why_tests_cant": "unbounded sequences", "anchors": ["commpy/utilities.py:dec2bitarray"]}
{"id": "C05", "title": "Caching is unobservable through dec2bitarray", "statement": "For every history of dec2bitarray calls interleaved with in-place modifications of arrays returned by dec2bitarray, every later call still returns the correct bits although the underlying function is memoised with a bounded LRU cache. (Arrays returned by decimal2bitarray itself are shared with the cache: mutating one corrupts later results.)", "quantifier": "all histories of calls and mutations, any cache size", "why_tests_cant": "needs every interleaving of calls and caller-side mutation, and every eviction pattern", "anchors": ["commpy/utilities.py:dec2bitarray", "commpy/utilities.py:decimal2bitarray"]}
{"id": "C06", "title": "Hamming distance is a metric", "statement": "On bit arrays of equal length hamming_dist is the number of differing positions: symmetric, zero exactly on equal arrays, at most the length, and satisfies the triangle inequality.", "quantifier": "all bit arrays of equal length", "why_tests_cant": "universally quantified law", "anchors": ["commpy/utilities.py:hamming_dist"]}
{"id": "C07", "title": "Squared Euclidean distance", "statement": "euclid_dist is symmetric, non-negative, zero exactly on equal arrays, translation invariant, and equals the Hamming distance times 4 on antipodally mapped bits.", "quantifier": "all real arrays of equal length (exact arithmetic)", "why_tests_cant": "universally quantified law", "anchors": ["commpy/utilities.py:euclid_dist"]}
{"id": "C08", "title": "Upsampling is zero insertion", "statement": "For every x and n >= 1, upsample(x, n) has length n*len(x), its sample n*i is x[i] and every other sample is 0; hence decimating by n recovers x; n = 0 raises ValueError.", "quantifier": "all arrays and factors", "why_tests_cant": "unbounded sizes", "anchors": ["commpy/utilities.py:upsample"]}
{"id": "C09", "title": "Signal power", "statement": "signal_power is the mean squared magnitude: non-negative, zero exactly for the all-zero signal, scales by |c|^2, unchanged by upsample up to the factor 1/n and by any permutation of the samples.", "quantifier": "all non-empty complex signals (exact arithmetic)", "why_tests_cant": "universally quantified law", "anchors": ["commpy/utilities.py:signal_power"]}
{"id": "C10", "title": "Interleaving is invertible", "statement": "For every permutation used by the interleaver and every array of matching length, deinterlv(interlv(x)) = x and interlv(deinterlv(x)) = x; both only reorder the elements.", "quantifier": "all lengths, all permutations, all arrays", "why_tests_cant": "n! permutations", "anchors": ["commpy/channelcoding/interleavers.py:_Interleaver.interlv", "commpy/channelcoding/interleavers.py:_Interleaver.deinterlv", "commpy/channelcoding/interleavers.py:RandInterlv"]}
{"id": "C11", "title": "Interleaver on arrays of the wrong length", "statement": "An array shorter than the interleaver raises IndexError; for a longer array interlv drops the extra elements and deinterlv zero-fills them, without error.", "quantifier": "all lengths, permutations and arrays", "why_tests_cant": "boundary behaviour for all lengths", "anchors": ["commpy/channelcoding/interleavers.py:_Interleaver.interlv", "commpy/channelcoding/interleavers.py:_Interleaver.deinterlv"]}
{"id": "C12", "title": "PN sequence is the LFSR recurrence", "statement": "pnsequence returns ValueError exactly when seed or mask length differs from pn_order; otherwise seq_length bits whose first pn_order bits are the seed reversed and whose later bits are the mask-weighted parity of the previous pn_order bits.", "quantifier": "all orders >= 1, seeds, masks and lengths", "why_tests_cant": "unbounded order and length", "anchors": ["commpy/sequences.py:pnsequence"]}
{"id": "C13", "title": "PN sequence algebra", "statement": "pnsequence is linear over XOR of seeds, zero for the zero seed, extending seq_length only appends, and when the last mask bit is 1 the sequence is purely periodic with period at most 2^order - 1.", "quantifier": "all orders, seeds, masks, lengths", "why_tests_cant": "global periodicity for every register", "anchors": ["commpy/sequences.py:pnsequence"]}
{"id": "C14", "title": "Zadoff-Chu validation and constant amplitude", "statement": "zcsequence raises ValueError exactly when u <= 0, u >= seq_length or gcd(u, seq_length) != 1 (integer arguments); otherwise returns seq_length samples of magnitude 1.", "quantifier": "all integers u, seq_length, q", "why_tests_cant": "unbounded", "anchors": ["commpy/sequences.py:zcsequence"]}
{"id": "C15", "title": "Zadoff-Chu zero autocorrelation", "statement": "For every accepted (u, N, q) the periodic autocorrelation of zcsequence(u, N, q) is zero at every non-zero lag and N at lag 0.", "quantifier": "all accepted u, N, q and all lags (exact complex arithmetic)", "why_tests_cant": "the test checks one N", "anchors": ["commpy/sequences.py:zcsequence"]}
{"id": "C16", "title": "Zadoff-Chu q is a cyclic shift", "statement": "zcsequence(u, N, q) equals zcsequence(u, N, 0) cyclically shifted by q samples, up to one constant unit-modulus factor.", "quantifier": "all accepted u, N and all integers q", "why_tests_cant": "unbounded", "anchors": ["commpy/sequences.py:zcsequence"]}
{"id": "C17", "title": "Frequency offset is a reversible rotation", "statement": "add_frequency_offset preserves the length and the magnitude of every sample; offsets compose additively and applying the opposite offset restores the input.", "quantifier": "all signals, sampling rates and offsets (exact arithmetic)", "why_tests_cant": "universally quantified law", "anchors": ["commpy/impairments.py:add_frequency_offset"]}
{"id": "C18", "title": "Raised cosine is a Nyquist pulse", "statement": "rcosfilter returns N time indices and N taps; the pulse is 1 at t=0, 0 at every other multiple of Ts, even in t, and the special-cased value at |t| = Ts/(2 alpha) is the limit of the general formula.", "quantifier": "all N, 0 < alpha <= 1 (alpha = 0 too), Ts > 0, Fs > 0 (exact arithmetic)", "why_tests_cant": "real-valued parameters", "anchors": ["commpy/filters.py:rcosfilter"]}
{"id": "C19", "title": "Root raised cosine is even and continuous", "statement": "rrcosfilter is even in t and its special-cased values at t = 0 and |t| = Ts/(4 alpha) are the limits of the general formula.", "quantifier": "all parameters (exact arithmetic)", "why_tests_cant": "real-valued parameters", "anchors": ["commpy/filters.py:rrcosfilter"]}
{"id": "C20", "title": "Gaussian and rectangular pulses", "statement": "gaussianfilter taps are positive, symmetric about t=0 and maximal there; rectfilter taps are all 1; all filters share the same strictly increasing time grid.", "quantifier": "all parameters (exact arithmetic)", "why_tests_cant": "real-valued parameters", "anchors": ["commpy/filters.py:gaussianfilter", "commpy/filters.py:rectfilter"]}
{"id": "C21", "title": "GF addition", "statement": "GF(x)+GF(y) is element-wise polynomial addition mod 2: commutative, associative, self-inverse, closed in the field; operands with different numbers of elements raise ValueError.", "quantifier": "all m, all element arrays", "why_tests_cant": "unbounded arrays", "anchors": ["commpy/channelcoding/gfields.py:GF.__add__"]}
{"id": "C22", "title": "GF multiplication is polynomial multiplication modulo the primitive polynomial", "statement": "For 1 <= m <= 16 the product of two field elements is the residue of the product of their binary polynomials; it is closed, commutative, associative, distributes over addition and has identity 1.", "quantifier": "all m in 1..16, all field elements", "why_tests_cant": "2^48 associativity triples for m=16; tests stop at closure for m<=8", "anchors": ["commpy/channelcoding/gfields.py:GF.__mul__", "commpy/channelcoding/gfields.py:polymultiply"]}
{"id": "C23", "title": "Every table polynomial is primitive, so GF(m) is a field", "statement": "For every m in 1..16 the element 2 has multiplicative order exactly 2^m - 1; hence every non-zero element is a power of 2 and has a multiplicative inverse.", "quantifier": "all m in 1..16 and all non-zero elements", "why_tests_cant": "needs the order for every field", "anchors": ["commpy/channelcoding/gfields.py:GF.__init__"]}
{"id": "C24", "title": "polydivide returns the remainder", "statement": "For every x and every y >= 2 polydivide terminates and returns the unique r of degree < deg y with x = q*y + r over GF(2); for y <= 1 the loop never terminates.", "quantifier": "all non-negative integers", "why_tests_cant": "termination over all inputs", "anchors": ["commpy/channelcoding/gfields.py:polydivide"]}
{"id": "C25", "title": "Power and tuple representations are inverse", "statement": "For 1 <= m <= 16 tuple_to_power terminates on every array of non-zero field elements and power_to_tuple(tuple_to_power(a)) = a; tuple_to_power(power_to_tuple(i)) = i for 0 <= i < 2^m - 1.", "quantifier": "all m in 1..16, all arrays of field elements", "why_tests_cant": "a loop whose termination rests on primitivity", "anchors": ["commpy/channelcoding/gfields.py:GF.tuple_to_power", "commpy/channelcoding/gfields.py:GF.power_to_tuple"]}
{"id": "C26", "title": "order() is the multiplicative order", "statement": "GF.order() of a non-zero element a is the least e >= 1 with a^e = 1.", "quantifier": "all m in 1..16, all non-zero elements", "why_tests_cant": "unbounded", "anchors": ["commpy/channelcoding/gfields.py:GF.order"]}
{"id": "C27", "title": "cosets() are the conjugacy classes", "statement": "For an array of distinct field elements cosets() terminates, partitions them, and puts two non-zero elements in the same class exactly when one is the other raised to a power 2^i.", "quantifier": "all m in 1..16, all arrays of distinct field elements", "why_tests_cant": "all subsets of the field", "anchors": ["commpy/channelcoding/gfields.py:GF.cosets"]}
{"id": "C28", "title": "minpolys() are minimal polynomials", "statement": "minpolys() returns for every field element a binary polynomial that has it as a root and divides every binary polynomial having it as a root.", "quantifier": "all m in 1..16, all elements", "why_tests_cant": "all elements of fields up to 2^16", "anchors": ["commpy/channelcoding/gfields.py:GF.minpolys"]}
{"id": "C29", "title": "cyclic_code_genpoly returns generator polynomials", "statement": "Every polynomial returned by cyclic_code_genpoly(n, k) has degree n-k and divides x^n - 1 over GF(2).", "quantifier": "all odd n and all k", "why_tests_cant": "all n,k; tests check n=15,31 only", "anchors": ["commpy/channelcoding/algcode.py:cyclic_code_genpoly"]}
{"id": "C30", "title": "poly_to_string is faithful", "statement": "poly_to_string lists exactly the exponents of the set bits in increasing order; distinct integers give distinct strings.", "quantifier": "all non-negative integers", "why_tests_cant": "unbounded", "anchors": ["commpy/channelcoding/gfields.py:poly_to_string"]}
{"id": "C31", "title": "Convolutional encoding is polynomial convolution", "statement": "For a feed-forward Trellis (no feedback) in MSB or LSB format, output j of conv_encode at time t is the parity over inputs i and delays d of coefficient d of G[i][j] times input bit i at time t-d, for every memory layout.", "quantifier": "all k, n, memories, generator matrices, messages", "why_tests_cant": "all codes and messages", "anchors": ["commpy/channelcoding/convcode.py:Trellis.__init__", "commpy/channelcoding/convcode.py:conv_encode"]}
{"id": "C32", "title": "Convolutional encoding is linear", "statement": "conv_encode(a xor b) = conv_encode(a) xor conv_encode(b) for every Trellis built with matrix or no feedback, with 'cont' and 'term' termination of default codes.", "quantifier": "all trellises and message pairs", "why_tests_cant": "pairs of unbounded messages", "anchors": ["commpy/channelcoding/convcode.py:conv_encode"]}
{"id": "C33", "title": "Encoded length", "statement": "conv_encode returns n/k output bits per input bit, counting the termination bits, all 0 or 1, for every rate k/n with n <= 9 and every rate 1/n with n <= 48 (the length is computed in double arithmetic); for rates whose double representation is too coarse, such as 9/14, it raises ValueError instead.", "quantifier": "all trellises and messages", "why_tests_cant": "unbounded", "anchors": ["commpy/channelcoding/convcode.py:conv_encode"]}
{"id": "C34", "title": "Zero-tail termination", "statement": "With termination 'term' a feed-forward encoder of rate 1/n ends in the all-zero state for every message.", "quantifier": "all rate 1/n feed-forward trellises, all messages", "why_tests_cant": "all messages and codes", "anchors": ["commpy/channelcoding/convcode.py:conv_encode"]}
{"id": "C35", "title": "RSC termination", "statement": "With code_type 'rsc' and termination 'term' the encoder ends in the all-zero state.", "quantifier": "all rsc trellises, all messages", "why_tests_cant": "all feedback polynomials and states", "anchors": ["commpy/channelcoding/convcode.py:conv_encode"]}
{"id": "C36", "title": "Puncturing inside conv_encode", "statement": "conv_encode with a puncture matrix returns exactly the unpunctured bits selected by the repeated first row of the matrix.", "quantifier": "all codes, messages and puncture matrices", "why_tests_cant": "all patterns", "anchors": ["commpy/channelcoding/convcode.py:conv_encode"]}
{"id": "C37", "title": "Puncturing and depuncturing", "statement": "puncturing keeps exactly the message items whose position modulo the pattern length is marked 1; depuncturing puts them back with zeros elsewhere: depuncturing(puncturing(m, v), v, len(m)) is m with the unmarked positions zeroed, and raises IndexError exactly when too few items are supplied.", "quantifier": "all messages and patterns", "why_tests_cant": "all lengths and patterns (index arithmetic with negative wrap)", "anchors": ["commpy/channelcoding/convcode.py:puncturing", "commpy/channelcoding/convcode.py:depuncturing"]}
{"id": "C38", "title": "Viterbi decoding is maximum likelihood", "statement": "When the traceback window covers the whole block, viterbi_decode returns the input bits of a trellis path from state 0 whose total branch metric is minimal among all paths of that length; at every step each state's path metric is the minimum over all paths into it.", "quantifier": "all balanced trellises, all received sequences, hard/soft/unquantized (exact arithmetic)", "why_tests_cant": "exponentially many paths", "anchors": ["commpy/channelcoding/convcode.py:viterbi_decode", "commpy/channelcoding/convcode.py:_acs_traceback"]}
{"id": "C39", "title": "Viterbi inverts a terminated encoding", "statement": "For a trellis whose branches out of a state have distinct outputs, viterbi_decode(conv_encode(m)) starts with m for every message and every traceback depth that fits.", "quantifier": "all messages, depths, qualifying trellises", "why_tests_cant": "all messages", "anchors": ["commpy/channelcoding/convcode.py:conv_encode", "commpy/channelcoding/convcode.py:viterbi_decode"]}
{"id": "C40", "title": "Viterbi inverts a continuous encoding", "statement": "viterbi_decode(conv_encode(m, 'cont')) = m.", "quantifier": "all messages and qualifying trellises", "why_tests_cant": "all messages; fails only for special tails", "anchors": ["commpy/channelcoding/convcode.py:conv_encode", "commpy/channelcoding/convcode.py:viterbi_decode"]}
{"id": "C41", "title": "viterbi_decode does not modify its input", "statement": "After viterbi_decode returns, the array of received bits passed by the caller is unchanged.", "quantifier": "all inputs", "why_tests_cant": "aliasing through a numpy view", "anchors": ["commpy/channelcoding/convcode.py:viterbi_decode"]}
{"id": "C42", "title": "Viterbi corrects up to half the distance", "statement": "With a full-length traceback window and hard decisions, if the received word differs from the codeword of m in fewer than half as many positions as any other codeword of the block code does, the decoder returns m.", "quantifier": "all messages, error patterns, trellises", "why_tests_cant": "all error patterns", "anchors": ["commpy/channelcoding/convcode.py:viterbi_decode"]}
{"id": "C43", "title": "Unknown decoding types are rejected", "statement": "viterbi_decode with a decoding_type other than 'hard', 'soft', 'unquantized' raises ValueError.", "quantifier": "all inputs", "why_tests_cant": "documented contract over all inputs", "anchors": ["commpy/channelcoding/convcode.py:viterbi_decode", "commpy/channelcoding/convcode.py:_compute_branch_metrics"]}
{"id": "C44", "title": "Soft metric and erasures", "statement": "The 'soft' branch metric orders branches by log-likelihood of the LLRs; a zero LLR (as inserted by depuncturing) adds the same constant to every branch, so erased positions never influence the decision.", "quantifier": "all LLR vectors and codewords (exact arithmetic)", "why_tests_cant": "real-valued", "anchors": ["commpy/channelcoding/convcode.py:_compute_branch_metrics", "commpy/channelcoding/convcode.py:depuncturing"]}
{"id": "C45", "title": "viterbi_decode output is fully determined by its input", "statement": "With the default traceback depth every returned bit is computed from the received bits (none is left-over memory contents).", "quantifier": "all trellises and block lengths", "why_tests_cant": "depends on uninitialised memory; tests use one long block length", "anchors": ["commpy/channelcoding/convcode.py:viterbi_decode"]}
{"id": "C46", "title": "802.11 puncturing patterns give the MCS code rate", "statement": "For every MCS the coded and punctured length of a message realises the code rate of the MCS, and depuncturing to the length computed by the receiver restores the unpunctured positions.", "quantifier": "all MCS, all messages whose length is a whole number of puncturing periods", "why_tests_cant": "all lengths", "anchors": ["commpy/wifi80211.py:Wifi80211._get_puncture_matrix", "commpy/wifi80211.py:Wifi80211._get_coding"]}
{"id": "C47", "title": "802.11 generator polynomials", "statement": "The Wifi80211 trellis is the 802.11 code with octal generators 133, 171.", "quantifier": "the 64x2 trellis tables", "why_tests_cant": "property of constants in combination with the bit conversion", "anchors": ["commpy/wifi80211.py:Wifi80211._get_trellis"]}
{"id": "C48", "title": "802.11 MCS table", "statement": "get_modem and the coding table realise the documented MCS list (BPSK/QPSK/16/64/256-QAM with rates) for mcs 0..9; other positive values raise IndexError.", "quantifier": "all mcs values", "why_tests_cant": "finite table plus all out-of-range values", "anchors": ["commpy/wifi80211.py:Wifi80211.get_modem", "commpy/wifi80211.py:Wifi80211._get_coding"]}
{"id": "C49", "title": "802.11 transmit chain is decodable without noise", "statement": "For every MCS, encoding, puncturing, depuncturing and soft Viterbi decoding with error-free LLRs the transmitted message is a minimum-metric candidate.", "quantifier": "all MCS, all messages", "why_tests_cant": "all messages", "anchors": ["commpy/wifi80211.py:Wifi80211.link_performance"]}
{"id": "C50", "title": "turbo_encode streams", "statement": "turbo_encode returns the systematic stream equal to the message and two parity streams of the same length, the second being the parity of the interleaved message.", "quantifier": "all messages, trellises, interleavers", "why_tests_cant": "all messages and permutations", "anchors": ["commpy/channelcoding/turbo.py:turbo_encode"]}
{"id": "C51", "title": "map_decode computes exact a posteriori LLRs", "statement": "For every received block, each value returned by map_decode is the log ratio of the total probability of input sequences with that bit 1 to that with the bit 0 (priors from L_int, Gaussian branch likelihoods, trellis started in state 0).", "quantifier": "all rate-1/2 k=1 trellises, block lengths, received symbols, priors, noise variances > 0 (exact arithmetic)", "why_tests_cant": "2^N input sequences", "anchors": ["commpy/channelcoding/turbo.py:map_decode", "commpy/channelcoding/turbo.py:_backward_recursion", "commpy/channelcoding/turbo.py:_forward_recursion_decoding"]}
{"id": "C52", "title": "map_decode decisions are bitwise MAP", "statement": "In 'decode' mode bit t is 1 exactly when the posterior probability of 1 exceeds that of 0; in 'compute' mode the bits are all 0.", "quantifier": "as C51", "why_tests_cant": "as C51", "anchors": ["commpy/channelcoding/turbo.py:map_decode"]}
{"id": "C53", "title": "turbo_decode structure", "statement": "turbo_decode needs at least one iteration; it returns one bit per systematic symbol in natural (de-interleaved) order, decided in the last half-iteration.", "quantifier": "all inputs, permutations, iteration counts", "why_tests_cant": "all permutations and iterations", "anchors": ["commpy/channelcoding/turbo.py:turbo_decode"]}
{"id": "C54", "title": "LDPC design file round trip", "statement": "get_ldpc_code_params(write_ldpc_params(H)) reproduces H for every 0/1 matrix without empty row or column; a matrix with an empty row or column raises IndexError.", "quantifier": "all binary matrices of all sizes", "why_tests_cant": "all matrices, text level", "anchors": ["commpy/channelcoding/ldpc.py:write_ldpc_params", "commpy/channelcoding/ldpc.py:get_ldpc_code_params", "commpy/channelcoding/ldpc.py:build_matrix"]}
{"id": "C55", "title": "LDPC adjacency maps are mutually inverse", "statement": "In the parameters read from a consistent design the edge maps satisfy vnode_adj[v, cnode_vnode_map[c, i]] = c for v = cnode_adj[c, i], and symmetrically.", "quantifier": "all designs", "why_tests_cant": "all designs", "anchors": ["commpy/channelcoding/ldpc.py:get_ldpc_code_params"]}
{"id": "C56", "title": "LDPC encoding is systematic and satisfies all parity checks", "statement": "For triangular systematic codes (the scope documented for build_matrix) triang_ldpc_systematic_encode returns blocks whose first part is the message and whose syndrome is zero mod 2. The same holds whenever the inverse of the last columns times the first columns is integral; outside that scope it may fail.", "quantifier": "all triangular codes (more generally all codes with an integral generator matrix), all messages", "why_tests_cant": "all matrices and messages", "anchors": ["commpy/channelcoding/ldpc.py:triang_ldpc_systematic_encode", "commpy/channelcoding/ldpc.py:build_matrix"]}
{"id": "C57", "title": "LDPC encoding block handling", "statement": "Messages are split in blocks in order, padded with zeros to a whole block when pad is True; ValueError exactly when pad is False and the length is not a multiple.", "quantifier": "all lengths", "why_tests_cant": "all lengths", "anchors": ["commpy/channelcoding/ldpc.py:triang_ldpc_systematic_encode"]}
{"id": "C58", "title": "ldpc_bp_decode keeps valid codewords", "statement": "If the signs of the received LLRs already form a codeword the decoder returns exactly that codeword and the clipped LLRs, for every algorithm and iteration count.", "quantifier": "all codes, LLRs, iteration counts", "why_tests_cant": "all LLR vectors", "anchors": ["commpy/channelcoding/ldpc.py:ldpc_bp_decode"]}
{"id": "C59", "title": "ldpc_bp_decode decodes blocks independently", "statement": "Decoding several concatenated blocks gives the per-block results.", "quantifier": "all codes and block counts", "why_tests_cant": "all block counts", "anchors": ["commpy/channelcoding/ldpc.py:ldpc_bp_decode"]}
{"id": "C60", "title": "Min-sum decoding symmetries", "statement": "Min-sum decoding commutes with positive scaling of the (unclipped) LLRs and with flipping signs by a codeword, so performance does not depend on the transmitted codeword.", "quantifier": "all codes, LLRs, codewords, iteration counts (exact arithmetic)", "why_tests_cant": "all codewords and LLRs", "anchors": ["commpy/channelcoding/ldpc.py:ldpc_bp_decode"]}
{"id": "C61", "title": "Modulation round trip", "statement": "For any modem with at least two, distinct constellation points, demodulate(modulate(bits), 'hard') = bits for every non-empty bit array whose length is a multiple of num_bits_symbol (an empty array raises ValueError).", "quantifier": "all constellations of distinct points, all bit arrays", "why_tests_cant": "the test enumerates single symbols of 8 modems", "anchors": ["commpy/modulation.py:Modem.modulate", "commpy/modulation.py:Modem.demodulate"]}
{"id": "C62", "title": "Hard demodulation is nearest neighbour", "statement": "Each group of num_bits_symbol demodulated bits is the index of a constellation point at minimal distance from the received symbol.", "quantifier": "all constellations and received symbols", "why_tests_cant": "continuous input", "anchors": ["commpy/modulation.py:Modem.demodulate"]}
{"id": "C63", "title": "Gray relabelling", "statement": "A Modem built with reorder_as_gray is a permutation of the given constellation in which points consecutive in the given order (cyclically) carry labels differing in exactly one bit.", "quantifier": "all constellations of 2^b points, b >= 1", "why_tests_cant": "all b", "anchors": ["commpy/modulation.py:Modem.__init__"]}
{"id": "C64", "title": "PSK modem", "statement": "PSKModem(2^b) has 2^b distinct unit-energy points and angularly adjacent points carry labels differing in one bit; non powers of two raise ValueError.", "quantifier": "all m", "why_tests_cant": "all m", "anchors": ["commpy/modulation.py:PSKModem"]}
{"id": "C65", "title": "QAM modem", "statement": "QAMModem(4^h) is the square grid of odd coordinates, all points distinct, horizontally or vertically adjacent points carry labels differing in exactly one bit, and Es = 2(m-1)/3.", "quantifier": "all h >= 1", "why_tests_cant": "all h; test checks m<=64", "anchors": ["commpy/modulation.py:QAMModem"]}
{"id": "C66", "title": "Modem attributes stay consistent", "statement": "After any sequence of constellation assignments, successful or not, m = len(constellation) = 2^num_bits_symbol and Es is the mean energy; an assignment whose length is not a power of two raises ValueError and changes nothing.", "quantifier": "all histories of assignments", "why_tests_cant": "all histories", "anchors": ["commpy/modulation.py:Modem.constellation"]}
{"id": "C67", "title": "Soft demodulation convention", "statement": "Soft outputs are in the bit order of modulate, positive favours 1; for a noiseless symbol and a small enough noise variance the signs reproduce the transmitted bits.", "quantifier": "all constellations, symbols, noise variances (exact arithmetic)", "why_tests_cant": "continuous input", "anchors": ["commpy/modulation.py:Modem.demodulate"]}
{"id": "C68", "title": "mimo_ml is exhaustive maximum likelihood", "statement": "mimo_ml returns a vector of constellation points minimising the distance between y and h x over all m^n vectors.", "quantifier": "all channels, receptions, constellations, sizes", "why_tests_cant": "m^n candidates, continuous input", "anchors": ["commpy/modulation.py:mimo_ml"]}
{"id": "C69", "title": "K-best detection", "statement": "kbest always returns a vector of constellation points, with the accumulated metric being its true distance; with K >= m^(n-1) it is a maximum likelihood solution; more columns than rows raise ValueError.", "quantifier": "all channels, receptions, constellations, K (QR factorisation as a parameter)", "why_tests_cant": "continuous input", "anchors": ["commpy/modulation.py:kbest"]}
{"id": "C70", "title": "Best-first soft outputs", "statement": "best_first_detector returns per-bit LLRs whose magnitude reflects the reliability of each bit, clipped to llr_max.", "quantifier": "all inputs", "why_tests_cant": "search over all stacks", "anchors": ["commpy/modulation.py:best_first_detector"]}
{"id": "C71", "title": "Bit-level representation", "statement": "For even-length weights w, bit_lvl_repr(H, w) times a bit vector equals H times the vector of weighted bit groups; odd length raises ValueError.", "quantifier": "all matrices and weights", "why_tests_cant": "all sizes", "anchors": ["commpy/modulation.py:bit_lvl_repr"]}
{"id": "C72", "title": "Max-log approximation", "statement": "max_log_approx returns for every bit (min distance over points with bit 1 minus min over bit 0)/(2 noise_var), infinite when one set is empty; its sign selects the bit of the closest candidate.", "quantifier": "all candidate lists", "why_tests_cant": "continuous input", "anchors": ["commpy/modulation.py:max_log_approx"]}
{"id": "C73", "title": "OFDM round trip", "statement": "ofdm_rx(ofdm_tx(x)) = x.", "quantifier": "all symbol matrices", "why_tests_cant": "continuous input", "anchors": ["commpy/modulation.py:ofdm_tx", "commpy/modulation.py:ofdm_rx"]}
{"id": "C74", "title": "BSC and BEC", "statement": "bsc flips and bec erases exactly the positions whose random draw is <= p, leaving the caller's array untouched; a bit is never changed otherwise.", "quantifier": "all inputs and all random draws", "why_tests_cant": "all random outcomes", "anchors": ["commpy/channels.py:bsc", "commpy/channels.py:bec"]}
{"id": "C75", "title": "SNR to noise conversion", "statement": "set_SNR_dB(x) and set_SNR_lin(10^(x/10)) agree; the resulting noise power per receive antenna is nb_tx*Es/(rate*SNR) for real and complex channels alike and strictly decreases with the SNR.", "quantifier": "all SNRs, rates, energies (exact arithmetic)", "why_tests_cant": "continuous input", "anchors": ["commpy/channels.py:_FlatChannel.set_SNR_dB", "commpy/channels.py:_FlatChannel.generate_noises"]}
{"id": "C76", "title": "SISO channel state invariant", "statement": "After any history of operations the stored fading parameters satisfy the energy normalisation; a rejected assignment changes nothing; propagate returns gains*message plus noise, refuses complex messages on real channels and missing noise_std.", "quantifier": "all histories", "why_tests_cant": "all histories", "anchors": ["commpy/channels.py:SISOFlatChannel"]}
{"id": "C77", "title": "MIMO fading setters are normalised and honour the k-factor", "statement": "uncorr_rician_fading and expo_corr_rician_fading never raise for a non-zero mean and k >= 0, normalise the channel to nb_tx*nb_rx and give k_factor exactly as requested, with or without KBSM betas; the Rayleigh setters are normalised too.", "quantifier": "all sizes, means, k, t, r, betas (exact arithmetic)", "why_tests_cant": "continuous input", "anchors": ["commpy/channels.py:MIMOFlatChannel"]}
{"id": "C78", "title": "MIMO propagation", "statement": "propagate pads the message with zeros to a multiple of nb_tx and returns ceil(len/nb_tx) vectors, vector i being the i-th gain matrix times the i-th message slice plus noise.", "quantifier": "all messages and sizes", "why_tests_cant": "all lengths", "anchors": ["commpy/channels.py:MIMOFlatChannel.propagate"]}
{"id": "C79", "title": "Exponential correlation arguments are checked", "statement": "expo_corr_* raise ValueError when |t| != 1 or |r| != 1, and for |t| = 1 the correlation matrix is Hermitian with unit diagonal.", "quantifier": "all complex t, r, sizes", "why_tests_cant": "continuous input", "anchors": ["commpy/channels.py:MIMOFlatChannel.expo_corr_rayleigh_fading"]}
{"id": "C80", "title": "Chunk rounding", "statement": "The chunk length used by link_performance is positive, a multiple of the smallest admissible length, at most the requested length when that is admissible, and makes the coded length a whole number of symbol vectors.", "quantifier": "all chunk sizes, rates, modem and antenna sizes", "why_tests_cant": "all integers", "anchors": ["commpy/links.py:LinkModel.link_performance"]}
{"id": "C81", "title": "Monte-Carlo loop", "statement": "For every channel/decoder behaviour, link_performance stops for each SNR at the first chunk where err_min errors or send_max bits are reached, sends fewer than send_max + chunk bits, reports errors/bits in [0,1], and leaves 0 for all SNRs after the first one that stays under err_min.", "quantifier": "all error behaviours and parameters", "why_tests_cant": "all random outcomes", "anchors": ["commpy/links.py:LinkModel.link_performance"]}
{"id": "C82", "title": "Full metrics are ratios", "statement": "In link_performance_full_metrics BERs are bit errors divided by bits sent (so at most 1) and CEs counts erroneous chunks per transmission.", "quantifier": "all error behaviours and parameters", "why_tests_cant": "all random outcomes", "anchors": ["commpy/links.py:LinkModel.link_performance_full_metrics"]}
{"id": "C83", "title": "IDD decoder", "statement": "The decoder built by idd_decoder alternates n_it decoder and detector calls on extrinsic information and decides on the detector output of the last iteration; n_it = 0 raises an error.", "quantifier": "all detectors, decoders, n_it", "why_tests_cant": "higher-order, all functions", "anchors": ["commpy/links.py:idd_decoder"]}
{"id": "C84", "title": "awgn noise power", "statement": "awgn returns one sample per input sample; the mean power of the added noise is the mean power of the input divided by rate*10^(snr_dB/10), for real and complex signals; an empty signal raises IndexError.", "quantifier": "all signals, SNRs, rates > 0, normal draws", "why_tests_cant": "statistical statement over all signals; a sample mean only estimates it", "anchors": ["commpy/channels.py:awgn"]}
{"id": "C85", "title": "Specular components", "statement": "specular_compo returns a matrix of unit-modulus entries whose phase is the sum of a receive and a transmit term, so that its energy is nb_rx*nb_tx; negative spacings raise ValueError.", "quantifier": "all angles, spacings, antenna numbers", "why_tests_cant": "all real parameters", "anchors": ["commpy/channels.py:MIMOFlatChannel.specular_compo"]}
{"id": "C86", "title": "MIMO gains follow the Kronecker model", "statement": "With independent normal draws the gains generated by propagate have the configured mean, are uncorrelated between vectors, and within a vector the covariance of gains (i,l) and (i',l') is Rr[i,i']*Rt[l,l'].", "quantifier": "all sizes, means, correlation matrices, real and complex channels", "why_tests_cant": "statistical statement over all parameters", "anchors": ["commpy/channels.py:MIMOFlatChannel.propagate"]}
{"id": "C87", "title": "MIMO channel state invariant", "statement": "After any history of operations, successful or not, the stored fading parameters have total energy within 1e-3 of nb_tx*nb_rx and isComplex is the kind of the mean; a refused operation changes nothing.", "quantifier": "all histories, sizes and parameters", "why_tests_cant": "all histories", "anchors": ["commpy/channels.py:MIMOFlatChannel.fading_param"]}
{"id": "C88", "title": "Received array of a MIMO link", "statement": "For a MIMO link, every received vector is detected with its own channel matrix and the results fill the array given to the decoder exactly: one entry per coded bit, in order, none left uninitialised, for every code rate and admissible chunk.", "quantifier": "all receivers, channel outputs, rates, chunk lengths", "why_tests_cant": "all rates and lengths in floating point arithmetic", "anchors": ["commpy/links.py:LinkModel.link_performance", "commpy/links.py:LinkModel.link_performance_full_metrics"]}
{"id": "C89", "title": "ldpc_bp_decode computes textbook belief propagation", "statement": "The decisions and LLRs returned are those of flooding belief propagation with the sum-product (or min-sum) rule, stopped at the first total LLRs whose signs satisfy all checks or after the given number of iterations; this includes erased bits (LLR 0).", "quantifier": "all parity check matrices, LLRs and iteration counts (exact arithmetic)", "why_tests_cant": "all codes, LLR vectors and iteration counts", "anchors": ["commpy/channelcoding/ldpc.py:ldpc_bp_decode"]}
{"id": "C90", "title": "Sum-product decoding of a single parity check gives exact posteriors", "statement": "For a code with one parity check, the LLR returned for each bit after one iteration of sum-product decoding is the logarithm of the ratio of the a posteriori probabilities of the bit being 0 and 1, given independent channel LLRs.", "quantifier": "all check lengths and non-zero LLRs not already satisfying the check (exact arithmetic)", "why_tests_cant": "all lengths and real LLRs", "anchors": ["commpy/channelcoding/ldpc.py:ldpc_bp_decode"]}
{"id": "C91", "title": "turbo_decode recovers the message when all received signs are right", "statement": "If every systematic value received has the sign of its transmitted BPSK symbol, and every parity value has the right sign or is zero (erased), turbo_decode returns the transmitted message, whatever the amplitudes, the noise variance given, the interleaver and the number of iterations (at least one).", "quantifier": "all linear systematic one-input trellises, messages, permutations, received amplitudes, noise variances > 0, iteration counts >= 1 (exact arithmetic)", "why_tests_cant": "all messages, permutations, real amplitudes and iteration counts", "anchors": ["commpy/channelcoding/turbo.py:turbo_decode", "commpy/channelcoding/turbo.py:map_decode"]}
{"id": "C92", "title": "turbo encoder/decoder round trip", "statement": "For trellises built by the constructor with integer feedback of degree M and code type 'rsc', decoding the noiseless BPSK image of the streams returned by turbo_encode gives back the message.", "quantifier": "all memories M > 0, generators, feedback polynomials of degree M, messages, permutations, noise variances > 0, iteration counts >= 1", "why_tests_cant": "all codes, messages and permutations", "anchors": ["commpy/channelcoding/turbo.py:turbo_encode", "commpy/channelcoding/turbo.py:turbo_decode", "commpy/channelcoding/convcode.py:Trellis"]}
{"id": "C93", "title": "Demodulation tolerates noise below half the minimum distance", "statement": "If every received sample lies closer to its transmitted point than half the minimum distance of the constellation, hard demodulation returns the transmitted bits. If the distance is at most eps and noise_var*ln(m) <= d(d-2 eps), every soft output has the sign of its bit. The minimum distance is at least 2 for QAMModem and 2 sin(pi/m) for PSKModem.", "quantifier": "all modems with a consistent constellation, bit sequences, and received values within the noise radius (exact arithmetic)", "why_tests_cant": "ranges over all messages and a continuum of noise values", "anchors": ["commpy/modulation.py:Modem.demodulate", "commpy/modulation.py:PSKModem", "commpy/modulation.py:QAMModem"]}
{"id": "C94", "title": "An error-free link is reported error-free", "statement": "If every transmission of a link model is decoded to the transmitted bits, link_performance reports BER 0 for all requested SNRs, and link_performance_full_metrics reports BER 0 with zero bit errors and every chunk counted as correct. For an uncoded modem over a unit-gain complex SISO channel whose normal draws are bounded, this happens at every SNR above some threshold.", "quantifier": "all link models, SNR lists, limits, chunk sizes; all consistent modems, bounded generators and SNRs above the threshold", "why_tests_cant": "ranges over all links, generators and histories of transmissions", "anchors": ["commpy/links.py:LinkModel.link_performance", "commpy/links.py:LinkModel.link_performance_full_metrics", "commpy/channels.py:SISOFlatChannel"]}
{"id": "C95", "title": "The Wi-Fi simulation reports no errors at high SNR", "statement": "For each MCS 0..9 there is an SNR above which Wifi80211.link_performance over a complex unit-gain SISO channel with bounded normal draws reports zero errors, whatever the generated bits, number of transmissions, chunk and frame counts. With a channel of real gain (the default SISOFlatChannel()) the call raises TypeError.", "quantifier": "all MCS, bounded random generators, SNR lists starting above the threshold, transmission/frame counts >= 1 with at least two information units per transmission", "why_tests_cant": "ranges over all random histories, lengths and SNRs", "anchors": ["commpy/wifi80211.py:Wifi80211.link_performance", "commpy/links.py:LinkModel.link_performance_full_metrics", "commpy/channels.py:SISOFlatChannel"]}
{"id": "C96", "title": "pnsequence with a primitive mask is a maximal-length sequence", "statement": "If the mask describes a primitive polynomial of degree m and the seed is not zero, the periods of pnsequence are exactly the multiples of 2^m-1, one period has 2^(m-1) ones, every non-zero m-bit pattern occurs exactly once per period, and the cyclic autocorrelation is -1 at every non-zero shift. The masks of the 16 polynomials tabulated in gfields are primitive.", "quantifier": "all orders m, primitive masks, non-zero seeds, shifts and patterns", "why_tests_cant": "ranges over all orders, primitive polynomials and seeds; periods are exponential in the order", "anchors": ["commpy/sequences.py:pnsequence"]}
{"id": "C97", "title": "A float code rate means the intended fraction", "statement": "Fraction.limit_denominator returns a closest fraction with denominator at most the bound; hence a code rate with denominator <= 100 passed to the simulations as a Python float (rounded to double) gives the same results as the exact fraction.", "quantifier": "all rationals and bounds; all rates in (0,1] with denominator <= 100 and every link model", "why_tests_cant": "ranges over all rationals and all link models", "anchors": ["commpy/links.py:LinkModel.link_performance", "commpy/links.py:LinkModel.link_performance_full_metrics"]}
{"id": "C98", "title": "Trellis with an integer feedback", "statement": "Trellis(memory, g_matrix, feedback=<int>) builds the same trellis as the matrix form for any number of inputs and any register lengths, and leaves the caller's g_matrix unchanged.", "quantifier": "all memories, generator matrices, integer feedbacks and code types", "why_tests_cant": "ranges over all shapes and polynomials; tests use one input", "anchors": ["commpy/channelcoding/convcode.py:Trellis.__init__"]}
{"id": "C99", "title": "Sum-product is exact on cycle-free codes", "statement": "ldpc_bp_decode with 'SPA' on a code whose Tanner graph has no cycles, run for at least as many iterations as there are checks, returns for every bit the exact a posteriori log-likelihood ratio over all codewords (and its sign as the hard decision), unless it stops earlier because its decisions already form a codeword.", "quantifier": "all cycle-free parity-check structures with check degrees >= 2, all LLR vectors with sum of magnitudes <= 500 on which no message is exactly zero, all iteration counts >= number of checks", "why_tests_cant": "ranges over all trees and all real LLRs; the reference value sums over all codewords", "anchors": ["commpy/channelcoding/ldpc.py:ldpc_bp_decode"]}
{"id": "C100", "title": "Bit conversions are exact with every allowed NumPy", "statement": "With the machine integer types the library really uses (dec2bitarray returns int8 arrays) and either NumPy promotion rule (1.x or 2.x), bitarray2dec, GF multiplication, Trellis construction and modulate give the same results as with exact integers.", "quantifier": "all bit arrays and lengths, all scalar widths, both NumPy rule sets, all field degrees 1..16, all trellis arguments, all modems", "why_tests_cant": "ranges over all lengths and values and over the library versions allowed by requirements.txt", "anchors": ["commpy/utilities.py:bitarray2dec", "commpy/utilities.py:dec2bitarray", "commpy/channelcoding/gfields.py:polymultiply", "commpy/channelcoding/convcode.py:Trellis.__init__", "commpy/modulation.py:Modem.modulate"]}
{"id": "C101", "title": "Generator polynomials for every supported block length", "statement": "With the machine integers the library really uses and any allowed NumPy, cyclic_code_genpoly(n, k) returns the generator polynomials found with exact integers (property C29) for every odd n it accepts and every k < n.", "quantifier": "all odd n whose least field degree is at most 16, all k < n, both NumPy promotion rules", "why_tests_cant": "ranges over all block lengths, dimensions and library versions; the failing region (n >= 63 on NumPy 1, n >= 7 on NumPy 2) is untested", "anchors": ["commpy/channelcoding/algcode.py:cyclic_code_genpoly", "commpy/utilities.py:bitarray2dec", "commpy/channelcoding/gfields.py:GF.minpolys"]}
{"id": "C102", "title": "Trellis diagram shows the transitions", "statement": "Trellis.visualize draws every transition of the trellis once per time step, from the circle of its state to the circle of its next state, in the colour given for its input and with a legend naming the inputs, displays the states from the top in the order given, labels inputs and outputs correctly and leaves its arguments unchanged.", "quantifier": "all trellises, numbers of steps, state orders and colour lists", "why_tests_cant": "the tests never call it; ranges over all trellises and orders", "anchors": ["commpy/channelcoding/convcode.py:Trellis.visualize", "commpy/channelcoding/convcode.py:Trellis._generate_edges"]}
{"id": "C103", "title": "State diagram shows the transitions", "statement": "Trellis.visualize_fsm draws every state once in the order given and one arrow per state and input, from the circle of the state to the circle of its next state (leaving and arriving 9 degrees beside the straight line, on the same side), with its output as text and the colour of its input; the legend entry of each input has its colour; arguments are unchanged.", "quantifier": "all trellises, state orders, colours and positions of the states", "why_tests_cant": "the tests never call it; ranges over all trellises and orders", "anchors": ["commpy/channelcoding/convcode.py:Trellis.visualize_fsm"]}
{"id": "C104", "title": "Zadoff-Chu spectrum and cross-correlation are flat", "statement": "Every DFT coefficient of zcsequence(u, N, q) has squared modulus N; the periodic cross-correlation of two Zadoff-Chu sequences of length N whose roots differ by a number coprime to N has squared modulus N at every lag.", "quantifier": "all lengths, roots, shifts, lags and frequencies", "why_tests_cant": "quantifies over all lengths and roots; it is a Gauss-sum identity", "anchors": ["commpy/sequences.py:zcsequence"]}
{"id": "C105", "title": "Pulse-shaping filters have the advertised spectra", "statement": "For roll-off 0..1 the taps of rcosfilter / rrcosfilter are the samples, at the times returned, of the pulses whose Fourier transforms are the raised-cosine spectrum and its square root; two root-raised-cosine filters in cascade give (up to the factor Ts) the raised-cosine pulse, so the root-raised-cosine pulse is orthogonal to its shifts by multiples of the symbol period. The taps of gaussianfilter are samples of the pulse with spectrum exp(-alpha^2 f^2).", "quantifier": "all filter lengths, roll-offs, symbol periods, sampling rates and frequencies", "why_tests_cant": "an identity of integrals over all real times and frequencies", "anchors": ["commpy/filters.py:rcosfilter", "commpy/filters.py:rrcosfilter", "commpy/filters.py:gaussianfilter"]}
{"id": "C106", "title": "Decoding errors do not depend on the codeword sent", "statement": "Transmitting another codeword under the same channel disturbance only XORs the decoded message with that codeword's message. map_decode: flipping the signs of received values and priors by a codeword flips the returned LLRs by the message bits and XORs the decisions (an LLR of exactly 0 decides 0 both times). turbo_decode: the same, for any number of iterations, unless a final LLR is exactly 0. viterbi_decode(hard): if the nearest path is unique, adding a codeword's bits to the received bits XORs the decoded bits with its message.", "quantifier": "every linear trellis, message, received sequence, noise variance > 0, interleaver permutation, iteration count, uninitialised memory", "why_tests_cant": "relates two decodings for every received sequence and every codeword; simulations transmit only the zero codeword or a few random ones and rely on this", "anchors": ["commpy/channelcoding/turbo.py:map_decode", "commpy/channelcoding/turbo.py:turbo_decode", "commpy/channelcoding/convcode.py:viterbi_decode"]}
{"id": "C107", "title": "Soft outputs of the detectors follow one convention", "statement": "demodulate(..., 'soft') and max_log_approx (hence kbest soft outputs) compute the same log-likelihood ratios, up to the max-log approximation: for one antenna with unit gain, the whole constellation as candidates and the same noise variance, the two values have the same sign and differ by at most log(m/2). In general max_log_approx is within the logarithm of the number of candidates of the exact ratio over its candidates.", "quantifier": "every modem with distinct points, observation, noise variance > 0, candidate list, channel matrix", "why_tests_cant": "real-valued inequality over all observations, constellations and candidate lists, relating two functions", "anchors": ["commpy/modulation.py:max_log_approx", "commpy/modulation.py:Modem.demodulate", "commpy/modulation.py:kbest"]}
{"id": "C108", "title": "Soft demodulator output can be given to the soft decoders", "statement": "A coded transmission with soft decisions recovers the message when the noise is bounded: conv_encode -> modulate -> bounded noise -> demodulate('soft') -> viterbi_decode('soft') returns the message; triang_ldpc_systematic_encode -> modulate -> bounded noise -> demodulate('soft') -> ldpc_bp_decode returns the transmitted words, whose first bits are the message.", "quantifier": "every balanced trellis with distinct branch outputs / every triangular LDPC code, message, padding option, modem with points at distance >= d, noise <= eps per symbol with noise_var*log(m) <= d(d-2 eps), decoder algorithm and iteration count", "why_tests_cant": "composition of four functions over all messages, codes and noise realisations; a sign convention mismatch shows only when the pieces are combined", "anchors": ["commpy/modulation.py:Modem.demodulate", "commpy/channelcoding/convcode.py:viterbi_decode", "commpy/channelcoding/ldpc.py:ldpc_bp_decode", "commpy/channelcoding/ldpc.py:triang_ldpc_systematic_encode"]}
{"id": "C109", "title": "Soft outputs are numbers", "statement": "Soft demodulation returns finite log-likelihood ratios. What holds in double precision: entry j of symbol i is finite when each bit value has a constellation point within squared distance 745*noise_var of the received symbol; it is infinite with the right sign when only one of the values has (in particular for every bit of a message received without noise when 746*noise_var is at most the squared minimum distance of the constellation); it is nan when all points are more than 746*noise_var away, and with the default noise_var = 0 every soft output is nan.", "quantifier": "every modem, every list of received symbols, every noise variance, every exponential with the underflow of double precision", "why_tests_cant": "the outcome depends on distances and noise variance over the whole range of received symbols; a test samples a few where nothing underflows", "anchors": ["commpy/modulation.py:Modem.demodulate"]}
{"id": "C110", "title": "Convolutional codes correct channel errors", "statement": "viterbi_decode of a terminated encoding hit by channel errors returns the message: any pattern of up to e errors is corrected (e = 2 for the generators 5,7 and 5,15 of the examples, 4 for the octal generators 133,171 with free distance 10), with the default traceback depth, and any number of errors as long as they are sparse; terminated code words of different messages differ in at least the free distance.", "quantifier": "every message of every length, every error pattern within the bound, every content of uninitialised memory, every sufficient traceback depth; any linear balanced trellis for the general form; every real received vector for the unquantized metric", "why_tests_cant": "messages, error patterns and lengths are unbounded; the finite traceback makes decisions before the block ends", "anchors": ["commpy/channelcoding/convcode.py: viterbi_decode, _acs_traceback, conv_encode, Trellis", "commpy/examples/conv_encode_decode.py"]}
{"id": "C111", "title": "plot_constellation shows the mapping that modulate uses", "statement": "For every modem, plot_constellation draws every constellation point at its place and beside it num_bits_symbol bits that modulate maps to exactly that point; with distinct points all texts differ; neighbouring points of a QAMModem or PSKModem carry texts that differ in exactly one bit.", "quantifier": "every modem with at least two points, including assigned constellations with repeated points; every QAM/PSK order", "why_tests_cant": "constellations are arbitrary complex lists; orders are unbounded", "anchors": ["commpy/modulation.py: Modem.plot_constellation, Modem.demodulate, Modem.modulate"]}
{"id": "C112", "title": "Min-sum LDPC decoding corrects few unreliable positions at once", "statement": "If all LLRs of a word of an LDPC code have the right sign and magnitude at least a except at a few positions, where they are arbitrary with magnitude at most b, ldpc_bp_decode('MSA') with at least one iteration returns the word, provided at every position the checks free of other unreliable positions outweigh the rest. In particular, for codes without cycles of length 4 whose bits are all in at least 2e checks, any e sign errors on LLRs of equal magnitude are corrected; in several blocks at once.", "quantifier": "all parity check matrices (no check of one bit), code words, sets of unreliable positions, LLR values, numbers of iterations >= 1, numbers of blocks", "why_tests_cant": "unbounded codes, words, error patterns and real LLRs", "anchors": ["commpy/channelcoding/ldpc.py: ldpc_bp_decode, msa_check_node_update"]}
{"id": "C113", "title": "Min-sum LDPC decoding recovers erasures exactly up to stopping sets", "statement": "If the LLRs of the erased positions are 0 and all others have the right sign, ldpc_bp_decode('MSA') with at least as many iterations as erasures returns the word whenever no nonempty stopping set is erased; and the bits of an erased stopping set keep LLR 0 and are output as 0 whatever the number of iterations.", "quantifier": "all parity check matrices (no check of one bit), code words, erasure sets, LLR values and iteration limits", "why_tests_cant": "unbounded codes, erasure sets and iteration counts", "anchors": ["commpy/channelcoding/ldpc.py: ldpc_bp_decode, msa_check_node_update"]}
{"id": "C114", "title": "The shipped LDPC design files work with encoder and decoder", "statement": "For each design file in channelcoding/designs/ldpc: get_ldpc_code_params reads it, triang_ldpc_systematic_encode encodes every message in words that satisfy all checks of the file, and when in every block of LLRs one position is unreliable (WiMAX 1440.720: less than twice, WiMAX 960.720.a: less than 3/2 times, Gallager 96.33.964: less than 3 times the magnitude of the others, any sign), ldpc_bp_decode('MSA') returns the encoded words.", "quantifier": "all messages, numbers of blocks, LLR values and numbers of iterations >= 1, for each shipped file", "why_tests_cant": "2^48 to 2^720 messages per block, any number of blocks, real LLRs", "anchors": ["commpy/channelcoding/designs/ldpc/gallager/96.3.963.txt", "commpy/channelcoding/designs/ldpc/gallager/96.33.964.txt", "commpy/channelcoding/designs/ldpc/wimax/960.720.a.txt", "commpy/channelcoding/designs/ldpc/wimax/1440.720.txt", "commpy/channelcoding/ldpc.py: get_ldpc_code_params, build_matrix, triang_ldpc_systematic_encode, ldpc_bp_decode"]}
{"id": "C115", "title": "Recursive convolutional encoders realise the transfer function G(D)/F(D)", "statement": "With a feedback polynomial f of constant coefficient 1, coded stream j of conv_encode is the power series g_j(D)/f(D) times the message, over GF(2); for several inputs the register sequences and the outputs are those prescribed by the feedback and generator matrices; with code_type 'rsc' and an integer feedback the first stream is the message itself.", "quantifier": "all memories, generator and feedback polynomials or matrices, both polynomial formats, all messages of any length", "why_tests_cant": "unbounded memories, polynomials and messages", "anchors": ["commpy/channelcoding/convcode.py: Trellis.__init__, conv_encode"]}
{"id": "C116", "title": "Raised-cosine pulse shaping has no intersymbol interference", "statement": "Upsampling symbols by L = Fs*Ts and convolving with rcosfilter of an even number N of taps gives a signal whose sample N/2 + L*i is exactly symbol i.", "quantifier": "all symbol lists, even N, L >= 1, roll-off factors, symbol periods and sampling rates", "why_tests_cant": "unbounded symbol lists and filter lengths, real parameters", "anchors": ["commpy/utilities.py: upsample", "commpy/filters.py: rcosfilter"]}
{"id": "C117", "title": "MIMO detection tolerates noise", "statement": "mimo_ml returns the transmitted vector whenever the noise energy is below a quarter of the squared distance of its noise-free received vector to every other; and when the noise energy is below a quarter of (|r_kk| d)^2 for all k (r: triangular factor of the channel, d: minimum distance of the constellation) so do kbest for every K >= 1 and, by the signs of its outputs, best_first_detector with stacks that cannot overflow; in particular without noise kbest is right for every K >= 1 on every channel of full column rank.", "quantifier": "all channel matrices, numbers of antennas, constellations, transmitted vectors, noise vectors within the bound, K >= 1, any QR routine and argsort", "why_tests_cant": "real-valued channels and noise, unbounded sizes", "anchors": ["commpy/modulation.py: mimo_ml, kbest, best_first_detector"]}
{"id": "C118", "title": "Convolutional coding over a noisy modulated link returns the message", "statement": "Encode a message with conv_encode ('term'), modulate it, add noise, demodulate with hard decisions and decode with viterbi_decode: the message comes back whenever every symbol is received within the distance at which Gray-labelled points still differ in at most one bit (QAM: sqrt 2, PSK: sin(2 pi/M)) and at most e symbols are received at half the minimum distance or farther, e being the number of errors the code corrects; a symbol that is hit arbitrarily hard costs at most its own bits.", "quantifier": "all messages, rate 1/n feedforward codes with checked distances, QAM and PSK orders, received signals within the bounds, traceback depths in the admissible range", "why_tests_cant": "unbounded messages, real-valued noise, all placements of the noise", "anchors": ["commpy/channelcoding/convcode.py: conv_encode, viterbi_decode", "commpy/modulation.py: Modem.modulate, Modem.demodulate, QAMModem, PSKModem"]}
{"id": "C119", "title": "Frame error probability of a convolutional code over the binary symmetric channel", "statement": "With independent uniform draws, sending a code word of L bits through bsc with crossover probability p and decoding it with viterbi_decode fails to return the message with probability at most C(L, e+1) p^(e+1), where e is the number of errors the code corrects; for the (5,7) code of the documentation and the default traceback depth: C(L,3) p^3.", "quantifier": "all messages and lengths, rate 1/n feedforward codes with checked distances, all p in [0,1], every probability space with independent uniform draws", "why_tests_cant": "a statement about probabilities over all messages and lengths", "anchors": ["commpy/channels.py: bsc", "commpy/channelcoding/convcode.py: conv_encode, viterbi_decode"]}
{"id": "C120", "title": "Error probability of QAM over Gaussian channels", "statement": "Modulating with QAMModem, sending the N symbols through awgn, or through a SISOFlatChannel without fading after set_SNR_lin with the modem's Es, and demodulating with hard decisions returns all bits except with probability at most 4 N exp(-rate snr / E), E being the mean symbol energy; hence the error probability tends to 0 when the SNR grows.", "quantifier": "all orders 4^h, bit lists, SNRs, code rates, probability spaces with standard normal draws (of any dependence)", "why_tests_cant": "a statement about probabilities over all messages and SNRs", "anchors": ["commpy/channels.py: awgn, SISOFlatChannel.propagate, _FlatChannel.set_SNR_lin, _FlatChannel.generate_noises", "commpy/modulation.py: QAMModem, Modem.modulate, Modem.demodulate"]}
{"id": "C121", "title": "Sum-product decoding of large LLRs in double precision", "statement": "In double precision (tanh rounds to 1 from T, results carry relative error 2^-53), ldpc_bp_decode with 'SPA' applied to one block of LLRs of magnitude at least 2T+1 (and at most 499-2T) decides by a vote: every check tells each bit the parity of the signs of the others with weight 500, whatever the magnitudes. In a code without cycles of length 4 in which every bit is in 2e checks, e sign errors are corrected in one iteration. The output LLRs are then not the a posteriori LLRs.", "quantifier": "all floating-point functions satisfying the contract, parity-check matrices with columns of weight at most 10^6, LLRs in the range, iteration numbers", "why_tests_cant": "all matrices, LLRs and roundings", "anchors": ["commpy/channelcoding/ldpc.py: ldpc_bp_decode"]}
{"id": "C122", "title": "Turbo decoding in double precision at high SNR", "statement": "turbo_decode in double precision returns the message when every symbol is received within delta of what was sent and the noise variance is small, for any number of iterations. (False from two iterations on: the LLRs become infinite in the first, inf - inf = nan afterwards, and all decisions are 0.)", "quantifier": "all floating-point arithmetics meeting the contract, recursive systematic codes of memory at most 20, messages, permutations, noise values, noise variances in [2^-900, 1/800], iteration numbers", "why_tests_cant": "all codes, messages, noise values, roundings and iteration numbers", "anchors": ["commpy/channelcoding/turbo.py: turbo_decode, map_decode"]}
{"id": "C123", "title": "Erasures and real samples in hard Viterbi decoding", "statement": "viterbi_decode(..., 'hard') applied to the output of bec treats erased bits (-1) as neutral: when only one message agrees with the bits that were not erased, it is returned. (False: an erased bit counts as a received 1, so exactly the erased zeros are errors; in general the decoder works on the parities of the truncated samples, and +-1 symbols all count as 1.)", "quantifier": "all balanced trellises, real sample sequences, traceback depths and memory contents; for the correction and the error probability all feedforward codes of rate 1/n, messages, erasure patterns and erasure probabilities", "why_tests_cant": "all codes, messages, erasure patterns and samples; a probability", "anchors": ["commpy/channelcoding/convcode.py: viterbi_decode, _compute_branch_metrics", "commpy/utilities.py: hamming_dist", "commpy/channels.py: bec"]}
{"id": "C124", "title": "The simulated bit error ratio estimates the bit error probability", "statement": "For a link whose chunks are independent and identically distributed, the ratio reported by link_performance is an unbiased and consistent estimate of the bit error probability: its mean is that probability for every send_max and err_min, and it tends to it almost surely when both grow. (Consistency holds; unbiasedness only without early stopping: stopping at err_min errors biases the estimate upwards, never downwards.)", "quantifier": "all links, worlds, probability spaces with independent identically distributed chunk errors, chunk sizes, and sequences of settings", "why_tests_cant": "a probability and a limit over infinitely many runs", "anchors": ["commpy/links.py: LinkModel.link_performance", "commpy/channels.py: bsc"]}
{"id": "C125", "title": "A simulated uncoded modem over Gaussian noise shows its true bit error probability", "statement": "For every modem with hard decisions over SISOFlatChannel without fading, the bit error ratio reported by link_performance at an SNR tends almost surely, when send_max and err_min grow, to the bit error probability of the constellation with a minimum-distance receiver and Gaussian noise of variance Es / (2 SNR) per component. That probability is Q(sqrt(2 SNR)) for BPSK, at most 2 Q(sqrt(2 SNR) sin(pi/M)) for M-PSK, at most 4 Q(sqrt(3 SNR/(M-1))) for M-QAM, and for every constellation between the nearest-neighbour lower bound and the union bound.", "quantifier": "all modems, SNRs, chunk sizes, sequences of settings, and almost all streams of fair bits and normal draws", "why_tests_cant": "a probability, a limit over infinitely many runs and all constellations", "anchors": ["commpy/links.py: LinkModel.link_performance", "commpy/channels.py: SISOFlatChannel", "commpy/modulation.py: Modem.modulate, Modem.demodulate, PSKModem, QAMModem"]}
{"id": "C126", "title": "Coded error probability: Viterbi decoding meets the union bound of the code", "statement": "For every linear trellis, every message encoded with termination in state 0 and every traceback depth, the probability that viterbi_decode does not return the first K message groups is at most the sum, over all error events of the code that start in them, of the pairwise error probability of their weight d: Q(sqrt(d)/sigma) for unquantized decoding of antipodal signals in white Gaussian noise, (2 sqrt(p(1-p)))^d for hard decoding over the binary symmetric channel; the same for every single message bit and the events that change it. For the (5,7) code with the default traceback depth this is a closed expression of order x^5, x = exp(-rate*SNR/2) or 2 sqrt(p(1-p)), for all message bits but the last five.", "quantifier": "all linear trellises that can be terminated, messages, traceback depths, noise levels, uninitialised memory; probability over the draws of the channel", "why_tests_cant": "a probability, over all messages, lengths and noise levels; the events are far too rare to observe", "anchors": ["commpy/channelcoding/convcode.py: conv_encode, viterbi_decode, _acs_traceback", "commpy/channels.py: awgn, bsc"]}
{"id": "C127", "title": "Coded error probability with soft decisions: encoder, modem, channel, soft demodulator and Viterbi decoder together", "statement": "For every linear trellis, every encoded message (with or without termination, some code bits possibly not transmitted), every traceback depth and every positive scale lam of the soft values, soft decisions lam*(+-1 + sigma z) are decoded by viterbi_decode('soft') with an error probability of the first K groups (of one message bit) that is at most the union bound over the error events within the received sequence, with x^d, x = exp(-1/(2 sigma^2)) + exp(-500/(lam sigma^2)), for an event of weight d (the second term is the price of the cut of the soft values at 500). For the whole chain conv_encode with the (5,7) code, PSKModem(2).modulate, channels.awgn, demodulate('soft', v), viterbi_decode('soft') with the default depth: with s = rate*SNR and x = exp(-s) + exp(-250 v s) < 1/2, whatever noise variance v > 0 is handed to the demodulator, a closed bound of order x^5 for every message bit but the last six, and for the whole message.", "quantifier": "all linear trellises that can be terminated, messages, traceback depths, noise levels, scales of the soft values, uninitialised memory; probability over the draws of the channel", "why_tests_cant": "a probability, over all messages, lengths, noise levels and (possibly wrong) noise variances; the events are far too rare to observe", "anchors": ["commpy/channelcoding/convcode.py: conv_encode, viterbi_decode, _acs_traceback", "commpy/modulation.py: PSKModem, Modem.modulate, Modem.demodulate", "commpy/channels.py: awgn"]}
{"id": "C128", "title": "Error probability of an 802.11 transmission with BPSK and QPSK", "statement": "For MCS 0, 1 and 2 of Wifi80211 (BPSK 1/2, QPSK 1/2, QPSK 3/4) the whole transmission of link_performance - encoder, puncturing, modulator, complex SISO channel without fading set to an SNR, soft demodulator with the channel's noise variance, depuncturing, Viterbi decoder with default depth - on every message of a whole number of puncturing periods returns the first K bits except with probability at most the union bound over the error events of the code as it is built, counting only transmitted bits with x^d for d of them, x = exp(-rate*SNR/bits_per_symbol) + exp(-500); likewise for every single bit. In particular the whole message of L bits is returned except with probability 2^(L+2) x.", "quantifier": "all messages, SNRs, uninitialised memory, for the three schemes; probability over independent normal draws of the channel", "why_tests_cant": "a probability over all messages and SNRs; rare events", "anchors": ["commpy/wifi80211.py: Wifi80211.link_performance, get_modem, _get_puncture_matrix, _get_trellis", "commpy/channels.py: SISOFlatChannel.propagate, set_SNR_dB", "commpy/modulation.py: PSKModem, Modem.demodulate", "commpy/channelcoding/convcode.py: puncturing, depuncturing, viterbi_decode"]}
{"id": "C129", "title": "Error probability of LDPC codes over the erasure channel and the symmetric channel", "statement": "A word of an LDPC code sent through bec with erasure probability p and decoded by ldpc_bp_decode with min-sum (LLR 0 for erased bits, at least as many iterations as bits) is returned except exactly when the erased positions contain a stopping set of the parity checks that meets a one of the word; so the block error probability is exactly the sum of p^|E| (1-p)^(n-|E|) over such E, at least p^|S| for each such stopping set S, and at most C(n,d+1) p^(d+1) for a code without cycles of length 4 whose bits are in at least d checks. Over bsc such a code with d >= 2e fails with probability at most C(n,e+1) p^(e+1). The bounds hold for the shipped designs 96.33.964 (words of the code) and 1440.720 (with its encoder, messages of any length).", "quantifier": "all parity checks without checks of a single bit, all words, probabilities, LLR magnitudes, numbers of blocks; probability over independent uniform draws", "why_tests_cant": "a probability over exponentially many erasure patterns, for all codes", "anchors": ["commpy/channels.py: bec, bsc", "commpy/channelcoding/ldpc.py: ldpc_bp_decode, triang_ldpc_systematic_encode, get_ldpc_code_params", "commpy/channelcoding/designs/ldpc"]}
{"id": "C130", "title": "ldpc_bp_decode accepts whole blocks only", "statement": "A number of LLRs that is not a positive multiple of the block length is refused with an error, for both algorithms and any number of iterations; in particular no call returns a number of bits that is not a multiple of the block length.", "quantifier": "all parity check matrices, block lengths, LLRs, iteration counts", "why_tests_cant": "all lengths, codes and LLR values", "anchors": ["commpy/channelcoding/ldpc.py:ldpc_bp_decode"]}
{"id": "C131", "title": "Min-sum decoding of fixed-point LLRs is exact in double precision", "statement": "If the LLRs are multiples of a step q (a power of two that divides 500), every bit takes part in at most w checks and 500(w^n+1) <= 2^53 q, then ldpc_bp_decode with 'MSA' and n iterations, computed in double precision, returns exactly the bits and LLRs of real arithmetic, or the same error; rounding has no influence.", "quantifier": "all parity check matrices, blocks, iteration counts and fixed-point LLRs within the bound, every rounding that leaves 53-bit numbers unchanged", "why_tests_cant": "all codes, LLR values, iteration counts and rounding modes", "anchors": ["commpy/channelcoding/ldpc.py:ldpc_bp_decode"]}
{"id": "C132", "title": "Error rate of mimo_ml over the MIMO flat fading channel", "statement": "With independent standard normal draws, the probability that mimo_ml, given out[a] and channel_gains[a] of a MIMOFlatChannel, does not return the a-th transmitted vector x is at most the sum over the other vectors x' of the mean of Q(|H(x-x')|/noise_std). After uncorr_rayleigh_fading(complex) and set_SNR_lin(snr, rate, Es) it is at most the sum of 1/2 (1 + rate snr |x-x'|^2/(4 nb_tx Es))^-nb_rx (full receive diversity); with one transmit antenna and two constellation points at distance D it is exactly 1/2 (1 - (1+2s)^(-1/2) sum_{k<nb_rx} C(2k,k) (s/(2(1+2s)))^k), s = 2 Es/(rate snr D^2), i.e. 1/2 (1 - sqrt(g/(1+g))), g = rate snr D^2/(4 Es), for one receive antenna.", "quantifier": "all numbers of antennas, constellations, messages, vector indices, noise levels; for the union bound all means and correlations", "why_tests_cant": "probabilities over continuous noise and fading", "anchors": ["commpy/channels.py:MIMOFlatChannel.propagate", "commpy/channels.py:_FlatChannel.set_SNR_lin", "commpy/channels.py:_FlatChannel.generate_noises", "commpy/modulation.py:mimo_ml"]}
{"id": "C133", "title": "viterbi_decode in double precision", "statement": "With every operation rounded (relative error u, order preserved, sums in any order): the sequence returned by viterbi_decode(..., 'unquantized') with a window covering the block has squared distance to the (padded) received samples at most ((1+u)/(1-u))^(T+n+2) times that of any other code sequence (for doubles and up to 2^30 steps: at most 1+2^-21 times), and with shorter windows each block comes from such a path of the steps seen; a message that is nearer than all others by more than that factor, in particular any noise-free code word with a unique message, is returned exactly. With 'soft' the returned sequence is most probable up to a factor exp(2E), E at most 2^-23 per received sample in doubles (T+n at most 2^20). With 'hard' the result is exactly that of integer metrics as long as the number of samples is at most 2^53.", "quantifier": "all balanced trellises, received sequences, depths, roundings that satisfy the contract, summation orders, contents of uninitialised memory", "why_tests_cant": "rounding errors of all received sequences; no bound on the block length", "anchors": ["commpy/channelcoding/convcode.py:viterbi_decode", "commpy/channelcoding/convcode.py:_acs_traceback", "commpy/channelcoding/convcode.py:_compute_branch_metrics", "commpy/utilities.py:euclid_dist"]}
{"id": "C134", "title": "hard demodulation in double precision", "statement": "With the subtractions (relative error u) and the absolute value (relative error v) rounded, demodulate(..., 'hard') returns for every symbol the label of a constellation point whose distance exceeds the smallest one at most by the factor (1+u)(1+v)/((1-u)(1-v)); it equals the exact decision where the nearest point wins by more than that factor; modulated bits are always recovered without noise; with points d apart, noise of magnitude up to d/2 less a relative 2^-51 (doubles) is tolerated, also when the points themselves are stored with rounding errors (PSK); over awgn the probability that any of N symbols is decoded wrongly, received symbols being computed with errors up to delta, is at most N exp(-(r-delta)^2 rate snr / E).", "quantifier": "all consistent modems, received symbols, roundings that satisfy the contract, noise draws, SNRs", "why_tests_cant": "all received symbols and roundings; a probability over a continuous space", "anchors": ["commpy/modulation.py:Modem.demodulate", "commpy/modulation.py:Modem.modulate", "commpy/channels.py:awgn"]}
{"id": "C135", "title": "soft demodulation in double precision is accurate", "statement": "With every operation of demodulate(..., 'soft', noise_var) rounded as IEEE doubles are (gradual underflow included), every output differs from the exact log-likelihood ratio by at most 2^-31, for any modem of at most 4096 points and noise variance of at least 2^-500, as long as for each received symbol and bit position there are points with either bit value at a squared distance of at most 650 noise variances; and if one point is closer than the others by noise_var (log m + 1) in squared distance the signs of the computed outputs are the bits of its label.", "quantifier": "all consistent modems up to 4096 points, received symbols, noise variances, roundings that satisfy the contract", "why_tests_cant": "all received symbols, constellations and roundings", "anchors": ["commpy/modulation.py:Modem.demodulate"]}
{"id": "C136", "title": "error probability of LDPC codes over BPSK and Gaussian noise", "statement": "Words of an LDPC code without cycles of length 4 in which every bit takes part in at least d checks are modulated with BPSK, sent through awgn and soft-demodulated with any positive noise variance; ldpc_bp_decode with min-sum and any positive number of iterations, given the negated outputs of the demodulator, returns all B words except with probability at most B (n Q((1+b)/s) + C(n,e+1) Q((1-a)/s)^(e+1)), s the standard deviation of the noise on the real part, for every e and 0 < a <= b with e b < (d+1-e) a. For the shipped design gallager/96.33.964 the probability is at most B 1188 exp(-1.62 R S), and for wimax/1440.720 with its own encoder B 259740 exp(-1.54 R S), R the code rate and S the SNR (linear).", "quantifier": "all codes, words, SNRs, rates, noise variances given to the demodulator, numbers of iterations", "why_tests_cant": "probabilities over real noise, for all words and SNRs", "anchors": ["commpy/channelcoding/ldpc.py:ldpc_bp_decode", "commpy/channels.py:awgn", "commpy/modulation.py:Modem.demodulate"]}
{"id": "C137", "title": "raised-cosine taps in double precision", "statement": "In double precision the taps returned by rcosfilter and rrcosfilter are the exact pulse at the returned times, up to rounding errors, for every length, roll-off, symbol period and sampling rate; in particular all taps are finite.", "quantifier": "all lengths, roll-offs, symbol periods, sampling rates, samples", "why_tests_cant": "the formulas have singular points, which the code recognises by comparing floating-point numbers; whether a sample misses them depends on all the parameters", "anchors": ["commpy/filters.py:rcosfilter", "commpy/filters.py:rrcosfilter"]}
{"id": "C138", "title": "LDPC encoding survives single-precision inversion", "statement": "triang_ldpc_systematic_encode returns systematic codewords for every code whose last columns are triangular with ones on the diagonal, although scipy computes the inverse of that int8 matrix in single precision.", "quantifier": "all codes with triangular parity columns, of any size, all messages, all ways of rounding", "why_tests_cant": "the entries of the inverse grow with the size of the code; whether the rounding ever changes a parity bit depends on all the checks", "anchors": ["commpy/channelcoding/ldpc.py:build_matrix", "commpy/channelcoding/ldpc.py:triang_ldpc_systematic_encode"]}
{"id": "C139", "title": "Zadoff-Chu sequences in double precision", "statement": "In double precision zcsequence still has constant amplitude and zero cyclic autocorrelation up to rounding errors, for every root, length and cyclic shift.", "quantifier": "all roots, lengths, shifts and lags; all admissible rounding of sine and cosine", "why_tests_cant": "the phase grows quadratically with the length and linearly with the shift, and so does its rounding error", "anchors": ["commpy/sequences.py:zcsequence"]}
{"id": "C140", "title": "Error probability of convolutionally coded links in double precision", "statement": "A message encoded with conv_encode ('term'), sent over bsc (hard), or antipodally over awgn (unquantized, or soft with the BPSK soft demodulator), and decoded by viterbi_decode with every metric, comparison and soft value computed in double precision, is returned except with a probability bounded by the union bound over the error events of the code, up to explicit factors that tend to one with the rounding unit; the same for each bit.", "quantifier": "all feedforward or feedback linear trellises without zero-output inputs from state zero, messages, traceback depths, noise levels, contents of uninitialised memory and all admissible rounding (order of summation included)", "why_tests_cant": "a probability over Gaussian noise and over all decoding decisions near ties, where rounding picks a different path; no finite set of simulations bounds it", "anchors": ["commpy/channelcoding/convcode.py:viterbi_decode", "commpy/channelcoding/convcode.py:conv_encode", "commpy/modulation.py:Modem.demodulate", "commpy/channels.py:awgn", "commpy/channels.py:bsc"]}
{"id": "C141", "title": "Exact bit and symbol error probability of QAM", "statement": "For QAMModem(M) with hard decisions over complex Gaussian noise at signal-to-noise ratio x, the probability of a wrong bit is exactly Cho and Yoon's formula with a = sqrt(3x/(M-1)) (for M = 16: 3/4 Q(a) + 1/2 Q(3a) - 1/4 Q(5a)), the probability of a wrong symbol is 1 - (1 - 2(1 - 1/sqrt M) Q(a))^2, and the error rate link_performance reports on an AWGN channel tends to the former as send_max and err_min grow. For PSKModem(M) the probability of a wrong symbol lies between Q(sqrt(2x) sin(pi/M)) and twice that; for every modem the bit error probability lies between the symbol error probability divided by the bits per symbol and the symbol error probability.", "quantifier": "all M = 4^h with h >= 1, signal-to-noise ratios, transmitted bits, chunk sizes and almost all sequences of random draws", "why_tests_cant": "a probability over continuous noise and a limit over ever longer simulations; Monte Carlo runs only estimate it", "anchors": ["commpy/modulation.py:QAMModem", "commpy/modulation.py:Modem.modulate", "commpy/modulation.py:Modem.demodulate", "commpy/links.py:link_performance", "commpy/channels.py:SISOFlatChannel"]}
{"id": "C142", "title": "A channel configured without an exception outputs numbers", "statement": "Whatever setters of SISOFlatChannel and MIMOFlatChannel are called, in whatever order: if no exception is raised, propagate returns numbers, not nan, for every message.", "quantifier": "all histories of operations, means, k-factors, correlation coefficients, SNRs, messages, draws and antenna numbers", "why_tests_cant": "all histories over continuous arguments; the failing arguments are boundary values", "anchors": ["commpy/channels.py:SISOFlatChannel", "commpy/channels.py:MIMOFlatChannel", "commpy/channels.py:MIMOFlatChannel.uncorr_rician_fading", "commpy/channels.py:MIMOFlatChannel.expo_corr_rician_fading"]}
{"id": "C143", "title": "Less noise of the same shape never causes an error", "statement": "If bits sent through modulate, noise and demodulate come back right, they come back right when the noise is scaled down: awgn with the same draws and a higher SNR, mimo_ml with any channel, and viterbi_decode with unquantized decisions (where the sent code word is a nearest one). So the symbol error probability of every constellation falls with the SNR, and tends to 0.", "quantifier": "all constellations, bits, noise sequences, noise levels, channel matrices, trellises", "why_tests_cant": "all noise values and levels; ties between points matter", "anchors": ["commpy/modulation.py:Modem.modulate", "commpy/modulation.py:Modem.demodulate", "commpy/modulation.py:mimo_ml", "commpy/channels.py:awgn", "commpy/channelcoding/convcode.py:viterbi_decode"]}
{"id": "C144", "title": "No receiver makes fewer errors than this library's", "statement": "For equally likely symbols and complex Gaussian noise of variance sigma^2 per component, no receiver whatever has a lower symbol error probability than demodulate with hard decisions; none has a lower error probability on a bit than the sign of the soft decision for noise_var = 2 sigma^2 (so the signs of the soft decisions have at most as many wrong bits, on average, as the hard decisions); and, for any channel matrix known to the receiver, none has a lower probability of a wrong vector than mimo_ml.", "quantifier": "all constellations, noise levels, bit positions, channel matrices, antenna counts and all (measurable) decision rules of the received values", "why_tests_cant": "ranges over all competing receivers and probabilities over a continuum of noise values", "anchors": ["commpy/modulation.py:Modem.demodulate", "commpy/modulation.py:mimo_ml", "commpy/channels.py:awgn"]}
{"id": "C145", "title": "No decoder makes fewer bit errors than map_decode", "statement": "When the code bits of a rate-1/2 encoder (started in state 0) are sent as +-1 with white Gaussian noise of variance v and input bit i has the log-likelihood ratio lam_i, no decoder whatever of the received values has a lower probability of a wrong bit i, or a lower expected number of wrong bits in the block, than map_decode(..., 'decode') with noise variance v and L_int = lam. With a systematic encoder every bit is therefore wrong with at most the probability Q(1/sigma) of uncoded transmission.", "quantifier": "all trellises with one input bit, block lengths, noise variances, a priori values, bit positions and all (measurable) decoders", "why_tests_cant": "ranges over all competing decoders and probabilities over a continuum of received values", "anchors": ["commpy/channelcoding/turbo.py:map_decode"]}
{"id": "C146", "title": "When the taps of the pulse shaping filters are numbers", "statement": "rcosfilter and rrcosfilter return finite taps for every non-zero symbol period and every roll-off, whatever their signs (the special cases of the code catch every zero denominator); the sign of the symbol period does not matter. For Ts = 0 they raise no exception: the tap at time 0, if the length is even, has its usual value and all others are nan. gaussianfilter returns finite taps for every non-zero alpha, and only nan for alpha = 0.", "quantifier": "all lengths, roll-offs, symbol periods and non-zero sampling rates", "why_tests_cant": "the zeros of the denominators depend on real parameters", "anchors": ["commpy/filters.py:rcosfilter", "commpy/filters.py:rrcosfilter", "commpy/filters.py:gaussianfilter"]}
{"id": "C147", "title": "mimo_ml in double precision", "statement": "With every operation rounded (entries of dot(h, x) with an error of at most g times the sum of the absolute products, differences and norms with relative errors u and w), mimo_ml returns a vector whose distance from the received vector exceeds the smallest one at most by the factor (1+u)(1+w)/((1-u)(1-w)) and by g times the norms of |h||x|; for doubles and n transmit antennas: the factor 1+2^-50 and g = (n+1) 2^-52. A vector that wins by more than this is what both the rounded and the exact computation return, and a transmitted vector is detected for every noise of norm r when the images of the others are farther away than 2r and these errors.", "quantifier": "all channel matrices, received vectors, constellations, antenna counts and roundings within the error bounds", "why_tests_cant": "all inputs and all evaluation orders and rounding behaviours of the linear algebra library", "anchors": ["commpy/modulation.py:mimo_ml"]}
{"id": "C148", "title": "The MIMO detectors agree with probability 1", "statement": "If the channel tells all vectors of constellation points apart (for instance a square invertible channel) and Gaussian noise is added, then with probability 1 there is one nearest vector only. So kbest with at least len(constellation)**(nb_tx-1) candidates and hard output returns what mimo_ml returns, and no receiver has a lower probability of a wrong vector than it; best_first_detector with a square channel and stacks that are never trimmed returns values whose signs are the bits of that vector, none of them 0.", "quantifier": "all channels, constellations, sent vectors, noise powers > 0, QR and sorting routines that keep their contracts, candidate numbers, stack sizes", "why_tests_cant": "almost sure equality and optimality among all measurable receivers; ties depend on the order of candidates, which differs between the detectors", "anchors": ["commpy/modulation.py:mimo_ml", "commpy/modulation.py:kbest", "commpy/modulation.py:best_first_detector"]}
{"id": "C149", "title": "kbest with all candidates gives exact max-log values", "statement": "kbest(..., K, noise_var, 'soft', demode) with K >= len(constellation)**nb_tx returns for every bit the difference of the smallest squared distance among ALL vectors of constellation points with bit 1 and the smallest among those with bit 0, over 2 noise_var (infinite if the bit is constant), so that its sign is the bit of every nearest vector; this holds whatever numpy.linalg.qr returns and however ties are sorted. Each value is within the logarithm of the number of vectors with bit 0 (below) or 1 (above) of the exact log-likelihood ratio of equally likely vectors in Gaussian noise.", "quantifier": "all channels with nb_tx <= nb_rx, constellations, received vectors, noise variances > 0, bit mappings, QR results, orders of ties", "why_tests_cant": "minimum over exponentially many vectors, for every channel and received value", "anchors": ["commpy/modulation.py:kbest", "commpy/modulation.py:max_log_approx"]}
{"id": "C150", "title": "kbest detects whatever the number types of its arguments", "statement": "kbest with enough candidates returns a maximum likelihood decision for every numeric type of y, h and constellation (Python numbers, real and complex arrays of single and double precision).", "quantifier": "all argument types, channels, constellations, received vectors, candidate numbers", "why_tests_cant": "combinations of types with all channels and received vectors; the loss of the imaginary parts is silent", "anchors": ["commpy/modulation.py:kbest"]}
