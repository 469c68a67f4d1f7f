# Formal model of CommPy in Lean 4

## 1. Layout

* `lean/Verif/Py.lean` – the fragment of Python/numpy semantics the models use: exceptions as values
  (`Py α = Except PyErr α`), indexing with negative wrap-around, slices, item assignment.
* `lean/Verif/Model/*.lean` – one file per modelled part of the library; every definition cites file and lines in `/repo`.
* `lean/Verif/Spec/*.lean` – small specifications the theorems are stated against (code words, likelihoods, posteriors, paths,
  a simulation relation, textbook belief propagation …). They do not import helper lemmas.
* `lean/Verif/Lemmas/*.lean` – helper lemmas only.
* `lean/Verif/Props/*.lean` – the property theorems `Cxx_…`, each with a concrete, non-trivial `example` meeting its hypotheses
  beside it. Short specifications (a one-line formula) are written in the statement or just above it. `Props/Instances*.lean` collect
  further concrete instances of theorems of other files.
* `MANIFEST.json` – property → theorems, regenerated by `tools/manifest.py` from the sources and `tools/notes.json`.
* `AXIOMS.txt` – the axioms of every manifest theorem, printed by Lean (`tools/axioms.py`).
* `seeded/LOG.jsonl` – seeded-bug experiments (`tools/seed.py` runs them in a scratch copy).

Naming: `…_partial` proves part of the English property; `…_refuted` proves that the code violates (a part of) it, on a concrete
witness or for all inputs. When a property is false of the code, the English text in `properties.jsonl` is kept, the refutation is
proved, and the theorem that says what the code does instead is proved next to it.

## 2. Trusted base

* Lean 4.33.0's kernel. Axioms: every theorem uses a subset of `propext`, `Classical.choice`, `Quot.sound` (`AXIOMS.txt` lists them
  one by one). No axiom is added, no compiled evaluation is used; `decide +kernel` is evaluated by the kernel.
* The reading of the Python code: the code is never run here, the tie between model and code is the citation on each definition.
* Contracts of libraries, which appear as hypotheses or parameters: numpy's fancy indexing, `argsort`, `linalg.qr`
  (`R` upper triangular, `QᴴQ = 1`, `Q R = H`), scipy's `sqrtm` (`S Sᴴ = R`) and `sparse.linalg.inv` (exact inverse, RuntimeError when
  singular), sympy's `GrayCode` (reflected binary code), numpy's generators (uniform draws in `[0,1)`, independent standard normal
  draws, permutations).

### Numbers

| in the code | in the model |
|---|---|
| Python `int` | `ℤ`/`ℕ`, exact |
| numpy integer arrays | unbounded integers; wrap-around is modelled only where it is observable: `power_to_tuple` (int64, C25) |
| floats | exact `ℝ`/`ℂ`/`ℚ`, except block lengths (`int(N/rate)`, `int(len*rate)`, `math.ceil(N/float(rate))`), which use `Float53`: 53-bit round-to-nearest-even without exponent range (C33, C39, C88) |
| `np.inf`, nan | `⊤` (`WithTop ℝ`), `none` (`Option ℝ`) where they are reachable |
| `np.empty` | an arbitrary array, a parameter ("junk") over which the theorems quantify |
| `while` | recursion with fuel, `.outOfFuel` when exhausted; theorems prove that it is not, or that no fuel is enough |
| random draws, callbacks | parameters; in C74–C75, C84–C86 random variables on a probability space |
| in-place modification | a heap, or the "after" value of the argument returned next to the result (C05, C41, C58, C74, C83) |

## 3. What is modelled

| file | modelled | not modelled |
|---|---|---|
| `utilities.py` | `dec2bitarray`, `decimal2bitarray` (with its LRU cache), `bitarray2dec`, `hamming_dist`, `euclid_dist`, `upsample`, `signal_power` | – |
| `sequences.py` | `pnsequence`, `zcsequence` (ints and floats: `zcsequencePy`; with rounding: `zcsequenceF`, C139) | – |
| `impairments.py` | `add_frequency_offset` | – |
| `filters.py` | all four filters, exact reals; with infinities and nan for `Ts = 0` or `alpha = 0` (`Model/FiltersNan`, C146); all also with every operation rounded to nearest (C137) | overflow and underflow |
| `channels.py` | `bec`, `bsc`, `awgn`, `_FlatChannel`, `SISOFlatChannel`, `MIMOFlatChannel` with all setters, `specular_compo`, correlation matrices | integer arrays with negative powers, dtype casting errors (nan for a zero mean or a negative radicand: `Model/ChannelsNan`, C142) |
| `modulation.py` | `Modem` (setter, modulate, hard and soft demodulate), `PSKModem`, `QAMModem`, `ofdm_tx/rx` (up to the TypeError they always raise), `mimo_ml`, `kbest`, `best_first_detector`, `bit_lvl_repr`, `max_log_approx`, `plot_constellation` (Model/ConstellationPlot: the objects handed to matplotlib) | rounding of `exp` (its underflow, infinities and nan: `Model/SoftFloat`) |
| `links.py` | `LinkModel.link_performance`, `link_performance_full_metrics`, module `link_performance`, `idd_decoder`; in `Model/SisoLink` complete links (modem + coder + SISO channel + generator) | callbacks that modify their arguments |
| `wifi80211.py` | MCS table, modem/puncturing/trellis choice, `link_performance` callbacks `modulate`, `_receiver`, `decoder_soft` | – |
| `channelcoding/gfields.py` | everything | – |
| `channelcoding/algcode.py` | `cyclic_code_genpoly` | float64 rounding of results ≥ 2^53 (a parameter `f64`, identity below) |
| `channelcoding/convcode.py` | `Trellis.__init__` (matrix feedback and legacy integer feedback, any k), `conv_encode`, `_compute_branch_metrics`, `_acs_traceback`, `viterbi_decode`, `puncturing`, `depuncturing` , `visualize`, `visualize_fsm` (Model/TrellisPlot: the objects handed to matplotlib) | the rendering by matplotlib |
| `channelcoding/interleavers.py` | `interlv`, `deinterlv` on arbitrary permutations | the generator behind `RandInterlv` |
| `channelcoding/ldpc.py` | `write_ldpc_params`, `get_ldpc_code_params` at character level, `build_matrix`, `triang_ldpc_systematic_encode`, `ldpc_bp_decode` | file system (mode `'x'`), int32/int8 overflow; the single-precision inverse is represented in `Model/LdpcFloat32` (C138) only |
| `channelcoding/turbo.py` | `turbo_encode`, `_compute_branch_prob`, `_backward_recursion`, `_forward_recursion_decoding`, `map_decode`, `turbo_decode` | – |
| `examples/`, docs, tests | the trellises of `examples/conv_encode_decode.py` (C110 theorems about exactly these arguments) | the rest |

## 4. Simplifications, part by part

* **Utilities.** `lru_cache` is modelled once, in `Model/Cache` (C05), and ignored elsewhere (C05 justifies it).
* **Trellis/encoder.** int8 wrap-around in `einsum` changes no parity; `einsum(..., out=)` copies overlapping operands.
  A generator longer than its register reads uninitialised entries (C31_generator_wider_than_memory). `int(N/rate)` is a parameter
  `outLen` with the hypothesis that it is the exact length; C33_double_outLen proves the hypothesis from IEEE rounding for all small rates
  and C33_double_refuted shows a rate for which it fails.
* **Viterbi.** Path metrics are extended reals; stale entries of the traceback memory are a parameter; the 'hard' metric truncates
  samples to integers, as the code does. `lru_cache` on the branch metrics is not represented (the function is pure).
* **Wi-Fi.** `depuncture` length is exact. The generator literals `133, 171` are decimal in the code (C47).
* **Modulation.** `log2` of a power of two is exact. `demodulate('soft')` follows the convention "positive = bit 1", whereas
  `max_log_approx` and `best_first_detector` use "positive = bit 0"; both are modelled as written. `insort` is linear insertion
  before the first larger element to the right (what bisect does on a sorted list). `kbest` is modelled for constellations whose dtype
  survives in Model/Mimo; the other dtypes are in Model/KbestTyped (C150).
* **Channels.** Matrices have type-level shapes; wrong shapes are errors of the setters. Zero mean in the Rician setters is accepted by the code and yields nan:
  theorems assume a non-zero mean. `t = 0` with integer type raises in numpy and is excluded.
* **Links.** `LinkModel.rate` is overwritten by `link_performance`, as in the code. `np.random.choice` is a callback that returns bits.
  The receive buffer of a MIMO link is `ceil(N/float(rate))` long, in doubles (C88).
* **LDPC.** Text is a list of characters; the exact text of the design file is produced and parsed. A trailing single LLR is broadcast: parameter `oneLeft` of `bpDecode`, computed in `Model/LdpcLeft` (C130).
  The sign bit of a nan depends on the platform: parameter `nanSign`. −0.0 and infinite input LLRs are excluded.
  Values are exact in `Model/LdpcDecode`; saturation of `tanh`/`atanh` and rounding are represented in `Model/SpaFloat` (C121 only), rounding of min-sum in `Model/MsaFloat` (C131).
  When the hard decision is already a codeword the LLRs returned are the channel LLRs.
* **Turbo.** In `Model/Turbo` (exact arithmetic) a division by a zero sum, which gives nan in numpy, is `zeroDivisionError` and proved unreachable; underflow, infinities and nan are in `Model/TurboFloat` (C122). `turbo_encode`
  passes `'rsc'` as the termination string, which is neither `'cont'` nor `'term'`, so no tail is added to the first stream
  and the third stream keeps a tail (C50). With zero iterations `turbo_decode` reads an unbound variable (C53).

## 5. Properties: model and proof method

| id | model | specification | proof |
|---|---|---|---|
| C01–C04 | `Model/Utilities` | positional value of a bit list | loop invariant of the `while` loop with its negative index; induction on width |
| C05 | `Model/Cache`: heap, LRU table, call/mutate operations | the pure function | invariant over all histories and cache sizes |
| C06–C09 | `Model/Utilities`, `UtilitiesReal` | counts / sums | induction, algebra |
| C10–C11 | `Model/Interleavers` | permutation | lemmas on permutations of `range n` |
| C12–C13, C96 | `Model/Sequences` | linear recurrence; primitive polynomial over GF(2) | invariant register = output window; pigeonhole; the shift operator annihilates the output through the mask polynomial |
| C14–C16 | `Model/Sequences` | ZC formula | geometric sums of roots of unity |
| C17–C20 | `Model/Impairments`, `Filters` | formulas | algebra, limits for the removable singularities |
| C21–C28 | `Model/GFields` | `(ZMod 2)[X]` modulo the table polynomial, Mathlib's `minpoly`-style characterisation | homomorphism from integers; primitivity by kernel-computed powers for the 16 entries and the factorisation of 2^m − 1; invariants of the coset loop |
| C29 | `Model/Algcode` | divisors of x^n − 1 | subsets of cosets ↔ squarefree factorisation |
| C30 | `Model/GFields` | exact text | induction on the bits |
| C31–C36 | `Model/Convcode`, `Float53` | convolution over GF(2), `Trellis.Linear` | state = last inputs; linearity by induction over time; rounding analysis |
| C37 | `Model/Puncturing` | filter by the periodic pattern | invariant on `shift` |
| C38–C45 | `Model/Viterbi`, `BranchMetrics` | path cost over all input sequences | dynamic programming induction; balancedness of the trellis; uniqueness |
| C46–C49 | `Model/Wifi` | IEEE tables | finite tables lifted to all lengths; composition of C31–C42, C61–C67 |
| C50–C53, C91–C92 | `Model/Turbo` | sums over all input sequences of Gaussian densities (`gaussianPDFReal`) | α/β proportional to path sums; Griffiths inequality on linear codes for the signs |
| C54–C55 | `Model/LdpcFile` | 0/1 matrix | text round trip by induction on lists |
| C56–C57 | `Model/LdpcCode` | H c = 0 mod 2 | matrix algebra, integrality |
| C58–C60, C89–C90 | `Model/LdpcDecode` | textbook BP (`Spec/Bp`), exact posteriors | loop induction, bisimulation for symmetries, tanh rule |
| C61–C67, C93 | `Model/Modulation` | nearest point; sums of Gaussian densities; Gray adjacency | argmin lemmas, bit lemmas, induction over setter histories |
| C68–C72 | `Model/Mimo`, `BestFirst` | minimum over all vectors | table indexing, QR isometry, invariant of the stack search |
| C73 | `Model/Modulation` (`ofdm_*`) | – | TypeError for every non-empty input |
| C74–C79, C84–C87 | `Model/Channels` | probability, covariance, state invariants | measure-theoretic integrals over independent draws; induction over histories |
| C80–C83, C88 | `Model/Links` | `Spec/Links` simulation relation | loop invariants, refinement |
| C94–C95 | `Model/Links`, `Model/SisoLink` | zero-error result rows | invariant "every transmission is decoded"; SNR threshold from the minimum distance and the bound on the draws; composition of C49, C80, C93 |
| C97 | `Model/LimitDen` (CPython's `limit_denominator`), `Float53` | closest fraction with bounded denominator | loop invariant on convergents; neighbours in the Farey sense |
| C98 | `Model/TrellisLegacy` (integer feedback, any number of inputs, numpy broadcasting and slice errors) | the matrix construction | loop invariant over the registers; shape mismatch at the second register; concrete refutations |
| C99 | `ldpc_bp_decode` (Model/LdpcDecode) on cycle-free Tanner graphs | `Spec/Tanner`: Mathlib `IsAcyclic` graph, posterior as a sum over all codewords | message = log-ratio of subtree partition functions (induction on rounds, leaf removal); LLR clip never active by the sum bound |
| C100 | `bitarray2dec`, `GF.__mul__`, `Trellis.__init__`, `modulate` on typed numpy scalars (Model/NpTyped), NumPy 1 / NumPy 2 (NEP 50) promotion | exact-integer models of the other files | loop invariant on the typed accumulator; both rule sets characterised for all lengths |
| C101 | `cyclic_code_genpoly` on typed scalars (Model/NpTyped) | divisors of x^(2^m-1)-1 in (ZMod 2)[X], irreducibility | reduces to C29's loop where conversions are exact; selection of one minimal polynomial ⇔ irreducible |
| C102 | `Trellis.visualize` as the list of objects handed to matplotlib (Model/TrellisPlot) | `Spec/TrellisPlot`: columns, rows, smallest input, arrows | explicit form of the drawing; counting arrows by distinct next states |
| C103 | `Trellis.visualize_fsm` (Model/TrellisPlot) | `FsmArrowOK`: distances to circle centres, output, colour | per-arrow lemma; mapM over states and inputs |
| C104 | `zcsequence` (Model/Sequences) | squared modulus of the DFT sum and of the correlation sum | `chirp_sum`: |Gauss sum|² = N by shifting the double sum, geometric sums |
| C105 | filters (Model/Filters) | `rcSpectrum`, `rrcSpectrum` (Spec/Filters), Lebesgue integrals | closed forms of the cosine integrals, limits at the special times, Fourier inversion and self-adjointness of the transform (α > 0), dominated convergence (α = 0) |
| C106 | `mapDecode`, `turboDecode` (Model/Turbo), `viterbiHard` (Model/Viterbi) | sign flips by the codeword bits; XOR of symbols | change of variables in the posterior sums (linearity), induction on iterations, C38 with Hamming distance invariant under adding a codeword |
| C107 | `maxLogApprox` (Model/Mimo), `demodulate` (Model/Modulation) | `candMass`: total Gaussian likelihood of candidates | log-sum-exp bounds from C72 and C67; half of the labels have a given bit (XOR bijection) |
| C108 | `convEncode`, `modulate`, `demodulate`, `viterbiDecode`, `ldpcEncode`, `ldpcBpDecode` | codewords, distances | composition of C93_soft with C40_continuous_soft, C56/C58 |
| C109 | `Model/SoftFloat`: the soft branch of `demodulate` with an exponential that underflows, zero noise variance, infinities and nan (`Option EReal`) | `DoubleExp` (zero below -746, positive from -745 on), `labelsWith` | sums of non-negative doubles by label, the quotient and logarithm case by case; default call refuted for every input |
| C110 | Viterbi decoder (Model/Viterbi), encoder, trellis construction | code weight of input sequences (`ColumnDistance`, `AwayWeight`: all sequences of given length), Hamming distance `diffCount` | a competing survivor differs from the sent path on a segment (`bestPath_segment`); its cost is compared there, linearity reduces differences to paths from state 0; column distances of concrete codes by a dynamic program proved sound and evaluated by the kernel |
| C111 | `plot_constellation` down to the arguments of scatter/text (Model/ConstellationPlot) | `modulate` of the text gives the point; Hamming distance of texts | a point is its own nearest point; Gray property from C64/C65 |
| C112 | `ldpc_bp_decode` MSA (Model/LdpcDecode) | the word itself; counts of checks per bit, checks hit by unreliable positions | one iteration: every total has the sign of the word (min-sum bound), then the stop test; a word found before the first iteration must be the same because two words differ in two positions of every check they differ in |
| C113 | the same | stopping sets | invariant: after k iterations every erasure within peeling depth k is recovered with the right sign, no message is wrong; a stopping set sends and receives only 0 |
| C114 | the four shipped files as generated Lean data (Designs/, tools/gen_designs.py; tools/check_designs.sh compares them with the shipped bytes) read by the model of `get_ldpc_code_params` | code words = zero syndrome for the file's matrix | kernel-checked certificates: row operations proving the determinant ±1 (WiMAX) or odd (96.33.964), a null vector (96.3.963), bit masks for 4-cycles and degrees; then C56, C112 |
| C115 | `Trellis.__init__`, `conv_encode` (Model/Convcode), integer feedback too | Spec/Recursive: difference equations, product of a polynomial and a sequence over GF(2) | the shift registers hold past register values; uniqueness by strong induction; multiply the output equation by f; comparison of coefficients with an impulse |
| C116 | `upsample`, `rcosfilter`; `numpy.convolve` as the sum it is defined by | symbol i at sample N/2 + L*i | zero crossings of the raised cosine at multiples of Ts (C18), only one nonzero term in the sum |
| C117 | `mimo_ml`, `kbest`, `best_first_detector` (Model/Mimo, Model/BestFirst) | the transmitted vector; energies and distances | triangle inequality; Bessel's inequality for the orthonormal factor; a path that leaves the transmitted one costs more than the whole noise, so the transmitted path is first in every round |
| C118 | conv_encode, viterbi_decode, Modem (existing models) composed | distances of received to transmitted symbols, counts | nearest neighbours of a displaced symbol are within twice the displacement; Gray labels; C110 |
| C119 | bsc, conv_encode, viterbi_decode | Spec/Random, independence, measure of the failure event | number of flips = Hamming distance; union bound over sets of e+1 positions; C110 |
| C120 | awgn, SISO channel, QAM modem | Spec/Random, measure of the failure event | decision regions of QAM are squares of side 2; Chernoff bound for normal tails; union bound |
| C121 | ldpc_bp_decode 'SPA' with parameters for the floating-point functions (Model/SpaFloat) | flooding schedule with the rule `voteRule`; number of wrong signs | saturation makes every check message exactly ±500; error of the sums bounded by 10^-6 inductively; counting hit checks (C112 lemmas); with exact functions the model equals Model/LdpcDecode (spaDecodeF_exact) |
| C122 | turbo.py:62-333 with IEEE infinities and nan, rounding as a parameter (Model/TurboFloat) | `DoubleLike` contract and `HighSnr` (Spec/TurboFloat); BPSK amplitudes | invariant of the two recursions: the branch sent has a probability ≥ 2^-600, every other underflows to 0; then the LLRs are ±∞ with the right signs, their differences nan, and nan propagates; with exact functions the model equals Model/Turbo (C122_exact) |
| C123 | `viterbi_decode` 'hard' on arbitrary real samples: `astype(int)`, two's complement `bitwise_xor` (Model/BranchMetrics, UtilitiesReal) | `hardBit` (parity of the truncated sample) | the metric of a block is the Hamming distance to the parities plus an offset that does not depend on the code word; simulation of the whole decoder under such a shift; then C110 for the correction, C119's tail bound for the probability |
| C124 | `link_performance` (Model/Links) with a random initial world | `ChunkErrors`, `ReportsBer` (Spec/MonteCarlo) | number of chunks sent = first index where the loop condition fails; it tends to infinity with the settings, then the strong law of large numbers; bias: telescoping over the steps skipped by stopping early, each has non-negative mean because the next chunk is independent of the errors so far; closed instance for a link over `bsc` (blocks of independent draws are iid, Lemmas/RandomBlocks) |
| C125 | `uncodedLink` (Model/SisoLink) with a generator that delivers two given streams (`streamRng`) | `nearestLabel`, `labelDiff`, `bitErrorProb`, `qFunction`, `FairDraws` (Spec/ModemError) | errors of a chunk = sum over its symbols of the label differences; measurable functions of blocks of independent draws, hence iid (Lemmas/RandomBlocks); mean by independence of labels and noise; then C124_consistent. Bounds: pairwise error probability by projecting the noise on a direction; PSK: a symbol error implies an error towards one of the two neighbours (sinusoid argument); QAM: error box of C120 |
| C126 | `viterbi` with hard and unquantized metric, `awgn`, `bsc` | `errorEvents`, `codeWeight`, `unionBound`, `bitBound` (Spec/ErrorEvents) | a wrong decoded group shows an error event whose metric is not worse than that of the sent path (Lemmas/ViterbiEvent: survivor and sent path, from their last common state before the group to their first common state after it, to the end of the traceback window or of the trellis); by linearity the loss is a sum over the places where the code sequence of the event is 1; these losses are independent, so the pairwise probability is exact (normal sum) or a Chernoff bound (Bhattacharyya); union bound. Closed forms: potentials on the states (super-solutions of the transfer function equations), by induction over the length of the events |
| C127 | `viterbi` with the soft metric, `pskModem 2`, `modulate`, `awgn`, `demodulate` (soft) | as C126, and the events are cut at the end of the received sequence because the padding of the soft decoder is an erasure (loss 0) | the loss of an event is the clipped soft value; Chernoff bound with `exp(-s clip x) <= exp(-s x) + exp(-500 s)`; soft value of a BPSK symbol `-4 Re y / v` from C67; closed form from the potentials of C126 |
| C128 | `wifiTransmit`, `wifiReceive`, `pskModem 2/4`, `Siso.step/propagate`, `demodulate` (soft) | the soft values of QPSK are exactly linear in the sum and difference of real and imaginary part | rotated independent Gaussian draws are independent (zero covariance of jointly Gaussian variables); depuncturing (C37) makes erasures; union bound C127_general for the unterminated, punctured encoding |
| C129 | `bec`, `bsc`, `bpDecode .msa`, `ldpcEncode`, design files | what is outside the largest stopping set of erased positions can be peeled in order; messages inside stay 0; early termination can only differ from the word on a stopping set | C113_exact, then the law of the erased set from independent uniform draws; stopping sets of codes without 4-cycles have more than d positions |
| C130 | `Model/LdpcLeft` (`oneLeftOver`, `bpDecodeAny`): every number of LLRs, including the numpy broadcast of a single left over LLR | which lengths are accepted | refusal by cases on the remainder; the accepted exception computed exactly |
| C131 | `Model/MsaFloat` (`msaDecodeF`): min-sum decoder with a rounding after every addition | equality with `bpDecode .msa` | invariant: after k iterations both decoders hold the same messages, multiples of q of at most 500·w^k |
| C132 | `Mimo.propagate` with `mimoMl` on the stored gains (`detectVector`) under independent normal draws | mean of `qFunction`; closed forms | pairwise error = one-dimensional Gaussian tail given the gains (independence, Fubini); orthogonal Gaussian combinations; polar coordinates and Erlang distribution by induction on antennas; Gaussian half-moments |
| C133 | the same `viterbi` on the type `Dbl fl` of doubles, whose addition is rounded; rounded branch metrics (`Model/ViterbiFloat`), contract `IsRounding`, `FlSum` (sums in any order), no overflow or underflow | `C133_unquantized`, `C133_window`, `C133_double`, `C133_margin`, `C133_noise_free`, `C133_soft`, `C133_soft_double`, `C133_hard` | add-compare-select only needs a monotone addition, so the survivor minimises the left-to-right rounded cost; induction bounds that cost; strictly monotone embedding of integers; `rnd53` (rounding to 53 bits) proved to meet the contract |
| C134 | `demodHardF` (`Model/ModemFloat`): the code of hard demodulation with an abstract subtraction and `hypot`; contract `DemodAccuracy` | `C134_nearest`, `C134_margin`, `C134_noise`, `C134_roundtrip`, `C134_qam`, `C134_psk`, `C134_awgn` | two-sided bound of the computed distance; triangle inequality; the modulus of complex Gaussian noise by polar coordinates (`circle_tail`), union bound |
| C135 | `demodSoftR` (`Model/SoftRound`): the loops of soft demodulation with abstract rounded operations; contract `SoftAccuracy` | `C135_llr`, `C135_bounded`, `C135_sign` | error analysis: exponent, term (near and far points), invariant of the rounded accumulation, quotient and logarithm; compared with `demodulate` by C67 |
| C136 | models of `modulate`, `awgn`, `demodulate('soft')`, `ldpc_bp_decode` composed (`Props/LdpcAwgn`) | `C136_chain`, `C136_gallager964`, `C136_wimax1440` | the noise vectors that C112_girth excludes, Gaussian tails (`q_half`) and a union bound over sets of e+1 positions (`count_tail`); blocks by `returns_all` |
| C137 | `rcosfilterF`, `rrcosfilterF` (`Model/FilterFloat`): every operation rounded to nearest (`Spec/Nearest`), np.sin/np.cos within 4 ulp (`Spec/FilterFloat`), division by zero = infinity or nan; no overflow, no underflow | `C137_rcos_partial`, `C137_rrcos_partial`, `C137_rcos_refuted`, `C137_rrcos_refuted` | relative errors on a logarithmic scale (`Lemmas/RelErr`), uniform bounds of the pulse (`cos_quot`; for rrcos its spectrum, C105); the counterexamples by exact evaluation of the roundings (`fl_div`), irrationality of π and divisibility of the numerator by 2^-53 |
| C138 | `generatorMatrixF32`, `ldpcEncodeF32` (`Model/LdpcFloat32`): the inverse consists of single-precision numbers with a relative error of at most 50% (`Spec/Float32`), sums and products rounded, exact on representable results | `C138_refuted`, `C138_small_partial` | single-precision numbers of magnitude at least 2^25 are even; for the checks i, i-1, i-3 the inverse contains the Narayana numbers, which exceed 2^26 from index 50 on and of which no three in a row are even; otherwise all partial sums are integers within 2^24, hence exact |
| C139 | `zcSampleF`, `zcsequenceF` (`Model/ZcFloat`): every product rounded to nearest, division by the rounded reciprocal, sine and cosine within 4 ulp (`Spec/FilterFloat`); `zcsequencePy` for arguments of any type | `C139_samples`, `C139_autocorrelation`, `C139_refuted` (and `C14_arguments`) | the phase has at most six roundings (`Lemmas/RelErr`); the library's sine and cosine stay close to the unit circle whatever the phase; C15 for the exact sequence; the counterexample by exact evaluation with the 20-digit bounds of π |
| C140 | `viterbiDecodeF` (`Model/ViterbiFloat`), `demodSoftR` (`Model/SoftRound`), `convEncode`, `awgn`, `bsc`; noise exact, decoder and soft demodulator rounded | `C140_general`, `C140_soft`, `C140_57_bpsk`, `C140_unquantized`, `C140_57_awgn`, `C140_hard`, `C140_57_bsc` | the decoder in doubles reads its bits off paths whose exact cost exceeds the minimum by at most twice the accumulated error (`NearMin`, `Lemmas/ViterbiNear`); each wrong bit therefore shows an error event whose metric gain is at least minus that error; Chernoff bound with slack for each event; union over events as in C126 / C127; large noise samples (where the demodulator's exponentials underflow, or relative errors become absolute ones) are cut off by the Gaussian tail |
| C141 | `qamModem`, `modulate`, `demodulate` (hard), `linkPerformance`, `SISOFlatChannel`; specification `qamBitError`, `symbolErrorProb` in `Spec/QamError` | `C141_qam_bits`, `C141_qam16`, `C141_qam64`, `C141_qam_symbols`, `C141_symbol_api`, `C141_link`, `C141_bits_symbols`, `C141_psk`, `C141_psk_bits` | the constellation of `QAMModem(4^h)` is a grid of two Gray-labelled amplitude axes (`qam_grid`); a bit of a Gray label flips at known thresholds, so the probability that it is read wrong is an alternating sum of Q-values (`gray_error`, `axis_error`); summation over the levels gives Cho and Yoon's coefficients (`qam_formula`); a symbol is right when both axes stay in their interval (`grid_ser`); the link by the strong law of C125 |
| C142 | `Model/ChannelsNan`: channels.py with nan (setters, k_factor, propagate, histories of operations) | `C142_regular`, `C142_siso_regular`, `C142_uncorr_rician`, `C142_expo_corr_rician`, `C142_output`, `C142_siso_output`, `C142_history`, `C142_zero_mean`, `C142_negative_k`, `C142_zero_correlation`, `C142_snr`, `C142_siso_negative_variance`, `C142_k_factor`, `C142_refuted` | simulation between the model with nan and the model of numbers for arguments in the documented range; case analysis of the setters (comparisons with nan are false, so the energy check passes); sums are nan when a term is |
| C143 | uses `Model/Modulation`, `Model/Mimo`, `Model/Viterbi`, `Model/Channels`, `Spec/ModemError`, `Spec/QamError` | `C143_symbol`, `C143_modem`, `C143_probability`, `C143_vanishes`, `C143_bits_vanish`, `C143_awgn`, `C143_ml`, `C143_viterbi`, `C143_refuted` | differences of squared distances are affine in the noise level and nonnegative at 0; first index on ties; dominated convergence |
| C144 | uses `Model/Modulation`, `Model/Mimo`, `Spec/ModemError`, `Spec/QamError`, `Lemmas/Bayes` | `C144_symbols`, `C144_bits`, `C144_soft_hard`, `C144_ml`, `C144_guess`, `C144_half` | Bayes decision theory: the received law has density exp(<m,a>-|a|^2/2) with respect to the noise law; a rule that maximises the sum of densities of its class is pointwise best |
| C145 | uses `Model/Turbo`, `Spec/Turbo`, `Lemmas/Bayes` | `C145_map`, `C145_map_block`, `C145_uncoded`, `C145_prior` | Bayes decisions with prior weights; `map_decode` decides for the larger of the two sums of joint densities (C52) |
| C146 | `Model/FiltersNan`: the filters over numpy's values (finite, infinite, nan; exact finite parts, zeros without sign) | `C146_rcos`, `C146_rrcos`, `C146_gauss`, `C146_finite`, `C146_signs` | 1 - (k a t/Ts)^2 = 0 only at the two special times; sin and cos of an infinity or nan are nan |
| C147 | `Model/MimoFloat`: `mimo_ml` with arbitrary operations; contract `MlAccuracy` | `C147_nearest`, `C147_margin`, `C147_noise`, `C147_dot`, `C147_contract`, `C147_double` | normwise error analysis (triangle inequality in l2); the loop for `dot` satisfies the contract with g = (1+u)^(n+1) - 1 by induction; rounding to 53 bits |
| C148 | uses `Model/Mimo`, `Model/BestFirst` | `C148_unique`, `C148_kbest`, `C148_kbest_optimal`, `C148_best_first`, `C148_regular` | the points at equal distance from two images are a hyperplane, a null set of the product of Gaussian measures (Fubini); then C68, C69, C70, C144 |
| C149 | uses `Model/Mimo` | `C149_values`, `C149_sign`, `C149_gap` | induction on the coordinates: without truncation every vector is among the candidates (`kCands_complete`); then C72 |
| C150 | `Model/KbestTyped` (flags: real input arrays, first point of type complex) | `C150_ml_partial`, `C150_real_parts`, `C150_no_imaginary`, `C150_type_error`, `C150_refused`, `C150_refuted` | case distinction on the flags; then C69 for the constellation that reaches the loop |

Every property is expressed in the model; none is "not applicable". The status of each and what is missing is in `MANIFEST.json`.
Statements that cannot be made in this model at all: floating-point accuracy of the real-valued algorithms (only block lengths are done in
rounded arithmetic), statistical quality of numpy's generators, timing and memory, pictures.
