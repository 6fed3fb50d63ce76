{"id": "C01", "title": "BitStream is a faithful growable bit sequence", "statement": "After any history of push, push_u32, pad, pad_mult, concatenation (+, +=), in-range set and clear on a BitStream, lon() and operator[] report exactly the sequence of bits a plain list of booleans would hold after the same history; no operation of such a history throws.", "quantifier": "every finite history of operations, every bit value, every length", "why_tests_cant": "The packed byte buffer grows at byte boundaries and keeps slack bits; a test samples a few lengths, while the claim is about every interleaving of growth, overwrite and clear.", "anchors": ["core/src/telecom/bitstream.cc: BitStream::push, set, operator[], pad, pad_mult, push_u32, operator+, operator+=, clear", "core/include/tsd/telecom/bitstream.hpp: BitStream"]}
{"id": "C02", "title": "BitStream reading is FIFO and complete", "statement": "Starting from restart(), n calls to pop() return the first n pushed bits in order, eof() becomes true exactly after lon() pops and not before, and pop_u32() returns the very 32-bit value that push_u32() appended, whatever the bit alignment of what precedes and follows it.", "quantifier": "every stream content, every 32-bit value, every alignment", "why_tests_cant": "2^32 values times all alignments times all surrounding contents.", "anchors": ["core/src/telecom/bitstream.cc: pop, eof, restart, push_u32, pop_u32"]}
{"id": "C03", "title": "BitStream accesses never leave the buffer", "statement": "operator[] and set with any unsigned index either touch a byte inside the allocated buffer or raise an error; they raise an error exactly when the index is at or beyond 8*ceil(lon()/8) for a stream whose buffer is the size the class maintains, and set changes no other bit.", "quantifier": "every reachable BitStream and every 32-bit index", "why_tests_cant": "Boundary behaviour must hold at every size.", "anchors": ["core/src/telecom/bitstream.cc: set, operator[], resize, push"]}
{"id": "C04", "title": "BitStream equality compares bit sequences", "statement": "a == b is true exactly when a and b have the same length and the same bits.", "quantifier": "every pair of BitStreams reachable through the API", "why_tests_cant": "Equality is over pairs of unbounded sequences and their construction histories; the code compares packed buffers only.", "anchors": ["core/src/telecom/bitstream.cc: operator=="]}
{"id": "C05", "title": "Constant and alternating streams have the requested length", "statement": "zéros(n), uns(n), altern(n) and BitStream(n) return a stream of exactly n bits with the documented content (all 0, all 1, alternating, all 0).", "quantifier": "every n >= 0", "why_tests_cant": "All n.", "anchors": ["core/src/telecom/bitstream.cc: zéros, uns, altern, BitStream(entier)"]}
{"id": "C06", "title": "Hamming distance is a metric and counts differing positions", "statement": "dst_Hamming throws exactly on different lengths; on equal lengths it is the number of differing indices, symmetric, zero iff all bits are equal, and satisfies the triangle inequality.", "quantifier": "every pair/triple of streams", "why_tests_cant": "Universally quantified algebraic laws.", "anchors": ["core/src/telecom/bitstream.cc: dst_Hamming"]}
{"id": "C07", "title": "Binary symbol mapping is lossless", "statement": "symdemap_binaire(symmap_binaire(x,k),k) returns x followed by the fewest zero bits that make its length a multiple of k, every symbol produced lies in [0,2^k), and the number of symbols is ceil(lon/k); k <= 0 is rejected. Conversely mapping the demapped symbols returns them unchanged.", "quantifier": "every bit stream and every k >= 1 (k <= 30)", "why_tests_cant": "All lengths not multiple of k, all k.", "anchors": ["core/src/telecom/modulations.cc: symmap_binaire, symdemap_binaire"]}
{"id": "C08", "title": "Differential coding round-trips", "statement": "diff_decode(diff_encode(x)) restores x (up to the initial reference bit), and is insensitive to a global inversion of the encoded stream.", "quantifier": "every bit stream", "why_tests_cant": "All streams and lengths.", "anchors": ["core/src/telecom/telecom.cc: diff_encode, diff_decode"]}
{"id": "C09", "title": "LFSR generator obeys its linear recurrence and is invertible", "statement": "In low-bit output mode, every output bit produced after the first reglen bits is the XOR of the tapped earlier outputs prescribed by the polynomial, the first reglen outputs are the bits of the initial state, and distinct states have distinct successors (tap on the lowest bit) so the sequence is purely periodic.", "quantifier": "every register length 1..16, polynomial with constant term, initial state and number of steps", "why_tests_cant": "Unbounded step counts and all states.", "anchors": ["core/src/telecom/prbs.cc: LFSRGenerateur::configure, LFSRGenerateur::step"]}
{"id": "C10", "title": "Maximal-length sequences have period exactly 2^n-1", "statement": "For every n in 1..16 for which the library offers a primitive polynomial, the sequence generated from any non-zero state visits every non-zero state exactly once before repeating: code_mls(n) has 2^n-1 bits, 2^(n-1) of them ones.", "quantifier": "every supported register length, every non-zero initial state", "why_tests_cant": "65535 states times 16 polynomials times all starts; and the consequence is for every later time.", "anchors": ["core/src/telecom/prbs.cc: polynome_primitif_binaire, code_mls"]}
{"id": "C11", "title": "LFSR receiver self-synchronises", "statement": "Whatever the receiver's history, if it is unlocked and fed reglen+21 consecutive error-free bits of a sequence with the right polynomial, it is locked afterwards, and it then predicts every subsequent error-free bit (no error is counted).", "quantifier": "every prior history, every phase of the sequence, every continuation", "why_tests_cant": "All internal states and all continuations.", "anchors": ["core/src/telecom/prbs.cc: LFSRRecepteur::step, lis_etat"]}
{"id": "C12", "title": "LFSR receiver counts errors exactly once locked", "statement": "Once locked on a sequence, and as long as no six consecutive bits are wrong, the receiver stays locked and the reported bit error count increases by exactly the number of corrupted bits.", "quantifier": "every error pattern without 6 consecutive errors", "why_tests_cant": "All error patterns.", "anchors": ["core/src/telecom/prbs.cc: LFSRRecepteur::step, lis_etat"]}
{"id": "C13", "title": "Calendar and day count are inverse bijections", "statement": "For every valid Gregorian date (years 1..9999), converting it to a DateHeure and back gives the same date, and every DateHeure in that span decomposes to a valid date that rebuilds it.", "quantifier": "all 3 652 059 valid dates and every day number in the range", "why_tests_cant": "Millions of dates; leap-year, century and 400-year rules interact.", "anchors": ["core/src/temps.cc: Calendrier::nb_jours_debut_ère, DateHeure::calendrier, est_bissextile, mois_nb_jours"]}
{"id": "C14", "title": "Dates are ordered chronologically", "statement": "For valid dates d1, d2: d1 precedes d2 lexicographically (year, month, day) iff its day count is smaller, and the successor calendar day is one more.", "quantifier": "all pairs of valid dates", "why_tests_cant": "All pairs.", "anchors": ["core/src/temps.cc: Calendrier::nb_jours_debut_ère"]}
{"id": "C15", "title": "Date-time decomposition is lossless to the microsecond", "statement": "decomposition() of a DateHeure built from a valid composite date-time returns the same composite, hour/minute/second/ms/µs are in range, and a DateHeure is the unique instant of its decomposition.", "quantifier": "every instant in the supported era at µs resolution", "why_tests_cant": "3.15e17 instants.", "anchors": ["core/src/temps.cc: DateHeure::decomposition, decomp_heure, DateHeure(DateComposite)"]}
{"id": "C16", "title": "GPS week/seconds conversion round-trips", "statement": "Converting a DateHeure to GPS week/second (or µs) and back yields the same instant when it is representable at that resolution, and seconds-of-week are in [0,604800).", "quantifier": "every instant", "why_tests_cant": "All instants.", "anchors": ["core/src/temps.cc: de_GPS, vers_GPS, vers_GPS_us"]}
{"id": "C17", "title": "Packet buffer re-chunks a stream losslessly", "statement": "A tampon of size N fed with arbitrary chunks delivers exactly the successive N-sample packets of the concatenated input, as soon as they are complete, in order, with no loss or duplication, and retains the remainder (< N samples).", "quantifier": "every N >= 1, every sequence of chunk lengths and contents", "why_tests_cant": "Chunk boundaries interact with the fill level in unboundedly many ways.", "anchors": ["core/src/tsd.cc: TamponNv2"]}
{"id": "C18", "title": "FIR filtering does not depend on how the stream is cut", "statement": "Filtering a signal in one call or in any sequence of consecutive blocks gives bit-identical outputs, for FIR, IIR, second-order sections, delay line, moving average, exponential smoother, DC blocker and decimator blocks.", "quantifier": "every cutting of every signal, every coefficient set", "why_tests_cant": "All partitions.", "anchors": ["core/src/filtrage/filtre-rt.cc: FiltreRIF, FiltreRII, SOIS, LigneARetard, MoyenneGlissante, FiltreLExp, FiltreDC, Decimateur"]}
{"id": "C19", "title": "FIR filter computes the convolution", "statement": "Output n of a FIR filter with K coefficients h, from reset, equals the sum over k<K of h(k) x(n-k), with x taken as 0 before the start; this holds at every n, including after the internal circular index wraps.", "quantifier": "every n, K >= 1, signal and coefficients", "why_tests_cant": "Unbounded signal length.", "anchors": ["core/src/filtrage/filtre-rt.cc: FiltreRIF::step"]}
{"id": "C20", "title": "IIR filter satisfies its difference equation", "statement": "Output of the direct-form recursive filter satisfies a0 y(n) = sum b_k x(n-k) - sum_{k>=1} a_k y(n-k) at every n with zero initial conditions.", "quantifier": "every n, orders, coefficients", "why_tests_cant": "Unbounded.", "anchors": ["core/src/filtrage/filtre-rt.cc: FiltreRII"]}
{"id": "C21", "title": "Delay line delays exactly", "statement": "A delay line of n samples outputs n zeros then the input unchanged, forever.", "quantifier": "every n and signal", "why_tests_cant": "Unbounded.", "anchors": ["core/src/filtrage/filtre-rt.cc: LigneARetard"]}
{"id": "C22", "title": "Decimator keeps one sample in R of the whole stream", "statement": "The decimator outputs exactly the samples of global index multiple of R (its documented phase), whatever the chunking, and the number of outputs after n inputs is determined.", "quantifier": "every R >= 1, stream and chunking", "why_tests_cant": "All chunkings.", "anchors": ["core/src/filtrage/filtre-rt.cc: Decimateur"]}
{"id": "C23", "title": "Moving average is the mean of the last K samples", "statement": "The moving average output at n is the arithmetic mean of the last K samples (zeros before start) with no drift however long the stream (exact arithmetic).", "quantifier": "every K, n, signal", "why_tests_cant": "Recursive accumulation error only shows after unbounded time.", "anchors": ["core/src/filtrage/filtre-rt.cc: MoyenneGlissante"]}
{"id": "C24", "title": "Polyphase decimating FIR equals filter-then-decimate", "statement": "The polyphase decimator output equals full-rate filtering followed by keeping one sample in R, and the polyphase interpolator equals zero-stuffing followed by full-rate filtering, for every cutting of the input.", "quantifier": "every R, filter length, signal, cutting", "why_tests_cant": "All.", "anchors": ["core/src/reechan/polyphase.cc: FiltreRIFDecim, FiltreRIFUps, FiltreRIFDemiBande"]}
{"id": "C25", "title": "Polyphase form is invertible", "statement": "iforme_polyphase(forme_polyphase(x,M)) = x (up to zero padding to a multiple of M).", "quantifier": "every x and M", "why_tests_cant": "All.", "anchors": ["core/src/reechan/polyphase.cc: forme_polyphase, iforme_polyphase"]}
{"id": "C26", "title": "Walsh-Hadamard transform is a scaled involution", "statement": "For every vector of length 2^k, fwht(fwht(x)) = x / n and fwht is linear, fwht(x) = H x / n with H the Hadamard matrix returned by hadamard_matrice; H H^T = n I and entries are +/-1.", "quantifier": "every k and x", "why_tests_cant": "All sizes.", "anchors": ["core/src/fourier/hadamard.cc: fwht, hadamard_matrice"]}
{"id": "C27", "title": "FFT computes the discrete Fourier transform", "statement": "For every signal of every length n >= 1 (power of two or not), fft(x) equals the orthonormal DFT sum at every frequency bin and ifft inverts it; a plan object gives the same result whatever sizes and directions it was configured or used with before.", "quantifier": "every length, every signal, every history of plan calls", "why_tests_cant": "All sizes and signals.", "anchors": ["core/src/fourier/fourier.cc: tfr_radix2, tfr_czt_impl, tfr2itfr, TFRPlanDefaut", "core/include/tsd/fourier.hpp: fft, ifft, FFTPlan"]}
{"id": "C28", "title": "Levinson recursion solves the Toeplitz system", "statement": "When no pivot vanishes, levinson(l,c,y) returns x with T x = y for the Toeplitz matrix of first row l and first column c.", "quantifier": "every order n and every nonsingular data", "why_tests_cant": "All sizes.", "anchors": ["core/src/stats.cc: levinson"]}
{"id": "C29", "title": "Quaternion rotation equals its rotation matrix", "statement": "For every unit quaternion q, q.rotate(x) = rot_mat(q) x, rot_mat is orthogonal, inv undoes the rotation, and the quaternion rebuilt from the matrix represents the same rotation.", "quantifier": "every unit quaternion and vector", "why_tests_cant": "Continuum.", "anchors": ["core/src/geometrie.cc: Quaternion"]}
{"id": "C30", "title": "Polynomial arithmetic is evaluation-compatible", "statement": "For polynomials p, q in coefficient form and every x: (p+q)(x)=p(x)+q(x), (p*q)(x)=p(x)q(x), (p^n)(x)=p(x)^n, horner = sum of c_k x^k; also with operands in root form.", "quantifier": "every polynomial, point, exponent", "why_tests_cant": "Continuum.", "anchors": ["core/include/tsd/filtrage/frat.hpp: Poly"]}
{"id": "C31", "title": "Rational-function arithmetic is evaluation-compatible", "statement": "For rational functions F, G (non-vanishing denominators): (F+G)(z)=F(z)+G(z), (F*G)(z), (F/G)(z), inverse, powers, and substitution z->1/z evaluate correctly.", "quantifier": "every F, G, z", "why_tests_cant": "Continuum.", "anchors": ["core/include/tsd/filtrage/frat.hpp: FRat"]}
{"id": "C32", "title": "Interpolators reproduce polynomials", "statement": "Lagrange interpolator of degree d reproduces polynomials of degree <= d exactly at every fractional delay; linear and cubic-spline interpolators reproduce affine signals and interpolate the nodes.", "quantifier": "every fractional delay, polynomial", "why_tests_cant": "Continuum.", "anchors": ["core/src/reechan/itrp.cc"]}
{"id": "C33", "title": "Vector utilities behave as documented", "statement": "trouve, trouve_premier, trouve_dernier, rotation_vec, diff, cumsum, sousech, surech, pad_zeros, vconcat satisfy their documented input/output relations for every vector.", "quantifier": "every vector and parameter", "why_tests_cant": "All sizes.", "anchors": ["core/src/tsd.cc: trouve, trouve_premier, trouve_dernier", "core/include/tsd/tsd.hpp: rotation_vec, diff, cumsum, sousech, surech, pad_zeros, vconcat"]}
{"id": "C34", "title": "Modulo operations return canonical representatives", "statement": "modulo(x,m) lies in [0,m), differs from x by an integer multiple of m; modulo_2π, modulo_pm_π likewise in their intervals; phase unwrapping returns a sequence congruent to the input with jumps at most half a period.", "quantifier": "every real x, m>0, every sequence", "why_tests_cant": "Continuum.", "anchors": ["core/include/tsd/tsd.hpp: modulo, modulo_2π, modulo_pm_π", "core/src/tsd.cc: déplie_phase"]}
{"id": "C35", "title": "WAV files round-trip", "statement": "A file written with the wave writer and re-opened with the reader yields the same number of channels, sample frequency, number of samples and (for float PCM) the very same samples; for 16-bit PCM the quantised samples.", "quantifier": "every sample sequence, channel count, write chunking", "why_tests_cant": "All.", "anchors": ["core/src/wav.cc"]}
{"id": "C36", "title": "Vector views alias and copies do not", "statement": "Writing through segment/head/tail/col/block views modifies exactly the designated elements of the parent and nothing else; copies (clone, assignment to a fresh vector) are independent of their source ever after.", "quantifier": "every history of view creations, writes and copies", "why_tests_cant": "Aliasing histories are unbounded.", "anchors": ["core/src/tableau.cc: Tab::segment, block, col, clone, copie", "core/include/tsd/tableau.hpp"]}
{"id": "C37", "title": "Tensor dimension algebra", "statement": "Dimension equality ignores trailing ones, is an equivalence, and total() is invariant under it and multiplicative under concatenation.", "quantifier": "every dimension list", "why_tests_cant": "All ranks.", "anchors": ["core/src/tableau.cc: NTenseurDim"]}
{"id": "C38", "title": "Barker codes have unit sidelobes", "statement": "Every Barker code returned by code_Barker has aperiodic autocorrelation sidelobes of magnitude at most 1; other lengths are rejected.", "quantifier": "all integer lengths n, all lags", "why_tests_cant": "Rejecting must hold for every integer.", "anchors": ["core/src/telecom/telecom.cc: code_Barker"]}
{"id": "C39", "title": "CIC decimator equals cascaded boxcar filters", "statement": "On the first block after configuration, the CIC decimator output is the R-long boxcar cascade of order N decimated by R; cutting the stream into blocks of a multiple of R must not change the output.", "quantifier": "every N, R, signal, cutting", "why_tests_cant": "All.", "anchors": ["core/src/reechan/cic.cc"]}
{"id": "C40", "title": "Nearest-symbol decision is optimal", "statement": "symbole_plus_proche returns a symbol at minimal distance from the sample, the first among ties; modulating then deciding without noise returns the transmitted symbol for every constellation with distinct points.", "quantifier": "every constellation and sample", "why_tests_cant": "Continuum.", "anchors": ["core/src/telecom/modulations.cc: symbole_plus_proche"]}
{"id": "C41", "title": "BitStream conversions are lossless", "statement": "Building a BitStream from a '0'/'1' string or from a boolean/integer vector and converting it back yields the same sequence, of the same length; a non-zero vector entry counts as 1.", "quantifier": "every string over {0,1} and every vector", "why_tests_cant": "Unbounded sequence content and length.", "anchors": ["core/src/telecom/bitstream.cc: BitStream(const string&), BitStream(const Veci&), operator<<, to_string conversions"]}
{"id": "C42", "title": "Default LFSR generator never sticks at zero", "statement": "For every register length the library accepts, the generator configured with the default start state is never in the all-zero state and visits the complete maximal cycle.", "quantifier": "every accepted register length, every number of steps", "why_tests_cant": "2^16-step cycles from every offset; a statement about every step.", "anchors": ["core/src/telecom/lfsr.cc: LFSRGenerateur::configure, step"]}
{"id": "C43", "title": "Noiseless modulate/decide chain returns the bits", "statement": "Mapping any bit stream onto a constellation of 2^k distinct points and deciding each point by nearest symbol returns the bits followed by the fewest zeros completing a multiple of k.", "quantifier": "every bit stream, every k >= 1, every constellation of 2^k distinct points", "why_tests_cant": "All streams and all constellations.", "anchors": ["core/src/telecom/formes-ondes.cc: génère_symboles, decode_symboles, symbole_plus_proche", "core/src/telecom/bitstream.cc: symmap_binaire, symdemap_binaire"]}
{"id": "C44", "title": "Filters may be run in place", "statement": "Calling step(x, x), with input and output sharing storage, gives the same samples and the same final state as the out-of-place call, for every filter that tests x.data() != y.data().", "quantifier": "every filter state, every block, every sample type", "why_tests_cant": "Aliasing errors depend on the whole read/write order; a test covers one filter, one signal.", "anchors": ["core/src/filtrage/filtre-rt.cc: LigneARetard, FiltreRIF, FiltreRII, SOIS, RIIFoS, FiltreDC, MoyenneGlissante, FiltreLExp"]}
{"id": "C45", "title": "Second-order sections satisfy their difference equation, and pass constants without transient", "statement": "A freshly configured section b/a outputs, for any cutting of any stream, the solution of a0 y(n)+a1 y(n-1)+a2 y(n-2)=b0 x(n)+b1 x(n-1)+b2 x(n-2) started from the constant past x(0), in both direct forms; a unit-DC-gain section leaves a constant signal unchanged.", "quantifier": "all coefficients with a0 != 0, all streams, all cuttings", "why_tests_cant": "Real-valued coefficients and unbounded streams.", "anchors": ["core/src/filtrage/filtre-rt.cc: SOIS::configure, SOIS::step"]}
{"id": "C46", "title": "Exponential smoother stays in the range of its input", "statement": "The exponential smoother satisfies y(n)=(1-γ)y(n-1)+γx(n) started at x(0), and for 0<=γ<=1 its output never leaves the interval spanned by its input.", "quantifier": "all γ, all streams, all cuttings", "why_tests_cant": "Invariant over unbounded streams and all real coefficients.", "anchors": ["core/src/filtrage/filtre-rt.cc: FiltreLExp::step"]}
{"id": "C47", "title": "DC blocker removes a constant geometrically", "statement": "The DC blocker satisfies y(n)=α(x(n)-x(n-1)+y(n-1)) with zero past, so a constant c present from the start is output as α^(n+1) c.", "quantifier": "all α, all constants, all cuttings, every time n", "why_tests_cant": "Unbounded time.", "anchors": ["core/src/filtrage/filtre-rt.cc: FiltreDC::step"]}
{"id": "C48", "title": "FFT-based correlations equal their definition", "statement": "ccorr(x,y) is the circular correlation (1/N) sum x_k conj(y_(k+n mod N)); xcorrb(x,y,m) the biased linear correlation at the 2m-1 lags -(m-1)..m-1, for any m >= 1; xcorr the unbiased one (each sum divided by its number of terms) for m <= N, and null at the lags beyond N; m < 0 stands for N, m = 0 is rejected, and so are vectors of different sizes by ccorr. Violated: xcorrb does not reject vectors of different sizes but returns zeros, and xcorr divides the correlation without terms at the lag -N by 0 when m > N.", "quantifier": "every pair of complex vectors, every number of lags", "why_tests_cant": "Real-valued vectors of every length, including all FFT paths (radix 2, chirp).", "anchors": ["core/src/fourier/fourier.cc: correlation_freq, TFRCorrelateurBloc::step, ccorr, xcorrb, xcorr"]}
{"id": "C49", "title": "Real FFT agrees with the complex FFT and spectra forced symmetric are symmetric", "statement": "rfft of a real vector of any length, by a fresh plan or one used before on other sizes, is its DFT at every bin; csym_forçage yields Y(n-k)=conj(Y(k)) with unchanged positive frequencies.", "quantifier": "every real vector, every plan history", "why_tests_cant": "All lengths and histories; the packing trick has one index path per bin.", "anchors": ["core/src/fourier/fourier.cc: RTFRPlan", "core/include/tsd/fourier.hpp: rfft, csym_forçage"]}
{"id": "C50", "title": "FFT-based FIR filtering is block-invariant delayed convolution", "statement": "filtre_rif_fft(h) outputs, for every cutting of the input into calls, complete blocks of 512 samples whose concatenation is the convolution of the input with h, delayed by a constant.", "quantifier": "every filter, every input, every cutting into calls", "why_tests_cant": "Unbounded streams and cuttings, real-valued data; overlap-add state over the whole history.", "anchors": ["core/src/fourier/fourier.cc: OLA, FiltreFFTRIF, filtre_rif_fft"]}
{"id": "C51", "title": "Integer delay shifts the signal", "statement": "délais with an integer delay d returns y_k = x_(k-d) (0 outside), same length.", "quantifier": "every vector and every integer delay", "why_tests_cant": "All lengths and signs, boundary |d|=n.", "anchors": ["core/src/fourier/fourier.cc: délais_entier"]}
{"id": "C52", "title": "Recursive filter built from a transfer function runs its difference equation", "statement": "filtre_rii(FRat::rii(a,b)) outputs, for every cutting of every stream, the solution of sum b_k y(n-k) = sum a_k x(n-k) with zero past.", "quantifier": "every a, b (b_0 != 0), every stream, every cutting", "why_tests_cant": "Continuum of coefficients, unbounded streams.", "anchors": ["core/include/tsd/filtrage/frat.hpp: FRat::rii, eval_inv_z", "core/src/filtrage/filtre-rt.cc: FiltreRII, filtre_rii"]}
{"id": "C53", "title": "Cardan angles, rotation matrices and quaternions convert consistently", "statement": "The matrix of any Cardan angles is a rotation; Cardan angles -> rotation matrix -> Cardan angles is the identity for roll and yaw in (-pi,pi] and pitch in (-pi/2,pi/2); matrix -> angles -> matrix is the identity outside the gimbal lock; and the path angles -> matrix -> quaternion -> angles gives the same angles back.", "quantifier": "every angle triple, every rotation matrix, every unit quaternion", "why_tests_cant": "Continuum of orientations, with a singularity.", "anchors": ["core/src/geometrie.cc: Cardan::Cardan, Cardan::mat_rotation", "core/include/tsd/geometrie.hpp: rotmat_3d_R1, rotmat_3d_R2, rotmat_3d_R3"]}
{"id": "C54", "title": "Covariance matrix estimate", "statement": "covmtx(x,m) is Hermitian Toeplitz and its element (i,j) is the unbiased estimate of E[x_(k+i) conj(x_(k+j))].", "quantifier": "every signal and every 1 <= m <= N", "why_tests_cant": "All signals, all dimensions.", "anchors": ["core/include/tsd/stats.hpp: covmtx, r_vers_R", "core/src/fourier/fourier.cc: xcorr"]}
{"id": "C55", "title": "Linear prediction solves the Yule-Walker equations", "statement": "lpc(x,p) returns the monic predictor of p coefficients solving the Yule-Walker equations of the unbiased autocorrelation of x, and the prediction error of this predictor, sample by sample.", "quantifier": "every real signal, every order with invertible equations", "why_tests_cant": "All signals and orders.", "anchors": ["core/src/stats.cc: lpc, levinson_reel"]}
{"id": "C56", "title": "interp() is piecewise linear / natural cubic spline interpolation", "statement": "For points of increasing abscissas and increasing output abscissas, interp returns at each output abscissa the value of the piecewise linear function, or of the natural cubic spline, through the points (constant outside of the range); the points themselves are reproduced.", "quantifier": "every set of points, every increasing list of output abscissas", "why_tests_cant": "All point sets; the spline comes from the solution of a tridiagonal system of unbounded size.", "anchors": ["core/src/reechan/itrp.cc: interp, interp_lin, interp_cspline"]}
{"id": "C57", "title": "The interpolation filter samples the input at m/ratio, whatever the blocks", "statement": "filtre_itrp outputs, all blocks together, ceil(ratio*N) samples, the m-th being the interpolation of the stream at abscissa m/ratio: independent of the division in blocks, and never overflowing its buffer.", "quantifier": "every ratio > 0, interpolator, input and block division", "why_tests_cant": "Unbounded histories and chunkings.", "anchors": ["core/src/reechan/ra.cc: AdaptationRythmeSimple::step", "core/include/tsd/filtrage.hpp: filtre_itrp, InterpolateurRIF"]}
{"id": "C58", "title": "An arbitrary resampling ratio is split exactly", "statement": "filtre_reechan splits every valid ratio into half-band decimations or over-samplings by 2 (not both) and a remaining ratio in [1/2, 2), whose product is the ratio; invalid ratios fall back to 1.", "quantifier": "every positive ratio below 1e9", "why_tests_cant": "Continuum of ratios.", "anchors": ["core/src/reechan/ra.cc: AdaptationRythmeArbitraire::configure_impl"]}
{"id": "C59", "title": "Opening a WAV file terminates", "statement": "Opening any file with the wave reader ends, with a usable reader or with an error.", "quantifier": "every byte string", "why_tests_cant": "The space of malformed files is unbounded; termination is not testable.", "anchors": ["core/src/wav.cc: WavLecteur::Impl::charge"]}
{"id": "C60", "title": "Foreign WAV blocks are skipped", "statement": "When a file has any number of other blocks between its format block and its data block, the reader opens on the data block: parameters, number of samples and samples are those of the file, and rewinding comes back to the first sample.", "quantifier": "every sequence of blocks, of any identifiers, sizes (odd or even) and contents", "why_tests_cant": "All block sequences.", "anchors": ["core/src/wav.cc: WavLecteur::Impl::charge, redemarre"]}
{"id": "C61", "title": "Conservative resize keeps the elements", "statement": "conservativeResize(n[,m]) keeps every element whose indices exist in both the old and the new dimensions, and gives the new dimensions.", "quantifier": "every vector or matrix, every pair of dimensions", "why_tests_cant": "All sizes and all dimension pairs.", "anchors": ["core/src/tableau.cc: Tab::conservativeResize"]}
{"id": "C62", "title": "Arrays built from an index expression", "statement": "int_expr(n,f) (and int_expr(n,m,f)) returns the array whose element at index i (resp. i,j) is f(i) (resp. f(i,j)), without touching other memory.", "quantifier": "every size and every function", "why_tests_cant": "All sizes and functions.", "anchors": ["core/include/tsd/tableau.hpp: int_expr"]}
{"id": "C63", "title": "Harmonic oscillators are phase-continuous", "statement": "The samples of source_ohc/source_ohr are exp(2πiφ_k) / cos(2πφ_k), φ_k being the sum of the frequencies in force at the previous samples, however the samples are requested (blocks) and whenever the frequency is changed.", "quantifier": "every initial frequency, every sequence of block requests and frequency changes", "why_tests_cant": "Histories of requests are unbounded.", "anchors": ["core/src/tsd.cc: OHC, OHR, source_ohc, source_ohr"]}
{"id": "C64", "title": "Signal generators follow their definition", "statement": "sigexp, sigsin, sigcos, sigchirp, siggauss, siggsin, sigimp, signyquist, sigtri, sigcar, sigscie return exactly n samples of the documented signal; periodic signals have the requested period and stay within [-1,1].", "quantifier": "every length, frequency and period", "why_tests_cant": "All lengths and periods (renormalisation every 1000 samples, odd periods).", "anchors": ["core/src/tsd.cc: sigexp, sigsin, sigcos, sigchirp, siggauss, siggsin, sigimp, signyquist, sigtri, sigcar, sigscie"]}
{"id": "C65", "title": "Next power of two", "statement": "prochaine_puissance_de_2(i) is the least power of two that is at least i.", "quantifier": "every positive integer i", "why_tests_cant": "All integers, including those beyond the precision of float.", "anchors": ["core/src/tsd.cc: prochaine_puissance_de_2"]}
{"id": "C66", "title": "Table oscillator accuracy", "statement": "OLUT(N).step(θ) is within π²/(2N²) of exp(iθ), and exact at the table angles, for every angle (positive, negative, large).", "quantifier": "every table size N>0 and every real angle", "why_tests_cant": "Continuum of angles.", "anchors": ["core/src/tsd.cc: OLUT"]}
{"id": "C67", "title": "Goertzel score", "statement": "For a real signal x of n samples and a frequency f, goertzel(x,f) is 2|X(f)|²/(n Σx²) where X is the Fourier transform, lies between 0 and 1 (1 for a pure sinusoid), and the streaming filter returns the score of each successive block whatever the cutting of the stream", "quantifier": "all real signals, frequencies, block sizes and chunkings", "why_tests_cant": "real-valued identities over all signals and all chunkings", "anchors": ["core/src/fourier/goertzel.cc: goertzel, Goertzel::step", "core/include/tsd/fourier.hpp: goertzel"]}
{"id": "C68", "title": "Frequency grids of spectra", "statement": "tfd_freqs and psd_freqs return, bin by bin, the normalised frequencies of the bins of a DFT of n points", "quantifier": "all sizes n, both layouts", "why_tests_cant": "must hold for every n", "anchors": ["core/src/fourier/freqestim.cc: tfd_freqs, psd_freqs"]}
{"id": "C69", "title": "Frequency estimation", "statement": "freqestim recovers the frequency of every pure complex exponential (exactly for Candan's method in exact arithmetic, to half a bin for the FFT maximum), and its result is always a number of (-1/2,1/2]", "quantifier": "all amplitudes, frequencies, lengths; all signals for the range", "why_tests_cant": "real-valued frequencies, all lengths", "anchors": ["core/src/fourier/freqestim.cc: freqestim, fréq_estim_candan2, fréq_estim_quadratique"]}
{"id": "C70", "title": "Chebyshev polynomials", "statement": "Chebychev_T(n) is the polynomial with T_n(cos θ)=cos nθ, Chebychev_U(n) that of the second kind (U_0=1, U_1=2z, same recurrence)", "quantifier": "all degrees, all angles and arguments", "why_tests_cant": "every degree and every real argument", "anchors": ["core/src/divers.cc: Chebychev_TU, Chebychev_T, Chebychev_U", "core/include/tsd/divers.hpp"]}
{"id": "C71", "title": "Cardinal sine and Dirichlet kernel", "statement": "sinc(T,f) is the Fourier transform of a gate of width T, sinc(k)=δ_k on integers, Dirichlet(N,Ω)=Σ_{-N}^{N} e^{-ikΩ}; near the removable singularities the error is bounded", "quantifier": "all widths, frequencies, orders and angles", "why_tests_cant": "real arguments, includes the neighbourhoods of the singularities", "anchors": ["core/src/divers.cc: sinc, Dirichlet"]}
{"id": "C72", "title": "Delay estimation is well defined and exact", "statement": "estimation_délais on two signals returns a finite delay within ±(N-1) samples and a score in [0,1] whatever the signals; when the second signal is the first delayed by d samples (any sign) and scaled by any non-null complex gain, the returned delay is exactly d (no sub-sample bias) and the score is 1 up to the regularisation.", "quantifier": "all pairs of complex signals (not both empty, size compatible with the FFT), all integer delays, all gains", "why_tests_cant": "the maximum search, zero padding, circular wrap and parabolic refinement have to agree for every signal; a test tries one signal and one delay", "anchors": ["core/src/fourier/estimation-delais.cc: estimation_délais", "core/src/fourier/fourier.cc: xcorrb"]}
{"id": "C73", "title": "Integer alignment returns the common part of the two signals", "statement": "aligne_entier returns two signals of the same length which are the common part of the inputs once the late one has been advanced by the found delay; when one input is a delayed and scaled copy of the other, the aligned outputs are equal sample by sample up to the gain.", "quantifier": "all pairs of complex signals, all integer delays, all gains", "why_tests_cant": "the index arithmetic (tail/head, sign of the delay, padding to a power of two) has to be right for all lengths and delays", "anchors": ["core/src/fourier/estimation-delais.cc: aligne_entier"]}
{"id": "C74", "title": "Welch power spectral density", "statement": "psd_welch(x,N,fen) returns, bin by bin, the average over all the half-overlapping segments of N samples of x of the windowed periodogram at the returned frequency, for every signal that holds at least one segment.", "quantifier": "all signals, windows and segment sizes", "why_tests_cant": "boundary of the segment loop and bin/frequency correspondence for every size", "anchors": ["core/src/fourier/freqestim.cc: psd_welch", "core/include/tsd/fourier.hpp: fftshift"]}
{"id": "C75", "title": "Real-time spectrum averages blocks", "statement": "rt_spectrum is silent for nmeans-1 blocks then returns the mean of the windowed periodograms of the sub-blocks of the last nmeans blocks, with no memory of earlier groups, with bins that add up to the mean power; in sweep mode each band shows the same spectrum as an analyser of that band.", "quantifier": "all sequences of blocks, block sizes, numbers of sub-blocks and means, all windows", "why_tests_cant": "state accumulated over unbounded histories of calls", "anchors": ["core/src/fourier/fourier.cc: Spectrum, rt_spectrum"]}
{"id": "C76", "title": "Frequency-domain resampling goes through the samples", "statement": "rééchan_freq with integer ratio R returns R n samples which include the original ones without delay; with ratio 1/R a band-limited signal is decimated exactly; complex signals keep their imaginary part.", "quantifier": "all signals, sizes and integer ratios", "why_tests_cant": "bin copying at both ends of the spectrum for every parity and size", "anchors": ["core/src/fourier/fourier.cc: rééchan_freq"]}
{"id": "C77", "title": "Chirp z-transform", "statement": "czt(x,m,W,z0) returns the m values of the z-transform of x at z0 W^-j.", "quantifier": "all signals, numbers of points, W and z0", "why_tests_cant": "must hold for all sizes and parameters", "anchors": ["core/src/fourier/fourier.cc: czt"]}
{"id": "C78", "title": "Windows have the promised shape, symmetry and names", "statement": "For every named window other than Chebyshev's, every length n and both variants, fenêtre(type, n, symmetric) gives exactly n values of the documented profile at the equispaced positions, all in [0,1], increasing up to the middle, symmetric when asked symmetric, periodic otherwise; Hann/triangle/Hamming periodic windows of even length overlap-add to a constant; each window name printed is read back and unknown names are rejected; the Kaiser window is I0(pi beta sqrt(1-4t^2))/I0(pi beta) with documented beta and odd order.", "quantifier": "every window, length, variant, attenuation and transition width", "why_tests_cant": "The values are trigonometric functions at positions depending on n; tests check a few lengths, and miss that a periodic window of odd length is not periodic and a symmetric window of length 2 is null.", "anchors": ["core/src/fenetres.cc:fenêtre", "core/src/fenetres.cc:fenêtre_kaiser", "core/src/fenetres.cc:parse_fenêtre"]}
{"id": "C79", "title": "Chebyshev window: equiripple side lobes at the requested attenuation", "statement": "For every length n >= 2 and attenuation A >= 0, the window of Dolph-Chebyshev has n symmetric coefficients whose zero-phase response is the Chebyshev polynomial of degree n-1 in beta cos(pi nu), so that all the side lobes are at most A decibels below the main lobe.", "quantifier": "every length and attenuation", "why_tests_cant": "Equiripple is a statement about all frequencies and all lengths.", "anchors": ["core/src/fenetres.cc:fenêtre_chebychev", "core/src/fenetres.cc:cheb_eval"]}
{"id": "C80", "title": "FIR design by windowing", "statement": "design_rif_fen gives, for an odd number of coefficients, the impulse response of the ideal filter of the requested type (low-pass, high-pass, band-pass, stop-band) multiplied by the window; symmetric (linear phase); unit DC gain for lp; low-pass and high-pass (band-pass and stop-band) complementary; invalid types rejected.", "quantifier": "every type, cut-off frequencies, window and odd number of coefficients", "why_tests_cant": "The coefficients are transcendental functions of the frequencies; the agreement with the ideal response is an integral identity for all n and all frequencies.", "anchors": ["core/src/filtrage/rif-fen.cc:design_rif_fen"]}
{"id": "C81", "title": "FIR design by frequency sampling", "statement": "design_rif_freq with m >= 2 template points gives 2m-1 symmetric coefficients whose frequency response at each frequency k/(2m-1) is exactly the template value, with a pure delay of m-1 samples.", "quantifier": "every template and number of coefficients", "why_tests_cant": "Exactness at all the sampling points for all templates cannot be enumerated.", "anchors": ["core/src/filtrage/rif-freq.cc:design_rif_freq", "core/src/filtrage/rif-freq.cc:design_rif_freq_freqs"]}
{"id": "C82", "title": "Hilbert transformers", "statement": "design_rif_hilbert gives the documented antisymmetric coefficients (odd n only); the streaming transformer outputs the delayed input as real part and the filtered input as imaginary part whatever the block cutting; hilbert_tfd gives the analytic signal: no negative frequency and real part equal to the input.", "quantifier": "every n, window, signal, block cutting", "why_tests_cant": "Every cutting of every stream; every signal length.", "anchors": ["core/src/filtrage/hilbert.cc:design_rif_hilbert", "core/src/filtrage/hilbert.cc:HilbertTransformeur", "core/src/filtrage/hilbert.cc:hilbert_tfd"]}
{"id": "C83", "title": "FIR transformations", "statement": "design_rif_prod is the cascade of two filters; type_rif classifies exactly symmetric and antisymmetric filters; spectral reflection shifts the response by half the sampling frequency, spectral inversion complements it to a pure delay; only type I filters are accepted.", "quantifier": "every pair of filters, every signal and frequency", "why_tests_cant": "Equality of responses at all frequencies and of outputs for all signals.", "anchors": ["core/src/filtrage/filtrage.cc:design_rif_prod", "core/src/filtrage/filtrage.cc:design_rif_pb2ph_rs", "core/src/filtrage/filtrage.cc:design_rif_pb2ph_is", "core/src/filtrage/filtre-analyse.cc:type_rif"]}
{"id": "C84", "title": "FIR differentiators", "statement": "design_rif_diff(n) is a differentiator: 0 for a constant, slope 1 (up to an error vanishing with n) for the ramp.", "quantifier": "every number of coefficients, both variants", "why_tests_cant": "The behaviour depends on the parity of n and of n/2: a test on one n accepts or rejects by luck.", "anchors": ["core/src/filtrage/filtrage.cc:design_rif_diff"]}
{"id": "C85", "title": "First and second order designs", "statement": "lexp_coef/lexp_fcoupure and lexp_tc_vers_coef/lexp_coef_vers_tc are mutual inverses; design_lexp, design_bloqueur_dc, design_notch and design_mg return the transfer functions of the documented difference equations: filtering any stream (in any cutting) with filtre_rii runs y_n = γ x_n + (1-γ) y_{n-1}, y_n = r(x_n - x_{n-1}) + r y_{n-1}, the notch equation, or the mean of the last K samples; the step response is c(1-e^{-(n+1)/τ}), a constant is removed geometrically by the DC blocker, a sinusoid at the notch frequency dies out; the cut-off frequency is at -3 dB.", "quantifier": "all cut-off frequencies, time constants, notch frequencies, orders, all streams and cuttings", "why_tests_cant": "requires all real parameters and streams of unbounded length; the -3 dB claim is about transcendental functions", "anchors": ["core/src/filtrage/filtrage.cc:lexp_coef", "core/src/filtrage/filtrage.cc:design_lexp", "core/src/filtrage/filtrage.cc:design_bloqueur_dc", "core/src/filtrage/filtrage.cc:design_notch", "core/src/filtrage/filtrage.cc:design_mg"]}
{"id": "C86", "title": "Raised-cosine and Gaussian designs", "statement": "The raised-cosine pulse is 1 at time 0 and null at every other symbol time, so that design_rif_cs(n, β, 1/(2L)) creates no interference between symbols spaced by L samples and is neutral for L = 1; the values at the singular points of the raised-cosine and root-raised-cosine formulas are their limits; design_rif_cs / rcs / rcs1 / gaussien / gaussien_telecom return n coefficients, symmetric, of unit sum (or unit energy); BT_vers_sigma gives the Gaussian whose power is halved at the frequency BT.", "quantifier": "all lengths, roll-offs, cut-off frequencies, oversampling factors, BT products, symbol streams", "why_tests_cant": "real parameters and unbounded streams; limits cannot be tested", "anchors": ["core/src/filtrage/rif-cs.cc:design_rif_cs", "core/src/filtrage/rif-cs.cc:design_rif_rcs1", "core/src/filtrage/rif-cs.cc:design_rif_gaussien_telecom"]}
{"id": "C87", "title": "Zero-phase filtering", "statement": "filtfilt(h, x) with a FIR filter returns as many samples as x; away from the ends a sinusoid of any frequency, amplitude and phase is multiplied by the squared gain of h without phase shift, and the answer to an impulse is symmetric around it.", "quantifier": "all FIR filters, signals, frequencies, phases, positions", "why_tests_cant": "all frequencies and all filters", "anchors": ["core/include/tsd/filtrage.hpp:filtfilt", "core/include/tsd/filtrage.hpp:convol"]}
{"id": "C88", "title": "Bilinear transform", "statement": "trf_bilineaire(h, fe) of an analog transfer function given by zeros and poles evaluates, at any z other than -1, to h(2fe(z-1)/(z+1)); it maps stable proper analog filters to filters with all poles inside the unit disk; the analog/digital frequency maps are inverse of each other below Nyquist.", "quantifier": "all transfer functions given by zeros and poles, all sampling frequencies, all points of the z plane", "why_tests_cant": "all rational functions and all frequencies", "anchors": ["core/src/filtrage/rii.cc:trf_bilineaire", "core/src/filtrage/rii.cc:ωa_vers_ωd", "core/src/filtrage/rii.cc:fa_vers_fd"]}
{"id": "C89", "title": "Analog low-pass prototype transformations", "statement": "Changing the cut-off frequency of a normalised analog prototype gives H(s/ωc); the high-pass deduced from it is H(ωc/s); after bilinear transform the digital filter is stable and its response at pulsation θ is the prototype's at tan(θ/2)/tan(π fc) (or its inverse for a high-pass).", "quantifier": "all prototypes, all cut-off frequencies 0 < fc < 1/2, all pulsations", "why_tests_cant": "all prototypes and frequencies", "anchors": ["core/src/filtrage/rii.cc:pban_vers_pba", "core/src/filtrage/rii.cc:pban_vers_pha", "core/src/filtrage/rii.cc:design_riia_laplace"]}
{"id": "C90", "title": "Butterworth IIR filters", "statement": "design_riia(n, type, \"butt\", fc) returns, for every order, a stable filter with n poles and the maximally flat squared gain 1/(1+(tan(θ/2)/tan(πfc))^(2n)), -3 dB at fc, gain +1 in the passband, for low-pass, high-pass, band-pass and band-stop types.", "quantifier": "all orders n, cut-off frequencies, pulsations, filter types", "why_tests_cant": "all orders and frequencies", "anchors": ["core/src/filtrage/rii.cc:design_riia", "core/src/filtrage/rii.cc:butterworth_analogique"]}
{"id": "C91", "title": "Chebyshev type I IIR filters", "statement": "The type I Chebyshev design of order n and ripple δ dB is stable, has n poles, a squared gain proportional to 1/(1+ε²T_n²), and a passband gain staying between -δ dB and 0 dB, reaching exactly -δ dB at the cut-off frequency.", "quantifier": "all orders, ripples, frequencies", "why_tests_cant": "all orders, ripples and frequencies", "anchors": ["core/src/filtrage/rii.cc:tchebychev_I_analogique", "core/src/filtrage/rii.cc:design_riia"]}
{"id": "C92", "title": "Chebyshev type II and elliptic IIR filters", "statement": "The type II Chebyshev design of order n and attenuation δ dB is stable, has unit gain at zero frequency and a gain of at most -δ dB everywhere beyond the cut-off frequency; elliptic designs are defined for every order.", "quantifier": "all orders, attenuations, frequencies", "why_tests_cant": "all orders, attenuations and frequencies", "anchors": ["core/src/filtrage/rii.cc:tchebychev_II_analogique", "core/src/filtrage/rii.cc:elliptique_analogique", "core/src/filtrage/rii.cc:design_riia"]}
{"id": "C93", "title": "Biquad designs", "statement": "For every biquad type, frequency 0<f<1/2, quality factor Q>0 and gain, design_biquad returns a stable filter whose frequency response is exactly that of the documented analog prototype at Ω = tan(θ/2)/tan(πf): gain Q at f for the low-pass, 1 for the band-pass, 0 for the notch, 10^(gain/20) for the resonator; and filtre_rii on it computes the cookbook difference equation.", "quantifier": "all types, frequencies, quality factors, gains, pulsations, streams and cuttings", "why_tests_cant": "real parameters and unbounded streams", "anchors": ["core/src/filtrage/rii.cc:design_biquad"]}
{"id": "C94", "title": "PSK constellations and decisions", "statement": "For every M ≥ 2, the M symbols of the PSK waveform lie on the unit circle, at the angles i·2π/M (plus π/4 for M = 4), at distance at least 2 sin(π/M) from each other; bits sent through génère_symboles come back from decode_symboles (up to the completion to whole symbols) under any noise smaller than sin(π/M) on each sample; for QPSK the quadrant decision agrees with the nearest symbol everywhere but on the axes.", "quantifier": "all orders, bit streams and noises under the bound", "why_tests_cant": "real noises and unbounded streams", "anchors": ["core/src/telecom/modulations.cc:psk_constellation", "core/src/telecom/modulations.cc:FormeOndePSK"]}
{"id": "C95", "title": "π/4-QPSK: round trip, context and cutting", "statement": "The π/4-QPSK symbols alternate between two QPSK constellations turned by π/4 and have modulus 1; within one call, bits come back under any noise smaller than √2/2; the symbol-by-symbol context decides as the block decoder. The alternation does not survive cutting a stream into several calls.", "quantifier": "all bit streams and noises under the bound", "why_tests_cant": "real noises and unbounded streams", "anchors": ["core/src/telecom/modulations.cc:FormeOnde_π4QPSK", "core/src/telecom/modulations.cc:Ctxπ4QPSK"]}
{"id": "C96", "title": "QAM and ASK constellations", "statement": "For every square M ≥ 4 the QAM symbols form the regular √M×√M grid of [-1,1]² (distance 2/(√M-1)); for every M ≥ 2 the ASK levels go from K1 to K1+K2 regularly; bits come back under any noise smaller than half the distance; other M are rejected.", "quantifier": "all orders, bit streams and noises under the bound", "why_tests_cant": "real noises and unbounded streams", "anchors": ["core/src/telecom/modulations.cc:FormeOndeQAM", "core/src/telecom/modulations.cc:ask_constellation"]}
{"id": "C97", "title": "Linear modulator", "statement": "For every memoryless waveform, shaping filter and oversampling factor R, the modulator returns R samples per symbol, the superposition of pulses of energy R weighted by the symbols, whatever the cutting of the bits at symbol boundaries; NRZ holds each symbol R samples; flush returns the requested number of samples rounded up to a multiple of R. A cut inside a symbol inserts padding bits.", "quantifier": "all waveforms, filters, oversampling factors, bit streams and cuttings", "why_tests_cant": "unbounded streams, real coefficients", "anchors": ["core/src/telecom/modulateur.cc:ModGen", "core/src/telecom/modulations.cc:filtre_mise_en_forme"]}
{"id": "C98", "title": "Frequency modulation", "statement": "Inside a block the FSK modulator has a constant envelope and a continuous phase, with a peak deviation π·index/osf per sample; with binary FSK and NRZ each bit turns the phase by ±π·index, linearly. The phase restarts at zero at each call, and the normalisation by the largest symbol of the block makes distinct 4-FSK blocks indistinguishable.", "quantifier": "all indexes, oversampling factors and blocks", "why_tests_cant": "unbounded blocks, real indexes", "anchors": ["core/src/telecom/modulateur.cc:ModGen::step", "core/src/telecom/modulations.cc:FormeOndeFSK"]}
{"id": "C99", "title": "Transmitter frames", "statement": "For every linear waveform, header (with its own waveform or not), shaping filter and oversampling factor R, each call of the transmitter gives R samples per symbol of the frame: header completed to whole symbols, data completed, then null symbols covering the modulator delay; frames do not interfere if the pulse is short enough. The flush does not cover long pulses (frames interfere), and retard() announces -1/2 with the default configuration.", "quantifier": "all waveforms, headers, filters, oversampling factors and sequences of frames", "why_tests_cant": "unbounded frames and histories", "anchors": ["core/src/telecom/emetteur.cc:ÉmetteurImpl"]}
{"id": "C100", "title": "Phase error detectors measure the phase, not the data", "statement": "For an M-PSK sample A·e^{2πik/M}·e^{iφ}, the power loop detector returns A^M·sin(Mφ)/M, the tan loop returns exactly φ (|φ|<π/M), the Costas detectors return A²sin(2φ)/2 (M=2) and √2·A·sin φ (M=4, |φ|<π/4), whatever the datum k; other Costas orders are rejected; the decision detector returns exactly the distance to the phase of the sent symbol.", "quantifier": "every order M, amplitude A, datum k and phase error φ in the stated interval", "why_tests_cant": "A test samples a few phases and symbols; the claim is for every phase, amplitude and datum.", "anchors": ["core/src/telecom/carrier-rec.cc: ped_costa, ped_ploop, ped_tloop, ped_decision"]}
{"id": "C101", "title": "Loop filters: acquisition and stability", "statement": "With an ideal linear detector, the first-order loop leaves exactly the error ω/α+(1-α)^n(φ0-ω/α) on a phase ramp; the second-order loop cancels any phase and frequency offset geometrically whenever BL<1/4, whatever the damping factor, and does not for BL≥1/4.", "quantifier": "every loop bandwidth, damping factor, phase offset, frequency offset and instant", "why_tests_cant": "Stability is an asymptotic property over unbounded executions and all parameters.", "anchors": ["core/src/telecom/carrier-rec.cc: LF1, LF2, filtre_boucle_ordre_1, filtre_boucle_ordre_2"]}
{"id": "C102", "title": "Carrier PLL", "statement": "Feeding the PLL in several blocks gives the same output as feeding it at once; each output sample has the modulus of the input sample; for any sequence of amplitudes and M-PSK data with constant phase error |φ|<π/M the first-order loop with the tan detector leaves exactly φ·e^{-n/tc} of phase error on sample n.", "quantifier": "every configuration, state, signal, cutting; every data sequence and phase error", "why_tests_cant": "The claim is over all signals, data sequences and cuttings of the stream.", "anchors": ["core/src/telecom/carrier-rec.cc: CPLL, cpll_création"]}
{"id": "C103", "title": "Localisation of a frequency peak", "statement": "For any signal of even length, localise_pic_frequence triggers no assertion and returns the frequency of a bin of maximal energy, within [-1/2,1/2], corrected by at most 1/N; for a complex exponential on a bin the frequency is exact and the SNR is N.", "quantifier": "every signal of length N", "why_tests_cant": "Holds for every signal and every length; the odd-length failure is at one precise bin per length.", "anchors": ["core/src/telecom/carrier-rec.cc: localise_pic_frequence, SuiviPicFrequence"]}
{"id": "C104", "title": "Adaptive equaliser: block cut, output rate, fixed point and descent", "statement": "An adaptive equaliser created with a structure (DFE or linear), an error function (CMA or decision) and an oversampling factor K gives the same outputs whatever the cut of the input into blocks, gives exactly one output per K inputs, lets an already equal (decision-exact, unit modulus for CMA) signal through unchanged, and each update with a small enough step does not increase the error it minimises; an unknown structure or error name is refused.", "quantifier": "all filter lengths, step sizes, decision functions, input streams and cuts", "why_tests_cant": "the tests run one channel and look at a plot; the statement ranges over all streams, cuts, states and steps", "anchors": ["core/src/telecom/egalisation.cc"]}
{"id": "C105", "title": "Zero-forcing equaliser: convolution matrix, delayed target, least squares", "statement": "The zero forcing design builds the full convolution matrix of the channel, a unit target delayed to about the middle of the total response, and the returned filter is the one whose convolution with the channel is the closest, in least squares, to that delay; an equaliser shorter than the channel is refused.", "quantifier": "all channels h and equaliser lengths n", "why_tests_cant": "only two channels are tested, and with the plotted result", "anchors": ["core/src/telecom/egalisation.cc"]}
{"id": "C106", "title": "Clock recovery: block cut, symbol rate and sense of correction", "statement": "The clock recovery with interpolator outputs the same symbols whatever the cut of the input into blocks, never more than one symbol per 3/4 symbol period and never fewer than one per 5/4, and moves the sampling instant in the direction that cancels the timing error.", "quantifier": "all configurations, interpolators, input streams and cuts", "why_tests_cant": "tests use one shaped random signal; rates and cuts are universal claims", "anchors": ["core/src/telecom/clock-rec.cc"]}
{"id": "C107", "title": "SNR estimator: block cut, power and convergence", "statement": "The recursive moment-based SNR estimator gives the same estimates whatever the cut into blocks, estimates a signal and a noise power that are non negative and add to the exponentially averaged power, and on a constant modulus signal its noise estimate tends to zero and its signal estimate to the true power.", "quantifier": "all forgetting factors in [0,1] and all complex streams", "why_tests_cant": "the test uses one noise level; convergence is a statement over infinite histories", "anchors": ["core/src/telecom/snr.cc"]}
{"id": "C108", "title": "The polar frequency discriminator returns the phase increment", "statement": "For a signal of positive amplitude whose phase moves by less than half a turn per sample, the discriminator outputs exactly the phase increment from one sample to the next (0 for the first sample), whatever the amplitude, the constant phase and gain, and the way the signal is cut into blocks; its values lie in (-pi, pi], a frequency shift of the input adds that frequency modulo 2 pi, and on the output of the library's FSK modulation stage it returns the filtered symbol up to one positive constant.", "quantifier": "all complex signals, all amplitudes and phases, all block cuttings, all modulation indexes with |index| < oversampling", "why_tests_cant": "a statement about every real phase function and every cutting; tests sample a few FM signals", "anchors": ["core/src/telecom/analogique.cc: discriminateur_fm, Discri"]}
{"id": "C109", "title": "Amplitude modulation puts the message on the carrier", "statement": "The AM modulator outputs message x carrier without residual carrier (suppressed carrier mode), (1 + m x normalised message) x carrier with a non-negative envelope (DSB mode, m <= 1), and only the upper (resp. lower) side band of a tone in USB (resp. LSB) mode, independently of the block cutting.", "quantifier": "all messages, carrier frequencies, modulation indexes in [0,1], tone frequencies in (0, 1/2), block cuttings", "why_tests_cant": "infinitely many messages, frequencies and cuttings", "anchors": ["core/src/telecom/analogique.cc: ModulateurAM"]}
{"id": "C110", "title": "Amplitude demodulation recovers the tone of the selected side band", "statement": "The AM demodulator produces audio for DSB modulations, and for USB (resp. LSB) a tone above (resp. below) the carrier is recovered at its own frequency with gain 1+G while the image tone is attenuated by 1-G, G being the Hilbert filter gain.", "quantifier": "all carriers, tones in (0, 1/2), initial phases, block cuttings and all audio filters", "why_tests_cant": "infinitely many tones, phases and cuttings", "anchors": ["core/src/telecom/analogique.cc: DemodulateurAM"]}
{"id": "C111", "title": "Bit stream comparison counts the errors after alignment", "statement": "cmp_bits succeeds on any two bit streams; with the reported shift, the returned streams are the common parts of the inputs, the number of errors is the number of differing compared positions (all of them up to 100 common bits, all but the first and last 50 beyond) and the rate is that number over the size of the window; a stream compared with itself shifted by zeros gives the shift and no error; cmp_bits_psk returns the rotation with the fewest errors (the first one), and no error for a rotated copy.", "quantifier": "all bit streams, shifts, paddings, numbers of bits per symbol and constant rotations", "why_tests_cant": "all streams and shifts; tests use a few random streams", "anchors": ["core/src/telecom/telecom.cc: cmp_bits, cmp_bits_psk"]}
{"id": "C112", "title": "The score of the pattern detector is the normalised correlation", "statement": "In the filter mode (MODE_RIF) the detector accepts every sequence of blocks of at least two samples and its output at index k is the documented score of the M samples that end at k (correlation with the pattern divided by the square root of the product of the energies, up to the constant 1e-20 added to the energy and the suppression of the correlations below 1e-6), whatever the blocks. The score lies in [0, 1[, the Cauchy-Schwarz bound is reached exactly by the scaled copies of the pattern, and for a scaled copy the estimated complex gain is the scale factor. For a pattern whose imaginary part is relatively small (sum of the absolute imaginary parts below 1e-7 times the sum of the modules) the correlation is the one with its real part, and the score differs from the documented one by at most 1e-7 times the square root of M when neither is suppressed.", "quantifier": "every non-null pattern of at least two samples, every signal, every arrangement in blocks", "why_tests_cant": "the blocks and the samples range over infinite sets; tests only see a few signals", "anchors": ["core/src/fourier/detection.cc", "core/include/tsd/fourier.hpp:545-640"]}
{"id": "C113", "title": "The detections of the pattern detector are the isolated peaks of the score", "statement": "After any blocks that end below the threshold, a sample inside the next block whose score is above the threshold and strictly larger than the others at less than a pattern length is reported with its position, interpolated position (less than half a sample away), score, gain and phase; every reported detection has a score above the threshold and is a maximum in its segment. Refuted: absence of a higher peak within half a pattern length (an erosion in fixed segments hides it), gain and phase that are numbers (a flat top gives 0/0), independence from the cut in blocks (a detection that is pending at the end of a block and fails makes the whole next block silent).", "quantifier": "every non-null pattern of at least two samples, every non-negative threshold, every history of blocks", "why_tests_cant": "the property depends on the whole history of blocks and on the position of each peak relative to the cuts", "anchors": ["core/src/fourier/detection.cc:205-490", "core/include/tsd/fourier.hpp:545-640"]}
{"id": "C114", "title": "The default (overlap-add) mode of the pattern detector computes the same score, with an automatic block size", "statement": "In the default mode, with a block size Ne such that the transform size N satisfies 2M <= N <= 2Ne, the detector is created, accepts every sequence of blocks whose sizes are multiples of Ne, its output g is the documented score of the window that starts at g - Ne, and the clear peaks are reported with their position, gain and phase. With Ne = 0 the block size is chosen so that Ne + M - 1 is the power of two of least cost, and the conditions above hold for every pattern of 4 to 2^25 samples. Refuted: blocks of any size (a size that is not a multiple of the hidden Ne fails an assertion); patterns of any size (1 or 2 samples fail an assertion).", "quantifier": "every non-null pattern, every block size within the stated conditions, every history of blocks", "why_tests_cant": "the equality of the overlap-add and of the direct correlation is over all signals, block sizes and histories", "anchors": ["core/src/fourier/detection.cc", "core/src/fourier/fourier.cc:590-735", "core/include/tsd/fourier.hpp:545-640"]}
{"id": "C115", "title": "Kalman filter: covariance, optimality, exactness", "statement": "Each step of the Kalman filter (Q positive semi-definite, R positive definite) keeps the covariance symmetric positive semi-definite; the reported covariance is the covariance of the estimation error of the model, its inverse is the information form, and it is the smallest one over all linear gains, at every step and over whole runs; the estimation error follows a linear recursion that does not depend on the state nor the inputs; without noise and from the exact state the estimates are the states for ever. Refuted: a model built with ssm_lineaire (documented default Q = 0) cannot be filtered; steps ignores the first observation of every call.", "quantifier": "every dimension, every linear model, every covariance, every sequence of gains, observations and inputs", "why_tests_cant": "optimality is over all possible gains and all runs; tests compare a few runs", "anchors": ["core/src/kalman/kalman.cc", "core/include/tsd/apps/kalman.hpp:filtre_kalman"]}
{"id": "C116", "title": "Kalman filter = weighted least squares", "statement": "On models with invertible covariances, the estimate after n observations is the last state of the unique trajectory minimising the weighted least-squares cost (initial state, process and observation deviations) over all trajectories.", "quantifier": "every dimension, every model, every list of observations and inputs, every competing trajectory", "why_tests_cant": "quantifies over all trajectories of all lengths", "anchors": ["core/src/kalman/kalman.cc", "core/include/tsd/apps/kalman.hpp:filtre_kalman"]}
{"id": "C117", "title": "Kalman filter on a constant = weighted mean", "statement": "On modele_constante(R), after n observations the estimate is (R x0 + p0 sum y)/(R + n p0) and the variance R p0/(R + n p0).", "quantifier": "every R > 0, initial state and variance, list of observations", "why_tests_cant": "closed form over all lengths", "anchors": ["core/src/kalman/kalman.cc:modele_constante"]}
{"id": "C118", "title": "Steady-state gain and Riccati equation", "statement": "On scalar models (c nonzero, q, r > 0) the Riccati equation has one non-negative solution P, the gains of the filter converge geometrically to c P/(r + c^2 P) from every initial variance, dare returns a value whose distance to P is bounded by its reported error and which reaches every tolerance with enough iterations; kalman_ssg is that limit when c is 1 or -1. Refuted: kalman_ssg for c = 2; the null gain returned when Q = 0 on an unstable model; models whose numbers of states and observations differ (failure); dare on coupled states does not solve the documented equation (element-wise products).", "quantifier": "every scalar model, every initial variance, tolerance and number of iterations; every model of unequal dimensions", "why_tests_cant": "limits and all tolerances", "anchors": ["core/src/kalman/kalman.cc:dare", "core/src/kalman/kalman.cc:kalman_ssg"]}
{"id": "C119", "title": "Extended Kalman filter", "statement": "On linear models whose observation is the state and without input, the extended filter is the Kalman filter; on every model, from the exact state and the exact observation, a successful step returns the exact next state; the numerical Jacobian is exact on affine functions and off by at most M 1e-5 when the derivative moves by at most M t. Refuted: no step succeeds when the numbers of states and observations differ or when Q is left to its default; with an observation coefficient 2 the gain is not that of the Kalman filter; with -2 the variance becomes negative; the inputs are ignored.", "quantifier": "every model (functions, Jacobians, covariances), state and observation", "why_tests_cant": "all functions and states", "anchors": ["core/src/kalman/kalman.cc:filtre_ekf", "core/src/kalman/kalman.cc:jacobienne_num"]}
{"id": "C120", "title": "Simulation of state-space models", "statement": "The first simulation of a linear model follows the documented equations with noises equal to the square roots of Q and R times the draws; on models given by functions two calls continue the simulation and null draws give the iterates of the transition; noise-free simulation followed by the filter from the same state returns the simulated states. Refuted: the first observation never has noise; on linear models a second call starts again from the same state; a change of Q or R after a simulation is ignored; the Kitagawa model used in the extended filter keeps the index of the object.", "quantifier": "every model, initial state, input, draws, cut of the simulation", "why_tests_cant": "all runs and cuts", "anchors": ["core/src/kalman/kalman.cc:SSM::steps", "core/include/tsd/apps/kalman.hpp:SSM"]}
{"id": "C121", "title": "Base-band transposition shifts by the intermediate frequency without discontinuity", "statement": "On complex input, transpo_bb multiplies sample t of the whole stream by exp(-2 pi i fi t) whatever the cut into blocks, so a tone at fi+nu becomes the tone at nu; on real input the same product is filtered by a 63-coefficient symmetric low-pass and a real carrier gives the constant half amplitude plus the attenuated image. The requested rate adaptation (ratio_ar) is applied.", "quantifier": "every intermediate frequency, ratio, input stream and cut into blocks", "why_tests_cant": "tests use one frequency and one block; the phase continuity must hold for all cuts and histories", "anchors": ["core/src/telecom/canalisation/transpo-bb.cc: TranspoBB", "core/include/tsd/telecom.hpp: transpo_bb"]}
{"id": "C122", "title": "The channel simulator applies the requested offsets and signal to noise ratio", "statement": "The propagation channel emulator multiplies the stream by exp(i(phi + 2 pi f/fe t)) coherently across the blocks, adds noise so that Eb/N0 is the configured one, delays the stream by the configured delay, and its result does not depend on the cut into blocks.", "quantifier": "every configuration, every input stream, every cut into blocks, every draw of the noise", "why_tests_cant": "a simulation run measures one noise draw; exactness of the ratio and independence from the block cut quantify over all streams", "anchors": ["core/src/telecom/ecp.cc: ECP", "core/src/telecom/telecom.cc: bruit_awgn"]}
{"id": "C123", "title": "The frequency-hopping modulator moves each slot to the frequency of the sequence", "statement": "fhss_modulation keeps the modulus of every sample and shifts slot k by the frequency seq[k mod n] * df, for blocks of any number of slots.", "quantifier": "every sequence, step, slot duration, resampler, input stream and cut into blocks", "why_tests_cant": "tests look at a spectrogram of one sequence; the property is over all sequences and block sizes", "anchors": ["core/src/telecom/canalisation/etalement-spectre.cc: FHSSModulation"]}
{"id": "C124", "title": "Direct-sequence spreading is the product with the periodic sequence and is undone by it", "statement": "dsss_modulation multiplies sample j of the resampled stream by chip j mod n, the sequence going on from one block to the next; with chips of +-1 a second product restores the stream; incompatible sizes are refused.", "quantifier": "every sequence of chips, oversampling, resampler, input stream and cut into blocks of whole symbols", "why_tests_cant": "the index carried over between blocks must be right for all histories", "anchors": ["core/src/telecom/canalisation/etalement-spectre.cc: DSSSModulation"]}
{"id": "C125", "title": "The dispersive channel uses each generated gain once and in order, with unit power", "statement": "canal_dispersif multiplies sample t of the stream by gain t of the sequence of generated gains, whatever the cut into blocks; blocks of every size are accepted; the gains of a Rice channel have unit mean power.", "quantifier": "every sequence of blocks, every draw of the gains, every K", "why_tests_cant": "gains left over from one call are used by the next; all histories matter", "anchors": ["core/src/telecom/simulation.cc: CanalDispersif"]}
{"id": "C126", "title": "Channel capacity, thermal noise and Doppler distribution obey their laws", "statement": "The capacity is null without signal, strictly increasing and proportional to the bandwidth; the thermal noise is proportional to bandwidth and absolute temperature; the Doppler density is non-negative, symmetric, null outside +-fd and integrates to the arcsine law.", "quantifier": "every real argument (fd, B positive)", "why_tests_cant": "laws over all real arguments, including an integral", "anchors": ["core/src/telecom/limits.cc: capacite_canal_awgn", "core/src/telecom/simulation.cc: bruit_thermique, doppler_distri"]}
{"id": "C127", "title": "The inverse wavelet transform restores the signal", "statement": "For every lifting scheme, depth and signal length, iwt applied to the result of dwt returns the original samples ('restitue les valeurs originales'), and every depth is accepted or refused cleanly.", "quantifier": "every lifting scheme (any number of stages and Laurent polynomials), every signal, every depth", "why_tests_cant": "the test of the library only prints the reconstruction error; invertibility must hold for all schemes and all sizes", "anchors": ["core/src/fourier/tod.cc: dwt, iwt, split, merge, OndeletteGen", "core/include/tsd/fourier/tod.hpp"]}
{"id": "C128", "title": "Haar and Daubechies transforms compute block means and vanishing moments", "statement": "The Haar transform of m 2^d samples returns the means of the blocks and, at each scale, the differences of the means of the half blocks; the Daubechies wavelet of order 2 annihilates affine signals; the transform is orthonormal.", "quantifier": "every signal, every number of blocks m and depth d", "why_tests_cant": "identities over all signals and all depths", "anchors": ["core/src/fourier/tod.cc: lift_haar, lift_db2, dwt"]}
{"id": "C129", "title": "Polyphase and quadrature mirror forms agree with the lifting scheme", "statement": "The polyphase matrix of a lifting scheme is the product of its stages with the normalisation K, its determinant is 1, a step of the transform acts on geometric signals as that matrix (normalisation apart), and the mirror filters are H00(z^2)+z H01(z^2) and H10(z^2)+z H11(z^2) up to delays.", "quantifier": "every lifting scheme, every z, every position away from the borders", "why_tests_cant": "polynomial identities over all schemes", "anchors": ["core/src/fourier/tod.cc: FormePolyphase, QMF, laurent_mac"]}
{"id": "C130", "title": "Amplitude response of linear-phase FIR filters", "statement": "For a symmetric filter h, rifamp2/rifampn return the real amplitude A with H(f) = exp(-i pi f (n-1)) A(f) at every frequency; for an antisymmetric filter H = i exp(..) A; rifamp (by FFT) returns the same values on the grid i/(2L).", "quantifier": "every filter length, coefficient vector and frequency list", "why_tests_cant": "identity over all real coefficient vectors and frequencies", "anchors": ["core/src/filtrage/rif-eq.cc: rifamp_impl, riftype, rifamp2, rifampn, rifamp"]}
{"id": "C131", "title": "Equiripple design is a minimax certificate", "statement": "The filter returned by design_rif_eq has nc coefficients and is symmetric; no symmetric filter of the same length has all its weighted errors on the grid below the smallest weighted error of the returned filter, hence the returned filter is optimal up to its ripple spread; the iteration stops only after 100 steps or when the spread is below 1e-5; the design returns whenever the template cannot be met exactly.", "quantifier": "every length, template, positive weights, and every correct least-squares solver", "why_tests_cant": "optimality over a continuum of competing filters", "anchors": ["core/src/filtrage/rif-eq.cc: lsi, design_rif_eq"]}
{"id": "C132", "title": "Half-band filters", "statement": "design_rif_demi_bande returns, for odd n >= 3, a symmetric filter with central coefficient 1/2, null coefficients at even distances of the centre, A(f)+A(1/2-f)=1 for all f and A(1/4)=1/2; even n and n=1 are refused; the pass band of the prototype is [0, 2 fc); the design succeeds for every fc > 1/64 and fails for fc <= 0.", "quantifier": "every odd length, every cut-off frequency, every frequency", "why_tests_cant": "functional identity on a continuum of frequencies", "anchors": ["core/src/reechan/hb.cc: design_rif_demi_bande"]}
{"id": "C133", "title": "Frequency specifications become the requested template", "statement": "design_rif_eq(nc, spec) with ordered intervals optimises a template equal to the requested gain with the requested weight on each interval, affine between consecutive intervals with negligible weight, and default values elsewhere.", "quantifier": "every list of ordered intervals and every number of coefficients", "why_tests_cant": "all interval lists", "anchors": ["core/src/filtrage/rif-eq.cc: design_rif_eq(nc, spec)"]}
{"id": "C134", "title": "Frequency responses of a design", "statement": "repfreq(d, fr) is the transfer function of d at exp(2 pi i f) for each requested f; frmag(d, npts) returns the npts frequencies i/(2 npts) and the moduli of the response there, whichever way (Fourier transform or rational evaluation) it is computed; frphase(d, npts) returns arguments of that response whose successive differences never exceed pi.", "quantifier": "every FIR, real or complex rational design, every list of frequencies, every number of points", "why_tests_cant": "all designs and grids", "anchors": ["core/src/filtrage/filtre-analyse.cc: repfreq, frmag, frphase", "core/include/tsd/filtrage.hpp: repfreq, frmag, frphase"]}
{"id": "C135", "title": "Impulse and step responses of a design", "statement": "repech(d, npts) returns the response to a step: for a FIR filter, the cumulated sums of the coefficients, ending at the gain at the null frequency; repimp(d) returns the coefficients of a FIR filter, and for another design the response to an impulse cut after its last significant sample.", "quantifier": "every design and every requested length", "why_tests_cant": "all designs and lengths", "anchors": ["core/src/filtrage/filtre-analyse.cc: repech, repimp"]}
{"id": "C136", "title": "Group delay of linear-phase designs", "statement": "frgroup(d, npts) returns on its grid exactly the delay of a linear-phase design (half the order for a symmetric FIR filter) between any two consecutive points where the amplitude does not vanish and keeps its sign, and not-a-number where the sign changes.", "quantifier": "every linear-phase design, every number of points larger than twice the delay", "why_tests_cant": "all designs and grids", "anchors": ["core/src/filtrage/filtre-analyse.cc: frgroup"]}
{"id": "C137", "title": "Automatic analysis of a filter", "statement": "analyse_filtre(d) reports the gains at the null and Nyquist frequencies, the type (low-pass, high-pass, band-pass, band-stop) given by these gains, the widths at -3 and -6 dB, the first and the worst secondary lobes with their frequencies and attenuations, all being those of the magnitude response on the analysis grid.", "quantifier": "every non-empty FIR filter", "why_tests_cant": "all coefficient vectors", "anchors": ["core/src/filtrage/filtre-analyse.cc: analyse_filtre"]}
{"id": "C138", "title": "A chain of second-order sections realises its transfer function", "statement": "filtre_sois(h) returns, for a transfer function whose zeros and poles come in conjugate pairs, a filter whose output satisfies the difference equation of h at every time (with zeros before the signal), in both direct forms, for real and complex samples and for every cutting of the stream.", "quantifier": "every transfer function with conjugate zeros and poles, every stream and cutting, both structures", "why_tests_cant": "all pole/zero sets and all streams", "anchors": ["core/src/filtrage/filtre-rt.cc: ChaineSOIS, filtre_sois", "core/include/tsd/filtrage.hpp: filtre_sois, filtrer"]}
{"id": "C139", "title": "The demodulator is a stream operator", "statement": "Received samples can be given to a demodulator (default, decision-directed architecture) in blocks of any sizes, empty ones included: the concatenated bits do not depend on the cutting, for every waveform, every shaping and every setting of the clock, carrier and gain loops, also after a reset.", "quantifier": "every configuration and decision context, every signal, every cutting into blocks, before or after any reset", "why_tests_cant": "all signals, cuttings and histories", "anchors": ["core/src/telecom/demod-dec.cc: DemodGen2::step, RecHorloge", "core/include/tsd/telecom.hpp: démodulateur_création, Démodulateur"]}
{"id": "C140", "title": "Modulator to demodulator round trip without loops", "statement": "Without loops the demodulator decides on exactly one sample out of osf, and any bits modulated then received at the intermediate frequency fi with a noise below half the minimal distance of the constellation come back exactly, whatever the pulse shaping and the cuttings.", "quantifier": "every constellation, oversampling factor, intermediate frequency, bit sequence, noise below the margin and cuttings", "why_tests_cant": "all bit sequences and all bounded noises", "anchors": ["core/src/telecom/demod-dec.cc: DemodGen2::step", "core/src/telecom/modulateur.cc", "core/src/telecom/modulations.cc"]}
{"id": "C141", "title": "Carrier and gain loops at rest on the nominal signal", "statement": "On the modulator's own signal, received without noise at the intermediate frequency, the carrier loop and the gain control do not move, whatever their settings, and all bits come back exactly.", "quantifier": "every constellation, loop setting, bit sequence and cutting", "why_tests_cant": "all settings of the loops and all sequences", "anchors": ["core/src/telecom/demod-dec.cc: DemodGen2::step"]}
{"id": "C142", "title": "Gain control of the demodulator", "statement": "Whatever the received level, the automatic gain control of the demodulator brings the level of the symbols back to that of the constellation, without decision errors on PSK.", "quantifier": "every PSK order, level, residual phase below half a sector, symbol sequence, time constant and cutting", "why_tests_cant": "limit behaviour over unbounded streams", "anchors": ["core/src/telecom/demod-dec.cc: DemodGen2::step (CAG)"]}
{"id": "C143", "title": "Clock recovery of the demodulator never fails and keeps the symbol rate", "statement": "With the clock recovery active the demodulator processes any signal without error, and the number of decided symbols stays within a quarter of a period per symbol of the number of samples divided by osf.", "quantifier": "every waveform without memory, oversampling factor, interpolator, matched filter and signal", "why_tests_cant": "all signals, including adversarial ones", "anchors": ["core/src/telecom/demod-dec.cc: RecHorloge"]}
{"id": "C144", "title": "Modulator to demodulator round trip with all loops", "statement": "Any bits modulated and received without noise at the intermediate frequency come back exactly, without lost or inserted symbol, from the demodulator with matched filter, clock, carrier and gain recovery active.", "quantifier": "every constellation, loop setting, even oversampling factor, interpolator, bit sequence and cuttings", "why_tests_cant": "all settings and sequences", "anchors": ["core/src/telecom/demod-dec.cc: DemodGen2, RecHorloge", "core/src/telecom/modulateur.cc"]}
{"id": "C145", "title": "Resetting a demodulator forgets the past", "statement": "After any reception and a reset, the demodulator gives on any signal the bits a new demodulator would give.", "quantifier": "every configuration, every past signal, every later signal, every cutting", "why_tests_cant": "all histories", "anchors": ["core/src/telecom/demod-dec.cc: DemodGen2::reset, RecHorloge::reset"]}
{"id": "C146", "title": "Frame receiver: frames delivered are exactly those of the detected headers", "statement": "When the calls to the frame receiver succeed, the frames delivered correspond in order, at most one each, to headers reported by the detector; the bits of each frame are the first nbits bits of demodulating in one go the samples that follow the header, even across blocks and calls; and a header not followed by another one before its frame is complete does give its frame.", "quantifier": "every valid configuration (linear waveform), every detector, every signal, every cutting of the signal into calls", "why_tests_cant": "signals, block boundaries and cuttings are unbounded; tests use a few", "anchors": ["core/src/telecom/recepteur.cc: RécepteurImpl::step, step_Ne, step_demod"]}
{"id": "C147", "title": "Frame receiver: the size of the calls does not matter", "statement": "Two ways of cutting the same signal into calls either both fail or deliver the same frames (bits, symbols, samples, gain, phase, score), in the same order, except for the reported position.", "quantifier": "every configuration, every signal, every pair of cuttings", "why_tests_cant": "infinitely many cuttings", "anchors": ["core/src/telecom/recepteur.cc: RécepteurImpl::step, tampon"]}
{"id": "C148", "title": "Frame receiver: absence of errors", "statement": "With a memoryless decision, without loops in the demodulator, and a detector that reports positions of the previous block with non-zero gains and precise positions at less than one sample, no call fails; a detection without precise position, with a zero gain or whose data begin after the block makes the call fail.", "quantifier": "every valid configuration, signal, cutting and sequence of detections", "why_tests_cant": "requires all detection sequences and cuttings", "anchors": ["core/src/telecom/recepteur.cc: step_Ne, step_demod"]}
{"id": "C149", "title": "Frame receiver: reported positions", "statement": "The position reported in a frame, added to the number of samples of the previous calls, is the absolute position of the header. (True for calls that are multiples of the block size, relative to the call of the detection; false otherwise.)", "quantifier": "every configuration, signal, and sequence of calls", "why_tests_cant": "depends on the alignment of unboundedly many calls", "anchors": ["core/src/telecom/recepteur.cc: cnt_x", "core/include/tsd/telecom.hpp: RécepteurTrame"]}
{"id": "C150", "title": "Frame receiver: no frame whose samples are all present is lost", "statement": "Every detected header whose frame is entirely in the signal gives a frame. (False: a header found during a frame abandons the frame in progress.)", "quantifier": "every signal and sequence of detections", "why_tests_cant": "needs all interleavings of detections and blocks", "anchors": ["core/src/telecom/recepteur.cc: step_Ne, demod_en_cours"]}
{"id": "C151", "title": "Frame receiver: the pattern of the detector is the modulated header", "statement": "For NRZ pulses the pattern is the modulated header shifted by one sample (a zero first, the last sample missing), for every header, waveform and oversampling factor; it is never exactly the modulated header.", "quantifier": "every waveform, header and oversampling factor", "why_tests_cant": "headers and factors are unbounded", "anchors": ["core/src/telecom/recepteur.cc: RécepteurImpl::configure"]}
{"id": "C152", "title": "Frame receiver: the bits received are the bits sent", "statement": "With NRZ pulses, a header detected at its exact position, gain and phase, and a noise (plus interpolator error) smaller than half the minimal distance, the frame delivered contains exactly the bits sent.", "quantifier": "every constellation, oversampling factor, bits, noise under the bound, cutting into calls", "why_tests_cant": "noise and bits range over infinite sets", "anchors": ["core/src/telecom/recepteur.cc: step_demod, calc_retard, regle_delais"]}
{"id": "C153", "title": "Sinc interpolator: windowed ideal low-pass filter", "statement": "The coefficients are the impulse response of the ideal low-pass filter at the delay of the phase grid just below the one requested, times the Hann window centred on the delay; at the cut-off 1/2 the integer delays are exact; delays t and 1-t are mirror images; the gain is not normalised.", "quantifier": "every number of coefficients, cut-off, number of phases, delay in [0,1]", "why_tests_cant": "real parameters", "anchors": ["core/src/reechan/itrp.cc: InterpolateurSinc"]}
{"id": "C154", "title": "Announced BPSK error rate is the true one", "statement": "For the BPSK, the rate returned by ber at a normalised SNR Eb/N0 is exactly the bit error probability of the library's own decision on its own constellation, with equiprobable symbols and white Gaussian noise of variance N0/2 per component.", "quantifier": "every normalised SNR in dB", "why_tests_cant": "a probability over a continuous noise, for every real SNR", "anchors": ["core/src/telecom/modulations.cc: FormeOndePSK::ber, FormeOndePSK::symbole_plus_proche, calc_ctx_psk"]}
{"id": "C155", "title": "QPSK and pi/4-QPSK error rates against the announced ones", "statement": "With the library's own bit mapping (not a Gray code) the bit error rate of the QPSK and of the pi/4-QPSK is 3/2 p - p^2, where p is the rate returned by ber; the returned rate is therefore strictly below the true one. (All rates up to 2v/10^96, from the initial bound 1e100 of the library's nearest-symbol search.)", "quantifier": "every normalised SNR; both phases of the pi/4 alternation", "why_tests_cant": "a probability over a continuous noise, for every real SNR", "anchors": ["core/src/telecom/modulations.cc: FormeOndePSK::ber, FormeOnde_π4QPSK::ber"]}
{"id": "C156", "title": "ASK error rates against the announced ones", "statement": "For an antipodal ASK (levels symmetric around zero) with k bits per symbol, k times the rate returned by ber is the symbol error rate of the library's decision, and the bit error rate lies between the returned rate and k times it. For other levels (on-off keying) the returned rate is below the true one. (All rates up to 2v/10^96, from the initial bound 1e100 of the library's nearest-symbol search.)", "quantifier": "every number of bits, level range up to 1e40, normalised SNR", "why_tests_cant": "a probability over a continuous noise, for every real SNR and every order", "anchors": ["core/src/telecom/modulations.cc: FormeOndeASK::ber, FormeOnde::symbole_plus_proche"]}
{"id": "C157", "title": "QAM error rates against the announced ones", "statement": "For a square QAM with 2l bits per symbol the bit error rate of the library's decision lies between the rate returned by ber and l times it; for the 4-QAM the returned rate is exact. (All rates up to 2v/10^96, from the initial bound 1e100 of the library's nearest-symbol search.)", "quantifier": "every square QAM, every normalised SNR", "why_tests_cant": "a probability over a continuous noise, for every real SNR and every order", "anchors": ["core/src/telecom/modulations.cc: FormeOndeQAM::ber, FormeOndeQAM"]}
{"id": "C158", "title": "M-PSK error rates against the announced ones", "statement": "For a M-PSK with k >= 2 bits per symbol the symbol error rate of the library's decision lies between k p / 2 and k p, where p is the rate returned by ber, and the bit error rate between p / 2 and k p. (All rates up to 2v/10^96, from the initial bound 1e100 of the library's nearest-symbol search.)", "quantifier": "every order 2^k, every normalised SNR", "why_tests_cant": "a probability over a continuous noise, for every real SNR and every order", "anchors": ["core/src/telecom/modulations.cc: FormeOndePSK::ber, FormeOndePSK::symbole_plus_proche"]}
{"id": "C159", "title": "Shape of the announced error-rate curves", "statement": "Every announced error rate is positive, at most 1/2 and strictly decreasing with the normalised SNR; BPSK, QPSK, pi/4-QPSK, 2-ASK and 4-QAM announce the same curve, and the FSK the BPSK curve shifted by 10 log10(2) dB.", "quantifier": "every order, every normalised SNR", "why_tests_cant": "real parameter; monotony over all pairs", "anchors": ["core/src/telecom/modulations.cc: ber, FormeOndeFSK::ber", "core/include/tsd/tsd.hpp: db2pow"]}
{"id": "C160", "title": "One-shot generation of samples", "statement": "For every bit stream the samples generated are the superposition of the shaping pulses sent every osf samples and weighted by the symbols, all pulses being complete; the returned delay is the centre of the first pulse (symmetric filter), so that with a Nyquist pulse the samples at delay + m osf are the symbols. For a frequency modulation the samples have modulus 1 and a phase increment proportional to the filtered symbols, bounded by the peak deviation.", "quantifier": "every waveform, filter of non-zero energy, oversampling factor, bit stream", "why_tests_cant": "unbounded streams and arbitrary real filters", "anchors": ["core/src/telecom/modulations.cc: FormeOnde::génère_échantillons, CtxGenImpl::step"]}
{"id": "C161", "title": "Subspace spectrum (MUSIC)", "statement": "For the covariance matrix of n sources in white noise the level returned for each test vector is the inverse of its squared distance to the signal space, whatever eigenvectors the solver returns; with the default sweep the spectrum is infinite exactly at the grid frequencies that are those of the sources modulo 1. The automatic number of sources is the number of sources.", "quantifier": "every dimension, number of sources below it, powers, noise level, solver result, sweep", "why_tests_cant": "real matrices of any dimension; the eigenvectors are not unique", "anchors": ["core/src/stats.cc: subspace_spectrum", "core/include/tsd/stats.hpp: SubSpaceSpectrumConfig"]}
{"id": "C162", "title": "Directions of arrival", "statement": "The theoretical steering vectors and covariance matrix are those of a linear array whose positions are in wavelengths, with the requested signal to noise ratio (positive definite matrix); the angles of arrival returned are those of the sources.", "quantifier": "every array, angles, SNR, solver result", "why_tests_cant": "real parameters", "anchors": ["core/src/apps/doa.cc: steervec_1d, sensorcov_1d, musicdoa_1d"]}
{"id": "C163", "title": "Numerical integration and Fourier transform of a function of time", "statement": "intégrale_trap is the trapezoidal rule on the n - 1 equal intervals: it is exact for affine functions, its error is at most |b-a|³ ζ / (12 (n-1)²) for a second derivative bounded by ζ, and it reads out of range for n = 0. tfc returns, for each of the nf frequencies of the regular grid from -δF/2 to δF/2, the Fourier integral truncated to [-δT/2, δT/2] within an explicit bound decreasing as 1/(nt-1)². Sample i of a sampled function is its value at tmin + i / fe. The unit step is not 0 before 0: it is the sign function.", "quantifier": "every function (with bounded derivatives for the error bounds), interval, number of points and of frequencies", "why_tests_cant": "the error must be bounded for every function and every number of points", "anchors": ["core/src/ct.cc: intégrale_trap, tfc, fct_échelon", "core/include/tsd/ct.hpp: FonctionEchantillonnée"]}
{"id": "C164", "title": "Text of a physical value", "statement": "For a unit and a value of magnitude below 2e18, valeur_vers_chaine returns a number, a space, a prefix and the unit; the number is within 2^-22 of the value expressed in the prefixed unit, exact when the value has at most 6 decimals in this unit, and from 1e-3 to 1e12 the value in this unit is between 1 and 1000. Without unit, below 2e9, the number is followed by nothing or a power of ten and below 1/10 it is between 1 and 10. A whole value of 2^31 or more without unit overflows an int; a value below 1e-13 with a unit is shown as 0; the common exponent of a list of tics is that of the last non-zero one, whatever the others; the common number of decimals is the maximum of those of the tics at this exponent.", "quantifier": "every value, unit and list of tics", "why_tests_cant": "the number of values is infinite and the cases depend on their magnitude", "anchors": ["core/src/vue/unites.cc: valeur_vers_chaine, calc_expo_nb_chiffres, calc_expo_nb_chiffres_commun, ndigits"]}
{"id": "C165", "title": "Copies between images", "statement": "For valid images and any rectangle, sous_image returns the requested pixels when the rectangle is inside, and an empty image otherwise; puti at any position not beyond the lower right corner (negative ones included) replaces exactly the covered pixels and leaves the others; clone is the identity; rotation_90 is the clockwise quarter turn and four of them are the identity; an opaque rectangle colours exactly its pixels inside of the image, whatever its corners. No access leaves the bitmap. puti beyond the right or lower edge calls itself endlessly; the version with a source rectangle writes outside of the bitmap.", "quantifier": "every image, source, position and rectangle", "why_tests_cant": "memory accesses must stay inside for every geometry", "anchors": ["core/src/vue/image-bmp.cc: sous_image, puti, clone, rotation_90, rectangle_plein"]}
{"id": "C166", "title": "Colours", "statement": "The conversions between a colour and its 32-bit code are inverse of each other; the text of an opaque colour gives back the colour, and more generally any list of numbers written with one of the four separators is read back; a text that does not begin with a digit gives black. Mixing with a ratio in [0, 1] stays between the two colours and reaches them at the ends; eclaircir and assombrir are monotone with the expected ends; the luminance fits in a byte and lies between the components.", "quantifier": "every colour, 32-bit word, list of numbers and ratio", "why_tests_cant": "2^32 colours and unbounded lists", "anchors": ["core/src/vue/image.cc: Couleur, parse_liste_entiers, mélange, eclaircir, assombrir, lumi", "core/include/tsd/vue/image.hpp: Couleur"]}
{"id": "C167", "title": "Drawing of points, lines and rectangles", "statement": "In an opaque colour, a point, a horizontal or vertical line of any thickness, and the outline of a rectangle give the colour to exactly the specified pixels that are in the image and leave all the other ones unchanged, whatever the coordinates; an oblique (antialiased) line is defined and only touches pixels at a distance of at most one of the line when its coordinate along the minor axis is positive at both ends; but (found) an oblique line that starts on a visible point of the first row takes the square root of a negative weight, and a line with both ends outside of the image is never drawn even if it crosses it.", "quantifier": "every image, every colour, every integer coordinates (also outside of the image), thickness and step", "why_tests_cant": "Tests draw a few shapes inside of a few images and look at them.", "anchors": ["core/src/vue/image-bmp.cc: ImageImpl::point, pta, ligne, ligne_aa_int, rectangle", "core/src/vue/image-bmp.cc: restreint_segment_rdi"]}
{"id": "C168", "title": "Circles and discs", "statement": "Drawing a circle is defined for every centre (also outside of the image), radius and colour, changes only pixels at a distance of less than one from the circle, is invariant by the eight symmetries of the square, and in each octant gives the two pixels of a row the weights of the linear interpolation; a filled circle colours every pixel at a distance of at most r - 1 and none at a distance of r + 1 or more; but (found) the last row of the octant can give the full weight to a pixel that is not beside the circle (radius 10).", "quantifier": "every image, centre, radius, colour, with and without antialiasing", "why_tests_cant": "Tests draw a few circles and look at them; holes and stray pixels depend on the radius.", "anchors": ["core/src/vue/image-bmp.cc: cercle8, cercle, cercle_plein"]}
{"id": "C169", "title": "Blending of images", "statement": "A translucent rectangle, the blending of two images of the same size, the placement of an image with its opacity and of a mask in the drawing colour mix exactly the pixels under the source, in proportion to the opacity, and leave all the other ones unchanged, for every position including partly to the left of or above the image; but (found) an image that overflows to the right or to the bottom is not drawn at all instead of being clipped, and the opacities of the image returned by blend_nv are never written.", "quantifier": "all images, positions (also negative), colours and opacities", "why_tests_cant": "Tests place a few images at a few positions; the clipping has one case per side.", "anchors": ["core/src/vue/image-bmp.cc: rectangle_plein_alpha, blend, blend_nv, puti_avec_gamma, put_gamma, calc_align"]}
{"id": "C170", "title": "Resizing of images", "statement": "Resizing a non empty image to at least two columns and two rows terminates, returns the requested size, and keeps every byte between the extreme values of the source (in particular a uniform image stays uniform); without decimation the four corners are those of the source; but (found) resizing to one column or one row divides zero by zero, and resizing to the same size is not the identity.", "quantifier": "every image and every target size", "why_tests_cant": "Tests resize a few images; the number of decimations and the positions depend on both sizes.", "anchors": ["core/src/vue/image-bmp.cc: redim, pixel_e"]}
{"id": "C171", "title": "Array arithmetic is element by element and checks shapes", "statement": "For arrays of the same dimensions, + - * / and the compound assignments give an array of the same dimensions whose elements are the operation of the elements; operands of different dimensions are refused; scalar operands act on every element; select, &&, ||, comparisons and the all/any tests of masks mean what they say.", "quantifier": "all arrays of any dimensions and element values, all element operations (including partial ones), all scalars, all masks", "why_tests_cant": "a test fixes a few shapes and values; shape errors and integer special cases only show for combinations nobody wrote down", "anchors": ["core/src/tableau.cc: DEF_OP_TAB, DEF_OP_TAB2, DEF_OP_SCAL, Tab::operator +=, Tab::inv, Tab::select", "core/include/tsd/tableau.hpp: TabT::select, operator &&, operator ||, tous_vrai, au_moins_un_faux, operator /(T2, TabT)"]}
{"id": "C172", "title": "Matrix access, rearrangements, sums and products", "statement": "Entry (i,j) is where the column-major layout says; transpose, reverse, reverse_rows, reshape, valeurs, row, col, set_row permute or copy exactly the documented entries (and are involutions where expected); row and column sums add up to the total; matprod is the matrix product (associative, eye neutral, transposition reverses it) and produit_lignes/produit_colonnes are products by a diagonal matrix.", "quantifier": "all matrices of any positive dimensions and entries, all indices", "why_tests_cant": "algebraic identities over all sizes and entries", "anchors": ["core/src/tableau.cc: Tab::transpose_int, Tab::matprod, Tab::reverse_rows, Tab::eye", "core/include/tsd/tableau.hpp: reshape, valeurs, row, set_row, somme_lignes, somme_colonnes, produit_lignes, produit_colonnes, dot, diagonal"]}
{"id": "C173", "title": "Demodulator without decision feedback: cutting into blocks, constructor, modes", "statement": "Two ways of cutting the same received signal into blocks, both accepted by the demodulator without decision feedback, give the same bits and the same final state (decision without memory, resamplers with the same property, not in the maximum likelihood mode with an FSK); the constructor gives such states; a call gives a multiple of k bits, and k bits per sample at one sample per symbol without filter; the gain control never divides by zero. Not true: the maximum likelihood mode with an FSK dereferences a null pointer at every call; the decision of the pi/4-QPSK depends on the cutting; reset leaves the state of the previous signal.", "quantifier": "all configurations, states built by the constructor, signals and cuttings", "why_tests_cant": "The cuttings of a stream and the received values are infinite in number; the null pointer only shows for one pair of options.", "anchors": ["core/src/telecom/demod-ndec.cc: DemodGen", "core/src/telecom/modulations.cc: decode_symboles"]}
{"id": "C174", "title": "Dates and times as text: printing, reading back, constructors", "statement": "In UTC mode, the printed text of any instant of the era is read back by lis_chaine as the instant rounded down to the second; Calendrier(\"D/M/Y\") and HeureComposite(\"H:M:S\") give the date / time for every valid date / time and every decimal writing of the fields (leading zeros or not), and whatever the text, what they accept is valid. Not true: in the default mode the printed text is read back one hour later; lis_chaine accepts invalid dates and reads uninitialised variables on an incomplete text; badly formatted texts are accepted by the constructors; the printed form of a date or of a time is rejected by the constructors.", "quantifier": "all instants of the era, all valid dates and times, all decimal writings, all texts", "why_tests_cant": "Texts and instants are infinite in number (3.10^17 instants).", "anchors": ["core/src/temps.cc: lis_chaine, Calendrier(string), HeureComposite(string), split, operator<<"]}
{"id": "C175", "title": "Durations, Julian days, sidereal time", "statement": "Durations built from a real number of units are within one microsecond and the precision of a double, exact for whole numbers, and given back within 3 µs; sums and differences cancel; products and quotients are within a microsecond; the composed constructor gives the sum of its fields; printed units; an instant built from a year and the number of the day equals the instant of the date; Julian days are exact within 0.2 ms on the whole era; sidereal times are the published angle in [0, 2pi) and turn at 1.00273790935 turns per day. Not true: durations are truncated (1.001 s has 1000999 µs), the composed constructor overflows at 600000 hours, negative durations are printed in microseconds, J2000() is 36525 at the epoch J2000.", "quantifier": "all real numbers of units, all durations and instants of the era, all longitudes", "why_tests_cant": "Values are infinite in number, rounding errors depend on the value.", "anchors": ["core/src/temps.cc: Durée, nb_jours_Julien, J2000, temps_sidéral_Greenwich, temps_sidéral_local", "core/include/tsd/temps.hpp: operators"]}
{"id": "C176", "title": "CIC design and frequency response agree", "statement": "The transfer function returned by design_cic is ((1+z^-1+...+z^-(RM-1))/RM)^N for every z other than 0; cic_freq returns its magnitude on the unit circle at every frequency, including those where the quotient of sines is 0/0; the response is 1 at frequency 0, never exceeds 1, and vanishes at all the multiples of 1/(RM) that are not multiples of the sampling frequency. The number of additional bits announced by cic_analyse is always too small.", "quantifier": "all R, M > 0, all N, all complex z, all frequencies", "why_tests_cant": "the identity is over all the orders, rates and frequencies; sampled responses cannot show it, and the sizing of the words is about every signal", "anchors": ["core/src/reechan/cic.cc:110-124 design_cic", "core/src/reechan/cic.cc:215-241 cic_freq, cic_analyse"]}
{"id": "C177", "title": "Clock recovery with the derivative of the matched filter", "statement": "ClockRec2 outputs the same symbols whatever the cut of the input into blocks; its second filter outputs exactly the difference of consecutive outputs of the matched filter, for every matched filter; from 2 samples per symbol on, whatever the signal, it never fails, only asks the interpolator for abscissas in [0,1], and the symbols last between 3/4 and 5/4 of the nominal duration. With 1 sample per symbol it always fails; its correction goes away from the maximum of the magnitude, and depends on the carrier phase.", "quantifier": "all configurations, matched filters, interpolators, input streams and cuts", "why_tests_cant": "a test uses one signal; rate, cut and direction of the correction are claims about every signal", "anchors": ["core/src/telecom/clock-rec.cc:399-628 ClockRec2, clock_rec2_init"]}
{"id": "C178", "title": "Inertial measurement unit model", "statement": "When the orientation is estimated, whatever the set of sensors: the observation has the announced length and layout; the accelerometer reads the rotated sum of gravity and acceleration, the magnetometer the rotated field; the gyroscope reads the angular speed of the device (along every differentiable motion of the angles, a fixed vector turns at -omega x u in the device frame); accelerometer and magnetometer determine the orientation; the prediction is an exact uniform rotation over any number of steps; the covariance diagonal follows the layout of the observations. Without orientation no observation can be computed; without position the GPS and barometer report angles; the estimation with the extended Kalman filter always fails.", "quantifier": "all configurations, all states, all differentiable motions, any number of predictions", "why_tests_cant": "continuum of states and motions; derivative identities cannot be tested", "anchors": ["core/src/kalman/modele-imu.cc IMU, modele_imu", "core/include/tsd/apps/kalman.hpp:471-512 IMUConfig"]}
{"id": "C179", "title": "FM broadcast demodulator", "statement": "Whenever a step succeeds the half-sum of the two channels is the audio filtering of the decimated baseband signal. Refuted: the step fails as soon as the RDS demodulator decides a bit (product of tables of different dimensions); every step fails for sampling frequencies between 200 Hz and 130 kHz; the decimation depends on the cut into blocks; even with ideal filters and pilot the outputs are (7L+5R)/4 and (L+3R)/4 instead of L and R.", "quantifier": "all filters and blocks, states, signals, sampling frequencies, audio channels and ideal low-pass filters", "why_tests_cant": "the failure and the separation are about every signal and filter; the library has no test of this block", "anchors": ["core/src/telecom/analogique.cc:380-650 FMDemod, demodulateurFM", "core/include/tsd/tsd.hpp:367-375 sousech", "core/src/tableau.cc:1429-1447"]}
{"id": "C180", "title": "The constant Q transform analyses every complete window once", "statement": "For an accepted configuration, the analysis size is the least power of two not less than fs Q / fmin, the frequencies are fmin γ^i up to fmax, the kernels have odd lengths smaller than the analysis size. Given blocks of the length waited for, no call fails, and each frequency has one output for every complete window 0, dt, 2dt, ... of the signal received so far, in order, computed on the samples of that window. CQT::step as written ignores the first sample of each block, fails on a block of exactly the length waited for, loses shorter blocks, and never ends for kernels of one sample.", "quantifier": "every configuration, every list of kernel lengths, every sequence of blocks", "why_tests_cant": "schedules depend on the interleaving of kernels of different lengths and on the block lengths over an unbounded history", "anchors": ["core/src/fourier/cqt.cc CQTNoyaux::configure, CQT::Impl::configure, step, step1"]}
{"id": "C181", "title": "The regular sampling of the constant Q transform is a linear interpolation inside its matrix", "statement": "CQT::interpolation returns, at each output instant up to the last output of a frequency, the linear interpolation between the two neighbouring outputs of that frequency, and 0 after it; it writes outside of its matrix exactly when the last output falls on a whole number of output periods or another output is later (always when the output rate equals the input rate).", "quantifier": "every list of outputs with increasing times per frequency, every pair of rates", "why_tests_cant": "the failing cases depend on the arithmetic relation of rates and times; the values must hold for any number of outputs", "anchors": ["core/src/fourier/cqt.cc CQT::Impl::interpolation, periodogramme_cqt"]}
{"id": "C182", "title": "Fractional delays are band-limited interpolation", "statement": "Delaying a signal by a real number of samples gives a signal of the same length whose sample k is the band-limited (Dirichlet) interpolation of the zero-padded input at k - delay; for integer delays this is exactly the integer shift with zeros, every sample is a continuous function of the delay, the energy never increases, the delay of a real signal is the real part of the delay of the same signal seen as complex, and the packed real transforms it uses are inverse of each other", "quantifier": "every non-empty signal, real or complex, every real delay", "why_tests_cant": "a test delays a few sinusoids", "anchors": ["core/src/fourier/fourier.cc: delais_fractionnaire_c, delais_fractionnaire_r, rtfr_calcule, irtfr_calcule, délais"]}
{"id": "C183", "title": "Spectral coherence of two signals", "statement": "The coherence of two signals at a frequency measures how much they are related there: it is less than 1 for unrelated signals. Refuted: the function returns 1 at every frequency where both spectra are non-null, whatever the signals, and is undefined elsewhere", "quantifier": "every pair of signals of the same length", "why_tests_cant": "a test on a pair of related signals sees the expected 1", "anchors": ["core/src/fourier/fourier.cc: coherence"]}
{"id": "C184", "title": "An axis maps values to pixels proportionally and reversibly", "statement": "A configured axis puts its lower bound at one end and its upper bound at the other, every value in proportion (of its logarithm on a logarithmic axis), from bottom to top on a vertical axis; the integer pixel is within 1.5 pixel of the exact one (1 if the dimension is even); converting a value to its pixel and back gives the value. Refuted for odd dimensions: the round trip is off by exactly half a pixel", "quantifier": "every linear or logarithmic axis with distinct bounds, every dimension, every value", "why_tests_cant": "a test checks a few values on one axis", "anchors": ["core/src/vue/axes.cc: Axe::configure, valeur_vers_pixel, valeur_vers_pixelf, pixel_vers_valeur"]}
{"id": "C185", "title": "Graduation steps are simple numbers, as small as allowed", "statement": "The step chosen for a requested minimum is the least number of the form 1, 2, 2.5 or 5 times a power of ten that is not below it; it is less than twice the request, so that graduations are between p and 2p pixels apart for a minimal spacing of p pixels", "quantifier": "every positive minimum, every linear axis", "why_tests_cant": "a test checks a few magnitudes", "anchors": ["core/src/vue/axes.cc: calcule_tic"]}
{"id": "C186", "title": "The graduations of a linear axis are the visible multiples of the step", "statement": "The search of the graduations ends, and the major graduations are exactly the multiples of a simple step shown at least 5 pixels away from the ends, each once. Refuted on horizontal axes of negative values and even dimension whose upper bound is a multiple of the step: they get no graduation at all (for instance every axis ending at minus a power of ten)", "quantifier": "every linear axis, every minimal spacing", "why_tests_cant": "the failing case needs a purely negative horizontal axis ending on a graduation", "anchors": ["core/src/vue/axes.cc: calcule_tics, tic_ok, tic_ok_souple"]}
{"id": "C187", "title": "The graduations of a time axis", "statement": "The major graduations of a time axis are, in increasing order, exactly the dates of the interval that are multiples of the least step of the table giving at most 8 intervals; the minor ones are the multiples of the minor step (spans up to 240 days); there are at most 8 major graduations. Refuted: there are 9 when the interval starts on a graduation and lasts exactly 8 steps, and a span of more than 240 days may have none", "quantifier": "every pair of dates (from the origin of the calendar)", "why_tests_cant": "a test looks at a few spans", "anchors": ["core/src/vue/axes.cc: configure_axe_temporel"]}
{"id": "C188", "title": "The visible region of a figure", "statement": "The visible region contains the requested one; in isometric mode one pixel stands for the same length on the two axes and the centre is kept. Refuted for the aspect ratios other than 1: the ratio obtained depends on the data (it is the requested number or its inverse) and the data may be cut", "quantifier": "every requested region, every aspect ratio, every size of graphic", "why_tests_cant": "the case of a ratio other than 1 with a modified vertical axis is not looked at", "anchors": ["core/src/vue/axes.cc: Axes::Impl::rendre, ConfigAxes::def_rdi_visible, set_isoview, fixe_aspect_ratio"]}
{"id": "C189", "title": "Coordinates of curves, grid and pixels agree", "statement": "The drawing region of a figure puts a value at the pixel of its axis; conversions to the parent coordinates and back are inverse of each other (refuted on logarithmic scales: the logarithm is returned); the margins and the graphic share the width exactly; a graduation line and the curve point of the same abscissa are on the same column (refuted with the vertical axis on the left: 60 or 85 pixels apart)", "quantifier": "every axis, every value, every position of the axis", "why_tests_cant": "a rendered image is not compared with anything", "anchors": ["core/src/vue/canva.cc: ClipGen::v2c, c2v, Canva::clip_alt", "core/src/vue/axes.cc: maj_dimensions, rendre, affiche_grille"]}
{"id": "C190", "title": "Colour maps stay in range and are continuous", "statement": "Every documented colour map gives components between 0 and 1 for every real argument (so the byte colour is exact, without saturation), interpolates linearly between the knots of its table, keeps the end colours outside, and is a continuous function; unknown names are rejected. Violated by mono-per, white below 0 and black at 0.", "quantifier": "all documented names, all real arguments, all tables of increasing abscissae", "why_tests_cant": "a test samples a few arguments; range and continuity are over the whole real line", "anchors": ["core/src/vue/cmaps.cc: CMapIlin::calc, CMapJet, CMapMono, CMapMonoPer, CMap::couleur, cmap_parse", "core/include/tsd/vue/image.hpp: CMap"]}
{"id": "C191", "title": "Rectangles and points", "statement": "The bounding rectangle of two points contains both and is the smallest one, integer rectangles have l*h pixels between their corners, the rectangle of the corners is the rectangle, the centre is inside, and a point belongs to a rectangle when it is between its corners. Violated: the membership test of integer rectangles accepts one column and one row too many, and the norm of an integer point overflows from 46341 on.", "quantifier": "all integer and real rectangles and points", "why_tests_cant": "corner cases depend on signs, orders and degenerate sizes over an infinite domain", "anchors": ["core/include/tsd/vue/image.hpp: Rect_::englobant, Rect_::contient, Rect_::br, Rect_::centre, Point_::abs"]}
{"id": "C192", "title": "Alignment of two streams with a variable delay", "statement": "After configuration, with a constant delay d, the pairs sent are (x(k), y(k+d)) (or (x(k+|d|), y(k)) when d is negative), each once and in order, whatever the block sizes, even when d exceeds the blocks; after any history of delays the samples are taken in order and once from each stream, at most one residue is non empty and the difference of their sizes is the delay in force.", "quantifier": "all sequences of calls, all block sizes, all delays, all streams", "why_tests_cant": "the streams, the partition into blocks and the history of delays are unbounded", "anchors": ["core/src/fourier/fourier.cc: AlignementSignal::Impl::step, configure", "core/include/tsd/fourier.hpp: AlignementSignal"]}
{"id": "C193", "title": "Dispersive channel: which calls succeed, and continuity of the fading", "statement": "Taking into account how many fading coefficients each call asks from the internal noise chain (including the initial transient, drawn and thrown away): a call succeeds, and returns as many samples as it receives, as soon as its block is at least as long as the coefficients left over by the previous call; whatever the cut into calls, as long as they succeed the coefficients used are consecutive outputs of the chain. The Doppler density is at least 1/(pi fd) inside its support and its integral over the whole support is 1. The full claim (every block size is accepted) fails: with slow fading, two short successive blocks are enough for the second call to fail.", "quantifier": "All noise chains delivering at least 1/r coefficients per noise sample, all ratios r > 0, all signals and all partitions into calls; all Doppler shifts.", "why_tests_cant": "The statements concern every behaviour of the noise chain and every partition of the signal, and an improper integral.", "anchors": ["core/src/telecom/simulation.cc: doppler_distri, CanalDispersif::step", "core/include/tsd/telecom.hpp: canal_dispersif"]}
{"id": "C194", "title": "Real-output PLL and choice of the phase detector", "statement": "The real-output phase-locked loop does not depend on how the signal is cut into calls. When its base band filter isolates a carrier of amplitude B (first-order loop, default detector), its output becomes exponentially fast a carrier of amplitude B at the expected frequency. Violations: without the base band filter (the default) the output is the input times the cosine of the loop phase, so it is zero wherever the input is and is not a regenerated carrier; with the filter the output phase does not follow the phase of the input (two carriers in opposition give the same output in the limit), although the loop is documented as locking on its input. The automatic choice of the phase detector gives the power loop to PSK, the tan loop of order 2 to ASK, the decision-directed detector otherwise, and only a Costas loop of order other than 2 or 4 is refused.", "quantifier": "All configurations, base band filters, signals, partitions into calls, phases and amplitudes; all waveforms (order, PSK/ASK flags) and detector types.", "why_tests_cant": "Universally quantified over signals, filters and infinite executions (exponential convergence).", "anchors": ["core/src/telecom/carrier-rec.cc: RPLL, rpll_création, ped_init", "core/include/tsd/telecom.hpp: RPLLConfig"]}
{"id": "C195", "title": "Random draws", "statement": "Successive draws from the library's random generators are consecutive pieces of one sequence: asking n then m values gives the same values as asking n+m, and a scalar draw takes the next value. A random bit stream of n bits has exactly n bits, those of the drawn bytes. Violations: randb restarts from a fresh engine at each call (two calls give the same bits, and the seed has no effect on it); a random bit stream whose length is not a whole number of bytes can be unequal (==) to every other stream with the same bits.", "quantifier": "All engines (abstract state machine), all states, all requested lengths.", "why_tests_cant": "Any generator, any history of draws and any length: no finite sample of seeds settles it.", "anchors": ["core/src/tsd.cc: randu, randi, randb, generateur_aleatoire", "core/src/telecom/bitstream.cc: BitStream::rand"]}
{"id": "C196", "title": "CIC analysis and compensation filter", "statement": "The analysis of a CIC filter places its curves on 4096 bins of the input frequency axis, reports the first bin strictly above the requested frequency and above half the output rate; designing a compensation filter succeeds exactly when the cut-off leaves four bins below half the output rate, its template is the inverse of the CIC response up to the cut-off then three halved bins then 0, the cascade has unit gain at DC, and the cascade is flat at the template frequencies up to the cut-off.", "quantifier": "every decimation rate R, order N, delay M, sampling rate, cut-off and number of coefficients", "why_tests_cant": "the success condition and the unit-gain condition involve all real frequencies and all rates; a test tries one cut-off", "anchors": ["core/src/reechan/cic.cc: cic_analyse, design_cic_comp"]}
{"id": "C197", "title": "Elliptic (Cauer) analog prototype", "statement": "The elliptic design terminates exactly when the stop-band attenuation exceeds the ripple; when it returns, the prototype has 2*floor(n/2) zeros, on the imaginary axis strictly outside of the pass-band, n poles, both in conjugate pairs, and gain one at the zero frequency. Violated: with equal ripple and attenuation the design never returns, and for odd orders the real pole is not the value at the middle angle of the function which gives all the other poles.", "quantifier": "all orders 2 <= n < 256000, all ripples and attenuations", "why_tests_cant": "a design is a real-valued recursion whose termination depends on two real parameters; samples of parameters cannot settle it", "anchors": ["core/src/filtrage/rii.cc: elliptique_analogique"]}
{"id": "C198", "title": "Element types of arrays: formats, conversions, approximate equality", "statement": "The run-time format of an array determines its element type and its memory; views keep the type; conversions keep the dimensions, are lossless when widening (real to complex, integer to real) and keep the real part or truncate when narrowing; approximate equality is symmetric, reflexive, scale invariant, exact at tolerance zero and bounds every element's difference; est_nul means all elements null. Violated: a block of a matrix throws for every type except float; abs of an integer array and its comparison with a number throw; unsupported element types are accepted with 4 bytes per element; comparison with zero ignores the tolerance.", "quantifier": "all element types, all dimensions, all contents", "why_tests_cant": "the claims range over types and over arrays of any size and content", "anchors": ["core/include/tsd/tableau.hpp: T2S, TabT(const Tab&), Tab::as, TG, TR, TRZ, DOP1C2R", "core/src/tableau.cc: Tab::block, conversion_scalaire, est_approx, est_nul, EIGEN_UNARY_OP_C2R"]}
{"id": "C199", "title": "Concatenation of matrices", "statement": "vconcat (hconcat) of two matrices is the matrix which has the rows (columns) of the first one followed by those of the second one. Violated for all float matrices: the result has transposed dimensions and keeps the previous content of the memory, and hconcat of a square matrix writes out of its memory. Matrices of incompatible sizes are rejected.", "quantifier": "all memories, all pairs of non-empty readable matrices", "why_tests_cant": "the result depends on every dimension and on uninitialised memory", "anchors": ["core/include/tsd/tsd.hpp: vconcat(Tableau), hconcat", "core/src/tableau.cc: Tab::block"]}
{"id": "C200", "title": "Settings of the English demodulator configuration are transmitted", "statement": "Every setting written in the English DemodConfig structure (carrier recovery, clock recovery, matched filter, equaliser, debug options and their parameters) has in the French configuration used by the demodulator the value written by the user; and the defaults of both structures agree.", "quantifier": "all values of all fields of the structure, all initial memory contents", "why_tests_cant": "The structure is copied by memcpy onto a structure with a different layout: the effect is on bytes, and depends on the value of each field.", "anchors": ["core/include/dsp/telecom.hpp:DemodConfig", "core/include/tsd/telecom.hpp:DemodConfig"]}
{"id": "C201", "title": "Structures converted byte by byte lose nothing", "statement": "The structures of the English API which are converted to or from their French counterparts by memcpy carry over every field: same sizes, same positions, for all values.", "quantifier": "all field values of these structures (shaping filter specification, waveform information, detections, carrier phase estimator parameters, dates, times and calendars)", "why_tests_cant": "An equality of layouts over all values; a test sees the values it chose.", "anchors": ["core/include/dsp/telecom.hpp", "core/include/dsp/fourier.hpp:Detection", "core/include/dsp/filter.hpp"]}
{"id": "C202", "title": "English functions give what the French ones give", "statement": "For the same arguments a function of the English API returns the result of the French function it wraps (impulse signal, ASK waveform, phase locked loops, packet transmitter, quaternion construction, conversion of tables).", "quantifier": "all arguments of each function, all input signals", "why_tests_cant": "A wrapper which exchanges or drops an argument agrees with the wrapped function for the arguments where they coincide.", "anchors": ["core/include/dsp/dsp.hpp:sigimp", "core/include/dsp/telecom.hpp:waveform_ask", "core/include/dsp/telecom.hpp:PLLConfig", "core/include/dsp/telecom.hpp:RPLLConfig", "core/include/dsp/telecom.hpp:packet_emitter_new", "core/include/dsp/geometry.hpp:Quaternion", "core/include/dsp/tab.hpp:TabT"]}
{"id": "C203", "title": "A setting of an English configuration is the one used", "statement": "After config.english_name = v, the function called with config uses v for that setting and the other settings unchanged, whether config is a fresh object or a copy of another one.", "quantifier": "all sequences of settings, all values, all copies, all object lifetimes", "why_tests_cant": "It depends on the history of constructions, copies and destructions.", "anchors": ["core/include/dsp/fourier.hpp:FFTFilterConfig", "core/include/dsp/fourier.hpp:DetectorConfig", "core/include/dsp/telecom.hpp:FHSSConfig", "core/include/dsp/telecom.hpp:ClockRecConfig"]}
{"id": "C204", "title": "Slepian window: unit energy and greatest energy share in the band", "statement": "The Slepian window of n points and bandwidth B has n coefficients of unit energy and, among all sequences of n points, the greatest possible share of its energy in the band [-B/2, B/2]; its sign convention is deterministic and it is symmetric when that maximum is reached by one sequence only.", "quantifier": "every length, every bandwidth B ≥ 1e-7, every competing sequence, every eigen-decomposition meeting the documented guarantees", "why_tests_cant": "optimality is against all sequences of n points, and the result depends on the eigen solver; tests compare one window with stored values", "anchors": ["core/src/filtrage/fenetres.cc: fenêtre_slepian"]}
{"id": "C205", "title": "Logarithmic and time grids", "statement": "logspace(a, b, n) gives n points from 10^a to 10^b in geometric progression; intervalle_temporel(n, fe) gives the instants k/fe; and the version with a duration covers exactly the instants k/fe below the duration; a negative duration is not refused.", "quantifier": "every bounds, every number of points, every sampling rate, every duration", "why_tests_cant": "the number of points depends on roundings for every duration and rate", "anchors": ["core/include/tsd/tsd.hpp: logspace, intervalle_temporel"]}
{"id": "C206", "title": "Rotations around the axes", "statement": "The rotation matrix around an axis leaves the axis fixed, turns the plane in the direct sense by the angle, and rotations around the same axis compose by adding the angles; the axis number is not checked; the attitude read from a matrix at the vertical (gimbal lock) does not give back the attitude.", "quantifier": "every axis, every angles, every attitude", "why_tests_cant": "the laws must hold for all angles; the singular case is a measure-zero set that random tests miss", "anchors": ["core/include/tsd/geometrie.hpp: Rotation3, Cardan", "core/src/geometrie.cc"]}
{"id": "C207", "title": "The arbitrary-ratio resampler is a stream filter with the right rate", "statement": "filtre_reechan(ratio): whatever the cutting of the stream in blocks the outputs put together are the same; the number of outputs is ratio times the number of inputs to less than one sample for any length of stream, when the ratio divided by its power of two is 1 or differs from 1 by at least 1e-6; otherwise the interpolator is skipped and the difference grows without bound; a ratio of 1, null, negative or too large leaves the signal unchanged.", "quantifier": "every ratio of [2^-149, 1e9), every stream, every cutting in blocks", "why_tests_cant": "unbounded streams and arbitrary block cuttings through a chain of up to 149 stages and an interpolator; a drift appears only on long streams", "anchors": ["core/src/reechan/ra.cc: AdaptationRythmeArbitraire, filtre_reechan"]}
{"id": "C208", "title": "CPU load monitors", "statement": "Whatever the calls of any number of threads, in time order: if every thread that has finished an operation since the last reset has finished one in the last half second, the number of calls reported is the number of operations finished since the last reset; the load recorded for a thread that uses the monitor regularly lies between 0 and 100 %, and is 100 % for a thread always busy at full load as soon as it has run for half a second; the search by name returns the first statistics of that name. Violated: a busy thread whose operation lasts more than a second disappears from the statistics (the number of calls decreases without reset); the shared table is accessed without lock by the operations: reading the statistics from another thread is a data race.", "quantifier": "every history of calls by any number of threads, every clock readings, every interleaving", "why_tests_cant": "depends on all interleavings of the threads and on the clock readings, which a test cannot control", "anchors": ["core/src/moniteur-cpu.cc: MoniteurCpu, MoniteursStats", "core/include/tsd/moniteur-cpu.hpp"]}
{"id": "C209", "title": "Windowed frequency-domain filter: overlap-add and reconstruction", "statement": "filtre_fft with avec_fenetrage (Hann window, half overlap), for an even block dimension and any callback that keeps the dimension of the spectra, outputs one block for every complete block received but the first, and from the second output block on sample i is half the sum of the processed frames that cover the time i, whatever the cutting of the input into calls; so with a callback that does nothing the output is exactly half the input. Violated: the documented perfect reconstruction does not hold, even up to a gain and a delay: the gain is 1/2, and the first output block is half a block of zeros followed by a mixture of the two halves of the first input block (the saved block is a view of the buffer of the inverse transform, which the next frame overwrites); the samples that fall in the zero padding are added to the end of their own frame.", "quantifier": "every even block dimension, every number of zeros not above it, every input, every cutting, every callback", "why_tests_cant": "quantifies over all signals, cuttings and callbacks", "anchors": ["core/src/fourier/fourier.cc: OLA::step_interne, filtre_fft", "core/include/tsd/tableau.hpp: TabT::operator ="]}
{"id": "C210", "title": "Periodogram by DFT", "statement": "periodogramme_tfd(x, N) (N even) has two rows per complete block of N samples; row r, column k is the level in decibels 10 log10(|X_k|^2 + 1e-20) of the orthonormal DFT of the Hann-windowed frame that starts at sample (r-1)N/2, zero-padded in front to a power of two. Violated: for a signal shorter than one block the table has one row of uninitialised memory instead of none.", "quantifier": "every even N, every signal", "why_tests_cant": "quantifies over all signals and sizes", "anchors": ["core/src/fourier/fourier.cc: periodogramme_tfd"]}
{"id": "C211", "title": "Memory of the pattern detector", "statement": "The detector keeps the last K samples of the stream (K: delay of its correlator plus one) so that, when it detects the pattern, it compares the pattern with the very samples of the stream that carry it: for a peak at any index of the current block, or at the last index of the previous one, the window has the length of the pattern and begins D samples before the peak (zeros before the beginning of the stream). For every history of blocks of at least K/2 samples, each in its own vector, the memory is the last K samples. Violated beyond that: (1) a block longer than K is kept as a view of the caller's vector, so that all later calls overwrite the end of that (constant) vector with the last K samples of the stream; (2) a block shorter than K/2 is a memcpy between overlapping zones; (3) if the caller refills the same vector, the memory is lost, and giving the vector again copies a zone onto itself.", "quantifier": "all lines, histories and sizes of blocks, values, peaks, patterns and delays", "why_tests_cant": "the effect on the caller's vectors depends on the sizes of all the blocks of the history; tests look at detections only", "anchors": ["core/src/fourier/detection.cc:LigneARetardExt", "core/src/fourier/detection.cc:DetecteurImpl::step", "core/include/tsd/tableau.hpp:TabT::operator ="]}
{"id": "C212", "title": "The grid of sub-figures", "statement": "In a sequence of subplot(r,c,k) calls on one grid, two calls return the same figure exactly when k is the same, every returned figure stands at its position, a change of grid discards the previous figures, subplot(rck) is subplot(r,c,k) and subplot() adds a new figure and keeps the others. When the rendering succeeds, every figure is drawn once, in its order, in its own zone, inside the canvas and sharing no pixel with another. The automatic grid always has enough cells, no empty row, and 0 to 2 more rows than columns. Violated (proved): rows and columns are exchanged with respect to the documentation, a position beyond r*c is accepted and makes the rendering fail, gcf() is the last figure and not the current one and is undefined without a figure, a code below 100 draws nothing", "quantifier": "every history of calls, every grid, every number of figures, every size of canvas", "why_tests_cant": "the tests draw a few figures and never look at the grid", "anchors": ["core/src/vue/figure.cc: Figures::Impl::rendre, get_nm, Figures::subplot, gcf, gf", "core/include/tsd/vue.hpp: Figures"]}
{"id": "C213", "title": "The region displayed by a figure contains the curves", "statement": "Without an imposed region, every finite ordinate of every curve (every positive one in logarithmic scale), with its error bar, is inside the displayed region, before and after the margins, whatever the previous rendering left; so is every abscissa unless all of them are one same negative number; the height is never zero; without bars the bounds before the margins are reached by points (the region is not larger than needed); def_rdi alone gives exactly the requested region and def_rdi_min a region that contains it. Violated (proved): a point alone at an abscissa below -1 gives a reversed region that does not contain it, an image added after a curve discards the region of the curve, def_rdi after def_rdi_min is not honoured, the band of plot_minmax is cut", "quantifier": "every list of curves, every data (also values that are not numbers), every previous region", "why_tests_cant": "the tests do not look at the region computed", "anchors": ["core/src/vue/figure.cc: Figure::Impl::calc_minmax, extension_rdi, rendre00, Figure::def_rdi, def_rdi_min, plot_minmax"]}
{"id": "C214", "title": "A plotted curve has the data and the appearance asked for", "statement": "plot adds exactly one curve with exactly the data given (abscissas 0,1,... by default) and adds nothing when there is no data or when the sizes differ; a complex signal with a non-negligible imaginary part gives two curves; the appearance depends only on the set of the characters of the format, and one colour, one line and one marker code in any order give exactly these; curves without format have a continuous line and the same colour exactly when their ranks are equal modulo 17; the options of an image are the pieces of its format between the separators. Violated (proved): the code b documented as black is blue; the frequencies displayed by plot_psd are stretched by n/(n-2) for a real signal, and the zero frequency of a complex signal is displayed at fe/(2(n-1))", "quantifier": "every list of curves, every data, every format", "why_tests_cant": "the tests draw and never read back a curve", "anchors": ["core/src/vue/figure.cc: Figure::Impl::plot, plot_psd_int, parse_liste_chaines", "core/include/tsd/vue.hpp: Figure::plot"]}
{"id": "C215", "title": "Filling of a polygon follows the even-odd rule", "statement": "For any list of points (concave, crossing itself, partly or wholly outside the image), the filling ends without reading outside its lists, draws only segments inside the image, and a pixel that is not on a crossing of an edge with its row (truncated to a pixel) is drawn exactly when an odd number of edges are crossed strictly on its left; a pixel on a crossing is drawn, except possibly in column 0; the crossings do not depend on the orientation of the edges; the sort ends after at most 2k²+k turns. Violated (proved): the row of the highest points is never drawn whereas the lowest row is, a polygon ending on column 0 does not light it", "quantifier": "every polygon, every image size, every pixel", "why_tests_cant": "the number of crossings and the loop of the sort depend on the polygon; the tests draw a few shapes", "anchors": ["core/src/vue/canva.cc: rempli_polygone"]}
{"id": "C216", "title": "Nested canvases and bounding region", "statement": "Drawing on a canvas nested at any depth adds exactly one element to the root, after the previous ones and of the same kind, every point being mapped through the chain of coordinate systems; two nested levels are equivalent to one; corners go to corners; when every zone is inside the region of its parent, a point of the region of the innermost canvas is drawn inside the zone of the outermost one. The bounding region is computed exactly when there is no polygon, contains the region of every element and is the smallest such region. Violated (proved): nothing is clipped, the angles of an arc of circle are transformed as if they were ordinates, the region of a circle is a unit square whatever the radius, a polygon makes the computation fail", "quantifier": "every chain of canvases, every list of elements, every geometry", "why_tests_cant": "the tests only produce images", "anchors": ["core/src/vue/canva.cc: ClipGen, clip_elmt, ajoute_element, Canva::clip, Canva::vue, CanvaElement::get_rdi, union_rdi, calc_rdi_englobante"]}
{"id": "C217", "title": "Drawing of the curves of a figure", "statement": "The lines of a curve of less than 2000 points are exactly those between consecutive samples that are both at abscissas of the view and not under it, in order, with a band under each of them if the curve is filled, and rendering leaves the curve as it is. For a large monotonic curve, leaving out the samples out of the view changes no line. A curve of 2000 points or more is reduced to 1000 to 1499 points, each with the mean of R samples and a band from their minimum to their maximum, which are reached, so that every sample of the blocks lies in the band; fewer than R samples, the last ones, are dropped. Deviation bands contain the positive values and are symmetrical around them in logarithmic scale. Sticks, bars and markers: one per sample. Violated: a segment that crosses the view from a point out of it is not drawn; the last samples of a large curve are dropped; rendering replaces the data of a large curve, so that the second rendering loses the min-max band, a curve with deviations disappears (markers included), and a view cannot be widened; no deviation band for values that are not positive, and a shorter lower half.", "quantifier": "all curves, deviations, views and appearances, any number of points, successive renderings with any views", "why_tests_cant": "tests look at a picture, rendered once; the number of points, the view and the number of renderings are unbounded", "anchors": ["core/src/vue/figure.cc: Figure::Impl::rendre1", "core/include/tsd/vue.hpp: Figure::Courbe, Figure::plot"]}
{"id": "C218", "title": "A surface is drawn without gap, overlap nor distortion of its values", "statement": "The image of a table of at least two rows and columns has one rectangle per value, of the colour of that value, centred on the regular grid that goes from one corner of the rectangle asked for to the other; the rectangles tile exactly the region that the figure displays (each point in one cell and one only, upper edges excepted); by default sample (i, j) is in the unit square centred on (i, j). The values are normalized to [0, 1], both reached, in the same order, so that the picture does not depend on the unit nor on the origin of the values; option o leaves them as they are. Violated: a table with a single row or column, or constant, divides by zero; an empty format names an unknown map.", "quantifier": "all tables of real values, all rectangles, all points of the region, all colour maps", "why_tests_cant": "tests draw one table; tiling is over all points and all sizes, normalization over all values", "anchors": ["core/src/vue/figure.cc: ParamGrille, Figure::plot_img, Figure::Impl::rendre1", "core/src/vue/canva.cc: Canva::plot_cmap"]}
{"id": "C219", "title": "Antialiased arcs of ellipses", "statement": "Drawing an arc of an ellipse that is not flat, anywhere, is defined, keeps the dimensions of the image and changes only pixels at less than two pixels, in each direction, from a point of the arc. The pixels come by neighbouring pairs with non-negative weights of sum 1, whose barycentre is on the tangent at a point of the arc and at less than one pixel of it in each direction. The drawing ends at the end of the arc for half axes such that 4 pi max(rx, ry) times the fraction of turn is at most 100000. Successive points of a circle are less than one pixel apart. With even sums of coordinates the ellipse is centred in its box and inside it. Violated: a flat box (zero width or height) divides zero by zero; circles of radius 17000 and more are cut; a flattened ellipse has gaps as long as one wants near its tips; with odd sums the centre is half a pixel off and the ellipse leaves its box.", "quantifier": "all boxes, angles, colours, images, positions out of the image included", "why_tests_cant": "a test compares one picture; the positions, sizes, flattenings and angles are unbounded", "anchors": ["core/src/vue/image-bmp.cc: Image::Impl::dessine_courbe_aa, Image::Impl::ellipse, Ellipse2", "core/include/tsd/vue/image.hpp: Image::ellipse"]}
{"id": "C220", "title": "Images saved to files and loaded back", "statement": "Loading a saved image gives the same dimensions and, at each place, the same red, green and blue, every pixel being opaque; an opaque image comes back as it was. A name ending in .png is kept, .png is added to a name without a point at the fourth place from the end, another three-letter extension is refused with a message. The path is split at its last separator. Violated: the transparency is lost; a plain name without directory (or a file at the root) is not saved: the code tries to create a directory with an empty name, which is an exception.", "quantifier": "all images of all dimensions, all names, all file systems", "why_tests_cant": "tests save a few images in a directory; contents, names and file systems are unbounded", "anchors": ["core/src/vue/image-bmp.cc: Image::Impl::charger, Image::Impl::enregister, analyse_chemin, creation_dossier_si_inexistant", "core/include/tsd/vue/image.hpp: Image::enregister, Image::charger"]}
{"id": "C221", "title": "Density picture of a cloud of points", "statement": "Drawing a cloud of points by accumulation blends each pixel once with the colour, with an opacity between 0 and 1 proportional to the number of points at a distance of at most one pixel in each direction: 0 (pixel unchanged) exactly where there is none, 1 (the colour itself) exactly where this number is the largest. The result never fails, does not depend on the order of the points, nor on repeating all of them the same number of times. Violated: the points whose pixel is on the border of the image are in the image but are lost.", "quantifier": "every image, colour and list of points (exact counters and quotients)", "why_tests_cant": "A test looks at a few points; proportionality, order and scale independence are about all clouds.", "anchors": ["core/src/vue/canva.cc: Canva::Impl::rendre (ACCU), dessine_accu", "core/include/tsd/vue.hpp: Canva::dessine_accu"]}
{"id": "C222", "title": "An image placed on a canvas is cut to the visible part", "statement": "When an image is drawn in a rectangle of a canvas, the zone painted is inside of both, nothing else is written, and the part of the image shown is the one that falls there, up to one column or row at each end; if at least two columns and two rows remain the drawing succeeds and creates no new extreme value; an image drawn at its own size that does not exceed on the right nor below is copied pixel by pixel. Violated: when the rectangle exceeds the canvas on the right (or below) the last column (row) of the canvas is never painted, and drawing several columns of the image on a single pixel is undefined (0 / 0).", "quantifier": "every canvas, image and rectangle with a visible pixel (unbounded integers)", "why_tests_cant": "The cuts combine four sides, zoom factors and roundings; a test sees a few positions.", "anchors": ["core/src/vue/canva.cc: Canva::Impl::rendre (IMAGE), dessine_img", "core/src/vue/image-bmp.cc: puti(rdi, src), sous_image, redim", "core/include/tsd/vue.hpp: Canva::dessine_img"]}
{"id": "C223", "title": "Text fitted in a rectangle, common scale of a group", "statement": "Placing a text of several lines always ends. The result is either the text at the first scale of s0, 0.9 s0, 0.81 s0, ... at which it fits, in an image of exactly the dimensions of the text (sum of the heights plus five pixels between lines, largest width), within the limits, all its lines being drawn, inside of the image, left aligned or centred to one half-pixel, without overlap; or an image of one pixel with the scale 0 when it cannot be placed. The common scale of a group of texts is the smallest of those applied, and each text is then drawn at this scale. Violated: a text of the group that cannot be placed (scale 0) erases the limit set by the previous ones, so that the common scale depends on the order of the texts and may be larger than what fits.", "quantifier": "every text, initial scale, limits, alignment and group; every function giving the dimensions of a line (exact scales)", "why_tests_cant": "The loop depends on the font, the text and the limits; termination and absence of overflow cannot be tested for all of them.", "anchors": ["core/src/vue/image.cc: affiche_texte, texte_creation_image", "core/src/vue/canva.cc: Canva::Impl::rendre (CHAINE), GroupeTextes", "core/include/tsd/vue/image.hpp: TexteConfiguration, TexteProps"]}
{"id": "C224", "title": "The legend of a figure: when, where and what", "statement": "The legend box of a diagram is displayed exactly when the graph is at least 100 by 100 pixels, its position is a known one, at least one series is named, more than eight pixels remain per row, and the box leaves the 150 columns asked when samples are drawn. It is then inside of the graph, eight pixels from the corner asked (thirty-five from the top under a title); its rows have disjoint text zones inside of the box, before the samples; the eight codes name the four corners, and each position is recovered from its code. Violated: when the rows have less than fourteen pixels, the filled samples of two consecutive rows overlap and the first leaves the box; an unknown position code hides the legend silently.", "quantifier": "every size of graph, list of series, position and code (unbounded integers)", "why_tests_cant": "The layout depends on all the series, on the size of the texts and of the graph; tests compare a few pictures.", "anchors": ["core/src/vue/axes.cc: affiche_cartouche_legende, ConfigAxes::Legende::Position"]}
{"id": "C225", "title": "Vertical filling between two segments on a canvas", "statement": "Filling vertically between two segments of increasing abscissas draws one vertical segment on each pixel column from the first to the last abscissa included, whose ends are on the two segments to less than one pixel, within their extreme ordinates and in the same order when one segment is above the other; two adjacent fillings share their common column exactly. Violated: with decreasing abscissas nothing is drawn, with a single column the interpolation is 0 / 0, and an ordinate of pixel -1 is taken for an invalid point so that nothing is drawn, whereas -2 and 0 are drawn.", "quantifier": "every abscissa and ordinate in pixels (unbounded integers)", "why_tests_cant": "Every pair of slopes and every clipped position must give a band without a hole; tests look at one picture.", "anchors": ["core/src/vue/canva.cc: remplissage_vertical, Canva::Impl::rendre (REMPLISSAGE_VERTICAL)"]}
{"id": "C226", "title": "Rectangles of a canvas: frame and filling", "statement": "In opaque colours, a rectangle drawn on a canvas colours the pixels at less than the line thickness from a side with the colour of the line if the outline is asked, the other pixels inside with the filling colour if filling is asked, and no other pixel, whatever the order of the corners and the part of it outside of the image, as long as the frame leaves one pixel inside in each direction. Violated: a filled rectangle of one column or one row without an outline is not drawn; when the width is exactly twice the thickness the filling covers the inner ring of the frame; when the thickness exceeds the width the frame is drawn outside of the rectangle.", "quantifier": "every image, corners, colours, thickness and options (unbounded integers)", "why_tests_cant": "The rings, the filling and the clipping interact for every size; a test looks at a few rectangles.", "anchors": ["core/src/vue/canva.cc: Canva::Impl::rendre (RECT), Canva::rectangle", "core/src/vue/image-bmp.cc: rectangle, rectangle_plein"]}
{"id": "C227", "title": "Texts of a canvas: limits, alignment and clipping", "statement": "A text drawn on a canvas is given limits such that, with the margin of its background and after a quarter turn for a vertical text, it fits between its anchor and the end of the image, in twice this space when it is centred, in the whole image when it ends at the anchor, and within the limits asked. On the root canvas the box begins at its anchor, ends at it or has it in its middle (one pixel higher vertically), and a text within its limits whose anchor is in the image is always drawn: each pixel under the box is mixed in proportion to the opacity of the box, and no other one changes. Violated: a text centred or ending at its anchor can be cut on the left although it is within its limits; on a nested canvas a text that must end at its anchor is moved by the position of the canvas, and is not drawn at all when this makes it overflow.", "quantifier": "every image, anchor, alignment, orientation, background, limit and picture of text (unbounded integers)", "why_tests_cant": "Limits, margin, rotation, alignment and clipping are computed separately and must agree for every size; tests look at a few figures.", "anchors": ["core/src/vue/canva.cc: Canva::Impl::rendre (CHAINE), clip_elmt, texte", "core/src/vue/image-bmp.cc: puti_avec_gamma", "core/include/tsd/vue.hpp: Canva::texte, Canva::set_align"]}
{"id": "C228", "title": "Curves of the analysis of a shaping filter", "statement": "SpecFiltreMiseEnForme::analyse draws the coefficients centred among zeros (one more zero after when the parities differ); for an odd number of samples they are one sampling period apart, with the middle one at time 0 when their number is odd too. The theoretical response of the rectangular pulses can be computed up to 4095 samples per symbol and the suppression of its negligible samples keeps all its coefficients. Violated: an even number of samples is drawn too far apart by a factor n/(n-1) and never at time 0; the analysis fails for fewer samples than coefficients, for the default number of coefficients 0, and for rectangular pulses of 4096 samples per symbol or more.", "quantifier": "every waveform, number of samples and oversampling factor (theoretical response: rectangular pulses)", "why_tests_cant": "unbounded sizes, real time axis", "anchors": ["core/src/telecom/modulations.cc: sympad, SpecFiltreMiseEnForme::analyse", "core/include/tsd/telecom.hpp: Analyse"]}
