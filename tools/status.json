{
 "C01": [
  "proved",
  "All operation histories, by refinement of the packed buffer to a list of booleans."
 ],
 "C02": [
  "proved",
  "FIFO reading and 32-bit round trip at any alignment."
 ],
 "C03": [
  "proved",
  "Reads and writes with any index: inside the buffer or error."
 ],
 "C04": [
  "partial",
  "The property is false of the code (two counter-examples proved: lengths ignored, stale bits after truncation); it is proved for streams of equal length built by pushes."
 ],
 "C05": [
  "partial",
  "zéros/uns/BitStream(n) proved; altern(n) has n+2 bits (exact length proved, property refuted) and resize leaves stale bits (refuted)."
 ],
 "C06": [
  "proved",
  ""
 ],
 "C07": [
  "proved",
  ""
 ],
 "C08": [
  "partial",
  "The round trip is false of the code (refuted: spurious leading 0 and last bit lost); the exact behaviour is proved for all inputs, and the documented decoder is shown to round-trip."
 ],
 "C09": [
  "proved",
  ""
 ],
 "C10": [
  "proved",
  "Maximal period for every supported length, by kernel evaluation of the order of the companion matrix, and rejection of all other lengths."
 ],
 "C11": [
  "partial",
  "Proved after configure/reset/loss of lock; the statement for arbitrary histories is refuted (false lock)."
 ],
 "C12": [
  "proved",
  ""
 ],
 "C38": [
  "proved",
  "All integers n: the six offered lengths have unit sidelobes at every shift, all other n are rejected."
 ],
 "C40": [
  "proved",
  "Over every ordered field (exact arithmetic)."
 ],
 "C41": [
  "proved",
  ""
 ],
 "C42": [
  "proved",
  ""
 ],
 "C43": [
  "proved",
  "Over every ordered field (exact arithmetic)."
 ],
 "C13": [
  "proved",
  "Also: the date of day n is the n-th successor of 1 January 1; behaviour outside years 1..9999 shown wrong (C13_hors_ere, C13_avant_ere)."
 ],
 "C14": [
  "proved",
  ""
 ],
 "C15": [
  "proved",
  "The double products are shown exact (53-bit rounding model)."
 ],
 "C16": [
  "partial",
  "Week/second round trips proved for every instant from the GPS epoch to January 2048 with double rounding modelled; refuted outside: negative seconds before the epoch, 32-bit overflow from week 3551, and vers_GPS_us may lose one microsecond (exact or one less proved)."
 ],
 "C18": [
  "proved",
  "FIR, IIR (denominator of degree >= 1), SOS, chain of SOS, first order, delay, moving average, exponential, DC, decimator; no algebra on samples."
 ],
 "C19": [
  "proved",
  "Over every commutative semiring, every cutting; empty coefficient list is rejected."
 ],
 "C20": [
  "partial",
  "Proved over every field for denominators of degree >= 1; refuted for constant denominators (modulo by zero)."
 ],
 "C21": [
  "proved",
  ""
 ],
 "C22": [
  "proved",
  ""
 ],
 "C23": [
  "proved",
  "Over every field (exact arithmetic)."
 ],
 "C44": [
  "partial",
  "Proved for FIR, IIR, SOS, first-order, moving average, exponential; false (refuted, exact behaviour proved) for the delay line and the DC blocker."
 ],
 "C45": [
  "partial",
  "Form I fully proved; form II satisfies the equation from time 2 on, and its constant-signal behaviour is refuted (the initial state is not the steady state)."
 ],
 "C46": [
  "proved",
  "Exact arithmetic."
 ],
 "C47": [
  "proved",
  "Exact arithmetic."
 ],
 "C17": [
  "partial",
  "Proved for every packet size >= 1 and every chunking of a configured buffer (incl. clean restart when the size is unchanged); refuted after reconfiguration to another size and for size 0."
 ],
 "C33": [
  "partial",
  "Proved for every utility except rotation_vec with d < -n (negative index, refuted) and trouve_dernier (refuted: off by one / throws; exact behaviour proved on the complement)."
 ],
 "C34": [
  "partial",
  "Proved in exact arithmetic over any ordered field with floor (modulo, modulo_2pi, modulo_pi, déplie with period 2 pi). Refuted: déplie of an empty vector reads out of bounds, déplie with another period, and two double-precision inputs whose rounded result leaves the canonical interval."
 ],
 "C24": [
  "partial",
  "Every cutting proved (bit-exact, no algebra); equality with filter-then-decimate / stuff-then-filter proved for symmetric filters (half-band: 4q+3 coefficients); the exact behaviour for every filter is convolution with the reversed coefficients, so the property is refuted for non-symmetric filters and for half-band filters of other lengths. Empty filters rejected. Announced interpolator delay proved."
 ],
 "C25": [
  "proved",
  ""
 ],
 "C39": [
  "partial",
  "First block proved over every commutative group (hence wrapping integers), both directions; block invariance is refuted (integrators restart), blocks shorter than R read index -1 (refuted). The final float gain is not modelled."
 ],
 "C26": [
  "proved",
  "Exact arithmetic in any field where 2 is nonzero; lengths that are not powers of two are shown rejected, and hadamard_matrice(0) is shown never to return (the recursion has no base case there)."
 ],
 "C27": [
  "proved",
  "All lengths 1..2^29 (radix-2, chirp for odd sizes, recursion for the others), after any history of plan calls, over exact complex arithmetic; inverse, Parseval, linearity. Refuted corner: a plan configured as inverse and called with plan->step(x) computes the direct transform (C27_direction_refute)."
 ],
 "C48": [
  "proved",
  "The statement as worded, with the defects of the code that it lists (theorems _refute), is entirely proved, over exact complex arithmetic."
 ],
 "C49": [
  "partial",
  "rfft proved for all lengths 1..2^29 and plan histories; csym_forçage proved for n >= 2 and refuted for n = 1 (out-of-bounds access)."
 ],
 "C50": [
  "partial",
  "Proved for 1..512 real coefficients, real input, every cutting; refuted for complex input (imaginary part dropped) and for more than 512 coefficients (out-of-bounds view on the first block)."
 ],
 "C51": [
  "partial",
  "Proved for |d| <= n; for |d| > n the code uses negative sizes (refuted)."
 ],
 "C30": [
  "partial",
  "Proved for every polynomial in coefficient or root form (horner, conversion, +, -, scalar operations, powers, products), except products root-form * coefficient-form, which are refuted (off by exactly 1), and << in root form (refuted). Evaluation point in any field with a conversion from the coefficient field; exact arithmetic."
 ],
 "C31": [
  "partial",
  "Sum, difference, product, quotient, inverse, powers, scalar operations, simplification, rif, z->1/z and rii proved when the factors avoid the root*coefficient product and numbers of coefficients differ by at most one; refuted otherwise (operator precedence in eval_inv_z), coefs_rif forgets delays (refuted), z_power(n<0) accesses out of bounds."
 ],
 "C52": [
  "partial",
  "Proved when the numbers of coefficients differ by at most one and are not both 1; refuted otherwise (eval_inv_z precedence; modulo 0 for one-coefficient denominators)."
 ],
 "C29": [
  "proved",
  "Exact real arithmetic. Beyond the statement: axis/angle meaning (C29_axe), norm preservation, q and -q the same rotation; C29_mat_refute shows that the separate 4x4 mat() does not give the identity for the identity quaternion."
 ],
 "C53": [
  "partial",
  "Matrix path proved in both directions (outside gimbal lock). The last clause is false of the code: Cardan(Quaternion) uses the convention of the inverse rotation (C53_quaternion), so every pure roll changes sign through the quaternion path (C53_roulis_refute)."
 ],
 "C28": [
  "proved",
  "Exact field arithmetic; levinson and levinson_reel for every order under the classical condition (leading minors non-null, for which the pivots are proved not to vanish). Also: reflection coefficient below 1 and all roots of the predictor inside the unit circle for positive definite autocorrelations."
 ],
 "C54": [
  "partial",
  "Proved for real signals; for complex ones the code returns the transpose (= conjugate) of the documented matrix (C54_covariance, witness C54_complexe_refute)."
 ],
 "C55": [
  "proved",
  "Exact arithmetic, p >= 2; p = 1 reads the autocorrelation out of bounds (C55_ordre_nul). Sizes such that the internal FFT length stays below 2^29."
 ],
 "C32": [
  "partial",
  "Lagrange (all degrees, all polynomials) and linear proved exactly; the spline interpolator quantises the delay to 1/256, so that affine (and quadratic) signals are reproduced at the quantised delay only (C32_cspline_partial, witness C32_cspline_refute). The windowed sinc interpolator is the subject of C153."
 ],
 "C56": [
  "proved",
  "Exact arithmetic, real values. C56_desordre shows that the documented condition on the output abscissas is needed."
 ],
 "C57": [
  "proved",
  "Exact arithmetic (the phase is a float in the code: rounding drift is not modelled)."
 ],
 "C58": [
  "proved",
  "Configuration only; the chain of filters is the composition of filters proved elsewhere (C24, C57)."
 ],
 "C35": [
  "partial",
  "Proved for every history of writes whose calls store whole frames and under 2^29 bytes of data, for float and 16-bit files, any read chunking, and after redemarre. Refuted otherwise: calls that store a partial frame lose samples in the header (C35_decoupage_refute), 8*data_size overflows from 512 MB on (C35_taille_refute), stereo headers have wrong byte rates (C35_entete_stereo_refute), recherche is wrong on float files (C35_recherche_refute)."
 ],
 "C59": [
  "partial",
  "Proved for files with no 4-byte field >= 2^31-1; refuted in general: C59_termine_refute exhibits a 44-byte file on which opening never ends."
 ],
 "C60": [
  "partial",
  "Opening and reading proved for any sequence of blocks; the rewinding part is refuted (C60_redemarre_refute)."
 ],
 "C36": [
  "partial",
  "Proved for every program of creations, copies, views, assignments, element writes, in-place operations and resizes: isolation of disjoint memory, independence of copies, segments / columns / blocks as aliases of their parent, exact effect of element writes, of assignments to segments, columns and blocks. Refuted (the English claim is false of the code) with witnesses for: move assignment of a segment to an ordinary variable (aliases), mismatched sizes (silently ignored), overlapping segment copies (undefined), resize under a view, negative positions, col(cols()), element access and arithmetic on blocks, block bounds. Not modelled: conversion between scalar types, ranks above 2, sharing of the untyped handle."
 ],
 "C37": [
  "partial",
  "Equality of dimensions characterised, equivalence, invariance of total() proved; total() multiplicative proved for non-empty lists, refuted for the empty one; concatenation is not a congruence (refuted)."
 ],
 "C61": [
  "partial",
  "Vectors, and matrices whose number of rows does not change: proved. Number of rows changes: refuted (elements move)."
 ],
 "C62": [
  "partial",
  "Vectors: proved. Matrices: refuted (buffer of n elements, n*m written) for all n>0, m>1."
 ],
 "C63": [
  "proved",
  "Exact arithmetic (the renormalisations are modelled)."
 ],
 "C64": [
  "partial",
  "Proved in exact arithmetic for all generators, for even periods for sigtri / sigcar and for periods of at least 2 for sigscie. Refuted for odd periods of sigtri (exceeds 1) and sigcar (wrong period) and period 1 of sigscie, sigcar (division by zero)."
 ],
 "C65": [
  "partial",
  "Proved in exact arithmetic; refuted for the float conversion of the code: wrong at 2^24 or 2^24+1 whatever the logarithm function."
 ],
 "C66": [
  "proved",
  "Exact arithmetic; modulo_2π modelled as in C34."
 ],
 "C67": [
  "partial",
  "Formula, tone, streaming filter proved; score <= 2 proved and score <= 1 refuted (constant signal, f=0)"
 ],
 "C68": [
  "partial",
  "Proved for even n; refuted for odd n (shifted grids, first negative frequency) and for psd_freqs(n, non)"
 ],
 "C69": [
  "partial",
  "Candan exactness and half-bin bound proved; range proved for FFT and QUADRATIC, refuted for CANDAN2; NaN on impulses refuted"
 ],
 "C70": [
  "partial",
  "First kind proved everywhere; second kind refuted for every n>=1 (int 2 converted to bool)"
 ],
 "C71": [
  "proved",
  "Exact arithmetic; explicit error bounds in the threshold zones"
 ],
 "C72": [
  "proved",
  "Exact real arithmetic; score and delay bounds for every pair, exact delay for every shifted and scaled copy."
 ],
 "C73": [
  "partial",
  "Shape proved whenever the call succeeds; C73_succes: success for every pair of non-null signals, with a delay at most one sample from the correlation maximum; exact alignment for delayed copies. C73_silence gives the exact success condition when a signal is null; C73_silence_refute: the call fails (negative segment size) for silent signals, so the claim does not hold for every pair."
 ],
 "C74": [
  "partial",
  "C74_welch_partial: each bin is the SUM of the periodograms of the segments that end strictly before the last sample, at the returned frequency when N is even. Refuted: the last segment is dropped (a single segment gives a null spectrum), no division by the number of segments, endless loop for N=1."
 ],
 "C75": [
  "partial",
  "Averaging, window energy and total power proved for every history without sweep; C75_balayage_refute: with sweep each band is divided by the number of bands. Linear spectrum (dB conversion not modelled)."
 ],
 "C76": [
  "partial",
  "Interpolation proved for even sizes, decimation for band-limited signals; refuted for odd sizes (one bin lost) and complex signals (imaginary part lost)."
 ],
 "C77": [
  "partial",
  "Refuted: fails whenever m differs from the number of samples, and wrong values otherwise (missing factor, checked for W=z0=1 and every signal)."
 ],
 "C78": [
  "partial",
  "Proved in exact arithmetic for all windows but Chebyshev (C79). Refuted: the periodic variant of odd length is not periodic; the symmetric Hann/triangle/Blackman windows of length 2 are null."
 ],
 "C79": [
  "partial",
  "Proved for every length and attenuation in exact arithmetic; the argument 'symmetric' is ignored: refuted for the periodic variant."
 ],
 "C80": [
  "partial",
  "Proved for odd numbers of coefficients. Refuted: 'pb' is not normalised although 'lp' is; even numbers of coefficients give a non symmetric filter. The windows of Kaiser and Chebyshev enter by the general window theorem."
 ],
 "C81": [
  "partial",
  "Proved when the number of coefficients matches the template. Refuted: the resampled template uses another grid than the documented one; one-point templates are rejected."
 ],
 "C82": [
  "partial",
  "Coefficients and streaming proved; hilbert_tfd characterised exactly: analytic for odd lengths and null mean, refuted in general (DC doubled, Nyquist dropped)."
 ],
 "C83": [
  "partial",
  "Cascade, types, reflection and inversion proved for all filters; pb2pb and pb2pm are stubs (refuted)."
 ],
 "C84": [
  "partial",
  "Proved for even numbers of coefficients >= 4 (error bound 4/(pi(n+1))) and antisymmetry; refuted for n = 2 (sign), for all centred odd n (slope 2 or 0) and for the other parities (constant not removed)."
 ],
 "C85": [
  "partial",
  "-3 dB at the cut-off frequency is only approximate (refuted exactly, bounded for small frequencies); everything else proved"
 ],
 "C86": [
  "partial",
  "proved for odd n; symmetry refuted for even n (raised cosine) and for the end coefficients of the GFSK filter; unit sum supposes a non-null sum before normalisation; the underflow branch of gaussien_telecom is not modelled"
 ],
 "C87": [
  "proved",
  "FIR designs only (the second-order-section branch of filtrer is covered by C45-C47)"
 ],
 "C88": [
  "partial",
  "Zero-pole form proved for all transfer functions and points; refuted for transfer functions given by coefficients (roots() throws on complex polynomials), and stability needs a proper filter (witness). Real arithmetic in place of float."
 ],
 "C89": [
  "partial",
  "Low-pass proved. High-pass proved up to the sign (-1)^(#zeros+#poles), and the sign error refutes the full claim."
 ],
 "C90": [
  "partial",
  "Low-pass fully proved; squared gain of the high-pass proved; refuted: the high-pass passband gain is -1 for odd orders, and band-pass / band-stop designs throw."
 ],
 "C91": [
  "partial",
  "Pole count, stability, squared gain proved for all orders; ripple bound proved for odd orders; refuted for even orders (gain normalised at the bottom of the ripple: the passband rises to +δ dB)."
 ],
 "C92": [
  "partial",
  "Proved for even orders; refuted for odd orders (division by cos(π/2)) and for first-order elliptic designs (square root of a negative number). Elliptic prototypes of higher order are not modelled."
 ],
 "C93": [
  "proved",
  "Stability, difference equation, exact frequency response and gains at 0, f, Nyquist for all seven types; unknown type names silently give a low-pass. Real arithmetic in place of float."
 ],
 "C94": [
  "proved",
  "exact real arithmetic; the quadrant decision is refuted on the axes (C94_quadrant_refute), which the statement excludes"
 ],
 "C95": [
  "proved",
  "The statement as worded, with the defects of the code that it lists (theorems _refute), is entirely proved. within one call; the parity restarts at each call, refuted by C95_decoupe_refute"
 ],
 "C96": [
  "proved",
  "exact real arithmetic"
 ],
 "C97": [
  "proved",
  "The statement as worded, with the defects of the code that it lists (theorems _refute), is entirely proved. cutting at symbol boundaries proved; cutting inside a symbol refuted by C97_decoupe_refute; the coefficients of the Gaussian and root-raised-cosine designs are a parameter (see C85-C86 for the latter)"
 ],
 "C98": [
  "partial",
  "within one call; cutting (C98_decoupe_refute) and M-ary separability (C98_ambigu_refute) are refuted; C98_nrz_partial needs an extreme symbol in the block"
 ],
 "C99": [
  "partial",
  "linear waveforms, fi = 0; independence of the frames proved for pulses no longer than one symbol plus the flush, refuted otherwise (C99_interference_refute); retard() refuted (C99_retard_refute)"
 ],
 "C100": [
  "proved",
  "Exact real arithmetic."
 ],
 "C101": [
  "proved",
  "Exact real arithmetic, loop closed on an ideal linear phase detector; the second-order loop has A = 1 as in the code."
 ],
 "C102": [
  "proved",
  "Exact real arithmetic; the look-up-table oscillator (C66) is replaced by the exact exponential. The moving-average filter and the frequency limits of the real PLL (RPLL) are not modelled."
 ],
 "C103": [
  "partial",
  "The property is false for odd lengths (C103_impair_refute): the integer division N/2 folds bin (N-1)/2 to −(N+1)/2N, below −1/2, and the assertion fails. Proved for even lengths. Exact arithmetic."
 ],
 "C104": [
  "partial",
  "exact arithmetic; the shift of the window by an overlapping memcpy is assumed to act as memmove; in the CMA error with DFE structure the feedback filter never adapts (refuted)"
 ],
 "C105": [
  "partial",
  "the least squares solver is a parameter; when m+n <= 3 the delay falls outside of the target vector (refuted)"
 ],
 "C106": [
  "partial",
  "long blocks overflow the output bound assertion and osf=2 gives a negative abscissa (both refuted); the interpolator is a parameter; the timing error detector passed in the configuration is ignored by the code (Gardner hard-coded)"
 ],
 "C107": [
  "partial",
  "for a forgetting factor below 1/2 the first estimates are NaN (refuted)"
 ],
 "C108": [
  "proved",
  "Exact real arithmetic; std::arg is Complex.arg."
 ],
 "C109": [
  "partial",
  "C109_sans_porteuse proves the suppressed-carrier law for every cutting. C109_dsb_partial: the DSB law holds only with each block normalised by its own maximum (C109_decoupe_refute: the output depends on the cutting; C109_silence_refute: a silent block is 0/0). C109_bandes_refute: the two side bands are exchanged - USB emits the lower band with weight (1+G)/2 and LSB the upper one. Exact arithmetic."
 ],
 "C110": [
  "partial",
  "C110_dsb_refute: in DSB modes the demodulator never outputs anything. C110_blu: single side-band recovery law, for both configured modes. C110_lsb_refute: the LSB setting is ignored (same output as USB). The audio band filters and the resampler are parameters. Exact arithmetic."
 ],
 "C111": [
  "partial",
  "C111_compte, C111_succes, C111_exact, C111_psk and C111_psk_exact prove the counting, success, exactness and phase-ambiguity claims. Refuted parts: streams without a one make the comparison fail (C111_zeros_refute gives the exact condition), a constant symbol stream makes cmp_bits_psk fail even against itself (C111_constant_refute), and the shift is not the one with the fewest errors (C111_minimum_refute). Exact arithmetic; sizes bounded by the FFT limit."
 ],
 "C112": [
  "proved",
  "The statement as worded is entirely proved, over exact arithmetic, for every non-null pattern (C112_rif: real pattern or imaginary part that is not relatively small; C112_reel, C112_ecart: the other ones, C112_reel_refute: a window whose score is suppressed). The documented 'equal to 1' is only approached because of the 1e-20 added to the energy. Noise estimation not modelled."
 ],
 "C113": [
  "proved",
  "The statement as worded, with the defects of the code that it lists (theorems _refute), is entirely proved. Filter mode. C113_complet: every clear peak is reported with the documented fields; C113_sur: every detection is above the threshold and a maximum in its segment; C113_voisinage_refute, C113_plateau_refute and C113_coupure_refute exhibit failures of the documented neighbourhood criterion, of the gain on a flat top, and of the independence from the cut in blocks. Peaks on the first and last sample of a block are only covered by C113_sur. Noise estimation not modelled."
 ],
 "C114": [
  "proved",
  "The statement as worded, with the defects of the code that it lists (theorems _refute), is entirely proved. Exact arithmetic. C114_score, C114_complet: overlap-add mode for every admissible block size; C114_auto: the automatic block size is admissible (4 <= M <= 2^25) and of least cost; C114_taille_refute and C114_court_refute: other block sizes and patterns of one or two samples fail an assertion. Pattern of three samples with the automatic size not claimed (exact tie of the costs). Noise estimation not modelled."
 ],
 "C115": [
  "proved",
  "The statement as worded, with the defects of the code that it lists (theorems _refute), is entirely proved. Proved for the step and whole runs (Q psd, R pd); the default Q of ssm_lineaire and the first observation of steps are refuted. Exact arithmetic."
 ],
 "C116": [
  "proved",
  "Invertible covariances; exact arithmetic."
 ],
 "C117": [
  "proved",
  "All lengths; exact arithmetic."
 ],
 "C118": [
  "proved",
  "The statement as worded, with the defects of the code that it lists (theorems _refute), is entirely proved. Scalar models; the general statement is refuted by witnesses (c = 2, Q = 0 unstable, unequal dimensions, coupled states)."
 ],
 "C119": [
  "proved",
  "The statement as worded, with the defects of the code that it lists (theorems _refute), is entirely proved. Identity observation; the general statement is refuted by witnesses."
 ],
 "C120": [
  "proved",
  "The statement as worded, with the defects of the code that it lists (theorems _refute), is entirely proved. Equations, concatenation and chain proved; four statements refuted by the code. The Cholesky factor is a parameter, the draws are arguments."
 ],
 "C121": [
  "partial",
  "complex and real input proved for every cut; C121_ratio_refute: the ratio is ignored"
 ],
 "C122": [
  "partial",
  "offsets, modulus and Eb/N0 proved; C122_decoupe_refute and C122_delai_refute: noise level depends on the cut, delay removes samples from every block"
 ],
 "C123": [
  "partial",
  "modulus proved; C123_sequence_refute, C123_slots_refute, C123_premier_refute: sequence content ignored, blocks of several slots fail, first slot not shifted"
 ],
 "C124": [
  "proved",
  "the resampler is an arbitrary block"
 ],
 "C125": [
  "partial",
  "order of the gains proved; C125_court_refute: short blocks fail; C125_puissance_refute: the complex squares are normalised, not the power"
 ],
 "C126": [
  "proved",
  "Doppler integral on every closed sub-interval"
 ],
 "C127": [
  "partial",
  "C127_etages: the stages are undone exactly; C127_inverse_refute: merge reads its saved even samples through a view of the vector it overwrites, so no signal whose samples 1 and 2 differ is restored; C127_profondeur_refute: too large depths never return"
 ],
 "C128": [
  "partial",
  "means, differences and moments proved; C128_energie_refute: K is not applied; C128_bord_refute: first detail of a constant is not null"
 ],
 "C129": [
  "proved",
  "real z; schemes given by coefficients"
 ],
 "C130": [
  "partial",
  "antisymmetric filters whose first coefficient is null are classified symmetric (witness), the FFT variant is wrong for even lengths (witness) and fails for long filters; exact real arithmetic"
 ],
 "C131": [
  "partial",
  "a template that can be met exactly makes the design fail (0/0), witness theorem; the least-squares solver is a parameter with its mathematical specification; exact real arithmetic"
 ],
 "C132": [
  "proved",
  "The statement as worded is entirely proved, over exact real arithmetic, with the least-squares solver as a parameter; success between 0 and 1/64 is not decided."
 ],
 "C133": [
  "partial",
  "intervals starting at the Nyquist frequency after a gap make the design fail (witness); exact real arithmetic"
 ],
 "C134": [
  "partial",
  "a FIR filter longer than 2 npts makes frmag fail (odd length) or return more points than requested (even length): C134_long_refute; exact real arithmetic"
 ],
 "C135": [
  "partial",
  "the realisation of rational filters is a parameter in repimp/repech, instantiated in C135_rationnel_refute, where the response starts with a wrong sample; exact real arithmetic"
 ],
 "C136": [
  "proved",
  "proved for designs whose response is exactly linear-phase on the grid; exact real arithmetic"
 ],
 "C137": [
  "partial",
  "a filter with gain between 0.2 and 0.8 at both ends is not classified by its gains and filters with more than 8192 coefficients get wrong frequencies (witnesses); start of the secondary lobes proved without equal neighbours; exact real arithmetic"
 ],
 "C138": [
  "partial",
  "difference equation proved from the order of the filter on, and at every time when the signal starts with 0; refuted on the first samples otherwise (C138_debut_refute), for some orders of the roots (C138_ordre_refute, C138_indices_refute), with a null leading coefficient and for other representations; the polynomial solver is a parameter; exact arithmetic"
 ],
 "C139": [
  "proved",
  "Any decision context (also with memory), any interpolator, with errors: both sides fail together."
 ],
 "C140": [
  "partial",
  "Proved for NRZ shaping with noise, and for any shaping when the noise plus the intersymbol interference of its pulse (read D symbols late) is below the margin (C140_formes: bits returned D symbols late); refuted without shaping (NONE): the modulator puts the symbol at the end of its period, the demodulator reads its start (C140_aucun_refute)."
 ],
 "C141": [
  "partial",
  "Proved for NRZ, carrier and gain loops; refuted for a null sample with the AGC (C141_nul_refute: division by zero, e.g. OOK)."
 ],
 "C142": [
  "partial",
  "Decisions exact, level monotone between 1 and a and convergent; but the limit is the square root of the received level, not 1 (C142_niveau_refute): the gain is measured after its own application."
 ],
 "C143": [
  "partial",
  "Settled for every osf with AGC off: proved for osf >= 4; refuted for osf = 1 (always fails), osf = 2 and osf = 3 (the phase becomes negative on 7-sample signals, for every time constant). With the AGC a zero sample makes the gain undefined (C141_nul_refute)."
 ],
 "C144": [
  "partial",
  "Proved for NRZ, even osf, interpolators exact at the last sample (linear); refuted for the default cubic spline interpolator (one sample late) and for odd oversampling factors (half a sample early: C144_impair_refute)."
 ],
 "C145": [
  "partial",
  "Proved without transposition and for matched filters of at most 5 symbols plus one sample; refuted with an intermediate frequency (the oscillator goes on) and for longer filters."
 ],
 "C146": [
  "proved",
  "Exact arithmetic; linear waveforms (no FSK); detector and interpolator are parameters. Soundness, order and completeness."
 ],
 "C147": [
  "proved",
  "Exact arithmetic; the detector is any function of its state and of the block."
 ],
 "C148": [
  "proved",
  "The statement as worded, with the defects of the code that it lists (theorems _refute), is entirely proved. C148_sans_erreur for memoryless decisions without loops; C148_erreur_refute lists detections that make the call fail."
 ],
 "C149": [
  "proved",
  "The statement as worded, with the defects of the code that it lists (theorems _refute), is entirely proved. C149_position for aligned calls; C149_tampon_refute and C149_appel_refute for the others: the position is wrong when samples wait in the buffer and is relative to the call of the detection."
 ],
 "C150": [
  "partial",
  "C150_perdue_refute: a header detected during a frame makes it lost; C146_complet is the part that holds."
 ],
 "C151": [
  "proved",
  "C151_motif gives the exact pattern for NRZ; C151_motif_refute: it is never the modulated header. Other pulse shapes are not covered."
 ],
 "C152": [
  "partial",
  "NRZ, odd number of interpolator coefficients, exact position, gain and phase of the detection; exact arithmetic. Other pulse shapes are not covered."
 ],
 "C153": [
  "proved",
  "C153_gain_refute: the gain is not 1 below the cut-off 1/2; float rounding is not modelled."
 ],
 "C154": [
  "proved",
  "Exact real arithmetic; the variance per component is that of Eb/N0 for the library's constellation."
 ],
 "C155": [
  "proved",
  "The statement as worded, with the defects of the code that it lists (theorems _refute), is entirely proved. C155_qpsk is exact up to 2v/10^96, which comes from the initial bound 1e100 of the library's nearest-symbol search; C155_pi4 is exact. C155_qpsk_refute and C155_pi4: the returned rate is strictly below the true one. Exact real arithmetic."
 ],
 "C156": [
  "proved",
  "The statement as worded, with the defects of the code that it lists (theorems _refute), is entirely proved. Up to 2v/10^96 (initial bound 1e100 of the search). C156_ook_refute: false for levels that are not symmetric. The exact bit error rate for k >= 2 is only bounded. Exact real arithmetic."
 ],
 "C157": [
  "proved",
  "Up to 2v/10^96; exact bit error rate for 16-QAM and above only bounded. Exact real arithmetic."
 ],
 "C158": [
  "proved",
  "Up to 2v/10^96; lower and upper bounds (the exact rate has no closed form). Exact real arithmetic."
 ],
 "C159": [
  "proved",
  "Exact real arithmetic."
 ],
 "C160": [
  "partial",
  "C160_fsk_refute: all samples undefined when the filtered symbols are all null (e.g. no bit); C160_contexte_refute: the streaming context of get_contexte_tx never gives a sample. Exact arithmetic; the coefficients of the non-NRZ filters are a parameter."
 ],
 "C161": [
  "partial",
  "The eigenvalue solver is a parameter with its documented guarantees (propres_existe: they can be met). C161_auto_refute: the automatic number of sources depends on the unit of the signal and is wrong for noise powers of 2 or more. Exact arithmetic."
 ],
 "C162": [
  "partial",
  "C162_unite_refute: a factor 2 pi is missing in the steering vectors; C162_snr_refute: the SNR is inverted; C162_angles_refute: musicdoa_1d always returns an empty vector. C162_spectre gives the spectrum once these are corrected by the caller."
 ],
 "C163": [
  "proved",
  "The statement as worded, with the defects of the code that it lists (theorems _refute), is entirely proved. Real arithmetic instead of float; the isnan tests and the drawing functions are not modelled."
 ],
 "C164": [
  "proved",
  "The statement as worded, with the defects of the code that it lists (theorems _refute), is entirely proved. Real arithmetic instead of double and float; the decimal digits of the text are represented by the number they denote. The overflow, the zero for small values and the dependency on the order of the tics are proved as refutations."
 ],
 "C165": [
  "proved",
  "The statement as worded, with the defects of the code that it lists (theorems _refute), is entirely proved. int overflow of the coordinates is not modelled. The endless recursion and the unchecked copy are proved as refutations."
 ],
 "C166": [
  "proved",
  "Real arithmetic instead of float for the mixing; the codes and texts are exact."
 ],
 "C167": [
  "proved",
  "The statement as worded, with the defects of the code that it lists (theorems _refute), is entirely proved. Exact set of the coloured pixels for points, straight lines and rectangles; for antialiased lines, safety and neighbourhood under the positivity of the minor coordinate at both ends, refuted on the first row; crossing lines refuted. Filled shapes and text not modelled. Weights are reals where the code uses float."
 ],
 "C168": [
  "proved",
  "The statement as worded, with the defects of the code that it lists (theorems _refute), is entirely proved. Exact real arithmetic in place of float (square root and weights). Ellipses: see C219."
 ],
 "C169": [
  "proved",
  "The statement as worded, with the defects of the code that it lists (theorems _refute), is entirely proved. Exact real arithmetic in place of float: the truncation of a product that is an exact integer could lose one unit in float."
 ],
 "C170": [
  "proved",
  "The statement as worded, with the defects of the code that it lists (theorems _refute), is entirely proved. Exact real arithmetic in place of float. The refutations cover one column or row and the same size."
 ],
 "C171": [
  "partial",
  "Elementwise semantics, shape checks (with an exact characterisation of failure), commutativity, scalar operations, select, comparisons proved for all arrays. The code violates the property, and the negation is proved: `-` and the compound assignments do not check shapes, scalar / integer array gives 0 (C171_division_entiere_refute), a fractional scalar times an integer array is 0, select does not check the mask length, && and || throw on every matrix, tous_vrai() is false and au_moins_un_faux() true on an empty mask. Rounding, integer overflow and block views are not modelled here."
 ],
 "C172": [
  "partial",
  "All the rearrangements and algebraic identities are proved for all sizes ≥ 1 × 1; refuted for the transposed of an empty vector (one indeterminate element) and for set_row with a row out of range (overwrites another entry). Exact arithmetic instead of floating point."
 ],
 "C173": [
  "proved",
  "The statement as worded, with the defects of the code that it lists (theorems _refute), is entirely proved. Exact arithmetic; the two resampling stages are parameters assumed to be insensitive to the cutting; the limit on the number of symbols per call is why both cuttings are assumed accepted. Refuted: maximum likelihood mode with FSK (null pointer), pi/4-QPSK decisions across blocks, reset. `delais` always throws (not stated as a theorem)."
 ],
 "C174": [
  "proved",
  "The statement as worded, with the defects of the code that it lists (theorems _refute), is entirely proved. The clauses on the default mode, on the absence of validation and on the printed forms are refuted; the others are proved. The formatting library and sscanf/stoi are modelled on characters."
 ],
 "C175": [
  "proved",
  "The statement as worded, with the defects of the code that it lists (theorems _refute), is entirely proved. double operations rounded by rnd64 (Binary64); sidereal time in exact arithmetic. Refuted: truncation, overflow of the composed constructor, printing of negative durations, J2000()."
 ],
 "C176": [
  "proved",
  "The statement as worded, with the defects of the code that it lists (theorems _refute), is entirely proved. Exact real arithmetic instead of float; the announced number of additional bits is refuted (C176_bits_refute). The plots of cic_analyse are not modelled."
 ],
 "C177": [
  "proved",
  "The statement as worded, with the defects of the code that it lists (theorems _refute), is entirely proved. Exact real arithmetic instead of float. Refuted: osf = 1 (C177_osf1_refute), sense of the correction (C177_sens_refute), independence of the carrier phase (C177_rotation_refute)."
 ],
 "C178": [
  "proved",
  "The statement as worded, with the defects of the code that it lists (theorems _refute), is entirely proved. Exact real arithmetic instead of float. Refuted: configurations without orientation (C178_sans_orientation_refute), GPS and barometer without position (C178_gps_refute), estimation with filtre_ekf (C178_ekf_refute)."
 ],
 "C179": [
  "proved",
  "The statement as worded, with the defects of the code that it lists (theorems _refute), is entirely proved. The filters, discriminator, RDS demodulator and PLL are parameters; exact arithmetic. Only the mono part holds; RDS, low sampling frequencies, block cut and stereo separation are refuted."
 ],
 "C180": [
  "proved",
  "The statement as worded, with the defects of the code that it lists (theorems _refute), is entirely proved. Values of the correlations are a parameter of the model; exact arithmetic. CQT::step violates the property (proved)."
 ],
 "C181": [
  "proved",
  "The statement as worded, with the defects of the code that it lists (theorems _refute), is entirely proved. Exact arithmetic; out of range writes proved (refute)."
 ],
 "C182": [
  "proved",
  "Exact arithmetic (float rounding not modelled)."
 ],
 "C183": [
  "proved",
  "The property fails: the refutation is the theorem, in exact arithmetic."
 ],
 "C184": [
  "proved",
  "The statement as worded, with the defects of the code that it lists (theorems _refute), is entirely proved. Exact arithmetic instead of float; the round trip is proved for even dimensions and refuted for odd ones."
 ],
 "C185": [
  "proved",
  "Exact arithmetic instead of float and double."
 ],
 "C186": [
  "proved",
  "The statement as worded, with the defects of the code that it lists (theorems _refute), is entirely proved. Exact arithmetic; linear axes with automatic graduations; minor graduations, logarithmic axes, manual graduations and forced spacings are not modelled; refuted in the remaining case."
 ],
 "C187": [
  "proved",
  "The statement as worded, with the defects of the code that it lists (theorems _refute), is entirely proved. Proved on whole numbers of tics (conversion from float seconds not modelled); labels not modelled; the count of 8 and the presence of a graduation are refuted."
 ],
 "C188": [
  "proved",
  "The statement as worded, with the defects of the code that it lists (theorems _refute), is entirely proved. Exact arithmetic; proved for an aspect ratio of 1 and refuted for the others."
 ],
 "C189": [
  "proved",
  "The statement as worded, with the defects of the code that it lists (theorems _refute), is entirely proved. Exact arithmetic; refuted for logarithmic inverse conversions and for a vertical axis on the left. The drawing primitives of the canvas are not modelled."
 ],
 "C190": [
  "proved",
  "The statement as worded, with the defects of the code that it lists (theorems _refute), is entirely proved. exact arithmetic instead of float; violated by mono-per (C190_continu_refute)"
 ],
 "C191": [
  "proved",
  "The statement as worded, with the defects of the code that it lists (theorems _refute), is entirely proved. unbounded integers (except the norm) and exact reals; membership of integer rectangles and norm of large points violated (_refute theorems)"
 ],
 "C192": [
  "proved",
  "the samples are only copied; the pairs are those given to the output buffers, whose callbacks are empty in the code, so that no public function returns them"
 ],
 "C193": [
  "proved",
  "The statement as worded, with the defects of the code that it lists (theorems _refute), is entirely proved. The noise chain (white noise, Doppler filter, resampler) is an abstract state machine; exact arithmetic; acceptance of every block size is refuted. Complements C125 and C126."
 ],
 "C194": [
  "proved",
  "The statement as worded, with the defects of the code that it lists (theorems _refute), is entirely proved. Exact arithmetic, abstract base band filter; lock proved for the first-order loop with the default detector; locking on the input phase is refuted, as is the use without base band filter."
 ],
 "C195": [
  "proved",
  "The statement as worded, with the defects of the code that it lists (theorems _refute), is entirely proved. Engine and distributions of the standard library are abstract; randb and the comparison of random bit streams violate the expected property (refuted)."
 ],
 "C196": [
  "partial",
  "proved in exact arithmetic for M ≤ 2; the plotted figures are not modelled; R = 1 and a cut-off at the band edge are refuted (error), and the flatness at the output frequencies is refuted (the template uses k/8192 while the design uses k/(2n-1))"
 ],
 "C197": [
  "proved",
  "The statement as worded, with the defects of the code that it lists (theorems _refute), is entirely proved. exact arithmetic; orders below 256000; stability of the poles and the equiripple gain curve are not proved"
 ],
 "C198": [
  "proved",
  "The statement as worded, with the defects of the code that it lists (theorems _refute), is entirely proved. exact numbers (no rounding between float and double); Eigen's isApprox is modelled from its documentation; conversions of boolean arrays only to and from integers; refuted parts are stated as theorems"
 ],
 "C199": [
  "proved",
  "The statement as worded, with the defects of the code that it lists (theorems _refute), is entirely proved. refuted: both functions fail for every float matrix (other types throw, C198); the vector version is proved in C33"
 ],
 "C200": [
  "partial",
  "The property is false of the code: exact effect of the copy proved for all values, property refuted with witnesses (default settings, carrier loop, decision mode)."
 ],
 "C201": [
  "proved",
  ""
 ],
 "C202": [
  "partial",
  "Refuted for sigimp, waveform_ask, the two phase locked loops, the packet transmitter without header waveform, quaternions, table conversions; exact behaviour proved in each case. Only these functions of the English API are modelled."
 ],
 "C203": [
  "partial",
  "Holds for objects which are not copies; refuted for copies, and for the mode of the detector."
 ],
 "C204": [
  "proved",
  "exact arithmetic; the eigen solver is a parameter with its documented guarantees; the symmetry needs a simple greatest eigenvalue"
 ],
 "C205": [
  "proved",
  "The statement as worded, with the defects of the code that it lists (theorems _refute), is entirely proved. the grids are proved; refuted: a negative duration gives a negative number of points (C205_negative_refute)"
 ],
 "C206": [
  "proved",
  "The statement as worded, with the defects of the code that it lists (theorems _refute), is entirely proved. the group laws are proved; refuted: the axis number is not checked (C206_numero_refute) and the attitude is lost at the vertical (C206_vertical_refute)"
 ],
 "C207": [
  "proved",
  "The statement as worded, with the unbounded drift (C207_derive_refute), is entirely proved. Exact real arithmetic, real samples."
 ],
 "C208": [
  "proved",
  "The statement as worded, with the defects it lists (C208_longue_refute, C208_course_refute), is entirely proved. The two clocks read by one call are taken at the same instant; exact rationals instead of float."
 ],
 "C209": [
  "proved",
  "statement (with the violations it lists) proved in exact arithmetic; Ne even; memcpy onto itself read as no change"
 ],
 "C210": [
  "proved",
  "exact arithmetic; N even"
 ],
 "C211": [
  "proved",
  "Statement with its listed defects entirely proved. Buffers, views and variables as in C36. The detection itself (peaks) is not part of this property."
 ],
 "C212": [
  "proved",
  "The whole statement is proved, with the violations. Integers are unbounded; the figures are opaque."
 ],
 "C213": [
  "proved",
  "The whole statement is proved, with the violations. Exact arithmetic; finite abscissas; the margins are modelled for linear axes."
 ],
 "C214": [
  "proved",
  "The whole statement is proved, with the violations. Exact arithmetic; the spectrum itself is not modelled here (C27, C68)."
 ],
 "C215": [
  "proved",
  "The whole statement is proved, with the violations. Exact arithmetic for the crossings; the drawing of a horizontal segment is C167."
 ],
 "C216": [
  "proved",
  "The whole statement is proved, with the violations. Exact arithmetic; linear axes (logarithmic ones: C189)."
 ],
 "C217": [
  "proved",
  ""
 ],
 "C218": [
  "proved",
  ""
 ],
 "C219": [
  "proved",
  ""
 ],
 "C220": [
  "proved",
  "The PNG library is taken as lossless; the C++ library is taken to refuse the creation of a directory with an empty name (std::filesystem::create_directory)."
 ],
 "C221": [
  "proved",
  "The counters are exact naturals (float counters in the code)."
 ],
 "C222": [
  "proved",
  "Integers are unbounded: the products of dimensions overflow int for very large zooms in the code."
 ],
 "C223": [
  "proved",
  "texte_dim (freetype) is a parameter with non negative dimensions."
 ],
 "C224": [
  "proved",
  "the violated parts are proved with witnesses (C224_pave_refute, C224_inconnu)"
 ],
 "C225": [
  "proved",
  "the violated parts are proved (C225_decroissant_refute, C225_colonne_refute, C225_moins_un_refute)"
 ],
 "C226": [
  "proved",
  "the violated parts are proved with witnesses (C226_mince_refute, C226_moitie_refute, C226_epais_refute)"
 ],
 "C227": [
  "proved",
  "the violated parts are proved with witnesses (C227_gauche_refute, C227_emboite_refute, C227_emboite_absent_refute)"
 ],
 "C228": [
  "proved",
  "The statement as worded, with the defects of the code that it lists (theorems _refute), is entirely proved, over exact arithmetic. Frequency responses, plots and the theoretical response of the Gaussian and raised-cosine pulses are not modelled."
 ]
}