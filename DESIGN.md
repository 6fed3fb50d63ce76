# Formal model of tsdconseil/libtsd — design

(The tables are regenerated by `tools/design.py` from the Lean sources, `properties.jsonl` and `MANIFEST.json`.)

## Approach
Lean 4 model under `lean/Verif/`. For each area there are three kinds of file:
* `Model`: executable (or noncomputable, when real numbers are involved) definitions transcribed function by function
  from `/repo/core`, each with a comment citing file and lines and every simplification;
* `Lemmas` / `Spec`: helper lemmas (not part of the claims) and small independent specifications;
* `Props`: the property theorems (`Cnn_...`), and next to each theorem an `example` showing that a concrete
  non-trivial case meets its hypotheses.

Conventions
* C++ `entier` (int) is `Nat`/`Int` (unbounded) unless the property is about wrap-around, in which case `BitVec` or an
  explicit modulus is used; sizes are supposed to fit the memory.
* A thrown exception (`échec`, `assertion`, `msg_erreur` with the default logger) or an undefined behaviour (out-of-bounds
  access, division of integers by zero) is `Except.error` / `none`, so "the call succeeds" is part of the statements.
* An endless loop is modelled by a fuel-indexed function that never returns whatever the fuel, or by an explicit
  non-termination statement.
* Floating point: streaming blocks are modelled over an *arbitrary* carrier with uninterpreted operations in the very
  evaluation order of the code when the property needs no algebra (so it applies to IEEE floats bit for bit);
  algebraic refinements (convolution, DFT, ...) are over a commutative ring / field, ℝ or ℂ, i.e. exact arithmetic.
  Where rounding decides (C15, C16, C34, C65) binary64/binary32 rounding is modelled (`Binary64.lean`).
* Naming: `Cnn_x` proved claim; `Cnn_x_partial` a claim proved on part of its domain; `Cnn_x_refute` the negation of the
  claim with a concrete witness, when the code does not satisfy it (the claim is then kept in `properties.jsonl` and its
  status is partial); other theorems are auxiliary.

How the theorems were tested: `tools/mutate.py` applies realistic wrong edits to the model definitions in a scratch copy,
rebuilds, and records which theorems fail (`seeded/LOG.jsonl`).

## Plan and outcome per property

Modules are under `lean/Verif/`. "partial": the full statement is kept in `properties.jsonl`; the note says what is proved, what is missing and what is refuted.

| Id | Property | Modules | Status | Theorems and outcome |
|----|----|----|----|----|
| C01 | BitStream is a faithful growable bit sequence | BitStream/Props.lean | proved | All operation histories, by refinement of the packed buffer to a list of booleans. `C01_histoire_fidele` |
| C02 | BitStream reading is FIFO and complete | BitStream/Props.lean | proved | FIFO reading and 32-bit round trip at any alignment. `C02_pop_fifo`, `C02_u32_round_trip` |
| C03 | BitStream accesses never leave the buffer | BitStream/Props.lean | proved | Reads and writes with any index: inside the buffer or error. `C03_lecture_bornee`, `C03_ecriture_bornee` |
| C04 | BitStream equality compares bit sequences | BitStream/Props.lean | partial | The property is false of the code (two counter-examples proved: lengths ignored, stale bits after truncation); it is proved for streams of equal length built by pushes. `C04_refute_longueur`, `C04_refute_troncature`, `C04_egalite_octets_partial`, `C04_egalite_meme_longueur_partial` |
| C05 | Constant and alternating streams have the requested length | BitStream/Props.lean | partial | zéros/uns/BitStream(n) proved; altern(n) has n+2 bits (exact length proved, property refuted) and resize leaves stale bits (refuted). `C05_constantes`, `C05_altern_longueur`, `C05_altern_refute`, `C05_resize_refute` |
| C06 | Hamming distance is a metric and counts differing positions | BitStream/Props.lean | proved |  `C06_hamming_valeur`, `C06_hamming_metrique` |
| C07 | Binary symbol mapping is lossless | Telecom/Props.lean | proved |  `C07_aller_retour`, `C07_retour_aller`, `C07_rejet` |
| C08 | Differential coding round-trips | Telecom/Props.lean | partial | The round trip is false of the code (refuted: spurious leading 0 and last bit lost); the exact behaviour is proved for all inputs, and the documented decoder is shown to round-trip. `C08_comportement_exact`, `C08_spec_aller_retour`, `C08_refute`, `C08_interieur_partial` |
| C09 | LFSR generator obeys its linear recurrence and is invertible | Lfsr/Props.lean | proved |  `C09_sortie_recurrence`, `C09_decoupage`, `C09_reversible` |
| C10 | Maximal-length sequences have period exactly 2^n-1 | Lfsr/PropsPeriod.lean | proved | Maximal period for every supported length, by kernel evaluation of the order of the companion matrix, and rejection of all other lengths. `C10_periode_maximale`, `C10_code_mls`, `C10_rejet` |
| C11 | LFSR receiver self-synchronises | Lfsr/Props.lean | partial | Proved after configure/reset/loss of lock; the statement for arbitrary histories is refuted (false lock). `C11_auto_synchronisation`, `C11_hypotheses`, `C11_refute_histoire_quelconque` |
| C12 | LFSR receiver counts errors exactly once locked | Lfsr/Props.lean | proved |  `C12_compte_exact`, `C12_lis_etat`, `C12_lis_etat_deverrouille`, `C12_perte` |
| C13 | Calendar and day count are inverse bijections | Temps/Props.lean | proved | Also: the date of day n is the n-th successor of 1 January 1; behaviour outside years 1..9999 shown wrong (C13_hors_ere, C13_avant_ere). `C13_validite`, `C13_aller_retour`, `C13_retour_aller`, `C13_date_par_iteration`, `C13_hors_ere`, `C13_avant_ere` |
| C14 | Dates are ordered chronologically | Temps/Props.lean | proved |  `C14_ordre`, `C14_instants`, `C14_lendemain`, `C14_origine` |
| C15 | Date-time decomposition is lossless to the microsecond | Temps/Props.lean | proved | The double products are shown exact (53-bit rounding model). `C15_validite_heure`, `C15_aller_retour`, `C15_retour_aller`, `C15_microsecondes`, `C15_heure_pleine`, `C15_epoques` |
| C16 | GPS week/seconds conversion round-trips | Temps/PropsGPS.lean | partial | Week/second round trips proved for every instant from the GPS epoch to January 2048 with double rounding modelled; refuted outside: negative seconds before the epoch, 32-bit overflow from week 3551, and vers_GPS_us may lose one microsecond (exact or one less proved). `C16_vers_GPS`, `C16_aller_retour`, `C16_retour_aller`, `C16_vers_GPS_us_partial`, `C16_vers_GPS_us_refute`, `C16_avant_epoque_refute`, `C16_debordement_2048` |
| C17 | Packet buffer re-chunks a stream losslessly | Tampon/Props.lean | partial | Proved for every packet size >= 1 and every chunking of a configured buffer (incl. clean restart when the size is unchanged); refuted after reconfiguration to another size and for size 0. `C17_paquets`, `C17_sans_perte`, `C17_reconfigure_partial`, `C17_reconfigure_refute`, `C17_reconfigure_agrandi_refute`, `C17_taille_nulle_refute` |
| C18 | FIR filtering does not depend on how the stream is cut | Filtre/Props.lean, Filtre/PropsBlocs.lean | proved | FIR, IIR (denominator of degree >= 1), SOS, chain of SOS, first order, delay, moving average, exponential, DC, decimator; no algebra on samples. `C18_rif`, `C18_decimateur`, `C18_rii`, `C18_sois`, `C18_lexp`, `C18_dc`, `C18_premier_ordre`, `C18_moyenne`, `C18_retard`, `C18_chaine` |
| C19 | FIR filter computes the convolution | Filtre/Props.lean | proved | Over every commutative semiring, every cutting; empty coefficient list is rejected. `C19_convolution`, `C19_sans_coefs` |
| C20 | IIR filter satisfies its difference equation | Filtre/Props.lean | partial | Proved over every field for denominators of degree >= 1; refuted for constant denominators (modulo by zero). `C20_equation`, `C20_denominateur_constant_refute` |
| C21 | Delay line delays exactly | Filtre/Props.lean | proved |  `C21_retard` |
| C22 | Decimator keeps one sample in R of the whole stream | Filtre/Props.lean | proved |  `C22_un_sur_R` |
| C23 | Moving average is the mean of the last K samples | Filtre/Props.lean | proved | Over every field (exact arithmetic). `C23_moyenne` |
| C24 | Polyphase decimating FIR equals filter-then-decimate | Reechan/Props.lean, Reechan/PropsUps.lean | partial | Every cutting proved (bit-exact, no algebra); equality with filter-then-decimate / stuff-then-filter proved for symmetric filters (half-band: 4q+3 coefficients); the exact behaviour for every filter is convolution with the reversed coefficients, so the property is refuted for non-symmetric filters and for half-band filters of other lengths. Empty filters rejected. Announced interpolator delay proved. `C24_decim_blocs`, `C24_decim_partial`, `C24_decim_miroir`, `C24_decim_refute`, `C24_decim_sans_coefs`, `C24_demi_bande_partial`, `C24_demi_bande_refute`, `C24_ups_blocs`, `C24_ups_miroir`, `C24_ups_partial`, `C24_ups_refute`, `C24_ups_sans_coefs`, `C24_ups_delai` |
| C25 | Polyphase form is invertible | Reechan/PropsUps.lean | proved |  `C25_polyphase`, `C25_vide` |
| C26 | Walsh-Hadamard transform is a scaled involution | Fourier/HadamardProps.lean | proved | Exact arithmetic in any field where 2 is nonzero; lengths that are not powers of two are shown rejected, and hadamard_matrice(0) is shown never to return (the recursion has no base case there). `C26_matrice`, `C26_orthogonale`, `C26_transformee`, `C26_involution`, `C26_lineaire`, `C26_autres_longueurs`, `C26_matrice_zero` |
| C27 | FFT computes the discrete Fourier transform | Fourier/Props.lean | proved | All lengths 1..2^29 (radix-2, chirp for odd sizes, recursion for the others), after any history of plan calls, over exact complex arithmetic; inverse, Parseval, linearity. Refuted corner: a plan configured as inverse and called with plan->step(x) computes the direct transform (C27_direction_refute). `C27_plan`, `C27_fft`, `C27_ifft`, `C27_inverse`, `C27_vide`, `C27_direction_refute`, `C27_parseval`, `C27_lineaire` |
| C28 | Levinson recursion solves the Toeplitz system | Stats/Props.lean | proved | Exact field arithmetic; levinson and levinson_reel for every order under the classical condition (leading minors non-null, for which the pivots are proved not to vanish). Also: reflection coefficient below 1 and all roots of the predictor inside the unit circle for positive definite autocorrelations. `C28_reel`, `C28_reel_court`, `C28_reflexion`, `C28_stable`, `C28_general`, `C28_rejets` |
| C29 | Quaternion rotation equals its rotation matrix | Geometrie/Props.lean | proved | Exact real arithmetic. Beyond the statement: axis/angle meaning (C29_axe), norm preservation, q and -q the same rotation; C29_mat_refute shows that the separate 4x4 mat() does not give the identity for the identity quaternion. `C29_rotation`, `C29_orthogonale`, `C29_inverse`, `C29_norme`, `C29_creation`, `C29_axe`, `C29_matrice`, `C29_retour`, `C29_mat_refute`, `C29_oppose` |
| C30 | Polynomial arithmetic is evaluation-compatible | Poly/Props.lean | partial | Proved for every polynomial in coefficient or root form (horner, conversion, +, -, scalar operations, powers, products), except products root-form * coefficient-form, which are refuted (off by exactly 1), and << in root form (refuted). Evaluation point in any field with a conversion from the coefficient field; exact arithmetic. `C30_horner`, `C30_coefs`, `C30_somme`, `C30_oppose`, `C30_difference`, `C30_scalaire`, `C30_produit`, `C30_produit_mixte_refute`, `C30_puissance`, `C30_decalage`, `C30_decalage_racines_refute` |
| C31 | Rational-function arithmetic is evaluation-compatible | Poly/Props.lean | partial | Sum, difference, product, quotient, inverse, powers, scalar operations, simplification, rif, z->1/z and rii proved when the factors avoid the root*coefficient product and numbers of coefficients differ by at most one; refuted otherwise (operator precedence in eval_inv_z), coefs_rif forgets delays (refuted), z_power(n<0) accesses out of bounds. `C31_produit`, `C31_somme`, `C31_scalaire`, `C31_difference`, `C31_simplifie`, `C31_quotient`, `C31_puissance`, `C31_monomes`, `C31_rif`, `C31_rif_aller_retour`, `C31_coefs_rif`, `C31_inversion`, `C31_rii`, `C31_rii_exact`, `C31_rii_refute`, `C31_coefs_rif_refute`, `C31_zPower` |
| C32 | Interpolators reproduce polynomials | Itrp/Props.lean | partial | Lagrange (all degrees, all polynomials) and linear proved exactly; the spline interpolator quantises the delay to 1/256, so that affine (and quadratic) signals are reproduced at the quantised delay only (C32_cspline_partial, witness C32_cspline_refute). The windowed sinc interpolator is the subject of C153. `C32_step`, `C32_lagrange`, `C32_lineaire`, `C32_lineaire_affine`, `C32_cspline_noeuds`, `C32_cspline_partial`, `C32_cspline_refute`, `C32_cspline_rejets` |
| C33 | Vector utilities behave as documented | Util/Props.lean | partial | Proved for every utility except rotation_vec with d < -n (negative index, refuted) and trouve_dernier (refuted: off by one / throws; exact behaviour proved on the complement). `C33_vconcat`, `C33_sousvec`, `C33_rotation_partial`, `C33_rotation_refute`, `C33_diff`, `C33_cumsum`, `C33_diff_cumsum`, `C33_sousech`, `C33_surech`, `C33_sousech_surech`, `C33_pad_zeros`, `C33_trouve`, `C33_trouve_premier`, `C33_trouve_dernier_partial`, `C33_trouve_dernier_refute`, `C33_max_local`, `C33_intervalle`, `C33_linspace` |
| C34 | Modulo operations return canonical representatives | Util/Props.lean | partial | Proved in exact arithmetic over any ordered field with floor (modulo, modulo_2pi, modulo_pi, déplie with period 2 pi). Refuted: déplie of an empty vector reads out of bounds, déplie with another period, and two double-precision inputs whose rounded result leaves the canonical interval. `C34_modulo`, `C34_modulo_pi`, `C34_deplie`, `C34_deplie_vide_refute`, `C34_deplie_periode_refute`, `C34_modulo_double_refute`, `C34_modulo_pm_double_refute` |
| C35 | WAV files round-trip | Wav/Props.lean | partial | Proved for every history of writes whose calls store whole frames and under 2^29 bytes of data, for float and 16-bit files, any read chunking, and after redemarre. Refuted otherwise: calls that store a partial frame lose samples in the header (C35_decoupage_refute), 8*data_size overflows from 512 MB on (C35_taille_refute), stereo headers have wrong byte rates (C35_entete_stereo_refute), recherche is wrong on float files (C35_recherche_refute). `C35_flottant`, `C35_pcm16`, `C35_conversions`, `C35_enregistre`, `C35_enregistre_stereo`, `C35_decoupage_refute`, `C35_taille_refute`, `C35_entete_stereo_refute`, `C35_recherche`, `C35_recherche_refute` |
| C36 | Vector views alias and copies do not | Tableau/Props.lean | partial | Proved for every program of creations, copies, views, assignments, element writes, in-place operations and resizes: isolation of disjoint memory, independence of copies, segments / columns / blocks as aliases of their parent, exact effect of element writes, of assignments to segments, columns and blocks. Refuted (the English claim is false of the code) with witnesses for: move assignment of a segment to an ordinary variable (aliases), mismatched sizes (silently ignored), overlapping segment copies (undefined), resize under a view, negative positions, col(cols()), element access and arithmetic on blocks, block bounds. Not modelled: conversion between scalar types, ranks above 2, sharing of the untyped handle. `C36_isolation`, `C36_copie_independante`, `C36_segment_alias`, `C36_segment_bornes`, `C36_segment_negatif_refute`, `C36_pose_exact`, `C36_pose_vecteur`, `C36_versSegment`, `C36_affecte_alias_refute`, `C36_affecte_suite_refute`, `C36_taille_refute`, `C36_recouvrement_refute`, `C36_resize_refute`, `C36_versCol`, `C36_col_alias`, `C36_col_borne_refute`, `C36_bloc_alias`, `C36_versBloc`, `C36_bloc_element_refute`, `C36_bloc_surPlace_refute`, `C36_bloc_borne_refute`, `C36_surPlace` |
| C37 | Tensor dimension algebra | Tableau/Dim.lean | partial | Equality of dimensions characterised, equivalence, invariance of total() proved; total() multiplicative proved for non-empty lists, refuted for the empty one; concatenation is not a congruence (refuted). `C37_egal`, `C37_equivalence`, `C37_uns`, `C37_total_invariant`, `C37_total_concat_partial`, `C37_vide_refute`, `C37_congruence_refute` |
| C38 | Barker codes have unit sidelobes | Telecom/Props.lean | proved | All integers n: the six offered lengths have unit sidelobes at every shift, all other n are rejected. `C38_barker` |
| C39 | CIC decimator equals cascaded boxcar filters | Reechan/PropsCic.lean | partial | First block proved over every commutative group (hence wrapping integers), both directions; block invariance is refuted (integrators restart), blocks shorter than R read index -1 (refuted). The final float gain is not modelled. `C39_decim_partial`, `C39_blocs_refute`, `C39_bloc_court_refute`, `C39_interp_partial`, `C39_interp_blocs_refute` |
| C40 | Nearest-symbol decision is optimal | Telecom/Props.lean | proved | Over every ordered field (exact arithmetic). `C40_decision_optimale`, `C40_marge_de_bruit`, `C40_bpsk` |
| C41 | BitStream conversions are lossless | BitStream/Props.lean | proved |  `C41_chaine`, `C41_vecteur` |
| C42 | Default LFSR generator never sticks at zero | Lfsr/PropsPeriod.lean | proved |  `C42_generateur_defaut` |
| C43 | Noiseless modulate/decide chain returns the bits | Telecom/Props.lean | proved | Over every ordered field (exact arithmetic). `C43_chaine_sans_bruit`, `C43_decision_dure` |
| C44 | Filters may be run in place | Filtre/EnPlace.lean | partial | Proved for FIR, IIR, SOS, first-order, moving average, exponential; false (refuted, exact behaviour proved) for the delay line and the DC blocker. `C44_sur_place`, `C44_sur_place_rii`, `C44_retard_refute`, `C44_dc_refute` |
| C45 | Second-order sections satisfy their difference equation, and pass constants without transient | Filtre/PropsBlocs.lean, Filtre/PropsChaine.lean | partial | Form I fully proved; form II satisfies the equation from time 2 on, and its constant-signal behaviour is refuted (the initial state is not the steady state). `C45_forme1`, `C45_forme2`, `C45_constante_forme1`, `C45_constante_forme2_refute`, `C45_premier_ordre`, `C45_chaine_gain`, `C45_chaine_impaire` |
| C46 | Exponential smoother stays in the range of its input | Filtre/PropsBlocs.lean | proved | Exact arithmetic. `C46_equation`, `C46_bornes` |
| C47 | DC blocker removes a constant geometrically | Filtre/PropsBlocs.lean | proved | Exact arithmetic. `C47_equation`, `C47_constante` |
| C48 | FFT-based correlations equal their definition | Fourier/CorrProps.lean | proved | The statement as worded, with the defects of the code that it lists (theorems _refute), is entirely proved, over exact complex arithmetic. `C48_ccorr`, `C48_dimensions`, `C48_xcorrb`, `C48_defaut`, `C48_xcorr`, `C48_grand`, `C48_grand_refute`, `C48_rejets`, `C48_tailles_refute` |
| C49 | Real FFT agrees with the complex FFT and spectra forced symmetric are symmetric | Fourier/RfftProps.lean | partial | rfft proved for all lengths 1..2^29 and plan histories; csym_forçage proved for n >= 2 and refuted for n = 1 (out-of-bounds access). `C49_csym`, `C49_csym_un_refute`, `C49_rfft`, `C49_plan`, `C49_accord` |
| C50 | FFT-based FIR filtering is block-invariant delayed convolution | Fourier/OlaProps.lean | partial | Proved for 1..512 real coefficients, real input, every cutting; refuted for complex input (imaginary part dropped) and for more than 512 coefficients (out-of-bounds view on the first block). `C50_rif`, `C50_decoupage`, `C50_complexe_refute`, `C50_long_refute` |
| C51 | Integer delay shifts the signal | Fourier/RfftProps.lean | partial | Proved for |d| <= n; for |d| > n the code uses negative sizes (refuted). `C51_delais`, `C51_grand_refute` |
| C52 | Recursive filter built from a transfer function runs its difference equation | Poly/FiltreRii.lean | partial | Proved when the numbers of coefficients differ by at most one and are not both 1; refuted otherwise (eval_inv_z precedence; modulo 0 for one-coefficient denominators). `C52_rii`, `C52_rii_refute`, `C52_gain_refute` |
| C53 | Cardan angles, rotation matrices and quaternions convert consistently | Geometrie/Props.lean | partial | Matrix path proved in both directions (outside gimbal lock). The last clause is false of the code: Cardan(Quaternion) uses the convention of the inverse rotation (C53_quaternion), so every pure roll changes sign through the quaternion path (C53_roulis_refute). `C53_rotation`, `C53_angles`, `C53_matrice`, `C53_quaternion`, `C53_roulis_refute` |
| C54 | Covariance matrix estimate | Stats/Props.lean | partial | Proved for real signals; for complex ones the code returns the transpose (= conjugate) of the documented matrix (C54_covariance, witness C54_complexe_refute). `C54_covariance`, `C54_reel`, `C54_complexe_refute` |
| C55 | Linear prediction solves the Yule-Walker equations | Stats/Props.lean | proved | Exact arithmetic, p >= 2; p = 1 reads the autocorrelation out of bounds (C55_ordre_nul). Sizes such that the internal FFT length stays below 2^29. `C55_lpc`, `C55_ordre_nul` |
| C56 | interp() is piecewise linear / natural cubic spline interpolation | Itrp/Interp.lean | proved | Exact arithmetic, real values. C56_desordre shows that the documented condition on the output abscissas is needed. `C56_lineaire`, `C56_noeuds`, `C56_spline`, `C56_un_point`, `C56_rejets`, `C56_desordre` |
| C57 | The interpolation filter samples the input at m/ratio, whatever the blocks | Itrp/Flux.lean | proved | Exact arithmetic (the phase is a float in the code: rounding drift is not modelled). `C57_flux`, `C57_affine` |
| C58 | An arbitrary resampling ratio is split exactly | Itrp/Flux.lean | proved | Configuration only; the chain of filters is the composition of filters proved elsewhere (C24, C57). `C58_decoupe`, `C58_invalide` |
| C59 | Opening a WAV file terminates | Wav/Props.lean | partial | Proved for files with no 4-byte field >= 2^31-1; refuted in general: C59_termine_refute exhibits a 44-byte file on which opening never ends. `C59_termine_partial`, `C59_termine_refute` |
| C60 | Foreign WAV blocks are skipped | Wav/Props.lean | partial | Opening and reading proved for any sequence of blocks; the rewinding part is refuted (C60_redemarre_refute). `C60_blocs`, `C60_redemarre_refute` |
| C61 | Conservative resize keeps the elements | Tableau/Props.lean | partial | Vectors, and matrices whose number of rows does not change: proved. Number of rows changes: refuted (elements move). `C61_vecteur`, `C61_colonnes`, `C61_lignes_refute` |
| C62 | Arrays built from an index expression | Tableau/Props.lean | partial | Vectors: proved. Matrices: refuted (buffer of n elements, n*m written) for all n>0, m>1. `C62_vecteur`, `C62_matrice_refute` |
| C63 | Harmonic oscillators are phase-continuous | Signaux/Props.lean | proved | Exact arithmetic (the renormalisations are modelled). `C63_ohc`, `C63_ohr`, `C63_blocs` |
| C64 | Signal generators follow their definition | Signaux/Props.lean | partial | Proved in exact arithmetic for all generators, for even periods for sigtri / sigcar and for periods of at least 2 for sigscie. Refuted for odd periods of sigtri (exceeds 1) and sigcar (wrong period) and period 1 of sigscie, sigcar (division by zero). `C64_sigexp`, `C64_sigsin`, `C64_sigscie`, `C64_sigscie_refute`, `C64_sigtri_partial`, `C64_sigtri_refute`, `C64_sigcar_partial`, `C64_sigcar_refute`, `C64_sigimp`, `C64_signyquist`, `C64_sigchirp`, `C64_siggauss` |
| C65 | Next power of two | Signaux/Props.lean | partial | Proved in exact arithmetic; refuted for the float conversion of the code: wrong at 2^24 or 2^24+1 whatever the logarithm function. `C65_exact`, `C65_float_refute` |
| C66 | Table oscillator accuracy | Signaux/Props.lean | proved | Exact arithmetic; modulo_2π modelled as in C34. `C66_olut` |
| C67 | Goertzel score | Fourier/GoertzelProps.lean | partial | Formula, tone, streaming filter proved; score <= 2 proved and score <= 1 refuted (constant signal, f=0) `C67_goertzel`, `C67_score_partial`, `C67_score_refute`, `C67_ton`, `C67_filtre` |
| C68 | Frequency grids of spectra | Fourier/GoertzelProps.lean | partial | Proved for even n; refuted for odd n (shifted grids, first negative frequency) and for psd_freqs(n, non) `C68_pair_partial`, `C68_impair_refute`, `C68_reel_refute` |
| C69 | Frequency estimation | Fourier/FreqProps.lean | partial | Candan exactness and half-bin bound proved; range proved for FFT and QUADRATIC, refuted for CANDAN2; NaN on impulses refuted `C69_candan`, `C69_fft`, `C69_domaine_partial`, `C69_domaine_refute`, `C69_nombre_refute` |
| C70 | Chebyshev polynomials | Divers/Props.lean | partial | First kind proved everywhere; second kind refuted for every n>=1 (int 2 converted to bool) `C70_T`, `C70_T_partout`, `C70_U_refute`, `C70_U_partial` |
| C71 | Cardinal sine and Dirichlet kernel | Divers/Props.lean | proved | Exact arithmetic; explicit error bounds in the threshold zones `C71_sinc`, `C71_noeuds`, `C71_dirichlet` |
| C72 | Delay estimation is well defined and exact | Fourier/DelaisProps.lean | proved | Exact real arithmetic; score and delay bounds for every pair, exact delay for every shifted and scaled copy. `C72_bornes`, `C72_exact`, `C72_silence` |
| C73 | Integer alignment returns the common part of the two signals | Fourier/AligneProps.lean, Fourier/DelaisProps.lean | partial | Shape proved whenever the call succeeds; C73_succes: success for every pair of non-null signals, with a delay at most one sample from the correlation maximum; exact alignment for delayed copies. C73_silence gives the exact success condition when a signal is null; C73_silence_refute: the call fails (negative segment size) for silent signals, so the claim does not hold for every pair. `C73_succes`, `C73_silence`, `C73_forme`, `C73_exact`, `C73_silence_refute` |
| C74 | Welch power spectral density | Fourier/SpectreProps.lean | partial | C74_welch_partial: each bin is the SUM of the periodograms of the segments that end strictly before the last sample, at the returned frequency when N is even. Refuted: the last segment is dropped (a single segment gives a null spectrum), no division by the number of segments, endless loop for N=1. `C74_welch_partial`, `C74_unique_refute`, `C74_infini_refute`, `C74_moyenne_refute` |
| C75 | Real-time spectrum averages blocks | Fourier/SpectreProps.lean | partial | Averaging, window energy and total power proved for every history without sweep; C75_balayage_refute: with sweep each band is divided by the number of bands. Linear spectrum (dB conversion not modelled). `C75_moyennes`, `C75_fenetre`, `C75_puissance`, `C75_balayage_refute` |
| C76 | Frequency-domain resampling goes through the samples | Fourier/ReechFreqProps.lean | partial | Interpolation proved for even sizes, decimation for band-limited signals; refuted for odd sizes (one bin lost) and complex signals (imaginary part lost). `C76_interp_partial`, `C76_impair_refute`, `C76_un_refute`, `C76_complexe_refute`, `C76_identite`, `C76_decim` |
| C77 | Chirp z-transform | Fourier/ReechFreqProps.lean | partial | Refuted: fails whenever m differs from the number of samples, and wrong values otherwise (missing factor, checked for W=z0=1 and every signal). `C77_dimensions_refute`, `C77_valeurs_refute` |
| C78 | Windows have the promised shape, symmetry and names | Conception/FenetresProps.lean | partial | Proved in exact arithmetic for all windows but Chebyshev (C79). Refuted: the periodic variant of odd length is not periodic; the symmetric Hann/triangle/Blackman windows of length 2 are null. `C78_forme`, `C78_symetrie`, `C78_recouvrement`, `C78_periode_impaire_refute`, `C78_deux_points_refute`, `C78_noms`, `C78_kaiser`, `C78_kaiser_ordre` |
| C79 | Chebyshev window: equiripple side lobes at the requested attenuation | Conception/ChebProps.lean | partial | Proved for every length and attenuation in exact arithmetic; the argument 'symmetric' is ignored: refuted for the periodic variant. `C79_polynome`, `C79_reponse`, `C79_attenuation`, `C79_periodique_refute` |
| C80 | FIR design by windowing | Conception/RifProps.lean | partial | Proved for odd numbers of coefficients. Refuted: 'pb' is not normalised although 'lp' is; even numbers of coefficients give a non symmetric filter. The windows of Kaiser and Chebyshev enter by the general window theorem. `C80_forme`, `C80_phase_lineaire`, `C80_phase_lineaire_nom`, `C80_gain`, `C80_gain_pb_refute`, `C80_complement`, `C80_rejets`, `C80_pair_refute` |
| C81 | FIR design by frequency sampling | Conception/RifFreqProps.lean | partial | Proved when the number of coefficients matches the template. Refuted: the resampled template uses another grid than the documented one; one-point templates are rejected. `C81_points`, `C81_interpole`, `C81_interpole_refute`, `C81_un_point_refute` |
| C82 | Hilbert transformers | Conception/HilbertGain.lean, Conception/HilbertProps.lean | partial | Coefficients and streaming proved; hilbert_tfd characterised exactly: analytic for odd lengths and null mean, refuted in general (DC doubled, Nyquist dropped). `C82_sinus`, `C82_coefficients`, `C82_flux`, `C82_tfd_spectre`, `C82_tfd_reel`, `C82_tfd_analytique`, `C82_tfd_refute` |
| C83 | FIR transformations | Conception/TransfProps.lean | partial | Cascade, types, reflection and inversion proved for all filters; pb2pb and pb2pm are stubs (refuted). `C83_produit`, `C83_type`, `C83_reflexion`, `C83_inversion`, `C83_pb2pm_refute` |
| C84 | FIR differentiators | Conception/DiffProps.lean | partial | Proved for even numbers of coefficients >= 4 (error bound 4/(pi(n+1))) and antisymmetry; refuted for n = 2 (sign), for all centred odd n (slope 2 or 0) and for the other parities (constant not removed). `C84_antisymetrie`, `C84_pente`, `C84_deux_refute`, `C84_centre_refute`, `C84_constante_refute` |
| C85 | First and second order designs | Conception/Ordre1Props.lean | partial | -3 dB at the cut-off frequency is only approximate (refuted exactly, bounded for small frequencies); everything else proved `C85_mg`, `C85_mg_flux`, `C85_coef`, `C85_frequence`, `C85_lexp_flux`, `C85_lexp_echelon`, `C85_lexp_gain`, `C85_coupure_partial`, `C85_coupure_refute`, `C85_bloqueur_flux`, `C85_bloqueur_constante`, `C85_bloqueur_gain`, `C85_notch_flux`, `C85_notch_zero`, `C85_notch_rejet` |
| C86 | Raised-cosine and Gaussian designs | Conception/CsProps.lean, Conception/GaussProps.lean | partial | proved for odd n; symmetry refuted for even n (raised cosine) and for the end coefficients of the GFSK filter; unit sum supposes a non-null sum before normalisation; the underflow branch of gaussien_telecom is not modelled `C86_nyquist`, `C86_prolongement`, `C86_cs`, `C86_cs_neutre`, `C86_pair_refute`, `C86_isi`, `C86_rcs`, `C86_gaussien`, `C86_telecom_partial`, `C86_telecom_refute`, `C86_bt` |
| C87 | Zero-phase filtering | Conception/GaussProps.lean | proved | FIR designs only (the second-order-section branch of filtrer is covered by C45-C47) `C87_filtfilt`, `C87_phase_nulle`, `C87_impulsion` |
| C88 | Bilinear transform | Conception/ButterProps.lean, Conception/RiiProps.lean | partial | Zero-pole form proved for all transfer functions and points; refuted for transfer functions given by coefficients (roots() throws on complex polynomials), and stability needs a proper filter (witness). Real arithmetic in place of float. `C88_nyquist`, `C88_frequences`, `C88_frequences_refute`, `C88_bilineaire`, `C88_reponse`, `C88_stable`, `C88_stable_refute`, `C88_coefficients_refute` |
| C89 | Analog low-pass prototype transformations | Conception/ButterProps.lean, Conception/RiiProps.lean | partial | Low-pass proved. High-pass proved up to the sign (-1)^(#zeros+#poles), and the sign error refutes the full claim. `C89_numerique_bas`, `C89_numerique_haut_partial`, `C89_passe_bas`, `C89_passe_haut_partial`, `C89_passe_haut_refute` |
| C90 | Butterworth IIR filters | Conception/ButterProps.lean | partial | Low-pass fully proved; squared gain of the high-pass proved; refuted: the high-pass passband gain is -1 for odd orders, and band-pass / band-stop designs throw. `C90_prototype`, `C90_passe_bas`, `C90_passe_haut`, `C90_signe_refute`, `C90_types_refute` |
| C91 | Chebyshev type I IIR filters | Conception/TchebProps.lean | partial | Pole count, stability, squared gain proved for all orders; ripple bound proved for odd orders; refuted for even orders (gain normalised at the bottom of the ripple: the passband rises to +δ dB). `C91_prototype_I`, `C91_passe_bas_I`, `C91_ondulation_I_partial`, `C91_ondulation_I_refute` |
| C92 | Chebyshev type II and elliptic IIR filters | Conception/Tcheb2Props.lean | partial | Proved for even orders; refuted for odd orders (division by cos(π/2)) and for first-order elliptic designs (square root of a negative number). Elliptic prototypes of higher order are not modelled. `C92_prototype_II_partial`, `C92_attenuation_II_partial`, `C92_passe_bas_II_partial`, `C92_impair_refute`, `C92_elliptique_refute` |
| C93 | Biquad designs | Conception/BiquadProps.lean | proved | Stability, difference equation, exact frequency response and gains at 0, f, Nyquist for all seven types; unknown type names silently give a low-pass. Real arithmetic in place of float. `C93_stable`, `C93_flux`, `C93_reponse`, `C93_nyquist`, `C93_continu`, `C93_critique`, `C93_nom_refute` |
| C94 | PSK constellations and decisions | Telecom/FormesProps.lean | proved | exact real arithmetic; the quadrant decision is refuted on the axes (C94_quadrant_refute), which the statement excludes `C94_constellation`, `C94_bruit`, `C94_phase`, `C94_quadrant`, `C94_quadrant_refute` |
| C95 | π/4-QPSK: round trip, context and cutting | Telecom/Pi4Props.lean | proved | The statement as worded, with the defects of the code that it lists (theorems _refute), is entirely proved. within one call; the parity restarts at each call, refuted by C95_decoupe_refute `C95_bruit`, `C95_contexte`, `C95_enveloppe`, `C95_decoupe_refute` |
| C96 | QAM and ASK constellations | Telecom/Pi4Props.lean | proved | exact real arithmetic `C96_qam`, `C96_qam_bruit`, `C96_qam_energie`, `C96_ask`, `C96_ask_bruit`, `C96_rejets` |
| C97 | Linear modulator | Telecom/ModProps.lean | proved | The statement as worded, with the defects of the code that it lists (theorems _refute), is entirely proved. cutting at symbol boundaries proved; cutting inside a symbol refuted by C97_decoupe_refute; the coefficients of the Gaussian and root-raised-cosine designs are a parameter (see C85-C86 for the latter) `C97_energie`, `C97_modulateur`, `C97_nrz`, `C97_aucun`, `C97_decoupe_refute`, `C97_flush` |
| C98 | Frequency modulation | Telecom/FskProps.lean | partial | within one call; cutting (C98_decoupe_refute) and M-ary separability (C98_ambigu_refute) are refuted; C98_nrz_partial needs an extreme symbol in the block `C98_phase`, `C98_nrz_partial`, `C98_binaire`, `C98_decoupe_refute`, `C98_ambigu_refute` |
| C99 | Transmitter frames | Telecom/EmetteurProps.lean | partial | linear waveforms, fi = 0; independence of the frames proved for pulses no longer than one symbol plus the flush, refuted otherwise (C99_interference_refute); retard() refuted (C99_retard_refute) `C99_trames`, `C99_vidage`, `C99_independance_partial`, `C99_interference_refute`, `C99_retard_refute` |
| C100 | Phase error detectors measure the phase, not the data | Telecom/PorteuseProps.lean | proved | Exact real arithmetic. `C100_ploop`, `C100_tloop`, `C100_costa2`, `C100_costa4`, `C100_costa_rejet`, `C100_decision` |
| C101 | Loop filters: acquisition and stability | Telecom/PorteuseProps.lean | proved | Exact real arithmetic, loop closed on an ideal linear phase detector; the second-order loop has A = 1 as in the code. `C101_ordre1`, `C101_ordre2`, `C101_ordre2_limite` |
| C102 | Carrier PLL | Telecom/PorteuseProps.lean | proved | Exact real arithmetic; the look-up-table oscillator (C66) is replaced by the exact exponential. The moving-average filter and the frequency limits of the real PLL (RPLL) are not modelled. `C102_decoupe`, `C102_module`, `C102_psk`, `C102_defaut` |
| C103 | Localisation of a frequency peak | Telecom/PicProps.lean | partial | The property is false for odd lengths (C103_impair_refute): the integer division N/2 folds bin (N-1)/2 to −(N+1)/2N, below −1/2, and the assertion fails. Proved for even lengths. Exact arithmetic. `C103_domaine_partial`, `C103_ton`, `C103_impair_refute` |
| C104 | Adaptive equaliser: block cut, output rate, fixed point and descent | Telecom/EgalisationProps.lean | partial | exact arithmetic; the shift of the window by an overlapping memcpy is assumed to act as memmove; in the CMA error with DFE structure the feedback filter never adapts (refuted) `C104_decoupe`, `C104_nombre`, `C104_transparent`, `C104_rejet`, `C104_lms`, `C104_cma`, `C104_cma_dfe_refute` |
| C105 | Zero-forcing equaliser: convolution matrix, delayed target, least squares | Telecom/ZfeProps.lean | partial | the least squares solver is a parameter; when m+n <= 3 the delay falls outside of the target vector (refuted) `C105_matrice`, `C105_cible_partial`, `C105_cible_refute`, `C105_moindres_carres`, `C105_rejet` |
| C106 | Clock recovery: block cut, symbol rate and sense of correction | Telecom/HorlogeProps.lean | partial | long blocks overflow the output bound assertion and osf=2 gives a negative abscissa (both refuted); the interpolator is a parameter; the timing error detector passed in the configuration is ignored by the code (Gardner hard-coded) `C106_decoupe_partial`, `C106_cadence_partial`, `C106_sens`, `C106_debordement_refute`, `C106_osf2_refute` |
| C107 | SNR estimator: block cut, power and convergence | Telecom/SnrProps.lean | partial | for a forgetting factor below 1/2 the first estimates are NaN (refuted) `C107_decoupe`, `C107_puissance`, `C107_constante_partial`, `C107_convergence`, `C107_debut_refute` |
| C108 | The polar frequency discriminator returns the phase increment | Telecom/DiscriProps.lean | proved | Exact real arithmetic; std::arg is Complex.arg. `C108_decoupe`, `C108_frequence`, `C108_decalage`, `C108_fsk` |
| C109 | Amplitude modulation puts the message on the carrier | Telecom/AmProps.lean | partial | C109_sans_porteuse proves the suppressed-carrier law for every cutting. C109_dsb_partial: the DSB law holds only with each block normalised by its own maximum (C109_decoupe_refute: the output depends on the cutting; C109_silence_refute: a silent block is 0/0). C109_bandes_refute: the two side bands are exchanged - USB emits the lower band with weight (1+G)/2 and LSB the upper one. Exact arithmetic. `C109_sans_porteuse`, `C109_dsb_partial`, `C109_decoupe_refute`, `C109_silence_refute`, `C109_bandes_refute` |
| C110 | Amplitude demodulation recovers the tone of the selected side band | Telecom/AmDemProps.lean | partial | C110_dsb_refute: in DSB modes the demodulator never outputs anything. C110_blu: single side-band recovery law, for both configured modes. C110_lsb_refute: the LSB setting is ignored (same output as USB). The audio band filters and the resampler are parameters. Exact arithmetic. `C110_dsb_refute`, `C110_blu`, `C110_lsb_refute` |
| C111 | Bit stream comparison counts the errors after alignment | Telecom/CmpBitsProps.lean | partial | C111_compte, C111_succes, C111_exact, C111_psk and C111_psk_exact prove the counting, success, exactness and phase-ambiguity claims. Refuted parts: streams without a one make the comparison fail (C111_zeros_refute gives the exact condition), a constant symbol stream makes cmp_bits_psk fail even against itself (C111_constant_refute), and the shift is not the one with the fewest errors (C111_minimum_refute). Exact arithmetic; sizes bounded by the FFT limit. `C111_compte`, `C111_succes`, `C111_zeros_refute`, `C111_exact`, `C111_minimum_refute`, `C111_psk`, `C111_psk_exact`, `C111_constant_refute` |
| C112 | The score of the pattern detector is the normalised correlation | Fourier/DetecteurProps.lean, Fourier/DetecteurReel.lean | proved | The statement as worded is entirely proved, over exact arithmetic, for every non-null pattern (C112_rif: real pattern or imaginary part that is not relatively small; C112_reel, C112_ecart: the other ones, C112_reel_refute: a window whose score is suppressed). The documented 'equal to 1' is only approached because of the 1e-20 added to the energy. Noise estimation not modelled. `C112_bornes`, `C112_copie`, `C112_rif`, `C112_reel`, `C112_ecart`, `C112_reel_refute` |
| C113 | The detections of the pattern detector are the isolated peaks of the score | Fourier/DetecteurEv.lean | proved | The statement as worded, with the defects of the code that it lists (theorems _refute), is entirely proved. Filter mode. C113_complet: every clear peak is reported with the documented fields; C113_sur: every detection is above the threshold and a maximum in its segment; C113_voisinage_refute, C113_plateau_refute and C113_coupure_refute exhibit failures of the documented neighbourhood criterion, of the gain on a flat top, and of the independence from the cut in blocks. Peaks on the first and last sample of a block are only covered by C113_sur. Noise estimation not modelled. `C113_complet`, `C113_sur`, `C113_voisinage_refute`, `C113_plateau_refute`, `C113_coupure_refute` |
| C114 | The default (overlap-add) mode of the pattern detector computes the same score, with an automatic block size | Fourier/DetecteurAuto.lean, Fourier/DetecteurOlaProps.lean | proved | The statement as worded, with the defects of the code that it lists (theorems _refute), is entirely proved. Exact arithmetic. C114_score, C114_complet: overlap-add mode for every admissible block size; C114_auto: the automatic block size is admissible (4 <= M <= 2^25) and of least cost; C114_taille_refute and C114_court_refute: other block sizes and patterns of one or two samples fail an assertion. Pattern of three samples with the automatic size not claimed (exact tie of the costs). Noise estimation not modelled. `C114_auto`, `C114_court_refute`, `C114_score`, `C114_complet`, `C114_taille_refute` |
| C115 | Kalman filter: covariance, optimality, exactness | Kalman/Props.lean | proved | The statement as worded, with the defects of the code that it lists (theorems _refute), is entirely proved. Proved for the step and whole runs (Q psd, R pd); the default Q of ssm_lineaire and the first observation of steps are refuted. Exact arithmetic. `C115_covariance`, `C115_information`, `C115_optimal`, `C115_erreur`, `C115_exact`, `C115_defaut_refute`, `C115_premiere_refute` |
| C116 | Kalman filter = weighted least squares | Kalman/Moindres.lean | proved | Invertible covariances; exact arithmetic. `C116_moindres_carres` |
| C117 | Kalman filter on a constant = weighted mean | Kalman/Riccati.lean | proved | All lengths; exact arithmetic. `C117_constante` |
| C118 | Steady-state gain and Riccati equation | Kalman/Riccati.lean | proved | The statement as worded, with the defects of the code that it lists (theorems _refute), is entirely proved. Scalar models; the general statement is refuted by witnesses (c = 2, Q = 0 unstable, unequal dimensions, coupled states). `C118_limite`, `C118_dare`, `C118_ssg`, `C118_ssg_refute`, `C118_instable_refute`, `C118_dimension_refute`, `C118_dare_refute` |
| C119 | Extended Kalman filter | Kalman/EkfProps.lean | proved | The statement as worded, with the defects of the code that it lists (theorems _refute), is entirely proved. Identity observation; the general statement is refuted by witnesses. `C119_kalman`, `C119_linearisation`, `C119_exact`, `C119_dimension_refute`, `C119_defaut_refute`, `C119_gain_refute`, `C119_variance_refute`, `C119_entree_refute`, `C119_affine`, `C119_jacobienne` |
| C120 | Simulation of state-space models | Kalman/SimuProps.lean | proved | The statement as worded, with the defects of the code that it lists (theorems _refute), is entirely proved. Equations, concatenation and chain proved; four statements refuted by the code. The Cholesky factor is a parameter, the draws are arguments. `C120_equations`, `C120_premiere_refute`, `C120_reprise_refute`, `C120_covariance_refute`, `C120_suite`, `C120_etats`, `C120_filtre`, `C120_kitagawa_refute` |
| C121 | Base-band transposition shifts by the intermediate frequency without discontinuity | Telecom/CanalProps.lean | partial | complex and real input proved for every cut; C121_ratio_refute: the ratio is ignored `C121_complexe`, `C121_ton`, `C121_reel`, `C121_porteuse`, `C121_ratio_refute` |
| C122 | The channel simulator applies the requested offsets and signal to noise ratio | Telecom/CanalProps.lean | partial | offsets, modulus and Eb/N0 proved; C122_decoupe_refute and C122_delai_refute: noise level depends on the cut, delay removes samples from every block `C122_decalages`, `C122_module`, `C122_rapport`, `C122_bruit`, `C122_decoupe_refute`, `C122_delai_refute` |
| C123 | The frequency-hopping modulator moves each slot to the frequency of the sequence | Telecom/EtalementProps.lean | partial | modulus proved; C123_sequence_refute, C123_slots_refute, C123_premier_refute: sequence content ignored, blocks of several slots fail, first slot not shifted `C123_module`, `C123_sequence_refute`, `C123_slots_refute`, `C123_premier_refute` |
| C124 | Direct-sequence spreading is the product with the periodic sequence and is undone by it | Telecom/EtalementProps.lean | proved | the resampler is an arbitrary block `C124_etalement`, `C124_desetalement`, `C124_refus` |
| C125 | The dispersive channel uses each generated gain once and in order, with unit power | Telecom/EtalementProps.lean | partial | order of the gains proved; C125_court_refute: short blocks fail; C125_puissance_refute: the complex squares are normalised, not the power `C125_gains`, `C125_court_refute`, `C125_rayleigh`, `C125_rice`, `C125_puissance_refute` |
| C126 | Channel capacity, thermal noise and Doppler distribution obey their laws | Telecom/EtalementProps.lean | proved | Doppler integral on every closed sub-interval `C126_capacite`, `C126_thermique`, `C126_doppler` |
| C127 | The inverse wavelet transform restores the signal | Fourier/TodProps.lean | partial | C127_etages: the stages are undone exactly; C127_inverse_refute: merge reads its saved even samples through a view of the vector it overwrites, so no signal whose samples 1 and 2 differ is restored; C127_profondeur_refute: too large depths never return `C127_etages`, `C127_pas`, `C127_paire`, `C127_inverse_refute`, `C127_profondeur_refute`, `C127_longueur` |
| C128 | Haar and Daubechies transforms compute block means and vanishing moments | Fourier/OndelettesProps.lean | partial | means, differences and moments proved; C128_energie_refute: K is not applied; C128_bord_refute: first detail of a constant is not null `C128_haar`, `C128_moyennes`, `C128_energie_refute`, `C128_moments`, `C128_bord_refute`, `C128_daubechies` |
| C129 | Polyphase and quadrature mirror forms agree with the lifting scheme | Fourier/PolyphaseProps.lean | proved | real z; schemes given by coefficients `C129_polyphase`, `C129_determinant`, `C129_transformee`, `C129_qmf` |
| C130 | Amplitude response of linear-phase FIR filters | Conception/AmplitudeProps.lean | partial | antisymmetric filters whose first coefficient is null are classified symmetric (witness), the FFT variant is wrong for even lengths (witness) and fails for long filters; exact real arithmetic `C130_symetrique`, `C130_antisymetrique_partial`, `C130_antisymetrique_refute`, `C130_grille`, `C130_fft_partial`, `C130_type2_refute`, `C130_resolution_refute` |
| C131 | Equiripple design is a minimax certificate | Conception/EquiProps.lean | partial | a template that can be met exactly makes the design fail (0/0), witness theorem; the least-squares solver is a parameter with its mathematical specification; exact real arithmetic `C131_minimax`, `C131_quasi_optimal`, `C131_total`, `C131_exact_refute`, `C131_iteration` |
| C132 | Half-band filters | Conception/DemiBandeProps.lean | proved | The statement as worded is entirely proved, over exact real arithmetic, with the least-squares solver as a parameter; success between 0 and 1/64 is not decided. `C132_structure`, `C132_refus`, `C132_bande`, `C132_prototype`, `C132_total`, `C132_negatif` |
| C133 | Frequency specifications become the requested template | Conception/DemiBandeProps.lean | partial | intervals starting at the Nyquist frequency after a gap make the design fail (witness); exact real arithmetic `C133_gabarit_partial`, `C133_nyquist_refute` |
| C134 | Frequency responses of a design | Conception/AnalyseProps.lean | partial | a FIR filter longer than 2 npts makes frmag fail (odd length) or return more points than requested (even length): C134_long_refute; exact real arithmetic `C134_repfreq`, `C134_frmag_partial`, `C134_accord`, `C134_long_refute`, `C134_frphase` |
| C135 | Impulse and step responses of a design | Conception/AnalyseProps.lean, Filtre/SoisRefute.lean | partial | the realisation of rational filters is a parameter in repimp/repech, instantiated in C135_rationnel_refute, where the response starts with a wrong sample; exact real arithmetic `C135_repech_rif`, `C135_repimp_rif`, `C135_repimp`, `C135_rationnel_refute` |
| C136 | Group delay of linear-phase designs | Conception/GroupeProps.lean | proved | proved for designs whose response is exactly linear-phase on the grid; exact real arithmetic `C136_groupe`, `C136_rif_symetrique` |
| C137 | Automatic analysis of a filter | Conception/AnalyseRefute.lean, Conception/FiltreAnalyseProps.lean | partial | a filter with gain between 0.2 and 0.8 at both ends is not classified by its gains and filters with more than 8192 coefficients get wrong frequencies (witnesses); start of the secondary lobes proved without equal neighbours; exact real arithmetic `C137_type_refute`, `C137_long_refute`, `C137_gains`, `C137_type_partial`, `C137_largeur_bas`, `C137_largeur_haut`, `C137_lobes`, `C137_debut_partial` |
| C138 | A chain of second-order sections realises its transfer function | Filtre/SoisFinal.lean, Filtre/SoisRefute.lean | partial | difference equation proved from the order of the filter on, and at every time when the signal starts with 0; refuted on the first samples otherwise (C138_debut_refute), for some orders of the roots (C138_ordre_refute, C138_indices_refute), with a null leading coefficient and for other representations; the polynomial solver is a parameter; exact arithmetic `C138_transfert`, `C138_pair`, `C138_impair`, `C138_construction`, `C138_ordre_refute`, `C138_indices_refute`, `C138_reel`, `C138_representation_refute`, `C138_degre_refute`, `C138_debut_refute` |
| C139 | The demodulator is a stream operator | Telecom/DemodDecProps.lean | proved | Any decision context (also with memory), any interpolator, with errors: both sides fail together. `C139_decoupe` |
| C140 | Modulator to demodulator round trip without loops | Telecom/DemodDecForme.lean, Telecom/DemodDecRefut.lean, Telecom/DemodDecSymb.lean | partial | Proved for NRZ shaping with noise, and for any shaping when the noise plus the intersymbol interference of its pulse (read D symbols late) is below the margin (C140_formes: bits returned D symbols late); refuted without shaping (NONE): the modulator puts the symbol at the end of its period, the demodulator reads its start (C140_aucun_refute). `C140_formes`, `C140_aucun_refute`, `C140_decimation`, `C140_aller_retour` |
| C141 | Carrier and gain loops at rest on the nominal signal | Telecom/DemodDecBoucles.lean, Telecom/DemodDecRefut.lean | partial | Proved for NRZ, carrier and gain loops; refuted for a null sample with the AGC (C141_nul_refute: division by zero, e.g. OOK). `C141_repos`, `C141_nul_refute` |
| C142 | Gain control of the demodulator | Telecom/DemodDecCag.lean, Telecom/DemodDecRefut.lean | partial | Decisions exact, level monotone between 1 and a and convergent; but the limit is the square root of the received level, not 1 (C142_niveau_refute): the gain is measured after its own application. `C142_cag`, `C142_niveau_refute` |
| C143 | Clock recovery of the demodulator never fails and keeps the symbol rate | Telecom/DemodDecFin.lean, Telecom/DemodDecHorloge.lean, Telecom/DemodDecOsf3.lean | partial | Settled for every osf with AGC off: proved for osf >= 4; refuted for osf = 1 (always fails), osf = 2 and osf = 3 (the phase becomes negative on 7-sample signals, for every time constant). With the AGC a zero sample makes the gain undefined (C141_nul_refute). `C143_osf1_refute`, `C143_osf2_refute`, `C143_cadence`, `C143_osf3_refute` |
| C144 | Modulator to demodulator round trip with all loops | Telecom/DemodDecFin.lean, Telecom/DemodDecOsf3.lean, Telecom/DemodDecRythme.lean | partial | Proved for NRZ, even osf, interpolators exact at the last sample (linear); refuted for the default cubic spline interpolator (one sample late) and for odd oversampling factors (half a sample early: C144_impair_refute). `C144_cspline_refute`, `C144_impair_refute`, `C144_aller_retour` |
| C145 | Resetting a demodulator forgets the past | Telecom/DemodDecReset.lean | partial | Proved without transposition and for matched filters of at most 5 symbols plus one sample; refuted with an intermediate frequency (the oscillator goes on) and for longer filters. `C145_reset`, `C145_transposition_refute`, `C145_filtre_refute` |
| C146 | Frame receiver: frames delivered are exactly those of the detected headers | Telecom/RecepteurTheo.lean | proved | Exact arithmetic; linear waveforms (no FSK); detector and interpolator are parameters. Soundness, order and completeness. `C146_trames`, `C146_complet`, `C146_complet_bloc` |
| C147 | Frame receiver: the size of the calls does not matter | Telecom/RecepteurTheo.lean | proved | Exact arithmetic; the detector is any function of its state and of the block. `C147_decoupe` |
| C148 | Frame receiver: absence of errors | Telecom/RecepteurErreurs.lean | proved | The statement as worded, with the defects of the code that it lists (theorems _refute), is entirely proved. C148_sans_erreur for memoryless decisions without loops; C148_erreur_refute lists detections that make the call fail. `C148_sans_erreur`, `C148_erreur_refute` |
| C149 | Frame receiver: reported positions | Telecom/RecepteurExemples.lean | proved | The statement as worded, with the defects of the code that it lists (theorems _refute), is entirely proved. C149_position for aligned calls; C149_tampon_refute and C149_appel_refute for the others: the position is wrong when samples wait in the buffer and is relative to the call of the detection. `C149_position`, `C149_tampon_refute`, `C149_appel_refute` |
| C150 | Frame receiver: no frame whose samples are all present is lost | Telecom/RecepteurExemples.lean | partial | C150_perdue_refute: a header detected during a frame makes it lost; C146_complet is the part that holds. `C150_perdue_refute` |
| C151 | Frame receiver: the pattern of the detector is the modulated header | Telecom/RecepteurBits.lean | proved | C151_motif gives the exact pattern for NRZ; C151_motif_refute: it is never the modulated header. Other pulse shapes are not covered. `C151_motif`, `C151_motif_refute` |
| C152 | Frame receiver: the bits received are the bits sent | Telecom/RecepteurBits.lean | partial | NRZ, odd number of interpolator coefficients, exact position, gain and phase of the detection; exact arithmetic. Other pulse shapes are not covered. `C152_nrz`, `C152_reception` |
| C153 | Sinc interpolator: windowed ideal low-pass filter | Itrp/Sinc.lean | proved | C153_gain_refute: the gain is not 1 below the cut-off 1/2; float rounding is not modelled. `C153_coefs`, `C153_entier`, `C153_symetrie`, `C153_gain_refute` |
| C154 | Announced BPSK error rate is the true one | Telecom/BerProps.lean | proved | Exact real arithmetic; the variance per component is that of Eb/N0 for the library's constellation. `C154_bpsk` |
| C155 | QPSK and pi/4-QPSK error rates against the announced ones | Telecom/BerQpsk.lean | proved | The statement as worded, with the defects of the code that it lists (theorems _refute), is entirely proved. C155_qpsk is exact up to 2v/10^96, which comes from the initial bound 1e100 of the library's nearest-symbol search; C155_pi4 is exact. C155_qpsk_refute and C155_pi4: the returned rate is strictly below the true one. Exact real arithmetic. `C155_qpsk`, `C155_qpsk_refute`, `C155_pi4` |
| C156 | ASK error rates against the announced ones | Telecom/BerAsk.lean, Telecom/BerFin.lean | proved | The statement as worded, with the defects of the code that it lists (theorems _refute), is entirely proved. Up to 2v/10^96 (initial bound 1e100 of the search). C156_ook_refute: false for levels that are not symmetric. The exact bit error rate for k >= 2 is only bounded. Exact real arithmetic. `C156_ask_symboles`, `C156_ask`, `C156_ook_refute` |
| C157 | QAM error rates against the announced ones | Telecom/BerQam.lean | proved | Up to 2v/10^96; exact bit error rate for 16-QAM and above only bounded. Exact real arithmetic. `C157_qam` |
| C158 | M-PSK error rates against the announced ones | Telecom/BerPsk.lean | proved | Up to 2v/10^96; lower and upper bounds (the exact rate has no closed form). Exact real arithmetic. `C158_psk` |
| C159 | Shape of the announced error-rate curves | Telecom/BerFin.lean | proved | Exact real arithmetic. `C159_courbes`, `C159_egales`, `C159_fsk` |
| C160 | One-shot generation of samples | Telecom/Generation.lean | partial | C160_fsk_refute: all samples undefined when the filtered symbols are all null (e.g. no bit); C160_contexte_refute: the streaming context of get_contexte_tx never gives a sample. Exact arithmetic; the coefficients of the non-NRZ filters are a parameter. `C160_lineaire`, `C160_pi4`, `C160_retard`, `C160_lecture`, `C160_nrz`, `C160_fsk`, `C160_fsk_refute`, `C160_contexte_refute` |
| C161 | Subspace spectrum (MUSIC) | Stats/SousEspaceFin.lean, Stats/SousEspaceProps.lean | partial | The eigenvalue solver is a parameter with its documented guarantees (propres_existe: they can be met). C161_auto_refute: the automatic number of sources depends on the unit of the signal and is wrong for noise powers of 2 or more. Exact arithmetic. `C161_spectre`, `C161_frequences`, `C161_sans_source`, `C161_auto_refute`, `C161_distance` |
| C162 | Directions of arrival | Stats/SousEspaceFin.lean | partial | C162_unite_refute: a factor 2 pi is missing in the steering vectors; C162_snr_refute: the SNR is inverted; C162_angles_refute: musicdoa_1d always returns an empty vector. C162_spectre gives the spectrum once these are corrected by the caller. `C162_steervec`, `C162_unite_refute`, `C162_covariance`, `C162_snr_refute`, `C162_spectre`, `C162_angles_refute` |
| C163 | Numerical integration and Fourier transform of a function of time | Divers/Ct.lean | proved | The statement as worded, with the defects of the code that it lists (theorems _refute), is entirely proved. Real arithmetic instead of float; the isnan tests and the drawing functions are not modelled. `C163_trapezes`, `C163_un_point`, `C163_erreur`, `C163_affine`, `C163_fourier`, `C163_echantillons`, `C163_echelon_refute` |
| C164 | Text of a physical value | Vue/Unites.lean | proved | The statement as worded, with the defects of the code that it lists (theorems _refute), is entirely proved. Real arithmetic instead of double and float; the decimal digits of the text are represented by the number they denote. The overflow, the zero for small values and the dependency on the order of the tics are proved as refutations. `C164_unite`, `C164_sans_unite`, `C164_grand_refute`, `C164_petit_refute`, `C164_commun_refute`, `C164_commun_decimales` |
| C165 | Copies between images | Vue/ImageProps.lean | proved | The statement as worded, with the defects of the code that it lists (theorems _refute), is entirely proved. int overflow of the coordinates is not modelled. The endless recursion and the unchecked copy are proved as refutations. `C165_sous_image`, `C165_puti`, `C165_puti_refute`, `C165_puti_rdi`, `C165_puti_rdi_refute`, `C165_clone`, `C165_rotation`, `C165_quatre_rotations`, `C165_rectangle` |
| C166 | Colours | Vue/Couleur.lean | proved | Real arithmetic instead of float for the mixing; the codes and texts are exact. `C166_rgba`, `C166_liste`, `C166_chaine`, `C166_mal_forme`, `C166_melange`, `C166_eclaircir`, `C166_lumi` |
| C167 | Drawing of points, lines and rectangles | Vue/Dessin.lean, Vue/DessinAa.lean | proved | The statement as worded, with the defects of the code that it lists (theorems _refute), is entirely proved. Exact set of the coloured pixels for points, straight lines and rectangles; for antialiased lines, safety and neighbourhood under the positivity of the minor coordinate at both ends, refuted on the first row; crossing lines refuted. Filled shapes and text not modelled. Weights are reals where the code uses float. `C167_point_alpha`, `C167_point`, `C167_ligne_droite`, `C167_antialias`, `C167_ligne_oblique`, `C167_premiere_ligne_refute`, `C167_traversante_refute`, `C167_rectangle` |
| C168 | Circles and discs | Vue/CercleProps.lean | proved | The statement as worded, with the defects of the code that it lists (theorems _refute), is entirely proved. Exact real arithmetic in place of float (square root and weights). Ellipses: see C219. `C168_cercle`, `C168_symetrie`, `C168_poids`, `C168_disque`, `C168_parasite_refute` |
| C169 | Blending of images | Vue/Melange.lean, Vue/MelangeProps.lean | proved | The statement as worded, with the defects of the code that it lists (theorems _refute), is entirely proved. Exact real arithmetic in place of float: the truncation of a product that is an exact integer could lose one unit in float. `C169_rectangle`, `C169_blend`, `C169_blend_nv`, `C169_gamma`, `C169_deborde_refute`, `C169_masque`, `C169_alignement` |
| C170 | Resizing of images | Vue/Redim.lean | proved | The statement as worded, with the defects of the code that it lists (theorems _refute), is entirely proved. Exact real arithmetic in place of float. The refutations cover one column or row and the same size. `C170_redim`, `C170_uniforme`, `C170_coins`, `C170_un_refute`, `C170_identite_refute` |
| C171 | Array arithmetic is element by element and checks shapes | Tableau/Arith.lean | partial | Elementwise semantics, shape checks (with an exact characterisation of failure), commutativity, scalar operations, select, comparisons proved for all arrays. The code violates the property, and the negation is proved: `-` and the compound assignments do not check shapes, scalar / integer array gives 0 (C171_division_entiere_refute), a fractional scalar times an integer array is 0, select does not check the mask length, && and || throw on every matrix, tous_vrai() is false and au_moins_un_faux() true on an empty mask. Rounding, integer overflow and block views are not modelled here. `C171_binaire`, `C171_binaire_echec`, `C171_sans_verification`, `C171_commute`, `C171_scalaire`, `C171_scalaire_moins`, `C171_scalaire_divise`, `C171_scalaire_divise_entier`, `C171_division_entiere_refute`, `C171_fraction_refute`, `C171_moins_refute`, `C171_select`, `C171_select_refute`, `C171_logique_partial`, `C171_logique_refute`, `C171_compare`, `C171_quantificateurs_partial`, `C171_masque_vide_refute` |
| C172 | Matrix access, rearrangements, sums and products | Tableau/Forme.lean | partial | All the rearrangements and algebraic identities are proved for all sizes ≥ 1 × 1; refuted for the transposed of an empty vector (one indeterminate element) and for set_row with a row out of range (overwrites another entry). Exact arithmetic instead of floating point. `C172_acces`, `C172_transpose`, `C172_transpose_involution`, `C172_transpose_vide_refute`, `C172_reverse`, `C172_reverse_rows`, `C172_reshape`, `C172_valeurs`, `C172_ligne_colonne`, `C172_set_row`, `C172_set_row_refute`, `C172_sommes`, `C172_moyenne`, `C172_matprod`, `C172_eye`, `C172_transpose_produit`, `C172_associatif`, `C172_diagonale`, `C172_dot` |
| C173 | Demodulator without decision feedback: cutting into blocks, constructor, modes | Telecom/DemodGen.lean | proved | The statement as worded, with the defects of the code that it lists (theorems _refute), is entirely proved. Exact arithmetic; the two resampling stages are parameters assumed to be insensitive to the cutting; the limit on the number of symbols per call is why both cuttings are assumed accepted. Refuted: maximum likelihood mode with FSK (null pointer), pi/4-QPSK decisions across blocks, reset. `delais` always throws (not stated as a theorem). `C173_decoupe`, `C173_cree`, `C173_ml_fsk_refute`, `C173_gain`, `C173_phase`, `C173_nombre`, `C173_pi4_refute`, `C173_reset_refute` |
| C174 | Dates and times as text: printing, reading back, constructors | Temps/Texte.lean | proved | The statement as worded, with the defects of the code that it lists (theorems _refute), is entirely proved. The clauses on the default mode, on the absence of validation and on the printed forms are refuted; the others are proved. The formatting library and sscanf/stoi are modelled on characters. `C174_affiche_lis`, `C174_locale_refute`, `C174_lis_invalide_refute`, `C174_calendrier`, `C174_heure`, `C174_accepte`, `C174_mal_forme_refute`, `C174_formes_refute` |
| C175 | Durations, Julian days, sidereal time | Temps/Duree.lean | proved | The statement as worded, with the defects of the code that it lists (theorems _refute), is entirely proved. double operations rounded by rnd64 (Binary64); sidereal time in exact arithmetic. Refuted: truncation, overflow of the composed constructor, printing of negative durations, J2000(). `C175_precision`, `C175_entier`, `C175_aller_retour`, `C175_troncature_refute`, `C175_somme`, `C175_produit`, `C175_composee`, `C175_composee_refute`, `C175_unite`, `C175_unite_refute`, `C175_annee_jour`, `C175_julien`, `C175_j2000_refute`, `C175_sideral`, `C175_vitesse` |
| C176 | CIC design and frequency response agree | Reechan/CicFreq.lean | proved | The statement as worded, with the defects of the code that it lists (theorems _refute), is entirely proved. Exact real arithmetic instead of float; the announced number of additional bits is refuted (C176_bits_refute). The plots of cic_analyse are not modelled. `C176_design`, `C176_reponse`, `C176_bornes`, `C176_zeros`, `C176_bits_refute` |
| C177 | Clock recovery with the derivative of the matched filter | Telecom/Horloge2.lean | proved | The statement as worded, with the defects of the code that it lists (theorems _refute), is entirely proved. Exact real arithmetic instead of float. Refuted: osf = 1 (C177_osf1_refute), sense of the correction (C177_sens_refute), independence of the carrier phase (C177_rotation_refute). `C177_decoupe`, `C177_derivee`, `C177_cadence`, `C177_osf1_refute`, `C177_sens_refute`, `C177_rotation_refute` |
| C178 | Inertial measurement unit model | Kalman/Imu.lean | proved | The statement as worded, with the defects of the code that it lists (theorems _refute), is entirely proved. Exact real arithmetic instead of float. Refuted: configurations without orientation (C178_sans_orientation_refute), GPS and barometer without position (C178_gps_refute), estimation with filtre_ekf (C178_ekf_refute). `C178_observation`, `C178_gyro`, `C178_normes`, `C178_orientation`, `C178_prediction`, `C178_long`, `C178_variances`, `C178_sans_orientation_refute`, `C178_gps_refute`, `C178_ekf_refute` |
| C179 | FM broadcast demodulator | Telecom/FmDemod.lean | proved | The statement as worded, with the defects of the code that it lists (theorems _refute), is entirely proved. The filters, discriminator, RDS demodulator and PLL are parameters; exact arithmetic. Only the mono part holds; RDS, low sampling frequencies, block cut and stereo separation are refuted. `C179_mono`, `C179_rds_refute`, `C179_decimation_refute`, `C179_decoupe_refute`, `C179_stereo_refute` |
| C180 | The constant Q transform analyses every complete window once | Fourier/Cqt.lean | proved | The statement as worded, with the defects of the code that it lists (theorems _refute), is entirely proved. Values of the correlations are a parameter of the model; exact arithmetic. CQT::step violates the property (proved). `C180_taille`, `C180_frequences`, `C180_durees`, `C180_planning`, `C180_premier_perdu_refute`, `C180_longueur_exacte_refute`, `C180_bloc_court_refute`, `C180_step`, `C180_noyau_court_refute`, `C180_noyau_court_accepte_refute` |
| C181 | The regular sampling of the constant Q transform is a linear interpolation inside its matrix | Fourier/CqtItrp.lean | proved | The statement as worded, with the defects of the code that it lists (theorems _refute), is entirely proved. Exact arithmetic; out of range writes proved (refute). `C181_interpolation`, `C181_reussite`, `C181_debordement_refute`, `C181_meme_frequence_refute`, `C181_planning` |
| C182 | Fractional delays are band-limited interpolation | Fourier/DelaisFrac.lean, Fourier/DelaisReel.lean | proved | Exact arithmetic (float rounding not modelled). `C182_complexe`, `C182_noyau_entier`, `C182_entier`, `C182_continu`, `C182_energie`, `C182_reel`, `C182_reel_complexe`, `C182_reel_entier`, `C182_reel_delais`, `C182_reel_continu`, `C182_aller_retour`, `C182_reel_energie` |
| C183 | Spectral coherence of two signals | Fourier/DelaisFrac.lean | proved | The property fails: the refutation is the theorem, in exact arithmetic. `C183_coherence_refute` |
| C184 | An axis maps values to pixels proportionally and reversibly | Vue/Axes.lean | proved | The statement as worded, with the defects of the code that it lists (theorems _refute), is entirely proved. Exact arithmetic instead of float; the round trip is proved for even dimensions and refuted for odd ones. `C184_echelle`, `C184_entier`, `C184_inverse`, `C184_inverse_impair_refute` |
| C185 | Graduation steps are simple numbers, as small as allowed | Vue/Axes.lean | proved | Exact arithmetic instead of float and double. `C185_tic`, `C185_double`, `C185_espacement` |
| C186 | The graduations of a linear axis are the visible multiples of the step | Vue/AxesTics.lean | proved | The statement as worded, with the defects of the code that it lists (theorems _refute), is entirely proved. Exact arithmetic; linear axes with automatic graduations; minor graduations, logarithmic axes, manual graduations and forced spacings are not modelled; refuted in the remaining case. `C186_majeurs`, `C186_vide_refute`, `C186_essais`, `C186_negatif_refute` |
| C187 | The graduations of a time axis | Vue/AxesVue.lean | proved | The statement as worded, with the defects of the code that it lists (theorems _refute), is entirely proved. Proved on whole numbers of tics (conversion from float seconds not modelled); labels not modelled; the count of 8 and the presence of a graduation are refuted. `C187_choix`, `C187_majeurs`, `C187_mineurs`, `C187_nombre`, `C187_neuf_refute`, `C187_sans_graduation_refute` |
| C188 | The visible region of a figure | Vue/AxesVue.lean | proved | The statement as worded, with the defects of the code that it lists (theorems _refute), is entirely proved. Exact arithmetic; proved for an aspect ratio of 1 and refuted for the others. `C188_iso`, `C188_rapport_refute`, `C188_coupe_refute`, `C188_rdi` |
| C189 | Coordinates of curves, grid and pixels agree | Vue/AxesVue.lean | proved | The statement as worded, with the defects of the code that it lists (theorems _refute), is entirely proved. Exact arithmetic; refuted for logarithmic inverse conversions and for a vertical axis on the left. The drawing primitives of the canvas are not modelled. `C189_echelle`, `C189_inverse`, `C189_inverse_log_refute`, `C189_taille`, `C189_marges`, `C189_grille_refute` |
| C190 | Colour maps stay in range and are continuous | Vue/Cmap.lean | proved | The statement as worded, with the defects of the code that it lists (theorems _refute), is entirely proved. exact arithmetic instead of float; violated by mono-per (C190_continu_refute) `C190_bornes`, `C190_interpolation`, `C190_continu`, `C190_continu_refute`, `C190_relations`, `C190_inconnue` |
| C191 | Rectangles and points | Vue/Rect.lean | proved | The statement as worded, with the defects of the code that it lists (theorems _refute), is entirely proved. unbounded integers (except the norm) and exact reals; membership of integer rectangles and norm of large points violated (_refute theorems) `C191_coins`, `C191_englobant`, `C191_englobant_reel`, `C191_aller_retour`, `C191_contient_reel`, `C191_contient_signe`, `C191_contient_refute`, `C191_centre`, `C191_norme`, `C191_norme_refute` |
| C192 | Alignment of two streams with a variable delay | Fourier/AligneDyn.lean | proved | the samples are only copied; the pairs are those given to the output buffers, whose callbacks are empty in the code, so that no public function returns them `C192_constant`, `C192_aligne`, `C192_invariant`, `C192_regime` |
| C193 | Dispersive channel: which calls succeed, and continuity of the fading | Telecom/CanalDisp.lean | proved | The statement as worded, with the defects of the code that it lists (theorems _refute), is entirely proved. The noise chain (white noise, Doppler filter, resampler) is an abstract state machine; exact arithmetic; acceptance of every block size is refuted. Complements C125 and C126. `C193_doppler`, `C193_produit`, `C193_reussite`, `C193_petits_blocs_refute` |
| C194 | Real-output PLL and choice of the phase detector | Telecom/Rpll.lean | proved | The statement as worded, with the defects of the code that it lists (theorems _refute), is entirely proved. Exact arithmetic, abstract base band filter; lock proved for the first-order loop with the default detector; locking on the input phase is refuted, as is the use without base band filter. `C194_blocs`, `C194_sans_filtre_refute`, `C194_verrou`, `C194_phase_refute`, `C194_choix` |
| C195 | Random draws | BitStream/Alea.lean | proved | The statement as worded, with the defects of the code that it lists (theorems _refute), is entirely proved. Engine and distributions of the standard library are abstract; randb and the comparison of random bit streams violate the expected property (refuted). `C195_suite`, `C195_randb_refute`, `C195_flux`, `C195_flux_egal_refute` |
| C196 | CIC analysis and compensation filter | Reechan/CicComp.lean | partial | proved in exact arithmetic for M ≤ 2; the plotted figures are not modelled; R = 1 and a cut-off at the band edge are refuted (error), and the flatness at the output frequencies is refuted (the template uses k/8192 while the design uses k/(2n-1)) `C196_analyse`, `C196_un_refute`, `C196_gabarit`, `C196_large_refute`, `C196_continu`, `C196_points_partial`, `C196_plat_refute` |
| C197 | Elliptic (Cauer) analog prototype | Conception/Elliptique.lean | proved | The statement as worded, with the defects of the code that it lists (theorems _refute), is entirely proved. exact arithmetic; orders below 256000; stability of the poles and the equiripple gain curve are not proved `C197_fin`, `C197_infini_refute`, `C197_structure`, `C197_modules`, `C197_impair_refute` |
| C198 | Element types of arrays: formats, conversions, approximate equality | Tableau/Types.lean | proved | The statement as worded, with the defects of the code that it lists (theorems _refute), is entirely proved. exact numbers (no rounding between float and double); Eigen's isApprox is modelled from its documentation; conversions of boolean arrays only to and from integers; refuted parts are stated as theorems `C198_formats`, `C198_autres_refute`, `C198_vues`, `C198_block_refute`, `C198_abs_refute`, `C198_compare_refute`, `C198_aller_retour`, `C198_reduction`, `C198_approx`, `C198_ecart`, `C198_nul` |
| C199 | Concatenation of matrices | Tableau/Concat.lean | proved | The statement as worded, with the defects of the code that it lists (theorems _refute), is entirely proved. refuted: both functions fail for every float matrix (other types throw, C198); the vector version is proved in C33 `C199_vconcat_refute`, `C199_hconcat_refute`, `C199_contenu_refute` |
| C200 | Settings of the English demodulator configuration are transmitted | Dsp/DemodConfig.lean | partial | The property is false of the code: exact effect of the copy proved for all values, property refuted with witnesses (default settings, carrier loop, decision mode). `C200_exact`, `C200_defaut_refute`, `C200_porteuse_refute`, `C200_sans_decision_refute` |
| C201 | Structures converted byte by byte lose nothing | Dsp/Copies.lean | proved |  `C201_copie`, `C201_structures`, `C201_tailles` |
| C202 | English functions give what the French ones give | Dsp/Appels.lean | partial | Refuted for sigimp, waveform_ask, the two phase locked loops, the packet transmitter without header waveform, quaternions, table conversions; exact behaviour proved in each case. Only these functions of the English API are modelled. `C202_sigimp_refute`, `C202_sigimp_exact`, `C202_ask_refute`, `C202_pll_refute`, `C202_pll_difference`, `C202_rpll_refute`, `C202_entete_refute`, `C202_entete`, `C202_quaternion_refute`, `C202_conversion_refute` |
| C203 | A setting of an English configuration is the one used | Dsp/References.lean | partial | Holds for objects which are not copies; refuted for copies, and for the mode of the detector. `C203_direct`, `C203_direct_recu`, `C203_copie_refute`, `C203_survie_refute`, `C203_mode_refute` |
| C204 | Slepian window: unit energy and greatest energy share in the band | Conception/Slepian.lean | proved | exact arithmetic; the eigen solver is a parameter with its documented guarantees; the symmetry needs a simple greatest eigenvalue `C204_slepian`, `C204_signe`, `C204_symetrie` |
| C205 | Logarithmic and time grids | Util/Grilles.lean | proved | The statement as worded, with the defects of the code that it lists (theorems _refute), is entirely proved. the grids are proved; refuted: a negative duration gives a negative number of points (C205_negative_refute) `C205_log`, `C205_raison`, `C205_temps`, `C205_duree`, `C205_negative_refute` |
| C206 | Rotations around the axes | Geometrie/Axes3d.lean | proved | The statement as worded, with the defects of the code that it lists (theorems _refute), is entirely proved. the group laws are proved; refuted: the axis number is not checked (C206_numero_refute) and the attitude is lost at the vertical (C206_vertical_refute) `C206_groupe`, `C206_axe`, `C206_sens`, `C206_numero_refute`, `C206_vertical_refute` |
| C207 | The arbitrary-ratio resampler is a stream filter with the right rate | Reechan/Arbitraire.lean | proved | The statement as worded, with the unbounded drift (C207_derive_refute), is entirely proved. Exact real arithmetic, real samples. `C207_flux`, `C207_transparent`, `C207_derive_refute` |
| C208 | CPU load monitors | Util/Moniteur.lean | proved | The statement as worded, with the defects it lists (C208_longue_refute, C208_course_refute), is entirely proved. The two clocks read by one call are taken at the same instant; exact rationals instead of float. `C208_appels`, `C208_charge`, `C208_plein`, `C208_longue_refute`, `C208_cherche`, `C208_course_refute` |
| C209 | Windowed frequency-domain filter: overlap-add and reconstruction | Fourier/OlaFenetreC.lean | proved | statement (with the violations it lists) proved in exact arithmetic; Ne even; memcpy onto itself read as no change `C209_sortie`, `C209_reconstruction`, `C209_reconstruction_refute` |
| C210 | Periodogram by DFT | Fourier/OlaFenetreC.lean | proved | exact arithmetic; N even `C210_periodogramme`, `C210_court_refute` |
| C211 | Memory of the pattern detector | Tableau/LigneExtProps.lean | proved | Statement with its listed defects entirely proved. Buffers, views and variables as in C36. The detection itself (peaks) is not part of this property. `C211_contenu`, `C211_entree_modifiee_refute`, `C211_court_refute`, `C211_meme_vecteur_refute`, `C211_fenetre` |
| C212 | The grid of sub-figures | Vue/Figures.lean | proved | The whole statement is proved, with the violations. Integers are unbounded; the figures are opaque. `C212_rendue`, `C212_stable`, `C212_change`, `C212_code`, `C212_auto_ajout`, `C212_zones`, `C212_auto`, `C212_dessin`, `C212_transpose_refute`, `C212_hors_grille_refute`, `C212_gcf_refute`, `C212_gf` |
| C213 | The region displayed by a figure contains the curves | Vue/FigureRegion.lean | proved | The whole statement is proved, with the violations. Exact arithmetic; finite abscissas; the margins are modelled for linear axes. `C213_vertical`, `C213_horizontal`, `C213_hauteur`, `C213_impose`, `C213_minimale`, `C213_serre`, `C213_marges`, `C213_point`, `C213_negatif_refute`, `C213_image_refute`, `C213_rdi_refute`, `C213_bande_refute` |
| C214 | A plotted curve has the data and the appearance asked for | Vue/FigurePlot.lean | proved | The whole statement is proved, with the violations. Exact arithmetic; the spectrum itself is not modelled here (C27, C68). `C214_ajout`, `C214_implicite`, `C214_rien`, `C214_ordre`, `C214_format`, `C214_defaut`, `C214_noir_refute`, `C214_complexe`, `C214_options`, `C214_psd_reel`, `C214_psd_refute` |
| C215 | Filling of a polygon follows the even-odd rule | Vue/Polygone.lean | proved | The whole statement is proved, with the violations. Exact arithmetic for the crossings; the drawing of a horizontal segment is C167. `C215_oriente`, `C215_tri`, `C215_rempli`, `C215_bord_refute`, `C215_haut` |
| C216 | Nested canvases and bounding region | Vue/Canva.lean | proved | The whole statement is proved, with the violations. Exact arithmetic; linear axes (logarithmic ones: C189). `C216_ajoute`, `C216_dedans`, `C216_compose`, `C216_coins`, `C216_deborde_refute`, `C216_angles_refute`, `C216_englobante`, `C216_ligne`, `C216_cercle_refute` |
| C217 | Drawing of the curves of a figure | Vue/FigureCourbes.lean | proved |  `C217_lignes`, `C217_ordre`, `C217_traverse_refute`, `C217_restriction`, `C217_restriction_lignes`, `C217_taille`, `C217_enveloppe`, `C217_bloc`, `C217_dernier_refute`, `C217_bandes_extremes`, `C217_reste`, `C217_donnees_refute`, `C217_perte`, `C217_sigma_refute`, `C217_second`, `C217_zoom_refute`, `C217_remplissage`, `C217_sigma`, `C217_bandes`, `C217_bandes_refute`, `C217_batons`, `C217_marques` |
| C218 | A surface is drawn without gap, overlap nor distortion of its values | Vue/FigureImage.lean | proved |  `C218_grille`, `C218_grille_refute`, `C218_cases`, `C218_pavage`, `C218_defaut`, `C218_normalise`, `C218_constante_refute`, `C218_affine`, `C218_options`, `C218_vide_refute`, `C218_brut` |
| C219 | Antialiased arcs of ellipses | Vue/Ellipse.lean | proved |  `C219_arc`, `C219_complet`, `C219_limite_refute`, `C219_plate_refute`, `C219_centre_refute`, `C219_boite`, `C219_continu`, `C219_trou_refute`, `C219_image` |
| C220 | Images saved to files and loaded back | Vue/ImageFichier.lean | proved | The PNG library is taken as lossless; the C++ library is taken to refuse the creation of a directory with an empty name (std::filesystem::create_directory). `C220_contenu`, `C220_opaque`, `C220_transparence_refute`, `C220_chemin`, `C220_nom`, `C220_extension`, `C220_courant_refute` |
| C221 | Density picture of a cloud of points | Vue/Accu.lean | proved | The counters are exact naturals (float counters in the code). `C221_densite`, `C221_opacite`, `C221_rendu`, `C221_ordre`, `C221_repete`, `C221_bord_refute` |
| C222 | An image placed on a canvas is cut to the visible part | Vue/ImageElt.lean | proved | Integers are unbounded: the products of dimensions overflow int for very large zooms in the code. `C222_dessine`, `C222_exact`, `C222_colonne_refute`, `C222_etroit_refute` |
| C223 | Text fitted in a rectangle, common scale of a group | Vue/Texte.lean | proved | texte_dim (freetype) is a parameter with non negative dimensions. `C223_dimensions`, `C223_termine`, `C223_affiche`, `C223_groupe`, `C223_meme_echelle`, `C223_groupe_refute` |
| C224 | The legend of a figure: when, where and what | Vue/Legende.lean | proved | the violated parts are proved with witnesses (C224_pave_refute, C224_inconnu) `C224_montree`, `C224_dedans`, `C224_coin`, `C224_lignes`, `C224_pave_refute`, `C224_codes`, `C224_inconnu` |
| C225 | Vertical filling between two segments on a canvas | Vue/Bande.lean | proved | the violated parts are proved (C225_decroissant_refute, C225_colonne_refute, C225_moins_un_refute) `C225_bande`, `C225_raccord`, `C225_decroissant_refute`, `C225_colonne_refute`, `C225_moins_un_refute` |
| C226 | Rectangles of a canvas: frame and filling | Vue/Cadre.lean | proved | the violated parts are proved with witnesses (C226_mince_refute, C226_moitie_refute, C226_epais_refute) `C226_rectangle`, `C226_ordre`, `C226_mince_refute`, `C226_moitie_refute`, `C226_epais_refute` |
| C227 | Texts of a canvas: limits, alignment and clipping | Vue/Etiquette.lean | proved | the violated parts are proved with witnesses (C227_gauche_refute, C227_emboite_refute, C227_emboite_absent_refute) `C227_limites`, `C227_alignement`, `C227_dessin`, `C227_gauche_refute`, `C227_emboite_refute`, `C227_emboite_absent_refute` |
| C228 | Curves of the analysis of a shaping filter | Telecom/AnalyseForme.lean | proved | The statement as worded, with the defects of the code that it lists (theorems _refute), is entirely proved, over exact arithmetic. Frequency responses, plots and the theoretical response of the Gaussian and raised-cosine pulses are not modelled. `C228_sympad`, `C228_temps`, `C228_courbe`, `C228_pair_refute`, `C228_court_refute`, `C228_theorique`, `C228_theorique_refute` |

## Which parts of the code are modelled (generated from the citations in the Lean sources)

| Source file | Lean area: cited lines |
|----|----|
| core/include/dsp/dsp.hpp | Dsp: 974-977 |
| core/include/dsp/fourier.hpp | Dsp: 252-268, 545-567, 255, 509-541, 547-566, 559 |
| core/include/dsp/geometry.hpp | Dsp: 55-58 |
| core/include/dsp/tab.hpp | Dsp: 226-232 |
| core/include/dsp/telecom.hpp | Dsp: 65-90, 289-314, 387-390, 681-695, 724-741, 754-760, 774-782, 832-853, 684, 724-741, 748-751, 774-782, 1187-1253, 1187-1261, 1255-1260, 1374-1382, 1632-1635, 1706-1742, 1859-1872, 1929-1940 |
| core/include/dsp/time.hpp | Dsp: 18-29, 217-224, 310-313 |
| core/include/tsd/apps/kalman.hpp | Kalman: 26-62, 26-138, 45, 96-99, 471-512 |
| core/include/tsd/ct.hpp | Divers: 22-49, 44-45, 52-64 |
| core/include/tsd/filtrage.hpp | Conception: 24-85, 56-77, 70-72, 119-127, 462-472, 475-530, 552-563, 565-596, 568-584, 601-636, 656-662, 1684-1691, 1761-1765, 1684-1711, 1774-1780; Itrp: 1873-1881, 1877-1880; Telecom: 1873-1881 |
| core/include/tsd/filtrage/frat.hpp | Conception: 155-189, 184-185, 514-518, 744-748; Fourier: 154-189, 184-185; Poly: 17-27, 25-35, 37-44, 46-52, 54-58, 65-75, 91-116, 103-112, 154-189, 166-167, 184-185, 238-263, 246-248, 257-259, 265-273, 275-294, 308-312, 320-360, 320-360, 339-357, 344-356, 346-353, 362-365, 367-374, 376-399, 386-398, 401-409, 411-414, 417-425, 465-466, 427-433, 500-503, 514-518, 533-536, 552-555, 557-560, 574-577, 625-637, 639-644, 652-672, 693-707, 711-730, 744-748, 750-753, 755-758, 766-769, 772-775, 778-781, 784-799, 802-807, 809-812, 840-847, 850-853, 855-859 |
| core/include/tsd/fourier.hpp | Dsp: 546-573; Fourier: 31, 117-122, 164-170, 201-205, 232-248, 264-282, 275-278, 432-499, 546-573, 822-831, 909-948 |
| core/include/tsd/fourier/cqt.hpp | Fourier: 13-33 |
| core/include/tsd/fourier/tod.hpp | Fourier: 19-32, 37-45, 47-64, 77-83 |
| core/include/tsd/geometrie.hpp | Geometrie: 30-33, 75-84, 108-117, 121-130, 133-142, 144-154 |
| core/include/tsd/stats.hpp | Stats: 118-134, 146-158, 207-210, 225-231, 229-230 |
| core/include/tsd/tableau.hpp | Fourier: 413-418, 527-535, 890-901, 544-548, 546-569, 546-592, 578-592, 685-693, 894-897; Reechan: whole file; Stats: 933-945; Tableau: 66-70, 260-279, 485-524, 1565-1615, 1630-1758, 66-69, 261-278, 264-277, 330-500, 657-840, 1190-1480, 355-358, 360-363, 365-368, 370-373, 376-388, 473-640, 885-940, 1110-1190, 495-510, 530-538, 546-569, 571-575, 578-592, 594-600, 657-940, 1012-1056, 657-666, 700-717, 745-754, 756-765, 782-795, 805-812, 1045-1056, 814-831, 835-838, 856-879, 898-911, 903-906, 908-911, 912-923, 926-931, 1141-1144, 933-941, 1012-1019, 1045-1056, 1111-1118, 1120-1129, 1141-1156, 1158-1168, 1158-1180, 1260-1282, 1146-1180, 1449-1453, 1450-1480, 1469-1473, 1476-1480, 1565-1572, 1602-1609, 1630-1652, 1656-1678, 1680-1696, 1698-1710, 1735-1739, 1754-1758; Util: 1170-1180 |
| core/include/tsd/telecom.hpp | Dsp: 39-61, 205-230, 1029-1108, 1455-1483; Telecom: 42-53, 287, 609-621, 1041-1077, 1256-1272, 1455-1483, 1676-1697, 1742-1768, 1897-1907, 1910 |
| core/include/tsd/telecom/bitstream.hpp | BitStream: whole file |
| core/include/tsd/telecom/lfsr.hpp | Lfsr: whole file |
| core/include/tsd/temps.hpp | Dsp: 21-32, 133-140, 180-183; Temps: 334-340, 366-370, 341-385, 355-358, 360-363 |
| core/include/tsd/tsd.hpp | Conception: 82-84, 414-436, 448-455, 467-470; Fourier: 514-534, 916-931; Itrp: 236-241; Stats: 448-455; Tableau: 155-181, 157-167, 171-181; Telecom: 82-84, 367-375, 448-455; Util: 137-146, 211-216, 237-241, 264-275, 268-273, 327-333, 368-375, 394-401, 398-399, 515-535, 738-751, 771-783, 801-804, 822-826, 916-931, 955-958, 969-976, 989-992, 995-999 |
| core/include/tsd/vue.hpp | Vue: 89-92, 94-97, 161-168, 202-235, 237-240, 465-478, 570-589, 777 |
| core/include/tsd/vue/image.hpp | Vue: 13-16, 24-60, 41-217, 82-85, 131-163, 134-137, 168-171, 173-176, 178-184, 187-193, 197-206, 200-203, 246 |
| core/include/tsd/wav.hpp | Wav: 17-29 |
| core/src/apps/doa.cc | Stats: 17-25, 28-36, 43-81, 47-60, 69-74 |
| core/src/ct.cc | Divers: 11, 30-71, 45-63, 113-143 |
| core/src/divers.cc | Divers: 6-12, 14-18, 21-34, 36-56, 48-53, 58-61, 60, 65, 63-66 |
| core/src/fenetres.cc | Conception: 17-58, 60-84, 85-101, 88-93, 94-98, 103-107, 125-128, 130-148, 178-206, 185-199, 208-211, 213-268, 231-246, 247-256, 268-278, 281-313, 287-289, 295-300, 303-308, 314-328, 330-336, 338-341 |
| core/src/filtrage/filtrage.cc | Conception: 14-45, 47-52, 54-77, 79-87, 85, 88-97, 98-108, 110-216, 110-117, 121-124, 126-129, 131-134, 136-139, 141-150, 149, 152-158, 157, 160-166, 165, 168-171, 205-210 |
| core/src/filtrage/filtre-analyse.cc | Conception: 32-42, 45-228, 55-71, 100-131, 177-193, 165-170, 235-244, 237, 287, 296, 238, 276, 247-271, 273-277, 280-289, 291-298, 300-311, 313-329, 320, 325-326 |
| core/src/filtrage/filtre-rt.cc | Filtre: 13-17, 19-24, 26-43, 37-42, 53-65, 60-65, 67-108, 82-107, 98-99, 127-134, 135-162, 141-150, 177-183, 200-209, 210-280, 224-248, 252-279, 266-267, 304-310, 317-328, 347-399, 369-381, 384-394, 407-420, 422-436, 427-432, 440-446, 440-600, 448-560, 464-524, 485-505, 487-494, 491-502, 516-521, 562-571, 565-566, 580-603, 583-600, 604-614, 615-628, 622-627, 633-640, 642-647, 649-666, 658-665, 725-737, 739-762, 754-759; Poly: 185-194, 285-289 |
| core/src/filtrage/frat.cc | Conception: 40-50; Filtre: 40-51 |
| core/src/filtrage/hilbert.cc | Conception: 8-23, 15-19, 29-43, 33-43, 44-52, 63-73 |
| core/src/filtrage/rif-cs.cc | Conception: 22-28, 32-41, 45-52, 55-58, 84-87, 91-119, 123-129, 131-154, 142-145, 156-175, 158-172 |
| core/src/filtrage/rif-eq.cc | Conception: 5-21, 24-34, 37-47, 49-58, 87-91, 94-125, 132-190, 152-187, 154-155, 178-179, 196-240, 207-225, 230-235, 242-271, 244-269, 252-269, 255-256, 257-258 |
| core/src/filtrage/rif-fen.cc | Conception: 29-40, 43-49, 47, 76, 59-66, 65, 74, 68-77, 80-100, 84-93, 103-107, 109-113, 115-119 |
| core/src/filtrage/rif-freq.cc | Conception: 6-10, 33-99, 35-51, 55-77 |
| core/src/filtrage/rii.cc | Conception: 20-23, 25-28, 30-33, 35-38, 41-73, 49-72, 49, 51, 66-69, 125-144, 132-141, 173-189, 195-217, 212-213, 219-332, 233, 237-282, 237-241, 242, 243-248, 246, 254-264, 256-262, 259, 264, 268-275, 279, 280, 285-288, 290-303, 290-316, 292, 293, 293, 297-302, 294-305, 297-301, 313-314, 297-301, 302, 310-316, 318-319, 327-330, 339-370, 341-342, 376-377, 345, 372-404, 380, 391-392, 396, 406-411, 427-444, 406-452, 413-425, 454-466, 468-480, 483-487, 489-667, 489-507, 492-505, 577-667, 577-655, 595-655, 657-666, 664-666 |
| core/src/fourier/cqt.cc | Fourier: 69, 74-86, 88-91, 98-103, 115-125, 250-267, 255, 269-282, 284-297, 298-367, 319-362, 330-357, 369-421, 379-394, 396-419, 407-416, 410-413 |
| core/src/fourier/detection.cc | Fourier: 68-108, 205-207, 68-108, 120-171, 120-199, 177-192, 209-490, 222-489, 234, 251, 244-249, 268-275, 277, 288-303, 318-471, 318-474, 340-356, 406-423, 17-21, 406-413, 10-14; Tableau: 25-62, 443-470, 25-62, 31-35, 37-49, 46, 47, 204, 494, 443-470, 447-470, 453-460, 462, 467-470 |
| core/src/fourier/estimation-delais.cc | Fourier: 10-13, 21-101, 42-43, 103-109, 112-163, 127-142, 144-155 |
| core/src/fourier/fourier.cc | Fourier: 28-34, 31-45, 34, 47-51, 61-125, 88-120, 99-117, 107-115, 125-231, 632-664, 125-231, 600-698, 129-179, 137-141, 148-170, 185-231, 200-219, 232-252, 255-275, 281-312, 293-312, 313-353, 326-341, 360-365, 367-378, 372-406, 398-401, 407-410, 412-471, 416-417, 433, 444-449, 453-467, 483-487, 490-503, 518-540, 544-550, 552-578, 580-598, 600-604, 607-628, 612-616, 636-640, 621-622, 632-664, 645-660, 666-683, 686-698, 708-713, 715-735, 720-734, 737-990, 737-930, 740, 921, 740-755, 757-758, 762-817, 765-817, 795, 886, 811-816, 819-841, 845-891, 881-928, 885-886, 888-890, 914-916, 894, 895, 909, 919, 896-911, 908, 914, 919, 920-923, 921, 926, 947-978, 952-973, 974-977, 1000-1124, 1002-1004, 1013-1027, 1028-1124, 1055-1083, 1109-1121, 1162-1172, 1174-1230, 1181-1188, 1193-1195, 1206, 1233-1334, 1245-1277, 1252-1256, 1263-1264, 1268-1269, 1346-1387, 1351-1357, 1361-1366, 1389-1417, 1424, 1389-1417, 1392-1416, 1402-1407, 1411-1415, 1451-1481, 1468 |
| core/src/fourier/freqestim.cc | Fourier: 7-20, 13-17, 15-16, 22-43, 45-91, 94-110, 99-103, 117-121, 112-126, 126-156 |
| core/src/fourier/goertzel.cc | Fourier: 7-29, 15-16, 56, 25-28, 62-66, 32-46, 41-46, 49-74, 54-72 |
| core/src/fourier/hadamard.cc | Fourier: 7-29, 12-26, 14-23, 16-22, 18-21, 31-45 |
| core/src/fourier/tod.cc | Fourier: 34-49, 51-74, 56-68, 70-73, 76-97, 105-130, 126-127, 137-153, 163-177, 179-207, 219-241, 227-239, 232-237, 242-265, 504-512, 510-511, 520-528, 526-527 |
| core/src/geometrie.cc | Dsp: 97-100; Geometrie: 33-49, 53-64, 66-72, 76-82, 84-94, 102-106, 109-142, 145-148, 151-157, 167-172, 174-183, 228-235 |
| core/src/kalman/kalman.cc | Kalman: 12-33, 23-31, 25, 26, 35-55, 57-76, 104-122, 124-198, 124-216, 124-147, 199-218, 126-134, 128-133, 140-147, 169-182, 189-195, 205-216, 343-451, 423-426, 456-459, 462-479, 486-522, 491-494, 493-494, 499-500, 497-500, 503, 505-511, 526-557, 571-594, 597-602, 607-610, 637-651 |
| core/src/kalman/modele-imu.cc | Kalman: 122-134, 130-134, 137-147, 137-162, 148-152, 153-157, 158-162, 164-180, 171-180, 187-205, 258-277, 279-327 |
| core/src/moniteur-cpu.cc | Util: 58-75, 77-78, 79-94, 79-82, 80-135, 82, 94-135, 135-166, 147-162, 222-231 |
| core/src/reechan/cic.cc | Reechan: 45-69, 55-66, 57-65, 71-100, 75-85, 108-121, 110-124, 217-229, 118-215, 118-215, 232-282, 139-140, 244, 256, 210, 217-229, 232-282, 244-264, 253, 261-263, 264 |
| core/src/reechan/hb.cc | Conception: 6-90, 39-54, 68-77 |
| core/src/reechan/itrp.cc | Itrp: 16-22, 24-39, 41-54, 62-77, 83-86, 112-132, 125-128, 161-183, 167-181, 175-176, 178-179, 199-261, 216, 218-219, 221-227, 228-232, 233, 234, 243-259, 254-256, 266-277, 293-301, 303-312, 314-320 |
| core/src/reechan/polyphase.cc | Reechan: 16-40, 43-47, 57-62, 64-69, 69-138, 71-138, 83-137, 156-161, 163-169, 171-235, 183-234, 221-227, 245-251, 254-276, 277-332, 278-330, 286-331, 308-330, 363-369; Telecom: 363-369, 373-376 |
| core/src/reechan/ra.cc | Itrp: 14-36, 25-36, 40-80, 58-77, 64-75, 106-134, 124-128, 128-134; Reechan: 84-181, 86-98, 104-156, 138-140, 142-144, 149-150, 158-180, 165-169 |
| core/src/stats.cc | Stats: 18-41, 32-39, 45-112, 59-66, 68-87, 68-108, 122-141, 143-223, 146, 148-176, 160-171, 210-216, 214-217 |
| core/src/tableau.cc | Conception: 515-531, 603-627, 629-653, 1135-1152, 1549-1575; Fourier: 511-526, 511-526, 1048-1079, 515-531, 537-548, 1074-1077, 629-653, 685-700, 702-711; Kalman: 1429-1447, 1429-1447, 1468-1471, 1535-1547; Tableau: 72-143, 90-102, 104-112, 114-143, 124-140, 145-178, 145-260, 486-560, 145-175, 163-166, 191-194, 241-267, 254, 263, 258-264, 456-468, 688-699, 739-751, 1170-1440, 1472-1560, 478-483, 486-560, 496-520, 496-513, 515-531, 534-540, 570-602, 822-845, 878-890, 934-950, 534-540, 543-554, 570-580, 582-592, 603-629, 631-657, 688-693, 688-722, 688-699, 270-277, 702-711, 739-744, 746-751, 790-805, 807-820, 822-845, 857-860, 1243-1378, 875-890, 934-950, 974-1008, 977-989, 985-1007, 1000-1027, 1004-1007, 1048-1082, 1066, 1079, 1074-1081, 1086-1107, 1136-1152, 1154-1157, 1159-1168, 1170-1222, 1176-1186, 1201-1210, 1187-1197, 1361-1390, 1392-1440, 1392-1413, 1436-1440, 456-468, 1415-1433, 1487-1530, 1563-1590, 1612-1625, 1563-1575, 1664-1682; Telecom: 1060, 1429-1447, 1470 |
| core/src/telecom/analogique.cc | Telecom: 19-23, 23, 59-66, 78-82, 88-98, 107-131, 155-159, 165-195, 170-187, 199-340, 209-217, 286-288, 318-327, 380-650, 382-403, 382-399, 414-436, 468-476, 514-603, 532-574, 534-573, 598-603 |
| core/src/telecom/bitstream.cc | BitStream: 47-56; Telecom: 193-204 |
| core/src/telecom/canalisation/etalement-spectre.cc | Telecom: 13-17, 19-46, 47-62, 54-60, 94-100, 102-117, 119-140, 130-131 |
| core/src/telecom/canalisation/transpo-bb.cc | Telecom: 15-20, 22-45, 55-62, 28-31, 47-53 |
| core/src/telecom/carrier-rec.cc | Telecom: 22, 23, 30-36, 48-52, 70-95, 96-103, 104-112, 113-122, 123-152, 125-133, 135-137, 155-162, 170-173, 170-203, 200-290, 203-209, 219-231, 232-254, 240-243, 311-334, 321-327, 329-332, 336-390, 350-364 |
| core/src/telecom/clock-rec.cc | Telecom: 99-106, 110-137, 110-143, 132-133, 152-316, 194-311, 208-311, 271, 285-290, 399-628, 402-408, 402-405, 413-437, 413-455, 426, 430-435, 454-462, 464-572, 486-568, 538, 554-561 |
| core/src/telecom/demod-dec.cc | Telecom: 43-63, 67-75, 77-80, 90, 107, 339, 115-120, 130-163, 165-168, 170-187, 174, 179-182, 199, 50, 205-227, 240-251, 256-311, 287, 314-499, 324-328, 324-342, 338-342, 374-492, 381-382, 398-430, 435-470, 447-453 |
| core/src/telecom/demod-ndec.cc | Telecom: 18-40, 43-47, 165-168, 49-158, 55-158, 165-168, 170-356, 188-206, 248-273, 258, 280-313, 284, 307, 286-289, 300-303, 323-329, 331-351 |
| core/src/telecom/ecp.cc | Telecom: 19-27, 28-81, 35, 50-63 |
| core/src/telecom/egalisation.cc | Telecom: 29-49, 52-98, 108-171, 116-117, 163-164, 116-166, 126-133, 126-166, 126, 131, 127-133, 139, 144, 146, 152, 154, 184-212, 218-232 |
| core/src/telecom/emetteur.cc | Telecom: 14-42, 19-26, 32-42, 44-105 |
| core/src/telecom/limits.cc | Telecom: 7-10 |
| core/src/telecom/modulateur.cc | Telecom: 58-135, 108-118, 132-144, 147-150, 153-240, 160-189, 176-181, 184-187 |
| core/src/telecom/modulations.cc | Telecom: 23-36, 44-53, 55-58, 110-121, 486-490, 141-156, 165-170, 165-206, 165-170, 486-490, 220-224, 243-253, 243-253, 486-490, 305, 369, 518, 683, 317-323, 337-342, 375-398, 444-450, 467-468, 475-480, 504-545, 561-566, 691-706, 719-736, 797-856, 858-864, 874-889, 881, 886, 893-897, 939-1020, 940-951, 958-960, 982, 962-963, 962-971, 966-969, 973-976 |
| core/src/telecom/prbs.cc | Lfsr: whole file |
| core/src/telecom/recepteur.cc | Telecom: 30-95, 36-38, 59, 86, 45, 82, 112-130, 126-127, 132-164, 186-196, 213-215, 378-386, 197-199, 232-263, 291-293, 329-332, 205-214, 223-232, 388-406, 404-647, 442-451, 444-451, 626-631, 772-775, 456-640, 456-641, 458-470, 502-508, 533-535, 559-600, 653-776, 664, 667-669, 669-704, 681-695 |
| core/src/telecom/simulation.cc | Telecom: 22-27, 45-53, 71-88, 90-118, 92-121, 101-105, 141-146 |
| core/src/telecom/snr.cc | Telecom: 9-23, 18-22, 23-42, 30-34, 37-38 |
| core/src/telecom/telecom.cc | Telecom: 39-96, 43-45, 55-60, 62-67, 99-133, 107-130, 109-115, 176-183 |
| core/src/temps.cc | Temps: 13-19, 22, 27, 32, 37, 39-43, 45-49, 51-59, 56-59, 61-64, 66-89, 81-84, 97-115, 117-125, 125-145, 127-130, 127-144, 137-140, 141-144, 146-150, 152-159, 163-166, 168-171, 173-176, 178-183, 185-188, 190-195, 197-204, 206-210, 213-229, 238-255, 248-250, 270-272, 418, 267-281, 279-286, 289-298, 300-315, 317-320, 324, 337-347, 348-352, 359-364, 365-369, 371-384, 374-383, 387-392, 394-397, 400-408, 410-413, 415-420, 418, 418, 248-250, 422-430, 432-447, 435-440, 442, 443, 444, 449-465, 463-496, 501-559, 529-549, 554-556, 561, 577-597, 563-567, 565-590, 565, 573, 586-590, 570-575 |
| core/src/tsd.cc | BitStream: 173, 410-496, 410-421, 446-454, 417-418, 451-452, 423-427, 440-444, 429-437; Fourier: 287-291, 519-526; Signaux: 179-183, 179-297, 545-640, 185-199, 190-196, 201-205, 207-213, 217-235, 224-233, 226-230, 237-240, 242-245, 247-258, 261-272, 263-269, 274-278, 276, 283, 280-285, 287-291, 289, 552-557, 558-569, 584-588, 586-588, 592-595, 646-649, 597-601, 603-615, 609-613, 619-637, 641-644; Tampon: 307-371, 309-311, 313-317, 319-324, 331-370, 345-369; Util: 497-516, 503-513, 519-526, 529-535, 531-534, 538-544, 540-543 |
| core/src/vue/axes.cc | Vue: 71-102, 1278-1462, 71-89, 91-102, 105-127, 105-209, 129-140, 653-962, 129-133, 135-139, 142-153, 155-166, 168-177, 185-209, 272-345, 354-466, 502-576, 1567-1625, 286-310, 312-315, 354-466, 383-411, 413-426, 436-456, 457-465, 502-541, 566-568, 730-790, 948-962, 807, 880-941, 887-890, 908-911, 918-919, 934-935, 1100-1107, 1278-1411, 1288-1330, 1311-1318, 1320-1329, 1378-1400, 1427, 1431, 1433-1434, 1442, 1567-1622 |
| core/src/vue/canva.cc | Vue: 27-92, 34-91, 36-55, 38-42, 46-47, 51, 51-52, 59-70, 73-90, 95-119, 627-636, 121-216, 1405-1470, 122-131, 123-300, 415-500, 1421-1474, 123-131, 133-145, 133-159, 147-159, 161-172, 175-178, 191-194, 196-203, 1466-1472, 196-199, 204-211, 1445-1464, 219-252, 221-225, 255-300, 415-426, 428-447, 450-477, 480-505, 520-532, 534-544, 598-613, 866-885, 725-755, 732-740, 737-738, 739, 743, 745, 746-753, 746-748, 756-821, 759, 774, 779-815, 779, 782-789, 790-796, 797-804, 805-811, 822-846, 825-827, 834-842, 834-836, 866-885, 876, 879-880, 879-881, 900-1052, 922-927, 929-950, 929-947, 961-990, 967-983, 990-1052, 1000-1007, 1003-1004, 1023-1028, 1031-1036, 1188-1216, 1421-1443 |
| core/src/vue/cmaps.cc | Vue: 10, 12-42, 26-41, 37-41, 45-61, 64-77, 79-100, 102-113, 115-126, 128-141, 145-184, 186-192, 200-221 |
| core/src/vue/figure.cc | Vue: 17-26, 17-53, 535-594, 1163-1178, 34-37, 38-41, 42-45, 46-49, 50-53, 57-80, 1186-1361, 57-80, 132-160, 138, 143, 175-194, 194, 231-386, 231-457, 1122-1136, 235-323, 235-324, 239-247, 252-253, 252-285, 255-285, 255-262, 262-263, 263-271, 287-288, 294-302, 326-349, 358-370, 371-383, 387-442, 444-453, 513-860, 519-860, 527, 535-594, 538-548, 550-556, 598-632, 609-619, 620-628, 632, 739, 755, 789, 801, 816, 856, 635-793, 648-683, 652-661, 655-663, 659-665, 689, 692-713, 692, 704-712, 715-716, 725-744, 732-733, 737, 774, 746-757, 754, 772-791, 795-804, 805-820, 840-859, 960-963, 960-1114, 1394-1420, 978-983, 1040-1043, 998-1028, 1011-1024, 1050-1055, 1058-1084, 1061-1066, 1071, 1080-1081, 1104, 1086-1089, 1099-1114, 1122-1127, 1130-1134, 1141-1156, 1175-1178, 1202-1215, 1230-1361, 1238-1246, 1243-1244, 1286-1357, 1289-1315, 1320-1322, 1339-1341, 1355-1357, 1331-1337, 1345-1353, 1394-1420 |
| core/src/vue/image-bmp.cc | Vue: 20-23, 21-24, 27-55, 81-308, 28-48, 33-40, 59-66, 68-74, 81-185, 113-146, 164-176, 188-308, 192-195, 201, 213-223, 225-226, 337-349, 347-348, 995-996, 1028-1029, 1038-1039, 1140-1141, 358-420, 423-459, 487-592, 494-504, 527-536, 506-590, 570-590, 602-610, 625-630, 641-654, 649-651, 659-662, 659-667, 752-755, 664-669, 671-699, 689-690, 745-747, 860-866, 890-895, 692-695, 701-750, 716-750, 757-769, 766-767, 773-774, 806-808, 771-775, 777-809, 779, 811-831, 840-872, 875-901, 950-978, 952-963, 964-974, 980-983, 985-999, 1021-1041, 1055-1060, 1066-1121, 1070-1087, 1090-1120, 1096-1116, 1110-1115, 1112-1114, 1124-1145, 1152-1158, 1160-1177, 1190-1289, 1202-1213, 1214-1217, 1218-1221, 1224-1271, 1235-1269, 1273-1284, 1288-1308, 1288-1313, 1294-1307, 1320-1337, 1339-1343, 1352-1360 |
| core/src/vue/image.cc | Vue: 20-45, 27-44, 47-55, 63-69, 65-68, 77-80, 82-95, 97-103, 105-109, 110-114, 137-143, 145-153, 160-260, 165-166, 176-177, 190-224, 194-213, 239-257 |
| core/src/vue/unites.cc | Vue: 14-18, 20-59, 22-48, 62-73, 67-68, 76-80, 85-122, 125-156, 131-146 |
| core/src/wav.cc | Wav: 15-64, 66-81, 77-78, 83-88, 90-95, 97-114, 115-121, 127-194, 151, 158-194, 160-193, 170, 194, 176, 194, 213-236, 225, 481, 225, 455, 481, 230, 244, 238-250, 330-337, 339-349, 351-356, 363-392, 394-434, 401, 403-428, 420-421, 436-444, 446-465, 455, 456-463, 462, 474, 467-485, 471-475 |

## What is not modelled
* Rounding of float arithmetic outside the properties named above; NaN and infinities; denormals.
* Graphics (`vue/*`), GUI, plots, logging, command-line applications (`apps/*`), tests, examples, Eigen internals, the
  STL, files and devices other than the byte content of WAV files.
* Allocation failures, `int` overflow of sizes, and data races (the library has no shared-state concurrency besides the plots).
* Source files not listed in the table above.

## Trusted base
* Lean 4.33.0 kernel (and Mathlib as a library of kernel-checked proofs).
* Axioms: at most `propext`, `Classical.choice`, `Quot.sound`. `tools/axioms.py` prints the axioms of each theorem of the
  manifest; last run: see the counts below. No axiom is added, no compiled evaluation is used (`decide` and `rfl`-style
  evaluation run in the kernel).
* The faithfulness of the hand transcription of the C++ into Lean (each definition cites the lines it models), including
  the semantics given to C++ constructs and to the macro keywords of the library (`si`, `pour`, `soit`, ...).
* The English reading of the specifications.

Axiom counts over the 1230 manifest theorems (run of `tools/axioms.py`): none 11; `propext` 43; `propext, Quot.sound` 57;
`propext, Classical.choice, Quot.sound` 1119.
