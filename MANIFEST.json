{
 "claims": [
  {
   "property": "C01",
   "status": "proved",
   "theorems": [
    "Verif.BitStream.C01_histoire_fidele"
   ],
   "note": "All operation histories, by refinement of the packed buffer to a list of booleans."
  },
  {
   "property": "C02",
   "status": "proved",
   "theorems": [
    "Verif.BitStream.C02_pop_fifo",
    "Verif.BitStream.C02_u32_round_trip"
   ],
   "note": "FIFO reading and 32-bit round trip at any alignment."
  },
  {
   "property": "C03",
   "status": "proved",
   "theorems": [
    "Verif.BitStream.C03_lecture_bornee",
    "Verif.BitStream.C03_ecriture_bornee"
   ],
   "note": "Reads and writes with any index: inside the buffer or error."
  },
  {
   "property": "C04",
   "status": "partial",
   "theorems": [
    "Verif.BitStream.C04_refute_longueur",
    "Verif.BitStream.C04_refute_troncature",
    "Verif.BitStream.C04_egalite_octets_partial",
    "Verif.BitStream.C04_egalite_meme_longueur_partial"
   ],
   "note": "The property is false of the code (two counter-examples proved: lengths ignored, stale bits after truncation); it is proved for streams of equal length built by pushes."
  },
  {
   "property": "C05",
   "status": "partial",
   "theorems": [
    "Verif.BitStream.C05_constantes",
    "Verif.BitStream.C05_altern_longueur",
    "Verif.BitStream.C05_altern_refute",
    "Verif.BitStream.C05_resize_refute"
   ],
   "note": "zéros/uns/BitStream(n) proved; altern(n) has n+2 bits (exact length proved, property refuted) and resize leaves stale bits (refuted)."
  },
  {
   "property": "C06",
   "status": "proved",
   "theorems": [
    "Verif.BitStream.C06_hamming_valeur",
    "Verif.BitStream.C06_hamming_metrique"
   ],
   "note": ""
  },
  {
   "property": "C07",
   "status": "proved",
   "theorems": [
    "Verif.Telecom.C07_aller_retour",
    "Verif.Telecom.C07_retour_aller",
    "Verif.Telecom.C07_rejet"
   ],
   "note": ""
  },
  {
   "property": "C08",
   "status": "partial",
   "theorems": [
    "Verif.Telecom.C08_comportement_exact",
    "Verif.Telecom.C08_spec_aller_retour",
    "Verif.Telecom.C08_refute",
    "Verif.Telecom.C08_interieur_partial"
   ],
   "note": "The round trip is false of the code (refuted: spurious leading 0 and last bit lost); the exact behaviour is proved for all inputs, and the documented decoder is shown to round-trip."
  },
  {
   "property": "C09",
   "status": "proved",
   "theorems": [
    "Verif.Lfsr.C09_sortie_recurrence",
    "Verif.Lfsr.C09_decoupage",
    "Verif.Lfsr.C09_reversible"
   ],
   "note": ""
  },
  {
   "property": "C10",
   "status": "proved",
   "theorems": [
    "Verif.Lfsr.C10_periode_maximale",
    "Verif.Lfsr.C10_code_mls",
    "Verif.Lfsr.C10_rejet"
   ],
   "note": "Maximal period for every supported length, by kernel evaluation of the order of the companion matrix, and rejection of all other lengths."
  },
  {
   "property": "C11",
   "status": "partial",
   "theorems": [
    "Verif.Lfsr.C11_auto_synchronisation",
    "Verif.Lfsr.C11_hypotheses",
    "Verif.Lfsr.C11_refute_histoire_quelconque"
   ],
   "note": "Proved after configure/reset/loss of lock; the statement for arbitrary histories is refuted (false lock)."
  },
  {
   "property": "C12",
   "status": "proved",
   "theorems": [
    "Verif.Lfsr.C12_compte_exact",
    "Verif.Lfsr.C12_lis_etat",
    "Verif.Lfsr.C12_lis_etat_deverrouille",
    "Verif.Lfsr.C12_perte"
   ],
   "note": ""
  },
  {
   "property": "C13",
   "status": "proved",
   "theorems": [
    "Verif.Temps.C13_validite",
    "Verif.Temps.C13_aller_retour",
    "Verif.Temps.C13_retour_aller",
    "Verif.Temps.C13_date_par_iteration",
    "Verif.Temps.C13_hors_ere",
    "Verif.Temps.C13_avant_ere"
   ],
   "note": "Also: the date of day n is the n-th successor of 1 January 1; behaviour outside years 1..9999 shown wrong (C13_hors_ere, C13_avant_ere)."
  },
  {
   "property": "C14",
   "status": "proved",
   "theorems": [
    "Verif.Temps.C14_ordre",
    "Verif.Temps.C14_instants",
    "Verif.Temps.C14_lendemain",
    "Verif.Temps.C14_origine"
   ],
   "note": ""
  },
  {
   "property": "C15",
   "status": "proved",
   "theorems": [
    "Verif.Temps.C15_validite_heure",
    "Verif.Temps.C15_aller_retour",
    "Verif.Temps.C15_retour_aller",
    "Verif.Temps.C15_microsecondes",
    "Verif.Temps.C15_heure_pleine",
    "Verif.Temps.C15_epoques"
   ],
   "note": "The double products are shown exact (53-bit rounding model)."
  },
  {
   "property": "C16",
   "status": "partial",
   "theorems": [
    "Verif.Temps.C16_vers_GPS",
    "Verif.Temps.C16_aller_retour",
    "Verif.Temps.C16_retour_aller",
    "Verif.Temps.C16_vers_GPS_us_partial",
    "Verif.Temps.C16_vers_GPS_us_refute",
    "Verif.Temps.C16_avant_epoque_refute",
    "Verif.Temps.C16_debordement_2048"
   ],
   "note": "Week/second round trips proved for every instant from the GPS epoch to January 2048 with double rounding modelled; refuted outside: negative seconds before the epoch, 32-bit overflow from week 3551, and vers_GPS_us may lose one microsecond (exact or one less proved)."
  },
  {
   "property": "C17",
   "status": "partial",
   "theorems": [
    "Verif.Tampon.C17_paquets",
    "Verif.Tampon.C17_sans_perte",
    "Verif.Tampon.C17_reconfigure_partial",
    "Verif.Tampon.C17_reconfigure_refute",
    "Verif.Tampon.C17_reconfigure_agrandi_refute",
    "Verif.Tampon.C17_taille_nulle_refute"
   ],
   "note": "Proved for every packet size >= 1 and every chunking of a configured buffer (incl. clean restart when the size is unchanged); refuted after reconfiguration to another size and for size 0."
  },
  {
   "property": "C18",
   "status": "proved",
   "theorems": [
    "Verif.Filtre.C18_rif",
    "Verif.Filtre.C18_decimateur",
    "Verif.Filtre.C18_rii",
    "Verif.Filtre.C18_sois",
    "Verif.Filtre.C18_lexp",
    "Verif.Filtre.C18_dc",
    "Verif.Filtre.C18_premier_ordre",
    "Verif.Filtre.C18_moyenne",
    "Verif.Filtre.C18_retard",
    "Verif.Filtre.C18_chaine"
   ],
   "note": "FIR, IIR (denominator of degree >= 1), SOS, chain of SOS, first order, delay, moving average, exponential, DC, decimator; no algebra on samples."
  },
  {
   "property": "C19",
   "status": "proved",
   "theorems": [
    "Verif.Filtre.C19_convolution",
    "Verif.Filtre.C19_sans_coefs"
   ],
   "note": "Over every commutative semiring, every cutting; empty coefficient list is rejected."
  },
  {
   "property": "C20",
   "status": "partial",
   "theorems": [
    "Verif.Filtre.C20_equation",
    "Verif.Filtre.C20_denominateur_constant_refute"
   ],
   "note": "Proved over every field for denominators of degree >= 1; refuted for constant denominators (modulo by zero)."
  },
  {
   "property": "C21",
   "status": "proved",
   "theorems": [
    "Verif.Filtre.C21_retard"
   ],
   "note": ""
  },
  {
   "property": "C22",
   "status": "proved",
   "theorems": [
    "Verif.Filtre.C22_un_sur_R"
   ],
   "note": ""
  },
  {
   "property": "C23",
   "status": "proved",
   "theorems": [
    "Verif.Filtre.C23_moyenne"
   ],
   "note": "Over every field (exact arithmetic)."
  },
  {
   "property": "C24",
   "status": "partial",
   "theorems": [
    "Verif.Reechan.C24_decim_blocs",
    "Verif.Reechan.C24_decim_partial",
    "Verif.Reechan.C24_decim_miroir",
    "Verif.Reechan.C24_decim_refute",
    "Verif.Reechan.C24_decim_sans_coefs",
    "Verif.Reechan.C24_demi_bande_partial",
    "Verif.Reechan.C24_demi_bande_refute",
    "Verif.Reechan.C24_ups_blocs",
    "Verif.Reechan.C24_ups_miroir",
    "Verif.Reechan.C24_ups_partial",
    "Verif.Reechan.C24_ups_refute",
    "Verif.Reechan.C24_ups_sans_coefs",
    "Verif.Reechan.C24_ups_delai"
   ],
   "note": "Every cutting proved (bit-exact, no algebra); equality with filter-then-decimate / stuff-then-filter proved for symmetric filters (half-band: 4q+3 coefficients); the exact behaviour for every filter is convolution with the reversed coefficients, so the property is refuted for non-symmetric filters and for half-band filters of other lengths. Empty filters rejected. Announced interpolator delay proved."
  },
  {
   "property": "C25",
   "status": "proved",
   "theorems": [
    "Verif.Reechan.C25_polyphase",
    "Verif.Reechan.C25_vide"
   ],
   "note": ""
  },
  {
   "property": "C26",
   "status": "proved",
   "theorems": [
    "Verif.Hadamard.C26_matrice",
    "Verif.Hadamard.C26_orthogonale",
    "Verif.Hadamard.C26_transformee",
    "Verif.Hadamard.C26_involution",
    "Verif.Hadamard.C26_lineaire",
    "Verif.Hadamard.C26_autres_longueurs",
    "Verif.Hadamard.C26_matrice_zero"
   ],
   "note": "Exact arithmetic in any field where 2 is nonzero; lengths that are not powers of two are shown rejected, and hadamard_matrice(0) is shown never to return (the recursion has no base case there)."
  },
  {
   "property": "C27",
   "status": "proved",
   "theorems": [
    "Verif.Fourier.C27_plan",
    "Verif.Fourier.C27_fft",
    "Verif.Fourier.C27_ifft",
    "Verif.Fourier.C27_inverse",
    "Verif.Fourier.C27_vide",
    "Verif.Fourier.C27_direction_refute",
    "Verif.Fourier.C27_parseval",
    "Verif.Fourier.C27_lineaire"
   ],
   "note": "All lengths 1..2^29 (radix-2, chirp for odd sizes, recursion for the others), after any history of plan calls, over exact complex arithmetic; inverse, Parseval, linearity. Refuted corner: a plan configured as inverse and called with plan->step(x) computes the direct transform (C27_direction_refute)."
  },
  {
   "property": "C28",
   "status": "proved",
   "theorems": [
    "Verif.Stats.C28_reel",
    "Verif.Stats.C28_reel_court",
    "Verif.Stats.C28_reflexion",
    "Verif.Stats.C28_stable",
    "Verif.Stats.C28_general",
    "Verif.Stats.C28_rejets"
   ],
   "note": "Exact field arithmetic; levinson and levinson_reel for every order under the classical condition (leading minors non-null, for which the pivots are proved not to vanish). Also: reflection coefficient below 1 and all roots of the predictor inside the unit circle for positive definite autocorrelations."
  },
  {
   "property": "C29",
   "status": "proved",
   "theorems": [
    "Verif.Geometrie.C29_rotation",
    "Verif.Geometrie.C29_orthogonale",
    "Verif.Geometrie.C29_inverse",
    "Verif.Geometrie.C29_norme",
    "Verif.Geometrie.C29_creation",
    "Verif.Geometrie.C29_axe",
    "Verif.Geometrie.C29_matrice",
    "Verif.Geometrie.C29_retour",
    "Verif.Geometrie.C29_mat_refute",
    "Verif.Geometrie.C29_oppose"
   ],
   "note": "Exact real arithmetic. Beyond the statement: axis/angle meaning (C29_axe), norm preservation, q and -q the same rotation; C29_mat_refute shows that the separate 4x4 mat() does not give the identity for the identity quaternion."
  },
  {
   "property": "C30",
   "status": "partial",
   "theorems": [
    "Verif.FracRat.C30_horner",
    "Verif.FracRat.C30_coefs",
    "Verif.FracRat.C30_somme",
    "Verif.FracRat.C30_oppose",
    "Verif.FracRat.C30_difference",
    "Verif.FracRat.C30_scalaire",
    "Verif.FracRat.C30_produit",
    "Verif.FracRat.C30_produit_mixte_refute",
    "Verif.FracRat.C30_puissance",
    "Verif.FracRat.C30_decalage",
    "Verif.FracRat.C30_decalage_racines_refute"
   ],
   "note": "Proved for every polynomial in coefficient or root form (horner, conversion, +, -, scalar operations, powers, products), except products root-form * coefficient-form, which are refuted (off by exactly 1), and << in root form (refuted). Evaluation point in any field with a conversion from the coefficient field; exact arithmetic."
  },
  {
   "property": "C31",
   "status": "partial",
   "theorems": [
    "Verif.FracRat.C31_produit",
    "Verif.FracRat.C31_somme",
    "Verif.FracRat.C31_scalaire",
    "Verif.FracRat.C31_difference",
    "Verif.FracRat.C31_simplifie",
    "Verif.FracRat.C31_quotient",
    "Verif.FracRat.C31_puissance",
    "Verif.FracRat.C31_monomes",
    "Verif.FracRat.C31_rif",
    "Verif.FracRat.C31_rif_aller_retour",
    "Verif.FracRat.C31_coefs_rif",
    "Verif.FracRat.C31_inversion",
    "Verif.FracRat.C31_rii",
    "Verif.FracRat.C31_rii_exact",
    "Verif.FracRat.C31_rii_refute",
    "Verif.FracRat.C31_coefs_rif_refute",
    "Verif.FracRat.C31_zPower"
   ],
   "note": "Sum, difference, product, quotient, inverse, powers, scalar operations, simplification, rif, z->1/z and rii proved when the factors avoid the root*coefficient product and numbers of coefficients differ by at most one; refuted otherwise (operator precedence in eval_inv_z), coefs_rif forgets delays (refuted), z_power(n<0) accesses out of bounds."
  },
  {
   "property": "C32",
   "status": "partial",
   "theorems": [
    "Verif.Itrp.C32_step",
    "Verif.Itrp.C32_lagrange",
    "Verif.Itrp.C32_lineaire",
    "Verif.Itrp.C32_lineaire_affine",
    "Verif.Itrp.C32_cspline_noeuds",
    "Verif.Itrp.C32_cspline_partial",
    "Verif.Itrp.C32_cspline_refute",
    "Verif.Itrp.C32_cspline_rejets"
   ],
   "note": "Lagrange (all degrees, all polynomials) and linear proved exactly; the spline interpolator quantises the delay to 1/256, so that affine (and quadratic) signals are reproduced at the quantised delay only (C32_cspline_partial, witness C32_cspline_refute). The windowed sinc interpolator is the subject of C153."
  },
  {
   "property": "C33",
   "status": "partial",
   "theorems": [
    "Verif.Util.C33_vconcat",
    "Verif.Util.C33_sousvec",
    "Verif.Util.C33_rotation_partial",
    "Verif.Util.C33_rotation_refute",
    "Verif.Util.C33_diff",
    "Verif.Util.C33_cumsum",
    "Verif.Util.C33_diff_cumsum",
    "Verif.Util.C33_sousech",
    "Verif.Util.C33_surech",
    "Verif.Util.C33_sousech_surech",
    "Verif.Util.C33_pad_zeros",
    "Verif.Util.C33_trouve",
    "Verif.Util.C33_trouve_premier",
    "Verif.Util.C33_trouve_dernier_partial",
    "Verif.Util.C33_trouve_dernier_refute",
    "Verif.Util.C33_max_local",
    "Verif.Util.C33_intervalle",
    "Verif.Util.C33_linspace"
   ],
   "note": "Proved for every utility except rotation_vec with d < -n (negative index, refuted) and trouve_dernier (refuted: off by one / throws; exact behaviour proved on the complement)."
  },
  {
   "property": "C34",
   "status": "partial",
   "theorems": [
    "Verif.Util.C34_modulo",
    "Verif.Util.C34_modulo_pi",
    "Verif.Util.C34_deplie",
    "Verif.Util.C34_deplie_vide_refute",
    "Verif.Util.C34_deplie_periode_refute",
    "Verif.Util.C34_modulo_double_refute",
    "Verif.Util.C34_modulo_pm_double_refute"
   ],
   "note": "Proved in exact arithmetic over any ordered field with floor (modulo, modulo_2pi, modulo_pi, déplie with period 2 pi). Refuted: déplie of an empty vector reads out of bounds, déplie with another period, and two double-precision inputs whose rounded result leaves the canonical interval."
  },
  {
   "property": "C35",
   "status": "partial",
   "theorems": [
    "Wav.C35_flottant",
    "Wav.C35_pcm16",
    "Wav.C35_conversions",
    "Wav.C35_enregistre",
    "Wav.C35_enregistre_stereo",
    "Wav.C35_decoupage_refute",
    "Wav.C35_taille_refute",
    "Wav.C35_entete_stereo_refute",
    "Wav.C35_recherche",
    "Wav.C35_recherche_refute"
   ],
   "note": "Proved for every history of writes whose calls store whole frames and under 2^29 bytes of data, for float and 16-bit files, any read chunking, and after redemarre. Refuted otherwise: calls that store a partial frame lose samples in the header (C35_decoupage_refute), 8*data_size overflows from 512 MB on (C35_taille_refute), stereo headers have wrong byte rates (C35_entete_stereo_refute), recherche is wrong on float files (C35_recherche_refute)."
  },
  {
   "property": "C36",
   "status": "partial",
   "theorems": [
    "Tableau.C36_isolation",
    "Tableau.C36_copie_independante",
    "Tableau.C36_segment_alias",
    "Tableau.C36_segment_bornes",
    "Tableau.C36_segment_negatif_refute",
    "Tableau.C36_pose_exact",
    "Tableau.C36_pose_vecteur",
    "Tableau.C36_versSegment",
    "Tableau.C36_affecte_alias_refute",
    "Tableau.C36_affecte_suite_refute",
    "Tableau.C36_taille_refute",
    "Tableau.C36_recouvrement_refute",
    "Tableau.C36_resize_refute",
    "Tableau.C36_versCol",
    "Tableau.C36_col_alias",
    "Tableau.C36_col_borne_refute",
    "Tableau.C36_bloc_alias",
    "Tableau.C36_versBloc",
    "Tableau.C36_bloc_element_refute",
    "Tableau.C36_bloc_surPlace_refute",
    "Tableau.C36_bloc_borne_refute",
    "Tableau.C36_surPlace"
   ],
   "note": "Proved for every program of creations, copies, views, assignments, element writes, in-place operations and resizes: isolation of disjoint memory, independence of copies, segments / columns / blocks as aliases of their parent, exact effect of element writes, of assignments to segments, columns and blocks. Refuted (the English claim is false of the code) with witnesses for: move assignment of a segment to an ordinary variable (aliases), mismatched sizes (silently ignored), overlapping segment copies (undefined), resize under a view, negative positions, col(cols()), element access and arithmetic on blocks, block bounds. Not modelled: conversion between scalar types, ranks above 2, sharing of the untyped handle."
  },
  {
   "property": "C37",
   "status": "partial",
   "theorems": [
    "Tableau.C37_egal",
    "Tableau.C37_equivalence",
    "Tableau.C37_uns",
    "Tableau.C37_total_invariant",
    "Tableau.C37_total_concat_partial",
    "Tableau.C37_vide_refute",
    "Tableau.C37_congruence_refute"
   ],
   "note": "Equality of dimensions characterised, equivalence, invariance of total() proved; total() multiplicative proved for non-empty lists, refuted for the empty one; concatenation is not a congruence (refuted)."
  },
  {
   "property": "C38",
   "status": "proved",
   "theorems": [
    "Verif.Telecom.C38_barker"
   ],
   "note": "All integers n: the six offered lengths have unit sidelobes at every shift, all other n are rejected."
  },
  {
   "property": "C39",
   "status": "partial",
   "theorems": [
    "Verif.Reechan.C39_decim_partial",
    "Verif.Reechan.C39_blocs_refute",
    "Verif.Reechan.C39_bloc_court_refute",
    "Verif.Reechan.C39_interp_partial",
    "Verif.Reechan.C39_interp_blocs_refute"
   ],
   "note": "First block proved over every commutative group (hence wrapping integers), both directions; block invariance is refuted (integrators restart), blocks shorter than R read index -1 (refuted). The final float gain is not modelled."
  },
  {
   "property": "C40",
   "status": "proved",
   "theorems": [
    "Verif.Telecom.C40_decision_optimale",
    "Verif.Telecom.C40_marge_de_bruit",
    "Verif.Telecom.C40_bpsk"
   ],
   "note": "Over every ordered field (exact arithmetic)."
  },
  {
   "property": "C41",
   "status": "proved",
   "theorems": [
    "Verif.BitStream.C41_chaine",
    "Verif.BitStream.C41_vecteur"
   ],
   "note": ""
  },
  {
   "property": "C42",
   "status": "proved",
   "theorems": [
    "Verif.Lfsr.C42_generateur_defaut"
   ],
   "note": ""
  },
  {
   "property": "C43",
   "status": "proved",
   "theorems": [
    "Verif.Telecom.C43_chaine_sans_bruit",
    "Verif.Telecom.C43_decision_dure"
   ],
   "note": "Over every ordered field (exact arithmetic)."
  },
  {
   "property": "C44",
   "status": "partial",
   "theorems": [
    "Verif.Filtre.C44_sur_place",
    "Verif.Filtre.C44_sur_place_rii",
    "Verif.Filtre.C44_retard_refute",
    "Verif.Filtre.C44_dc_refute"
   ],
   "note": "Proved for FIR, IIR, SOS, first-order, moving average, exponential; false (refuted, exact behaviour proved) for the delay line and the DC blocker."
  },
  {
   "property": "C45",
   "status": "partial",
   "theorems": [
    "Verif.Filtre.C45_forme1",
    "Verif.Filtre.C45_forme2",
    "Verif.Filtre.C45_constante_forme1",
    "Verif.Filtre.C45_constante_forme2_refute",
    "Verif.Filtre.C45_premier_ordre",
    "Verif.Filtre.C45_chaine_gain",
    "Verif.Filtre.C45_chaine_impaire"
   ],
   "note": "Form I fully proved; form II satisfies the equation from time 2 on, and its constant-signal behaviour is refuted (the initial state is not the steady state)."
  },
  {
   "property": "C46",
   "status": "proved",
   "theorems": [
    "Verif.Filtre.C46_equation",
    "Verif.Filtre.C46_bornes"
   ],
   "note": "Exact arithmetic."
  },
  {
   "property": "C47",
   "status": "proved",
   "theorems": [
    "Verif.Filtre.C47_equation",
    "Verif.Filtre.C47_constante"
   ],
   "note": "Exact arithmetic."
  },
  {
   "property": "C48",
   "status": "proved",
   "theorems": [
    "Verif.Fourier.C48_ccorr",
    "Verif.Fourier.C48_dimensions",
    "Verif.Fourier.C48_xcorrb",
    "Verif.Fourier.C48_defaut",
    "Verif.Fourier.C48_xcorr",
    "Verif.Fourier.C48_grand",
    "Verif.Fourier.C48_grand_refute",
    "Verif.Fourier.C48_rejets",
    "Verif.Fourier.C48_tailles_refute"
   ],
   "note": "The statement as worded, with the defects of the code that it lists (theorems _refute), is entirely proved, over exact complex arithmetic."
  },
  {
   "property": "C49",
   "status": "partial",
   "theorems": [
    "Verif.Fourier.C49_csym",
    "Verif.Fourier.C49_csym_un_refute",
    "Verif.Fourier.C49_rfft",
    "Verif.Fourier.C49_plan",
    "Verif.Fourier.C49_accord"
   ],
   "note": "rfft proved for all lengths 1..2^29 and plan histories; csym_forçage proved for n >= 2 and refuted for n = 1 (out-of-bounds access)."
  },
  {
   "property": "C50",
   "status": "partial",
   "theorems": [
    "Verif.Fourier.C50_rif",
    "Verif.Fourier.C50_decoupage",
    "Verif.Fourier.C50_complexe_refute",
    "Verif.Fourier.C50_long_refute"
   ],
   "note": "Proved for 1..512 real coefficients, real input, every cutting; refuted for complex input (imaginary part dropped) and for more than 512 coefficients (out-of-bounds view on the first block)."
  },
  {
   "property": "C51",
   "status": "partial",
   "theorems": [
    "Verif.Fourier.C51_delais",
    "Verif.Fourier.C51_grand_refute"
   ],
   "note": "Proved for |d| <= n; for |d| > n the code uses negative sizes (refuted)."
  },
  {
   "property": "C52",
   "status": "partial",
   "theorems": [
    "Verif.FracRat.C52_rii",
    "Verif.FracRat.C52_rii_refute",
    "Verif.FracRat.C52_gain_refute"
   ],
   "note": "Proved when the numbers of coefficients differ by at most one and are not both 1; refuted otherwise (eval_inv_z precedence; modulo 0 for one-coefficient denominators)."
  },
  {
   "property": "C53",
   "status": "partial",
   "theorems": [
    "Verif.Geometrie.C53_rotation",
    "Verif.Geometrie.C53_angles",
    "Verif.Geometrie.C53_matrice",
    "Verif.Geometrie.C53_quaternion",
    "Verif.Geometrie.C53_roulis_refute"
   ],
   "note": "Matrix path proved in both directions (outside gimbal lock). The last clause is false of the code: Cardan(Quaternion) uses the convention of the inverse rotation (C53_quaternion), so every pure roll changes sign through the quaternion path (C53_roulis_refute)."
  },
  {
   "property": "C54",
   "status": "partial",
   "theorems": [
    "Verif.Stats.C54_covariance",
    "Verif.Stats.C54_reel",
    "Verif.Stats.C54_complexe_refute"
   ],
   "note": "Proved for real signals; for complex ones the code returns the transpose (= conjugate) of the documented matrix (C54_covariance, witness C54_complexe_refute)."
  },
  {
   "property": "C55",
   "status": "proved",
   "theorems": [
    "Verif.Stats.C55_lpc",
    "Verif.Stats.C55_ordre_nul"
   ],
   "note": "Exact arithmetic, p >= 2; p = 1 reads the autocorrelation out of bounds (C55_ordre_nul). Sizes such that the internal FFT length stays below 2^29."
  },
  {
   "property": "C56",
   "status": "proved",
   "theorems": [
    "Verif.Itrp.C56_lineaire",
    "Verif.Itrp.C56_noeuds",
    "Verif.Itrp.C56_spline",
    "Verif.Itrp.C56_un_point",
    "Verif.Itrp.C56_rejets",
    "Verif.Itrp.C56_desordre"
   ],
   "note": "Exact arithmetic, real values. C56_desordre shows that the documented condition on the output abscissas is needed."
  },
  {
   "property": "C57",
   "status": "proved",
   "theorems": [
    "Verif.Itrp.C57_flux",
    "Verif.Itrp.C57_affine"
   ],
   "note": "Exact arithmetic (the phase is a float in the code: rounding drift is not modelled)."
  },
  {
   "property": "C58",
   "status": "proved",
   "theorems": [
    "Verif.Itrp.C58_decoupe",
    "Verif.Itrp.C58_invalide"
   ],
   "note": "Configuration only; the chain of filters is the composition of filters proved elsewhere (C24, C57)."
  },
  {
   "property": "C59",
   "status": "partial",
   "theorems": [
    "Wav.C59_termine_partial",
    "Wav.C59_termine_refute"
   ],
   "note": "Proved for files with no 4-byte field >= 2^31-1; refuted in general: C59_termine_refute exhibits a 44-byte file on which opening never ends."
  },
  {
   "property": "C60",
   "status": "partial",
   "theorems": [
    "Wav.C60_blocs",
    "Wav.C60_redemarre_refute"
   ],
   "note": "Opening and reading proved for any sequence of blocks; the rewinding part is refuted (C60_redemarre_refute)."
  },
  {
   "property": "C61",
   "status": "partial",
   "theorems": [
    "Tableau.C61_vecteur",
    "Tableau.C61_colonnes",
    "Tableau.C61_lignes_refute"
   ],
   "note": "Vectors, and matrices whose number of rows does not change: proved. Number of rows changes: refuted (elements move)."
  },
  {
   "property": "C62",
   "status": "partial",
   "theorems": [
    "Tableau.C62_vecteur",
    "Tableau.C62_matrice_refute"
   ],
   "note": "Vectors: proved. Matrices: refuted (buffer of n elements, n*m written) for all n>0, m>1."
  },
  {
   "property": "C63",
   "status": "proved",
   "theorems": [
    "Verif.Signaux.C63_ohc",
    "Verif.Signaux.C63_ohr",
    "Verif.Signaux.C63_blocs"
   ],
   "note": "Exact arithmetic (the renormalisations are modelled)."
  },
  {
   "property": "C64",
   "status": "partial",
   "theorems": [
    "Verif.Signaux.C64_sigexp",
    "Verif.Signaux.C64_sigsin",
    "Verif.Signaux.C64_sigscie",
    "Verif.Signaux.C64_sigscie_refute",
    "Verif.Signaux.C64_sigtri_partial",
    "Verif.Signaux.C64_sigtri_refute",
    "Verif.Signaux.C64_sigcar_partial",
    "Verif.Signaux.C64_sigcar_refute",
    "Verif.Signaux.C64_sigimp",
    "Verif.Signaux.C64_signyquist",
    "Verif.Signaux.C64_sigchirp",
    "Verif.Signaux.C64_siggauss"
   ],
   "note": "Proved in exact arithmetic for all generators, for even periods for sigtri / sigcar and for periods of at least 2 for sigscie. Refuted for odd periods of sigtri (exceeds 1) and sigcar (wrong period) and period 1 of sigscie, sigcar (division by zero)."
  },
  {
   "property": "C65",
   "status": "partial",
   "theorems": [
    "Verif.Signaux.C65_exact",
    "Verif.Signaux.C65_float_refute"
   ],
   "note": "Proved in exact arithmetic; refuted for the float conversion of the code: wrong at 2^24 or 2^24+1 whatever the logarithm function."
  },
  {
   "property": "C66",
   "status": "proved",
   "theorems": [
    "Verif.Signaux.C66_olut"
   ],
   "note": "Exact arithmetic; modulo_2π modelled as in C34."
  },
  {
   "property": "C67",
   "status": "partial",
   "theorems": [
    "Verif.Fourier.C67_goertzel",
    "Verif.Fourier.C67_score_partial",
    "Verif.Fourier.C67_score_refute",
    "Verif.Fourier.C67_ton",
    "Verif.Fourier.C67_filtre"
   ],
   "note": "Formula, tone, streaming filter proved; score <= 2 proved and score <= 1 refuted (constant signal, f=0)"
  },
  {
   "property": "C68",
   "status": "partial",
   "theorems": [
    "Verif.Fourier.C68_pair_partial",
    "Verif.Fourier.C68_impair_refute",
    "Verif.Fourier.C68_reel_refute"
   ],
   "note": "Proved for even n; refuted for odd n (shifted grids, first negative frequency) and for psd_freqs(n, non)"
  },
  {
   "property": "C69",
   "status": "partial",
   "theorems": [
    "Verif.Fourier.C69_candan",
    "Verif.Fourier.C69_fft",
    "Verif.Fourier.C69_domaine_partial",
    "Verif.Fourier.C69_domaine_refute",
    "Verif.Fourier.C69_nombre_refute"
   ],
   "note": "Candan exactness and half-bin bound proved; range proved for FFT and QUADRATIC, refuted for CANDAN2; NaN on impulses refuted"
  },
  {
   "property": "C70",
   "status": "partial",
   "theorems": [
    "Verif.Divers.C70_T",
    "Verif.Divers.C70_T_partout",
    "Verif.Divers.C70_U_refute",
    "Verif.Divers.C70_U_partial"
   ],
   "note": "First kind proved everywhere; second kind refuted for every n>=1 (int 2 converted to bool)"
  },
  {
   "property": "C71",
   "status": "proved",
   "theorems": [
    "Verif.Divers.C71_sinc",
    "Verif.Divers.C71_noeuds",
    "Verif.Divers.C71_dirichlet"
   ],
   "note": "Exact arithmetic; explicit error bounds in the threshold zones"
  },
  {
   "property": "C72",
   "status": "proved",
   "theorems": [
    "Verif.Fourier.C72_bornes",
    "Verif.Fourier.C72_exact",
    "Verif.Fourier.C72_silence"
   ],
   "note": "Exact real arithmetic; score and delay bounds for every pair, exact delay for every shifted and scaled copy."
  },
  {
   "property": "C73",
   "status": "partial",
   "theorems": [
    "Verif.Fourier.C73_succes",
    "Verif.Fourier.C73_silence",
    "Verif.Fourier.C73_forme",
    "Verif.Fourier.C73_exact",
    "Verif.Fourier.C73_silence_refute"
   ],
   "note": "Shape proved whenever the call succeeds; C73_succes: success for every pair of non-null signals, with a delay at most one sample from the correlation maximum; exact alignment for delayed copies. C73_silence gives the exact success condition when a signal is null; C73_silence_refute: the call fails (negative segment size) for silent signals, so the claim does not hold for every pair."
  },
  {
   "property": "C74",
   "status": "partial",
   "theorems": [
    "Verif.Fourier.C74_welch_partial",
    "Verif.Fourier.C74_unique_refute",
    "Verif.Fourier.C74_infini_refute",
    "Verif.Fourier.C74_moyenne_refute"
   ],
   "note": "C74_welch_partial: each bin is the SUM of the periodograms of the segments that end strictly before the last sample, at the returned frequency when N is even. Refuted: the last segment is dropped (a single segment gives a null spectrum), no division by the number of segments, endless loop for N=1."
  },
  {
   "property": "C75",
   "status": "partial",
   "theorems": [
    "Verif.Fourier.C75_moyennes",
    "Verif.Fourier.C75_fenetre",
    "Verif.Fourier.C75_puissance",
    "Verif.Fourier.C75_balayage_refute"
   ],
   "note": "Averaging, window energy and total power proved for every history without sweep; C75_balayage_refute: with sweep each band is divided by the number of bands. Linear spectrum (dB conversion not modelled)."
  },
  {
   "property": "C76",
   "status": "partial",
   "theorems": [
    "Verif.Fourier.C76_interp_partial",
    "Verif.Fourier.C76_impair_refute",
    "Verif.Fourier.C76_un_refute",
    "Verif.Fourier.C76_complexe_refute",
    "Verif.Fourier.C76_identite",
    "Verif.Fourier.C76_decim"
   ],
   "note": "Interpolation proved for even sizes, decimation for band-limited signals; refuted for odd sizes (one bin lost) and complex signals (imaginary part lost)."
  },
  {
   "property": "C77",
   "status": "partial",
   "theorems": [
    "Verif.Fourier.C77_dimensions_refute",
    "Verif.Fourier.C77_valeurs_refute"
   ],
   "note": "Refuted: fails whenever m differs from the number of samples, and wrong values otherwise (missing factor, checked for W=z0=1 and every signal)."
  },
  {
   "property": "C78",
   "status": "partial",
   "theorems": [
    "Verif.Conception.C78_forme",
    "Verif.Conception.C78_symetrie",
    "Verif.Conception.C78_recouvrement",
    "Verif.Conception.C78_periode_impaire_refute",
    "Verif.Conception.C78_deux_points_refute",
    "Verif.Conception.C78_noms",
    "Verif.Conception.C78_kaiser",
    "Verif.Conception.C78_kaiser_ordre"
   ],
   "note": "Proved in exact arithmetic for all windows but Chebyshev (C79). Refuted: the periodic variant of odd length is not periodic; the symmetric Hann/triangle/Blackman windows of length 2 are null."
  },
  {
   "property": "C79",
   "status": "partial",
   "theorems": [
    "Verif.Conception.C79_polynome",
    "Verif.Conception.C79_reponse",
    "Verif.Conception.C79_attenuation",
    "Verif.Conception.C79_periodique_refute"
   ],
   "note": "Proved for every length and attenuation in exact arithmetic; the argument 'symmetric' is ignored: refuted for the periodic variant."
  },
  {
   "property": "C80",
   "status": "partial",
   "theorems": [
    "Verif.Conception.C80_forme",
    "Verif.Conception.C80_phase_lineaire",
    "Verif.Conception.C80_phase_lineaire_nom",
    "Verif.Conception.C80_gain",
    "Verif.Conception.C80_gain_pb_refute",
    "Verif.Conception.C80_complement",
    "Verif.Conception.C80_rejets",
    "Verif.Conception.C80_pair_refute"
   ],
   "note": "Proved for odd numbers of coefficients. Refuted: 'pb' is not normalised although 'lp' is; even numbers of coefficients give a non symmetric filter. The windows of Kaiser and Chebyshev enter by the general window theorem."
  },
  {
   "property": "C81",
   "status": "partial",
   "theorems": [
    "Verif.Conception.C81_points",
    "Verif.Conception.C81_interpole",
    "Verif.Conception.C81_interpole_refute",
    "Verif.Conception.C81_un_point_refute"
   ],
   "note": "Proved when the number of coefficients matches the template. Refuted: the resampled template uses another grid than the documented one; one-point templates are rejected."
  },
  {
   "property": "C82",
   "status": "partial",
   "theorems": [
    "Verif.Conception.C82_sinus",
    "Verif.Conception.C82_coefficients",
    "Verif.Conception.C82_flux",
    "Verif.Conception.C82_tfd_spectre",
    "Verif.Conception.C82_tfd_reel",
    "Verif.Conception.C82_tfd_analytique",
    "Verif.Conception.C82_tfd_refute"
   ],
   "note": "Coefficients and streaming proved; hilbert_tfd characterised exactly: analytic for odd lengths and null mean, refuted in general (DC doubled, Nyquist dropped)."
  },
  {
   "property": "C83",
   "status": "partial",
   "theorems": [
    "Verif.Conception.C83_produit",
    "Verif.Conception.C83_type",
    "Verif.Conception.C83_reflexion",
    "Verif.Conception.C83_inversion",
    "Verif.Conception.C83_pb2pm_refute"
   ],
   "note": "Cascade, types, reflection and inversion proved for all filters; pb2pb and pb2pm are stubs (refuted)."
  },
  {
   "property": "C84",
   "status": "partial",
   "theorems": [
    "Verif.Conception.C84_antisymetrie",
    "Verif.Conception.C84_pente",
    "Verif.Conception.C84_deux_refute",
    "Verif.Conception.C84_centre_refute",
    "Verif.Conception.C84_constante_refute"
   ],
   "note": "Proved for even numbers of coefficients >= 4 (error bound 4/(pi(n+1))) and antisymmetry; refuted for n = 2 (sign), for all centred odd n (slope 2 or 0) and for the other parities (constant not removed)."
  },
  {
   "property": "C85",
   "status": "partial",
   "theorems": [
    "Verif.Conception.C85_mg",
    "Verif.Conception.C85_mg_flux",
    "Verif.Conception.C85_coef",
    "Verif.Conception.C85_frequence",
    "Verif.Conception.C85_lexp_flux",
    "Verif.Conception.C85_lexp_echelon",
    "Verif.Conception.C85_lexp_gain",
    "Verif.Conception.C85_coupure_partial",
    "Verif.Conception.C85_coupure_refute",
    "Verif.Conception.C85_bloqueur_flux",
    "Verif.Conception.C85_bloqueur_constante",
    "Verif.Conception.C85_bloqueur_gain",
    "Verif.Conception.C85_notch_flux",
    "Verif.Conception.C85_notch_zero",
    "Verif.Conception.C85_notch_rejet"
   ],
   "note": "-3 dB at the cut-off frequency is only approximate (refuted exactly, bounded for small frequencies); everything else proved"
  },
  {
   "property": "C86",
   "status": "partial",
   "theorems": [
    "Verif.Conception.C86_nyquist",
    "Verif.Conception.C86_prolongement",
    "Verif.Conception.C86_cs",
    "Verif.Conception.C86_cs_neutre",
    "Verif.Conception.C86_pair_refute",
    "Verif.Conception.C86_isi",
    "Verif.Conception.C86_rcs",
    "Verif.Conception.C86_gaussien",
    "Verif.Conception.C86_telecom_partial",
    "Verif.Conception.C86_telecom_refute",
    "Verif.Conception.C86_bt"
   ],
   "note": "proved for odd n; symmetry refuted for even n (raised cosine) and for the end coefficients of the GFSK filter; unit sum supposes a non-null sum before normalisation; the underflow branch of gaussien_telecom is not modelled"
  },
  {
   "property": "C87",
   "status": "proved",
   "theorems": [
    "Verif.Conception.C87_filtfilt",
    "Verif.Conception.C87_phase_nulle",
    "Verif.Conception.C87_impulsion"
   ],
   "note": "FIR designs only (the second-order-section branch of filtrer is covered by C45-C47)"
  },
  {
   "property": "C88",
   "status": "partial",
   "theorems": [
    "Verif.Rii.C88_nyquist",
    "Verif.Rii.C88_frequences",
    "Verif.Rii.C88_frequences_refute",
    "Verif.Rii.C88_bilineaire",
    "Verif.Rii.C88_reponse",
    "Verif.Rii.C88_stable",
    "Verif.Rii.C88_stable_refute",
    "Verif.Rii.C88_coefficients_refute"
   ],
   "note": "Zero-pole form proved for all transfer functions and points; refuted for transfer functions given by coefficients (roots() throws on complex polynomials), and stability needs a proper filter (witness). Real arithmetic in place of float."
  },
  {
   "property": "C89",
   "status": "partial",
   "theorems": [
    "Verif.Rii.C89_numerique_bas",
    "Verif.Rii.C89_numerique_haut_partial",
    "Verif.Rii.C89_passe_bas",
    "Verif.Rii.C89_passe_haut_partial",
    "Verif.Rii.C89_passe_haut_refute"
   ],
   "note": "Low-pass proved. High-pass proved up to the sign (-1)^(#zeros+#poles), and the sign error refutes the full claim."
  },
  {
   "property": "C90",
   "status": "partial",
   "theorems": [
    "Verif.Rii.C90_prototype",
    "Verif.Rii.C90_passe_bas",
    "Verif.Rii.C90_passe_haut",
    "Verif.Rii.C90_signe_refute",
    "Verif.Rii.C90_types_refute"
   ],
   "note": "Low-pass fully proved; squared gain of the high-pass proved; refuted: the high-pass passband gain is -1 for odd orders, and band-pass / band-stop designs throw."
  },
  {
   "property": "C91",
   "status": "partial",
   "theorems": [
    "Verif.Rii.C91_prototype_I",
    "Verif.Rii.C91_passe_bas_I",
    "Verif.Rii.C91_ondulation_I_partial",
    "Verif.Rii.C91_ondulation_I_refute"
   ],
   "note": "Pole count, stability, squared gain proved for all orders; ripple bound proved for odd orders; refuted for even orders (gain normalised at the bottom of the ripple: the passband rises to +δ dB)."
  },
  {
   "property": "C92",
   "status": "partial",
   "theorems": [
    "Verif.Rii.C92_prototype_II_partial",
    "Verif.Rii.C92_attenuation_II_partial",
    "Verif.Rii.C92_passe_bas_II_partial",
    "Verif.Rii.C92_impair_refute",
    "Verif.Rii.C92_elliptique_refute"
   ],
   "note": "Proved for even orders; refuted for odd orders (division by cos(π/2)) and for first-order elliptic designs (square root of a negative number). Elliptic prototypes of higher order are not modelled."
  },
  {
   "property": "C93",
   "status": "proved",
   "theorems": [
    "Verif.Rii.C93_stable",
    "Verif.Rii.C93_flux",
    "Verif.Rii.C93_reponse",
    "Verif.Rii.C93_nyquist",
    "Verif.Rii.C93_continu",
    "Verif.Rii.C93_critique",
    "Verif.Rii.C93_nom_refute"
   ],
   "note": "Stability, difference equation, exact frequency response and gains at 0, f, Nyquist for all seven types; unknown type names silently give a low-pass. Real arithmetic in place of float."
  },
  {
   "property": "C94",
   "status": "proved",
   "theorems": [
    "Verif.Telecom.C94_constellation",
    "Verif.Telecom.C94_bruit",
    "Verif.Telecom.C94_phase",
    "Verif.Telecom.C94_quadrant",
    "Verif.Telecom.C94_quadrant_refute"
   ],
   "note": "exact real arithmetic; the quadrant decision is refuted on the axes (C94_quadrant_refute), which the statement excludes"
  },
  {
   "property": "C95",
   "status": "proved",
   "theorems": [
    "Verif.Telecom.C95_bruit",
    "Verif.Telecom.C95_contexte",
    "Verif.Telecom.C95_enveloppe",
    "Verif.Telecom.C95_decoupe_refute"
   ],
   "note": "The statement as worded, with the defects of the code that it lists (theorems _refute), is entirely proved. within one call; the parity restarts at each call, refuted by C95_decoupe_refute"
  },
  {
   "property": "C96",
   "status": "proved",
   "theorems": [
    "Verif.Telecom.C96_qam",
    "Verif.Telecom.C96_qam_bruit",
    "Verif.Telecom.C96_qam_energie",
    "Verif.Telecom.C96_ask",
    "Verif.Telecom.C96_ask_bruit",
    "Verif.Telecom.C96_rejets"
   ],
   "note": "exact real arithmetic"
  },
  {
   "property": "C97",
   "status": "proved",
   "theorems": [
    "Verif.Telecom.C97_energie",
    "Verif.Telecom.C97_modulateur",
    "Verif.Telecom.C97_nrz",
    "Verif.Telecom.C97_aucun",
    "Verif.Telecom.C97_decoupe_refute",
    "Verif.Telecom.C97_flush"
   ],
   "note": "The statement as worded, with the defects of the code that it lists (theorems _refute), is entirely proved. cutting at symbol boundaries proved; cutting inside a symbol refuted by C97_decoupe_refute; the coefficients of the Gaussian and root-raised-cosine designs are a parameter (see C85-C86 for the latter)"
  },
  {
   "property": "C98",
   "status": "partial",
   "theorems": [
    "Verif.Telecom.C98_phase",
    "Verif.Telecom.C98_nrz_partial",
    "Verif.Telecom.C98_binaire",
    "Verif.Telecom.C98_decoupe_refute",
    "Verif.Telecom.C98_ambigu_refute"
   ],
   "note": "within one call; cutting (C98_decoupe_refute) and M-ary separability (C98_ambigu_refute) are refuted; C98_nrz_partial needs an extreme symbol in the block"
  },
  {
   "property": "C99",
   "status": "partial",
   "theorems": [
    "Verif.Telecom.C99_trames",
    "Verif.Telecom.C99_vidage",
    "Verif.Telecom.C99_independance_partial",
    "Verif.Telecom.C99_interference_refute",
    "Verif.Telecom.C99_retard_refute"
   ],
   "note": "linear waveforms, fi = 0; independence of the frames proved for pulses no longer than one symbol plus the flush, refuted otherwise (C99_interference_refute); retard() refuted (C99_retard_refute)"
  },
  {
   "property": "C100",
   "status": "proved",
   "theorems": [
    "Verif.Telecom.C100_ploop",
    "Verif.Telecom.C100_tloop",
    "Verif.Telecom.C100_costa2",
    "Verif.Telecom.C100_costa4",
    "Verif.Telecom.C100_costa_rejet",
    "Verif.Telecom.C100_decision"
   ],
   "note": "Exact real arithmetic."
  },
  {
   "property": "C101",
   "status": "proved",
   "theorems": [
    "Verif.Telecom.C101_ordre1",
    "Verif.Telecom.C101_ordre2",
    "Verif.Telecom.C101_ordre2_limite"
   ],
   "note": "Exact real arithmetic, loop closed on an ideal linear phase detector; the second-order loop has A = 1 as in the code."
  },
  {
   "property": "C102",
   "status": "proved",
   "theorems": [
    "Verif.Telecom.C102_decoupe",
    "Verif.Telecom.C102_module",
    "Verif.Telecom.C102_psk",
    "Verif.Telecom.C102_defaut"
   ],
   "note": "Exact real arithmetic; the look-up-table oscillator (C66) is replaced by the exact exponential. The moving-average filter and the frequency limits of the real PLL (RPLL) are not modelled."
  },
  {
   "property": "C103",
   "status": "partial",
   "theorems": [
    "Verif.Telecom.C103_domaine_partial",
    "Verif.Telecom.C103_ton",
    "Verif.Telecom.C103_impair_refute"
   ],
   "note": "The property is false for odd lengths (C103_impair_refute): the integer division N/2 folds bin (N-1)/2 to −(N+1)/2N, below −1/2, and the assertion fails. Proved for even lengths. Exact arithmetic."
  },
  {
   "property": "C104",
   "status": "partial",
   "theorems": [
    "Verif.Telecom.C104_decoupe",
    "Verif.Telecom.C104_nombre",
    "Verif.Telecom.C104_transparent",
    "Verif.Telecom.C104_rejet",
    "Verif.Telecom.C104_lms",
    "Verif.Telecom.C104_cma",
    "Verif.Telecom.C104_cma_dfe_refute"
   ],
   "note": "exact arithmetic; the shift of the window by an overlapping memcpy is assumed to act as memmove; in the CMA error with DFE structure the feedback filter never adapts (refuted)"
  },
  {
   "property": "C105",
   "status": "partial",
   "theorems": [
    "Verif.Telecom.C105_matrice",
    "Verif.Telecom.C105_cible_partial",
    "Verif.Telecom.C105_cible_refute",
    "Verif.Telecom.C105_moindres_carres",
    "Verif.Telecom.C105_rejet"
   ],
   "note": "the least squares solver is a parameter; when m+n <= 3 the delay falls outside of the target vector (refuted)"
  },
  {
   "property": "C106",
   "status": "partial",
   "theorems": [
    "Verif.Telecom.C106_decoupe_partial",
    "Verif.Telecom.C106_cadence_partial",
    "Verif.Telecom.C106_sens",
    "Verif.Telecom.C106_debordement_refute",
    "Verif.Telecom.C106_osf2_refute"
   ],
   "note": "long blocks overflow the output bound assertion and osf=2 gives a negative abscissa (both refuted); the interpolator is a parameter; the timing error detector passed in the configuration is ignored by the code (Gardner hard-coded)"
  },
  {
   "property": "C107",
   "status": "partial",
   "theorems": [
    "Verif.Telecom.C107_decoupe",
    "Verif.Telecom.C107_puissance",
    "Verif.Telecom.C107_constante_partial",
    "Verif.Telecom.C107_convergence",
    "Verif.Telecom.C107_debut_refute"
   ],
   "note": "for a forgetting factor below 1/2 the first estimates are NaN (refuted)"
  },
  {
   "property": "C108",
   "status": "proved",
   "theorems": [
    "Verif.Telecom.C108_decoupe",
    "Verif.Telecom.C108_frequence",
    "Verif.Telecom.C108_decalage",
    "Verif.Telecom.C108_fsk"
   ],
   "note": "Exact real arithmetic; std::arg is Complex.arg."
  },
  {
   "property": "C109",
   "status": "partial",
   "theorems": [
    "Verif.Telecom.C109_sans_porteuse",
    "Verif.Telecom.C109_dsb_partial",
    "Verif.Telecom.C109_decoupe_refute",
    "Verif.Telecom.C109_silence_refute",
    "Verif.Telecom.C109_bandes_refute"
   ],
   "note": "C109_sans_porteuse proves the suppressed-carrier law for every cutting. C109_dsb_partial: the DSB law holds only with each block normalised by its own maximum (C109_decoupe_refute: the output depends on the cutting; C109_silence_refute: a silent block is 0/0). C109_bandes_refute: the two side bands are exchanged - USB emits the lower band with weight (1+G)/2 and LSB the upper one. Exact arithmetic."
  },
  {
   "property": "C110",
   "status": "partial",
   "theorems": [
    "Verif.Telecom.C110_dsb_refute",
    "Verif.Telecom.C110_blu",
    "Verif.Telecom.C110_lsb_refute"
   ],
   "note": "C110_dsb_refute: in DSB modes the demodulator never outputs anything. C110_blu: single side-band recovery law, for both configured modes. C110_lsb_refute: the LSB setting is ignored (same output as USB). The audio band filters and the resampler are parameters. Exact arithmetic."
  },
  {
   "property": "C111",
   "status": "partial",
   "theorems": [
    "Verif.Telecom.C111_compte",
    "Verif.Telecom.C111_succes",
    "Verif.Telecom.C111_zeros_refute",
    "Verif.Telecom.C111_exact",
    "Verif.Telecom.C111_minimum_refute",
    "Verif.Telecom.C111_psk",
    "Verif.Telecom.C111_psk_exact",
    "Verif.Telecom.C111_constant_refute"
   ],
   "note": "C111_compte, C111_succes, C111_exact, C111_psk and C111_psk_exact prove the counting, success, exactness and phase-ambiguity claims. Refuted parts: streams without a one make the comparison fail (C111_zeros_refute gives the exact condition), a constant symbol stream makes cmp_bits_psk fail even against itself (C111_constant_refute), and the shift is not the one with the fewest errors (C111_minimum_refute). Exact arithmetic; sizes bounded by the FFT limit."
  },
  {
   "property": "C112",
   "status": "proved",
   "theorems": [
    "Verif.Fourier.C112_bornes",
    "Verif.Fourier.C112_copie",
    "Verif.Fourier.C112_rif",
    "Verif.Fourier.C112_reel",
    "Verif.Fourier.C112_ecart",
    "Verif.Fourier.C112_reel_refute"
   ],
   "note": "The statement as worded is entirely proved, over exact arithmetic, for every non-null pattern (C112_rif: real pattern or imaginary part that is not relatively small; C112_reel, C112_ecart: the other ones, C112_reel_refute: a window whose score is suppressed). The documented 'equal to 1' is only approached because of the 1e-20 added to the energy. Noise estimation not modelled."
  },
  {
   "property": "C113",
   "status": "proved",
   "theorems": [
    "Verif.Fourier.C113_complet",
    "Verif.Fourier.C113_sur",
    "Verif.Fourier.C113_voisinage_refute",
    "Verif.Fourier.C113_plateau_refute",
    "Verif.Fourier.C113_coupure_refute"
   ],
   "note": "The statement as worded, with the defects of the code that it lists (theorems _refute), is entirely proved. Filter mode. C113_complet: every clear peak is reported with the documented fields; C113_sur: every detection is above the threshold and a maximum in its segment; C113_voisinage_refute, C113_plateau_refute and C113_coupure_refute exhibit failures of the documented neighbourhood criterion, of the gain on a flat top, and of the independence from the cut in blocks. Peaks on the first and last sample of a block are only covered by C113_sur. Noise estimation not modelled."
  },
  {
   "property": "C114",
   "status": "proved",
   "theorems": [
    "Verif.Fourier.C114_auto",
    "Verif.Fourier.C114_court_refute",
    "Verif.Fourier.C114_score",
    "Verif.Fourier.C114_complet",
    "Verif.Fourier.C114_taille_refute"
   ],
   "note": "The statement as worded, with the defects of the code that it lists (theorems _refute), is entirely proved. Exact arithmetic. C114_score, C114_complet: overlap-add mode for every admissible block size; C114_auto: the automatic block size is admissible (4 <= M <= 2^25) and of least cost; C114_taille_refute and C114_court_refute: other block sizes and patterns of one or two samples fail an assertion. Pattern of three samples with the automatic size not claimed (exact tie of the costs). Noise estimation not modelled."
  },
  {
   "property": "C115",
   "status": "proved",
   "theorems": [
    "Verif.Kalman.C115_covariance",
    "Verif.Kalman.C115_information",
    "Verif.Kalman.C115_optimal",
    "Verif.Kalman.C115_erreur",
    "Verif.Kalman.C115_exact",
    "Verif.Kalman.C115_defaut_refute",
    "Verif.Kalman.C115_premiere_refute"
   ],
   "note": "The statement as worded, with the defects of the code that it lists (theorems _refute), is entirely proved. Proved for the step and whole runs (Q psd, R pd); the default Q of ssm_lineaire and the first observation of steps are refuted. Exact arithmetic."
  },
  {
   "property": "C116",
   "status": "proved",
   "theorems": [
    "Verif.Kalman.C116_moindres_carres"
   ],
   "note": "Invertible covariances; exact arithmetic."
  },
  {
   "property": "C117",
   "status": "proved",
   "theorems": [
    "Verif.Kalman.C117_constante"
   ],
   "note": "All lengths; exact arithmetic."
  },
  {
   "property": "C118",
   "status": "proved",
   "theorems": [
    "Verif.Kalman.C118_limite",
    "Verif.Kalman.C118_dare",
    "Verif.Kalman.C118_ssg",
    "Verif.Kalman.C118_ssg_refute",
    "Verif.Kalman.C118_instable_refute",
    "Verif.Kalman.C118_dimension_refute",
    "Verif.Kalman.C118_dare_refute"
   ],
   "note": "The statement as worded, with the defects of the code that it lists (theorems _refute), is entirely proved. Scalar models; the general statement is refuted by witnesses (c = 2, Q = 0 unstable, unequal dimensions, coupled states)."
  },
  {
   "property": "C119",
   "status": "proved",
   "theorems": [
    "Verif.Kalman.C119_kalman",
    "Verif.Kalman.C119_linearisation",
    "Verif.Kalman.C119_exact",
    "Verif.Kalman.C119_dimension_refute",
    "Verif.Kalman.C119_defaut_refute",
    "Verif.Kalman.C119_gain_refute",
    "Verif.Kalman.C119_variance_refute",
    "Verif.Kalman.C119_entree_refute",
    "Verif.Kalman.C119_affine",
    "Verif.Kalman.C119_jacobienne"
   ],
   "note": "The statement as worded, with the defects of the code that it lists (theorems _refute), is entirely proved. Identity observation; the general statement is refuted by witnesses."
  },
  {
   "property": "C120",
   "status": "proved",
   "theorems": [
    "Verif.Kalman.C120_equations",
    "Verif.Kalman.C120_premiere_refute",
    "Verif.Kalman.C120_reprise_refute",
    "Verif.Kalman.C120_covariance_refute",
    "Verif.Kalman.C120_suite",
    "Verif.Kalman.C120_etats",
    "Verif.Kalman.C120_filtre",
    "Verif.Kalman.C120_kitagawa_refute"
   ],
   "note": "The statement as worded, with the defects of the code that it lists (theorems _refute), is entirely proved. Equations, concatenation and chain proved; four statements refuted by the code. The Cholesky factor is a parameter, the draws are arguments."
  },
  {
   "property": "C121",
   "status": "partial",
   "theorems": [
    "Verif.Telecom.C121_complexe",
    "Verif.Telecom.C121_ton",
    "Verif.Telecom.C121_reel",
    "Verif.Telecom.C121_porteuse",
    "Verif.Telecom.C121_ratio_refute"
   ],
   "note": "complex and real input proved for every cut; C121_ratio_refute: the ratio is ignored"
  },
  {
   "property": "C122",
   "status": "partial",
   "theorems": [
    "Verif.Telecom.C122_decalages",
    "Verif.Telecom.C122_module",
    "Verif.Telecom.C122_rapport",
    "Verif.Telecom.C122_bruit",
    "Verif.Telecom.C122_decoupe_refute",
    "Verif.Telecom.C122_delai_refute"
   ],
   "note": "offsets, modulus and Eb/N0 proved; C122_decoupe_refute and C122_delai_refute: noise level depends on the cut, delay removes samples from every block"
  },
  {
   "property": "C123",
   "status": "partial",
   "theorems": [
    "Verif.Telecom.C123_module",
    "Verif.Telecom.C123_sequence_refute",
    "Verif.Telecom.C123_slots_refute",
    "Verif.Telecom.C123_premier_refute"
   ],
   "note": "modulus proved; C123_sequence_refute, C123_slots_refute, C123_premier_refute: sequence content ignored, blocks of several slots fail, first slot not shifted"
  },
  {
   "property": "C124",
   "status": "proved",
   "theorems": [
    "Verif.Telecom.C124_etalement",
    "Verif.Telecom.C124_desetalement",
    "Verif.Telecom.C124_refus"
   ],
   "note": "the resampler is an arbitrary block"
  },
  {
   "property": "C125",
   "status": "partial",
   "theorems": [
    "Verif.Telecom.C125_gains",
    "Verif.Telecom.C125_court_refute",
    "Verif.Telecom.C125_rayleigh",
    "Verif.Telecom.C125_rice",
    "Verif.Telecom.C125_puissance_refute"
   ],
   "note": "order of the gains proved; C125_court_refute: short blocks fail; C125_puissance_refute: the complex squares are normalised, not the power"
  },
  {
   "property": "C126",
   "status": "proved",
   "theorems": [
    "Verif.Telecom.C126_capacite",
    "Verif.Telecom.C126_thermique",
    "Verif.Telecom.C126_doppler"
   ],
   "note": "Doppler integral on every closed sub-interval"
  },
  {
   "property": "C127",
   "status": "partial",
   "theorems": [
    "Verif.Tod.C127_etages",
    "Verif.Tod.C127_pas",
    "Verif.Tod.C127_paire",
    "Verif.Tod.C127_inverse_refute",
    "Verif.Tod.C127_profondeur_refute",
    "Verif.Tod.C127_longueur"
   ],
   "note": "C127_etages: the stages are undone exactly; C127_inverse_refute: merge reads its saved even samples through a view of the vector it overwrites, so no signal whose samples 1 and 2 differ is restored; C127_profondeur_refute: too large depths never return"
  },
  {
   "property": "C128",
   "status": "partial",
   "theorems": [
    "Verif.Tod.C128_haar",
    "Verif.Tod.C128_moyennes",
    "Verif.Tod.C128_energie_refute",
    "Verif.Tod.C128_moments",
    "Verif.Tod.C128_bord_refute",
    "Verif.Tod.C128_daubechies"
   ],
   "note": "means, differences and moments proved; C128_energie_refute: K is not applied; C128_bord_refute: first detail of a constant is not null"
  },
  {
   "property": "C129",
   "status": "proved",
   "theorems": [
    "Verif.Tod.C129_polyphase",
    "Verif.Tod.C129_determinant",
    "Verif.Tod.C129_transformee",
    "Verif.Tod.C129_qmf"
   ],
   "note": "real z; schemes given by coefficients"
  },
  {
   "property": "C130",
   "status": "partial",
   "theorems": [
    "Verif.Conception.C130_symetrique",
    "Verif.Conception.C130_antisymetrique_partial",
    "Verif.Conception.C130_antisymetrique_refute",
    "Verif.Conception.C130_grille",
    "Verif.Conception.C130_fft_partial",
    "Verif.Conception.C130_type2_refute",
    "Verif.Conception.C130_resolution_refute"
   ],
   "note": "antisymmetric filters whose first coefficient is null are classified symmetric (witness), the FFT variant is wrong for even lengths (witness) and fails for long filters; exact real arithmetic"
  },
  {
   "property": "C131",
   "status": "partial",
   "theorems": [
    "Verif.Conception.C131_minimax",
    "Verif.Conception.C131_quasi_optimal",
    "Verif.Conception.C131_total",
    "Verif.Conception.C131_exact_refute",
    "Verif.Conception.C131_iteration"
   ],
   "note": "a template that can be met exactly makes the design fail (0/0), witness theorem; the least-squares solver is a parameter with its mathematical specification; exact real arithmetic"
  },
  {
   "property": "C132",
   "status": "proved",
   "theorems": [
    "Verif.Conception.C132_structure",
    "Verif.Conception.C132_refus",
    "Verif.Conception.C132_bande",
    "Verif.Conception.C132_prototype",
    "Verif.Conception.C132_total",
    "Verif.Conception.C132_negatif"
   ],
   "note": "The statement as worded is entirely proved, over exact real arithmetic, with the least-squares solver as a parameter; success between 0 and 1/64 is not decided."
  },
  {
   "property": "C133",
   "status": "partial",
   "theorems": [
    "Verif.Conception.C133_gabarit_partial",
    "Verif.Conception.C133_nyquist_refute"
   ],
   "note": "intervals starting at the Nyquist frequency after a gap make the design fail (witness); exact real arithmetic"
  },
  {
   "property": "C134",
   "status": "partial",
   "theorems": [
    "Verif.Conception.C134_repfreq",
    "Verif.Conception.C134_frmag_partial",
    "Verif.Conception.C134_accord",
    "Verif.Conception.C134_long_refute",
    "Verif.Conception.C134_frphase"
   ],
   "note": "a FIR filter longer than 2 npts makes frmag fail (odd length) or return more points than requested (even length): C134_long_refute; exact real arithmetic"
  },
  {
   "property": "C135",
   "status": "partial",
   "theorems": [
    "Verif.Conception.C135_repech_rif",
    "Verif.Conception.C135_repimp_rif",
    "Verif.Conception.C135_repimp",
    "Verif.Filtre.C135_rationnel_refute"
   ],
   "note": "the realisation of rational filters is a parameter in repimp/repech, instantiated in C135_rationnel_refute, where the response starts with a wrong sample; exact real arithmetic"
  },
  {
   "property": "C136",
   "status": "proved",
   "theorems": [
    "Verif.Conception.C136_groupe",
    "Verif.Conception.C136_rif_symetrique"
   ],
   "note": "proved for designs whose response is exactly linear-phase on the grid; exact real arithmetic"
  },
  {
   "property": "C137",
   "status": "partial",
   "theorems": [
    "Verif.Conception.C137_type_refute",
    "Verif.Conception.C137_long_refute",
    "Verif.Conception.C137_gains",
    "Verif.Conception.C137_type_partial",
    "Verif.Conception.C137_largeur_bas",
    "Verif.Conception.C137_largeur_haut",
    "Verif.Conception.C137_lobes",
    "Verif.Conception.C137_debut_partial"
   ],
   "note": "a filter with gain between 0.2 and 0.8 at both ends is not classified by its gains and filters with more than 8192 coefficients get wrong frequencies (witnesses); start of the secondary lobes proved without equal neighbours; exact real arithmetic"
  },
  {
   "property": "C138",
   "status": "partial",
   "theorems": [
    "Verif.Filtre.C138_transfert",
    "Verif.Filtre.C138_pair",
    "Verif.Filtre.C138_impair",
    "Verif.Filtre.C138_construction",
    "Verif.Filtre.C138_ordre_refute",
    "Verif.Filtre.C138_indices_refute",
    "Verif.Filtre.C138_reel",
    "Verif.Filtre.C138_representation_refute",
    "Verif.Filtre.C138_degre_refute",
    "Verif.Filtre.C138_debut_refute"
   ],
   "note": "difference equation proved from the order of the filter on, and at every time when the signal starts with 0; refuted on the first samples otherwise (C138_debut_refute), for some orders of the roots (C138_ordre_refute, C138_indices_refute), with a null leading coefficient and for other representations; the polynomial solver is a parameter; exact arithmetic"
  },
  {
   "property": "C139",
   "status": "proved",
   "theorems": [
    "Verif.Telecom.C139_decoupe"
   ],
   "note": "Any decision context (also with memory), any interpolator, with errors: both sides fail together."
  },
  {
   "property": "C140",
   "status": "partial",
   "theorems": [
    "Verif.Telecom.C140_formes",
    "Verif.Telecom.C140_aucun_refute",
    "Verif.Telecom.C140_decimation",
    "Verif.Telecom.C140_aller_retour"
   ],
   "note": "Proved for NRZ shaping with noise, and for any shaping when the noise plus the intersymbol interference of its pulse (read D symbols late) is below the margin (C140_formes: bits returned D symbols late); refuted without shaping (NONE): the modulator puts the symbol at the end of its period, the demodulator reads its start (C140_aucun_refute)."
  },
  {
   "property": "C141",
   "status": "partial",
   "theorems": [
    "Verif.Telecom.C141_repos",
    "Verif.Telecom.C141_nul_refute"
   ],
   "note": "Proved for NRZ, carrier and gain loops; refuted for a null sample with the AGC (C141_nul_refute: division by zero, e.g. OOK)."
  },
  {
   "property": "C142",
   "status": "partial",
   "theorems": [
    "Verif.Telecom.C142_cag",
    "Verif.Telecom.C142_niveau_refute"
   ],
   "note": "Decisions exact, level monotone between 1 and a and convergent; but the limit is the square root of the received level, not 1 (C142_niveau_refute): the gain is measured after its own application."
  },
  {
   "property": "C143",
   "status": "partial",
   "theorems": [
    "Verif.Telecom.C143_osf1_refute",
    "Verif.Telecom.C143_osf2_refute",
    "Verif.Telecom.C143_cadence",
    "Verif.Telecom.C143_osf3_refute"
   ],
   "note": "Settled for every osf with AGC off: proved for osf >= 4; refuted for osf = 1 (always fails), osf = 2 and osf = 3 (the phase becomes negative on 7-sample signals, for every time constant). With the AGC a zero sample makes the gain undefined (C141_nul_refute)."
  },
  {
   "property": "C144",
   "status": "partial",
   "theorems": [
    "Verif.Telecom.C144_cspline_refute",
    "Verif.Telecom.C144_impair_refute",
    "Verif.Telecom.C144_aller_retour"
   ],
   "note": "Proved for NRZ, even osf, interpolators exact at the last sample (linear); refuted for the default cubic spline interpolator (one sample late) and for odd oversampling factors (half a sample early: C144_impair_refute)."
  },
  {
   "property": "C145",
   "status": "partial",
   "theorems": [
    "Verif.Telecom.C145_reset",
    "Verif.Telecom.C145_transposition_refute",
    "Verif.Telecom.C145_filtre_refute"
   ],
   "note": "Proved without transposition and for matched filters of at most 5 symbols plus one sample; refuted with an intermediate frequency (the oscillator goes on) and for longer filters."
  },
  {
   "property": "C146",
   "status": "proved",
   "theorems": [
    "Verif.Telecom.C146_trames",
    "Verif.Telecom.C146_complet",
    "Verif.Telecom.C146_complet_bloc"
   ],
   "note": "Exact arithmetic; linear waveforms (no FSK); detector and interpolator are parameters. Soundness, order and completeness."
  },
  {
   "property": "C147",
   "status": "proved",
   "theorems": [
    "Verif.Telecom.C147_decoupe"
   ],
   "note": "Exact arithmetic; the detector is any function of its state and of the block."
  },
  {
   "property": "C148",
   "status": "proved",
   "theorems": [
    "Verif.Telecom.C148_sans_erreur",
    "Verif.Telecom.C148_erreur_refute"
   ],
   "note": "The statement as worded, with the defects of the code that it lists (theorems _refute), is entirely proved. C148_sans_erreur for memoryless decisions without loops; C148_erreur_refute lists detections that make the call fail."
  },
  {
   "property": "C149",
   "status": "proved",
   "theorems": [
    "Verif.Telecom.C149_position",
    "Verif.Telecom.C149_tampon_refute",
    "Verif.Telecom.C149_appel_refute"
   ],
   "note": "The statement as worded, with the defects of the code that it lists (theorems _refute), is entirely proved. C149_position for aligned calls; C149_tampon_refute and C149_appel_refute for the others: the position is wrong when samples wait in the buffer and is relative to the call of the detection."
  },
  {
   "property": "C150",
   "status": "partial",
   "theorems": [
    "Verif.Telecom.C150_perdue_refute"
   ],
   "note": "C150_perdue_refute: a header detected during a frame makes it lost; C146_complet is the part that holds."
  },
  {
   "property": "C151",
   "status": "proved",
   "theorems": [
    "Verif.Telecom.C151_motif",
    "Verif.Telecom.C151_motif_refute"
   ],
   "note": "C151_motif gives the exact pattern for NRZ; C151_motif_refute: it is never the modulated header. Other pulse shapes are not covered."
  },
  {
   "property": "C152",
   "status": "partial",
   "theorems": [
    "Verif.Telecom.C152_nrz",
    "Verif.Telecom.C152_reception"
   ],
   "note": "NRZ, odd number of interpolator coefficients, exact position, gain and phase of the detection; exact arithmetic. Other pulse shapes are not covered."
  },
  {
   "property": "C153",
   "status": "proved",
   "theorems": [
    "Verif.Itrp.C153_coefs",
    "Verif.Itrp.C153_entier",
    "Verif.Itrp.C153_symetrie",
    "Verif.Itrp.C153_gain_refute"
   ],
   "note": "C153_gain_refute: the gain is not 1 below the cut-off 1/2; float rounding is not modelled."
  },
  {
   "property": "C154",
   "status": "proved",
   "theorems": [
    "Verif.Telecom.C154_bpsk"
   ],
   "note": "Exact real arithmetic; the variance per component is that of Eb/N0 for the library's constellation."
  },
  {
   "property": "C155",
   "status": "proved",
   "theorems": [
    "Verif.Telecom.C155_qpsk",
    "Verif.Telecom.C155_qpsk_refute",
    "Verif.Telecom.C155_pi4"
   ],
   "note": "The statement as worded, with the defects of the code that it lists (theorems _refute), is entirely proved. C155_qpsk is exact up to 2v/10^96, which comes from the initial bound 1e100 of the library's nearest-symbol search; C155_pi4 is exact. C155_qpsk_refute and C155_pi4: the returned rate is strictly below the true one. Exact real arithmetic."
  },
  {
   "property": "C156",
   "status": "proved",
   "theorems": [
    "Verif.Telecom.C156_ask_symboles",
    "Verif.Telecom.C156_ask",
    "Verif.Telecom.C156_ook_refute"
   ],
   "note": "The statement as worded, with the defects of the code that it lists (theorems _refute), is entirely proved. Up to 2v/10^96 (initial bound 1e100 of the search). C156_ook_refute: false for levels that are not symmetric. The exact bit error rate for k >= 2 is only bounded. Exact real arithmetic."
  },
  {
   "property": "C157",
   "status": "proved",
   "theorems": [
    "Verif.Telecom.C157_qam"
   ],
   "note": "Up to 2v/10^96; exact bit error rate for 16-QAM and above only bounded. Exact real arithmetic."
  },
  {
   "property": "C158",
   "status": "proved",
   "theorems": [
    "Verif.Telecom.C158_psk"
   ],
   "note": "Up to 2v/10^96; lower and upper bounds (the exact rate has no closed form). Exact real arithmetic."
  },
  {
   "property": "C159",
   "status": "proved",
   "theorems": [
    "Verif.Telecom.C159_courbes",
    "Verif.Telecom.C159_egales",
    "Verif.Telecom.C159_fsk"
   ],
   "note": "Exact real arithmetic."
  },
  {
   "property": "C160",
   "status": "partial",
   "theorems": [
    "Verif.Telecom.C160_lineaire",
    "Verif.Telecom.C160_pi4",
    "Verif.Telecom.C160_retard",
    "Verif.Telecom.C160_lecture",
    "Verif.Telecom.C160_nrz",
    "Verif.Telecom.C160_fsk",
    "Verif.Telecom.C160_fsk_refute",
    "Verif.Telecom.C160_contexte_refute"
   ],
   "note": "C160_fsk_refute: all samples undefined when the filtered symbols are all null (e.g. no bit); C160_contexte_refute: the streaming context of get_contexte_tx never gives a sample. Exact arithmetic; the coefficients of the non-NRZ filters are a parameter."
  },
  {
   "property": "C161",
   "status": "partial",
   "theorems": [
    "Verif.Stats.C161_spectre",
    "Verif.Stats.C161_frequences",
    "Verif.Stats.C161_sans_source",
    "Verif.Stats.C161_auto_refute",
    "Verif.Stats.C161_distance"
   ],
   "note": "The eigenvalue solver is a parameter with its documented guarantees (propres_existe: they can be met). C161_auto_refute: the automatic number of sources depends on the unit of the signal and is wrong for noise powers of 2 or more. Exact arithmetic."
  },
  {
   "property": "C162",
   "status": "partial",
   "theorems": [
    "Verif.Stats.C162_steervec",
    "Verif.Stats.C162_unite_refute",
    "Verif.Stats.C162_covariance",
    "Verif.Stats.C162_snr_refute",
    "Verif.Stats.C162_spectre",
    "Verif.Stats.C162_angles_refute"
   ],
   "note": "C162_unite_refute: a factor 2 pi is missing in the steering vectors; C162_snr_refute: the SNR is inverted; C162_angles_refute: musicdoa_1d always returns an empty vector. C162_spectre gives the spectrum once these are corrected by the caller."
  },
  {
   "property": "C163",
   "status": "proved",
   "theorems": [
    "Verif.Ct.C163_trapezes",
    "Verif.Ct.C163_un_point",
    "Verif.Ct.C163_erreur",
    "Verif.Ct.C163_affine",
    "Verif.Ct.C163_fourier",
    "Verif.Ct.C163_echantillons",
    "Verif.Ct.C163_echelon_refute"
   ],
   "note": "The statement as worded, with the defects of the code that it lists (theorems _refute), is entirely proved. Real arithmetic instead of float; the isnan tests and the drawing functions are not modelled."
  },
  {
   "property": "C164",
   "status": "proved",
   "theorems": [
    "Verif.Vue.C164_unite",
    "Verif.Vue.C164_sans_unite",
    "Verif.Vue.C164_grand_refute",
    "Verif.Vue.C164_petit_refute",
    "Verif.Vue.C164_commun_refute",
    "Verif.Vue.C164_commun_decimales"
   ],
   "note": "The statement as worded, with the defects of the code that it lists (theorems _refute), is entirely proved. Real arithmetic instead of double and float; the decimal digits of the text are represented by the number they denote. The overflow, the zero for small values and the dependency on the order of the tics are proved as refutations."
  },
  {
   "property": "C165",
   "status": "proved",
   "theorems": [
    "Verif.Vue.C165_sous_image",
    "Verif.Vue.C165_puti",
    "Verif.Vue.C165_puti_refute",
    "Verif.Vue.C165_puti_rdi",
    "Verif.Vue.C165_puti_rdi_refute",
    "Verif.Vue.C165_clone",
    "Verif.Vue.C165_rotation",
    "Verif.Vue.C165_quatre_rotations",
    "Verif.Vue.C165_rectangle"
   ],
   "note": "The statement as worded, with the defects of the code that it lists (theorems _refute), is entirely proved. int overflow of the coordinates is not modelled. The endless recursion and the unchecked copy are proved as refutations."
  },
  {
   "property": "C166",
   "status": "proved",
   "theorems": [
    "Verif.Vue.C166_rgba",
    "Verif.Vue.C166_liste",
    "Verif.Vue.C166_chaine",
    "Verif.Vue.C166_mal_forme",
    "Verif.Vue.C166_melange",
    "Verif.Vue.C166_eclaircir",
    "Verif.Vue.C166_lumi"
   ],
   "note": "Real arithmetic instead of float for the mixing; the codes and texts are exact."
  },
  {
   "property": "C167",
   "status": "proved",
   "theorems": [
    "Verif.Vue.C167_point_alpha",
    "Verif.Vue.C167_point",
    "Verif.Vue.C167_ligne_droite",
    "Verif.Vue.C167_antialias",
    "Verif.Vue.C167_ligne_oblique",
    "Verif.Vue.C167_premiere_ligne_refute",
    "Verif.Vue.C167_traversante_refute",
    "Verif.Vue.C167_rectangle"
   ],
   "note": "The statement as worded, with the defects of the code that it lists (theorems _refute), is entirely proved. Exact set of the coloured pixels for points, straight lines and rectangles; for antialiased lines, safety and neighbourhood under the positivity of the minor coordinate at both ends, refuted on the first row; crossing lines refuted. Filled shapes and text not modelled. Weights are reals where the code uses float."
  },
  {
   "property": "C168",
   "status": "proved",
   "theorems": [
    "Verif.Vue.C168_cercle",
    "Verif.Vue.C168_symetrie",
    "Verif.Vue.C168_poids",
    "Verif.Vue.C168_disque",
    "Verif.Vue.C168_parasite_refute"
   ],
   "note": "The statement as worded, with the defects of the code that it lists (theorems _refute), is entirely proved. Exact real arithmetic in place of float (square root and weights). Ellipses: see C219."
  },
  {
   "property": "C169",
   "status": "proved",
   "theorems": [
    "Verif.Vue.C169_rectangle",
    "Verif.Vue.C169_blend",
    "Verif.Vue.C169_blend_nv",
    "Verif.Vue.C169_gamma",
    "Verif.Vue.C169_deborde_refute",
    "Verif.Vue.C169_masque",
    "Verif.Vue.C169_alignement"
   ],
   "note": "The statement as worded, with the defects of the code that it lists (theorems _refute), is entirely proved. Exact real arithmetic in place of float: the truncation of a product that is an exact integer could lose one unit in float."
  },
  {
   "property": "C170",
   "status": "proved",
   "theorems": [
    "Verif.Vue.C170_redim",
    "Verif.Vue.C170_uniforme",
    "Verif.Vue.C170_coins",
    "Verif.Vue.C170_un_refute",
    "Verif.Vue.C170_identite_refute"
   ],
   "note": "The statement as worded, with the defects of the code that it lists (theorems _refute), is entirely proved. Exact real arithmetic in place of float. The refutations cover one column or row and the same size."
  },
  {
   "property": "C171",
   "status": "partial",
   "theorems": [
    "TabArith.C171_binaire",
    "TabArith.C171_binaire_echec",
    "TabArith.C171_sans_verification",
    "TabArith.C171_commute",
    "TabArith.C171_scalaire",
    "TabArith.C171_scalaire_moins",
    "TabArith.C171_scalaire_divise",
    "TabArith.C171_scalaire_divise_entier",
    "TabArith.C171_division_entiere_refute",
    "TabArith.C171_fraction_refute",
    "TabArith.C171_moins_refute",
    "TabArith.C171_select",
    "TabArith.C171_select_refute",
    "TabArith.C171_logique_partial",
    "TabArith.C171_logique_refute",
    "TabArith.C171_compare",
    "TabArith.C171_quantificateurs_partial",
    "TabArith.C171_masque_vide_refute"
   ],
   "note": "Elementwise semantics, shape checks (with an exact characterisation of failure), commutativity, scalar operations, select, comparisons proved for all arrays. The code violates the property, and the negation is proved: `-` and the compound assignments do not check shapes, scalar / integer array gives 0 (C171_division_entiere_refute), a fractional scalar times an integer array is 0, select does not check the mask length, && and || throw on every matrix, tous_vrai() is false and au_moins_un_faux() true on an empty mask. Rounding, integer overflow and block views are not modelled here."
  },
  {
   "property": "C172",
   "status": "partial",
   "theorems": [
    "TabArith.C172_acces",
    "TabArith.C172_transpose",
    "TabArith.C172_transpose_involution",
    "TabArith.C172_transpose_vide_refute",
    "TabArith.C172_reverse",
    "TabArith.C172_reverse_rows",
    "TabArith.C172_reshape",
    "TabArith.C172_valeurs",
    "TabArith.C172_ligne_colonne",
    "TabArith.C172_set_row",
    "TabArith.C172_set_row_refute",
    "TabArith.C172_sommes",
    "TabArith.C172_moyenne",
    "TabArith.C172_matprod",
    "TabArith.C172_eye",
    "TabArith.C172_transpose_produit",
    "TabArith.C172_associatif",
    "TabArith.C172_diagonale",
    "TabArith.C172_dot"
   ],
   "note": "All the rearrangements and algebraic identities are proved for all sizes ≥ 1 × 1; refuted for the transposed of an empty vector (one indeterminate element) and for set_row with a row out of range (overwrites another entry). Exact arithmetic instead of floating point."
  },
  {
   "property": "C173",
   "status": "proved",
   "theorems": [
    "Verif.Telecom.C173_decoupe",
    "Verif.Telecom.C173_cree",
    "Verif.Telecom.C173_ml_fsk_refute",
    "Verif.Telecom.C173_gain",
    "Verif.Telecom.C173_phase",
    "Verif.Telecom.C173_nombre",
    "Verif.Telecom.C173_pi4_refute",
    "Verif.Telecom.C173_reset_refute"
   ],
   "note": "The statement as worded, with the defects of the code that it lists (theorems _refute), is entirely proved. Exact arithmetic; the two resampling stages are parameters assumed to be insensitive to the cutting; the limit on the number of symbols per call is why both cuttings are assumed accepted. Refuted: maximum likelihood mode with FSK (null pointer), pi/4-QPSK decisions across blocks, reset. `delais` always throws (not stated as a theorem)."
  },
  {
   "property": "C174",
   "status": "proved",
   "theorems": [
    "Verif.Temps.C174_affiche_lis",
    "Verif.Temps.C174_locale_refute",
    "Verif.Temps.C174_lis_invalide_refute",
    "Verif.Temps.C174_calendrier",
    "Verif.Temps.C174_heure",
    "Verif.Temps.C174_accepte",
    "Verif.Temps.C174_mal_forme_refute",
    "Verif.Temps.C174_formes_refute"
   ],
   "note": "The statement as worded, with the defects of the code that it lists (theorems _refute), is entirely proved. The clauses on the default mode, on the absence of validation and on the printed forms are refuted; the others are proved. The formatting library and sscanf/stoi are modelled on characters."
  },
  {
   "property": "C175",
   "status": "proved",
   "theorems": [
    "Verif.Temps.C175_precision",
    "Verif.Temps.C175_entier",
    "Verif.Temps.C175_aller_retour",
    "Verif.Temps.C175_troncature_refute",
    "Verif.Temps.C175_somme",
    "Verif.Temps.C175_produit",
    "Verif.Temps.C175_composee",
    "Verif.Temps.C175_composee_refute",
    "Verif.Temps.C175_unite",
    "Verif.Temps.C175_unite_refute",
    "Verif.Temps.C175_annee_jour",
    "Verif.Temps.C175_julien",
    "Verif.Temps.C175_j2000_refute",
    "Verif.Temps.C175_sideral",
    "Verif.Temps.C175_vitesse"
   ],
   "note": "The statement as worded, with the defects of the code that it lists (theorems _refute), is entirely proved. double operations rounded by rnd64 (Binary64); sidereal time in exact arithmetic. Refuted: truncation, overflow of the composed constructor, printing of negative durations, J2000()."
  },
  {
   "property": "C176",
   "status": "proved",
   "theorems": [
    "Verif.Reechan.C176_design",
    "Verif.Reechan.C176_reponse",
    "Verif.Reechan.C176_bornes",
    "Verif.Reechan.C176_zeros",
    "Verif.Reechan.C176_bits_refute"
   ],
   "note": "The statement as worded, with the defects of the code that it lists (theorems _refute), is entirely proved. Exact real arithmetic instead of float; the announced number of additional bits is refuted (C176_bits_refute). The plots of cic_analyse are not modelled."
  },
  {
   "property": "C177",
   "status": "proved",
   "theorems": [
    "Verif.Telecom.C177_decoupe",
    "Verif.Telecom.C177_derivee",
    "Verif.Telecom.C177_cadence",
    "Verif.Telecom.C177_osf1_refute",
    "Verif.Telecom.C177_sens_refute",
    "Verif.Telecom.C177_rotation_refute"
   ],
   "note": "The statement as worded, with the defects of the code that it lists (theorems _refute), is entirely proved. Exact real arithmetic instead of float. Refuted: osf = 1 (C177_osf1_refute), sense of the correction (C177_sens_refute), independence of the carrier phase (C177_rotation_refute)."
  },
  {
   "property": "C178",
   "status": "proved",
   "theorems": [
    "Verif.Kalman.C178_observation",
    "Verif.Kalman.C178_gyro",
    "Verif.Kalman.C178_normes",
    "Verif.Kalman.C178_orientation",
    "Verif.Kalman.C178_prediction",
    "Verif.Kalman.C178_long",
    "Verif.Kalman.C178_variances",
    "Verif.Kalman.C178_sans_orientation_refute",
    "Verif.Kalman.C178_gps_refute",
    "Verif.Kalman.C178_ekf_refute"
   ],
   "note": "The statement as worded, with the defects of the code that it lists (theorems _refute), is entirely proved. Exact real arithmetic instead of float. Refuted: configurations without orientation (C178_sans_orientation_refute), GPS and barometer without position (C178_gps_refute), estimation with filtre_ekf (C178_ekf_refute)."
  },
  {
   "property": "C179",
   "status": "proved",
   "theorems": [
    "Verif.Telecom.C179_mono",
    "Verif.Telecom.C179_rds_refute",
    "Verif.Telecom.C179_decimation_refute",
    "Verif.Telecom.C179_decoupe_refute",
    "Verif.Telecom.C179_stereo_refute"
   ],
   "note": "The statement as worded, with the defects of the code that it lists (theorems _refute), is entirely proved. The filters, discriminator, RDS demodulator and PLL are parameters; exact arithmetic. Only the mono part holds; RDS, low sampling frequencies, block cut and stereo separation are refuted."
  },
  {
   "property": "C180",
   "status": "proved",
   "theorems": [
    "Verif.Fourier.C180_taille",
    "Verif.Fourier.C180_frequences",
    "Verif.Fourier.C180_durees",
    "Verif.Fourier.C180_planning",
    "Verif.Fourier.C180_premier_perdu_refute",
    "Verif.Fourier.C180_longueur_exacte_refute",
    "Verif.Fourier.C180_bloc_court_refute",
    "Verif.Fourier.C180_step",
    "Verif.Fourier.C180_noyau_court_refute",
    "Verif.Fourier.C180_noyau_court_accepte_refute"
   ],
   "note": "The statement as worded, with the defects of the code that it lists (theorems _refute), is entirely proved. Values of the correlations are a parameter of the model; exact arithmetic. CQT::step violates the property (proved)."
  },
  {
   "property": "C181",
   "status": "proved",
   "theorems": [
    "Verif.Fourier.C181_interpolation",
    "Verif.Fourier.C181_reussite",
    "Verif.Fourier.C181_debordement_refute",
    "Verif.Fourier.C181_meme_frequence_refute",
    "Verif.Fourier.C181_planning"
   ],
   "note": "The statement as worded, with the defects of the code that it lists (theorems _refute), is entirely proved. Exact arithmetic; out of range writes proved (refute)."
  },
  {
   "property": "C182",
   "status": "proved",
   "theorems": [
    "Verif.Fourier.C182_complexe",
    "Verif.Fourier.C182_noyau_entier",
    "Verif.Fourier.C182_entier",
    "Verif.Fourier.C182_continu",
    "Verif.Fourier.C182_energie",
    "Verif.Fourier.C182_reel",
    "Verif.Fourier.C182_reel_complexe",
    "Verif.Fourier.C182_reel_entier",
    "Verif.Fourier.C182_reel_delais",
    "Verif.Fourier.C182_reel_continu",
    "Verif.Fourier.C182_aller_retour",
    "Verif.Fourier.C182_reel_energie"
   ],
   "note": "Exact arithmetic (float rounding not modelled)."
  },
  {
   "property": "C183",
   "status": "proved",
   "theorems": [
    "Verif.Fourier.C183_coherence_refute"
   ],
   "note": "The property fails: the refutation is the theorem, in exact arithmetic."
  },
  {
   "property": "C184",
   "status": "proved",
   "theorems": [
    "Verif.Axes.C184_echelle",
    "Verif.Axes.C184_entier",
    "Verif.Axes.C184_inverse",
    "Verif.Axes.C184_inverse_impair_refute"
   ],
   "note": "The statement as worded, with the defects of the code that it lists (theorems _refute), is entirely proved. Exact arithmetic instead of float; the round trip is proved for even dimensions and refuted for odd ones."
  },
  {
   "property": "C185",
   "status": "proved",
   "theorems": [
    "Verif.Axes.C185_tic",
    "Verif.Axes.C185_double",
    "Verif.Axes.C185_espacement"
   ],
   "note": "Exact arithmetic instead of float and double."
  },
  {
   "property": "C186",
   "status": "proved",
   "theorems": [
    "Verif.Axes.C186_majeurs",
    "Verif.Axes.C186_vide_refute",
    "Verif.Axes.C186_essais",
    "Verif.Axes.C186_negatif_refute"
   ],
   "note": "The statement as worded, with the defects of the code that it lists (theorems _refute), is entirely proved. Exact arithmetic; linear axes with automatic graduations; minor graduations, logarithmic axes, manual graduations and forced spacings are not modelled; refuted in the remaining case."
  },
  {
   "property": "C187",
   "status": "proved",
   "theorems": [
    "Verif.Axes.C187_choix",
    "Verif.Axes.C187_majeurs",
    "Verif.Axes.C187_mineurs",
    "Verif.Axes.C187_nombre",
    "Verif.Axes.C187_neuf_refute",
    "Verif.Axes.C187_sans_graduation_refute"
   ],
   "note": "The statement as worded, with the defects of the code that it lists (theorems _refute), is entirely proved. Proved on whole numbers of tics (conversion from float seconds not modelled); labels not modelled; the count of 8 and the presence of a graduation are refuted."
  },
  {
   "property": "C188",
   "status": "proved",
   "theorems": [
    "Verif.Axes.C188_iso",
    "Verif.Axes.C188_rapport_refute",
    "Verif.Axes.C188_coupe_refute",
    "Verif.Axes.C188_rdi"
   ],
   "note": "The statement as worded, with the defects of the code that it lists (theorems _refute), is entirely proved. Exact arithmetic; proved for an aspect ratio of 1 and refuted for the others."
  },
  {
   "property": "C189",
   "status": "proved",
   "theorems": [
    "Verif.Axes.C189_echelle",
    "Verif.Axes.C189_inverse",
    "Verif.Axes.C189_inverse_log_refute",
    "Verif.Axes.C189_taille",
    "Verif.Axes.C189_marges",
    "Verif.Axes.C189_grille_refute"
   ],
   "note": "The statement as worded, with the defects of the code that it lists (theorems _refute), is entirely proved. Exact arithmetic; refuted for logarithmic inverse conversions and for a vertical axis on the left. The drawing primitives of the canvas are not modelled."
  },
  {
   "property": "C190",
   "status": "proved",
   "theorems": [
    "Verif.Cmap.C190_bornes",
    "Verif.Cmap.C190_interpolation",
    "Verif.Cmap.C190_continu",
    "Verif.Cmap.C190_continu_refute",
    "Verif.Cmap.C190_relations",
    "Verif.Cmap.C190_inconnue"
   ],
   "note": "The statement as worded, with the defects of the code that it lists (theorems _refute), is entirely proved. exact arithmetic instead of float; violated by mono-per (C190_continu_refute)"
  },
  {
   "property": "C191",
   "status": "proved",
   "theorems": [
    "Verif.Rect.C191_coins",
    "Verif.Rect.C191_englobant",
    "Verif.Rect.C191_englobant_reel",
    "Verif.Rect.C191_aller_retour",
    "Verif.Rect.C191_contient_reel",
    "Verif.Rect.C191_contient_signe",
    "Verif.Rect.C191_contient_refute",
    "Verif.Rect.C191_centre",
    "Verif.Rect.C191_norme",
    "Verif.Rect.C191_norme_refute"
   ],
   "note": "The statement as worded, with the defects of the code that it lists (theorems _refute), is entirely proved. unbounded integers (except the norm) and exact reals; membership of integer rectangles and norm of large points violated (_refute theorems)"
  },
  {
   "property": "C192",
   "status": "proved",
   "theorems": [
    "Verif.AligneDyn.C192_constant",
    "Verif.AligneDyn.C192_aligne",
    "Verif.AligneDyn.C192_invariant",
    "Verif.AligneDyn.C192_regime"
   ],
   "note": "the samples are only copied; the pairs are those given to the output buffers, whose callbacks are empty in the code, so that no public function returns them"
  },
  {
   "property": "C193",
   "status": "proved",
   "theorems": [
    "Verif.CanalDisp.C193_doppler",
    "Verif.CanalDisp.C193_produit",
    "Verif.CanalDisp.C193_reussite",
    "Verif.CanalDisp.C193_petits_blocs_refute"
   ],
   "note": "The statement as worded, with the defects of the code that it lists (theorems _refute), is entirely proved. The noise chain (white noise, Doppler filter, resampler) is an abstract state machine; exact arithmetic; acceptance of every block size is refuted. Complements C125 and C126."
  },
  {
   "property": "C194",
   "status": "proved",
   "theorems": [
    "Verif.Telecom.Rpll.C194_blocs",
    "Verif.Telecom.Rpll.C194_sans_filtre_refute",
    "Verif.Telecom.Rpll.C194_verrou",
    "Verif.Telecom.Rpll.C194_phase_refute",
    "Verif.Telecom.Rpll.C194_choix"
   ],
   "note": "The statement as worded, with the defects of the code that it lists (theorems _refute), is entirely proved. Exact arithmetic, abstract base band filter; lock proved for the first-order loop with the default detector; locking on the input phase is refuted, as is the use without base band filter."
  },
  {
   "property": "C195",
   "status": "proved",
   "theorems": [
    "Verif.BitStream.Alea.C195_suite",
    "Verif.BitStream.Alea.C195_randb_refute",
    "Verif.BitStream.Alea.C195_flux",
    "Verif.BitStream.Alea.C195_flux_egal_refute"
   ],
   "note": "The statement as worded, with the defects of the code that it lists (theorems _refute), is entirely proved. Engine and distributions of the standard library are abstract; randb and the comparison of random bit streams violate the expected property (refuted)."
  },
  {
   "property": "C196",
   "status": "partial",
   "theorems": [
    "Verif.Reechan.Comp.C196_analyse",
    "Verif.Reechan.Comp.C196_un_refute",
    "Verif.Reechan.Comp.C196_gabarit",
    "Verif.Reechan.Comp.C196_large_refute",
    "Verif.Reechan.Comp.C196_continu",
    "Verif.Reechan.Comp.C196_points_partial",
    "Verif.Reechan.Comp.C196_plat_refute"
   ],
   "note": "proved in exact arithmetic for M ≤ 2; the plotted figures are not modelled; R = 1 and a cut-off at the band edge are refuted (error), and the flatness at the output frequencies is refuted (the template uses k/8192 while the design uses k/(2n-1))"
  },
  {
   "property": "C197",
   "status": "proved",
   "theorems": [
    "Verif.Elliptique.C197_fin",
    "Verif.Elliptique.C197_infini_refute",
    "Verif.Elliptique.C197_structure",
    "Verif.Elliptique.C197_modules",
    "Verif.Elliptique.C197_impair_refute"
   ],
   "note": "The statement as worded, with the defects of the code that it lists (theorems _refute), is entirely proved. exact arithmetic; orders below 256000; stability of the poles and the equiripple gain curve are not proved"
  },
  {
   "property": "C198",
   "status": "proved",
   "theorems": [
    "Verif.TabTypes.C198_formats",
    "Verif.TabTypes.C198_autres_refute",
    "Verif.TabTypes.C198_vues",
    "Verif.TabTypes.C198_block_refute",
    "Verif.TabTypes.C198_abs_refute",
    "Verif.TabTypes.C198_compare_refute",
    "Verif.TabTypes.C198_aller_retour",
    "Verif.TabTypes.C198_reduction",
    "Verif.TabTypes.C198_approx",
    "Verif.TabTypes.C198_ecart",
    "Verif.TabTypes.C198_nul"
   ],
   "note": "The statement as worded, with the defects of the code that it lists (theorems _refute), is entirely proved. exact numbers (no rounding between float and double); Eigen's isApprox is modelled from its documentation; conversions of boolean arrays only to and from integers; refuted parts are stated as theorems"
  },
  {
   "property": "C199",
   "status": "proved",
   "theorems": [
    "Tableau.C199_vconcat_refute",
    "Tableau.C199_hconcat_refute",
    "Tableau.C199_contenu_refute"
   ],
   "note": "The statement as worded, with the defects of the code that it lists (theorems _refute), is entirely proved. refuted: both functions fail for every float matrix (other types throw, C198); the vector version is proved in C33"
  },
  {
   "property": "C200",
   "status": "partial",
   "theorems": [
    "Verif.Dsp.C200_exact",
    "Verif.Dsp.C200_defaut_refute",
    "Verif.Dsp.C200_porteuse_refute",
    "Verif.Dsp.C200_sans_decision_refute"
   ],
   "note": "The property is false of the code: exact effect of the copy proved for all values, property refuted with witnesses (default settings, carrier loop, decision mode)."
  },
  {
   "property": "C201",
   "status": "proved",
   "theorems": [
    "Verif.Dsp.C201_copie",
    "Verif.Dsp.C201_structures",
    "Verif.Dsp.C201_tailles"
   ],
   "note": ""
  },
  {
   "property": "C202",
   "status": "partial",
   "theorems": [
    "Verif.Dsp.C202_sigimp_refute",
    "Verif.Dsp.C202_sigimp_exact",
    "Verif.Dsp.C202_ask_refute",
    "Verif.Dsp.C202_pll_refute",
    "Verif.Dsp.C202_pll_difference",
    "Verif.Dsp.C202_rpll_refute",
    "Verif.Dsp.C202_entete_refute",
    "Verif.Dsp.C202_entete",
    "Verif.Dsp.C202_quaternion_refute",
    "Verif.Dsp.C202_conversion_refute"
   ],
   "note": "Refuted for sigimp, waveform_ask, the two phase locked loops, the packet transmitter without header waveform, quaternions, table conversions; exact behaviour proved in each case. Only these functions of the English API are modelled."
  },
  {
   "property": "C203",
   "status": "partial",
   "theorems": [
    "Verif.Dsp.C203_direct",
    "Verif.Dsp.C203_direct_recu",
    "Verif.Dsp.C203_copie_refute",
    "Verif.Dsp.C203_survie_refute",
    "Verif.Dsp.C203_mode_refute"
   ],
   "note": "Holds for objects which are not copies; refuted for copies, and for the mode of the detector."
  },
  {
   "property": "C204",
   "status": "proved",
   "theorems": [
    "Verif.Conception.C204_slepian",
    "Verif.Conception.C204_signe",
    "Verif.Conception.C204_symetrie"
   ],
   "note": "exact arithmetic; the eigen solver is a parameter with its documented guarantees; the symmetry needs a simple greatest eigenvalue"
  },
  {
   "property": "C205",
   "status": "proved",
   "theorems": [
    "Verif.Util.C205_log",
    "Verif.Util.C205_raison",
    "Verif.Util.C205_temps",
    "Verif.Util.C205_duree",
    "Verif.Util.C205_negative_refute"
   ],
   "note": "The statement as worded, with the defects of the code that it lists (theorems _refute), is entirely proved. the grids are proved; refuted: a negative duration gives a negative number of points (C205_negative_refute)"
  },
  {
   "property": "C206",
   "status": "proved",
   "theorems": [
    "Verif.Geometrie.C206_groupe",
    "Verif.Geometrie.C206_axe",
    "Verif.Geometrie.C206_sens",
    "Verif.Geometrie.C206_numero_refute",
    "Verif.Geometrie.C206_vertical_refute"
   ],
   "note": "The statement as worded, with the defects of the code that it lists (theorems _refute), is entirely proved. the group laws are proved; refuted: the axis number is not checked (C206_numero_refute) and the attitude is lost at the vertical (C206_vertical_refute)"
  },
  {
   "property": "C207",
   "status": "proved",
   "theorems": [
    "Verif.Reechan.C207_flux",
    "Verif.Reechan.C207_transparent",
    "Verif.Reechan.C207_derive_refute"
   ],
   "note": "The statement as worded, with the unbounded drift (C207_derive_refute), is entirely proved. Exact real arithmetic, real samples."
  },
  {
   "property": "C208",
   "status": "proved",
   "theorems": [
    "Verif.Moniteur.C208_appels",
    "Verif.Moniteur.C208_charge",
    "Verif.Moniteur.C208_plein",
    "Verif.Moniteur.C208_longue_refute",
    "Verif.Moniteur.C208_cherche",
    "Verif.Moniteur.C208_course_refute"
   ],
   "note": "The statement as worded, with the defects it lists (C208_longue_refute, C208_course_refute), is entirely proved. The two clocks read by one call are taken at the same instant; exact rationals instead of float."
  },
  {
   "property": "C209",
   "status": "proved",
   "theorems": [
    "Verif.Fourier.C209_sortie",
    "Verif.Fourier.C209_reconstruction",
    "Verif.Fourier.C209_reconstruction_refute"
   ],
   "note": "statement (with the violations it lists) proved in exact arithmetic; Ne even; memcpy onto itself read as no change"
  },
  {
   "property": "C210",
   "status": "proved",
   "theorems": [
    "Verif.Fourier.C210_periodogramme",
    "Verif.Fourier.C210_court_refute"
   ],
   "note": "exact arithmetic; N even"
  },
  {
   "property": "C211",
   "status": "proved",
   "theorems": [
    "Tableau.LigneExt.C211_contenu",
    "Tableau.LigneExt.C211_entree_modifiee_refute",
    "Tableau.LigneExt.C211_court_refute",
    "Tableau.LigneExt.C211_meme_vecteur_refute",
    "Tableau.LigneExt.C211_fenetre"
   ],
   "note": "Statement with its listed defects entirely proved. Buffers, views and variables as in C36. The detection itself (peaks) is not part of this property."
  },
  {
   "property": "C212",
   "status": "proved",
   "theorems": [
    "Verif.Figures.C212_rendue",
    "Verif.Figures.C212_stable",
    "Verif.Figures.C212_change",
    "Verif.Figures.C212_code",
    "Verif.Figures.C212_auto_ajout",
    "Verif.Figures.C212_zones",
    "Verif.Figures.C212_auto",
    "Verif.Figures.C212_dessin",
    "Verif.Figures.C212_transpose_refute",
    "Verif.Figures.C212_hors_grille_refute",
    "Verif.Figures.C212_gcf_refute",
    "Verif.Figures.C212_gf"
   ],
   "note": "The whole statement is proved, with the violations. Integers are unbounded; the figures are opaque."
  },
  {
   "property": "C213",
   "status": "proved",
   "theorems": [
    "Verif.FigureRegion.C213_vertical",
    "Verif.FigureRegion.C213_horizontal",
    "Verif.FigureRegion.C213_hauteur",
    "Verif.FigureRegion.C213_impose",
    "Verif.FigureRegion.C213_minimale",
    "Verif.FigureRegion.C213_serre",
    "Verif.FigureRegion.C213_marges",
    "Verif.FigureRegion.C213_point",
    "Verif.FigureRegion.C213_negatif_refute",
    "Verif.FigureRegion.C213_image_refute",
    "Verif.FigureRegion.C213_rdi_refute",
    "Verif.FigureRegion.C213_bande_refute"
   ],
   "note": "The whole statement is proved, with the violations. Exact arithmetic; finite abscissas; the margins are modelled for linear axes."
  },
  {
   "property": "C214",
   "status": "proved",
   "theorems": [
    "Verif.FigurePlot.C214_ajout",
    "Verif.FigurePlot.C214_implicite",
    "Verif.FigurePlot.C214_rien",
    "Verif.FigurePlot.C214_ordre",
    "Verif.FigurePlot.C214_format",
    "Verif.FigurePlot.C214_defaut",
    "Verif.FigurePlot.C214_noir_refute",
    "Verif.FigurePlot.C214_complexe",
    "Verif.FigurePlot.C214_options",
    "Verif.FigurePlot.C214_psd_reel",
    "Verif.FigurePlot.C214_psd_refute"
   ],
   "note": "The whole statement is proved, with the violations. Exact arithmetic; the spectrum itself is not modelled here (C27, C68)."
  },
  {
   "property": "C215",
   "status": "proved",
   "theorems": [
    "Verif.Polygone.C215_oriente",
    "Verif.Polygone.C215_tri",
    "Verif.Polygone.C215_rempli",
    "Verif.Polygone.C215_bord_refute",
    "Verif.Polygone.C215_haut"
   ],
   "note": "The whole statement is proved, with the violations. Exact arithmetic for the crossings; the drawing of a horizontal segment is C167."
  },
  {
   "property": "C216",
   "status": "proved",
   "theorems": [
    "Verif.Canva.C216_ajoute",
    "Verif.Canva.C216_dedans",
    "Verif.Canva.C216_compose",
    "Verif.Canva.C216_coins",
    "Verif.Canva.C216_deborde_refute",
    "Verif.Canva.C216_angles_refute",
    "Verif.Canva.C216_englobante",
    "Verif.Canva.C216_ligne",
    "Verif.Canva.C216_cercle_refute"
   ],
   "note": "The whole statement is proved, with the violations. Exact arithmetic; linear axes (logarithmic ones: C189)."
  },
  {
   "property": "C217",
   "status": "proved",
   "theorems": [
    "Verif.FigureCourbes.C217_lignes",
    "Verif.FigureCourbes.C217_ordre",
    "Verif.FigureCourbes.C217_traverse_refute",
    "Verif.FigureCourbes.C217_restriction",
    "Verif.FigureCourbes.C217_restriction_lignes",
    "Verif.FigureCourbes.C217_taille",
    "Verif.FigureCourbes.C217_enveloppe",
    "Verif.FigureCourbes.C217_bloc",
    "Verif.FigureCourbes.C217_dernier_refute",
    "Verif.FigureCourbes.C217_bandes_extremes",
    "Verif.FigureCourbes.C217_reste",
    "Verif.FigureCourbes.C217_donnees_refute",
    "Verif.FigureCourbes.C217_perte",
    "Verif.FigureCourbes.C217_sigma_refute",
    "Verif.FigureCourbes.C217_second",
    "Verif.FigureCourbes.C217_zoom_refute",
    "Verif.FigureCourbes.C217_remplissage",
    "Verif.FigureCourbes.C217_sigma",
    "Verif.FigureCourbes.C217_bandes",
    "Verif.FigureCourbes.C217_bandes_refute",
    "Verif.FigureCourbes.C217_batons",
    "Verif.FigureCourbes.C217_marques"
   ],
   "note": ""
  },
  {
   "property": "C218",
   "status": "proved",
   "theorems": [
    "Verif.FigureImage.C218_grille",
    "Verif.FigureImage.C218_grille_refute",
    "Verif.FigureImage.C218_cases",
    "Verif.FigureImage.C218_pavage",
    "Verif.FigureImage.C218_defaut",
    "Verif.FigureImage.C218_normalise",
    "Verif.FigureImage.C218_constante_refute",
    "Verif.FigureImage.C218_affine",
    "Verif.FigureImage.C218_options",
    "Verif.FigureImage.C218_vide_refute",
    "Verif.FigureImage.C218_brut"
   ],
   "note": ""
  },
  {
   "property": "C219",
   "status": "proved",
   "theorems": [
    "Verif.ArcEllipse.C219_arc",
    "Verif.ArcEllipse.C219_complet",
    "Verif.ArcEllipse.C219_limite_refute",
    "Verif.ArcEllipse.C219_plate_refute",
    "Verif.ArcEllipse.C219_centre_refute",
    "Verif.ArcEllipse.C219_boite",
    "Verif.ArcEllipse.C219_continu",
    "Verif.ArcEllipse.C219_trou_refute",
    "Verif.ArcEllipse.C219_image"
   ],
   "note": ""
  },
  {
   "property": "C220",
   "status": "proved",
   "theorems": [
    "Verif.ImageFichier.C220_contenu",
    "Verif.ImageFichier.C220_opaque",
    "Verif.ImageFichier.C220_transparence_refute",
    "Verif.ImageFichier.C220_chemin",
    "Verif.ImageFichier.C220_nom",
    "Verif.ImageFichier.C220_extension",
    "Verif.ImageFichier.C220_courant_refute"
   ],
   "note": "The PNG library is taken as lossless; the C++ library is taken to refuse the creation of a directory with an empty name (std::filesystem::create_directory)."
  },
  {
   "property": "C221",
   "status": "proved",
   "theorems": [
    "Verif.Accu.C221_densite",
    "Verif.Accu.C221_opacite",
    "Verif.Accu.C221_rendu",
    "Verif.Accu.C221_ordre",
    "Verif.Accu.C221_repete",
    "Verif.Accu.C221_bord_refute"
   ],
   "note": "The counters are exact naturals (float counters in the code)."
  },
  {
   "property": "C222",
   "status": "proved",
   "theorems": [
    "Verif.ImageElt.C222_dessine",
    "Verif.ImageElt.C222_exact",
    "Verif.ImageElt.C222_colonne_refute",
    "Verif.ImageElt.C222_etroit_refute"
   ],
   "note": "Integers are unbounded: the products of dimensions overflow int for very large zooms in the code."
  },
  {
   "property": "C223",
   "status": "proved",
   "theorems": [
    "Verif.Texte.C223_dimensions",
    "Verif.Texte.C223_termine",
    "Verif.Texte.C223_affiche",
    "Verif.Texte.C223_groupe",
    "Verif.Texte.C223_meme_echelle",
    "Verif.Texte.C223_groupe_refute"
   ],
   "note": "texte_dim (freetype) is a parameter with non negative dimensions."
  },
  {
   "property": "C224",
   "status": "proved",
   "theorems": [
    "Verif.Legende.C224_montree",
    "Verif.Legende.C224_dedans",
    "Verif.Legende.C224_coin",
    "Verif.Legende.C224_lignes",
    "Verif.Legende.C224_pave_refute",
    "Verif.Legende.C224_codes",
    "Verif.Legende.C224_inconnu"
   ],
   "note": "the violated parts are proved with witnesses (C224_pave_refute, C224_inconnu)"
  },
  {
   "property": "C225",
   "status": "proved",
   "theorems": [
    "Verif.Bande.C225_bande",
    "Verif.Bande.C225_raccord",
    "Verif.Bande.C225_decroissant_refute",
    "Verif.Bande.C225_colonne_refute",
    "Verif.Bande.C225_moins_un_refute"
   ],
   "note": "the violated parts are proved (C225_decroissant_refute, C225_colonne_refute, C225_moins_un_refute)"
  },
  {
   "property": "C226",
   "status": "proved",
   "theorems": [
    "Verif.Cadre.C226_rectangle",
    "Verif.Cadre.C226_ordre",
    "Verif.Cadre.C226_mince_refute",
    "Verif.Cadre.C226_moitie_refute",
    "Verif.Cadre.C226_epais_refute"
   ],
   "note": "the violated parts are proved with witnesses (C226_mince_refute, C226_moitie_refute, C226_epais_refute)"
  },
  {
   "property": "C227",
   "status": "proved",
   "theorems": [
    "Verif.Etiquette.C227_limites",
    "Verif.Etiquette.C227_alignement",
    "Verif.Etiquette.C227_dessin",
    "Verif.Etiquette.C227_gauche_refute",
    "Verif.Etiquette.C227_emboite_refute",
    "Verif.Etiquette.C227_emboite_absent_refute"
   ],
   "note": "the violated parts are proved with witnesses (C227_gauche_refute, C227_emboite_refute, C227_emboite_absent_refute)"
  },
  {
   "property": "C228",
   "status": "proved",
   "theorems": [
    "Verif.AnalyseForme.C228_sympad",
    "Verif.AnalyseForme.C228_temps",
    "Verif.AnalyseForme.C228_courbe",
    "Verif.AnalyseForme.C228_pair_refute",
    "Verif.AnalyseForme.C228_court_refute",
    "Verif.AnalyseForme.C228_theorique",
    "Verif.AnalyseForme.C228_theorique_refute"
   ],
   "note": "The statement as worded, with the defects of the code that it lists (theorems _refute), is entirely proved, over exact arithmetic. Frequency responses, plots and the theoretical response of the Gaussian and raised-cosine pulses are not modelled."
  }
 ]
}