{
 "C05": {
  "note": "custom_backends with the documented list is not nanograv_backends (CHIME and VEGAS are missing from the docstring list), and a dictionary with two flags whose values coincide loses masks; both negations are proved, with the conditions under which the documented recoveries hold."
 },
 "C101": {
  "note": "C101_unit, C101_geometry, C101_partial, C101_pint and C101_refused prove the claim for pulsars with one kind of coordinates and no B in their name, given that pyephem and libstempo mean the same rotation. When both kinds are set the direction is rotated by the obliquity though it is equatorial already (C101_both_false); any B in the name, even that of a companion, asks for the equinox of 1950 (C101_epoch_false)."
 },
 "C102": {
  "note": "C102_names, C102_tempo2_partial and C102_pint_partial prove keys, values and ranges for the bins that are listed. libstempo: fit is true for bins that are not fitted (C102_fit_false). PINT: frozen bins are missing (C102_frozen_false)."
 },
 "C104": {
  "note": "C104_partial and C104_signal prove the claim for every history in which no call with vector priors follows one with matrix priors; C104_slices gives the columns, C104_errors the exceptions. Otherwise the vector is written over whole rows of the block (C104_mixed_false)."
 },
 "C106": {
  "note": "C106_likelihood_partial proves equal likelihoods whenever there is an epoch (with a hash without collisions); C106_covariance needs no epoch. Without epochs EcorrBasisModel raises an IndexError (C106_none_false)."
 },
 "C107": {
  "note": "C107_sparse for any number of classes, C107_methods for one class with vector priors and all methods, C107_cliques for several classes that share columns in the same way in all pulsars, C107_hellings_downs without any assumption on the correlations. C107_same_needed shows that the prior has to be the same in all pulsars."
 },
 "C108": {
  "note": "C108_process for any spectrum that gives the sine and the cosine of one frequency the same variance, C108_powerlaw for the power law. With combine=True the columns of the process have to be distinct (see C104 and C105 for what happens otherwise)."
 },
 "C109": {
  "note": "Processes with combine=True have to have distinct columns, and the columns of the timing model have to be distinct (linearly independent for the marginalizing one). MarginalizingTimingModel comes first in the list of noise signals (see C51 for other orders)."
 },
 "C110": {
  "note": "Exact for all sessions (C110_span); C110_order and C110_reuse are the sessions in which the span is not that of the array."
 },
 "C111": {
  "note": "Processes with combine=True have to have distinct columns; positions are distinct unit vectors. C111_sparse is for any spectrum and positive definite overlaps, C111_hellings_downs for all methods; there the other processes have priors that are vectors."
 },
 "C112": {
  "note": "For arrays with several common processes C112_sparse; for other methods one common process (C112_methods). Instances are in Props/EphemGp."
 },
 "C113": {
  "note": "The columns of each basis with combine=True have to be distinct, which excludes positions with equal coordinates. C113_components is the case of the default components=2."
 },
 "C114": {
  "note": "The frame column is a quotient of differences with step 1e-5, as in the code (see C95_frame). Columns have to be distinct, positions too."
 },
 "C115": {
  "note": "C115_sparse for any spectra and phases, C115_powerlaws and C115_cliques for power laws. Method partition is wrong for two classes (C50_two_classes_false)."
 },
 "C116": {
  "note": "C116_array for any number of common processes, C116_background for one with the overlaps of Hellings and Downs. Assumed as in C109: real arithmetic, columns of a basis that may be shared are distinct, noise not zero."
 },
 "C117": {
  "note": "C117 for every arrangement of the intervals in which each TOA is in one and none is empty; C117_made: the constructor makes such an arrangement from disjoint, nonempty intervals. Assumed: the DMX columns of the design matrix are, up to sign, the derivatives 1/(2.41e-4 nu^2) of the dispersion delay."
 },
 "C118": {
  "note": "Maps and correlations agree without restriction (C118_maps, C118_correlations, C118_real_*). The claim about coefficients is false of the code: sums over healpix pixels are not exact, and clmFromMap_fast improves them in three rounds where clmFromMap does not; on the coarsest map the coefficient 1 comes back as 8/9 and as 6560/6561 (C118_false). C118_coefficients says exactly what clmFromMap_fast gives in terms of clmFromMap; C118_inverse: coefficients are recovered if and only if the pixel sums are those of orthonormal functions; C118_partial: then the two functions agree on every map. Assumed: healpy's alm2map and map2alm are the sums that define them, with the same harmonics as scipy."
 },
 "C119": {
  "note": "C119_epochs, C119_delays and C119_overwrites without restriction; C119_between and C119_partial for TOAs in order. For TOAs out of order (pulsars loaded with sort=False) the claim is false: np.interp needs increasing TOAs and the code does not check; C119_false: two TOAs a day apart get each other's positions."
 },
 "C121": {
  "note": "scipy's odeint is an argument; Exact says that on success the rows are values of an exact solution, which the library meets only up to its tolerance. The chirp mass is a number (C97 for arrays)."
 },
 "C122": {
  "note": "numpy's generator is a uniform or standard normal stream; multivariate_normal is mu + z times the square root from the singular value decomposition, which is an argument. TruncNormal vectors need mu and sigma both numbers or both vectors (the mixed case is in C64)."
 },
 "C123": {
  "note": "Hypotheses as in C107: distinct columns for distinct processes, a positive definite overlap matrix, and Covered: sparse always, every way for one common process, cliques for processes shared alike."
 },
 "C124": {
  "note": "False in three ways (negations proved): two nested Functions with the same keyword (one parameter is read but not listed), dictionaries with an entry under the name of a constant (it replaces the constant but is in no cache key), and coefficients given to BasisCommonGP under a name without '_coefficients' (listed, but not in the cache key). Proved for all other signals and histories."
 },
 "C125": {
  "note": "C125_pair and C125_same: the integral. C125_maps and C125_anis: the limits; even_grid shows that there are evenly distributed pixels. That the pixels of healpix are evenly distributed is a fact about healpix and not modelled."
 },
 "C126": {
  "note": "C126_moved for any overlaps that the change of directions respects, C126_background for Hellings and Downs. The design matrix is data here: it is listed in the new order, with the same columns."
 },
 "C127": {
  "note": "Everything about the values and their names is proved. Two clauses are false of the code: EcorrKernelNoise does not put its name into the names of its parameters (C127_ecorr_name_false), and a missing EFAC or EQUAD silently is 1 or -8, the defaults of the Python functions (C127_missing_false); a missing ECORR does raise (C127_ecorr)."
 },
 "C128": {
  "note": "Over exact reals; the rounding of a prior of variance 1e40 in floating point is not modelled."
 },
 "C129": {
  "note": "Over exact reals: underflow of 10 ** (2 log10_A) to zero, after which the inverse of the prior is infinite, is not modelled."
 },
 "C130": {
  "note": "The last clause is false (C130_sampler_false): Parameter.sample always passes size, so that a sampler with the parameters of the prior, which the docstring of UserParameter asks for, raises TypeError. C130_sampler_partial: a sampler with an argument size in addition gets all values. Keywords that are Functions are left out here; C34, C35 and C80 are about them."
 },
 "C131": {
  "note": "False in general (C131_history_false): cf_sp is analysed for the nonzero entries of the first matrix and then only updated in place, which scikit-sparse documents for matrices with the same pattern only; a first call with a vanishing cross-correlation breaks that. C131_history_partial: proved when the matrices of all calls have the same nonzero entries. Without that hypothesis: the first call (C131_first), repeated calls (C131_again), LogLikelihoodDenseCholesky (C131_dense) and arrays without common signals (C131_no_common). That the arrays of get_TNT and get_TNr are not changed in place is part of the model."
 },
 "C132": {
  "note": "Real arithmetic; TimingModel that is not marginalized over has the fixed prior 1e40, which has a unit, so the identity is claimed for marginalized timing models only (C128 bounds the difference)."
 },
 "C133": {
  "note": "Real arithmetic. C133_bound: the bound; C133_evidence: the integral over the prior."
 },
 "C134": {
  "note": "Real arithmetic. C134_density: the integral; C134_truth: the expectations and the case of equality; C134_amplitude: strictness for the amplitude of a common process."
 },
 "C135": {
  "note": "Real arithmetic. C135_reduced: the identity; C135_truth: the integral, the expectations and the case of equality; Reduced.exists_annihilator: a matrix G exists."
 },
 "C136": {
  "note": "C136_pickle_partial: to_pickle after any calls. C136_drop_partial: the drop methods work exactly if a timing object is still there. False of the code: the drop methods suppress NameError, but del of a missing attribute raises AttributeError, so they raise for a pulsar built with the defaults, when called twice and after to_pickle (C136_drop_false); a to_pickle that fails has stripped the pulsar (C136_unsaved_false); after del psr.model by hand to_pickle replaces a good file by a broken one (C136_by_hand_false)."
 },
 "C137": {
  "note": "Operation-by-operation binary64 arithmetic with any rounding rule; elementary functions only assumed to meet coarse bounds. True of Uniform parameters and of arrays of them (C137_uniform, C137_uniform_lnprior), and of sums in any order (C137_lnprior). False of the others: the Normal density underflows from 40 standard deviations, so the log prior is -inf there (C137_normal_false); LinearExp gives NaN instead of -inf at +inf and from 309, where 10**value overflows and is multiplied by the mask (C137_linexp_false); NaN gives NaN (C137_nan_false), and spreads to get_lnprior (C137_lnprior_false). What holds of them: C137_normal_partial, C137_standard_partial, C137_trunc_partial, C137_linexp_partial. For ranges out of the ordinary: Uniform with equal bounds gives +inf or NaN (C137_point_false), Uniform with an infinite bound gives -inf everywhere (C137_unbounded_false), LinearExp above 309 NaN (C137_powers_false), and TruncNormal with a range nine or more standard deviations out +inf inside and NaN outside, because the difference of the two erf is zero (C137_tail_false)."
 },
 "C138": {
  "note": "Epochs (C138_epochs, for TOAs not below dt; C138_short, for all TOAs) and windows (C138_window) are proved. False of the code: stoas are MJDs times 86400 and are divided by 86400 again, which for one MJD in six does not give the MJD back, so a TOA at the lower edge of a DMX bin is not found in it and WidebandTimingModel raises (C138_bins_false, at MJD 57088.4987); the midpoint of two TOAs next to each other can be rounded to the later one (C138_halves_false). What holds: C138_bins_partial, C138_halves_partial."
 },
 "C139": {
  "note": "C139_marginal_partial (timing models not marginalized over) and C139_wide_partial (marginalized over, with C139_bases for the columns): true if every epoch of ECORR of which a TOA is kept keeps a TOA at its first time and two TOAs if it has two (for instance if whole epochs are dropped), and if the columns of a timing model that is not marginalized over keep their values; with marginalization the factor also has the determinant of the change of basis, which no parameter or residual changes. False of the code: a TOA left alone in its epoch loses the ECORR variance (C139_epoch_false); dropping the first TOA of an epoch can join the next TOA to the following epoch (C139_merge_false); the columns of the default timing model are divided by their norm over the TOAs, so that without marginalization the prior of the timing parameters changes (C139_normed_false)."
 },
 "C140": {
  "note": "Uniform draws are in the range for all random numbers, with and without fused multiply-add, though numpy rounds the width (C140_uniform; OverflowError for ranges wider than the largest number, C140_overflow); percent points do not decrease (C140_ppf_mono) and are in the range below 100 percent (C140_ppf_partial). False of the code: the percent point at 1 can be above pmax, with log prior -inf (C140_ppf_false; it also happens for two-decimal bounds such as -12.01 and 5.11); LinearExp values leave the range where log10(10**pmin) < pmin (C140_linexp_false; otherwise C140_linexp_partial); TruncNormal accepts its bounds, where its prior is zero (C140_trunc_false, C140_trunc_partial)."
 },
 "C141": {
  "note": "Proved for all rounding rules and all power functions with errors of at most 4 * 2^-51 (the structure Powers); the one that rounds down is an instance. The widths of the frequency bins are differences of harmonics, so that their relative error grows with the mode."
 },
 "C142": {
  "note": "C142_shared holds for any rounding rule, any time span and TOAs, also infinite ones. C142_bounds is the witness (T = 297, two and six modes) that frequencies from np.linspace differ in the last bit when rounding to nearest. C142_accurate: the error of a phase theta + p is at most (14 theta + 2 p) 2^-51."
 },
 "C143": {
  "note": "Proved for all trees of additions (Tree, DotTree) and all rounding rules; the logarithm is assumed to have an error of at most 2^-51 (1 + |log x|) (GoodLog; logLib is an instance). The likelihood leaves out the constant with 2 pi, as the code does. The masks of the selections, products with one and sums with zero, are left out."
 },
 "C144": {
  "note": "Proved for all trees of additions and all rounding rules, with the assumption GoodLog on the logarithm as in C143. The size of the terms counts r^2/n twice, once for the subtracted part (Cauchy's inequality), with |r| raised by about a nanosecond so that underflow is covered. That the exact formula is the Gaussian density with covariance N + U J U^T is C51 and C52. The indices of the epochs are left out."
 },
 "C145": {
  "note": "False of the code for pulsars close to each other (C145_hd_false): if the positions are not equal to the last bit, but closer than about 1e-8, then the computed scalar product is 1 and hd_orf returns 0 * log(0), NaN, on every machine; also for one direction whose two computed positions differ by rounding. C145_hd_partial proves that the value is otherwise accurate, and never NaN for pulsars more than about 0.04 arc seconds apart. Dipole, monopole and symmetry hold without exception. The logarithm is assumed to be accurate as in C143."
 },
 "C146": {
  "note": "Proved for the signals themselves (combine=False, no process in coefficient mode, distinct names, as in C60). For tm_params it is false of the code in four ways: with use_svd=True a column of the basis belongs to no single parameter (C146_svd_false), with idx_exclude the columns are shifted against fitpars (C146_exclude_false), the fitpars of one pulsar are used for all of them (C146_pulsars_false), and pulsars whose names agree up to the first underscore overwrite each other's entries (C146_names_false). With normed=True the coefficient is that of the normalised column. Otherwise entries are right (C146_draws, C146_common) and unknown parameters raise (C146_unknown, for the first pulsar).",
  "status": "partial"
 },
 "C147": {
  "note": "Proved for columns whose sum of squares is between 2^-900 and 2^980 (C147_accurate_partial, C147_length_partial), finiteness for all columns (C147_finite), zeros (C147_zero), norms of the user (C147_given). An entry of 2^512 or more overflows the squares (C147_overflow_false) and entries below 2^-538 underflow them (C147_underflow_false): the column becomes zero and the parameter is lost without an error.",
  "status": "partial"
 },
 "C148": {
  "note": "False: for every matrix TNT whose diagonal is not below 2^-78 the inverse prior is lost in rounding and Sigma equals TNT bit by bit (C148_lost); with a column that occurs twice Sigma is exactly singular, the factorization fails in every order of operations and the likelihood is -inf although the exact one is finite (C148_degenerate_false). The effect of the prior in exact arithmetic is bounded in C128; where the factorization succeeds: C149.",
  "status": "partial"
 },
 "C149": {
  "note": "Proved for every rounding rule and every order of the operations (relations IsFactor, IsChol in Model/IeeeTm): success (C149_succeeds, C149_priors), backward error (C149_backward, without the condition on \u03bc), log-determinant (C149_logdet). Assumptions: the logarithm of the library has an error of at most 2^-51 (1 + |log x|) (GoodLog), diagonal within [2^-400, 2^400]. Below \u03bc of the order n^2 2^-51 failure is possible: C148_degenerate_false.",
  "status": "proved"
 },
 "C150": {
  "note": "Proved: C150_quadratic, C150_likelihood, for the numbers Sigma, TNr and logdet_phi that reach the loop (from the data on: C151); C150_finite: a value other than -inf needs every TNr and Sigma to be finite; C150_refused: NaN or inf in Sigma raises ValueError. Assumptions as in C149, |TNr_i| <= 2^100 sqrt(Sigma_ii), and 2^17 N^2 2^-51 <= \u03bc for the likelihood.",
  "status": "proved"
 },
 "C151": {
  "note": "Proved: C151_likelihood, for white noise without blocks (ndarray_alt) and the value of get_phiinv as a vector of numbers with its log-determinant. The condition is on the exact matrix of the data, not on the computed one. Assumptions: GoodLog as in C149, variances at least 2^-200, entries of the basis and residuals within 2^200, diagonal of Sigma within [2^-300, 2^300], sum of r^2/\u03bd at most 2^190.",
  "status": "proved"
 },
 "C152": {
  "note": "Proved: C152_likelihood, C152_machines. White noise without blocks (ndarray_alt) and processes with variances in a vector; the constant M/2 log 2\u03c0 is left out in code and specification. Assumptions: GoodLog as in C149; variances of TOAs within [2^-200, 2^200], of coefficients within [2^-299, 2^800], basis and residuals within 2^200, diagonal of the inverse covariance of the coefficients within [2^-299, 2^299], sum of r^2/\u03bd at most 2^190, K up to 2^22 TOAs. The variances are taken as given numbers; their own rounding is that of C141 and C143.",
  "status": "proved"
 },
 "C153": {
  "note": "Proved: C153_variances (variances with relative errors up to \u03b4 \u2264 2^-20, 200 \u03b4 N \u2264 \u03bc), C153_parameters. Signals in the order power law, timing model, with columns of their own; the bases and the residuals are given numbers. Assumptions: GoodLog as in C149, Powers as in C141; ranges a factor 2 narrower than those of C152 for the exact variances; errors and EFAC within e^\u00b1100, |log10_t2equad| \u2264 30 and binary64, |log10_A| \u2264 30, 0 \u2264 \u03b3 \u2264 7, time span between 1 and 2^50 s.",
  "status": "proved"
 },
 "C154": {
  "note": "Proved: C154_bases (columns with errors of weighted relative size \u03ba, variances with relative errors \u03b4), C154_times. Fourier basis without phase shifts, first columns those of the power law; the columns of the design matrix are not zero and none is left out (idx_exclude, see C147 and C91). Assumptions of C153, with ranges again a factor 2 narrower; TOAs between 1 and 2^50 s; columns with sums of squares within [2^-900, 2^980]; `Trig` as in C142.",
  "status": "proved"
 },
 "C155": {
  "note": "Proved: C155_chromatic. As in C154, with a list of processes in the order of the signals and then the timing model. Radio frequencies and reference frequencies between e^-20 and e^20; createfourierdesignmatrix_dm_tn, phase shifts and columns shared between processes are not covered. `H * 2^-51` times a chromatic factor is at most one.",
  "status": "proved"
 },
 "C156": {
  "note": "Proved: C156_shared. The assignment of columns is given, with the condition that only columns equal in exact arithmetic are joined (how the code finds it is the subject of the properties on `Model/Combine`). Otherwise as in C155.",
  "status": "proved"
 },
 "C157": {
  "note": "Proved for all names and catalogues (C157_listed, C157_unlisted, C157_letter), warning and positivity for the catalogue of the code (C157_warning); an empty name raises IndexError (C157_empty). The last clause is false: B1953+29 is listed at 5.39 kpc, but as J1955+2908 it is put at 1 kpc with a warning (C157_names_false). Numbers of the catalogue are rationals.",
  "status": "partial"
 },
 "C158": {
  "note": "Proved for all pulsars and parameters in the ranges (C158_epochs), for any epochs; the covariance is spelled out in C158_covariance. Numbers and an outcome exist (exists_epochs, exists_likelihood). The epochs are given (C138 has these from the times), signals do not share columns, and EcorrBasisModel comes after the timing model.",
  "status": "proved"
 },
 "C159": {
  "note": "C159_delay and C159_params prove the first clauses for all options, C159_defaults and C159_variances give the default priors. Two clauses are false: parameters without a value count as zero (C159_missing_false), and the variances of the drift and of the orbital elements are a third of those of the Gaussian process, as these are uniform (C159_variances, C159_variances_false).",
  "status": "partial"
 },
 "C16": {
  "note": "Site times, pulsar/Sun positions and telescope are not sliced, planet positions are misaligned unless the file is time ordered; negations proved. TOAs, errors, residuals, frequencies, flags, design matrix proved for all inputs."
 },
 "C160": {
  "note": "C160_items, C160_keyError, C160_dict prove keys, items, lookup and dict(obj) for distinct names. There is no __contains__ or __iter__: iteration gives the members (C160_iterate, C160_iterate_false), and name in obj is always False (C160_contains_false, C160_member). With two models of one pulsar dict(pta) has the first, dict(pta.items()) the last (C160_duplicates_false).",
  "status": "partial"
 },
 "C161": {
  "note": "Proved: C161_full joins C156 and C158. Numbers and an outcome exist (exists_full, exists_likelihood). The epochs and the assignment of columns are given, and EcorrBasisModel comes after the timing model in the list of signals; the order of the combined columns is free.",
  "status": "proved"
 },
 "C162": {
  "note": "Proved for LinearExp (C162_linexp_partial). Uniform checks nothing: with pmin > pmax every value, also a drawn one, has log density -inf and percent points are NaN (C162_uniform_false); with pmin = pmax the log density is +inf there and NaN elsewhere (C162_point_false). TruncNormal: with pmin > pmax the sampler never ends (C162_trunc_false), with pmin = pmax the density is NaN everywhere (C162_trunc_point_false). For numpy numbers; Python's own floats raise ZeroDivisionError when Uniform divides by zero.",
  "status": "partial"
 },
 "C17": {
  "note": "Columns of mixed sign that cancel are dropped and fitpars is not updated (negation proved); exact for non-negative columns."
 },
 "C18": {
  "note": "The fe_be concatenation is truncated to the widest existing flag (negation proved); exact under the width condition."
 },
 "C19": {
  "note": "Saving never succeeds: the metadata lookup raises for every pulsar (negation proved). With the lookup repaired, the file layout round trip is proved for one to ten planets; with eleven or more rows it is false."
 },
 "C20": {
  "note": "Every own entry is kept; entries of a pulsar whose name extends this one's are kept too (negation proved)."
 },
 "C23": {
  "note": "False after the first unlink: every retry raises FileNotFoundError and frees nothing (negation proved for all pulsars). Proved for failures before the first unlink."
 },
 "C25": {
  "note": "False for files with both TOAs and INCLUDE: the own TOAs are not counted, for any number (negation proved). Proved for any tree of includes in which no file has both."
 },
 "C27": {
  "note": "Never a wrong value: proved for every history. Retry: false when a fresh cache sees as many failures as it has slots (KeyError for ever, negation proved). What retries return is characterised exactly from every state of the cache (C27_retry_exact); after any history with another key cached they recover after finitely many KeyErrors (C27_recovers)."
 },
 "C29": {
  "note": "False for keys already cached, both through set_default_params and through an overriding value in params (negations proved for every method). Proved for every history: a call returns the value for constants in force at this or an earlier call with the same parameters (C29_former_partial); new constants are used in every call once the method has been called with as many new parameter values as the cache holds (C29_settles_partial), and this number cannot be lowered (C29_stale_false); keys not in the cache use the new constants at once (C29_uncached_partial)."
 },
 "C30": {
  "note": "False: calls for a, b, a return b's array the third time (negation proved for every a, b). What each call of any history returns is characterised exactly (C30_exact), and when it is wrong (C30_wrong_iff)."
 },
 "C33": {
  "note": "Proved for all histories of all pulsar- and signal-level methods when each signal method depends only on the names it is cached under. False for GPs with explicit coefficients and a varying basis (negation proved)."
 },
 "C35": {
  "note": "False: a nested Function's parameters are merged by keyword into the outer Function (Function.__init__), and outer keywords evaluated earlier are passed to nested Functions by name; three counterexamples are proved. Proved for trees in which no keyword of a nested Function repeats a keyword of an enclosing one."
 },
 "C36": {
  "note": "False when an argument that is given or defaulted precedes one filled from the pulsar (misbinding or TypeError), and for arrays whose length happens to equal the number of TOAs; proved when the filled names directly follow the positional ones. The mask never reaches nested Functions."
 },
 "C37": {
  "note": "False: shared hyperparameters, hierarchies of depth two and lists in which a hyperparameter follows the parameter using it (PTA.params is such a list, depending on names) are sampled inconsistently; three counterexamples are proved. Proved for depth one when no later element resamples a hyperparameter."
 },
 "C38": {
  "note": "Names must be unique for the list to be canonical, as the statement says; with two objects of the same name both are listed and the order depends on set traversal (C38_same_name_ambiguous shows the hypothesis is needed).",
  "status": "proved"
 },
 "C39": {
  "note": "The mapping, round trip and treatment of long vectors are proved for all lists; the clause that too-short vectors are rejected is false when the last parameter is a vector (it is silently truncated) and proved when it is a scalar."
 },
 "C41": {
  "note": "False for hierarchical priors: the quantile function is given the unit-cube values of the hyperparameters; proved for parameters without hyperparameters."
 },
 "C42": {
  "note": "Constants inside the prior of a Parameter are not reached; proved for all Constants registered in signals."
 },
 "C43": {
  "note": "For one keyword the names are injective in the selection key for all strings; across keywords it is false if one keyword ends with an underscore and the other, and proved otherwise."
 },
 "C44": {
  "note": "Proved for signal classes with any bracketing. For arrays, a pulsar model added to the left of an array raises AttributeError (exactly characterised), so addition of arrays is not associative; proved for left-nested sums."
 },
 "C46": {
  "note": "False when a combining signal follows a signal whose basis varies (C46_varying_false) and when a signal repeats a column (C46_repeated_false); proved otherwise, for hashes that tell columns apart (C46_partial)."
 },
 "C47": {
  "note": "Matrix arguments are fully proved; vector arguments need positions given as an index list or a diagonal kernel, because a slice with a dense kernel adds to the whole block (C47_slice_false)."
 },
 "C49": {
  "note": "Proved end to end when every group of correlated columns meets at most one existing clique (C49_partial), in particular for diagonal priors and one class (C49_one_class) or several classes that share columns in the same way in all pulsars (C49_aligned); false when a common signal joins two cliques, because np.in1d with a set never matches (C49_merge_false)."
 },
 "C50": {
  "note": "Proved for diagonal priors and one class of common signals, and with logdet for dense priors whose common columns are uncorrelated with the others; false for two classes on the same basis (C50_two_classes_false), for dense priors without logdet (C50_dense_false) and for correlated common columns (C50_coupled_false)."
 },
 "C51": {
  "note": "Exact for every call the class implements when each epoch has at least two TOAs (C51_partial); EcorrKernelNoise always makes such epochs (C51_ecorr). Epochs with one TOA are skipped by the loops (C51_single_false), and the solves are exact for the covariance without them (C51_short). A two-dimensional solve without left_array raises (C51_missing)."
 },
 "C52": {
  "note": "Exact when each epoch has at least two TOAs; epochs with one TOA are skipped (C52_single_false). EcorrKernelNoise never makes one-TOA epochs (C51_ecorr)."
 },
 "C53": {
  "note": "Proved when there is at least one epoch and bases have at least two columns (C53_partial; C53_block, C53_short for arbitrary blocks). Without epochs the block method raises ValueError (C53_no_epochs_false); with a one-column left array and a wider right one the block method raises TypeError (C53_shape_false)."
 },
 "C54": {
  "note": "Proved for all lists in which the marginalizing timing model stands before every Sherman-Morrison or block kernel, and for lists without it (C54_no_marg). A kernel before the marginalizing model raises (C54_order_false), two marginalizing models raise (C54_two_raise)."
 },
 "C55": {
  "note": "The kernel inside is any noise object whose solves are exact (arr_exact, sm_exact, block_exact, csc_exact). C55_logdet_dropped: with an equal but not identical left array the requested log determinant is not returned."
 },
 "C56": {
  "note": "Exact arithmetic; a pulsar's noise is any sum get_ndiag accepts whose solve is exact (C51-C54), with no timing model marginalized (C84 has that case). Includes the log priors of the signals, as the code does.",
  "status": "proved"
 },
 "C57": {
  "note": "With common signals the likelihood is the density of the joint covariance for method sparse whatever the classes, for cliques when the labels separate the prior covariance, and for every method with one class on distinct pulsars with diagonal priors; with zero cross terms it equals the loop over the pulsars. Missing: the cases where C49 or C50 fail, and a pulsar without a Gaussian process, for which the big-matrix branch raises (C57_no_basis_false).",
  "status": "partial"
 },
 "C58": {
  "note": "Any split of the processes of a pulsar into marginalized ones and one in coefficient mode, any selection of keys; the mean of the conditional Gaussian is the block of Sigma^-1 T^T N^-1 r that ConditionalGP computes (C58_mean).",
  "status": "proved"
 },
 "C59": {
  "note": "Holds with common signals (C59_common) and, without, in models without signals of type 'common basis' (C59_partial). Without common signals, i.e. in a PTA with one pulsar, a common-type signal is skipped and later signals get the wrong coefficients (C59_common_type_false).",
  "status": "partial"
 },
 "C60": {
  "note": "Labels, cover and disjointness, IndexError for shared bases, and the returned coefficients (with and without common signals). A process in coefficient mode or a pulsar without Gaussian processes makes it raise AttributeError (C60_coefficient_mode_false, C60_no_basis_false). The theorems on returned coefficients need distinct signal names: with repeated names the entry is that of the last signal (C60_last), and the earlier ones are lost (C60_lost, C60_names_false). tm_params and processes are in C146.",
  "status": "partial"
 },
 "C65": {
  "note": "Columns, prefix law and sin^2+cos^2=1 proved for every call with explicit frequencies or Tspan and without random shifts. Counterexamples: with fmin/fmax the frequencies are re-spaced so that fewer modes are no prefix (C65_bounds_false), unseeded phase shifts (C65_pshift_false), and a list of modes, which the docstring allows, raises TypeError (C65_list_false)."
 },
 "C66": {
  "note": "All spectra proved positive, equal on the columns of a frequency and independent of higher frequencies for the default two components. Counterexamples: a components argument that does not match the basis (C66_components_false) and a basis of a single column (C66_one_column_false)."
 },
 "C67": {
  "note": "Interpolation proved for all TOAs that are not all equal; with all TOAs equal the basis has no columns (C67_false)."
 },
 "C68": {
  "note": "False as stated: the constructor only checks that the numbers of intervals around the TOAs add up to the number of TOAs (C68_count), so a TOA in two bins makes up for one in none (C68_false). Proved: for disjoint intervals the claim holds (C68_partial); exact coverage is accepted (C68_complete); the default arguments are always rejected (C68_default)."
 },
 "C69": {
  "note": "Bins as assigned_of_make gives them: disjoint, each with a TOA. C69_empty_bin: a bin without TOAs passes the constructor and get_logsignalprior raises IndexError."
 },
 "C70": {
  "note": "Values are looked up by the parameter names; the reference jump is the constant zero unless the caller's dictionary has its name."
 },
 "C71": {
  "note": "Distinct positions are needed for definiteness: C71_same shows every correlation matrix singular for two pulsars at the same position. The dipole needs vectors of length at most 1.",
  "status": "proved"
 },
 "C72": {
  "note": "C72_inverse gives the other direction for coefficients whose m = 0 entries are real; C72_rejects and C72_truncates describe the other lengths. hp.Alm.getidx and getsize are modelled by healpy's formulas; the square roots are exact.",
  "status": "proved"
 },
 "C73": {
  "note": "One row of the (n, 3) arrays; exact reals.",
  "status": "proved"
 },
 "C74": {
  "note": "For every response matrix and every map without negative values; C74_pulsars with the response the code computes. Mismatched shapes are not modelled.",
  "status": "proved"
 },
 "C75": {
  "note": "C75_pattern and C75_bound exclude a pulsar exactly in the direction of the source (cosMu = 1), where the antenna pattern divides by zero (numpy: nan). bwm_delay multiplies its argument t0 in place: an array passed for t0 is changed for the caller; this is not modelled.",
  "status": "proved"
 },
 "C76": {
  "note": "Fixed is 0 without include_params, and a Constant held by two signals counts twice; the remaining cases are proved."
 },
 "C78": {
  "note": "Proved without symbolic links for all paths; false for the par file when the tim directory is reached through a link (negation proved). The tim file is always found."
 },
 "C80": {
  "note": "False when two nested Functions use the same keyword (only the last parameter is registered); proved when keywords are pairwise distinct."
 },
 "C82": {
  "note": "Proved for positive vectors and positive definite matrices; false for symmetric indefinite matrices, where u/s u^T is not the inverse (C82_indefinite_false). For symmetric invertible matrices the result is the inverse exactly when the matrix is positive definite (C82_exact)."
 },
 "C84": {
  "note": "The value is C84, its reading as a limit C84_limit.",
  "status": "proved"
 },
 "C85": {
  "note": "Holds for ConditionalGP (dense and sparse) and for get_coefficients from the singular value decomposition. get_coefficients(common_sparse=True) leaves out the fill-reducing permutation (C85_common_sparse_false); it is right when the factorization does not permute. The fallback for a decomposition that does not converge draws with the covariance Sigma instead of its inverse (C85_fallback_false).",
  "status": "partial"
 },
 "C89": {
  "note": "Reproducibility proved; the call resets the global generator when a seed is given, so later draws change (C89_state_false)."
 },
 "C91": {
  "note": "Proved for unnormed, normed and given norms for every matrix; for singular vectors if the columns are independent. If a combination of columns is zero the singular vectors allow for more corrections (C91_svd_false); excluding all columns raises (C91_none_left)."
 },
 "C94": {
  "note": "C94_partial: equality with the covariance of the map, given that healpy's alm2map is real-linear. C94_valid: valid where the map is nowhere negative. C94_false: for parameters that make the power negative the covariance is not positive semidefinite; the code does not check this."
 },
 "C95": {
  "note": "np.interp is modelled for increasing times. Orbit arrays and their times have matching lengths.",
  "status": "proved"
 },
 "C96": {
  "note": "Proved when all signals of the class are made before the first basis is asked for (C96_partial) or Tspan is given (C96_explicit). False otherwise: the span is kept in class-level lists and the basis is cached, so the frequencies depend on the order of calls (C96_order_false) and on pulsars of earlier arrays made from the same class (C96_foreign_false)."
 },
 "C97": {
  "note": "Proved for numbers. False for arrays: `mc *= Tsun`, `dl *= Mpc / c` and `t0 *= day` change the array of the caller (C97_false, C97_burst_false), also between the calls inside get_coupled_ecc_eqns and calculate_splus_scross (C97_evolution_false, C97_waveform_false)."
 },
 "C98": {
  "note": "C98_integral, C98_circular and C98_h0 prove the claim for the harmonics 1 to nmax - 1. The documented number of harmonics nmax is off by one: two harmonics of a circular binary give zero (C98_count_false)."
 }
}