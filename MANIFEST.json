{
 "claims": [
  {
   "property": "C01",
   "status": "proved",
   "theorems": [
    "Verif.Selections.C01_by_backend",
    "Verif.Selections.C01_by_telescope",
    "Verif.Selections.C01_by_band",
    "Verif.Selections.C01_by_frontend",
    "Verif.Selections.C01_no_selection"
   ],
   "note": ""
  },
  {
   "property": "C02",
   "status": "proved",
   "theorems": [
    "Verif.Selections.C02_cut_half"
   ],
   "note": ""
  },
  {
   "property": "C03",
   "status": "proved",
   "theorems": [
    "Verif.Selections.C03_nanograv_backends",
    "Verif.Selections.C03_custom_backends_list",
    "Verif.Selections.C03_custom_backends_str"
   ],
   "note": ""
  },
  {
   "property": "C04",
   "status": "proved",
   "theorems": [
    "Verif.Selections.C04_user_bands",
    "Verif.Selections.C04_default_bands"
   ],
   "note": ""
  },
  {
   "property": "C05",
   "status": "partial",
   "theorems": [
    "Verif.Selections.C05_recoveries_partial",
    "Verif.Selections.C05_doc_list_false",
    "Verif.Selections.C05_doc_list_partial",
    "Verif.Selections.C05_two_flags_false",
    "Verif.Selections.C05_two_flags_partial"
   ],
   "note": "custom_backends with the documented list is not nanograv_backends (CHIME and VEGAS are missing from the docstring list), and a dictionary with two flags whose values coincide loses masks; both negations are proved, with the conditions under which the documented recoveries hold."
  },
  {
   "property": "C06",
   "status": "proved",
   "theorems": [
    "Verif.Selections.C06_by_freq_band",
    "Verif.Selections.C06_custom_backends",
    "Verif.Selections.C06_custom_backends_dict"
   ],
   "note": ""
  },
  {
   "property": "C07",
   "status": "proved",
   "theorems": [
    "Verif.WhiteNoise.C07_sum",
    "Verif.WhiteNoise.C07_own_selection",
    "Verif.WhiteNoise.C07_other_params_irrelevant",
    "Verif.WhiteNoise.C07_uncovered_zero",
    "Verif.WhiteNoise.C07_measurement_noise",
    "Verif.WhiteNoise.C07_efac",
    "Verif.WhiteNoise.C07_tnequad",
    "Verif.WhiteNoise.C07_conventions_agree"
   ],
   "note": ""
  },
  {
   "property": "C08",
   "status": "proved",
   "theorems": [
    "Verif.WhiteNoise.C08_last_wins",
    "Verif.WhiteNoise.C08_own_selection",
    "Verif.WhiteNoise.C08_wrong_length_raises"
   ],
   "note": ""
  },
  {
   "property": "C09",
   "status": "proved",
   "theorems": [
    "Verif.Quantize.C09_epochs",
    "Verif.Quantize.C09_disjoint",
    "Verif.Quantize.C09_empty_raises"
   ],
   "note": ""
  },
  {
   "property": "C10",
   "status": "proved",
   "theorems": [
    "Verif.Quantize.C10_tie_independent",
    "Verif.Quantize.C10_permutation",
    "Verif.Quantize.C10_needs_positive_dt"
   ],
   "note": ""
  },
  {
   "property": "C11",
   "status": "proved",
   "theorems": [
    "Verif.Quantize.C11_round_trip",
    "Verif.Quantize.C11_zero_column_raises",
    "Verif.Quantize.C11_of_quantization"
   ],
   "note": ""
  },
  {
   "property": "C12",
   "status": "proved",
   "theorems": [
    "Verif.Quantize.C12_jvec_pairing",
    "Verif.Quantize.C12_ecorr_epochs"
   ],
   "note": ""
  },
  {
   "property": "C13",
   "status": "proved",
   "theorems": [
    "Verif.PulsarData.C13_one_permutation",
    "Verif.PulsarData.C13_sorted",
    "Verif.PulsarData.C13_unsorted",
    "Verif.PulsarData.C13_absent"
   ],
   "note": ""
  },
  {
   "property": "C14",
   "status": "proved",
   "theorems": [
    "Verif.PulsarData.C14_inverse"
   ],
   "note": ""
  },
  {
   "property": "C15",
   "status": "proved",
   "theorems": [
    "Verif.PulsarData.C15_set_flags",
    "Verif.PulsarData.C15_record_refused"
   ],
   "note": ""
  },
  {
   "property": "C16",
   "status": "partial",
   "theorems": [
    "Verif.PulsarData.C16_filter_partial",
    "Verif.PulsarData.C16_one_sided_raises",
    "Verif.PulsarData.C16_site_times_false",
    "Verif.PulsarData.C16_planets_false"
   ],
   "note": "Site times, pulsar/Sun positions and telescope are not sliced, planet positions are misaligned unless the file is time ordered; negations proved. TOAs, errors, residuals, frequencies, flags, design matrix proved for all inputs."
  },
  {
   "property": "C17",
   "status": "partial",
   "theorems": [
    "Verif.PulsarData.C17_columns_false",
    "Verif.PulsarData.C17_columns_partial"
   ],
   "note": "Columns of mixed sign that cancel are dropped and fitpars is not updated (negation proved); exact for non-negative columns."
  },
  {
   "property": "C18",
   "status": "partial",
   "theorems": [
    "Verif.PulsarData.C18_ranked_partial",
    "Verif.PulsarData.C18_truncation_false",
    "Verif.PulsarData.C18_no_flags_raises"
   ],
   "note": "The fe_be concatenation is truncated to the widest existing flag (negation proved); exact under the width condition."
  },
  {
   "property": "C19",
   "status": "partial",
   "theorems": [
    "Verif.Feather.C19_save_false",
    "Verif.Feather.C19_save_raises",
    "Verif.Feather.C19_missing",
    "Verif.Feather.C19_round_trip_partial",
    "Verif.Feather.C19_eleven_rows"
   ],
   "note": "Saving never succeeds: the metadata lookup raises for every pulsar (negation proved). With the lookup repaired, the file layout round trip is proved for one to ten planets; with eleven or more rows it is false."
  },
  {
   "property": "C20",
   "status": "partial",
   "theorems": [
    "Verif.Feather.C20_own_kept_partial",
    "Verif.Feather.C20_other_pulsar_false",
    "Verif.Feather.C20_source"
   ],
   "note": "Every own entry is kept; entries of a pulsar whose name extends this one's are kept too (negation proved)."
  },
  {
   "property": "C21",
   "status": "proved",
   "theorems": [
    "Verif.Inflate.C21_safety",
    "Verif.Inflate.C21_inflate_is_steps",
    "Verif.Inflate.C21_deflate_is_steps",
    "Verif.Inflate.C21_destroy_is_steps",
    "Verif.Inflate.C21_inflate_complete",
    "Verif.Inflate.C21_inflate_unlinked_raises",
    "Verif.Inflate.C21_inflate_after_destroy_raises",
    "Verif.Inflate.C21_no_ops"
   ],
   "note": ""
  },
  {
   "property": "C22",
   "status": "proved",
   "theorems": [
    "Verif.Inflate.C22_deflate_retry",
    "Verif.Inflate.C22_inflate_retry"
   ],
   "note": ""
  },
  {
   "property": "C23",
   "status": "partial",
   "theorems": [
    "Verif.Inflate.C23_destroy_retry_false",
    "Verif.Inflate.C23_destroy_retry_partial"
   ],
   "note": "False after the first unlink: every retry raises FileNotFoundError and frees nothing (negation proved for all pulsars). Proved for failures before the first unlink."
  },
  {
   "property": "C24",
   "status": "proved",
   "theorems": [
    "Verif.Loader.C24_cwd_restored",
    "Verif.Loader.C24_outcome",
    "Verif.Loader.C24_directory_gone"
   ],
   "note": ""
  },
  {
   "property": "C25",
   "status": "partial",
   "theorems": [
    "Verif.Loader.C25_enough_partial",
    "Verif.Loader.C25_mixed_false",
    "Verif.Loader.C25_cycle",
    "Verif.Loader.C25_include_name",
    "Verif.Loader.C25_missing"
   ],
   "note": "False for files with both TOAs and INCLUDE: the own TOAs are not counted, for any number (negation proved). Proved for any tree of includes in which no file has both."
  },
  {
   "property": "C26",
   "status": "proved",
   "theorems": [
    "Verif.Cache.C26_transparent",
    "Verif.Cache.C26_needs_listed"
   ],
   "note": ""
  },
  {
   "property": "C27",
   "status": "partial",
   "theorems": [
    "Verif.Cache.C27_never_wrong",
    "Verif.Cache.C27_retry_false",
    "Verif.Cache.C27_retry_partial",
    "Verif.Cache.C27_retry_exact",
    "Verif.Cache.C27_recovers"
   ],
   "note": "Never a wrong value: proved for every history. Retry: false when a fresh cache sees as many failures as it has slots (KeyError for ever, negation proved). What retries return is characterised exactly from every state of the cache (C27_retry_exact); after any history with another key cached they recover after finitely many KeyErrors (C27_recovers)."
  },
  {
   "property": "C28",
   "status": "proved",
   "theorems": [
    "Verif.Cache.C28_bounded",
    "Verif.Cache.C28_after_exceptions_unbounded",
    "Verif.Cache.C28_bounded_with_failures"
   ],
   "note": ""
  },
  {
   "property": "C29",
   "status": "partial",
   "theorems": [
    "Verif.Cache.C29_constants_false",
    "Verif.Cache.C29_override_false",
    "Verif.Cache.C29_uncached_partial",
    "Verif.Cache.C29_former_partial",
    "Verif.Cache.C29_settles_partial",
    "Verif.Cache.C29_stale_false"
   ],
   "note": "False for keys already cached, both through set_default_params and through an overriding value in params (negations proved for every method). Proved for every history: a call returns the value for constants in force at this or an earlier call with the same parameters (C29_former_partial); new constants are used in every call once the method has been called with as many new parameter values as the cache holds (C29_settles_partial), and this number cannot be lowered (C29_stale_false); keys not in the cache use the new constants at once (C29_uncached_partial)."
  },
  {
   "property": "C30",
   "status": "partial",
   "theorems": [
    "Verif.Cache.C30_buffer_false",
    "Verif.Cache.C30_buffer_partial",
    "Verif.Cache.C30_exact",
    "Verif.Cache.C30_wrong_iff"
   ],
   "note": "False: calls for a, b, a return b's array the third time (negation proved for every a, b). What each call of any history returns is characterised exactly (C30_exact), and when it is wrong (C30_wrong_iff)."
  },
  {
   "property": "C31",
   "status": "proved",
   "theorems": [
    "Verif.Cache.C31_limit_one"
   ],
   "note": ""
  },
  {
   "property": "C32",
   "status": "proved",
   "theorems": [
    "Verif.Cache.C32_memo",
    "Verif.Cache.C32_in_place_needed"
   ],
   "note": ""
  },
  {
   "property": "C33",
   "status": "partial",
   "theorems": [
    "Verif.Cache.C33_history_independent_partial",
    "Verif.Cache.C33_fresh_partial",
    "Verif.Cache.C33_meaning",
    "Verif.Cache.C33_sums",
    "Verif.Cache.C33_coefficients_false"
   ],
   "note": "Proved for all histories of all pulsar- and signal-level methods when each signal method depends only on the names it is cached under. False for GPs with explicit coefficients and a varying basis (negation proved)."
  },
  {
   "property": "C34",
   "status": "proved",
   "theorems": [
    "Verif.Fun.C34_precedence",
    "Verif.Fun.C34_func_override",
    "Verif.Fun.C34_add_kwarg_ignored"
   ],
   "note": ""
  },
  {
   "property": "C35",
   "status": "partial",
   "theorems": [
    "Verif.Fun.C35_no_capture_partial",
    "Verif.Fun.C35_parameter_false",
    "Verif.Fun.C35_value_false",
    "Verif.Fun.C35_inner_false",
    "Verif.Fun.C35_order_matters"
   ],
   "note": "False: a nested Function's parameters are merged by keyword into the outer Function (Function.__init__), and outer keywords evaluated earlier are passed to nested Functions by name; three counterexamples are proved. Proved for trees in which no keyword of a nested Function repeats a keyword of an enclosing one."
  },
  {
   "property": "C36",
   "status": "partial",
   "theorems": [
    "Verif.Fun.C36_attributes_partial",
    "Verif.Fun.C36_misbound_false",
    "Verif.Fun.C36_keyword_first_false",
    "Verif.Fun.C36_mask_false",
    "Verif.Fun.C36_mask_not_nested"
   ],
   "note": "False when an argument that is given or defaulted precedes one filled from the pulsar (misbinding or TypeError), and for arrays whose length happens to equal the number of TOAs; proved when the filled names directly follow the positional ones. The mask never reaches nested Functions."
  },
  {
   "property": "C37",
   "status": "partial",
   "theorems": [
    "Verif.Params.C37_consistent_partial",
    "Verif.Params.C37_shared_false",
    "Verif.Params.C37_deep_false",
    "Verif.Params.C37_order_false"
   ],
   "note": "False: shared hyperparameters, hierarchies of depth two and lists in which a hyperparameter follows the parameter using it (PTA.params is such a list, depending on names) are sampled inconsistently; three counterexamples are proved. Proved for depth one when no later element resamples a hyperparameter."
  },
  {
   "property": "C38",
   "status": "proved",
   "theorems": [
    "Verif.Params.C38_params",
    "Verif.Params.C38_canonical",
    "Verif.Params.C38_reorder",
    "Verif.Params.C38_closed",
    "Verif.Params.C38_names",
    "Verif.Params.C38_same_name_ambiguous"
   ],
   "note": "Names must be unique for the list to be canonical, as the statement says; with two objects of the same name both are listed and the order depends on set traversal (C38_same_name_ambiguous shows the hypothesis is needed)."
  },
  {
   "property": "C39",
   "status": "partial",
   "theorems": [
    "Verif.Params.C39_map_params",
    "Verif.Params.C39_extra_ignored",
    "Verif.Params.C39_short_partial",
    "Verif.Params.C39_short_false"
   ],
   "note": "The mapping, round trip and treatment of long vectors are proved for all lists; the clause that too-short vectors are rejected is false when the last parameter is a vector (it is silently truncated) and proved when it is a scalar."
  },
  {
   "property": "C40",
   "status": "proved",
   "theorems": [
    "Verif.Params.C40_dict",
    "Verif.Params.C40_vector",
    "Verif.Params.C40_only_parameters",
    "Verif.Params.C40_missing",
    "Verif.Params.C40_canonical"
   ],
   "note": ""
  },
  {
   "property": "C41",
   "status": "partial",
   "theorems": [
    "Verif.Params.C41_transform_partial",
    "Verif.Params.C41_no_ppf",
    "Verif.Params.C41_hierarchical_false"
   ],
   "note": "False for hierarchical priors: the quantile function is given the unit-cube values of the hyperparameters; proved for parameters without hyperparameters."
  },
  {
   "property": "C42",
   "status": "partial",
   "theorems": [
    "Verif.Params.C42_set_partial",
    "Verif.Params.C42_idempotent",
    "Verif.Params.C42_order",
    "Verif.Params.C42_prior_false"
   ],
   "note": "Constants inside the prior of a Parameter are not reached; proved for all Constants registered in signals."
  },
  {
   "property": "C43",
   "status": "partial",
   "theorems": [
    "Verif.Params.C43_function_names",
    "Verif.Params.C43_selection_names",
    "Verif.Params.C43_keywords_partial",
    "Verif.Params.C43_keywords_false"
   ],
   "note": "For one keyword the names are injective in the selection key for all strings; across keywords it is false if one keyword ends with an underscore and the other, and proved otherwise."
  },
  {
   "property": "C44",
   "status": "partial",
   "theorems": [
    "Verif.Coll.C44_signals",
    "Verif.Coll.C44_brackets",
    "Verif.Coll.C44_alien",
    "Verif.Coll.C44_pta_partial",
    "Verif.Coll.C44_right_nested_false",
    "Verif.Coll.C44_likelihood"
   ],
   "note": "Proved for signal classes with any bracketing. For arrays, a pulsar model added to the left of an array raises AttributeError (exactly characterised), so addition of arrays is not associative; proved for left-nested sums."
  },
  {
   "property": "C45",
   "status": "proved",
   "theorems": [
    "Verif.Coll.C45_pulsar",
    "Verif.Coll.C45_collection",
    "Verif.Coll.C45_integer",
    "Verif.Coll.C45_signal"
   ],
   "note": ""
  },
  {
   "property": "C46",
   "status": "partial",
   "theorems": [
    "Verif.Combine.C46_partial",
    "Verif.Combine.C46_none",
    "Verif.Combine.C46_varying_false",
    "Verif.Combine.C46_repeated_false"
   ],
   "note": "False when a combining signal follows a signal whose basis varies (C46_varying_false) and when a signal repeats a column (C46_repeated_false); proved otherwise, for hashes that tell columns apart (C46_partial)."
  },
  {
   "property": "C47",
   "status": "partial",
   "theorems": [
    "Verif.Kernel.C47_add_matrix",
    "Verif.Kernel.C47_set_matrix",
    "Verif.Kernel.C47_add_vector_partial",
    "Verif.Kernel.C47_set_vector_partial",
    "Verif.Kernel.C47_slice_addresses",
    "Verif.Kernel.C47_number",
    "Verif.Kernel.C47_slice_false",
    "Verif.Kernel.C47_rejects"
   ],
   "note": "Matrix arguments are fully proved; vector arguments need positions given as an index list or a diagonal kernel, because a slice with a dense kernel adds to the whole block (C47_slice_false)."
  },
  {
   "property": "C48",
   "status": "proved",
   "theorems": [
    "Verif.PtaPhi.C48_common",
    "Verif.PtaPhi.C48_entries",
    "Verif.PtaPhi.C48_uncorrelated",
    "Verif.PtaPhi.C48_symmetric",
    "Verif.PtaPhi.C48_cross",
    "Verif.PtaPhi.C48_prior_times_overlap"
   ],
   "note": ""
  },
  {
   "property": "C49",
   "status": "partial",
   "theorems": [
    "Verif.PhiInv.C49_aligned",
    "Verif.PhiInv.C49_partial",
    "Verif.PhiInv.C49_one_class",
    "Verif.PhiInv.C49_kernel_partial",
    "Verif.PhiInv.C49_merge_false",
    "Verif.PhiInv.C49_separated"
   ],
   "note": "Proved end to end when every group of correlated columns meets at most one existing clique (C49_partial), in particular for diagonal priors and one class (C49_one_class) or several classes that share columns in the same way in all pulsars (C49_aligned); false when a common signal joins two cliques, because np.in1d with a set never matches (C49_merge_false)."
  },
  {
   "property": "C50",
   "status": "partial",
   "theorems": [
    "Verif.Partition.C50_partial",
    "Verif.Partition.C50_two_classes_false",
    "Verif.Partition.C50_dense_false",
    "Verif.Partition.C50_decoupled_partial",
    "Verif.Partition.C50_coupled_false"
   ],
   "note": "Proved for diagonal priors and one class of common signals, and with logdet for dense priors whose common columns are uncorrelated with the others; false for two classes on the same basis (C50_two_classes_false), for dense priors without logdet (C50_dense_false) and for correlated common columns (C50_coupled_false)."
  },
  {
   "property": "C51",
   "status": "partial",
   "theorems": [
    "Verif.Noise.C51_partial",
    "Verif.Noise.C51_missing",
    "Verif.Noise.C51_single_false",
    "Verif.Noise.C51_ecorr",
    "Verif.Noise.C51_short"
   ],
   "note": "Exact for every call the class implements when each epoch has at least two TOAs (C51_partial); EcorrKernelNoise always makes such epochs (C51_ecorr). Epochs with one TOA are skipped by the loops (C51_single_false), and the solves are exact for the covariance without them (C51_short). A two-dimensional solve without left_array raises (C51_missing)."
  },
  {
   "property": "C52",
   "status": "partial",
   "theorems": [
    "Verif.Noise.C52_partial",
    "Verif.Noise.C52_single_false"
   ],
   "note": "Exact when each epoch has at least two TOAs; epochs with one TOA are skipped (C52_single_false). EcorrKernelNoise never makes one-TOA epochs (C51_ecorr)."
  },
  {
   "property": "C53",
   "status": "partial",
   "theorems": [
    "Verif.Noise.C53_block",
    "Verif.Noise.C53_partial",
    "Verif.Noise.C53_no_epochs_false",
    "Verif.Noise.C53_shape_false",
    "Verif.Noise.C53_short"
   ],
   "note": "Proved when there is at least one epoch and bases have at least two columns (C53_partial; C53_block, C53_short for arbitrary blocks). Without epochs the block method raises ValueError (C53_no_epochs_false); with a one-column left array and a wider right one the block method raises TypeError (C53_shape_false)."
  },
  {
   "property": "C54",
   "status": "partial",
   "theorems": [
    "Verif.Noise.C54_partial",
    "Verif.Noise.C54_no_marg",
    "Verif.Noise.C54_order_false",
    "Verif.Noise.C54_two_raise",
    "Verif.Noise.C54_comm",
    "Verif.Noise.C54_assoc"
   ],
   "note": "Proved for all lists in which the marginalizing timing model stands before every Sherman-Morrison or block kernel, and for lists without it (C54_no_marg). A kernel before the marginalizing model raises (C54_order_false), two marginalizing models raise (C54_two_raise)."
  },
  {
   "property": "C55",
   "status": "proved",
   "theorems": [
    "Verif.Noise.C55_solve",
    "Verif.Noise.C55",
    "Verif.Noise.C55_logdet_dropped"
   ],
   "note": "The kernel inside is any noise object whose solves are exact (arr_exact, sm_exact, block_exact, csc_exact). C55_logdet_dropped: with an equal but not identical left array the requested log determinant is not returned."
  },
  {
   "property": "C56",
   "status": "proved",
   "theorems": [
    "Verif.Likelihood.C56"
   ],
   "note": "Exact arithmetic; a pulsar's noise is any sum get_ndiag accepts whose solve is exact (C51-C54), with no timing model marginalized (C84 has that case). Includes the log priors of the signals, as the code does."
  },
  {
   "property": "C57",
   "status": "partial",
   "theorems": [
    "Verif.Likelihood.C57_sparse",
    "Verif.Likelihood.C57_cliques",
    "Verif.Likelihood.C57_one_class",
    "Verif.Likelihood.C57_agree_sparse",
    "Verif.Likelihood.C57_agree",
    "Verif.Likelihood.C57_no_basis_false"
   ],
   "note": "With common signals the likelihood is the density of the joint covariance for method sparse whatever the classes, for cliques when the labels separate the prior covariance, and for every method with one class on distinct pulsars with diagonal priors; with zero cross terms it equals the loop over the pulsars. Missing: the cases where C49 or C50 fail, and a pulsar without a Gaussian process, for which the big-matrix branch raises (C57_no_basis_false)."
  },
  {
   "property": "C58",
   "status": "proved",
   "theorems": [
    "Verif.Coefficients.C58_mean",
    "Verif.Evidence.C58_normalised",
    "Verif.Coefficients.C58"
   ],
   "note": "Any split of the processes of a pulsar into marginalized ones and one in coefficient mode, any selection of keys; the mean of the conditional Gaussian is the block of Sigma^-1 T^T N^-1 r that ConditionalGP computes (C58_mean)."
  },
  {
   "property": "C59",
   "status": "partial",
   "theorems": [
    "Verif.Coefficients.C59_common",
    "Verif.Coefficients.C59_partial",
    "Verif.Coefficients.C59_common_type_false"
   ],
   "note": "Holds with common signals (C59_common) and, without, in models without signals of type 'common basis' (C59_partial). Without common signals, i.e. in a PTA with one pulsar, a common-type signal is skipped and later signals get the wrong coefficients (C59_common_type_false)."
  },
  {
   "property": "C60",
   "status": "partial",
   "theorems": [
    "Verif.Coefficients.C60_labels",
    "Verif.Coefficients.C60_cover",
    "Verif.Coefficients.C60_shared",
    "Verif.Coefficients.C60_columns",
    "Verif.Coefficients.C60_pulsars",
    "Verif.Coefficients.C60_common",
    "Verif.Coefficients.C60_coefficient_mode_false",
    "Verif.Coefficients.C60_no_basis_false",
    "Verif.Coefficients.C60_last",
    "Verif.Coefficients.C60_lost",
    "Verif.Coefficients.C60_names_false"
   ],
   "note": "Labels, cover and disjointness, IndexError for shared bases, and the returned coefficients (with and without common signals). A process in coefficient mode or a pulsar without Gaussian processes makes it raise AttributeError (C60_coefficient_mode_false, C60_no_basis_false). The theorems on returned coefficients need distinct signal names: with repeated names the entry is that of the last signal (C60_last), and the earlier ones are lost (C60_lost, C60_names_false). tm_params and processes are in C146."
  },
  {
   "property": "C61",
   "status": "proved",
   "theorems": [
    "Verif.Priors.C61_density",
    "Verif.Priors.C61_ppf",
    "Verif.Priors.C61_sampler"
   ],
   "note": ""
  },
  {
   "property": "C62",
   "status": "proved",
   "theorems": [
    "Verif.Priors.C62_density",
    "Verif.Priors.C62_ppf",
    "Verif.Priors.C62_sampler",
    "Verif.Priors.C62_rejects",
    "Verif.Priors.C62_rejects_vector",
    "Verif.Priors.C62_ppf_unchecked"
   ],
   "note": ""
  },
  {
   "property": "C63",
   "status": "proved",
   "theorems": [
    "Verif.Priors.C63_exp",
    "Verif.Priors.C63_components",
    "Verif.Priors.C63_joint",
    "Verif.Priors.C63_uniform",
    "Verif.Priors.C63_linear_exp",
    "Verif.Priors.C63_normal"
   ],
   "note": ""
  },
  {
   "property": "C64",
   "status": "proved",
   "theorems": [
    "Verif.Priors.C64_vector",
    "Verif.Priors.C64_scalar",
    "Verif.Priors.C64_empty_range",
    "Verif.Priors.C64_mixed"
   ],
   "note": ""
  },
  {
   "property": "C65",
   "status": "partial",
   "theorems": [
    "Verif.Bases.C65_columns",
    "Verif.Bases.C65_prefix",
    "Verif.Bases.C65_unit",
    "Verif.Bases.C65_default_span",
    "Verif.Bases.C65_linspace",
    "Verif.Bases.C65_log",
    "Verif.Bases.C65_defaults",
    "Verif.Bases.C65_bounds_false",
    "Verif.Bases.C65_pshift_false",
    "Verif.Bases.C65_list_false"
   ],
   "note": "Columns, prefix law and sin^2+cos^2=1 proved for every call with explicit frequencies or Tspan and without random shifts. Counterexamples: with fmin/fmax the frequencies are re-spaced so that fewer modes are no prefix (C65_bounds_false), unseeded phase shifts (C65_pshift_false), and a list of modes, which the docstring allows, raises TypeError (C65_list_false)."
  },
  {
   "property": "C66",
   "status": "partial",
   "theorems": [
    "Verif.Spectra.C66_powerlaw",
    "Verif.Spectra.C66_turnover",
    "Verif.Spectra.C66_turnover_knee",
    "Verif.Spectra.C66_broken",
    "Verif.Spectra.C66_genmodes",
    "Verif.Spectra.C66_infinite",
    "Verif.Spectra.C66_prefix",
    "Verif.Spectra.C66_fourier",
    "Verif.Spectra.C66_components_false",
    "Verif.Spectra.C66_shape",
    "Verif.Spectra.C66_one_column_false"
   ],
   "note": "All spectra proved positive, equal on the columns of a frequency and independent of higher frequencies for the default two components. Counterexamples: a components argument that does not match the basis (C66_components_false) and a basis of a single column (C66_one_column_false)."
  },
  {
   "property": "C67",
   "status": "partial",
   "theorems": [
    "Verif.Interp.C67",
    "Verif.Interp.C67_false"
   ],
   "note": "Interpolation proved for all TOAs that are not all equal; with all TOAs equal the basis has no columns (C67_false)."
  },
  {
   "property": "C68",
   "status": "partial",
   "theorems": [
    "Verif.Wideband.C68_count",
    "Verif.Wideband.C68_partial",
    "Verif.Wideband.C68_complete",
    "Verif.Wideband.C68_false",
    "Verif.Wideband.C68_default"
   ],
   "note": "False as stated: the constructor only checks that the numbers of intervals around the TOAs add up to the number of TOAs (C68_count), so a TOA in two bins makes up for one in none (C68_false). Proved: for disjoint intervals the claim holds (C68_partial); exact coverage is accepted (C68_complete); the default arguments are always rejected (C68_default)."
  },
  {
   "property": "C69",
   "status": "proved",
   "theorems": [
    "Verif.Wideband.C69",
    "Verif.Wideband.C69_delay",
    "Verif.Wideband.C69_uncovered",
    "Verif.Wideband.C69_chi2",
    "Verif.Wideband.C69_empty_bin"
   ],
   "note": "Bins as assigned_of_make gives them: disjoint, each with a TOA. C69_empty_bin: a bin without TOAs passes the constructor and get_logsignalprior raises IndexError."
  },
  {
   "property": "C70",
   "status": "proved",
   "theorems": [
    "Verif.Wideband.C70_names",
    "Verif.Wideband.C70_dm",
    "Verif.Wideband.C70_dm_none",
    "Verif.Wideband.C70_dme",
    "Verif.Wideband.C70_defined"
   ],
   "note": "Values are looked up by the parameter names; the reference jump is the constant zero unless the caller's dictionary has its name."
  },
  {
   "property": "C71",
   "status": "proved",
   "theorems": [
    "Verif.Orf.C71_symmetric",
    "Verif.Orf.C71_hd",
    "Verif.Orf.C71_hd_distinct",
    "Verif.Orf.C71_dipole",
    "Verif.Orf.C71_monopole",
    "Verif.Orf.C71_same",
    "Verif.Orf.C71_hd_half"
   ],
   "note": "Distinct positions are needed for definiteness: C71_same shows every correlation matrix singular for two pulsars at the same position. The dipole needs vectors of length at most 1."
  },
  {
   "property": "C72",
   "status": "proved",
   "theorems": [
    "Verif.Anis.C72",
    "Verif.Anis.C72_inverse",
    "Verif.Anis.C72_rejects",
    "Verif.Anis.C72_truncates"
   ],
   "note": "C72_inverse gives the other direction for coefficients whose m = 0 entries are real; C72_rejects and C72_truncates describe the other lengths. hp.Alm.getidx and getsize are modelled by healpy's formulas; the square roots are exact."
  },
  {
   "property": "C73",
   "status": "proved",
   "theorems": [
    "Verif.Ephem.C73_ecliptic",
    "Verif.Ephem.C73_ecliptic_axis",
    "Verif.Ephem.C73_euler",
    "Verif.Ephem.C73_euler_axes",
    "Verif.Ephem.C73_identity",
    "Verif.Ephem.C73_lengths",
    "Verif.Ephem.C73_epoch",
    "Verif.Ephem.C73_offset",
    "Verif.Ephem.C73_rates"
   ],
   "note": "One row of the (n, 3) arrays; exact reals."
  },
  {
   "property": "C74",
   "status": "proved",
   "theorems": [
    "Verif.Anis.C74_entries",
    "Verif.Anis.C74",
    "Verif.Anis.C74_definite",
    "Verif.Anis.C74_response",
    "Verif.Anis.C74_response_square",
    "Verif.Anis.C74_pulsars"
   ],
   "note": "For every response matrix and every map without negative values; C74_pulsars with the response the code computes. Mismatched shapes are not modelled."
  },
  {
   "property": "C75",
   "status": "proved",
   "theorems": [
    "Verif.Orf.C75_pattern",
    "Verif.Orf.C75",
    "Verif.Orf.C75_bound",
    "Verif.Orf.C75_polarisation"
   ],
   "note": "C75_pattern and C75_bound exclude a pulsar exactly in the direction of the source (cosMu = 1), where the antenna pattern divides by zero (numpy: nan). bwm_delay multiplies its argument t0 in place: an array passed for t0 is changed for the caller; this is not modelled."
  },
  {
   "property": "C76",
   "status": "partial",
   "theorems": [
    "Verif.Params.C76_total",
    "Verif.Params.C76_fixed_partial",
    "Verif.Params.C76_without_params_false",
    "Verif.Params.C76_shared_false",
    "Verif.Params.C76_common"
   ],
   "note": "Fixed is 0 without include_params, and a Constant held by two signals counts twice; the remaining cases are proved."
  },
  {
   "property": "C77",
   "status": "proved",
   "theorems": [
    "Verif.Selections.C77_by_index"
   ],
   "note": ""
  },
  {
   "property": "C78",
   "status": "partial",
   "theorems": [
    "Verif.Loader.C78_names_refer_partial",
    "Verif.Loader.C78_symlink_false",
    "Verif.Loader.C78_tim_always",
    "Verif.Loader.C78_text"
   ],
   "note": "Proved without symbolic links for all paths; false for the par file when the tim directory is reached through a link (negation proved). The tim file is always found."
  },
  {
   "property": "C79",
   "status": "proved",
   "theorems": [
    "Verif.Loader.C79_feather_first",
    "Verif.Loader.C79_filepath",
    "Verif.Loader.C79_empty_filepath",
    "Verif.Loader.C79_names",
    "Verif.Loader.C79_objects",
    "Verif.Loader.C79_package",
    "Verif.Loader.C79_clock"
   ],
   "note": ""
  },
  {
   "property": "C80",
   "status": "partial",
   "theorems": [
    "Verif.Fun.C80_registered_partial",
    "Verif.Fun.C80_lost_false"
   ],
   "note": "False when two nested Functions use the same keyword (only the last parameter is registered); proved when keywords are pairwise distinct."
  },
  {
   "property": "C81",
   "status": "proved",
   "theorems": [
    "Verif.Fun.C81_decorator"
   ],
   "note": ""
  },
  {
   "property": "C82",
   "status": "partial",
   "theorems": [
    "Verif.Partition.C82_partial",
    "Verif.Partition.C82_indefinite_false",
    "Verif.Partition.C82_exact"
   ],
   "note": "Proved for positive vectors and positive definite matrices; false for symmetric indefinite matrices, where u/s u^T is not the inverse (C82_indefinite_false). For symmetric invertible matrices the result is the inverse exactly when the matrix is positive definite (C82_exact)."
  },
  {
   "property": "C83",
   "status": "proved",
   "theorems": [
    "Verif.Noise.C83"
   ],
   "note": ""
  },
  {
   "property": "C84",
   "status": "proved",
   "theorems": [
    "Verif.Likelihood.C84",
    "Verif.Likelihood.C84_limit"
   ],
   "note": "The value is C84, its reading as a limit C84_limit."
  },
  {
   "property": "C85",
   "status": "partial",
   "theorems": [
    "Verif.Coefficients.C85_dense",
    "Verif.Coefficients.C85_sparse",
    "Verif.Coefficients.C85_svd",
    "Verif.Coefficients.C85_common_sparse_false",
    "Verif.Coefficients.C85_common_sparse_partial",
    "Verif.Coefficients.C85_fallback_false"
   ],
   "note": "Holds for ConditionalGP (dense and sparse) and for get_coefficients from the singular value decomposition. get_coefficients(common_sparse=True) leaves out the fill-reducing permutation (C85_common_sparse_false); it is right when the factorization does not permute. The fallback for a decomposition that does not converge draws with the covariance Sigma instead of its inverse (C85_fallback_false)."
  },
  {
   "property": "C86",
   "status": "proved",
   "theorems": [
    "Verif.Evidence.C86_matrix",
    "Verif.Evidence.C86_diagonal",
    "Verif.Priors.C86_normal",
    "Verif.Priors.C86_trunc_normal"
   ],
   "note": ""
  },
  {
   "property": "C87",
   "status": "proved",
   "theorems": [
    "Verif.Evidence.C87",
    "Verif.Evidence.C87_common"
   ],
   "note": ""
  },
  {
   "property": "C88",
   "status": "proved",
   "theorems": [
    "Verif.Bases.C88_dm",
    "Verif.Bases.C88_chromatic",
    "Verif.Bases.C88_dm_chromatic",
    "Verif.Bases.C88_dm_tn",
    "Verif.Bases.C88_env",
    "Verif.Bases.C88_ephem",
    "Verif.Bases.C88_general",
    "Verif.Bases.C88_mask",
    "Verif.Bases.C88_own_span",
    "Verif.Bases.C88_missing_flag"
   ],
   "note": ""
  },
  {
   "property": "C89",
   "status": "partial",
   "theorems": [
    "Verif.Bases.C89_reproducible",
    "Verif.Bases.C89_untouched",
    "Verif.Bases.C89_state_false",
    "Verif.Bases.C89_same_seed"
   ],
   "note": "Reproducibility proved; the call resets the global generator when a seed is given, so later draws change (C89_state_false)."
  },
  {
   "property": "C90",
   "status": "proved",
   "theorems": [
    "Verif.Spectra.C90_free",
    "Verif.Spectra.C90_t_process",
    "Verif.Spectra.C90_adapt"
   ],
   "note": ""
  },
  {
   "property": "C91",
   "status": "partial",
   "theorems": [
    "Verif.Interp.C91_plain",
    "Verif.Interp.C91_given",
    "Verif.Interp.C91_given_excluded",
    "Verif.Interp.C91_svd",
    "Verif.Interp.C91_svd_false",
    "Verif.Interp.C91_none_left",
    "Verif.Interp.C91_svd_normed",
    "Verif.Interp.C91_prior",
    "Verif.Interp.C91_stable"
   ],
   "note": "Proved for unnormed, normed and given norms for every matrix; for singular vectors if the columns are independent. If a combination of columns is zero the singular vectors allow for more corrections (C91_svd_false); excluding all columns raises (C91_none_left)."
  },
  {
   "property": "C92",
   "status": "proved",
   "theorems": [
    "Verif.Spectra.C92"
   ],
   "note": ""
  },
  {
   "property": "C93",
   "status": "proved",
   "theorems": [
    "Verif.Interp.C93",
    "Verif.Interp.C93_bases"
   ],
   "note": ""
  },
  {
   "property": "C94",
   "status": "partial",
   "theorems": [
    "Verif.Anis.C94_partial",
    "Verif.Anis.C94_unknown",
    "Verif.Anis.C94_valid",
    "Verif.Anis.C94_false"
   ],
   "note": "C94_partial: equality with the covariance of the map, given that healpy's alm2map is real-linear. C94_valid: valid where the map is nowhere negative. C94_false: for parameters that make the power negative the covariance is not positive semidefinite; the code does not check this."
  },
  {
   "property": "C95",
   "status": "proved",
   "theorems": [
    "Verif.Ephem.C95",
    "Verif.Ephem.C95_without_files",
    "Verif.Ephem.C95_needs_files",
    "Verif.Ephem.C95_zero",
    "Verif.Ephem.C95_design",
    "Verif.Ephem.C95_positive",
    "Verif.Ephem.C95_signal",
    "Verif.Ephem.C95_frame"
   ],
   "note": "np.interp is modelled for increasing times. Orbit arrays and their times have matching lengths."
  },
  {
   "property": "C96",
   "status": "partial",
   "theorems": [
    "Verif.Common.C96_span",
    "Verif.Common.C96_kept",
    "Verif.Common.C96_partial",
    "Verif.Common.C96_explicit",
    "Verif.Common.C96_coefficients",
    "Verif.Common.C96_runs",
    "Verif.Common.C96_order_false",
    "Verif.Common.C96_foreign_false"
   ],
   "note": "Proved when all signals of the class are made before the first basis is asked for (C96_partial) or Tspan is given (C96_explicit). False otherwise: the span is kept in class-level lists and the basis is cached, so the frequencies depend on the order of calls (C96_order_false) and on pulsars of earlier arrays made from the same class (C96_foreign_false)."
  },
  {
   "property": "C97",
   "status": "partial",
   "theorems": [
    "Verif.Binary.C97_partial",
    "Verif.Binary.C97_false",
    "Verif.Binary.C97_evolution_false",
    "Verif.Binary.C97_waveform_false",
    "Verif.Binary.C97_burst_false"
   ],
   "note": "Proved for numbers. False for arrays: `mc *= Tsun`, `dl *= Mpc / c` and `t0 *= day` change the array of the caller (C97_false, C97_burst_false), also between the calls inside get_coupled_ecc_eqns and calculate_splus_scross (C97_evolution_false, C97_waveform_false)."
  },
  {
   "property": "C98",
   "status": "partial",
   "theorems": [
    "Verif.Binary.C98_megaparsec",
    "Verif.Binary.C98_integral",
    "Verif.Binary.C98_circular",
    "Verif.Binary.C98_h0",
    "Verif.Binary.C98_kepler",
    "Verif.Binary.C98_count_false",
    "Verif.Binary.C98_none"
   ],
   "note": "C98_integral, C98_circular and C98_h0 prove the claim for the harmonics 1 to nmax - 1. The documented number of harmonics nmax is off by one: two harmonics of a circular binary give zero (C98_count_false)."
  },
  {
   "property": "C99",
   "status": "proved",
   "theorems": [
    "Verif.Binary.C99_signs",
    "Verif.Binary.C99_peters",
    "Verif.Binary.C99_orbit",
    "Verif.Inspiral.C99_exists"
   ],
   "note": ""
  },
  {
   "property": "C100",
   "status": "proved",
   "theorems": [
    "Verif.Sources.C100_flags",
    "Verif.Sources.C100_sorted"
   ],
   "note": ""
  },
  {
   "property": "C101",
   "status": "partial",
   "theorems": [
    "Verif.Sources.C101_unit",
    "Verif.Sources.C101_sphere",
    "Verif.Sources.C101_geometry",
    "Verif.Sources.C101_partial",
    "Verif.Sources.C101_both_false",
    "Verif.Sources.C101_epoch_false",
    "Verif.Sources.C101_refused",
    "Verif.Sources.C101_pint"
   ],
   "note": "C101_unit, C101_geometry, C101_partial, C101_pint and C101_refused prove the claim for pulsars with one kind of coordinates and no B in their name, given that pyephem and libstempo mean the same rotation. When both kinds are set the direction is rotated by the obliquity though it is equatorial already (C101_both_false); any B in the name, even that of a companion, asks for the equinox of 1950 (C101_epoch_false)."
  },
  {
   "property": "C102",
   "status": "partial",
   "theorems": [
    "Verif.Sources.C102_names",
    "Verif.Sources.C102_tempo2_partial",
    "Verif.Sources.C102_fit_false",
    "Verif.Sources.C102_pint_partial",
    "Verif.Sources.C102_frozen_false",
    "Verif.Sources.C102_none",
    "Verif.Sources.C102_setpars"
   ],
   "note": "C102_names, C102_tempo2_partial and C102_pint_partial prove keys, values and ranges for the bins that are listed. libstempo: fit is true for bins that are not fitted (C102_fit_false). PINT: frozen bins are missing (C102_frozen_false)."
  },
  {
   "property": "C103",
   "status": "proved",
   "theorems": [
    "Verif.Sources.C103_pint",
    "Verif.Sources.C103_missing",
    "Verif.Sources.C103_tempo2"
   ],
   "note": ""
  },
  {
   "property": "C104",
   "status": "partial",
   "theorems": [
    "Verif.BasisGP.C104_partial",
    "Verif.BasisGP.C104_slices",
    "Verif.BasisGP.C104_errors",
    "Verif.BasisGP.C104_mixed_false",
    "Verif.BasisGP.C104_signal"
   ],
   "note": "C104_partial and C104_signal prove the claim for every history in which no call with vector priors follows one with matrix priors; C104_slices gives the columns, C104_errors the exceptions. Otherwise the vector is written over whole rows of the block (C104_mixed_false)."
  },
  {
   "property": "C105",
   "status": "proved",
   "theorems": [
    "Verif.Collect.C105_prior",
    "Verif.Collect.C105_likelihood",
    "Verif.Collect.C105_one",
    "Verif.Collect.C105_order",
    "Verif.Collect.C105_combine"
   ],
   "note": ""
  },
  {
   "property": "C106",
   "status": "partial",
   "theorems": [
    "Verif.BasisGP.C106_covariance",
    "Verif.BasisGP.C106_likelihood_partial",
    "Verif.BasisGP.C106_none_false"
   ],
   "note": "C106_likelihood_partial proves equal likelihoods whenever there is an epoch (with a hash without collisions); C106_covariance needs no epoch. Without epochs EcorrBasisModel raises an IndexError (C106_none_false)."
  },
  {
   "property": "C107",
   "status": "proved",
   "theorems": [
    "Verif.Joined.C107_sparse",
    "Verif.Joined.C107_methods",
    "Verif.Joined.C107_hellings_downs",
    "Verif.Joined.C107_same_needed",
    "Verif.Joined.C107_cliques"
   ],
   "note": "C107_sparse for any number of classes, C107_methods for one class with vector priors and all methods, C107_cliques for several classes that share columns in the same way in all pulsars, C107_hellings_downs without any assumption on the correlations. C107_same_needed shows that the prior has to be the same in all pulsars."
  },
  {
   "property": "C108",
   "status": "proved",
   "theorems": [
    "Verif.Fourier.C108_key",
    "Verif.Fourier.C108_process",
    "Verif.Fourier.C108_powerlaw",
    "Verif.Fourier.C108_shift"
   ],
   "note": "C108_process for any spectrum that gives the sine and the cosine of one frequency the same variance, C108_powerlaw for the power law. With combine=True the columns of the process have to be distinct (see C104 and C105 for what happens otherwise)."
  },
  {
   "property": "C109",
   "status": "proved",
   "theorems": [
    "Verif.Standard.C109_pulsar",
    "Verif.Standard.C109_conventions",
    "Verif.Standard.C109_conventions_differ",
    "Verif.Standard.C109_conventions_only"
   ],
   "note": "Processes with combine=True have to have distinct columns, and the columns of the timing model have to be distinct (linearly independent for the marginalizing one). MarginalizingTimingModel comes first in the list of noise signals (see C51 for other orders)."
  },
  {
   "property": "C110",
   "status": "proved",
   "theorems": [
    "Verif.Background.C110_span",
    "Verif.Background.C110_array",
    "Verif.Background.C110_given",
    "Verif.Background.C110_order",
    "Verif.Background.C110_reuse"
   ],
   "note": "Exact for all sessions (C110_span); C110_order and C110_reuse are the sessions in which the span is not that of the array."
  },
  {
   "property": "C111",
   "status": "proved",
   "theorems": [
    "Verif.Background.C111_sparse",
    "Verif.Background.C111_powerlaw",
    "Verif.Background.C111_hellings_downs"
   ],
   "note": "Processes with combine=True have to have distinct columns; positions are distinct unit vectors. C111_sparse is for any spectrum and positive definite overlaps, C111_hellings_downs for all methods; there the other processes have priors that are vectors."
  },
  {
   "property": "C112",
   "status": "proved",
   "theorems": [
    "Verif.Joined.C112_sparse",
    "Verif.Joined.C112_methods",
    "Verif.Joined.C112_order"
   ],
   "note": "For arrays with several common processes C112_sparse; for other methods one common process (C112_methods). Instances are in Props/EphemGp."
  },
  {
   "property": "C113",
   "status": "proved",
   "theorems": [
    "Verif.Background.C113_dipole",
    "Verif.Background.C113_components"
   ],
   "note": "The columns of each basis with combine=True have to be distinct, which excludes positions with equal coordinates. C113_components is the case of the default components=2."
  },
  {
   "property": "C114",
   "status": "proved",
   "theorems": [
    "Verif.Background.C114_cov"
   ],
   "note": "The frame column is a quotient of differences with step 1e-5, as in the code (see C95_frame). Columns have to be distinct, positions too."
  },
  {
   "property": "C115",
   "status": "proved",
   "theorems": [
    "Verif.Background.C115_sparse",
    "Verif.Background.C115_powerlaws",
    "Verif.Background.C115_cliques"
   ],
   "note": "C115_sparse for any spectra and phases, C115_powerlaws and C115_cliques for power laws. Method partition is wrong for two classes (C50_two_classes_false)."
  },
  {
   "property": "C116",
   "status": "proved",
   "theorems": [
    "Verif.StdArray.C116_array",
    "Verif.StdArray.C116_background"
   ],
   "note": "C116_array for any number of common processes, C116_background for one with the overlaps of Hellings and Downs. Assumed as in C109: real arithmetic, columns of a basis that may be shared are distinct, noise not zero."
  },
  {
   "property": "C117",
   "status": "proved",
   "theorems": [
    "Verif.Wideband.C117",
    "Verif.Wideband.C117_made"
   ],
   "note": "C117 for every arrangement of the intervals in which each TOA is in one and none is empty; C117_made: the constructor makes such an arrangement from disjoint, nonempty intervals. Assumed: the DMX columns of the design matrix are, up to sign, the derivatives 1/(2.41e-4 nu^2) of the dispersion delay."
  },
  {
   "property": "C118",
   "status": "partial",
   "theorems": [
    "Verif.SkyMap.C118_real_pos",
    "Verif.SkyMap.C118_real_zero",
    "Verif.SkyMap.C118_real_neg",
    "Verif.SkyMap.C118_maps",
    "Verif.SkyMap.C118_correlations",
    "Verif.SkyMap.C118_linear",
    "Verif.SkyMap.C118_coefficients",
    "Verif.SkyMap.C118_inverse",
    "Verif.SkyMap.C118_partial",
    "Verif.SkyMap.C118_false"
   ],
   "note": "Maps and correlations agree without restriction (C118_maps, C118_correlations, C118_real_*). The claim about coefficients is false of the code: sums over healpix pixels are not exact, and clmFromMap_fast improves them in three rounds where clmFromMap does not; on the coarsest map the coefficient 1 comes back as 8/9 and as 6560/6561 (C118_false). C118_coefficients says exactly what clmFromMap_fast gives in terms of clmFromMap; C118_inverse: coefficients are recovered if and only if the pixel sums are those of orthonormal functions; C118_partial: then the two functions agree on every map. Assumed: healpy's alm2map and map2alm are the sums that define them, with the same harmonics as scipy."
  },
  {
   "property": "C119",
   "status": "partial",
   "theorems": [
    "Verif.EpochEphem.C119_epochs",
    "Verif.EpochEphem.C119_empty",
    "Verif.EpochEphem.C119_delays",
    "Verif.EpochEphem.C119_overwrites",
    "Verif.EpochEphem.C119_between",
    "Verif.EpochEphem.C119_partial",
    "Verif.EpochEphem.C119_false"
   ],
   "note": "C119_epochs, C119_delays and C119_overwrites without restriction; C119_between and C119_partial for TOAs in order. For TOAs out of order (pulsars loaded with sort=False) the claim is false: np.interp needs increasing TOAs and the code does not check; C119_false: two TOAs a day apart get each other's positions."
  },
  {
   "property": "C120",
   "status": "proved",
   "theorems": [
    "Verif.TProcess.C120"
   ],
   "note": ""
  },
  {
   "property": "C121",
   "status": "proved",
   "theorems": [
    "Verif.Inspiral.C121_chirp",
    "Verif.Inspiral.C121_merger",
    "Verif.Inspiral.C121_sharp",
    "Verif.Inspiral.C121_eccentric"
   ],
   "note": "scipy's odeint is an argument; Exact says that on success the rows are values of an exact solution, which the library meets only up to its tolerance. The chirp mass is a number (C97 for arrays)."
  },
  {
   "property": "C122",
   "status": "proved",
   "theorems": [
    "Verif.Priors.C122_uniform_number",
    "Verif.Priors.C122_uniform",
    "Verif.Priors.C122_uniform_shared",
    "Verif.Priors.C122_uniform_size",
    "Verif.Priors.C122_linear_exp_number",
    "Verif.Priors.C122_linear_exp",
    "Verif.Priors.C122_normal_number",
    "Verif.Priors.C122_normal",
    "Verif.Priors.C122_linear_exp_shared",
    "Verif.Priors.C122_normal_shared",
    "Verif.Priors.C122_normal_matrix",
    "Verif.Priors.C122_trunc_normal",
    "Verif.Priors.C122_trunc_vector"
   ],
   "note": "numpy's generator is a uniform or standard normal stream; multivariate_normal is mu + z times the square root from the singular value decomposition, which is an argument. TruncNormal vectors need mu and sigma both numbers or both vectors (the mixed case is in C64)."
  },
  {
   "property": "C123",
   "status": "proved",
   "theorems": [
    "Verif.Joined.C123_order",
    "Verif.Joined.C123_groups",
    "Verif.Joined.C123_pulsars"
   ],
   "note": "Hypotheses as in C107: distinct columns for distinct processes, a positive definite overlap matrix, and Covered: sparse always, every way for one common process, cliques for processes shared alike."
  },
  {
   "property": "C124",
   "status": "partial",
   "theorems": [
    "Verif.SigParams.C124_reads",
    "Verif.SigParams.C124_signal_partial",
    "Verif.SigParams.C124_history_partial",
    "Verif.SigParams.C124_lost_false",
    "Verif.SigParams.C124_constant_false",
    "Verif.SigParams.C124_coefficients_false"
   ],
   "note": "False in three ways (negations proved): two nested Functions with the same keyword (one parameter is read but not listed), dictionaries with an entry under the name of a constant (it replaces the constant but is in no cache key), and coefficients given to BasisCommonGP under a name without '_coefficients' (listed, but not in the cache key). Proved for all other signals and histories."
  },
  {
   "property": "C125",
   "status": "proved",
   "theorems": [
    "Verif.HdSky.C125_pair",
    "Verif.HdSky.C125_same",
    "Verif.HdSky.C125_maps",
    "Verif.HdSky.C125_anis"
   ],
   "note": "C125_pair and C125_same: the integral. C125_maps and C125_anis: the limits; even_grid shows that there are evenly distributed pixels. That the pixels of healpix are evenly distributed is a fact about healpix and not modelled."
  },
  {
   "property": "C126",
   "status": "proved",
   "theorems": [
    "Verif.StdArray.C126_moved",
    "Verif.StdArray.C126_background"
   ],
   "note": "C126_moved for any overlaps that the change of directions respects, C126_background for Hellings and Downs. The design matrix is data here: it is listed in the new order, with the same columns."
  },
  {
   "property": "C127",
   "status": "partial",
   "theorems": [
    "Verif.Named.C127_measurement",
    "Verif.Named.C127_tnequad",
    "Verif.Named.C127_backends",
    "Verif.Named.C127_powerlaw",
    "Verif.Named.C127_local",
    "Verif.Named.C127_ecorr",
    "Verif.Named.C127_apart",
    "Verif.Named.C127_ecorr_name_false",
    "Verif.Named.C127_missing_false",
    "Verif.Named.C127_delay",
    "Verif.Named.C127_nested"
   ],
   "note": "Everything about the values and their names is proved. Two clauses are false of the code: EcorrKernelNoise does not put its name into the names of its parameters (C127_ecorr_name_false), and a missing EFAC or EQUAD silently is 1 or -8, the defaults of the Python functions (C127_missing_false); a missing ECORR does raise (C127_ecorr)."
  },
  {
   "property": "C128",
   "status": "proved",
   "theorems": [
    "Verif.Wide.C128_prior",
    "Verif.Wide.C128_array",
    "Verif.Wide.C128_background"
   ],
   "note": "Over exact reals; the rounding of a prior of variance 1e40 in floating point is not modelled."
  },
  {
   "property": "C129",
   "status": "proved",
   "theorems": [
    "Verif.Limit.C129_limit",
    "Verif.Limit.C129_continuous",
    "Verif.Limit.C129_background"
   ],
   "note": "Over exact reals: underflow of 10 ** (2 log10_A) to zero, after which the inverse of the prior is infinite, is not modelled."
  },
  {
   "property": "C130",
   "status": "partial",
   "theorems": [
    "Verif.UserPar.C130_methods",
    "Verif.UserPar.C130_logprior",
    "Verif.UserPar.C130_coefficients",
    "Verif.UserPar.C130_density",
    "Verif.UserPar.C130_value",
    "Verif.UserPar.C130_absent",
    "Verif.UserPar.C130_others",
    "Verif.UserPar.C130_sampler_partial",
    "Verif.UserPar.C130_sampler_false"
   ],
   "note": "The last clause is false (C130_sampler_false): Parameter.sample always passes size, so that a sampler with the parameters of the prior, which the docstring of UserParameter asks for, raises TypeError. C130_sampler_partial: a sampler with an argument size in addition gets all values. Keywords that are Functions are left out here; C34, C35 and C80 are about them."
  },
  {
   "property": "C131",
   "status": "partial",
   "theorems": [
    "Verif.Calls.C131_history_partial",
    "Verif.Calls.C131_dense",
    "Verif.Calls.C131_no_common",
    "Verif.Calls.C131_first",
    "Verif.Calls.C131_again",
    "Verif.Calls.C131_history_false"
   ],
   "note": "False in general (C131_history_false): cf_sp is analysed for the nonzero entries of the first matrix and then only updated in place, which scikit-sparse documents for matrices with the same pattern only; a first call with a vanishing cross-correlation breaks that. C131_history_partial: proved when the matrices of all calls have the same nonzero entries. Without that hypothesis: the first call (C131_first), repeated calls (C131_again), LogLikelihoodDenseCholesky (C131_dense) and arrays without common signals (C131_no_common). That the arrays of get_TNT and get_TNr are not changed in place is part of the model."
  },
  {
   "property": "C132",
   "status": "proved",
   "theorems": [
    "Verif.Units.C132_units"
   ],
   "note": "Real arithmetic; TimingModel that is not marginalized over has the fixed prior 1e40, which has a unit, so the identity is claimed for marginalized timing models only (C128 bounds the difference)."
  },
  {
   "property": "C133",
   "status": "proved",
   "theorems": [
    "Verif.Proper.C133_bound",
    "Verif.Proper.C133_evidence"
   ],
   "note": "Real arithmetic. C133_bound: the bound; C133_evidence: the integral over the prior."
  },
  {
   "property": "C134",
   "status": "proved",
   "theorems": [
    "Verif.Truth.C134_density",
    "Verif.Truth.C134_truth",
    "Verif.Truth.C134_amplitude"
   ],
   "note": "Real arithmetic. C134_density: the integral; C134_truth: the expectations and the case of equality; C134_amplitude: strictness for the amplitude of a common process."
  },
  {
   "property": "C135",
   "status": "proved",
   "theorems": [
    "Verif.Reduced.C135_reduced",
    "Verif.Reduced.C135_truth"
   ],
   "note": "Real arithmetic. C135_reduced: the identity; C135_truth: the integral, the expectations and the case of equality; Reduced.exists_annihilator: a matrix G exists."
  },
  {
   "property": "C136",
   "status": "partial",
   "theorems": [
    "Verif.Pickle.C136_pickle_partial",
    "Verif.Pickle.C136_drop_partial",
    "Verif.Pickle.C136_drop_false",
    "Verif.Pickle.C136_unsaved_false",
    "Verif.Pickle.C136_by_hand_false"
   ],
   "note": "C136_pickle_partial: to_pickle after any calls. C136_drop_partial: the drop methods work exactly if a timing object is still there. False of the code: the drop methods suppress NameError, but del of a missing attribute raises AttributeError, so they raise for a pulsar built with the defaults, when called twice and after to_pickle (C136_drop_false); a to_pickle that fails has stripped the pulsar (C136_unsaved_false); after del psr.model by hand to_pickle replaces a good file by a broken one (C136_by_hand_false)."
  },
  {
   "property": "C137",
   "status": "partial",
   "theorems": [
    "Verif.Ieee.C137_uniform",
    "Verif.Ieee.C137_normal_partial",
    "Verif.Ieee.C137_standard_partial",
    "Verif.Ieee.C137_normal_false",
    "Verif.Ieee.C137_trunc_partial",
    "Verif.Ieee.C137_linexp_partial",
    "Verif.Ieee.C137_linexp_false",
    "Verif.Ieee.C137_nan_false",
    "Verif.Ieee.C137_lnprior",
    "Verif.Ieee.C137_uniform_lnprior",
    "Verif.Ieee.C137_lnprior_false",
    "Verif.Ieee.C137_point_false",
    "Verif.Ieee.C137_unbounded_false",
    "Verif.Ieee.C137_powers_false",
    "Verif.Ieee.C137_tail_false"
   ],
   "note": "Operation-by-operation binary64 arithmetic with any rounding rule; elementary functions only assumed to meet coarse bounds. True of Uniform parameters and of arrays of them (C137_uniform, C137_uniform_lnprior), and of sums in any order (C137_lnprior). False of the others: the Normal density underflows from 40 standard deviations, so the log prior is -inf there (C137_normal_false); LinearExp gives NaN instead of -inf at +inf and from 309, where 10**value overflows and is multiplied by the mask (C137_linexp_false); NaN gives NaN (C137_nan_false), and spreads to get_lnprior (C137_lnprior_false). What holds of them: C137_normal_partial, C137_standard_partial, C137_trunc_partial, C137_linexp_partial. For ranges out of the ordinary: Uniform with equal bounds gives +inf or NaN (C137_point_false), Uniform with an infinite bound gives -inf everywhere (C137_unbounded_false), LinearExp above 309 NaN (C137_powers_false), and TruncNormal with a range nine or more standard deviations out +inf inside and NaN outside, because the difference of the two erf is zero (C137_tail_false)."
  },
  {
   "property": "C138",
   "status": "partial",
   "theorems": [
    "Verif.Ieee.C138_epochs",
    "Verif.Ieee.C138_short",
    "Verif.Ieee.C138_window",
    "Verif.Ieee.C138_halves_partial",
    "Verif.Ieee.C138_halves_false",
    "Verif.Ieee.C138_bins_partial",
    "Verif.Ieee.C138_bins_false"
   ],
   "note": "Epochs (C138_epochs, for TOAs not below dt; C138_short, for all TOAs) and windows (C138_window) are proved. False of the code: stoas are MJDs times 86400 and are divided by 86400 again, which for one MJD in six does not give the MJD back, so a TOA at the lower edge of a DMX bin is not found in it and WidebandTimingModel raises (C138_bins_false, at MJD 57088.4987); the midpoint of two TOAs next to each other can be rounded to the later one (C138_halves_false). What holds: C138_bins_partial, C138_halves_partial."
  },
  {
   "property": "C139",
   "status": "partial",
   "theorems": [
    "Verif.Dropped.C139_marginal_partial",
    "Verif.Dropped.C139_wide_partial",
    "Verif.Dropped.C139_bases",
    "Verif.Dropped.C139_epoch_false",
    "Verif.Dropped.C139_merge_false",
    "Verif.Dropped.C139_normed_false"
   ],
   "note": "C139_marginal_partial (timing models not marginalized over) and C139_wide_partial (marginalized over, with C139_bases for the columns): true if every epoch of ECORR of which a TOA is kept keeps a TOA at its first time and two TOAs if it has two (for instance if whole epochs are dropped), and if the columns of a timing model that is not marginalized over keep their values; with marginalization the factor also has the determinant of the change of basis, which no parameter or residual changes. False of the code: a TOA left alone in its epoch loses the ECORR variance (C139_epoch_false); dropping the first TOA of an epoch can join the next TOA to the following epoch (C139_merge_false); the columns of the default timing model are divided by their norm over the TOAs, so that without marginalization the prior of the timing parameters changes (C139_normed_false)."
  },
  {
   "property": "C140",
   "status": "partial",
   "theorems": [
    "Verif.Ieee.C140_uniform",
    "Verif.Ieee.C140_overflow",
    "Verif.Ieee.C140_ppf_partial",
    "Verif.Ieee.C140_ppf_mono",
    "Verif.Ieee.C140_ppf_false",
    "Verif.Ieee.C140_linexp_partial",
    "Verif.Ieee.C140_linexp_false",
    "Verif.Ieee.C140_trunc_partial",
    "Verif.Ieee.C140_trunc_false"
   ],
   "note": "Uniform draws are in the range for all random numbers, with and without fused multiply-add, though numpy rounds the width (C140_uniform; OverflowError for ranges wider than the largest number, C140_overflow); percent points do not decrease (C140_ppf_mono) and are in the range below 100 percent (C140_ppf_partial). False of the code: the percent point at 1 can be above pmax, with log prior -inf (C140_ppf_false; it also happens for two-decimal bounds such as -12.01 and 5.11); LinearExp values leave the range where log10(10**pmin) < pmin (C140_linexp_false; otherwise C140_linexp_partial); TruncNormal accepts its bounds, where its prior is zero (C140_trunc_false, C140_trunc_partial)."
  },
  {
   "property": "C141",
   "status": "proved",
   "theorems": [
    "Verif.Ieee.C141_powerlaw",
    "Verif.Ieee.C141_shared",
    "Verif.Ieee.C141_squared",
    "Verif.Ieee.C141_white"
   ],
   "note": "Proved for all rounding rules and all power functions with errors of at most 4 * 2^-51 (the structure Powers); the one that rounds down is an instance. The widths of the frequency bins are differences of harmonics, so that their relative error grows with the mode."
  },
  {
   "property": "C142",
   "status": "proved",
   "theorems": [
    "Verif.Ieee.C142_shared",
    "Verif.Ieee.C142_bounds",
    "Verif.Ieee.C142_accurate"
   ],
   "note": "C142_shared holds for any rounding rule, any time span and TOAs, also infinite ones. C142_bounds is the witness (T = 297, two and six modes) that frequencies from np.linspace differ in the last bit when rounding to nearest. C142_accurate: the error of a phase theta + p is at most (14 theta + 2 p) 2^-51."
  },
  {
   "property": "C143",
   "status": "proved",
   "theorems": [
    "Verif.Ieee.C143_white",
    "Verif.Ieee.C143_machines"
   ],
   "note": "Proved for all trees of additions (Tree, DotTree) and all rounding rules; the logarithm is assumed to have an error of at most 2^-51 (1 + |log x|) (GoodLog; logLib is an instance). The likelihood leaves out the constant with 2 pi, as the code does. The masks of the selections, products with one and sums with zero, are left out."
  },
  {
   "property": "C144",
   "status": "proved",
   "theorems": [
    "Verif.Ieee.C144_ecorr",
    "Verif.Ieee.C144_machines"
   ],
   "note": "Proved for all trees of additions and all rounding rules, with the assumption GoodLog on the logarithm as in C143. The size of the terms counts r^2/n twice, once for the subtracted part (Cauchy's inequality), with |r| raised by about a nanosecond so that underflow is covered. That the exact formula is the Gaussian density with covariance N + U J U^T is C51 and C52. The indices of the epochs are left out."
  },
  {
   "property": "C145",
   "status": "partial",
   "theorems": [
    "Verif.Ieee.C145_hd_partial",
    "Verif.Ieee.C145_self",
    "Verif.Ieee.C145_dipole",
    "Verif.Ieee.C145_monopole",
    "Verif.Ieee.C145_symmetric",
    "Verif.Ieee.C145_hd_false"
   ],
   "note": "False of the code for pulsars close to each other (C145_hd_false): if the positions are not equal to the last bit, but closer than about 1e-8, then the computed scalar product is 1 and hd_orf returns 0 * log(0), NaN, on every machine; also for one direction whose two computed positions differ by rounding. C145_hd_partial proves that the value is otherwise accurate, and never NaN for pulsars more than about 0.04 arc seconds apart. Dipole, monopole and symmetry hold without exception. The logarithm is assumed to be accurate as in C143."
  },
  {
   "property": "C146",
   "status": "partial",
   "theorems": [
    "Verif.Processes.C146_draws",
    "Verif.Processes.C146_mean",
    "Verif.Processes.C146_common",
    "Verif.Processes.C146_sum",
    "Verif.Processes.C146_wiener",
    "Verif.Processes.C146_wiener_common",
    "Verif.Processes.C146_own",
    "Verif.Processes.C146_tm_partial",
    "Verif.Processes.C146_names",
    "Verif.Processes.C146_unknown",
    "Verif.Processes.C146_svd_false",
    "Verif.Processes.C146_exclude_false",
    "Verif.Processes.C146_pulsars_false",
    "Verif.Processes.C146_names_false"
   ],
   "note": "Proved for the signals themselves (combine=False, no process in coefficient mode, distinct names, as in C60). For tm_params it is false of the code in four ways: with use_svd=True a column of the basis belongs to no single parameter (C146_svd_false), with idx_exclude the columns are shifted against fitpars (C146_exclude_false), the fitpars of one pulsar are used for all of them (C146_pulsars_false), and pulsars whose names agree up to the first underscore overwrite each other's entries (C146_names_false). With normed=True the coefficient is that of the normalised column. Otherwise entries are right (C146_draws, C146_common) and unknown parameters raise (C146_unknown, for the first pulsar)."
  },
  {
   "property": "C147",
   "status": "partial",
   "theorems": [
    "Verif.Ieee.C147_accurate_partial",
    "Verif.Ieee.C147_zero",
    "Verif.Ieee.C147_finite",
    "Verif.Ieee.C147_length_partial",
    "Verif.Ieee.C147_given",
    "Verif.Ieee.C147_overflow_false",
    "Verif.Ieee.C147_underflow_false"
   ],
   "note": "Proved for columns whose sum of squares is between 2^-900 and 2^980 (C147_accurate_partial, C147_length_partial), finiteness for all columns (C147_finite), zeros (C147_zero), norms of the user (C147_given). An entry of 2^512 or more overflows the squares (C147_overflow_false) and entries below 2^-538 underflow them (C147_underflow_false): the column becomes zero and the parameter is lost without an error."
  },
  {
   "property": "C148",
   "status": "partial",
   "theorems": [
    "Verif.Ieee.C148_lost",
    "Verif.Ieee.C148_degenerate_false"
   ],
   "note": "False: for every matrix TNT whose diagonal is not below 2^-78 the inverse prior is lost in rounding and Sigma equals TNT bit by bit (C148_lost); with a column that occurs twice Sigma is exactly singular, the factorization fails in every order of operations and the likelihood is -inf although the exact one is finite (C148_degenerate_false). The effect of the prior in exact arithmetic is bounded in C128; where the factorization succeeds: C149."
  },
  {
   "property": "C149",
   "status": "proved",
   "theorems": [
    "Verif.Ieee.C149_succeeds",
    "Verif.Ieee.C149_backward",
    "Verif.Ieee.C149_logdet",
    "Verif.Ieee.C149_priors"
   ],
   "note": "Proved for every rounding rule and every order of the operations (relations IsFactor, IsChol in Model/IeeeTm): success (C149_succeeds, C149_priors), backward error (C149_backward, without the condition on \u03bc), log-determinant (C149_logdet). Assumptions: the logarithm of the library has an error of at most 2^-51 (1 + |log x|) (GoodLog), diagonal within [2^-400, 2^400]. Below \u03bc of the order n^2 2^-51 failure is possible: C148_degenerate_false."
  },
  {
   "property": "C150",
   "status": "proved",
   "theorems": [
    "Verif.Ieee.C150_quadratic",
    "Verif.Ieee.C150_likelihood",
    "Verif.Ieee.C150_finite",
    "Verif.Ieee.C150_refused"
   ],
   "note": "Proved: C150_quadratic, C150_likelihood, for the numbers Sigma, TNr and logdet_phi that reach the loop (from the data on: C151); C150_finite: a value other than -inf needs every TNr and Sigma to be finite; C150_refused: NaN or inf in Sigma raises ValueError. Assumptions as in C149, |TNr_i| <= 2^100 sqrt(Sigma_ii), and 2^17 N^2 2^-51 <= \u03bc for the likelihood."
  },
  {
   "property": "C151",
   "status": "proved",
   "theorems": [
    "Verif.Ieee.C151_likelihood"
   ],
   "note": "Proved: C151_likelihood, for white noise without blocks (ndarray_alt) and the value of get_phiinv as a vector of numbers with its log-determinant. The condition is on the exact matrix of the data, not on the computed one. Assumptions: GoodLog as in C149, variances at least 2^-200, entries of the basis and residuals within 2^200, diagonal of Sigma within [2^-300, 2^300], sum of r^2/\u03bd at most 2^190."
  },
  {
   "property": "C152",
   "status": "proved",
   "theorems": [
    "Verif.Ieee.C152_likelihood",
    "Verif.Ieee.C152_machines"
   ],
   "note": "Proved: C152_likelihood, C152_machines. White noise without blocks (ndarray_alt) and processes with variances in a vector; the constant M/2 log 2\u03c0 is left out in code and specification. Assumptions: GoodLog as in C149; variances of TOAs within [2^-200, 2^200], of coefficients within [2^-299, 2^800], basis and residuals within 2^200, diagonal of the inverse covariance of the coefficients within [2^-299, 2^299], sum of r^2/\u03bd at most 2^190, K up to 2^22 TOAs. The variances are taken as given numbers; their own rounding is that of C141 and C143."
  },
  {
   "property": "C153",
   "status": "proved",
   "theorems": [
    "Verif.Ieee.C153_variances",
    "Verif.Ieee.C153_parameters"
   ],
   "note": "Proved: C153_variances (variances with relative errors up to \u03b4 \u2264 2^-20, 200 \u03b4 N \u2264 \u03bc), C153_parameters. Signals in the order power law, timing model, with columns of their own; the bases and the residuals are given numbers. Assumptions: GoodLog as in C149, Powers as in C141; ranges a factor 2 narrower than those of C152 for the exact variances; errors and EFAC within e^\u00b1100, |log10_t2equad| \u2264 30 and binary64, |log10_A| \u2264 30, 0 \u2264 \u03b3 \u2264 7, time span between 1 and 2^50 s."
  },
  {
   "property": "C154",
   "status": "proved",
   "theorems": [
    "Verif.Ieee.C154_bases",
    "Verif.Ieee.C154_times"
   ],
   "note": "Proved: C154_bases (columns with errors of weighted relative size \u03ba, variances with relative errors \u03b4), C154_times. Fourier basis without phase shifts, first columns those of the power law; the columns of the design matrix are not zero and none is left out (idx_exclude, see C147 and C91). Assumptions of C153, with ranges again a factor 2 narrower; TOAs between 1 and 2^50 s; columns with sums of squares within [2^-900, 2^980]; `Trig` as in C142."
  },
  {
   "property": "C155",
   "status": "proved",
   "theorems": [
    "Verif.Ieee.C155_chromatic"
   ],
   "note": "Proved: C155_chromatic. As in C154, with a list of processes in the order of the signals and then the timing model. Radio frequencies and reference frequencies between e^-20 and e^20; createfourierdesignmatrix_dm_tn, phase shifts and columns shared between processes are not covered. `H * 2^-51` times a chromatic factor is at most one."
  },
  {
   "property": "C156",
   "status": "proved",
   "theorems": [
    "Verif.Ieee.C156_shared"
   ],
   "note": "Proved: C156_shared. The assignment of columns is given, with the condition that only columns equal in exact arithmetic are joined (how the code finds it is the subject of the properties on `Model/Combine`). Otherwise as in C155."
  },
  {
   "property": "C157",
   "status": "partial",
   "theorems": [
    "Verif.Distance.C157_listed",
    "Verif.Distance.C157_unlisted",
    "Verif.Distance.C157_warning",
    "Verif.Distance.C157_letter",
    "Verif.Distance.C157_names_false",
    "Verif.Distance.C157_empty"
   ],
   "note": "Proved for all names and catalogues (C157_listed, C157_unlisted, C157_letter), warning and positivity for the catalogue of the code (C157_warning); an empty name raises IndexError (C157_empty). The last clause is false: B1953+29 is listed at 5.39 kpc, but as J1955+2908 it is put at 1 kpc with a warning (C157_names_false). Numbers of the catalogue are rationals."
  },
  {
   "property": "C158",
   "status": "proved",
   "theorems": [
    "Verif.Ieee.C158_epochs",
    "Verif.Ieee.C158_covariance"
   ],
   "note": "Proved for all pulsars and parameters in the ranges (C158_epochs), for any epochs; the covariance is spelled out in C158_covariance. Numbers and an outcome exist (exists_epochs, exists_likelihood). The epochs are given (C138 has these from the times), signals do not share columns, and EcorrBasisModel comes after the timing model."
  },
  {
   "property": "C159",
   "status": "partial",
   "theorems": [
    "Verif.EphemSignal.C159_delay",
    "Verif.EphemSignal.C159_params",
    "Verif.EphemSignal.C159_missing_false",
    "Verif.EphemSignal.C159_defaults",
    "Verif.EphemSignal.C159_variances",
    "Verif.EphemSignal.C159_variances_false"
   ],
   "note": "C159_delay and C159_params prove the first clauses for all options, C159_defaults and C159_variances give the default priors. Two clauses are false: parameters without a value count as zero (C159_missing_false), and the variances of the drift and of the orbital elements are a third of those of the Gaussian process, as these are uniform (C159_variances, C159_variances_false)."
  },
  {
   "property": "C160",
   "status": "partial",
   "theorems": [
    "Verif.Mapping.C160_items",
    "Verif.Mapping.C160_keyError",
    "Verif.Mapping.C160_dict",
    "Verif.Mapping.C160_iterate",
    "Verif.Mapping.C160_member",
    "Verif.Mapping.C160_contains_false",
    "Verif.Mapping.C160_iterate_false",
    "Verif.Mapping.C160_duplicates_false"
   ],
   "note": "C160_items, C160_keyError, C160_dict prove keys, items, lookup and dict(obj) for distinct names. There is no __contains__ or __iter__: iteration gives the members (C160_iterate, C160_iterate_false), and name in obj is always False (C160_contains_false, C160_member). With two models of one pulsar dict(pta) has the first, dict(pta.items()) the last (C160_duplicates_false)."
  },
  {
   "property": "C161",
   "status": "proved",
   "theorems": [
    "Verif.Ieee.C161_full"
   ],
   "note": "Proved: C161_full joins C156 and C158. Numbers and an outcome exist (exists_full, exists_likelihood). The epochs and the assignment of columns are given, and EcorrBasisModel comes after the timing model in the list of signals; the order of the combined columns is free."
  },
  {
   "property": "C162",
   "status": "partial",
   "theorems": [
    "Verif.Ieee.C162_linexp_partial",
    "Verif.Ieee.C162_uniform_false",
    "Verif.Ieee.C162_point_false",
    "Verif.Ieee.C162_trunc_false",
    "Verif.Ieee.C162_trunc_point_false"
   ],
   "note": "Proved for LinearExp (C162_linexp_partial). Uniform checks nothing: with pmin > pmax every value, also a drawn one, has log density -inf and percent points are NaN (C162_uniform_false); with pmin = pmax the log density is +inf there and NaN elsewhere (C162_point_false). TruncNormal: with pmin > pmax the sampler never ends (C162_trunc_false), with pmin = pmax the density is NaN everywhere (C162_trunc_point_false). For numpy numbers; Python's own floats raise ZeroDivisionError when Uniform divides by zero."
  }
 ]
}