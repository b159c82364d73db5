# Formal model of `enterprise` (nanograv) in Lean 4

## What this is

`/verif/lean` is a Lake project containing a hand-written formal model of the
parts of `/repo/enterprise` that carry semantic promises to users, and
machine-checked theorems about that model.  The properties are listed in
`properties.jsonl`; `MANIFEST.json` maps each property to the theorems.

Layout (one area per file name):

* `Verif/Model/*.lean`  – the model.  Every definition cites file and lines in
  `/repo` and says where it simplifies.
* `Verif/Spec/*.lean`   – small independent specifications where the property
  needs vocabulary of its own.
* `Verif/Lemmas/*.lean` – helper lemmas.
* `Verif/Props/*.lean`  – the property theorems, named `C<nn>_...`, each with
  `example`s giving a concrete non-trivial instance of its hypotheses.

`scripts/gen_manifest.py` rebuilds `MANIFEST.json` from the theorem names and
`scripts/notes.json`; `scripts/gen_design.py` rebuilds the table at the end of
this file; `scripts/mutate.py` runs mutations of the model in a scratch copy;
`seeded/LOG.jsonl` records them.
An entry with a `note` is weaker than the others: the build was stopped without naming a
theorem (inconclusive), or only a helper lemma was seen to fail. For the randomly chosen edits
(entries that quote the edited code) the claim is the title of the property of the first
failing theorem, filled in by a script.

## Trusted base

* Lean 4.33.0's kernel; Mathlib's definitions (those that occur in statements:
  lists, finite sums, matrices, determinants, positive definiteness, real and
  complex numbers, elementary functions, the Lebesgue integral).
* Axioms: every theorem depends on at most `propext`, `Classical.choice`,
  `Quot.sound`.  No axiom is added; no `sorry`, `native_decide`, `bv_decide`.
* The model itself: it was transcribed by reading the Python text.  Nothing was
  executed.  What is assumed of Python, numpy and the other libraries is listed
  below.

### Assumptions about Python / numpy

* Arithmetic is exact (an ordered field or the reals): floating-point rounding,
  overflow, infinities and NaN are outside the model.  A division by zero that
  numpy would turn into `inf` or `nan` is excluded by hypotheses or named in the
  remarks of the table.  The exceptions are `Model/Ieee` (C137),
  `Model/IeeeToas` (C138), `Model/IeeeDraw` (C140), `Model/IeeePhi` (C141), `Model/IeeeBases` (C142), `Model/IeeeWhite` (C143),
  `Model/IeeeEcorr` (C144), `Model/IeeeOrf` (C145), `Model/IeeeTm` (C147–C152), `Model/IeeeNoise` (C153, C154), `Model/IeeeChrom` (C155), `Model/IeeeShared` (C156), `Model/IeeeEpochs` (C158) and `Model/IeeeFull` (C161):
  the prior functions, the comparisons of times, the drawing of values, the
  variances, the Fourier bases, the likelihood with Gaussian processes and of white noise, with and
  without ECORR, the overlap reduction functions, the columns of the timing model and its prior in binary64, with NaN,
  infinities, overflow and underflow, for any monotone rounding to representable numbers (zero has no sign).  `np.exp`,
  `np.log` and `10**x` are only assumed to meet the bounds that the structure
  `Ieee.Lib` lists, powers those of `Ieee.Powers`, sines those of `Ieee.Trig`; `Ieee.down`, `Ieee.lib`, `Ieee.floorPowers` and `Ieee.exactTrig` show that these can be met.
* `dict` preserves insertion order, assignment to an existing key keeps its
  place; `sorted` and `np.argsort(kind="mergesort")` are stable; the default
  `np.argsort` returns *some* sorting permutation; a Python `set` is traversed
  in *some* order.
* `a[idx] += b` with a list index evaluates `a[idx] + b` and then scatters it;
  repeated indices keep the last value.
* `np.in1d(x, s)` with a Python `set` `s` treats the set as one object, so the
  result is all `False` (numpy documents this limitation).
* Linear-algebra kernels (`cho_factor`, `cho_solve`, `inv`, `svd`, `qr`, sksparse
  `cholesky`, `solve_triangular`) are correct: they return the mathematical
  solution when the matrix is positive definite / invertible and raise otherwise.
  The exception is `Model/IeeeTm`, where `cho_factor` and `cho_solve` carry out
  the operations of the factorization and of the triangular systems in binary64,
  in any order (C148–C150).
  For `svd` and the sparse factorization the model quantifies over every
  decomposition with the documented properties.
  `Props/Library` proves that such libraries exist for all inputs (sorting,
  full and thin SVD, Cholesky factors, the library of `Coefficients`), so no
  theorem that quantifies over them is vacuous.
* `np.random` is an arbitrary stream of draws (with an explicit generator state
  where seeding matters).
* `np.interp(x, xp, fp)` with increasing `xp` is linear interpolation, constant
  outside.
* healpy: `Alm.getidx`, `Alm.getsize` by their formulas; `alm2map` is some
  real-linear map in C94, and in C118 the sum over the harmonics that defines
  it, which C118_linear shows to be such a map; `map2alm` is the sum over the
  pixels followed by three rounds of improvement (its default `iter=3`);
  spherical harmonics are any functions with `Y_{l,-m} = (-1)^m conj Y_lm` and
  constant `Y_00`, pixel directions are arbitrary.
* pyarrow writes and reads back columns and metadata unchanged.
* POSIX shared memory: `unlink` removes the name, existing mappings stay valid.

### Code and model

| code | model |
|------|-------|
| `selections.py` | `Model/Selections`; argument filling `selection_func`: `Model/Function` |
| `parameter.py` `Parameter`, `sample`, `Constant` | `Model/Params` |
| `signal_base.py` `LogLikelihood` between calls (`_block_TNT`, `_block_TNr`, `cf_sp`), `LogLikelihoodDenseCholesky`, `PTA._lnlikelihood`, `get_lnlikelihood` | `Model/Calls` |
| `parameter.py` `Parameter.__init__`, `get_pdf`, `get_logpdf`, `sample`, `get_ppf`, `UserParameter`, `GPCoefficients` over Functions | `Model/UserPar` |
| `parameter.py` `Uniform`, `Normal`, `TruncNormal`, `LinearExp` | `Model/Priors` |
| `parameter.py` `Function`, `get_funcargs`, `function` | `Model/Function`; classes of Functions and the names of their parameters: `Model/Named` |
| `signal_base.py` `cache_call`, `simplememobyid`, nested caches of `SignalCollection` | `Model/Cache` |
| `signal_base.py` `MetaSignal`, `MetaCollection`, `PTA` sums and lookup | `Model/Collections` |
| `signal_base.py` 318-340, 847-869 (dictionary methods of `PTA` and `SignalCollection`) | `Model/Mapping` |
| `signal_base.py` `PTA.params`, `map_params`, `summary`, `set_default_params` | `Model/Params` |
| `signal_base.py` `_combine_basis_columns`, `get_basis`, `get_phi` | `Model/Combine` |
| `signal_base.py` `PTA.get_phi`, cliques | `Model/PtaPhi`, `Model/PhiInv` |
| `signal_base.py` `get_phiinv_byfreq_partition`, `KernelMatrix.inv` | `Model/Partition` |
| `signal_base.py` `ndarray_alt`, `ShermanMorrison`, `BlockMatrix`, `csc_matrix_alt` | `Model/Noise` |
| `signal_base.py` `LogLikelihood`, `SignalCollection.get_TNr` … | `Model/Likelihood` |
| `gp_signals.py` `BasisGP` (coefficients), `utils.py` `ConditionalGP`, `get_coefficients` | `Model/Coefficients` |
| `gp_signals.py` `BasisCommonGP` | `Model/PtaPhi`; its basis and span: `Model/Common` |
| `gp_signals.py` `MarginalizingNmat` | `Model/Marg` |
| `gp_signals.py` `WidebandTimingModel` | `Model/Wideband` |
| `gp_bases.py` | `Model/Bases` |
| `gp_priors.py` | `Model/Spectra` |
| `utils.py` `KernelMatrix` | `Model/Kernel` |
| `utils.py` `create_quantization_matrix`, `quant2ind`; `white_signals.py` `EcorrKernelNoise` | `Model/Quantize` |
| `utils.py` `linear_interp_basis`, timing-model bases | `Model/Interp` |
| `utils.py` overlap reduction functions, antenna patterns, `bwm_delay` | `Model/Orf` |
| `utils.py` ephemeris functions | `Model/Ephem` |
| `utils.py` 358-483 (evolution equations), 539-686 (`get_an`, `get_bn`, `get_cn`, `calculate_splus_scross`), in-place changes of `bwm_delay` | `Model/Binary` |
| `anis_coefficients.py`, `utils.py` `anis_orf` | `Model/Anis` |
| `white_signals.py` `WhiteNoise`, `deterministic_signals.py` `Deterministic` | `Model/WhiteNoise` |
| `pulsar.py` 74-92 (`_get_pdist`), `datafiles/pulsar_distances.json` | `Model/Distance` |
| `pulsar.py` 94-125 (positions), 327-624 (`PintPulsar`, `Tempo2Pulsar`: flags, coordinates, dispersion bins, planets) | `Model/Sources` |
| `signals/gp_signals.py` 97-120, 172-186 (`BasisGP` with a selection), 256-282 (`EcorrBasisModel`) | `Model/BasisGP` |
| `signals/signal_base.py` 933-1003 (`SignalCollection` from its signals to the likelihood) | `Model/Collect` |
| `signals/signal_base.py` 384-403, 626-673, 180-264 and `signals/gp_signals.py` 285-411 (a `PTA` with common processes, from its signals to the likelihood) | `Model/Joined` |
| `signals/gp_signals.py` 24-216 with `signals/gp_bases.py` 25-127, 261-292 (Fourier processes with a selection) | `Model/Fourier` |
| `signals/white_signals.py` 57-230, `signals/gp_signals.py` 24-253, 791-819 together (a pulsar with the usual signals) | `Model/Standard` |
| `signals/gp_signals.py` 285-463 (`FourierBasisCommonGP`: its time span over sessions, and the process in each pulsar) | `Model/Background` |
| `signals/gp_signals.py` 285-411, 466-519 (`BasisCommonGP` with any basis, `FourierBasisCommonGP_ephem`, `FourierBasisCommonGP_physicalephem`) | `Model/Commons` |
| `signals/signal_base.py` 267-276, 383-403, 783-789, `signals/gp_signals.py` 414-463 (a `PTA` with several `FourierBasisCommonGP`) | `Model/Several` |
| `signals/signal_base.py` 267-276, 783-789, `signals/white_signals.py` 57-230, `signals/gp_signals.py` 24-253, 414-463, 791-819 (a `PTA` of pulsars with the usual signals) | `Model/StdArray` |
| `signals/gp_signals.py` 541-757 with `signals/signal_base.py` 933-1003 (a pulsar with the wideband timing model and other signals) | `Model/WidebandPsr` |
| `signals/anis_coefficients.py` 18-31, 179-268 (sky maps; healpy's transforms by their definitions) | `Model/SkyMap` |
| `signals/deterministic_signals.py` 170-213 (the ephemeris signal on epoch averages) | `Model/EpochEphem` |
| `signals/deterministic_signals.py` 56-168 (the options of the ephemeris signal) | `Model/EphemSignal` |
| `signals/gp_priors.py` 80-95 (`InvGamma` and the t-process with it) | `Model/TProcess` |
| `signals/utils.py` 486-536 (solving the equations of a binary; `odeint` is an argument) | `Model/Inspiral` |
| `signals/parameter.py` 254-263 (`NormalSampler`, with numpy's `multivariate_normal`) | `Model/Samplers` |
| parameters registered, listed and read by the signal classes: `white_signals.py` 36-67, 201-306, `deterministic_signals.py` 21-53, 197-209, `gp_signals.py` 43-185, 285-411, 522-760, `signal_base.py` 95-173 | `Model/SigParams` |
| `pulsar.py` `BasePulsar`: sorting, flags, `filter_data` | `Model/PulsarData` |
| `pulsar.py` `FeatherPulsar` | `Model/Feather` |
| `pulsar.py` `Pulsar`, `get_maxobs` | `Model/Loader` |
| `pulsar.py` deflate/inflate, `pulsar_inflate.py` | `Model/Inflate` |
| `parameter.py` `UniformPrior`, `NormalPrior`, `TruncNormalPrior`, `LinearExpPrior`, `get_logpdf`, and `PTA.get_lnprior`, in floating point | `Model/Ieee` |
| `utils.py` `create_quantization_matrix`, `pulsar.py` 138-143, `selections.py` `cut_half`, `gp_signals.py` 626, in floating point | `Model/IeeeToas` |
| `parameter.py` samplers and percent points of Uniform, LinearExp, TruncNormal, in floating point | `Model/IeeeDraw` |
| `gp_priors.powerlaw`, `free_spectrum`, `white_signals` variances, `KernelMatrix.add` and `inv` of vectors, in floating point | `Model/IeeePhi` |
| `gp_bases.createfourierdesignmatrix_red` without `modes` and `logf`, in floating point | `Model/IeeeBases` |
| `LogLikelihood.__call__` and `ndarray_alt.solve` for white noise, in floating point | `Model/IeeeWhite` |
| `LogLikelihood.__call__` and `ShermanMorrison.solve` for white noise with ECORR, in floating point | `Model/IeeeEcorr` |
| `utils.py` `hd_orf`, `dipole_orf`, `monopole_orf`, in floating point | `Model/IeeeOrf` |
| `utils.py` `normed_tm_basis`, `tm_prior`; `KernelMatrix.inv` of a vector; `get_TNT`, `get_TNr`, `Sigma`, `cho_factor`, `cho_solve`, the log-determinant and the loop over the pulsars of `LogLikelihood.__call__`, in floating point | `Model/IeeeTm` |
| `utils.py` `ConditionalGP` with processes, draws and `tm_params` (76-138) | `Model/Processes` |
| `pulsar.py` dropping of the timing objects, `to_pickle` (168-188, 326-406, 483-551, 632-636) | `Model/Pickle` |

### Not modelled

* Plotting, logging, `__repr__`, `_argrepr`; file-format parsing by tempo2,
  PINT and pyarrow; performance; sparse storage layout.
* What `cholesky_inplace` does with another pattern (C131 is about that it may
  be called so); `scipy.stats.norm.ppf` beyond its defining equation.
* Priors: list-valued `mu`, and bounds that are numbers of Python's own type
  (C162 has numpy's division by zero).
* Bases: `T = 0`, negative `nmodes`.
* Shapes that do not match, except where a theorem is about them.
* The differential equations of eccentric binaries and the functions that solve them are modelled; scipy's `odeint` is an argument, and
  C99 and C121 speak of exact solutions.  The table of `make_ecc_interpolant` (a file of libstempo) is not modelled.

## Method

* Python exceptions are values: `Except PyErr α`.
* Numeric code is over an arbitrary linearly ordered field (so that examples
  can be evaluated over ℚ), over ℝ when `log`, `exp`, `sqrt`, trigonometry occur.
* Arrays are lists when the algorithm is about positions (masks, gather,
  scatter, sort) and functions on finite types / Mathlib matrices when the
  algorithm is linear algebra.
* Histories are lists of operations; properties over histories are proved by
  induction with an invariant.
* In-place mutation and aliasing are modelled with an explicit heap.
* Where a property is *false* of the code, the negation is proved with a
  concrete witness (`..._false`), and the strongest true part we found is
  proved with the suffix `_partial`.  Such a property has status `partial`: the
  full statement stays in `properties.jsonl`, the remark says what fails.

## Properties

<!-- table generated by scripts/gen_design.py -->

| id | property | status | where | remarks |
|----|----------|--------|-------|---------|
| C01 | Flag selections partition the TOAs | proved | Selections |  |
| C02 | cut_half splits the data in two without loss | proved | Selections |  |
| C03 | Backend filters select exactly the matching TOAs | proved | Selections |  |
| C04 | Frequency bands do not overlap and leave no gap inside their range | proved | Selections |  |
| C05 | custom_backends_dict recovers the documented selections | partial | Selections | custom_backends with the documented list is not nanograv_backends (CHIME and VEGAS are missing from the docstring list), and a dictionary with two flags whose values coincide loses masks; both negations are proved, with the conditions under which the documented recoveries hold. Refutations: `C05_doc_list_false`, `C05_two_flags_false`. |
| C06 | A selection function can be reused for many pulsars | proved | Selections |  |
| C07 | White-noise variance of a TOA comes only from its own selection | proved | WhiteNoise |  |
| C08 | Deterministic waveforms land on the TOAs they were computed for | proved | WhiteNoise |  |
| C09 | Observing epochs are short, disjoint and large enough | proved | Quantize |  |
| C10 | Epochs do not depend on how ties are sorted nor on TOA order | proved | Quantize |  |
| C11 | Quantization matrix and index lists describe the same epochs | proved | Quantize |  |
| C12 | ECORR epochs of different selections never share a TOA, and each epoch uses its own selection's amplitude | proved | Quantize |  |
| C13 | Pulsar arrays are time sorted and stay aligned | proved | PulsarData |  |
| C14 | isort and iisort are mutually inverse | proved | PulsarData |  |
| C15 | Flags set by the user are read back | proved | PulsarData |  |
| C16 | filter_data keeps the observations in the window and keeps all attributes aligned | partial | PulsarData | Site times, pulsar/Sun positions and telescope are not sliced, planet positions are misaligned unless the file is time ordered; negations proved. TOAs, errors, residuals, frequencies, flags, design matrix proved for all inputs. Refutations: `C16_site_times_false`, `C16_planets_false`. |
| C17 | filter_data drops only design-matrix columns that became empty, and keeps fitpars in step | partial | PulsarData | Columns of mixed sign that cancel are dropped and fitpars is not updated (negation proved); exact for non-negative columns. Refutations: `C17_columns_false`. |
| C18 | backend_flags follows the documented ranking per TOA | partial | PulsarData | The fe_be concatenation is truncated to the widest existing flag (negation proved); exact under the width condition. Refutations: `C18_truncation_false`. |
| C19 | A pulsar saved to a feather file is read back unchanged | partial | Feather | Saving never succeeds: the metadata lookup raises for every pulsar (negation proved). With the lookup repaired, the file layout round trip is proved for one to ten planets; with eleven or more rows it is false. Refutations: `C19_save_false`. |
| C20 | Only the pulsar's own noise entries are saved with it | partial | Feather | Every own entry is kept; entries of a pulsar whose name extends this one's are kept too (negation proved). Refutations: `C20_other_pulsar_false`. |
| C21 | Shared pulsars show every process the original data | proved | Inflate |  |
| C22 | A failed deflate or inflate can be retried | proved | Inflate |  |
| C23 | A failed destroy can be retried | partial | Inflate | False after the first unlink: every retry raises FileNotFoundError and frees nothing (negation proved for all pulsars). Proved for failures before the first unlink. Refutations: `C23_destroy_retry_false`. |
| C24 | Loading par/tim files restores the working directory | proved | Loader |  |
| C25 | maxobs is large enough for the tim file | partial | Loader | False for files with both TOAs and INCLUDE: the own TOAs are not counted, for any number (negation proved). Proved for any tree of includes in which no file has both. Refutations: `C25_mixed_false`. |
| C26 | Caching never changes a result | proved | Cache |  |
| C27 | An exception inside a cached method does not poison the cache | partial | Cache | Never a wrong value: proved for every history. Retry: false when a fresh cache sees as many failures as it has slots (KeyError for ever, negation proved). What retries return is characterised exactly from every state of the cache (C27_retry_exact); after any history with another key cached they recover after finitely many KeyErrors (C27_recovers). Refutations: `C27_retry_false`. |
| C28 | Caches are bounded | proved | Cache |  |
| C29 | Changing constants takes effect | partial | Cache | False for keys already cached, both through set_default_params and through an overriding value in params (negations proved for every method). Proved for every history: a call returns the value for constants in force at this or an earlier call with the same parameters (C29_former_partial); new constants are used in every call once the method has been called with as many new parameter values as the cache holds (C29_settles_partial), and this number cannot be lowered (C29_stale_false); keys not in the cache use the new constants at once (C29_uncached_partial). Refutations: `C29_constants_false`, `C29_override_false`, `C29_stale_false`. |
| C30 | A returned noise matrix or delay is the one for the requested parameters | partial | Cache | False: calls for a, b, a return b's array the third time (negation proved for every a, b). What each call of any history returns is characterised exactly (C30_exact), and when it is wrong (C30_wrong_iff). Refutations: `C30_buffer_false`. |
| C31 | Methods cached with limit=1 leave the object in the state of the last call | proved | Cache |  |
| C32 | Identity memoization returns the right value | proved | Cache |  |
| C33 | Pulsar-level quantities do not depend on evaluation history | partial | Cache | Proved for all histories of all pulsar- and signal-level methods when each signal method depends only on the names it is cached under. False for GPs with explicit coefficients and a varying basis (negation proved). Refutations: `C33_coefficients_false`. |
| C34 | Arguments of a Function follow the documented precedence | proved | Fun |  |
| C35 | Nested Functions do not capture each other's parameters | partial | Fun | False: a nested Function's parameters are merged by keyword into the outer Function (Function.__init__), and outer keywords evaluated earlier are passed to nested Functions by name; three counterexamples are proved. Proved for trees in which no keyword of a nested Function repeats a keyword of an enclosing one. Refutations: `C35_parameter_false`, `C35_value_false`, `C35_inner_false`. |
| C36 | Functions receive the pulsar attributes they name | partial | Fun | False when an argument that is given or defaulted precedes one filled from the pulsar (misbinding or TypeError), and for arrays whose length happens to equal the number of TOAs; proved when the filled names directly follow the positional ones. The mask never reaches nested Functions. Refutations: `C36_misbound_false`, `C36_keyword_first_false`, `C36_mask_false`. |
| C37 | parameter.sample is consistent with hyperparameters | partial | Params | False: shared hyperparameters, hierarchies of depth two and lists in which a hyperparameter follows the parameter using it (PTA.params is such a list, depending on names) are sampled inconsistently; three counterexamples are proved. Proved for depth one when no later element resamples a hyperparameter. Refutations: `C37_shared_false`, `C37_deep_false`, `C37_order_false`. |
| C38 | The parameter list is canonical | proved | Params | Names must be unique for the list to be canonical, as the statement says; with two objects of the same name both are listed and the order depends on set traversal (C38_same_name_ambiguous shows the hypothesis is needed). |
| C39 | Parameter vectors map to dictionaries without loss | partial | Params | The mapping, round trip and treatment of long vectors are proved for all lists; the clause that too-short vectors are rejected is false when the last parameter is a vector (it is silently truncated) and proved when it is a scalar. Refutations: `C39_short_false`. |
| C40 | The log prior is the sum over all parameters and is the same for vector and dictionary input | proved | Params |  |
| C41 | The hypercube transform maps to the prior | partial | Params | False for hierarchical priors: the quantile function is given the unit-cube values of the hyperparameters; proved for parameters without hyperparameters. Refutations: `C41_hierarchical_false`. |
| C42 | set_default_params sets exactly the named constants | partial | Params | Constants inside the prior of a Parameter are not reached; proved for all Constants registered in signals. Refutations: `C42_prior_false`. |
| C43 | Parameters of different selections never collide | partial | Params | For one keyword the names are injective in the selection key for all strings; across keywords it is false if one keyword ends with an underscore and the other, and proved otherwise. Refutations: `C43_keywords_false`. |
| C44 | Adding signals is associative | partial | Coll | Proved for signal classes with any bracketing. For arrays, a pulsar model added to the left of an array raises AttributeError (exactly characterised), so addition of arrays is not associative; proved for left-nested sums. Refutations: `C44_right_nested_false`. |
| C45 | PTA lookup by name returns the first match | proved | Coll |  |
| C46 | Sharing basis columns does not change the model | partial | Combine | False when a combining signal follows a signal whose basis varies (C46_varying_false) and when a signal repeats a column (C46_repeated_false); proved otherwise, for hashes that tell columns apart (C46_partial). Refutations: `C46_varying_false`, `C46_repeated_false`. |
| C47 | KernelMatrix.add and set act on the addressed block | partial | Kernel | Matrix arguments are fully proved; vector arguments need positions given as an index list or a diagonal kernel, because a slice with a dense kernel adds to the whole block (C47_slice_false). Refutations: `C47_slice_false`. |
| C48 | The PTA prior covariance is symmetric and has the right cross-correlations | proved | PtaPhi |  |
| C49 | Inverting by cliques gives the inverse | partial | PhiInv | Proved end to end when every group of correlated columns meets at most one existing clique (C49_partial), in particular for diagonal priors and one class (C49_one_class) or several classes that share columns in the same way in all pulsars (C49_aligned); false when a common signal joins two cliques, because np.in1d with a set never matches (C49_merge_false). Refutations: `C49_merge_false`. |
| C50 | Inverting by partition gives the inverse | partial | Partition | Proved for diagonal priors and one class of common signals, and with logdet for dense priors whose common columns are uncorrelated with the others; false for two classes on the same basis (C50_two_classes_false), for dense priors without logdet (C50_dense_false) and for correlated common columns (C50_coupled_false). Refutations: `C50_two_classes_false`, `C50_dense_false`, `C50_coupled_false`. |
| C51 | Sherman-Morrison solves are exact | partial | Noise | Exact for every call the class implements when each epoch has at least two TOAs (C51_partial); EcorrKernelNoise always makes such epochs (C51_ecorr). Epochs with one TOA are skipped by the loops (C51_single_false), and the solves are exact for the covariance without them (C51_short). A two-dimensional solve without left_array raises (C51_missing). Refutations: `C51_single_false`. |
| C52 | Sherman-Morrison log determinant is exact | partial | Noise | Exact when each epoch has at least two TOAs; epochs with one TOA are skipped (C52_single_false). EcorrKernelNoise never makes one-TOA epochs (C51_ecorr). Refutations: `C52_single_false`. |
| C53 | All ECORR methods agree | partial | Noise | Proved when there is at least one epoch and bases have at least two columns (C53_partial; C53_block, C53_short for arbitrary blocks). Without epochs the block method raises ValueError (C53_no_epochs_false); with a one-column left array and a wider right one the block method raises TypeError (C53_shape_false). Refutations: `C53_no_epochs_false`, `C53_shape_false`. |
| C54 | White-noise terms can be added in any order | partial | Noise | Proved for all lists in which the marginalizing timing model stands before every Sherman-Morrison or block kernel, and for lists without it (C54_no_marg). A kernel before the marginalizing model raises (C54_order_false), two marginalizing models raise (C54_two_raise). Refutations: `C54_order_false`. |
| C55 | The marginalizing timing model removes timing-model directions exactly | proved | Noise | The kernel inside is any noise object whose solves are exact (arr_exact, sm_exact, block_exact, csc_exact). C55_logdet_dropped: with an equal but not identical left array the requested log determinant is not returned. |
| C56 | The likelihood is the Gaussian likelihood of the full covariance | proved | Likelihood | Exact arithmetic; a pulsar's noise is any sum get_ndiag accepts whose solve is exact (C51-C54), with no timing model marginalized (C84 has that case). Includes the log priors of the signals, as the code does. |
| C57 | Correlated and uncorrelated code paths agree | partial | Likelihood | With common signals the likelihood is the density of the joint covariance for method sparse whatever the classes, for cliques when the labels separate the prior covariance, and for every method with one class on distinct pulsars with diagonal priors; with zero cross terms it equals the loop over the pulsars. Missing: the cases where C49 or C50 fail, and a pulsar without a Gaussian process, for which the big-matrix branch raises (C57_no_basis_false). Refutations: `C57_no_basis_false`. |
| C58 | Hierarchical and marginalized likelihoods are consistent | proved | Coefficients, Evidence | Any split of the processes of a pulsar into marginalized ones and one in coefficient mode, any selection of keys; the mean of the conditional Gaussian is the block of Sigma^-1 T^T N^-1 r that ConditionalGP computes (C58_mean). |
| C59 | get_coefficients labels coefficients with the right signal | partial | Coefficients | Holds with common signals (C59_common) and, without, in models without signals of type 'common basis' (C59_partial). Without common signals, i.e. in a PTA with one pulsar, a common-type signal is skipped and later signals get the wrong coefficients (C59_common_type_false). Refutations: `C59_common_type_false`. |
| C60 | ConditionalGP labels coefficients with the right signal | partial | Coefficients | Labels, cover and disjointness, IndexError for shared bases, and the returned coefficients (with and without common signals). A process in coefficient mode or a pulsar without Gaussian processes makes it raise AttributeError (C60_coefficient_mode_false, C60_no_basis_false). The theorems on returned coefficients need distinct signal names: with repeated names the entry is that of the last signal (C60_last), and the earlier ones are lost (C60_lost, C60_names_false). tm_params and processes are in C146. Refutations: `C60_coefficient_mode_false`, `C60_no_basis_false`, `C60_names_false`. |
| C61 | Uniform parameters: density, quantile and support agree | proved | Priors |  |
| C62 | LinearExp parameters: density, quantile and support agree | proved | Priors |  |
| C63 | Vector parameters are independent components | proved | Priors |  |
| C64 | TruncNormal samples stay in range | proved | Priors |  |
| C65 | Fourier bases with more modes extend those with fewer | partial | Bases | Columns, prefix law and sin^2+cos^2=1 proved for every call with explicit frequencies or Tspan and without random shifts. Counterexamples: with fmin/fmax the frequencies are re-spaced so that fewer modes are no prefix (C65_bounds_false), unseeded phase shifts (C65_pshift_false), and a list of modes, which the docstring allows, raises TypeError (C65_list_false). Refutations: `C65_bounds_false`, `C65_pshift_false`, `C65_list_false`. |
| C66 | Power-law priors are positive, per-frequency and extend consistently | partial | Spectra | All spectra proved positive, equal on the columns of a frequency and independent of higher frequencies for the default two components. Counterexamples: a components argument that does not match the basis (C66_components_false) and a basis of a single column (C66_one_column_false). Refutations: `C66_components_false`, `C66_one_column_false`. |
| C67 | The linear interpolation basis interpolates | partial | Interp | Interpolation proved for all TOAs that are not all equal; with all TOAs equal the basis has no columns (C67_false). Refutations: `C67_false`. |
| C68 | Wideband model accepts only TOAs covered by exactly one DMX bin | partial | Wideband | False as stated: the constructor only checks that the numbers of intervals around the TOAs add up to the number of TOAs (C68_count), so a TOA in two bins makes up for one in none (C68_false). Proved: for disjoint intervals the claim holds (C68_partial); exact coverage is accepted (C68_complete); the default arguments are always rejected (C68_default). Refutations: `C68_false`. |
| C69 | Wideband DM terms are the product of the DM measurement Gaussians | proved | Wideband | Bins as assigned_of_make gives them: disjoint, each with a TOA. C69_empty_bin: a bin without TOAs passes the constructor and get_logsignalprior raises IndexError. |
| C70 | DM jumps and errors use the selection's own parameters | proved | Wideband | Values are looked up by the parameter names; the reference jump is the constant zero unless the caller's dictionary has its name. |
| C71 | Overlap reduction functions give valid covariances | proved | Orf | Distinct positions are needed for definiteness: C71_same shows every correlation matrix singular for two pulsars at the same position. The dipole needs vectors of length at most 1. |
| C72 | Spherical-harmonic coefficient conversions are inverse | proved | Anis | C72_inverse gives the other direction for coefficients whose m = 0 entries are real; C72_rejects and C72_truncates describe the other lengths. hp.Alm.getidx and getsize are modelled by healpy's formulas; the square roots are exact. |
| C73 | Reference-frame rotations preserve geometry | proved | Ephem | One row of the (n, 3) arrays; exact reals. |
| C74 | ORF from a non-negative sky map is a valid covariance | proved | Anis | For every response matrix and every map without negative values; C74_pulsars with the response the code computes. Mismatched shapes are not modelled. |
| C75 | Burst with memory is causal and linear | proved | Orf | C75_pattern and C75_bound exclude a pulsar exactly in the direction of the source (cosMu = 1), where the antenna pattern divides by zero (numpy: nan). bwm_delay multiplies its argument t0 in place: an array passed for t0 is changed for the caller; this is not modelled. |
| C76 | The model summary counts parameters correctly | partial | Params | Fixed is 0 without include_params, and a Constant held by two signals counts twice; the remaining cases are proved. Refutations: `C76_without_params_false`, `C76_shared_false`. |
| C77 | by_index selects exactly the listed TOAs | proved | Selections |  |
| C78 | The timing package opens the files the caller named | partial | Loader | Proved without symbolic links for all paths; false for the par file when the tim directory is reached through a link (negation proved). The tim file is always found. Refutations: `C78_symlink_false`. |
| C79 | Pulsar() picks its loader from the arguments in a fixed order | proved | Loader |  |
| C80 | A Function lists every parameter it reads | partial | Fun | False when two nested Functions use the same keyword (only the last parameter is registered); proved when keywords are pairwise distinct. Refutations: `C80_lost_false`. |
| C81 | The function decorator runs the function only on complete plain arguments | proved | Fun |  |
| C82 | KernelMatrix.inv returns the inverse | partial | Partition | Proved for positive vectors and positive definite matrices; false for symmetric indefinite matrices, where u/s u^T is not the inverse (C82_indefinite_false). For symmetric invertible matrices the result is the inverse exactly when the matrix is positive definite (C82_exact). Refutations: `C82_indefinite_false`. |
| C83 | The marginalizing timing model is the limit of wide Gaussian priors | proved | Noise |  |
| C84 | The likelihood with a marginalized timing model is the limit of Gaussian likelihoods | proved | Likelihood | The value is C84, its reading as a limit C84_limit. |
| C85 | Coefficient draws have the conditional covariance | partial | Coefficients | Holds for ConditionalGP (dense and sparse) and for get_coefficients from the singular value decomposition. get_coefficients(common_sparse=True) leaves out the fill-reducing permutation (C85_common_sparse_false); it is right when the factorization does not permute. The fallback for a decomposition that does not converge draws with the covariance Sigma instead of its inverse (C85_fallback_false). Refutations: `C85_common_sparse_false`, `C85_fallback_false`. |
| C86 | Normal and truncated normal priors are normalised densities | proved | Evidence, Priors |  |
| C87 | The likelihood is the integral over the Gaussian-process coefficients | proved | Evidence |  |
| C88 | Chromatic, enveloped, masked and ephemeris Fourier bases are row-wise scalings of the achromatic one | proved | Bases |  |
| C89 | Seeded phase shifts are reproducible and do not disturb other random draws | partial | Bases | Reproducibility proved; the call resets the global generator when a seed is given, so later draws change (C89_state_false). Refutations: `C89_state_false`. |
| C90 | Free spectra and t-processes give the columns of a frequency their own variance | proved | Spectra |  |
| C91 | The choice of timing-model basis does not change the allowed corrections | partial | Interp | Proved for unnormed, normed and given norms for every matrix; for singular vectors if the columns are independent. If a combination of columns is zero the singular vectors allow for more corrections (C91_svd_false); excluding all columns raises (C91_none_left). Refutations: `C91_svd_false`. |
| C92 | The inverse gamma prior of the t-process is a normalised density | proved | Spectra |  |
| C93 | Posteriors do not depend on the basis of a marginalized timing model | proved | Interp |  |
| C94 | Anisotropic correlations are those of the sky map | partial | Anis | C94_partial: equality with the covariance of the map, given that healpy's alm2map is real-linear. C94_valid: valid where the map is nowhere negative. C94_false: for parameters that make the power negative the covariance is not positive semidefinite; the code does not check this. Refutations: `C94_false`. |
| C95 | Physical ephemeris delay and its design matrix agree | proved | Ephem | np.interp is modelled for increasing times. Orbit arrays and their times have matching lengths. |
| C96 | All pulsars of an array share the frequencies of a common Fourier process | partial | Common | Proved when all signals of the class are made before the first basis is asked for (C96_partial) or Tspan is given (C96_explicit). False otherwise: the span is kept in class-level lists and the basis is cached, so the frequencies depend on the order of calls (C96_order_false) and on pulsars of earlier arrays made from the same class (C96_foreign_false). Refutations: `C96_order_false`, `C96_foreign_false`. |
| C97 | Waveform functions leave their arguments alone | partial | Binary | Proved for numbers. False for arrays: `mc *= Tsun`, `dl *= Mpc / c` and `t0 *= day` change the array of the caller (C97_false, C97_burst_false), also between the calls inside get_coupled_ecc_eqns and calculate_splus_scross (C97_evolution_false, C97_waveform_false). Refutations: `C97_false`, `C97_evolution_false`, `C97_waveform_false`, `C97_burst_false`. |
| C98 | Residuals of an eccentric binary are the integral of its strain | partial | Binary | C98_integral, C98_circular and C98_h0 prove the claim for the harmonics 1 to nmax - 1. The documented number of harmonics nmax is off by one: two harmonics of a circular binary give zero (C98_count_false). Refutations: `C98_count_false`. |
| C99 | Binaries shrink and become circular along Peters' relation | proved | Binary, Inspiral |  |
| C100 | PINT flags of every TOA arrive at that TOA | proved | Sources |  |
| C101 | Pulsar position and per-TOA direction describe the same point of the sky | partial | Sources | C101_unit, C101_geometry, C101_partial, C101_pint and C101_refused prove the claim for pulsars with one kind of coordinates and no B in their name, given that pyephem and libstempo mean the same rotation. When both kinds are set the direction is rotated by the obliquity though it is equatorial already (C101_both_false); any B in the name, even that of a companion, asks for the equinox of 1950 (C101_epoch_false). Refutations: `C101_both_false`, `C101_epoch_false`. |
| C102 | psr.dmx describes the dispersion bins of the timing model | partial | Sources | C102_names, C102_tempo2_partial and C102_pint_partial prove keys, values and ranges for the bins that are listed. libstempo: fit is true for bins that are not fitted (C102_fit_false). PINT: frozen bins are missing (C102_frozen_false). Refutations: `C102_fit_false`, `C102_frozen_false`. |
| C103 | Planet positions are complete, in light seconds and in the frame of the pulsar | proved | Sources |  |
| C104 | A Gaussian process with a selection is one independent process per selection | partial | BasisGP | C104_partial and C104_signal prove the claim for every history in which no call with vector priors follows one with matrix priors; C104_slices gives the columns, C104_errors the exceptions. Otherwise the vector is written over whole rows of the block (C104_mixed_false). Refutations: `C104_mixed_false`. |
| C105 | The likelihood of pulsars is that of the sum of their signals | proved | Collect |  |
| C106 | ECORR as a Gaussian process and as a noise matrix are the same model | partial | BasisGP | C106_likelihood_partial proves equal likelihoods whenever there is an epoch (with a hash without collisions); C106_covariance needs no epoch. Without epochs EcorrBasisModel raises an IndexError (C106_none_false). Refutations: `C106_none_false`. |
| C107 | The likelihood of an array is the joint density of all its residuals | proved | Joined | C107_sparse for any number of classes, C107_methods for one class with vector priors and all methods, C107_cliques for several classes that share columns in the same way in all pulsars, C107_hellings_downs without any assumption on the correlations. C107_same_needed shows that the prior has to be the same in all pulsars. |
| C108 | Fourier processes have the stationary covariance of their spectrum | proved | Fourier | C108_process for any spectrum that gives the sine and the cosine of one frequency the same variance, C108_powerlaw for the power law. With combine=True the columns of the process have to be distinct (see C104 and C105 for what happens otherwise). |
| C109 | The standard noise model of a pulsar has the covariance of the textbook | proved | Standard | Processes with combine=True have to have distinct columns, and the columns of the timing model have to be distinct (linearly independent for the marginalizing one). MarginalizingTimingModel comes first in the list of noise signals (see C51 for other orders). |
| C110 | The time span of a common process is that of the pulsars the class has seen | proved | Background | Exact for all sessions (C110_span); C110_order and C110_reuse are the sessions in which the span is not that of the array. |
| C111 | An array with a gravitational-wave background has the covariance of the textbook | proved | Background | Processes with combine=True have to have distinct columns; positions are distinct unit vectors. C111_sparse is for any spectrum and positive definite overlaps, C111_hellings_downs for all methods; there the other processes have priors that are vectors. |
| C112 | The likelihood depends on the Gaussian processes only through their covariance | proved | Joined | For arrays with several common processes C112_sparse; for other methods one common process (C112_methods). Instances are in Props/EphemGp. |
| C113 | The ephemeris process is a background with dipolar overlaps | proved | Background | The columns of each basis with combine=True have to be distinct, which excludes positions with equal coordinates. C113_components is the case of the default components=2. |
| C114 | The physical ephemeris process has the covariance of errors of its parameters | proved | Background | The frame column is a quotient of differences with step 1e-5, as in the code (see C95_frame). Columns have to be distinct, positions too. |
| C115 | Several common processes add up | proved | Background | C115_sparse for any spectra and phases, C115_powerlaws and C115_cliques for power laws. Method partition is wrong for two classes (C50_two_classes_false). |
| C116 | The likelihood of an array of pulsars with the usual signals, written out | proved | StdArray | C116_array for any number of common processes, C116_background for one with the overlaps of Hellings and Downs. Assumed as in C109: real arithmetic, columns of a basis that may be shared are distinct, noise not zero. |
| C117 | The wideband likelihood is the integral over the dispersion measures | proved | Wideband | C117 for every arrangement of the intervals in which each TOA is in one and none is empty; C117_made: the constructor makes such an arrangement from disjoint, nonempty intervals. Assumed: the DMX columns of the design matrix are, up to sign, the derivatives 1/(2.41e-4 nu^2) of the dispersion delay. |
| C118 | The sky-map functions with real harmonics and with healpy agree | partial | SkyMap | Maps and correlations agree without restriction (C118_maps, C118_correlations, C118_real_*). The claim about coefficients is false of the code: sums over healpix pixels are not exact, and clmFromMap_fast improves them in three rounds where clmFromMap does not; on the coarsest map the coefficient 1 comes back as 8/9 and as 6560/6561 (C118_false). C118_coefficients says exactly what clmFromMap_fast gives in terms of clmFromMap; C118_inverse: coefficients are recovered if and only if the pixel sums are those of orthonormal functions; C118_partial: then the two functions agree on every map. Assumed: healpy's alm2map and map2alm are the sums that define them, with the same harmonics as scipy. Refutations: `C118_false`. |
| C119 | The ephemeris signal on epoch averages gives each TOA the delay of its epoch | partial | EpochEphem | C119_epochs, C119_delays and C119_overwrites without restriction; C119_between and C119_partial for TOAs in order. For TOAs out of order (pulsars loaded with sort=False) the claim is false: np.interp needs increasing TOAs and the code does not check; C119_false: two TOAs a day apart get each other's positions. Refutations: `C119_false`. |
| C120 | A t-process with inverse-gamma factors gives Student coefficients | proved | TProcess |  |
| C121 | Solved binary orbits are the chirp, and only before the merger | proved | Inspiral | scipy's odeint is an argument; Exact says that on success the rows are values of an exact solution, which the library meets only up to its tolerance. The chirp mass is a number (C97 for arrays). |
| C122 | Samplers draw from the density of the parameter | proved | Priors | numpy's generator is a uniform or standard normal stream; multivariate_normal is mu + z times the square root from the singular value decomposition, which is an argument. TruncNormal vectors need mu and sigma both numbers or both vectors (the mixed case is in C64). |
| C123 | The order of the pulsars and unlinked pulsars | proved | Joined | Hypotheses as in C107: distinct columns for distinct processes, a positive definite overlap matrix, and Covered: sparse always, every way for one common process, cliques for processes shared alike. |
| C124 | Signals read the parameters they list | partial | SigParams | False in three ways (negations proved): two nested Functions with the same keyword (one parameter is read but not listed), dictionaries with an entry under the name of a constant (it replaces the constant but is in no cache key), and coefficients given to BasisCommonGP under a name without '_coefficients' (listed, but not in the cache key). Proved for all other signals and histories. Refutations: `C124_lost_false`, `C124_constant_false`, `C124_coefficients_false`. |
| C125 | The Hellings-Downs curve follows from the antenna patterns | proved | HdSky | C125_pair and C125_same: the integral. C125_maps and C125_anis: the limits; even_grid shows that there are evenly distributed pixels. That the pixels of healpix are evenly distributed is a fact about healpix and not modelled. |
| C126 | The order of the TOAs, the origin of time and the axes of the sky do not matter | proved | StdArray | C126_moved for any overlaps that the change of directions respects, C126_background for Hellings and Downs. The design matrix is data here: it is listed in the new order, with the same columns. |
| C127 | A parameter acts on the data that its name says | partial | Named | Everything about the values and their names is proved. Two clauses are false of the code: EcorrKernelNoise does not put its name into the names of its parameters (C127_ecorr_name_false), and a missing EFAC or EQUAD silently is 1 or -8, the defaults of the Python functions (C127_missing_false); a missing ECORR does raise (C127_ecorr). Refutations: `C127_ecorr_name_false`, `C127_missing_false`. |
| C128 | TimingModel and MarginalizingTimingModel agree | proved | Wide | Over exact reals; the rounding of a prior of variance 1e40 in floating point is not modelled. |
| C129 | The log-likelihood is continuous, and a process of vanishing amplitude drops out | proved | Limit | Over exact reals: underflow of 10 ** (2 log10_A) to zero, after which the inverse of the prior is infinite, is not modelled. |
| C130 | The methods of a parameter see the same hyperparameters | partial | UserPar | The last clause is false (C130_sampler_false): Parameter.sample always passes size, so that a sampler with the parameters of the prior, which the docstring of UserParameter asks for, raises TypeError. C130_sampler_partial: a sampler with an argument size in addition gets all values. Keywords that are Functions are left out here; C34, C35 and C80 are about them. Refutations: `C130_sampler_false`. |
| C131 | The likelihood does not depend on the calls made before | partial | Calls | False in general (C131_history_false): cf_sp is analysed for the nonzero entries of the first matrix and then only updated in place, which scikit-sparse documents for matrices with the same pattern only; a first call with a vanishing cross-correlation breaks that. C131_history_partial: proved when the matrices of all calls have the same nonzero entries. Without that hypothesis: the first call (C131_first), repeated calls (C131_again), LogLikelihoodDenseCholesky (C131_dense) and arrays without common signals (C131_no_common). That the arrays of get_TNT and get_TNr are not changed in place is part of the model. Refutations: `C131_history_false`. |
| C132 | The unit of the residuals only changes the likelihood by a constant | proved | Units | Real arithmetic; TimingModel that is not marginalized over has the fixed prior 1e40, which has a unit, so the identity is claimed for marginalized timing models only (C128 bounds the difference). |
| C133 | The likelihood is bounded and the posterior is proper | proved | Proper | Real arithmetic. C133_bound: the bound; C133_evidence: the integral over the prior. |
| C134 | The likelihood is a density of the data and favours the true parameters | proved | Truth | Real arithmetic. C134_density: the integral; C134_truth: the expectations and the case of equality; C134_amplitude: strictness for the amplitude of a common process. |
| C135 | Marginalizing over timing models keeps exactly the data they cannot absorb | proved | Reduced | Real arithmetic. C135_reduced: the identity; C135_truth: the integral, the expectations and the case of equality; Reduced.exists_annihilator: a matrix G exists. |
| C136 | Timing objects can be dropped and pulsars pickled at any time | partial | Pickle | C136_pickle_partial: to_pickle after any calls. C136_drop_partial: the drop methods work exactly if a timing object is still there. False of the code: the drop methods suppress NameError, but del of a missing attribute raises AttributeError, so they raise for a pulsar built with the defaults, when called twice and after to_pickle (C136_drop_false); a to_pickle that fails has stripped the pulsar (C136_unsaved_false); after del psr.model by hand to_pickle replaces a good file by a broken one (C136_by_hand_false). Refutations: `C136_drop_false`, `C136_unsaved_false`, `C136_by_hand_false`. |
| C137 | In floating point the log prior is finite inside the support and -inf outside | partial | Ieee | Operation-by-operation binary64 arithmetic with any rounding rule; elementary functions only assumed to meet coarse bounds. True of Uniform parameters and of arrays of them (C137_uniform, C137_uniform_lnprior), and of sums in any order (C137_lnprior). False of the others: the Normal density underflows from 40 standard deviations, so the log prior is -inf there (C137_normal_false); LinearExp gives NaN instead of -inf at +inf and from 309, where 10**value overflows and is multiplied by the mask (C137_linexp_false); NaN gives NaN (C137_nan_false), and spreads to get_lnprior (C137_lnprior_false). What holds of them: C137_normal_partial, C137_standard_partial, C137_trunc_partial, C137_linexp_partial. For ranges out of the ordinary: Uniform with equal bounds gives +inf or NaN (C137_point_false), Uniform with an infinite bound gives -inf everywhere (C137_unbounded_false), LinearExp above 309 NaN (C137_powers_false), and TruncNormal with a range nine or more standard deviations out +inf inside and NaN outside, because the difference of the two erf is zero (C137_tail_false). Refutations: `C137_normal_false`, `C137_linexp_false`, `C137_nan_false`, `C137_lnprior_false`, `C137_point_false`, `C137_unbounded_false`, `C137_powers_false`, `C137_tail_false`. |
| C138 | Rounding does not change which TOAs belong together | partial | Ieee | Epochs (C138_epochs, for TOAs not below dt; C138_short, for all TOAs) and windows (C138_window) are proved. False of the code: stoas are MJDs times 86400 and are divided by 86400 again, which for one MJD in six does not give the MJD back, so a TOA at the lower edge of a DMX bin is not found in it and WidebandTimingModel raises (C138_bins_false, at MJD 57088.4987); the midpoint of two TOAs next to each other can be rounded to the later one (C138_halves_false). What holds: C138_bins_partial, C138_halves_partial. Refutations: `C138_halves_false`, `C138_bins_false`. |
| C139 | Dropping TOAs is integrating over their residuals | partial | Dropped | C139_marginal_partial (timing models not marginalized over) and C139_wide_partial (marginalized over, with C139_bases for the columns): true if every epoch of ECORR of which a TOA is kept keeps a TOA at its first time and two TOAs if it has two (for instance if whole epochs are dropped), and if the columns of a timing model that is not marginalized over keep their values; with marginalization the factor also has the determinant of the change of basis, which no parameter or residual changes. False of the code: a TOA left alone in its epoch loses the ECORR variance (C139_epoch_false); dropping the first TOA of an epoch can join the next TOA to the following epoch (C139_merge_false); the columns of the default timing model are divided by their norm over the TOAs, so that without marginalization the prior of the timing parameters changes (C139_normed_false). Refutations: `C139_epoch_false`, `C139_merge_false`, `C139_normed_false`. |
| C140 | Values drawn and percent points lie in the support in floating point | partial | Ieee | Uniform draws are in the range for all random numbers, with and without fused multiply-add, though numpy rounds the width (C140_uniform; OverflowError for ranges wider than the largest number, C140_overflow); percent points do not decrease (C140_ppf_mono) and are in the range below 100 percent (C140_ppf_partial). False of the code: the percent point at 1 can be above pmax, with log prior -inf (C140_ppf_false; it also happens for two-decimal bounds such as -12.01 and 5.11); LinearExp values leave the range where log10(10**pmin) < pmin (C140_linexp_false; otherwise C140_linexp_partial); TruncNormal accepts its bounds, where its prior is zero (C140_trunc_false, C140_trunc_partial). Refutations: `C140_ppf_false`, `C140_linexp_false`, `C140_trunc_false`. |
| C141 | Variances of noise processes are accurate in floating point | proved | Ieee | Proved for all rounding rules and all power functions with errors of at most 4 * 2^-51 (the structure Powers); the one that rounds down is an instance. The widths of the frequency bins are differences of harmonics, so that their relative error grows with the mode. |
| C142 | Fourier processes over one time span share accurate columns bit by bit | proved | Ieee | C142_shared holds for any rounding rule, any time span and TOAs, also infinite ones. C142_bounds is the witness (T = 297, two and six modes) that frequencies from np.linspace differ in the last bit when rounding to nearest. C142_accurate: the error of a phase theta + p is at most (14 theta + 2 p) 2^-51. |
| C143 | The white-noise likelihood is accurate in floating point on every machine | proved | Ieee | Proved for all trees of additions (Tree, DotTree) and all rounding rules; the logarithm is assumed to have an error of at most 2^-51 (1 + \|log x\|) (GoodLog; logLib is an instance). The likelihood leaves out the constant with 2 pi, as the code does. The masks of the selections, products with one and sums with zero, are left out. |
| C144 | The white-noise likelihood with ECORR is accurate in floating point | proved | Ieee | Proved for all trees of additions and all rounding rules, with the assumption GoodLog on the logarithm as in C143. The size of the terms counts r^2/n twice, once for the subtracted part (Cauchy's inequality), with \|r\| raised by about a nanosecond so that underflow is covered. That the exact formula is the Gaussian density with covariance N + U J U^T is C51 and C52. The indices of the epochs are left out. |
| C145 | Overlap reduction functions are accurate and symmetric in floating point | partial | Ieee | False of the code for pulsars close to each other (C145_hd_false): if the positions are not equal to the last bit, but closer than about 1e-8, then the computed scalar product is 1 and hd_orf returns 0 * log(0), NaN, on every machine; also for one direction whose two computed positions differ by rounding. C145_hd_partial proves that the value is otherwise accurate, and never NaN for pulsars more than about 0.04 arc seconds apart. Dipole, monopole and symmetry hold without exception. The logarithm is assumed to be accurate as in C143. Refutations: `C145_hd_false`. |
| C146 | Conditional processes and timing-model parameters are those of their own signal | partial | Processes | Proved for the signals themselves (combine=False, no process in coefficient mode, distinct names, as in C60). For tm_params it is false of the code in four ways: with use_svd=True a column of the basis belongs to no single parameter (C146_svd_false), with idx_exclude the columns are shifted against fitpars (C146_exclude_false), the fitpars of one pulsar are used for all of them (C146_pulsars_false), and pulsars whose names agree up to the first underscore overwrite each other's entries (C146_names_false). With normed=True the coefficient is that of the normalised column. Otherwise entries are right (C146_draws, C146_common) and unknown parameters raise (C146_unknown, for the first pulsar). Refutations: `C146_svd_false`, `C146_exclude_false`, `C146_pulsars_false`, `C146_names_false`. |
| C147 | Timing-model columns are normalised accurately in floating point | partial | Ieee | Proved for columns whose sum of squares is between 2^-900 and 2^980 (C147_accurate_partial, C147_length_partial), finiteness for all columns (C147_finite), zeros (C147_zero), norms of the user (C147_given). An entry of 2^512 or more overflows the squares (C147_overflow_false) and entries below 2^-538 underflow them (C147_underflow_false): the column becomes zero and the parameter is lost without an error. Refutations: `C147_overflow_false`, `C147_underflow_false`. |
| C148 | The proper prior of the timing model keeps the likelihood finite in floating point | partial | Ieee | False: for every matrix TNT whose diagonal is not below 2^-78 the inverse prior is lost in rounding and Sigma equals TNT bit by bit (C148_lost); with a column that occurs twice Sigma is exactly singular, the factorization fails in every order of operations and the likelihood is -inf although the exact one is finite (C148_degenerate_false). The effect of the prior in exact arithmetic is bounded in C128; where the factorization succeeds: C149. Refutations: `C148_degenerate_false`. |
| C149 | The Cholesky factorization of Sigma succeeds in floating point whenever Sigma is not nearly singular, and its log-determinant is accurate | proved | Ieee | Proved for every rounding rule and every order of the operations (relations IsFactor, IsChol in Model/IeeeTm): success (C149_succeeds, C149_priors), backward error (C149_backward, without the condition on μ), log-determinant (C149_logdet). Assumptions: the logarithm of the library has an error of at most 2^-51 (1 + \|log x\|) (GoodLog), diagonal within [2^-400, 2^400]. Below μ of the order n^2 2^-51 failure is possible: C148_degenerate_false. |
| C150 | The likelihood with Gaussian processes is computed accurately in floating point | proved | Ieee | Proved: C150_quadratic, C150_likelihood, for the numbers Sigma, TNr and logdet_phi that reach the loop (from the data on: C151); C150_finite: a value other than -inf needs every TNr and Sigma to be finite; C150_refused: NaN or inf in Sigma raises ValueError. Assumptions as in C149, \|TNr_i\| <= 2^100 sqrt(Sigma_ii), and 2^17 N^2 2^-51 <= μ for the likelihood. |
| C151 | The likelihood with Gaussian processes is accurate in floating point, from the data on | proved | Ieee | Proved: C151_likelihood, for white noise without blocks (ndarray_alt) and the value of get_phiinv as a vector of numbers with its log-determinant. The condition is on the exact matrix of the data, not on the computed one. Assumptions: GoodLog as in C149, variances at least 2^-200, entries of the basis and residuals within 2^200, diagonal of Sigma within [2^-300, 2^300], sum of r^2/ν at most 2^190. |
| C152 | The computed likelihood is the Gaussian log-likelihood of the covariance, up to a stated rounding error | proved | Ieee | Proved: C152_likelihood, C152_machines. White noise without blocks (ndarray_alt) and processes with variances in a vector; the constant M/2 log 2π is left out in code and specification. Assumptions: GoodLog as in C149; variances of TOAs within [2^-200, 2^200], of coefficients within [2^-299, 2^800], basis and residuals within 2^200, diagonal of the inverse covariance of the coefficients within [2^-299, 2^299], sum of r^2/ν at most 2^190, K up to 2^22 TOAs. The variances are taken as given numbers; their own rounding is that of C141 and C143. |
| C153 | From the noise parameters on, the computed likelihood is accurate | proved | Ieee | Proved: C153_variances (variances with relative errors up to δ ≤ 2^-20, 200 δ N ≤ μ), C153_parameters. Signals in the order power law, timing model, with columns of their own; the bases and the residuals are given numbers. Assumptions: GoodLog as in C149, Powers as in C141; ranges a factor 2 narrower than those of C152 for the exact variances; errors and EFAC within e^±100, \|log10_t2equad\| ≤ 30 and binary64, \|log10_A\| ≤ 30, 0 ≤ γ ≤ 7, time span between 1 and 2^50 s. |
| C154 | From the times of arrival on, the computed likelihood is accurate | proved | Ieee | Proved: C154_bases (columns with errors of weighted relative size κ, variances with relative errors δ), C154_times. Fourier basis without phase shifts, first columns those of the power law; the columns of the design matrix are not zero and none is left out (idx_exclude, see C147 and C91). Assumptions of C153, with ranges again a factor 2 narrower; TOAs between 1 and 2^50 s; columns with sums of squares within [2^-900, 2^980]; `Trig` as in C142. |
| C155 | With chromatic processes, too, the computed likelihood is accurate from the times of arrival and radio frequencies on | proved | Ieee | Proved: C155_chromatic. As in C154, with a list of processes in the order of the signals and then the timing model. Radio frequencies and reference frequencies between e^-20 and e^20; createfourierdesignmatrix_dm_tn, phase shifts and columns shared between processes are not covered. `H * 2^-51` times a chromatic factor is at most one. |
| C156 | Combining equal columns of several processes leaves the computed likelihood accurate for all of them | proved | Ieee | Proved: C156_shared. The assignment of columns is given, with the condition that only columns equal in exact arithmetic are joined (how the code finds it is the subject of the properties on `Model/Combine`). Otherwise as in C155. |
| C157 | A pulsar has the distance that the catalogue lists for it | partial | Distance | Proved for all names and catalogues (C157_listed, C157_unlisted, C157_letter), warning and positivity for the catalogue of the code (C157_warning); an empty name raises IndexError (C157_empty). The last clause is false: B1953+29 is listed at 5.39 kpc, but as J1955+2908 it is put at 1 kpc with a warning (C157_names_false). Numbers of the catalogue are rationals. Refutations: `C157_names_false`. |
| C158 | The computed likelihood with ECORR as a Gaussian process is accurate | proved | Ieee | Proved for all pulsars and parameters in the ranges (C158_epochs), for any epochs; the covariance is spelled out in C158_covariance. Numbers and an outcome exist (exists_epochs, exists_likelihood). The epochs are given (C138 has these from the times), signals do not share columns, and EcorrBasisModel comes after the timing model. |
| C159 | Each contribution of the ephemeris signal can be switched on and off by itself | partial | EphemSignal | C159_delay and C159_params prove the first clauses for all options, C159_defaults and C159_variances give the default priors. Two clauses are false: parameters without a value count as zero (C159_missing_false), and the variances of the drift and of the orbital elements are a third of those of the Gaussian process, as these are uniform (C159_variances, C159_variances_false). Refutations: `C159_missing_false`, `C159_variances_false`. |
| C160 | PTA and SignalCollection work like dictionaries | partial | Mapping | C160_items, C160_keyError, C160_dict prove keys, items, lookup and dict(obj) for distinct names. There is no __contains__ or __iter__: iteration gives the members (C160_iterate, C160_iterate_false), and name in obj is always False (C160_contains_false, C160_member). With two models of one pulsar dict(pta) has the first, dict(pta.items()) the last (C160_duplicates_false). Refutations: `C160_contains_false`, `C160_iterate_false`, `C160_duplicates_false`. |
| C161 | The computed likelihood of the standard noise model is accurate | proved | Ieee | Proved: C161_full joins C156 and C158. Numbers and an outcome exist (exists_full, exists_likelihood). The epochs and the assignment of columns are given, and EcorrBasisModel comes after the timing model in the list of signals; the order of the combined columns is free. |
| C162 | Bounds in the wrong order are refused | partial | Ieee | Proved for LinearExp (C162_linexp_partial). Uniform checks nothing: with pmin > pmax every value, also a drawn one, has log density -inf and percent points are NaN (C162_uniform_false); with pmin = pmax the log density is +inf there and NaN elsewhere (C162_point_false). TruncNormal: with pmin > pmax the sampler never ends (C162_trunc_false), with pmin = pmax the density is NaN everywhere (C162_trunc_point_false). For numpy numbers; Python's own floats raise ZeroDivisionError when Uniform divides by zero. Refutations: `C162_uniform_false`, `C162_point_false`, `C162_trunc_false`, `C162_trunc_point_false`. |
