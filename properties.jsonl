{"id": "C01", "title": "Flag selections partition the TOAs", "statement": "Selecting by a flag (by_backend, by_band, by_frontend, by_telescope, no_selection) puts every TOA in exactly one mask, the one whose key is that TOA's flag value; every mask has one entry per TOA, no mask is empty (no_selection: unless there are no TOAs), and keys never repeat.", "quantifier": "every list of per-TOA flag values, of every length", "why_tests_cant": "the flag table is unbounded; tests only run the shipped data sets", "anchors": ["enterprise/signals/selections.py:by_backend,by_band,by_frontend,by_telescope,no_selection"]}
{"id": "C02", "title": "cut_half splits the data in two without loss", "statement": "For non-empty TOAs cut_half assigns every TOA to exactly one of t1, t2; every TOA of t1 is no later than every TOA of t2; t1 is never empty and t2 is empty only when all TOAs coincide; with no TOAs it raises.", "quantifier": "every list of TOAs", "why_tests_cant": "all TOA vectors, including ties at the midpoint", "anchors": ["enterprise/signals/selections.py:cut_half"]}
{"id": "C03", "title": "Backend filters select exactly the matching TOAs", "statement": "nanograv_backends and custom_backends(list) put a TOA in a mask iff its flag contains one of the given names as a substring; such a TOA is in exactly one mask and every other TOA is in none.", "quantifier": "every flag vector and every list of names", "why_tests_cant": "unbounded strings and lists", "anchors": ["enterprise/signals/selections.py:nanograv_backends,custom_backends"]}
{"id": "C04", "title": "Frequency bands do not overlap and leave no gap inside their range", "statement": "by_freq_band with the default bands puts a TOA with radio frequency in [0,10000) in exactly one band and any other TOA in none; every returned mask is non-empty. For any user band table, if the half-open bands are disjoint then no TOA is in two masks.", "quantifier": "every frequency vector, every band table", "why_tests_cant": "band edges form a continuum", "anchors": ["enterprise/signals/selections.py:by_freq_band"]}
{"id": "C05", "title": "custom_backends_dict recovers the documented selections", "statement": "As its docstring says, custom_backends_dict(None) is no_selection, {'B':None} is by_band, {'fe':None} is by_frontend, {'backend':None} is by_backend, and custom_backends(['ASP','GASP','GUPPI','PUPPI','YUPPI']) is nanograv_backends; a dictionary naming several flags returns every TOA's mask for each of the flags.", "quantifier": "every flag table", "why_tests_cant": "equality of functions over all inputs", "anchors": ["enterprise/signals/selections.py:custom_backends_dict,custom_backends,nanograv_backends"]}
{"id": "C06", "title": "A selection function can be reused for many pulsars", "statement": "by_freq_band, custom_backends and custom_backends_dict keep internal state between calls, yet the masks returned for a pulsar do not depend on which pulsars the same selection was applied to before.", "quantifier": "every finite sequence of pulsars", "why_tests_cant": "all call histories", "anchors": ["enterprise/signals/selections.py:by_freq_band,custom_backends,custom_backends_dict"]}
{"id": "C07", "title": "White-noise variance of a TOA comes only from its own selection", "statement": "WhiteNoise.get_ndiag gives TOA i the variance computed by the variance function of the selection mask that contains i; parameters of other masks have no effect on it; a TOA in no mask gets variance zero, a TOA in several masks gets the sum.", "quantifier": "every set of masks, every variance function, every parameter dictionary", "why_tests_cant": "all selections x all TOAs", "anchors": ["enterprise/signals/white_signals.py:WhiteNoise.get_ndiag,_do_selection"]}
{"id": "C08", "title": "Deterministic waveforms land on the TOAs they were computed for", "statement": "Deterministic.get_delay gives TOA i the waveform of its own selection evaluated at that TOA; a TOA in no mask has zero delay; when masks overlap the last key in sorted order wins.", "quantifier": "every set of masks and every waveform", "why_tests_cant": "all masks; scatter indexing must be right for all of them", "anchors": ["enterprise/signals/deterministic_signals.py:Deterministic.get_delay"]}
{"id": "C09", "title": "Observing epochs are short, disjoint and large enough", "statement": "create_quantization_matrix(toas,dt,nmin): two TOAs in the same epoch column differ by less than dt; no TOA is in two columns; every column has at least nmin TOAs; with nmin<=1 every TOA is in exactly one column; later columns hold strictly later TOAs and epoch starts are at least dt apart; empty input raises.", "quantifier": "every TOA vector, dt, nmin", "why_tests_cant": "greedy bucketing over unbounded input", "anchors": ["enterprise/signals/utils.py:create_quantization_matrix"]}
{"id": "C10", "title": "Epochs do not depend on how ties are sorted nor on TOA order", "statement": "For dt>0 the quantization matrix is the same for every argsort permutation of the TOAs (numpy's default sort is not stable), and reordering the TOAs only reorders its rows.", "quantifier": "every TOA vector, every valid argsort, every reordering", "why_tests_cant": "all permutations", "anchors": ["enterprise/signals/utils.py:create_quantization_matrix"]}
{"id": "C11", "title": "Quantization matrix and index lists describe the same epochs", "statement": "quant2ind lists for each column exactly the indices of its non-zero rows in increasing order; with as_slice=True the slices, expanded by indices_from_slice, give the same indices; a column of zeros raises.", "quantifier": "every 0/1 matrix", "why_tests_cant": "all matrices", "anchors": ["enterprise/signals/utils.py:quant2ind,indices_from_slice"]}
{"id": "C12", "title": "ECORR epochs of different selections never share a TOA, and each epoch uses its own selection's amplitude", "statement": "For disjoint selection masks the epoch index sets handed to the ECORR noise kernels are pairwise disjoint, lie inside their mask, have at least two TOAs, and the amplitude paired with each epoch is 10^(2*log10_ecorr) of the selection it came from.", "quantifier": "every disjoint mask family, TOA vector and parameter values", "why_tests_cant": "composition of selection, bucketing and scatter for all inputs", "anchors": ["enterprise/signals/white_signals.py:EcorrKernelNoise.__init__,_get_jvecs", "enterprise/signals/utils.py:create_quantization_matrix,quant2ind"]}
{"id": "C13", "title": "Pulsar arrays are time sorted and stay aligned", "statement": "With sort=True psr.toas is non-decreasing, and row k of every per-TOA attribute (stoas, residuals, toaerrs, freqs, Mmat, flags, telescope, positions) belongs to the same raw observation as psr.toas[k]; equal TOAs keep file order; with sort=False everything is in file order.", "quantifier": "every data set", "why_tests_cant": "all permutations and ties", "anchors": ["enterprise/pulsar.py:BasePulsar.sort_data and the properties toas..telescope"]}
{"id": "C14", "title": "isort and iisort are mutually inverse", "statement": "Applying psr.isort then psr.iisort (or the other way round) to any per-TOA array returns the array unchanged.", "quantifier": "every data set and every array of matching length", "why_tests_cant": "all permutations", "anchors": ["enterprise/pulsar.py:BasePulsar.sort_data,isort,iisort"]}
{"id": "C15", "title": "Flags set by the user are read back", "statement": "After psr.set_flags(name, values) with one value per TOA in psr.toas order, psr.flags[name] equals values and every other flag is unchanged; when flags are stored as a record array it raises.", "quantifier": "every data set, flag name and value vector", "why_tests_cant": "all permutations", "anchors": ["enterprise/pulsar.py:BasePulsar.set_flags,flags"]}
{"id": "C16", "title": "filter_data keeps the observations in the window and keeps all attributes aligned", "statement": "After psr.filter_data(start,end) the TOAs are exactly those with start<=t<=end (days), sorted, and every per-TOA attribute still has, at each position, the value of the same observation.", "quantifier": "every data set and window", "why_tests_cant": "all data sets, in particular unsorted ones", "anchors": ["enterprise/pulsar.py:BasePulsar.filter_data"]}
{"id": "C17", "title": "filter_data drops only design-matrix columns that became empty, and keeps fitpars in step", "statement": "After filter_data the remaining design-matrix columns are those that still have a non-zero entry and fitpars still names them in order.", "quantifier": "every data set and window", "why_tests_cant": "all matrices, including columns with cancelling entries", "anchors": ["enterprise/pulsar.py:BasePulsar.filter_data"]}
{"id": "C18", "title": "backend_flags follows the documented ranking per TOA", "statement": "For each TOA psr.backend_flags is the first non-empty value among flags group, g, sys, i, f, and otherwise fe_be when both are non-empty, and otherwise empty.", "quantifier": "every flag table", "why_tests_cant": "2^n combinations of present/empty flags per TOA", "anchors": ["enterprise/pulsar.py:BasePulsar.backend_flags"]}
{"id": "C19", "title": "A pulsar saved to a feather file is read back unchanged", "statement": "psr.to_feather(f) succeeds and Pulsar(f) has the same TOAs, residuals, errors, frequencies, design matrix, positions, flags and metadata.", "quantifier": "every pulsar: any number of TOAs, design-matrix columns and flags with arbitrary names", "why_tests_cant": "string-encoded column names over all flag names and column counts", "anchors": ["enterprise/pulsar.py:FeatherPulsar.save_feather,read_feather,BasePulsar.to_feather"]}
{"id": "C20", "title": "Only the pulsar's own noise entries are saved with it", "statement": "The noise dictionary written with a pulsar contains every entry whose key belongs to that pulsar and none that belongs to a different pulsar.", "quantifier": "every noise dictionary and set of pulsar names", "why_tests_cant": "all strings", "anchors": ["enterprise/pulsar.py:FeatherPulsar.save_feather"]}
{"id": "C21", "title": "Shared pulsars show every process the original data", "statement": "After deflate in one process and pickling, every process that inflates sees exactly the original arrays, for any number of processes and any interleaving of inflate and destroy; arrays inflated before destroy stay readable; inflating after destroy raises; deflate, inflate and destroy are no-ops in the wrong state.", "quantifier": "every interleaving of deflate, copy, inflate, destroy over any number of processes", "why_tests_cant": "unbounded schedules", "anchors": ["enterprise/pulsar.py:Tempo2Pulsar.deflate,inflate,destroy", "enterprise/pulsar_inflate.py:PulsarInflater"]}
{"id": "C22", "title": "A failed deflate or inflate can be retried", "statement": "If deflate (or inflate) fails after any number of arrays, calling it again completes it and the data are preserved.", "quantifier": "every failure point and any number of failures", "why_tests_cant": "all crash points", "anchors": ["enterprise/pulsar.py:Tempo2Pulsar.deflate,inflate"]}
{"id": "C23", "title": "A failed destroy can be retried", "statement": "If destroy fails after unlinking some arrays, calling it again frees the rest.", "quantifier": "every failure point", "why_tests_cant": "all crash points", "anchors": ["enterprise/pulsar.py:Tempo2Pulsar.destroy", "enterprise/pulsar_inflate.py:PulsarInflater.destroy"]}
{"id": "C24", "title": "Loading par/tim files restores the working directory", "statement": "Pulsar(par,tim,...) leaves the process working directory as it was, whether it returns or raises, wherever the exception occurs.", "quantifier": "every outcome of every step of loading", "why_tests_cant": "all crash points", "anchors": ["enterprise/pulsar.py:Pulsar"]}
{"id": "C25", "title": "maxobs is large enough for the tim file", "statement": "get_maxobs returns at least the number of TOA lines reachable from the tim file through INCLUDE.", "quantifier": "every tree of tim files", "why_tests_cant": "unbounded include trees", "anchors": ["enterprise/pulsar.py:get_maxobs"]}
{"id": "C26", "title": "Caching never changes a result", "statement": "A method wrapped with cache_call returns, in every history of calls, what the unwrapped method returns for the same parameters, provided the method depends only on the listed parameters.", "quantifier": "every method, every cache size and every finite history of parameter dictionaries", "why_tests_cant": "all histories and eviction orders", "anchors": ["enterprise/signals/signal_base.py:cache_call"]}
{"id": "C27", "title": "An exception inside a cached method does not poison the cache", "statement": "If a cached method raises and is called again with the same key when it would succeed, the value is returned; a cached method never returns a wrong value after exceptions.", "quantifier": "every history including raising calls", "why_tests_cant": "all interleavings of failing and succeeding calls", "anchors": ["enterprise/signals/signal_base.py:cache_call"]}
{"id": "C28", "title": "Caches are bounded", "statement": "A cache_call cache holds at most `limit` entries after every call, in every history without exceptions, and the bookkeeping list never repeats a key.", "quantifier": "every history", "why_tests_cant": "all histories", "anchors": ["enterprise/signals/signal_base.py:cache_call"]}
{"id": "C29", "title": "Changing constants takes effect", "statement": "After set_default_params changes a Constant used by a signal, get_ndiag, get_delay and get_basis use the new value; likewise a value supplied for a Constant in the params dictionary is used.", "quantifier": "every history of evaluations and set_default_params calls", "why_tests_cant": "all histories", "anchors": ["enterprise/signals/signal_base.py:cache_call,Signal.set_default_params,Signal.params", "enterprise/signals/white_signals.py:WhiteNoise.get_ndiag"]}
{"id": "C30", "title": "A returned noise matrix or delay is the one for the requested parameters", "statement": "EcorrKernelNoise(method='sparse').get_ndiag(params) and PhysicalEphemerisSignal.get_delay(params), which overwrite an internal array, return the array for the requested parameters in every history of calls.", "quantifier": "every history of parameter values", "why_tests_cant": "all histories; needs an alternation of parameter values", "anchors": ["enterprise/signals/white_signals.py:EcorrKernelNoise._get_ndiag_sparse,get_ndiag", "enterprise/signals/deterministic_signals.py:PhysicalEphemerisSignal.get_delay", "enterprise/signals/signal_base.py:cache_call"]}
{"id": "C31", "title": "Methods cached with limit=1 leave the object in the state of the last call", "statement": "For a cached method with side effects and limit=1 (_construct_basis) the object's state after every call is the state the method produces for the parameters of that call.", "quantifier": "every history", "why_tests_cant": "all histories", "anchors": ["enterprise/signals/signal_base.py:cache_call", "enterprise/signals/gp_signals.py:BasisGP._construct_basis,BasisCommonGP._construct_basis"]}
{"id": "C32", "title": "Identity memoization returns the right value", "statement": "A method wrapped with simplememobyid returns method(arg) in every history as long as argument objects are not modified in place; in particular different argument objects never share a value.", "quantifier": "every history of argument objects", "why_tests_cant": "all histories", "anchors": ["enterprise/signals/signal_base.py:simplememobyid,_simplememobyid_keycheck"]}
{"id": "C33", "title": "Pulsar-level quantities do not depend on evaluation history", "statement": "SignalCollection.get_ndiag, get_delay, get_detres, get_basis, get_TNr, get_TNT, get_rNr_logdet return, after any sequence of calls with any parameters, what a freshly built collection would return.", "quantifier": "every sequence of method calls and parameter dictionaries, every set of signals", "why_tests_cant": "nested caches, all histories", "anchors": ["enterprise/signals/signal_base.py:SignalCollection.get_ndiag..get_rNr_logdet,_set_cache_parameters"]}
{"id": "C34", "title": "Arguments of a Function follow the documented precedence", "statement": "Calling an Enterprise Function passes each keyword its explicitly given value, else the value of its Parameter in params, else the Constant's value, else the default given at definition, else the value of the nested Function; nothing else reaches the wrapped function except psr, mask, size.", "quantifier": "every Function tree, keyword set and params dictionary", "why_tests_cant": "unbounded nesting", "anchors": ["enterprise/signals/parameter.py:Function.__call__,__init__"]}
{"id": "C35", "title": "Nested Functions do not capture each other's parameters", "statement": "A keyword given as a Function is always evaluated as that Function, and a keyword given as a Parameter always receives that Parameter, whatever the names inside nested Functions.", "quantifier": "every Function tree", "why_tests_cant": "all name choices", "anchors": ["enterprise/signals/parameter.py:Function.__init__,__call__"]}
{"id": "C36", "title": "Functions receive the pulsar attributes they name", "statement": "A wrapped function evaluated on a pulsar receives for each argument name that is a pulsar attribute and was not given explicitly that attribute, restricted to the mask exactly when it is a per-TOA array.", "quantifier": "every signature, pulsar and mask", "why_tests_cant": "all signatures", "anchors": ["enterprise/signals/selections.py:selection_func"]}
{"id": "C37", "title": "parameter.sample is consistent with hyperparameters", "statement": "In the dictionary returned by sample(parlist) every parameter's value was drawn from its prior with the hyperparameter values found in the same dictionary.", "quantifier": "every list of (hierarchical, possibly shared) parameters and every random stream", "why_tests_cant": "all hierarchies and draws", "anchors": ["enterprise/signals/parameter.py:sample,_sample"]}
{"id": "C38", "title": "The parameter list is canonical", "statement": "PTA.params lists each parameter (including hyperparameters) once, sorted by name; if names are unique the list, and param_names, do not depend on the order of pulsars or signals; param_names has one entry per scalar component.", "quantifier": "every PTA and every reordering", "why_tests_cant": "all permutations", "anchors": ["enterprise/signals/signal_base.py:PTA.params,param_names,SignalCollection.params"]}
{"id": "C39", "title": "Parameter vectors map to dictionaries without loss", "statement": "For a vector with one entry per param_names element, map_params assigns entry k to exactly the parameter component named by param_names[k]; flattening the dictionary in PTA.params order returns the vector; too-short vectors are rejected.", "quantifier": "every parameter list and vector", "why_tests_cant": "all lengths", "anchors": ["enterprise/signals/signal_base.py:PTA.map_params"]}
{"id": "C40", "title": "The log prior is the sum over all parameters and is the same for vector and dictionary input", "statement": "get_lnprior(x) equals the sum of the log densities of all parameters including hyperparameters, each evaluated with the values of x, and gives the same for x as a vector and as the dictionary map_params(x).", "quantifier": "every PTA and vector", "why_tests_cant": "all inputs", "anchors": ["enterprise/signals/signal_base.py:PTA.get_lnprior", "enterprise/signals/parameter.py:Parameter.get_logpdf"]}
{"id": "C41", "title": "The hypercube transform maps to the prior", "statement": "get_hypercube_transform(u) returns, component by component in param_names order, the quantile of u under each parameter's prior; for a hierarchical parameter the prior is evaluated at the transformed values of its hyperparameters.", "quantifier": "every PTA and unit-cube point", "why_tests_cant": "all hierarchies", "anchors": ["enterprise/signals/signal_base.py:PTA.get_hypercube_transform", "enterprise/signals/parameter.py:Parameter.get_ppf"]}
{"id": "C42", "title": "set_default_params sets exactly the named constants", "statement": "After set_default_params(d) every Constant whose name is in d has that value wherever it is used, all others keep theirs, and parameters that are not constant are unaffected; repeating the call changes nothing.", "quantifier": "every model and dictionary", "why_tests_cant": "all sharing patterns of constants", "anchors": ["enterprise/signals/signal_base.py:Signal.set_default_params,SignalCollection.set_default_params,PTA.set_default_params"]}
{"id": "C43", "title": "Parameters of different selections never collide", "statement": "Within a signal the parameters created for distinct selection keys have distinct names, all starting with the pulsar's name.", "quantifier": "every pulsar name, signal name and set of keys", "why_tests_cant": "all strings", "anchors": ["enterprise/signals/white_signals.py:WhiteNoise._do_selection", "enterprise/signals/selections.py:Selection.__call__", "enterprise/signals/parameter.py:Function.__init__"]}
{"id": "C44", "title": "Adding signals is associative", "statement": "Building a model with + gives the same ordered list of signals whatever the bracketing; likewise for adding pulsar models into a PTA.", "quantifier": "every expression tree of additions", "why_tests_cant": "all bracketings", "anchors": ["enterprise/signals/signal_base.py:MetaSignal.__add__,MetaCollection.__add__,SignalCollection.__add__,PTA.__add__"]}
{"id": "C45", "title": "PTA lookup by name returns the first match", "statement": "pta[name], pta.get_signal(name) and collection[signal_id] return the first pulsar model or signal with that name and raise KeyError iff there is none; integer access returns by position.", "quantifier": "every PTA", "why_tests_cant": "all duplicates patterns", "anchors": ["enterprise/signals/signal_base.py:PTA.__getitem__,get_signal,_set_signal_dict,SignalCollection.__getitem__"]}
{"id": "C46", "title": "Sharing basis columns does not change the model", "statement": "When signals share identical basis columns the combined basis T and prior Phi give T Phi T^T equal to the sum over signals of F phi F^T.", "quantifier": "every list of signals with every basis and prior", "why_tests_cant": "all overlap patterns of columns", "anchors": ["enterprise/signals/signal_base.py:SignalCollection._combine_basis_columns,get_basis,get_phi", "enterprise/signals/utils.py:KernelMatrix.add"]}
{"id": "C47", "title": "KernelMatrix.add and set act on the addressed block", "statement": "phi.add(other,idx) adds other to the block idx x idx of the covariance (the diagonal if other is a vector) and changes nothing else, whether phi is stored as a diagonal or a matrix; phi.set assigns it likewise.", "quantifier": "every matrix, block and index set", "why_tests_cant": "all index sets, slices and storage forms", "anchors": ["enterprise/signals/utils.py:KernelMatrix.add,set"]}
{"id": "C48", "title": "The PTA prior covariance is symmetric and has the right cross-correlations", "statement": "PTA.get_phi with common signals is the block-diagonal matrix of the pulsars' own priors plus, for each common signal and pair of pulsars, prior times overlap at the matching basis columns, symmetrically.", "quantifier": "every array of pulsars and common signals", "why_tests_cant": "all layouts", "anchors": ["enterprise/signals/signal_base.py:PTA.get_phi,_get_slices,_commonsignals"]}
{"id": "C49", "title": "Inverting by cliques gives the inverse", "statement": "PTA.get_phiinv(method='cliques') returns the inverse and log determinant of get_phi.", "quantifier": "every layout of common signals and dense pulsar priors", "why_tests_cant": "all overlap patterns of cliques", "anchors": ["enterprise/signals/signal_base.py:PTA.get_phiinv_byfreq_cliques,_setcliques,_setpulsarcliques", "enterprise/signals/utils.py:KernelMatrix._setcliques"]}
{"id": "C50", "title": "Inverting by partition gives the inverse", "statement": "PTA.get_phiinv(method='partition') returns the inverse and log determinant of get_phi whenever all common signals are shared by all pulsars and use the same basis.", "quantifier": "every such model", "why_tests_cant": "all numbers of pulsars, signals, frequencies", "anchors": ["enterprise/signals/signal_base.py:PTA.get_phiinv_byfreq_partition"]}
{"id": "C51", "title": "Sherman-Morrison solves are exact", "statement": "ShermanMorrison.solve returns N^-1 x, y^T N^-1 x, Z^T N^-1 x and Z^T N^-1 X for N = diag(nvec) + sum over epochs of j * 11^T, for disjoint epochs.", "quantifier": "every positive nvec, jvec and disjoint epoch family", "why_tests_cant": "all sizes and values", "anchors": ["enterprise/signals/signal_base.py:ShermanMorrison"]}
{"id": "C52", "title": "Sherman-Morrison log determinant is exact", "statement": "ShermanMorrison's logdet is log det of the same matrix N.", "quantifier": "every positive nvec, jvec and disjoint epoch family", "why_tests_cant": "all sizes and values", "anchors": ["enterprise/signals/signal_base.py:ShermanMorrison._get_logdet"]}
{"id": "C53", "title": "All ECORR methods agree", "statement": "The block, sherman-morrison and sparse methods of EcorrKernelNoise give the same N, the same solves and the same log determinant.", "quantifier": "every input", "why_tests_cant": "all sizes and values", "anchors": ["enterprise/signals/signal_base.py:BlockMatrix,ShermanMorrison,csc_matrix_alt", "enterprise/signals/white_signals.py:EcorrKernelNoise"]}
{"id": "C54", "title": "White-noise terms can be added in any order", "statement": "The noise matrix of a pulsar model does not depend on the order in which white-noise signals (diagonal terms, one ECORR kernel, one marginalizing timing model) are added.", "quantifier": "every order of every list of noise terms", "why_tests_cant": "all orders", "anchors": ["enterprise/signals/signal_base.py:ShermanMorrison.__add__,BlockMatrix.__add__,ndarray_alt.__add__", "enterprise/signals/gp_signals.py:MarginalizingNmat.__add__", "enterprise/signals/signal_base.py:SignalCollection.get_ndiag"]}
{"id": "C55", "title": "The marginalizing timing model removes timing-model directions exactly", "statement": "With MarginalizingTimingModel adding any combination of design-matrix columns to the residuals changes neither r^T N^-1 r nor T^T N^-1 r, and design-matrix columns are annihilated.", "quantifier": "every invertible noise, design matrix, residual vector", "why_tests_cant": "all values", "anchors": ["enterprise/signals/gp_signals.py:MarginalizingNmat.solve"]}
{"id": "C56", "title": "The likelihood is the Gaussian likelihood of the full covariance", "statement": "For a pulsar, get_lnlikelihood equals -1/2 (r^T C^-1 r + log det C) with C = N + T Phi T^T and r the residuals minus all delays; for a PTA without common signals it is the sum over pulsars.", "quantifier": "every positive definite N and Phi, every T and r", "why_tests_cant": "all sizes and values (Woodbury and determinant lemmas)", "anchors": ["enterprise/signals/signal_base.py:LogLikelihood.__call__,SignalCollection.get_TNT,get_TNr,get_rNr_logdet"]}
{"id": "C57", "title": "Correlated and uncorrelated code paths agree", "statement": "If the common signals have zero cross-correlation the likelihood computed through the big-matrix branch equals the one computed pulsar by pulsar, and with correlations it is the Gaussian likelihood of the joint covariance.", "quantifier": "every array", "why_tests_cant": "all values", "anchors": ["enterprise/signals/signal_base.py:LogLikelihood.__call__"]}
{"id": "C58", "title": "Hierarchical and marginalized likelihoods are consistent", "statement": "For every coefficient vector c, the likelihood with explicit coefficients plus their log prior equals the marginalized likelihood plus the log of the conditional Gaussian of c, whose mean is the one returned by get_mean_coefficients.", "quantifier": "every c, r, F, N, phi", "why_tests_cant": "all values", "anchors": ["enterprise/signals/gp_signals.py:BasisGP.get_delay,_get_coefficient_logprior", "enterprise/signals/utils.py:ConditionalGP._make_conditional", "enterprise/signals/signal_base.py:LogLikelihood.__call__"]}
{"id": "C59", "title": "get_coefficients labels coefficients with the right signal", "statement": "utils.get_coefficients returns for every GP signal the entries of the coefficient vector that multiply that signal's basis columns.", "quantifier": "every model with distinct bases", "why_tests_cant": "all signal orders", "anchors": ["enterprise/signals/utils.py:get_coefficients"]}
{"id": "C60", "title": "ConditionalGP labels coefficients with the right signal", "statement": "ConditionalGP.get_mean_coefficients returns for every GP signal of every pulsar exactly its slice of the coefficient vector; slices are disjoint and cover the vector when bases are distinct; shared bases raise IndexError instead of mislabelling.", "quantifier": "every model", "why_tests_cant": "all signal orders and sharing patterns", "anchors": ["enterprise/signals/utils.py:ConditionalGP._sample_conditional"]}
{"id": "C61", "title": "Uniform parameters: density, quantile and support agree", "statement": "For pmin<pmax the Uniform density is 1/(pmax-pmin) on [pmin,pmax] and 0 outside, integrates to 1, and the quantile function maps [0,1] monotonically into the support with CDF(ppf(u))=u.", "quantifier": "all pmin<pmax, values and u", "why_tests_cant": "continuum", "anchors": ["enterprise/signals/parameter.py:UniformPrior,UniformPPF"]}
{"id": "C62", "title": "LinearExp parameters: density, quantile and support agree", "statement": "For pmin<pmax the LinearExp density integrates to 1, its quantile function maps [0,1] into [pmin,pmax], and CDF(ppf(u))=u; pmin>=pmax is rejected by density and sampler.", "quantifier": "all pmin<pmax, u", "why_tests_cant": "continuum", "anchors": ["enterprise/signals/parameter.py:LinearExpPrior,LinearExpPPF,LinearExpSampler"]}
{"id": "C63", "title": "Vector parameters are independent components", "statement": "For a vector parameter get_logpdf is the sum of component log densities and exp of it is get_pdf; if any component is out of range the density is zero.", "quantifier": "all sizes and values", "why_tests_cant": "all sizes", "anchors": ["enterprise/signals/parameter.py:Parameter.get_logpdf,get_pdf"]}
{"id": "C64", "title": "TruncNormal samples stay in range", "statement": "Whatever the random stream, if TruncNormalSampler returns, every component lies in [pmin,pmax], and components that were already in range are never redrawn.", "quantifier": "every random stream", "why_tests_cant": "rejection loops of unbounded length", "anchors": ["enterprise/signals/parameter.py:TruncNormalSampler"]}
{"id": "C65", "title": "Fourier bases with more modes extend those with fewer", "statement": "createfourierdesignmatrix_red with explicit Tspan gives n sine/cosine pairs at k/T interleaved; the basis with fewer modes is a prefix of the one with more, so overlapping signals share columns; every row satisfies sin^2+cos^2=1.", "quantifier": "every nmodes, T, TOAs", "why_tests_cant": "all mode counts", "anchors": ["enterprise/signals/gp_bases.py:createfourierdesignmatrix_red"]}
{"id": "C66", "title": "Power-law priors are positive, per-frequency and extend consistently", "statement": "powerlaw returns one positive value per basis column for increasing positive frequencies, equal for the columns of one frequency, and the value at a frequency does not depend on higher frequencies.", "quantifier": "every frequency vector, amplitude, slope, component count", "why_tests_cant": "continuum", "anchors": ["enterprise/signals/gp_priors.py:powerlaw,turnover,powerlaw_genmodes"]}
{"id": "C67", "title": "The linear interpolation basis interpolates", "statement": "For linear_interp_basis each row has at most two non-zero entries, sums to one, and reproduces the TOA as combination of nodes, so every piecewise linear function on the nodes is reproduced.", "quantifier": "every TOA vector and dt>0", "why_tests_cant": "continuum, points on nodes", "anchors": ["enterprise/signals/utils.py:linear_interp_basis"]}
{"id": "C68", "title": "Wideband model accepts only TOAs covered by exactly one DMX bin", "statement": "If WidebandTimingModel is built without error every TOA lies in exactly one DMX interval.", "quantifier": "every DMX table and TOA vector", "why_tests_cant": "all overlaps", "anchors": ["enterprise/signals/gp_signals.py:WidebandTimingModel.__init__"]}
{"id": "C69", "title": "Wideband DM terms are the product of the DM measurement Gaussians", "statement": "For every DMX value x, the sum of log Gaussian densities of the DM measurements in each bin equals the log Gaussian of x with the bin's weighted mean and variance plus the extra term returned by get_logsignalprior.", "quantifier": "every DM, error, bin assignment with each TOA in exactly one bin", "why_tests_cant": "all values", "anchors": ["enterprise/signals/gp_signals.py:WidebandTimingModel.get_phi,get_mean_dm,get_mean_dme,get_logsignalprior"]}
{"id": "C70", "title": "DM jumps and errors use the selection's own parameters", "statement": "get_dm adds to each TOA the jump of its own dmjump selection, zero for the reference selection; get_dme^2 = dmefac^2 (dmerr^2 + dmequad^2) with the parameters of the TOA's own selection.", "quantifier": "every selection and parameter values", "why_tests_cant": "all selections", "anchors": ["enterprise/signals/gp_signals.py:WidebandTimingModel.get_dm,get_dme,__init__"]}
{"id": "C71", "title": "Overlap reduction functions give valid covariances", "statement": "The monopole, dipole and Hellings-Downs functions are symmetric; the correlation matrices of pulsars at distinct unit vectors are positive definite for all three, and the Hellings-Downs matrix is positive semidefinite for all unit vectors, equal or not.", "quantifier": "every number of pulsars and every array of positions", "why_tests_cant": "all configurations", "anchors": ["enterprise/signals/utils.py:hd_orf,dipole_orf,monopole_orf"]}
{"id": "C72", "title": "Spherical-harmonic coefficient conversions are inverse", "statement": "clmFromAlm(almFromClm(clm)) = clm for every real clm of length (lmax+1)^2.", "quantifier": "every lmax and every clm", "why_tests_cant": "all lmax (index arithmetic)", "anchors": ["enterprise/signals/anis_coefficients.py:almFromClm,clmFromAlm"]}
{"id": "C73", "title": "Reference-frame rotations preserve geometry", "statement": "ecl2eq_vec and eq2ecl_vec are mutually inverse, euler_vec matrices are rotations (orthogonal, determinant 1), and ss_framerotate with zero angles and rate is the identity and always preserves vector lengths when there is no offset.", "quantifier": "every vector and angles", "why_tests_cant": "continuum", "anchors": ["enterprise/signals/utils.py:ecl2eq_vec,eq2ecl_vec,euler_vec,ss_framerotate", "enterprise/constants.py:M_ecl"]}
{"id": "C74", "title": "ORF from a non-negative sky map is a valid covariance", "statement": "orfFromMap_fast (and getCov) return a symmetric positive semidefinite matrix for every non-negative map.", "quantifier": "every response matrix and non-negative map", "why_tests_cant": "all values", "anchors": ["enterprise/signals/anis_coefficients.py:orfFromMap_fast,getCov"]}
{"id": "C75", "title": "Burst with memory is causal and linear", "statement": "bwm_delay is zero before the burst epoch and grows linearly after it; with the standard antenna pattern the slope is at most the strain in absolute value.", "quantifier": "every TOA and parameters", "why_tests_cant": "continuum", "anchors": ["enterprise/signals/utils.py:bwm_delay"]}
{"id": "C76", "title": "The model summary counts parameters correctly", "statement": "PTA.summary reports Total = Varying + Fixed where Varying is the number of param_names and Fixed the number of Constants in the model, regardless of include_params.", "quantifier": "every PTA", "why_tests_cant": "all models", "anchors": ["enterprise/signals/signal_base.py:PTA.summary"]}
{"id": "C77", "title": "by_index selects exactly the listed TOAs", "statement": "by_index(name, idx) returns a single mask under the given name that selects a TOA iff its position in the data is listed; positions outside the data (negative ones included) select nothing.", "quantifier": "every TOA vector, every list of integer positions", "why_tests_cant": "unbounded data and index lists, including out-of-range indices", "anchors": ["enterprise/signals/selections.py:by_index"]}
{"id": "C78", "title": "The timing package opens the files the caller named", "statement": "After changing into the tim file's directory, the par and tim names handed to the timing package refer to exactly the files the caller passed.", "quantifier": "all working directories, all relative and absolute par and tim paths, all file systems", "why_tests_cant": "tests use one or two directory layouts; the claim is over all paths, including .. components and links", "anchors": ["enterprise/pulsar.py:Pulsar"]}
{"id": "C79", "title": "Pulsar() picks its loader from the arguments in a fixed order", "statement": "A feather file wins, then filepath, then PINT objects, then a tempo2 object, then par/tim files with the requested or preferred timing package; missing files, unknown or missing packages and unspecified input raise before any timing package is used.", "quantifier": "all argument lists, keyword values and installed packages", "why_tests_cant": "the combinations of arguments and installed packages are unbounded and not all installable together", "anchors": ["enterprise/pulsar.py:Pulsar"]}
{"id": "C80", "title": "A Function lists every parameter it reads", "statement": "The params of an Enterprise Function contain every Parameter written anywhere in its definition, including nested Functions, exactly once.", "quantifier": "every Function tree", "why_tests_cant": "all nestings and keyword names", "anchors": ["enterprise/signals/parameter.py:Function.__init__,params"]}
{"id": "C81", "title": "The function decorator runs the function only on complete plain arguments", "statement": "Calling a decorated function evaluates it iff every argument without default is given and no keyword is a Parameter or Function; in every other case the call makes an Enterprise Function.", "quantifier": "every signature and call", "why_tests_cant": "all signatures and argument lists", "anchors": ["enterprise/signals/parameter.py:function,get_funcargs"]}
{"id": "C82", "title": "KernelMatrix.inv returns the inverse", "statement": "KernelMatrix.inv(logdet=True) returns the inverse and the logarithm of the determinant of every invertible symmetric prior covariance, whether stored as a vector or as a matrix.", "quantifier": "for all kernels, vectors and matrices of any size", "why_tests_cant": "The fallback after a failed Cholesky factorisation is only reached by matrices that are not positive definite, which tests do not use; the claim is over all matrices.", "anchors": ["enterprise/signals/utils.py:287-309"]}
{"id": "C83", "title": "The marginalizing timing model is the limit of wide Gaussian priors", "statement": "The quadratic form and the log determinant returned by MarginalizingNmat.solve are the limits, as s grows, of those of N + s M M^T (independent Gaussian priors of variance s on the timing-model parameters), with the diverging term m log s replaced by its value at s = 1e40.", "quantifier": "every positive definite N, design matrix of full column rank, residual vector", "why_tests_cant": "a limit over all s, for all matrices", "anchors": ["enterprise/signals/gp_signals.py:MarginalizingNmat.solve", "enterprise/signals/gp_signals.py:MarginalizingTimingModel"]}
{"id": "C84", "title": "The likelihood with a marginalized timing model is the limit of Gaussian likelihoods", "statement": "With MarginalizingTimingModel, get_lnlikelihood of a pulsar is the limit, as s grows, of the Gaussian log likelihood of N + T Phi T^T + s M M^T, with the diverging term m/2 log s replaced by its value at s = 1e40; for a PTA without common signals it is the sum over pulsars.", "quantifier": "every positive definite N and Phi, every design matrix of full column rank, every T and r", "why_tests_cant": "a limit, for all sizes and values", "anchors": ["enterprise/signals/signal_base.py:LogLikelihood.__call__", "enterprise/signals/gp_signals.py:MarginalizingNmat.solve"]}
{"id": "C85", "title": "Coefficient draws have the conditional covariance", "statement": "ConditionalGP.sample_coefficients and get_coefficients(variance=True) return the conditional mean plus a linear map of independent standard normal deviates whose covariance is the inverse of Sigma = T^T N^-1 T + Phi^-1.", "quantifier": "every positive definite Sigma and every factorization the libraries may return, including fill-reducing permutations", "why_tests_cant": "a distribution over all deviates; small test matrices need no permutation", "anchors": ["enterprise/signals/utils.py:ConditionalGP._sample_conditional", "enterprise/signals/utils.py:get_coefficients"]}
{"id": "C86", "title": "Normal and truncated normal priors are normalised densities", "statement": "For sigma>0 the Normal density integrates to 1; with a positive definite covariance matrix the vector Normal density integrates to 1 and for a diagonal covariance equals the product of the scalar densities; for pmin<pmax the TruncNormal density integrates to 1, vanishes outside (pmin,pmax) and is proportional to the Normal density inside, whichever of its arguments are hyperparameters.", "quantifier": "all mu, sigma, covariance matrices, bounds and values", "why_tests_cant": "continuum", "anchors": ["enterprise/signals/parameter.py:NormalPrior,TruncNormalPrior,TruncNormal"]}
{"id": "C87", "title": "The likelihood is the integral over the Gaussian-process coefficients", "statement": "The exponential of get_lnlikelihood equals, up to the constant convention of the code, the integral over all coefficient vectors b of the white-noise Gaussian density of r - T b times the Gaussian density of b with covariance phi.", "quantifier": "every positive definite noise and prior covariance, every basis and residual vector", "why_tests_cant": "integral over a continuum in arbitrary dimension", "anchors": ["enterprise/signals/signal_base.py:LogLikelihood.__call__"]}
{"id": "C88", "title": "Chromatic, enveloped, masked and ephemeris Fourier bases are row-wise scalings of the achromatic one", "statement": "createfourierdesignmatrix_dm, _dm_tn, _chromatic, _env, _ephem and _general return the achromatic basis with row i multiplied by a factor that depends on TOA i only ((1400/nu)^2, fref-nu power, envelope, position component), the same frequencies, and in _general zero rows exactly for the TOAs whose flag value is not selected.", "quantifier": "every TOA, radio frequency, flag vector, mode count and seed", "why_tests_cant": "all vectors and parameters; tests compare fixed numbers", "anchors": ["enterprise/signals/gp_bases.py:createfourierdesignmatrix_dm,createfourierdesignmatrix_dm_tn,createfourierdesignmatrix_env,createfourierdesignmatrix_ephem,createfourierdesignmatrix_chromatic,createfourierdesignmatrix_general"]}
{"id": "C89", "title": "Seeded phase shifts are reproducible and do not disturb other random draws", "statement": "With pshift and pseed given, the Fourier basis depends on the seed only and not on the global random state, and a call leaves the global random state alone.", "quantifier": "every random state, seed and mode count", "why_tests_cant": "all states of the random generator", "anchors": ["enterprise/signals/gp_bases.py:createfourierdesignmatrix_red"]}
{"id": "C90", "title": "Free spectra and t-processes give the columns of a frequency their own variance", "statement": "free_spectrum gives both columns of frequency k the variance 10^(2 rho_k); t_process scales the power law of frequency k by alpha_k; t_process_adapt scales only the frequency chosen by nfreq, and leaves all others at the power law.", "quantifier": "every frequency vector and parameter vector of matching length", "why_tests_cant": "continuum and all lengths", "anchors": ["enterprise/signals/gp_priors.py:free_spectrum,t_process,t_process_adapt"]}
{"id": "C91", "title": "The choice of timing-model basis does not change the allowed corrections", "statement": "Whatever use_svd and normed, the timing-model basis spans the corrections M dx in which the excluded parameters are zero; the normed columns have length one, the singular vectors are orthonormal, and the prior gives each column the variance 1e40.", "quantifier": "every design matrix and exclusion list", "why_tests_cant": "all matrices, including rank-deficient ones", "anchors": ["enterprise/signals/utils.py:unnormed_tm_basis,normed_tm_basis,svd_tm_basis,tm_prior,create_stabletimingdesignmatrix", "enterprise/signals/gp_signals.py:get_timing_model_basis"]}
{"id": "C92", "title": "The inverse gamma prior of the t-process is a normalised density", "statement": "InvGammaPrior is positive for positive values and integrates to one over the positive half line.", "quantifier": "all alpha>0, gamma>0", "why_tests_cant": "integral over a continuum", "anchors": ["enterprise/signals/gp_priors.py:InvGammaPrior"]}
{"id": "C93", "title": "Posteriors do not depend on the basis of a marginalized timing model", "statement": "For a design matrix of independent columns, replacing the basis of a MarginalizingTimingModel by another for the same corrections (unnormed, normed, svd) changes get_lnlikelihood by a constant that does not depend on residuals, delays, noise, Gaussian processes or the other pulsars.", "quantifier": "every parameter vector, noise model, Gaussian process and pulsar array", "why_tests_cant": "all values and models", "anchors": ["enterprise/signals/gp_signals.py:MarginalizingTimingModel,MarginalizingNmat", "enterprise/signals/signal_base.py:LogLikelihood.__call__"]}
{"id": "C94", "title": "Anisotropic correlations are those of the sky map", "statement": "anis_orf with the basis made by anis_basis returns, for pulsars at different positions, the covariance of the sky map with the given coefficients (first coefficient 2 sqrt(pi)), and that covariance is positive semidefinite for every value of the parameters.", "quantifier": "every lmax, every parameter vector, every array of positions, every response matrix", "why_tests_cant": "all parameter values and geometries; the claim of validity needs an argument about every map", "anchors": ["enterprise/signals/utils.py:anis_orf", "enterprise/signals/anis_coefficients.py:anis_basis,getCov"]}
{"id": "C95", "title": "Physical ephemeris delay and its design matrix agree", "statement": "physical_ephem_delay is zero for default parameters and linear in the planetary masses and orbital elements; the columns of createfourierdesignmatrix_physicalephem are its derivatives, so that the Gaussian-process signal with given coefficients is the deterministic delay of these parameters; for the frame drift, which is not linear, the difference is at most |earth| |pos| tau^2 |rate| (|rate| + 1e-5).", "quantifier": "every TOA, planet positions, pulsar position, parameters, prior widths and orbit files", "why_tests_cant": "all parameter values and geometries", "anchors": ["enterprise/signals/utils.py:physical_ephem_delay,createfourierdesignmatrix_physicalephem,ss_framerotate"]}
{"id": "C96", "title": "All pulsars of an array share the frequencies of a common Fourier process", "statement": "FourierBasisCommonGP without an explicit Tspan gives the bases of all pulsars of an array the same frequencies, taken from the span of the TOAs of all of them, so that the coefficients of different pulsars can be correlated.", "quantifier": "every number of pulsars, TOAs, order of creating signals and of asking for their bases, and other arrays made from the same class", "why_tests_cant": "all histories of calls on the shared class state", "anchors": ["enterprise/signals/gp_signals.py:FourierBasisCommonGP"]}
{"id": "C97", "title": "Waveform functions leave their arguments alone", "statement": "get_edot, get_Fdot, get_gammadot, get_coupled_ecc_eqns, calculate_splus_scross and bwm_delay are functions of the values of their arguments: they do not change arrays of the caller, and a second call with the same arguments gives the same result.", "quantifier": "every number or array as mass, distance and burst time and every value of the other arguments", "why_tests_cant": "aliasing for all argument kinds and sequences of calls", "anchors": ["enterprise/signals/utils.py:get_edot,get_Fdot,get_gammadot,get_coupled_ecc_eqns,get_an,get_bn,get_cn,calculate_splus_scross,bwm_delay"]}
{"id": "C98", "title": "Residuals of an eccentric binary are the integral of its strain", "statement": "calculate_splus_scross gives the time integral of the sum of the strains of the harmonics it was asked for, for any eccentricity; for a circular orbit this is a wave of twice the orbital frequency with amplitude M^(5/3)/(D w^(1/3)); a given h0 = 2 M^(5/3) w^(2/3)/D gives the same waveform as mass and distance.", "quantifier": "every time, mass, distance, frequency, eccentricity, angles, advance of periastron without resonance, and number of harmonics", "why_tests_cant": "identity of functions over all real arguments", "anchors": ["enterprise/signals/utils.py:get_an,get_bn,get_cn,calculate_splus_scross"]}
{"id": "C99", "title": "Binaries shrink and become circular along Peters' relation", "statement": "The right-hand sides of the evolution equations have a growing frequency, a shrinking eccentricity that vanishes only for circular orbits and an advancing periastron for every bound orbit, and every solution conserves F^(2/3) e^(12/19) (1-e^2)^-1 (1+121/304 e^2)^(870/2299).", "quantifier": "every mass, frequency, mass ratio, eccentricity between 0 and 1, and every solution of the equations", "why_tests_cant": "a conservation law along all solutions of a differential equation", "anchors": ["enterprise/signals/utils.py:get_edot,get_Fdot,get_gammadot,get_coupled_ecc_eqns"]}
{"id": "C100", "title": "PINT flags of every TOA arrive at that TOA", "statement": "A pulsar built from PINT has a flag array for exactly the flags that any TOA carries; entry i of the array of flag f is the value TOA i carries for f, or the empty string; the arrays as seen by the user are in the order of the sorted TOAs.", "quantifier": "every list of TOAs with any flags", "why_tests_cant": "all combinations of flags that some TOAs carry and others do not, in any order", "anchors": ["enterprise/pulsar.py:PintPulsar.__init__"]}
{"id": "C101", "title": "Pulsar position and per-TOA direction describe the same point of the sky", "statement": "psr.pos is the unit vector of the pulsar in equatorial coordinates, and psr.pos_t, the direction for each TOA, agrees with it for a pulsar without proper motion, whichever coordinates its parameter file has.", "quantifier": "every pulsar, coordinates and name", "why_tests_cant": "a relation between two code paths for all coordinates and names; test data have few pulsars", "anchors": ["enterprise/pulsar.py:_get_radec_from_ecliptic,_get_pos,Tempo2Pulsar.__init__,PintPulsar._get_radec,Tempo2Pulsar._get_radec"]}
{"id": "C102", "title": "psr.dmx describes the dispersion bins of the timing model", "statement": "psr.dmx has an entry for each dispersion bin of the timing model, with value, uncertainty and range of that bin, and fit is true exactly for the fitted ones.", "quantifier": "every timing model", "why_tests_cant": "all timing models with any fixed and fitted bins", "anchors": ["enterprise/pulsar.py:PintPulsar._set_dm,Tempo2Pulsar._set_dm"]}
{"id": "C103", "title": "Planet positions are complete, in light seconds and in the frame of the pulsar", "statement": "With planets=True every planet that the ephemeris model reads has its position from the solar-system barycentre in light seconds for each TOA, in the frame of the direction to the pulsar; PINT planets that are not read are nan; a table without a planet raises; with planets=False nothing is stored.", "quantifier": "every table of TOAs, every pulsar", "why_tests_cant": "all positions, and a statement on frames that numbers of one pulsar cannot show", "anchors": ["enterprise/pulsar.py:PintPulsar._get_planetssb,_get_ssb_lsec,Tempo2Pulsar._get_planetssb"]}
{"id": "C104", "title": "A Gaussian process with a selection is one independent process per selection", "statement": "A BasisGP with a selection gives residuals the covariance of independent processes, one per key, each on the TOAs of its own mask with its own basis, prior and parameters, whatever parameters were used in earlier calls of get_phi.", "quantifier": "every set of masks, bases and priors, every history of calls", "why_tests_cant": "all masks, numbers of columns and call histories; the kernel is changed in place between calls", "anchors": ["enterprise/signals/gp_signals.py:BasisGP._construct_basis,get_phi,get_basis"]}
{"id": "C105", "title": "The likelihood of pulsars is that of the sum of their signals", "statement": "Without common signals the log likelihood of a PTA is the sum over pulsars of the log density of residuals minus all delays, Gaussian with the sum of the noise covariance and of F phi F^T of every Gaussian-process signal, plus the signals' prior terms. The order of the signals and the sharing of columns do not matter.", "quantifier": "every list of pulsars and signals with positive definite priors", "why_tests_cant": "all signals, bases with shared columns and orders; tests compare single configurations", "anchors": ["enterprise/signals/signal_base.py:SignalCollection._combine_basis_columns,get_basis,get_phi,LogLikelihood.__call__"]}
{"id": "C106", "title": "ECORR as a Gaussian process and as a noise matrix are the same model", "statement": "EcorrBasisModel and EcorrKernelNoise with the same selection and parameters give the same likelihood, together with any measurement noise and other Gaussian processes.", "quantifier": "every set of TOAs, selections, amplitudes and further signals", "why_tests_cant": "all TOAs and selections, among them those without epochs", "anchors": ["enterprise/signals/gp_signals.py:EcorrBasisModel", "enterprise/signals/white_signals.py:EcorrKernelNoise", "enterprise/signals/utils.py:create_quantization_matrix"]}
{"id": "C107", "title": "The likelihood of an array is the joint density of all its residuals", "statement": "With common processes (for example a background with Hellings-Downs correlations) the log likelihood of a PTA is the log density of the residuals of all pulsars together, Gaussian with the noise of each pulsar plus the covariance of every process, where processes of one class, with the same frequencies in all pulsars, are correlated between pulsars by the overlap of their positions and other processes are independent. Processes of one class have the same prior in all pulsars; with a class whose priors differ the likelihood raises or is not that of a covariance.", "quantifier": "every array, every list of signals per pulsar with shared columns or not, any number of common classes, every positive definite prior and overlap; for one class with vector priors every way of inverting the prior", "why_tests_cant": "all arrays, mixtures of processes, positions and amplitudes; tests compare single numbers", "anchors": ["enterprise/signals/signal_base.py:LogLikelihood.__call__,PTA.get_phi,PTA._commonsignals", "enterprise/signals/gp_signals.py:BasisCommonGP"]}
{"id": "C108", "title": "Fourier processes have the stationary covariance of their spectrum", "statement": "A FourierBasisGP, or a BasisGP with the DM or chromatic Fourier basis, gives two TOAs t, t' of one mask of its selection the covariance chi(nu) chi(nu') sum_k P_k cos(2 pi f_k (t - t')) with the frequencies and the variances of that mask, and two TOAs of no common mask none; phase shifts and earlier calls do not change it. For a power law and n modes this is sum over k=1..n of A^2/(12 pi^2) f_yr^(gamma-3) (k/T)^(-gamma)/T cos(2 pi k (t-t')/T). Phases shifted independently in two pulsars make the covariance between them average to zero. This is for processes whose columns are distinct if they may be combined (combine=True); the spectrum gives the sine and the cosine of one frequency the same variance.", "quantifier": "every selection, all TOAs and radio frequencies, every number of modes, spectrum, phase shift, random state and history of calls", "why_tests_cant": "all TOAs, frequencies, selections and random states; tests compare matrices of single data sets with a copy of the formula", "anchors": ["enterprise/signals/gp_signals.py:BasisGP,FourierBasisGP", "enterprise/signals/gp_bases.py:createfourierdesignmatrix_red,createfourierdesignmatrix_dm,createfourierdesignmatrix_chromatic", "enterprise/signals/gp_priors.py:powerlaw"]}
{"id": "C109", "title": "The standard noise model of a pulsar has the covariance of the textbook", "statement": "A pulsar with MeasurementNoise(efac, log10_t2equad) by backend, or MeasurementNoise(efac) + TNEquadNoise, with EcorrKernelNoise by backend, TimingModel or MarginalizingTimingModel and any number of FourierBasisGP or DM and chromatic processes with power laws has as its log likelihood the log density of the residuals without the delays under the Gaussian of covariance efac^2 (sigma^2 + t2equad^2) (or efac^2 sigma^2 + tnequad^2) on the diagonal, ecorr^2 within epochs, sum_k P_k cos(2 pi k (t-t')/T) times the chromatic factors for each process, and 1e40 M M^T for the timing model (or marginalized over its columns). Columns that may be combined are distinct, and the noise variances are not zero. The two white noise conventions are the same model for tnequad = efac t2equad and only then.", "quantifier": "all TOAs, uncertainties, radio frequencies, selections, parameters, earlier calls, delays and design matrices; every number of processes; every method", "why_tests_cant": "all data sets and all combinations of signals at once; tests compare single data sets with a copy of the formulas", "anchors": ["enterprise/signals/white_signals.py:MeasurementNoise,TNEquadNoise,EcorrKernelNoise", "enterprise/signals/gp_signals.py:TimingModel,MarginalizingTimingModel,FourierBasisGP", "enterprise/signals/signal_base.py:LogLikelihood"]}
{"id": "C110", "title": "The time span of a common process is that of the pulsars the class has seen", "statement": "In every session with the class of a FourierBasisCommonGP without Tspan, the frequencies of the process in a pulsar are those of the time span from the first TOA to the last of all pulsars of which the class has made signals until the signal is first used, and then stay; so if all signals are made first the span is that of the array, whatever is asked of them afterwards. With Tspan given it is Tspan. It is not that of the array if a signal is used before the others are made, or if the class is used for a second array.", "quantifier": "all sessions of making and using signals of one class, of any length and in any order; all TOAs", "why_tests_cant": "the span is state of the class shared by all arrays made with it; a test sees one order of operations", "anchors": ["enterprise/signals/gp_signals.py:FourierBasisCommonGP", "enterprise/signals/gp_signals.py:BasisCommonGP"]}
{"id": "C111", "title": "An array with a gravitational-wave background has the covariance of the textbook", "statement": "An array with FourierBasisCommonGP(powerlaw(...), hd_orf()) in pulsars with any noise and processes of their own has as its log likelihood the log density of the stacked residuals without the delays under the Gaussian whose covariance between TOA t of pulsar a and TOA t' of pulsar b is Gamma_ab sum_k P_k cos(2 pi k (t-t')/T), plus, for a = b, the noise and the other processes of the pulsar, with the columns of marginalizing timing models marginalized over. With pshift the phases of the two pulsars enter the cosine. The same holds for other spectra, frequencies and overlaps. Columns that may be combined are distinct, and the overlaps of the pulsars are positive definite, which those of Hellings and Downs are for distinct directions.", "quantifier": "all arrays, positions, TOAs, residuals, other signals, amplitudes and slopes; every number of pulsars and modes; every method", "why_tests_cant": "all arrays at once, from the arguments of the user to the density; tests compare single arrays", "anchors": ["enterprise/signals/gp_signals.py:FourierBasisCommonGP,BasisCommonGP", "enterprise/signals/gp_bases.py:createfourierdesignmatrix_red", "enterprise/signals/signal_base.py:PTA,LogLikelihood"]}
{"id": "C112", "title": "The likelihood depends on the Gaussian processes only through their covariance", "statement": "Two arrays of the same pulsars, residuals, delays and noise have the same log likelihood whenever their Gaussian processes, common ones included, have the same covariance on the stacked residuals, however many processes and columns there are, however the columns are combined and whatever the overlap functions; with one common process whatever the methods, with several for the method sparse. In particular the order of the signals of a pulsar does not matter.", "quantifier": "all arrays, processes, overlaps and parameter values; every method with one common process", "why_tests_cant": "relates every two models of the same covariance; tests compare single pairs of numbers", "anchors": ["enterprise/signals/signal_base.py:PTA,LogLikelihood,SignalCollection", "enterprise/signals/gp_signals.py:BasisGP,BasisCommonGP"]}
{"id": "C113", "title": "The ephemeris process is a background with dipolar overlaps", "statement": "FourierBasisCommonGP_ephem(powerlaw(...), components, Tspan) has the same log likelihood as FourierBasisCommonGP with the same power law, frequencies and dipole_orf(), for pulsars in distinct directions whose ephemeris columns are distinct (which excludes directions with two equal coordinates). The power law has to be given components=6; with its default the variances of four of the six columns of every mode are zero.", "quantifier": "all arrays of pulsars with distinct unit positions, all amplitudes, slopes, time spans and numbers of modes, all noise and other processes; every method", "why_tests_cant": "an identity of likelihoods over all arrays; tests evaluate the basis in one pulsar", "anchors": ["enterprise/signals/gp_signals.py:FourierBasisCommonGP_ephem", "enterprise/signals/gp_bases.py:createfourierdesignmatrix_ephem", "enterprise/signals/gp_priors.py:powerlaw", "enterprise/signals/utils.py:monopole_orf,dipole_orf"]}
{"id": "C114", "title": "The physical ephemeris process has the covariance of errors of its parameters", "statement": "An array with FourierBasisCommonGP_physicalephem(...) has as its log likelihood the log density of the residuals under the Gaussian whose covariance between two TOAs, of the same or of two pulsars, is the overlap of monopole_orf times the covariance of the delays that independent Gaussian errors of the masses, of the drift rate and of the orbital elements, of the given widths, cause at the two TOAs, plus the noise and the other processes of each pulsar. Parameters of width None or zero do not contribute. The columns of each pulsar are distinct.", "quantifier": "all arrays, planet positions, orbit files and widths; every method", "why_tests_cant": "from the arguments of the user to the density, for all arrays", "anchors": ["enterprise/signals/gp_signals.py:FourierBasisCommonGP_physicalephem", "enterprise/signals/utils.py:createfourierdesignmatrix_physicalephem,physicalephem_spectrum,monopole_orf"]}
{"id": "C115", "title": "Several common processes add up", "statement": "An array with any number of FourierBasisCommonGP of any spectra and overlaps has as its log likelihood the log density of the residuals under the Gaussian whose covariance between two TOAs is the sum over the processes of the overlap of the two pulsars times the covariance of the waves of the process, plus within a pulsar that of its noise and its own processes. With method sparse for all processes; with the default method cliques if the processes combine their columns and have the same time span. Columns that may be combined are distinct.", "quantifier": "all numbers of common processes, all spectra, overlaps that are positive definite, numbers of modes and time spans, all pulsars, noise and own processes", "why_tests_cant": "from the arguments of the user to the density, for all arrays and all numbers of processes; tests compare the methods on one array", "anchors": ["enterprise/signals/signal_base.py:PTA,LogLikelihood", "enterprise/signals/gp_signals.py:FourierBasisCommonGP"]}
{"id": "C116", "title": "The likelihood of an array of pulsars with the usual signals, written out", "statement": "A PTA of pulsars with MeasurementNoise and a white component by backend, EcorrKernelNoise by backend, a TimingModel or MarginalizingTimingModel, any number of FourierBasisGP with power laws and any number of FourierBasisCommonGP with power laws and positive definite overlaps in which columns that may be combined are distinct can always be built, and its log likelihood is the log density of the residuals of all pulsars without their delays under the Gaussian whose covariance has the error bars on the diagonal, the square of ECORR within the epochs of a pulsar, the cosines of the own processes (and 1e40 M M^T of a timing model that is not marginalized) within a pulsar, and the sum over the common processes of overlap times cosines between all TOAs, marginalized over the columns of the timing models that are to be.", "quantifier": "all arrays, numbers of TOAs, masks, parameters, numbers of processes, positions; methods sparse for all, cliques with one time span, all methods with one common process", "why_tests_cant": "the whole chain from the arguments of the user to the density, for all arrays; tests check one array against one dense computation", "anchors": ["enterprise/signals/signal_base.py:PTA,LogLikelihood,SignalCollection", "enterprise/signals/gp_signals.py:FourierBasisCommonGP,FourierBasisGP,TimingModel,MarginalizingTimingModel", "enterprise/signals/white_signals.py:MeasurementNoise,EcorrKernelNoise"]}
{"id": "C117", "title": "The wideband likelihood is the integral over the dispersion measures", "statement": "The log likelihood of a pulsar with WidebandTimingModel beside any other signals is the logarithm, up to powers of 2 pi, of the integral over the dispersion measures of all DMX intervals (with a flat prior) and over marginalized timing corrections of: the Gaussian density of the residuals without other delays and without the dispersion delay of these dispersion measures relative to DM + DMX of the timing model, times the Gaussian densities of the measured, jump-corrected dispersion measures with their scaled errors.", "quantifier": "all pulsars, numbers of TOAs, disjoint nonempty intervals, parameter values, other signals, and likelihood methods", "why_tests_cant": "An integral over arbitrarily many dispersion measures; tests compare with one dense formula at one set of parameters.", "anchors": ["enterprise/signals/gp_signals.py:WidebandTimingModel", "enterprise/signals/signal_base.py:LogLikelihood,SignalCollection"]}
{"id": "C118", "title": "The sky-map functions with real harmonics and with healpy agree", "statement": "mapFromClm and mapFromClm_fast give the same sky map for every list of coefficients; real_sph_harm is sqrt 2 times the real part (m > 0), the real part (m = 0) or sqrt 2 times the imaginary part (m < 0) of the complex harmonic with |m|; getCov's correlations are those of that map. clmFromMap and clmFromMap_fast give the same coefficients of every map, and those of the map of any coefficients are these coefficients.", "quantifier": "all coefficient lists of any length, all maps, pixelizations and degrees", "why_tests_cant": "Equality of two functions on all coefficient lists and maps; a test compares a few low-degree maps within a tolerance.", "anchors": ["enterprise/signals/anis_coefficients.py:real_sph_harm,mapFromClm,mapFromClm_fast,clmFromMap,clmFromMap_fast,getCov"]}
{"id": "C119", "title": "The ephemeris signal on epoch averages gives each TOA the delay of its epoch", "statement": "With use_epoch_toas, PhysicalEphemerisSignal puts every TOA in exactly one epoch, which holds all TOAs in a window of one second; get_delay gives every TOA the physical_ephem_delay at the mean TOA of its epoch with planet and pulsar coordinates that lie between those at two TOAs of the epoch, whatever the array held before; where TOAs of an epoch have the same time and positions the delays are those with use_epoch_toas=False.", "quantifier": "all pulsars, TOA lists, tie-breaking of argsort, parameters, orbit files and previous array contents", "why_tests_cant": "A test compares the two options on one pulsar within a tolerance; it cannot cover every arrangement of TOAs into epochs, nor the order of the TOAs, on which the interpolation depends.", "anchors": ["enterprise/signals/deterministic_signals.py:PhysicalEphemerisSignal", "enterprise/signals/utils.py:create_quantization_matrix,quant2ind,physical_ephem_delay"]}
{"id": "C120", "title": "A t-process with inverse-gamma factors gives Student coefficients", "statement": "With alphas = InvGamma(a, s, size=n), the integral over alphas of the prior of alphas times the Gaussian prior that t_process gives the coefficients is, for every value of the coefficients, the product over the frequencies of the bivariate Student density with 2a degrees of freedom and scale w s / a, where w is the power law at this frequency.", "quantifier": "all ascending frequency lists, amplitudes, spectral indices, positive a and s, and coefficient values", "why_tests_cant": "The claim is an identity between integrals; a test can only estimate them at sample points.", "anchors": ["enterprise/signals/gp_priors.py:t_process,InvGamma,InvGammaPrior,powerlaw", "enterprise/signals/parameter.py:Parameter.get_pdf"]}
{"id": "C121", "title": "Solved binary orbits are the chirp, and only before the merger", "statement": "With an integrator without numerical error, solve_coupled_constecc_solution returns the number 0 or, at every requested time, the closed-form chirp F0 (1 - t/tau)^(-3/8) and its phase, where tau is Peters' merger time; a time at or after the merger makes it return 0, and no time before does so for an integrator that succeeds whenever there is a solution. solve_coupled_ecc_solution returns 0 or rows with an eccentricity that has not grown, a frequency between the chirps of a circular orbit and of one that keeps its eccentricity, and the initial value of Peters' constant.", "quantifier": "all positive frequencies and masses, eccentricities in [0,1), phases, lists of times and exact integrators", "why_tests_cant": "A statement about all solutions of differential equations and when they cease to exist; a test integrates one orbit.", "anchors": ["enterprise/signals/utils.py:solve_coupled_constecc_solution,solve_coupled_ecc_solution,get_coupled_constecc_eqns,get_coupled_ecc_eqns,get_Fdot,get_edot"]}
{"id": "C122", "title": "Samplers draw from the density of the parameter", "statement": "The value that Uniform, LinearExp, Normal and TruncNormal parameters sample has the joint law whose density get_pdf returns: for numbers, for vectors with bounds or means of their own or shared ones (independent components), and for a Normal with a covariance matrix; the rejection loop of TruncNormal ends for almost every stream of the generator, and the components of a vector come out independent although they share the stream of new draws. Bounds whose length does not fit the size raise ValueError.", "quantifier": "all sizes, ordered bounds, means, positive standard deviations, positive definite covariances; laws over all outcomes of the generator", "why_tests_cant": "Equality of probability laws, and an event of probability zero over infinite streams; a test compares histograms of finitely many draws.", "anchors": ["enterprise/signals/parameter.py:UniformSampler,NormalSampler,TruncNormalSampler,LinearExpSampler,get_pdf"]}
{"id": "C123", "title": "The order of the pulsars and unlinked pulsars", "statement": "The log likelihood of a PTA does not depend on the order in which the pulsars are given, nor on which of the covered ways inverts the prior in the two orders. When the overlap reduction functions vanish between two groups of pulsars (or no common process is in both), the log likelihood of the array is the sum of the log likelihoods of the groups; pairwise unlinked pulsars give the sum of the likelihoods of the single pulsars.", "quantifier": "all arrays meeting the hypotheses of C107, all permutations, all splits, all noise and prior values", "why_tests_cant": "Over all arrays and permutations; the code assigns columns by position and inverts one stacked matrix, so the invariance is a theorem about block matrices.", "anchors": ["enterprise/signals/signal_base.py:PTA,LogLikelihood,get_phi,get_phiinv"]}
{"id": "C124", "title": "Signals read the parameters they list", "statement": "The methods of a signal (get_ndiag, get_delay, get_basis, get_phi, get_phicross, get_logsignalprior) depend on the parameter dictionary only through the parameters that the signal lists (and so PTA.params lists), and the names given to cache_call cover them: a pulsar model made of the library's signals returns, in every history of calls, what a model without caches returns.", "quantifier": "all signals of the classes WhiteNoise, Deterministic, PhysicalEphemerisSignal, EcorrKernelNoise, BasisGP, BasisCommonGP, WidebandTimingModel with arbitrary (nested) Functions, all dictionaries, all histories", "why_tests_cant": "A statement over all Function trees, all dictionaries and all call histories; a missing name shows only when exactly that parameter changes.", "anchors": ["enterprise/signals/white_signals.py:WhiteNoise,EcorrKernelNoise", "enterprise/signals/deterministic_signals.py:Deterministic", "enterprise/signals/gp_signals.py:BasisGP,BasisCommonGP,WidebandTimingModel", "enterprise/signals/parameter.py:Function", "enterprise/signals/signal_base.py:Signal,cache_call"]}
{"id": "C125", "title": "The Hellings-Downs curve follows from the antenna patterns", "statement": "hd_orf is the correlation that an isotropic background of gravitational waves gives according to the library's own antenna pattern: for two pulsars in different directions it is 3/2 of the average of F+ F+ + Fx Fx over the sky, for a pulsar with itself twice that. The covariance that anis_coefficients computes of a map of uniform power, and anis_orf with all parameters zero, go to hd_orf when the pixels become more and cover the sky evenly.", "quantifier": "all unit vectors; all sequences of maps whose pixels are evenly distributed; all numbers of pulsars at different positions; all lmax", "why_tests_cant": "An identity between an integral over the sphere and a closed formula, and a limit in the number of pixels; tests compare a few angles at finite resolution with a tolerance.", "anchors": ["enterprise/signals/utils.py:hd_orf", "enterprise/signals/utils.py:create_gw_antenna_pattern", "enterprise/signals/utils.py:anis_orf", "enterprise/signals/anis_coefficients.py:signalResponse_fast", "enterprise/signals/anis_coefficients.py:anis_basis"]}
{"id": "C126", "title": "The order of the TOAs, the origin of time and the axes of the sky do not matter", "statement": "The likelihood of an array with white noise, ECORR, timing model, Fourier processes per pulsar and common processes does not change if the TOAs of each pulsar are listed in another order (with their errors, frequencies, flags, residuals and rows of the design matrix), if all times of all pulsars are shifted by the same amount, and, with the overlaps of Hellings and Downs, if all pulsar positions are rotated. Neither does the state of the random generator matter. Columns of a basis that may be combined are distinct, as in C116.", "quantifier": "all arrays, all permutations per pulsar, all shifts, all maps of the sky that keep angles, all likelihood methods that accept the model", "why_tests_cant": "A statement about all permutations and shifts of all data sets; the grouping of TOAs into epochs, the default time span, the phases of the Fourier basis and the positions of the rows all take part in it.", "anchors": ["enterprise/signals/signal_base.py:LogLikelihood", "enterprise/signals/utils.py:create_quantization_matrix", "enterprise/signals/gp_bases.py:createfourierdesignmatrix_red", "enterprise/signals/white_signals.py:EcorrKernelNoise", "enterprise/signals/utils.py:hd_orf"]}
{"id": "C127", "title": "A parameter acts on the data that its name says", "statement": "The value given under <pulsar>[_<signal name>][_<selection key>]_<parameter>, in the dictionary of parameters or as a Constant, is used for exactly the TOAs of that pulsar and key: the variance of a TOA is efac^2 (sigma^2 + 10^(2 log10_t2equad)) with the values of its own backend (MeasurementNoise), 10^(2 log10_tnequad) (TNEquadNoise); the ECORR of an epoch, the spectrum of a red noise process and the waveform of a Deterministic signal are those of its key; a Function given for an argument of a Function sees the same pulsar and has parameters named after both; the amplitude and slope of a common process are given under the name of the signal alone and are the same for all pulsars. Changing the value of another key changes nothing. Two signals of the same kind with different names have different parameters. A parameter for which no value is given raises.", "quantifier": "all pulsars, selections, signal names, dictionaries of parameters and Constants", "why_tests_cant": "Names are put together in four places from up to four parts that may be empty, and values travel through Functions that fill in defaults; a test compares a few names and values.", "anchors": ["enterprise/signals/white_signals.py:WhiteNoise", "enterprise/signals/white_signals.py:EcorrKernelNoise", "enterprise/signals/gp_signals.py:BasisGP", "enterprise/signals/gp_signals.py:BasisCommonGP", "enterprise/signals/deterministic_signals.py:Deterministic", "enterprise/signals/parameter.py:Function", "enterprise/signals/selections.py:Selection"]}
{"id": "C128", "title": "TimingModel and MarginalizingTimingModel agree", "statement": "Replacing MarginalizingTimingModel by TimingModel in any pulsars of an array lowers the log-likelihood, by at most 1e-40/2 times the sum of the squares of the least-squares fit of the timing-model columns and the trace of the covariance of that fit. With a prior of variance s for the columns instead of 1e40 the same holds with 1/s, apart from the constant m/2 log(s/1e40). Columns of a basis that may be combined are distinct, as in C116.", "quantifier": "all arrays with white noise, ECORR, processes per pulsar and common power-law processes, all residuals, all likelihood methods that accept the model", "why_tests_cant": "The two ways share no code: one adds columns to the basis and 1e40 to the prior, the other changes the noise object and its determinant. Tests compare two numbers for one pulsar with a tolerance.", "anchors": ["enterprise/signals/gp_signals.py:TimingModel", "enterprise/signals/gp_signals.py:MarginalizingTimingModel", "enterprise/signals/gp_signals.py:MarginalizingNmat", "enterprise/signals/utils.py:tm_prior"]}
{"id": "C129", "title": "The log-likelihood is continuous, and a process of vanishing amplitude drops out", "statement": "The log-likelihood of an array is a continuous function of the parameters of white noise, ECORR, delays, the processes of each pulsar and the common processes. If log10 ECORR, the log10 amplitude of a process of a pulsar or that of the last common processes goes to minus infinity, the log-likelihood tends to that of the model without the signal: nested models agree in the limit, although they have different bases, different caches and, for a correlated process, different code for the inverse of the prior. Columns of a basis that may be combined are distinct, as in C116.", "quantifier": "all arrays with white noise, ECORR, processes per pulsar and common power-law processes, all overlap reductions that are positive definite, all residuals, all states of the random generator at each value, all methods that accept the model", "why_tests_cant": "Tests evaluate the likelihood at a few points; continuity and limits are statements about all sequences of parameters, and a jump at a threshold in the code (a branch on a value, a cached matrix) would only show at that threshold.", "anchors": ["enterprise/signals/signal_base.py:LogLikelihood", "enterprise/signals/signal_base.py:PTA.get_phiinv", "enterprise/signals/gp_signals.py:FourierBasisGP", "enterprise/signals/gp_signals.py:FourierBasisCommonGP", "enterprise/signals/white_signals.py:EcorrKernelNoise"]}
{"id": "C130", "title": "The methods of a parameter see the same hyperparameters", "statement": "get_pdf, get_logpdf, sample and get_ppf of a Parameter whose prior, sampler and ppf have the same keywords are given the same values of the hyperparameters: those of params under the names name_keyword, else those of Constants, and plain values as they are; values of other parameters do not matter. Without a value the methods take that of params under the name of the parameter. A class with neither prior nor logprior cannot be named, logprior is used only without prior, a missing sampler is an AttributeError and a missing ppf a NotImplementedError. The sampler may be a function with the same parameters as the prior, as documented.", "quantifier": "all Parameter classes (UserParameter, GPCoefficients and the classes of parameter.py), all functions, keywords, names and dictionaries params", "why_tests_cant": "Tests use the samplers of the package, which all take size, and a few keywords; that the three methods resolve every keyword alike is a statement about all classes a user may define.", "anchors": ["enterprise/signals/parameter.py:Parameter", "enterprise/signals/parameter.py:UserParameter", "enterprise/signals/parameter.py:GPCoefficients", "enterprise/signals/parameter.py:Function.__call__,__init__"]}
{"id": "C131", "title": "The likelihood does not depend on the calls made before", "statement": "pta.get_lnlikelihood(params) returns the log-likelihood of params and phiinv_method, whatever calls of get_lnlikelihood (also failed ones, with other parameters or other methods) the same PTA saw before; LogLikelihood and LogLikelihoodDenseCholesky return the same.", "quantifier": "all histories of calls, all pulsars, signals and common processes, all libraries meeting the documented contract of scikit-sparse", "why_tests_cant": "The object keeps the blocks of the last call and the symbolic analysis of the first; whether a stale one is used depends on the whole history and on which entries happen to be zero.", "anchors": ["enterprise/signals/signal_base.py:LogLikelihood", "enterprise/signals/signal_base.py:LogLikelihoodDenseCholesky", "enterprise/signals/signal_base.py:simplememobyid", "enterprise/signals/signal_base.py:PTA.get_lnlikelihood"]}
{"id": "C132", "title": "The unit of the residuals only changes the likelihood by a constant", "statement": "With timing models marginalized over (MarginalizingTimingModel), multiplying residuals, deterministic delays and TOA uncertainties by s > 0 and adding log10(s) to log10_t2equad, log10_tnequad, log10_ecorr and the log10_A of every own and common power-law process changes get_lnlikelihood by exactly -(number of TOAs - number of timing-model columns) * log(s), whatever the parameters, masks, phiinv_method and overlap functions. Columns of a basis that may be combined are distinct, as in C116.", "quantifier": "all arrays of pulsars with usual noise models, all parameters, all s > 0", "why_tests_cant": "It is an identity in all data and parameters at once; every constant left unscaled anywhere (a floor on a variance, an absolute tolerance, a missing unit) breaks it only for some values.", "anchors": ["enterprise/signals/signal_base.py:PTA.get_lnlikelihood", "enterprise/signals/white_signals.py:MeasurementNoise", "enterprise/signals/white_signals.py:TNEquadNoise", "enterprise/signals/white_signals.py:EcorrKernelNoise", "enterprise/signals/gp_signals.py:FourierBasisGP", "enterprise/signals/gp_signals.py:FourierBasisCommonGP", "enterprise/signals/gp_signals.py:MarginalizingTimingModel"]}
{"id": "C133", "title": "The likelihood is bounded and the posterior is proper", "statement": "If the white-noise variance of no TOA (EFAC and EQUAD included) is below v > 0, get_lnlikelihood is at most -1/2 ((n - m) log v + log det M^T M + m log 1e40) for n TOAs and the m marginalized timing-model columns M, whatever ECORR, the amplitudes and slopes of own and common processes, the delays and the residuals. So with any normalised prior on parameters on which the signals depend continuously, the evidence (the integral of exp(get_lnlikelihood) over the prior) exists, is positive and is finite. Columns of a basis that may be combined are distinct, as in C116.", "quantifier": "all arrays of pulsars with usual noise models, all parameters, all normalised priors", "why_tests_cant": "A bound over all of parameter space, including the tails that a sampler rarely visits; a likelihood that diverges somewhere makes evidences and Bayes factors meaningless although each evaluated value looks right.", "anchors": ["enterprise/signals/signal_base.py:PTA.get_lnlikelihood", "enterprise/signals/signal_base.py:LogLikelihood", "enterprise/signals/white_signals.py:MeasurementNoise", "enterprise/signals/gp_signals.py:FourierBasisGP", "enterprise/signals/gp_signals.py:FourierBasisCommonGP", "enterprise/signals/gp_signals.py:MarginalizingTimingModel"]}
{"id": "C134", "title": "The likelihood is a density of the data and favours the true parameters", "statement": "With timing models that are not marginalized over, exp(get_lnlikelihood), as a function of the residuals of N TOAs of all pulsars, integrates to (2 pi)^(N/2) whatever the parameters of noise, processes and delays: parameters enter the normalisation nowhere else. If the residuals are drawn from this density for some parameters, then the expected get_lnlikelihood of any other model of the same TOAs is at most that of the true one, with equality exactly if both have the same covariance and the same delays. In particular the expected log-likelihood at the true amplitude of a common process is strictly larger than at any other amplitude. Columns of a basis that may be combined are distinct, as in C116.", "quantifier": "all arrays of pulsars with usual noise models, all parameters and all alternative models of the same TOAs", "why_tests_cant": "An integral over all data: a determinant that is missing a factor, or belongs to another covariance, gives plausible values for each data set and biases every inference.", "anchors": ["enterprise/signals/signal_base.py:PTA.get_lnlikelihood", "enterprise/signals/signal_base.py:LogLikelihood", "enterprise/signals/white_signals.py:MeasurementNoise", "enterprise/signals/gp_signals.py:FourierBasisGP", "enterprise/signals/gp_signals.py:FourierBasisCommonGP", "enterprise/signals/gp_signals.py:TimingModel"]}
{"id": "C135", "title": "Marginalizing over timing models keeps exactly the data they cannot absorb", "statement": "For an array with MarginalizingTimingModel columns M (pulsars with TimingModel allowed too), and any matrix G of n - m orthonormal columns with M^T G = 0, get_lnlikelihood of any residuals is the Gaussian log-likelihood of G^T (residuals - delays) with covariance G^T C G, up to the constant -1/2 (log det M^T M + m log 1e40), which no noise parameter changes. So over the reduced data the likelihood integrates to a constant set by M, and for reduced data drawn from one model the expected get_lnlikelihood of any other model with the same M is at most that of the true one, with equality exactly if G^T C G and G^T delays agree. Columns of a basis that may be combined are distinct, as in C116.", "quantifier": "all arrays of pulsars with usual noise models, all parameters, all annihilating matrices, all alternative models with the same marginalized columns", "why_tests_cant": "An identity between two large computations for all covariances and all choices of G, and an integral over all data; a missing factor in the determinant of the projected timing model shifts each value by an amount that looks like noise.", "anchors": ["enterprise/signals/gp_signals.py:MarginalizingTimingModel", "enterprise/signals/gp_signals.py:MarginalizingNmat", "enterprise/signals/signal_base.py:LogLikelihood", "enterprise/signals/signal_base.py:PTA.get_lnlikelihood"]}
{"id": "C136", "title": "Timing objects can be dropped and pulsars pickled at any time", "statement": "For a Tempo2Pulsar or PintPulsar, drop_tempopsr/drop_pintpsr, drop_not_picklable and to_pickle can be called in any order and any number of times. to_pickle does not raise if the directory can be made and the file opened, takes nothing from the pulsar but model, pint_toas and t2pulsar, writes <outdir>/<name>.pkl only, and loading that file gives the pulsar back. The drop methods take all timing objects away and do nothing if they are gone. A to_pickle that fails changes nothing.", "quantifier": "all pulsars, all constructor flags, all call sequences, all states of the disk", "why_tests_cant": "Depends on the order of calls on one object: the exception each method suppresses is only raised after particular earlier calls.", "anchors": ["enterprise/pulsar.py:BasePulsar.to_pickle", "enterprise/pulsar.py:BasePulsar.drop_not_picklable", "enterprise/pulsar.py:PintPulsar.drop_pintpsr", "enterprise/pulsar.py:PintPulsar.drop_not_picklable", "enterprise/pulsar.py:Tempo2Pulsar.drop_tempopsr", "enterprise/pulsar.py:Tempo2Pulsar.drop_not_picklable"]}
{"id": "C137", "title": "In floating point the log prior is finite inside the support and -inf outside", "statement": "Computed in binary64 arithmetic, get_logpdf of Uniform, Normal, TruncNormal and LinearExp parameters is a finite number at every finite value of the support and -inf at every other value, including infinities and NaN. PTA.get_lnprior is finite if all values are in their supports and -inf otherwise; it is never NaN or +inf, whatever the order in which numpy adds.", "quantifier": "all values including NaN and infinities, all ranges of ordinary size, all rounding rules, all orders of summation, all numbers of parameters", "why_tests_cant": "Overflow, underflow and NaN occur at values tests do not try, and the effect of rounding on a sum depends on all summands and their order.", "anchors": ["enterprise/signals/parameter.py:Parameter.get_logpdf", "enterprise/signals/parameter.py:UniformPrior", "enterprise/signals/parameter.py:NormalPrior", "enterprise/signals/parameter.py:TruncNormalPrior", "enterprise/signals/parameter.py:LinearExpPrior", "enterprise/signals/signal_base.py:PTA.get_lnprior"]}
{"id": "C138", "title": "Rounding does not change which TOAs belong together", "statement": "With times as binary64 numbers, (1) create_quantization_matrix gives the epochs of exact arithmetic, and two TOAs of an epoch are less than dt apart; (2) filter_data keeps every observation whose MJD is in the window; (3) cut_half puts each TOA into exactly one half, the first TOA into t1 and the last of two different TOAs into t2; (4) a TOA whose MJD is in a DMX bin of a wideband model is counted in that bin, and bins that follow each other neither overlap nor leave gaps.", "quantifier": "all representable TOAs, all rounding rules, all windows, bins and epoch lengths", "why_tests_cant": "Differences between exact and rounded comparisons occur only for times within one unit in the last place of a bound, which tests with round numbers do not meet.", "anchors": ["enterprise/signals/utils.py:create_quantization_matrix", "enterprise/pulsar.py:BasePulsar.filter_data", "enterprise/signals/selections.py:cut_half", "enterprise/signals/gp_signals.py:WidebandTimingModel"]}
{"id": "C139", "title": "Dropping TOAs is integrating over their residuals", "statement": "For an array of pulsars with white noise, ECORR, Fourier processes and common processes, dropping TOAs of some pulsars (for instance with filter_data) and keeping all parameters and time spans gives the likelihood of all TOAs integrated over the residuals that are dropped, up to (2 pi)^(1/2) for each; the two log-likelihoods differ by the log density with which the dropped residuals are predicted from the kept ones.", "quantifier": "all arrays, all choices of TOAs to drop, all parameters, all residuals", "why_tests_cant": "It relates integrals over all data of two data sets; tests compare likelihoods of one data set at some points, and the cases that differ need epochs that are cut or columns that are scaled by their norm.", "anchors": ["enterprise/pulsar.py:BasePulsar.filter_data", "enterprise/signals/signal_base.py:LogLikelihood", "enterprise/signals/white_signals.py:EcorrKernelNoise", "enterprise/signals/utils.py:create_quantization_matrix", "enterprise/signals/utils.py:normed_tm_basis"]}
{"id": "C140", "title": "Values drawn and percent points lie in the support in floating point", "statement": "Computed in binary64 arithmetic, every value drawn with sample() from a Uniform, LinearExp or TruncNormal parameter, and every percent point get_ppf for percentages from 0 to 1, lies in the support of the parameter, so that get_logpdf there is finite. Percent points do not decrease, begin at pmin and end at pmax.", "quantifier": "all representable bounds, all random numbers of numpy's generator, all percentages, with and without fused multiply-add", "why_tests_cant": "Only the largest random numbers and particular bounds show the effects of rounding; each is met about once in 2^53 draws or not at all with round bounds.", "anchors": ["enterprise/signals/parameter.py:UniformSampler", "enterprise/signals/parameter.py:UniformPPF", "enterprise/signals/parameter.py:LinearExpSampler", "enterprise/signals/parameter.py:LinearExpPPF", "enterprise/signals/parameter.py:TruncNormalSampler"]}
{"id": "C141", "title": "Variances of noise processes are accurate in floating point", "statement": "Computed in binary64 arithmetic, the variances of a power law at the harmonics of the time span, their sums with those of another process on the same basis, the inverses of both, the variances of EQUAD, ECORR and free spectra and the variance of every TOA are finite, positive and equal to the exact values up to a relative error of about a hundred units in the last place, growing by at most eight of 2^-50 with each mode.", "quantifier": "all rounding rules, all power functions accurate to a few units in the last place, up to 2^40 modes, all time spans from 1 to 2^50 s, log10 amplitudes from -30 to 30, slopes from 0 to 7, all representable white-noise parameters from -30 to 30", "why_tests_cant": "Tests compare the values for one set of parameters with the same expression in the same arithmetic; that no combination overflows, underflows or cancels needs error bounds for all of them.", "anchors": ["enterprise/signals/gp_priors.py:powerlaw", "enterprise/signals/gp_priors.py:free_spectrum", "enterprise/signals/white_signals.py:combined_ndiag", "enterprise/signals/utils.py:KernelMatrix.inv"]}
{"id": "C142", "title": "Fourier processes over one time span share accurate columns bit by bit", "statement": "Computed in binary64 arithmetic, the frequencies and the columns of the first modes of createfourierdesignmatrix_red do not depend on the number of modes, bit by bit, so that processes with different numbers of modes over the same time span share columns; this no longer holds if fmin is passed explicitly, even as 1/T. Each element is the sine or cosine of the exact phase up to the rounding errors of the phase.", "quantifier": "all rounding rules, all numbers of modes up to 2^40, all TOAs and time spans up to 2^50 s, all phase shifts, all sine and cosine functions with errors below 2^-51", "why_tests_cant": "Bitwise equality of columns for all numbers of modes and time spans and error bounds for all TOAs are statements about all floating-point numbers.", "anchors": ["enterprise/signals/gp_bases.py:createfourierdesignmatrix_red"]}
{"id": "C143", "title": "The white-noise likelihood is accurate in floating point on every machine", "statement": "Computed in binary64 arithmetic, get_lnlikelihood of an array of pulsars with EFAC and EQUAD only is finite and equals -1/2 sum (r^2/n + log n) with the exact variances n = efac^2 (sigma^2 + 10^(2 equad)), up to a relative error of about N + 2P + 24 units of 2^-51 of the terms, whatever the order and bracketing of the additions, with or without fused operations. Two machines therefore return nearly the same number.", "quantifier": "all rounding rules, all orders of additions in np.dot and np.sum, up to 2^22 TOAs per pulsar and 2^15 pulsars, all usual residuals, errors and white-noise parameters", "why_tests_cant": "The order of the additions depends on the machine and on the number of TOAs; a test sees one of them.", "anchors": ["enterprise/signals/signal_base.py:LogLikelihood.__call__", "enterprise/signals/signal_base.py:ndarray_alt.solve", "enterprise/signals/white_signals.py:combined_ndiag"]}
{"id": "C144", "title": "The white-noise likelihood with ECORR is accurate in floating point", "statement": "Computed in binary64 arithmetic, get_lnlikelihood of an array of pulsars with EFAC, EQUAD and EcorrKernelNoise by the Sherman-Morrison method is finite and equals the formula in exact arithmetic up to a relative error of about 18 N + 4 P + 210 units of 2^-51 of the terms, whatever the order and bracketing of the additions, although the method subtracts numbers of the same size: an epoch never takes away more than its TOAs have added. Two machines therefore return nearly the same number.", "quantifier": "all rounding rules, all orders of additions in np.dot, np.einsum and np.sum, up to 2^22 TOAs and epochs per pulsar and 2^15 pulsars, all usual residuals, errors and noise parameters, all partitions of TOAs into epochs", "why_tests_cant": "Cancellation depends on residuals and ECORR together, and the order of the additions on the machine; a test sees a few of them.", "anchors": ["enterprise/signals/signal_base.py:LogLikelihood.__call__", "enterprise/signals/signal_base.py:ShermanMorrison._solve_1D1", "enterprise/signals/signal_base.py:ShermanMorrison._get_logdet", "enterprise/signals/white_signals.py:EcorrKernelNoise"]}
{"id": "C145", "title": "Overlap reduction functions are accurate and symmetric in floating point", "statement": "For pulsars in different directions, whose computed positions are unit vectors up to rounding, hd_orf returns a finite number within 2^-41 of the Hellings-Downs curve and below the value 1 of a pulsar with itself, dipole_orf the scalar product within 2^-47 and below its value for a pulsar with itself, monopole_orf exactly 1, whatever the order of additions in np.dot and with or without fused operations; all three are symmetric to the last bit.", "quantifier": "all rounding rules, all orders of additions, all pairs of unit vectors and all computed positions within 2^-52 of them in each coordinate", "why_tests_cant": "The value near zero separation depends on cancellation in 1 - cos and on the logarithm of a rounding error; a test sees a few pairs far apart.", "anchors": ["enterprise/signals/utils.py:hd_orf", "enterprise/signals/utils.py:dipole_orf", "enterprise/signals/utils.py:monopole_orf"]}
{"id": "C146", "title": "Conditional processes and timing-model parameters are those of their own signal", "statement": "sample_processes, sample_coefficients, get_mean_processes and get_mean_coefficients of ConditionalGP return n dictionaries (the mean: one). In each, the entry of a signal is its own process, its basis times its own coefficients (or these coefficients), in one vector for all pulsars: the conditional mean plus a draw; different draws and pulsars use different normal deviates. The processes of a pulsar's signals add up to its basis times its coefficients, and the mean process is the conditional expectation of the process given the residuals (of all pulsars with common signals). For each name in tm_params there is an entry named after the pulsar and the parameter with the coefficient (or process) of that parameter; without psr, or for parameters that are not fitted, ValueError is raised.", "quantifier": "all arrays of pulsars with any signals, bases, priors, noise and common signals, all methods, all numbers of draws, all streams of deviates, all lists of parameters", "why_tests_cant": "Tests check the shapes and the names of a few entries; a coefficient taken from another column or pulsar has the right shape.", "anchors": ["enterprise/signals/utils.py:ConditionalGP._sample_conditional", "enterprise/signals/utils.py:ConditionalGP.get_mean_processes", "enterprise/signals/utils.py:ConditionalGP.sample_processes"]}
{"id": "C147", "title": "Timing-model columns are normalised accurately in floating point", "statement": "Computed in binary64 arithmetic, normed_tm_basis divides every column by its length: each entry has a relative error of at most (2 N + 7) units of 2^-51 for N TOAs, the result has length 1 up to rounding, a column of zeros stays zero, and no entry is NaN, infinite or larger than 2, whatever the order in which the squares are added.", "quantifier": "every column of finite numbers, every rounding rule and every order of additions", "why_tests_cant": "Tests normalise one design matrix on one machine; the order of additions and the rounding differ between machines, and overflow and underflow occur for extreme units only.", "anchors": ["enterprise/signals/utils.py:normed_tm_basis"]}
{"id": "C148", "title": "The proper prior of the timing model keeps the likelihood finite in floating point", "statement": "TimingModel gives each column a prior of variance 1e40. In exact arithmetic Sigma = TNT + 1/phi is then positive definite for every design matrix, and the likelihood is finite; the computed likelihood is finite, too.", "quantifier": "every design matrix, also with dependent columns", "why_tests_cant": "Tests use full-rank design matrices, for which the prior does not matter.", "anchors": ["enterprise/signals/utils.py:tm_prior", "enterprise/signals/signal_base.py:LogLikelihood.__call__"]}
{"id": "C149", "title": "The Cholesky factorization of Sigma succeeds in floating point whenever Sigma is not nearly singular, and its log-determinant is accurate", "statement": "If the matrix Sigma of n coefficients, scaled to a unit diagonal, has smallest eigenvalue at least μ >= 256 n^2 2^-51, then cho_factor in binary64 arithmetic does not fail, whatever the rounding rule, the order of the operations and the use of blocks, of fused multiply-add or of reciprocals; each entry of L L^T differs from Sigma_ij by at most 42 n 2^-51 sqrt(Sigma_ii Sigma_jj); and 2 sum log L_ii differs from log det Sigma by at most (84 n^3/μ + 800 n (n + 2)) 2^-51. The condition holds if TNT is positive semi-definite and each prior contributes at least the fraction μ to its diagonal entry.", "quantifier": "every size n up to 2^30, every symmetric matrix with diagonal between 2^-400 and 2^400, every rounding rule, every order of operations", "why_tests_cant": "Tests factorize a few matrices with one LAPACK; they cannot cover every matrix, order and rounding, nor show where failure begins.", "anchors": ["enterprise/signals/signal_base.py:LogLikelihood.__call__", "enterprise/signals/signal_base.py:LogLikelihood._block_TNT"]}
{"id": "C150", "title": "The likelihood with Gaussian processes is computed accurately in floating point", "statement": "Under the condition of C149 the quadratic form TNr . Sigma^-1 TNr, computed by cho_solve and a dot product in binary64 arithmetic, has a relative error of at most 1300 n^2 2^-51/μ (plus 2^-600), and the log-likelihood summed over the pulsars is a finite number within (1310 N^2/μ + 3 + P) 2^-51 times the sum of the sizes of its terms of the exact one, for P pulsars with at most N coefficients; it is neither -inf nor an exception.", "quantifier": "every list of up to 2^20 pulsars, every matrix Sigma and vector TNr of moderate size, every rounding rule, every order of operations", "why_tests_cant": "Tests compare likelihoods of one data set with a tolerance; rounding errors depend on the machine, the matrix and its condition.", "anchors": ["enterprise/signals/signal_base.py:LogLikelihood.__call__"]}
{"id": "C151", "title": "The likelihood with Gaussian processes is accurate in floating point, from the data on", "statement": "Let TNT and TNr be computed in binary64 arithmetic from the columns of the basis, the variances and the residuals, and Sigma by adding the inverse variances of the coefficients. If the exact matrix Sigma, scaled to a unit diagonal, has smallest eigenvalue at least μ, with μ >= 100 (K + 3) N 2^-51 and μ >= 2^18 N^2 2^-51, then the log-likelihood is a finite number within ((2620 N^2 + 3 (K + 3) N)/μ + 3 + P) 2^-51 times the sum of the sizes of its terms of the exact value of these data, for P pulsars with at most N coefficients and K TOAs, whatever the order of the operations in the products, the sums and the factorization.", "quantifier": "every basis, variances, residuals and inverse priors of moderate size, every number of pulsars up to 2^20, every rounding rule, every order of operations", "why_tests_cant": "Tests compare the likelihood of one data set with a dense computation at a tolerance; they cannot bound the rounding of every data set on every machine.", "anchors": ["enterprise/signals/signal_base.py:LogLikelihood.__call__", "enterprise/signals/signal_base.py:SignalCollection.get_TNT", "enterprise/signals/signal_base.py:SignalCollection.get_TNr"]}
{"id": "C152", "title": "The computed likelihood is the Gaussian log-likelihood of the covariance, up to a stated rounding error", "statement": "For a PTA without common signals, LogLikelihood.__call__ computed in binary64 arithmetic from the basis T, the residuals r, the variances ν of the TOAs and φ of the coefficients returns a finite number that differs from the sum over the pulsars of -1/2 (r^T C^-1 r + log det C), with C = diag ν + T diag φ T^T, by at most ((10500 N^2 + 13 (K + 3) N)/μ + 3 P) 2^-51 times the sum of the sizes of the terms (plus 2^-999), for P pulsars with at most N coefficients and K TOAs, where μ is the smallest eigenvalue of T^T N^-1 T + φ^-1 scaled to a unit diagonal; two machines agree within twice this bound. Pulsars without processes are included.", "quantifier": "every list of up to 2^15 pulsars with data of moderate size, every rounding rule, every order of operations, every μ above 2^19 N^2 2^-51 and 200 (K + 3) N 2^-51", "why_tests_cant": "Tests compare one likelihood with a dense computation at a tolerance chosen by hand; the rounding error depends on the data, the library and the condition of the matrix.", "anchors": ["enterprise/signals/signal_base.py:LogLikelihood.__call__", "enterprise/signals/utils.py:KernelMatrix.inv", "enterprise/signals/signal_base.py:SignalCollection.get_rNr_logdet"]}
{"id": "C153", "title": "From the noise parameters on, the computed likelihood is accurate", "statement": "For a PTA without common signals whose pulsars have MeasurementNoise with EFAC and EQUAD, a FourierBasisGP with a power law and a TimingModel, the likelihood computed in binary64 arithmetic from errors of the TOAs, efac, log10_t2equad, log10_A, gamma, time span, bases and residuals is a finite number, and differs from the sum over the pulsars of -1/2 (r^T C^-1 r + log det C), with the covariance C of the exact variances efac^2 (s^2 + 10^(2 log10_t2equad)), A^2/(12 π^2) f_yr^(γ-3) f^-γ/T and 10^40, by at most ((21400 N^2 + 27 (K + 3) N)/μ + 4 P) 2^-51 times the sum of the sizes of the terms (plus 2^-999). More generally relative errors δ of variances of TOAs and coefficients change the computed likelihood by no more than δ times the sum of the sizes, besides the rounding error.", "quantifier": "every list of up to 2^15 pulsars with data of moderate size and parameters within the usual priors, every rounding rule, every order of operations, every power function and logarithm accurate to a few units in the last place, every μ above 2^20 N^2 2^-51 and 400 (K + 3) N 2^-51", "why_tests_cant": "Tests use a few parameter values and one library; how errors of the variances pass through powers, Cholesky factors and sums is a question about all parameters and data.", "anchors": ["enterprise/signals/signal_base.py:LogLikelihood.__call__", "enterprise/signals/signal_base.py:SignalCollection.get_phi", "enterprise/signals/signal_base.py:SignalCollection.get_ndiag", "enterprise/signals/gp_priors.py:powerlaw", "enterprise/signals/white_signals.py:combined_ndiag"]}
{"id": "C154", "title": "From the times of arrival on, the computed likelihood is accurate", "statement": "For a PTA without common signals whose pulsars have MeasurementNoise with EFAC and EQUAD, a FourierBasisGP with a power law and a TimingModel with normed columns, the likelihood computed in binary64 arithmetic from times of arrival, design matrix, errors, residuals and noise parameters is a finite number, and differs from the sum over the pulsars of -1/2 (r^T C^-1 r + log det C), with the covariance C of exact sines and cosines, exactly normalised columns and exact variances, by at most ((42600 N^2 + 87 (K + 3) N + 9 H l N)/μ + 4 P) 2^-51 times the sum of the sizes of the terms (plus 2^-999), where H bounds 14 times the largest phase plus one and l the weight of the TOAs beside that of a Fourier column. More generally errors of the columns of weighted relative size κ change the likelihood by at most 9 κ N/μ times the sizes.", "quantifier": "every list of up to 2^15 pulsars with data of moderate size and parameters within the usual priors, every rounding rule, every order of operations, every library of powers, sines and logarithms accurate to a few units in the last place, every μ above 2^21 N^2 2^-51, 800 (K + 3) N 2^-51 and 300 (H l + 3 K + 11) N 2^-51", "why_tests_cant": "TOAs are seconds since an epoch decades ago, so phases lose digits; whether this matters for the likelihood is a question about all TOAs and noise models that comparisons on one data set cannot answer.", "anchors": ["enterprise/signals/signal_base.py:LogLikelihood.__call__", "enterprise/signals/signal_base.py:SignalCollection.get_basis", "enterprise/signals/gp_bases.py:createfourierdesignmatrix_red", "enterprise/signals/utils.py:normed_tm_basis", "enterprise/signals/gp_priors.py:powerlaw"]}
{"id": "C155", "title": "With chromatic processes, too, the computed likelihood is accurate from the times of arrival and radio frequencies on", "statement": "For a PTA without common signals whose pulsars have MeasurementNoise with EFAC and EQUAD, any number of Gaussian processes with power laws on Fourier bases, each achromatic, with the frequency dependence (fref/freqs)^2 of dispersion or with (1400/freqs)^idx, and a TimingModel with normed columns, no two of them sharing columns, the likelihood computed in binary64 arithmetic from times of arrival, radio frequencies, design matrix, errors, residuals and noise parameters is a finite number, and differs from the sum over the pulsars of -1/2 (r^T C^-1 r + log det C), with the covariance C of exact columns and variances, by at most ((42600 N^2 + 87 (K + 3) N + 9 H l N)/μ + 4 P) 2^-51 times the sum of the sizes of the terms (plus 2^-999), where H bounds 14 times the largest phase plus 61 and l the weight of the chromatic factors beside that of a column.", "quantifier": "every list of up to 2^15 pulsars with data of moderate size, every list of processes with parameters within the usual priors and chromatic indices up to 10 in absolute value, every rounding rule, every order of operations, every library of powers, sines and logarithms accurate to a few units in the last place, every μ above 2^21 N^2 2^-51, 800 (K + 3) N 2^-51 and 300 (H l + 3 K + 11) N 2^-51", "why_tests_cant": "The factors of low radio frequencies multiply the errors of sines and cosines; whether the likelihood bears this is a question about all frequencies, indices and numbers of processes that comparisons on one data set cannot answer.", "anchors": ["enterprise/signals/signal_base.py:LogLikelihood.__call__", "enterprise/signals/signal_base.py:SignalCollection.get_basis", "enterprise/signals/signal_base.py:SignalCollection.get_phi", "enterprise/signals/gp_bases.py:createfourierdesignmatrix_dm", "enterprise/signals/gp_bases.py:createfourierdesignmatrix_chromatic", "enterprise/signals/gp_priors.py:powerlaw"]}
{"id": "C156", "title": "Combining equal columns of several processes leaves the computed likelihood accurate for all of them", "statement": "For pulsars as in C155 whose processes share columns, so that get_basis holds each shared column once and get_phi the sum of the variances, the computed likelihood is a finite number, and differs from the sum over the pulsars of -1/2 (r^T C^-1 r + log det C), with the covariance C of all processes, each with columns and variances of its own, by at most ((42600 N^2 + 87 (K + 3) N + 9 H l N)/μ + 4 P) 2^-51 times the sum of the sizes of the terms for the combined columns (plus 2^-999).", "quantifier": "every list of up to 2^15 pulsars with data of moderate size, every assignment of columns to combined columns that joins only equal columns and at most 20 to one, every rounding rule, every order of operations in the likelihood, every library of powers, sines and logarithms accurate to a few units in the last place, every N from the number of combined columns and of a process's columns on, every μ above 2^21 N^2 2^-51, 800 (K + 3) N 2^-51 and 300 (H l + 3 K + 11) N 2^-51", "why_tests_cant": "Whether the sum of rounded variances on a single copy of a column stands for the sum of the processes is a question about all data and parameters; tests compare a few combined models with uncombined ones up to a tolerance.", "anchors": ["enterprise/signals/signal_base.py:LogLikelihood.__call__", "enterprise/signals/signal_base.py:SignalCollection.get_basis", "enterprise/signals/signal_base.py:SignalCollection.get_phi", "enterprise/signals/signal_base.py:SignalCollection._combine_basis_columns", "enterprise/signals/utils.py:KernelMatrix.add", "enterprise/signals/gp_priors.py:powerlaw"]}
{"id": "C157", "title": "A pulsar has the distance that the catalogue lists for it", "statement": "The attribute pdist of a loaded pulsar is the distance and uncertainty that pulsar_distances.json lists under its name; for a name without a letter, under the name with J, or else with B; for a pulsar that is not listed it is (1.0, 0.2), with a warning. With the catalogue of the code the warning appears for the unlisted pulsars and for no others, distances are positive and larger than their uncertainties, and a pulsar gets the same distance under its J and its B name.", "quantifier": "every name, every catalogue with distinct names (warning and positivity: the catalogue of the code)", "why_tests_cant": "Tests look up a few names; whether the warning, decided by comparing the result with the default, tells exactly the unlisted pulsars is a question about all names and all entries.", "anchors": ["enterprise/pulsar.py:BasePulsar._get_pdist", "enterprise/pulsar.py:BasePulsar.pdist", "enterprise/datafiles/pulsar_distances.json"]}
{"id": "C158", "title": "The computed likelihood with ECORR as a Gaussian process is accurate", "statement": "For pulsars with the white noise, processes and timing model of C155 and EcorrBasisModel, the computed likelihood is a finite number, and differs from the sum over the pulsars of -1/2 (r^T C^-1 r + log det C) by at most ((42600 N^2 + 87 (K + 3) N + 9 H l N)/μ + 4 P) 2^-51 times the sum of the sizes of the terms (plus 2^-999). C is the covariance without ECORR and, for each two TOAs of one epoch, 10^(2 log10_ecorr) of that epoch.", "quantifier": "every list of up to 2^15 pulsars with data of moderate size, every assignment of TOAs to epochs, every log10_ecorr up to 30 in modulus for each epoch, every rounding rule, every order of operations in the likelihood, every library of powers, sines and logarithms accurate to a few units in the last place, every N from the number of columns on, every μ above 2^21 N^2 2^-51, 800 (K + 3) N 2^-51 and 300 (H l + 3 K + 11) N 2^-51", "why_tests_cant": "Tests compare the likelihood with a dense computation for one set of parameters, up to a tolerance; whether the columns of epochs, with variances many orders below those of the timing model, leave the factorisation accurate is a question about all data and parameters.", "anchors": ["enterprise/signals/signal_base.py:LogLikelihood.__call__", "enterprise/signals/gp_signals.py:EcorrBasisModel", "enterprise/signals/gp_signals.py:ecorr_basis_prior", "enterprise/signals/utils.py:create_quantization_matrix", "enterprise/signals/gp_signals.py:TimingModel", "enterprise/signals/gp_signals.py:FourierBasisGP"]}
{"id": "C159", "title": "Each contribution of the ephemeris signal can be switched on and off by itself", "statement": "The delay of PhysicalEphemerisSignal is the sum of the contributions that are switched on, at the values of their parameters; a contribution that is False adds nothing, whatever the parameters are. The parameters of the signal are those named like the options that are True, and the given ones. A parameter without a value raises an error. The default priors have the variances of the Gaussian-process version createfourierdesignmatrix_physicalephem.", "quantifier": "every choice of options (True, False, Parameter or value), all parameter values, every TOA, planet positions, pulsar position and orbit files", "why_tests_cant": "There are 2^7 choices of contributions, for all geometries and parameter values; tests run a few of them.", "anchors": ["enterprise/signals/deterministic_signals.py:PhysicalEphemerisSignal", "enterprise/signals/utils.py:physical_ephem_delay", "enterprise/signals/utils.py:createfourierdesignmatrix_physicalephem", "enterprise/signals/parameter.py:Function"]}
{"id": "C160", "title": "PTA and SignalCollection work like dictionaries", "statement": "A PTA is a mapping from pulsar names to its models, and a SignalCollection one from signal ids to its signals: keys(), values() and items() agree and are in order, obj[k] is the value of the item with key k and a KeyError for any other k, dict(obj) has the items, name in obj tells whether name is a key, and iteration gives the keys.", "quantifier": "every list of members with any names", "why_tests_cant": "The methods, and Python's rules for objects that have only some of them, have to agree for all lists and names, also repeated ones.", "anchors": ["enterprise/signals/signal_base.py:PTA.__getitem__", "enterprise/signals/signal_base.py:PTA.keys", "enterprise/signals/signal_base.py:PTA.items", "enterprise/signals/signal_base.py:SignalCollection.__getitem__", "enterprise/signals/signal_base.py:SignalCollection.items"]}
{"id": "C161", "title": "The computed likelihood of the standard noise model is accurate", "statement": "For pulsars with EFAC and EQUAD, any number of achromatic and chromatic power-law processes that may share columns, a timing model and EcorrBasisModel all at once, the computed likelihood is a finite number, and differs from the sum over the pulsars of -1/2 (r^T C^-1 r + log det C), with the covariance C of all signals, each with columns and variances of its own, by at most ((42600 N^2 + 87 (K + 3) N + 9 H l N)/μ + 4 P) 2^-51 times the sum of the sizes of the terms for the combined columns (plus 2^-999).", "quantifier": "every list of up to 2^15 pulsars with data of moderate size, every assignment of TOAs to epochs, every log10_ecorr up to 30 in modulus for each epoch, every assignment of columns to combined columns that joins only equal columns and at most 20 to one, every rounding rule, every order of operations in the likelihood, every library of powers, sines and logarithms accurate to a few units in the last place, every N from the number of combined columns and of a process's columns on, every μ above 2^21 N^2 2^-51, 800 (K + 3) N 2^-51 and 300 (H l + 3 K + 11) N 2^-51", "why_tests_cant": "The tests that compare with a dense computation take signals one or two at a time, for one set of parameters; that the whole model with all signals stays accurate for all data is a statement about every combination.", "anchors": ["enterprise/signals/signal_base.py:LogLikelihood.__call__", "enterprise/signals/signal_base.py:SignalCollection.get_basis", "enterprise/signals/signal_base.py:SignalCollection.get_phi", "enterprise/signals/gp_signals.py:EcorrBasisModel", "enterprise/signals/gp_signals.py:TimingModel", "enterprise/signals/gp_signals.py:FourierBasisGP"]}
{"id": "C162", "title": "Bounds in the wrong order are refused", "statement": "A Uniform, LinearExp or TruncNormal parameter with pmin >= pmax raises an error when its density is asked for or a value is drawn; no log prior is NaN or +inf and no draw runs for ever because of such bounds.", "quantifier": "all bounds with pmin >= pmax, all values (also infinite ones and NaN), all random numbers, every rounding rule", "why_tests_cant": "The tests check the error of LinearExp for one pair of bounds; what the other densities, samplers and percent points do without a check depends on all values and on every sequence of random numbers.", "anchors": ["enterprise/signals/parameter.py:UniformPrior", "enterprise/signals/parameter.py:UniformSampler", "enterprise/signals/parameter.py:UniformPPF", "enterprise/signals/parameter.py:LinearExpPrior", "enterprise/signals/parameter.py:TruncNormalPrior", "enterprise/signals/parameter.py:TruncNormalSampler"]}
