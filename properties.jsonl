{"id": "C01", "title": "Occupation enumeration is exact", "statement": "For length >= 1 and total >= 0, config_space_gen(length, total) yields every tuple of `length` non-negative integers summing to `total`, yields nothing else, and yields each tuple exactly once.", "quantifier": "every length >= 1 and every total >= 0", "why_tests_cant": "the test checks three small (length,total) pairs; the claim ranges over an infinite family", "anchors": ["ggce/engine/system.py:config_space_gen"]}
{"id": "C02", "title": "config_legal decides exactly the documented legality", "statement": "For a one-spatial-dimension array, config_legal returns True exactly when all entries are non-negative, both edge sites carry at least one phonon, every entry obeys the per-site cap, every phonon type's occupied span is at most its extent and every type's total is at most its number limit (each limit only if given); with allow_green a cloud whose entries sum to zero is accepted.", "quantifier": "every array shape, every content, every combination of optional limits", "why_tests_cant": "tests exercise a handful of arrays; none covers the joint limits", "anchors": ["ggce/engine/terms.py:config_legal", "ggce/engine/terms.py:_config_edges_legal", "ggce/engine/terms.py:_extent_of_1d"]}
{"id": "C03", "title": "Adding a phonon changes exactly one site of the infinite chain", "statement": "Config.add_phonon_(type, x) with any integer x: read as occupations of an infinite chain whose origin moved left by the returned shift, the new configuration equals the old one plus one phonon of that type at site x and nothing else changes. A phonon type that does not exist terminates the program.", "quantifier": "every configuration, every phonon type, every integer site (inside, left or right of the cloud)", "why_tests_cant": "tests pin two examples of padding", "anchors": ["ggce/engine/terms.py:Config.add_phonon_"]}
{"id": "C04", "title": "Removing a phonon changes exactly one site of the infinite chain", "statement": "Config.remove_phonon_(type, x) at an occupied site: read as occupations of an infinite chain whose origin moved right by the returned shift, the new configuration equals the old one minus one phonon of that type at x; no other phonon is lost by trimming.", "quantifier": "every legal configuration and every occupied site", "why_tests_cant": "tests pin four examples of trimming", "anchors": ["ggce/engine/terms.py:Config.remove_phonon_", "ggce/engine/terms.py:Config._apply_phonon_reduction_rules_"]}
{"id": "C05", "title": "Every add/remove history stays canonical", "statement": "Starting from a legal cloud, after any successful sequence of add_phonon_/remove_phonon_ calls, the configuration is again legal (both edges occupied, no negative entries) as long as it has not become the vacuum; on reaching the vacuum it has exactly one site. (Adding outside a vacuum configuration is the exception: it leaves an unoccupied edge.)", "quantifier": "every starting cloud and every operation history of any length", "why_tests_cant": "histories are unbounded", "anchors": ["ggce/engine/terms.py:Config.add_phonon_", "ggce/engine/terms.py:Config.remove_phonon_", "ggce/engine/terms.py:Config.validate"]}
{"id": "C06", "title": "Add then remove is the identity", "statement": "For a legal cloud, add_phonon_ at x followed by remove_phonon_ at the same chain site restores the original configuration exactly and the two returned shifts are equal (so the net origin shift is zero).", "quantifier": "every legal cloud, type and integer site", "why_tests_cant": "round trip over an infinite domain", "anchors": ["ggce/engine/terms.py:Config.add_phonon_", "ggce/engine/terms.py:Config.remove_phonon_"]}
{"id": "C07", "title": "The modification budget is enforced", "statement": "A Config accepts at most max_modifications successful modifications over its lifetime; the next one terminates the program, whatever the mix of additions and removals.", "quantifier": "every budget and every operation history", "why_tests_cant": "unbounded histories; tests use budget 1 and one history", "anchors": ["ggce/engine/terms.py:Config.add_phonon_", "ggce/engine/terms.py:Config.remove_phonon_"]}
{"id": "C08", "title": "Bad removals abort", "statement": "remove_phonon_ aborts when the addressed site holds no phonon of that type or lies outside the array; the documentation says every index outside the cloud aborts.", "quantifier": "every configuration and every integer index (including negative ones)", "why_tests_cant": "the failing inputs (negative indices) are exactly those no test tries", "anchors": ["ggce/engine/terms.py:Config.remove_phonon_"]}
{"id": "C09", "title": "Identifiers identify", "statement": "Two terms have the same identifier string exactly when they have the same delta argument and either both clouds are the vacuum or the clouds have the same shape and the same occupations.", "quantifier": "every pair of configurations of any shape and any pair of delta arguments", "why_tests_cant": "string collisions over an infinite set of clouds cannot be sampled away", "anchors": ["ggce/engine/terms.py:Config.id", "ggce/engine/terms.py:Config.__str__", "ggce/engine/terms.py:Term.id"]}
{"id": "C10", "title": "The set of auxiliary functions is exactly the truncated cloud space", "statement": "generate_all_legal_configurations lists, under key n, every cloud of n phonons satisfying the model's limits (length at most the absolute extent, per-type extent, per-type number, per-site cap) exactly once and nothing else.", "quantifier": "every one-dimensional model", "why_tests_cant": "combinatorially many clouds for every choice of limits", "anchors": ["ggce/engine/system.py:generate_all_legal_configurations"]}
{"id": "C11", "title": "The analytic equation count is right", "statement": "For a single phonon type without per-site cap and with the default absolute extent, the number of generated clouds equals total_generalized_equations(M, N, 1).", "quantifier": "every extent M >= 1 and number N >= 1", "why_tests_cant": "the code only logs a mismatch for the one model being run", "anchors": ["ggce/utils/combinatorics.py:total_generalized_equations", "ggce/utils/combinatorics.py:generalized_equations_combinatorics_term", "ggce/engine/system.py:System._predict_total_terms"]}
{"id": "C12", "title": "Each equation's right-hand side is exactly H_int applied to the cloud", "statement": "For a cloud in the truncated space, the right-hand side contains, for every Hamiltonian term, one term for each chain site where that term can remove (resp. add) a phonon with the result still inside the truncation, and no other term.", "quantifier": "every model, every cloud in its space, every Hamiltonian term, every integer site", "why_tests_cant": "needs completeness over all sites, not examples", "anchors": ["ggce/engine/equations.py:Equation._initialize_terms"]}
{"id": "C13", "title": "Equations couple n only to n-1 and n+1 phonons", "statement": "Every right-hand-side term of an equation for a cloud with n phonons has n-1 (annihilation) or n+1 (creation) phonons; the Green's function equation has one-phonon terms only.", "quantifier": "every model, cloud and term", "why_tests_cant": "the dense solver silently drops any term violating this", "anchors": ["ggce/engine/equations.py:Equation._initialize_terms", "ggce/engine/equations.py:GreenEquation._initialize_terms", "ggce/executors/solvers.py:DenseSolver._fill_matrix"]}
{"id": "C14", "title": "Term arguments implement equation 22", "statement": "Acting at site gamma, a term carries constant prefactor g times the removed site's occupation (g for creation), g-argument delta+gamma-phi+psi, cloud argument phi-gamma plus the origin motion, phase exponent minus the origin motion, and a frequency shift equal to the energy of the phonons in the equation's own cloud; cloud argument plus phase exponent is always phi-gamma.", "quantifier": "every Hamiltonian term, cloud, site and delta", "why_tests_cant": "the bookkeeping is shared across all clouds; tests compare spectra of a few models only", "anchors": ["ggce/engine/terms.py:NonIndexTerm.step_", "ggce/engine/terms.py:AnnihilationTerm._modify_n_phonons_", "ggce/engine/terms.py:CreationTerm._modify_n_phonons_", "ggce/engine/terms.py:EOMTerm.__init__"]}
{"id": "C15", "title": "Only one Green's function unknown", "statement": "Every right-hand-side term whose cloud is the vacuum has cloud argument 0 (its displacement moved to the phase), so the system has exactly one zero-phonon equation.", "quantifier": "every model and every equation", "why_tests_cant": "one leaked G(delta) breaks the closure for some models only", "anchors": ["ggce/engine/terms.py:Term.check_if_green_and_simplify_", "ggce/engine/system.py:System._initialize_equations"]}
{"id": "C16", "title": "The hierarchy closes", "statement": "For every well-formed one-dimensional model, building a System succeeds: every unknown on a right-hand side has its own equation and every equation's unknown occurs on some right-hand side, so the final closure check never aborts.", "quantifier": "every well-formed model (any number of phonon types, extents, numbers, caps, couplings), every set iteration order", "why_tests_cant": "the closure check only runs on the model at hand", "anchors": ["ggce/engine/system.py:System._prime_system", "ggce/engine/system.py:System._final_checks", "ggce/engine/system.py:System._initialize_equations"]}
{"id": "C17", "title": "One equation per unknown", "statement": "In a built System no unknown has two equations, the number of equations equals the predicted total, and get_basis is a bijection from unknowns onto 0..N-1 (and, per phonon number, onto 0..N_n-1).", "quantifier": "every well-formed model and every set iteration order", "why_tests_cant": "uniqueness over all models", "anchors": ["ggce/engine/system.py:System.get_basis", "ggce/engine/system.py:System._get_total_terms", "ggce/engine/system.py:System._initialize_equations"]}
{"id": "C18", "title": "The Green's function is the last basis element", "statement": "In the full basis the Green's function unknown has index N-1, which the PETSc solvers rely on when placing the source term and reading the result.", "quantifier": "every well-formed model", "why_tests_cant": "an ordering invariant across all models", "anchors": ["ggce/engine/system.py:System.get_basis", "ggce/executors/petsc4py/base.py:MassSolver._scaffold", "ggce/executors/petsc4py/solvers.py:MassSolverMUMPS.solve"]}
{"id": "C19", "title": "The sparse matrix is exactly the equation system", "statement": "The row/column/value triples contain each (row, column) at most once, and the represented matrix has as entry (i,j) the sum of the coefficients of all terms of equation i with unknown j plus 1 on the diagonal; the right-hand side is the free propagator at the Green's function row.", "quantifier": "every built system and every (k, w, eta)", "why_tests_cant": "the whole matrix for every model and point", "anchors": ["ggce/executors/solvers.py:SparseSolver._sparse_matrix_from_equations", "ggce/executors/solvers.py:SparseSolver._scaffold"]}
{"id": "C20", "title": "The dense blocks cover the same coefficients", "statement": "For each n the alpha and beta blocks together contain exactly the coefficients of the equations with n phonons; nothing is dropped by the phonon-number filter and no lookup fails.", "quantifier": "every built system, every n and (k, w, eta)", "why_tests_cant": "a dropped term would silently change G", "anchors": ["ggce/executors/solvers.py:DenseSolver._fill_matrix", "ggce/executors/solvers.py:DenseSolver._get_alpha", "ggce/executors/solvers.py:DenseSolver._get_beta"]}
{"id": "C21", "title": "Sparse and dense solvers agree", "statement": "In exact arithmetic, whenever the dense continued fraction is defined, the sparse linear system has a Green's function component equal to the dense solver's G, for every solution of the sparse system (even though the two solvers use opposite signs for the couplings).", "quantifier": "every built system and every (k, w, eta)", "why_tests_cant": "tests compare a few spectra at finite tolerance", "anchors": ["ggce/executors/solvers.py:SparseSolver.solve", "ggce/executors/solvers.py:DenseSolver.solve"]}
{"id": "C22", "title": "The linear system is never singular", "statement": "For positive hopping, unit lattice constant, real k and w and eta > 0, the sparse system matrix of every built system is nonsingular in exact arithmetic, so solve always has exactly one answer.", "quantifier": "every model with built-in couplings, every real k and w, every eta > 0", "why_tests_cant": "uncountably many points and all models", "anchors": ["ggce/executors/solvers.py:SparseSolver.solve"]}
{"id": "C23", "title": "The spectral function is never negative", "statement": "Under the same conditions -Im G(k,w)/pi >= 0 for the G returned in exact arithmetic, so the 'A(k,w) < 0' error can only be caused by rounding.", "quantifier": "every model with built-in couplings, every real k and w, every eta > 0. Domain of the statements about Green's functions: one dimension, hopping > 0 with lattice constant 1 or hopping 0, distinct phonon frequencies, BondPeierls not combined with other couplings", "why_tests_cant": "sign for all parameters", "anchors": ["ggce/executors/solvers.py:BasicSolver._post_solve", "ggce/executors/solvers.py:SparseSolver.solve"]}
{"id": "C24", "title": "The lattice propagator is consistent", "statement": "For eta > 0, positive hopping and unit lattice constant, g0_delta_omega solves the tight-binding equation of motion with a unit source at delta = 0, decays geometrically, and its lattice Fourier transform is G0_k_omega. The documentation allows any lattice constant and hopping.", "quantifier": "all delta, real k and w, eta > 0, t > 0", "why_tests_cant": "tests compare the code with a copy of itself", "anchors": ["ggce/utils/physics.py:g0_delta_omega", "ggce/utils/physics.py:G0_k_omega"]}
{"id": "C25", "title": "Free spectral weight is positive", "statement": "Im G0_k_omega < 0 for every eta > 0, and G0_k_omega is the reciprocal of w + i eta + 2 t cos(k a), never dividing by zero.", "quantifier": "all real k, w, a, t and eta > 0", "why_tests_cant": "all parameters", "anchors": ["ggce/utils/physics.py:G0_k_omega"]}
{"id": "C26", "title": "Parallel results equal serial results", "statement": "greens_function(k, w, eta) returns at [i, j] the solution at (k_i, w_j), identically for every number of MPI ranks (rank 0), including more ranks than points.", "quantifier": "every grid and every world size", "why_tests_cant": "tests run one or two world sizes", "anchors": ["ggce/executors/solvers.py:BasicSolver.greens_function", "ggce/executors/solvers.py:Solver.get_jobs_on_this_rank", "ggce/utils/utils.py:chunk_jobs"]}
{"id": "C27", "title": "Jobs are partitioned fairly", "statement": "chunk_jobs over all ranks partitions the job list in order, with chunk sizes differing by at most one.", "quantifier": "every job list and world size >= 1", "why_tests_cant": "all sizes", "anchors": ["ggce/utils/utils.py:chunk_jobs"]}
{"id": "C28", "title": "Brigade results equal serial results", "statement": "MassSolver.greens_function returns, for every world size divisible by the brigade size, the solver value at every requested grid point in order; the documentation says the result has shape nk by nw.", "quantifier": "every grid, world size and brigade size", "why_tests_cant": "all combinations of sizes", "anchors": ["ggce/executors/petsc4py/base.py:MassSolver.greens_function", "ggce/executors/petsc4py/base.py:MassSolver.get_jobs_on_this_brigade"]}
{"id": "C29", "title": "Grid padding is minimal and conservative", "statement": "padded_kw keeps the requested points as a prefix, continues the last spacing, makes the number of jobs divisible by the number of brigades and adds as few points as possible; it never fails.", "quantifier": "every grid and every number of brigades", "why_tests_cant": "all sizes; failing corner cases are single-point grids and > 1000 brigades", "anchors": ["ggce/utils/utils.py:padded_kw"]}
{"id": "C30", "title": "Distributed assembly equals serial assembly", "statement": "For every brigade size, the ranks' ownership ranges make each matrix entry be set by exactly one rank, the preallocation counts are exact, and the value read back as G is the last component of the solution.", "quantifier": "every matrix and every brigade size", "why_tests_cant": "all sizes", "anchors": ["ggce/executors/petsc4py/base.py:MassSolver._scaffold", "ggce/executors/petsc4py/solvers.py:MassSolverMUMPS.solve"]}
{"id": "C31", "title": "The result cache is transparent", "statement": "For any history of solve calls on one system, each call returns the value the uncached solver gives for the same (k, w, eta).", "quantifier": "every call history", "why_tests_cant": "needs all histories; collisions only for points closer than 1e-10", "anchors": ["ggce/executors/solvers.py:BasicSolver._pre_solve", "ggce/executors/solvers.py:BasicSolver._post_solve", "ggce/executors/solvers.py:Solver._k_omega_eta_to_str"]}
{"id": "C32", "title": "Negative spectral results are not checkpointed", "statement": "The documentation of solve says a result with negative spectral function is not checkpointed.", "quantifier": "every result value", "why_tests_cant": "requires a negative result to appear", "anchors": ["ggce/executors/solvers.py:SparseSolver.solve", "ggce/executors/solvers.py:BasicSolver._post_solve"]}
{"id": "C33", "title": "Checkpoints are never overwritten", "statement": "Once a file of the system checkpoint exists, no later System construction or checkpoint call with the same root changes it.", "quantifier": "every history of constructions and checkpoints with arbitrary models", "why_tests_cant": "unbounded histories over several models", "anchors": ["ggce/engine/system.py:System.checkpoint", "ggce/engine/system.py:System._save_model"]}
{"id": "C34", "title": "Checkpoint round trip", "statement": "System.from_checkpoint(root) after System(model, root=root) on a fresh root yields a system with the same model, generalized equations, argument lists and equations.", "quantifier": "every well-formed model (below the checkpoint size limit and above it)", "why_tests_cant": "all models", "anchors": ["ggce/engine/system.py:System.from_checkpoint", "ggce/engine/system.py:System.checkpoint", "ggce/engine/system.py:System.__init__"]}
{"id": "C35", "title": "Construction is crash-recoverable", "statement": "If the process stops between any two file writes of System(model, root=root), then from_checkpoint(root) rebuilds the same system.", "quantifier": "every model and every crash point between file writes", "why_tests_cant": "crash points cannot be enumerated by unit tests", "anchors": ["ggce/engine/system.py:System._prime_system", "ggce/engine/system.py:System.from_checkpoint"]}
{"id": "C36", "title": "A solver with a root checkpoints its system there", "statement": "The documentation says that when a System and a path are given to a solver, the system is checkpointed to that path, so a later solver created from the path alone works.", "quantifier": "every system and root", "why_tests_cant": "history spanning two solver objects", "anchors": ["ggce/executors/solvers.py:Solver.__init__", "ggce/executors/solvers.py:SparseSolver"]}
{"id": "C37", "title": "Rejected couplings leave the model unchanged", "statement": "Model.add_ with invalid parameters (missing TFD limits, limits below one, both or neither coupling strength, odd override at finite temperature, unknown coupling type) leaves the model exactly as it was.", "quantifier": "every model state and every argument combination", "why_tests_cant": "all argument combinations", "anchors": ["ggce/model.py:Model.add_", "ggce/model.py:Hamiltonian._add_"]}
{"id": "C38", "title": "Model bookkeeping is consistent", "statement": "After any history of Model.add_ calls, the extent and number lists have n_phonon_types entries, all at least one, and without overrides every Hamiltonian term's phonon index is below n_phonon_types; at finite temperature each call adds a real and a fictitious type with opposite frequencies.", "quantifier": "every history of add_ calls", "why_tests_cant": "unbounded histories", "anchors": ["ggce/model.py:Model.add_", "ggce/model.py:Hamiltonian._add_"]}
{"id": "C39", "title": "Each phonon type has its own frequency", "statement": "After any history of Model.add_ calls, the frequency used for the energy of phonon type i is the frequency given when type i was added.", "quantifier": "every history of add_ calls, including modes with equal frequencies", "why_tests_cant": "tests only use modes with distinct frequencies", "anchors": ["ggce/model.py:Hamiltonian._add_", "ggce/engine/terms.py:NonIndexTerm.__init__"]}
{"id": "C40", "title": "The interaction is Hermitian", "statement": "For every coupling type, the terms added to the Hamiltonian are closed under Hermitian conjugation with equal coupling, hence so is the Hamiltonian after any history of additions.", "quantifier": "every coupling type, strength, mode and history", "why_tests_cant": "all histories", "anchors": ["ggce/model.py:Hamiltonian._get_SingleTerm_objects", "ggce/model.py:Hamiltonian.add_"]}
{"id": "C41", "title": "Thermofield prefactors", "statement": "For T > 0 and Omega > 0 the two prefactors are sqrt(1+n_B) and sqrt(n_B) with n_B the Bose occupation, satisfy cosh^2 - sinh^2 = 1, and tend to (1, 0) as T tends to 0, the values used at T = 0.", "quantifier": "every positive temperature and frequency, and the limit of zero temperature", "why_tests_cant": "all reals, and a limit", "anchors": ["ggce/model.py:Model._get_TFD_coupling_prefactors"]}
{"id": "C42", "title": "Coupling map inverts the dimensionless coupling", "statement": "For t > 0, Omega != 0 and lambda >= 0 the returned g is the non-negative number with lambda = g^2/(2 t |Omega|) (Holstein), 2 g^2/(t |Omega|) (Peierls), g^2/(t |Omega|) (BondPeierls), g (EdwardsFermionBoson). For t >= 0 and lambda >= 0 a number is returned, also at t = 0 or Omega = 0. The sign of Omega is irrelevant and exactly the unknown names raise.", "quantifier": "all t > 0, Omega != 0 and lambda >= 0 for the value; all t, lambda >= 0 and all Omega for success; all parameters for the sign and the names", "why_tests_cant": "all reals; the test copies the code", "anchors": ["ggce/model.py:model_coupling_map"]}
{"id": "C43", "title": "Buffer loses nothing", "statement": "For any sequence of calls and flushes on a Buffer, the flushed batches followed by the queue are exactly the values passed in, in order; for nbuff >= 1 the queue is always shorter than nbuff and an empty flush writes nothing.", "quantifier": "every history and every nbuff, positive or not", "why_tests_cant": "unbounded histories", "anchors": ["ggce/utils/utils.py:Buffer"]}
{"id": "C44", "title": "Lorentzian fits are exact", "statement": "peak_location_and_weight recovers location and weight of a Lorentzian from its values at one frequency right of the peak for two broadenings; peak_location_and_weight_wstep returns a location and weight whose Lorentzian passes through both given points.", "quantifier": "all locations, non-zero weights and pairs of different positive broadenings; for two frequencies all frequencies, values and positive broadenings for which something is returned, which is the case for two different values of one Lorentzian", "why_tests_cant": "all reals", "anchors": ["ggce/utils/utils.py:peak_location_and_weight", "ggce/utils/utils.py:peak_location_and_weight_wstep", "ggce/utils/utils.py:lorentzian"]}
{"id": "C45", "title": "Any combination of couplings can be built", "statement": "A model may combine any built-in coupling types on different modes; System construction then succeeds.", "quantifier": "every pair of coupling types and all limits", "why_tests_cant": "the failing combinations (BondPeierls with another type) are untested", "anchors": ["ggce/model.py:Model.add_", "ggce/engine/terms.py:Term._increment_g_arg_", "ggce/engine/system.py:System._initialize_equations"]}
{"id": "C46", "title": "A model without couplings gives the free propagator", "statement": "System(Model) with no couplings can be built and solved.", "quantifier": "the coupling-free model, any hopping", "why_tests_cant": "corner case outside tests", "anchors": ["ggce/engine/system.py:System._initialize_equations"]}
{"id": "C47", "title": "Lazy systems are primed by the solver", "statement": "The tutorial says that System(model, autoprime=False) is primed when a solver is created from it.", "quantifier": "every model", "why_tests_cant": "documented but never tested", "anchors": ["ggce/engine/system.py:System.__init__", "ggce/executors/solvers.py:SparseSolver.__init__"]}
{"id": "C48", "title": "G does not depend on the sign of the coupling", "statement": "Negating all couplings leaves the sparse and dense G unchanged.", "quantifier": "every built system and every (k, w, eta)", "why_tests_cant": "all models and points", "anchors": ["ggce/executors/solvers.py:SparseSolver.solve", "ggce/engine/equations.py:Equation._initialize_terms"]}
{"id": "C49", "title": "G is periodic in k", "statement": "G(k + 2 pi / a) = G(k).", "quantifier": "every built system and every (k, w, eta)", "why_tests_cant": "all models and points", "anchors": ["ggce/engine/terms.py:NonIndexTerm.coefficient", "ggce/engine/terms.py:EOMTerm.coefficient", "ggce/utils/physics.py:G0_k_omega"]}
{"id": "C50", "title": "Models never share state", "statement": "Adding to one Model, or changing the list of terms or the terms of its Hamiltonian in place, never changes another Model or an already built System, whatever the order of these operations.", "quantifier": "every interleaving of constructions, additions and in-place changes of Hamiltonians", "why_tests_cant": "aliasing bugs depend on histories", "anchors": ["ggce/model.py:Model.__init__", "ggce/model.py:Hamiltonian.__init__", "ggce/engine/system.py:System.__init__"]}
{"id": "C51", "title": "Several couplings on one mode", "statement": "Model.add_ with phonon_index_override set to the index of an existing mode (the documented way to build a single phonon-mode Hamiltonian with several couplings) gives a model whose System can be built.", "quantifier": "every history of accepted calls followed by an override call for an existing mode and frequency", "why_tests_cant": "no test uses the override; the failure appears only when the frequency list is compared with the number of types during equation construction", "anchors": ["ggce/model.py:835-965", "ggce/model.py:487-488", "ggce/engine/terms.py"]}
{"id": "C52", "title": "The Green's function is bounded by 1/eta", "statement": "For positive hopping, unit lattice constant, real k and w and eta > 0, the G returned by either solver has |G| <= 1/eta, hence the spectral function is at most 1/(pi eta): no choice of couplings, truncation or temperature can produce a higher peak.", "quantifier": "every model with built-in couplings, every real k and w, every eta > 0", "why_tests_cant": "a bound for all parameters", "anchors": ["ggce/executors/solvers.py:SparseSolver.solve", "ggce/executors/solvers.py:DenseSolver.solve"]}
{"id": "C53", "title": "Reported times denote the real duration", "statement": "The elapsed time a log message reports, converted back to seconds with its unit, is the measured duration, with a number below 10 unless in days and at least 1/6 unless in seconds; the remaining time is the time the rest takes at the average speed so far, and 0 at 100 percent. A block timed with timeit has the outcome of the block, also if it raises, and reports its duration exactly once, after the block, with a time stamp that is right to 5 ms below ten seconds and to 3 percent above (with a stream that does not raise).", "quantifier": "every duration and percentage", "why_tests_cant": "all reals; thresholds between units", "anchors": ["ggce/utils/utils.py:_elapsed_time_str", "ggce/utils/utils.py:time_remaining", "ggce/utils/utils.py:timeit", "ggce/utils/utils.py:_adjust_log_msg_for_time"]}
{"id": "C54", "title": "Matrices prepared on disk give the same Green's function", "statement": "After MassSolver.prepare_greens_function(k, w, eta) on an empty matrix directory, greens_function(k, w, eta) of a solver of the same system that loads its matrices from that directory returns what a solver without a directory returns.", "quantifier": "every well-formed model, every grid whose points differ in the ten decimals of the file names, every broadening, number of ranks, brigade size, and every outcome of the random choice of the sample file", "why_tests_cant": "random file choice per rank, all grids and layouts", "anchors": ["ggce/executors/petsc4py/base.py:MassSolver.prepare_greens_function", "ggce/executors/petsc4py/base.py:MassSolver._scaffold_from_disk", "ggce/executors/petsc4py/base.py:MassSolver._get_matr_size"]}
{"id": "C55", "title": "The solvers return the Green's function of the restricted Hamiltonian", "statement": "For a model assembled by valid add_ calls, the number returned by SparseSolver or DenseSolver at (k, w, eta) is exactly <k|(w + i eta - H)^{-1}|k>, where H is the electron-phonon Hamiltonian on the infinite chain restricted to the phonon occupations inside the limits (absolute extent, extent and number of each type, cap per site). The restricted problem has exactly one bounded solution of crystal momentum k, and nothing else (identifiers, arguments of the auxiliary functions, order of equations, duplicate couplings) influences the result.", "quantifier": "every assembled model with built-in couplings (t > 0 and lattice constant 1, or t = 0), every k, w, every eta > 0", "why_tests_cant": "an infinite lattice problem against every finite system of equations; tests compare a few numbers", "anchors": ["ggce/engine/system.py:System", "ggce/engine/equations.py:Equation", "ggce/engine/terms.py:Term", "ggce/executors/solvers.py:SparseSolver", "ggce/executors/solvers.py:DenseSolver"]}
{"id": "C56", "title": "One bounded self-adjoint operator gives every result at a momentum", "statement": "For a model assembled by valid add_ calls and a momentum k there is one bounded self-adjoint operator H on the Hilbert space of phonon occupations seen from the electron, given by its explicit matrix elements (phonon energy, hopping as a shift of the phonons with phase exp(+-ika), couplings with sqrt(n+1) and sqrt(n)), such that for every w and eta > 0 the number returned by SparseSolver or DenseSolver is <bare|(w + i eta - H)^{-1}|bare>.", "quantifier": "every assembled model with built-in couplings (t > 0 and lattice constant 1, or t = 0), every k, one operator for all w and eta > 0", "why_tests_cant": "an operator identity on an infinite-dimensional space, uniform in the frequency and the broadening", "anchors": ["ggce/engine/system.py:System", "ggce/executors/solvers.py:SparseSolver", "ggce/executors/solvers.py:DenseSolver"]}
{"id": "C57", "title": "Momenta k and -k give the same Green's function", "statement": "For a model assembled by valid add_ calls, the solvers return the same number at (k, w, eta) and at (-k, w, eta), for every mixture of built-in couplings, also those that are not symmetric under reflection of the phonons alone.", "quantifier": "every assembled model with built-in couplings (t > 0 and lattice constant 1, or t = 0), every k, w, eta > 0", "why_tests_cant": "equality of the solutions of two different linear systems for every model", "anchors": ["ggce/executors/solvers.py:SparseSolver", "ggce/executors/solvers.py:DenseSolver"]}
{"id": "C58", "title": "The Green's function is Lipschitz in frequency and broadening", "statement": "Numbers returned at (k, w, eta) and (k, w', eta') differ by at most |(w + i eta) - (w' + i eta')| / (eta eta'). On a frequency grid of step d at broadening eta the spectral function -Im G / pi therefore changes by at most d / (pi eta^2) between neighbours, independently of the model: a grid finer than the broadening misses no peak.", "quantifier": "every assembled model with built-in couplings (t > 0 and lattice constant 1, or t = 0), every k, w, w', eta, eta' > 0", "why_tests_cant": "a uniform bound over models, momenta and frequencies", "anchors": ["ggce/executors/solvers.py:SparseSolver.greens_function", "ggce/executors/solvers.py:DenseSolver.greens_function"]}
{"id": "C59", "title": "Sum rules: spectral weight one, mean energy that of the free electron", "statement": "At every momentum, broadening and truncation the spectral function -Im G / pi computed from the returned numbers integrates over all frequencies to exactly 1, and its first moment (over symmetric intervals) is -2 t cos(k a), whatever the couplings.", "quantifier": "every assembled model with built-in couplings (t > 0 and lattice constant 1, or t = 0), every k, eta > 0", "why_tests_cant": "an integral over all frequencies of solutions of linear systems; numerical quadrature only approximates it, for one model at a time", "anchors": ["ggce/executors/solvers.py:SparseSolver.greens_function", "ggce/executors/solvers.py:DenseSolver.greens_function"]}
{"id": "C60", "title": "Results converge to the exact Green's function as the limits grow", "statement": "For fixed couplings, hopping and temperature, the Hamiltonian without any limit on the phonons has exactly one Green's function (a state with finite mean square phonon number solving the equation), and the numbers the solvers return for the truncated models converge to its bare-electron component as all limits (phonon_extent, phonon_number, their fictitious counterparts, the cap) grow, in whatever way they grow; the truncation hierarchy has no bias that survives the limit.", "quantifier": "every list of built-in couplings with distinct mode frequencies (any sign, so also finite temperature), every k, w, eta > 0, every way of enlarging the limits, every set iteration order, t > 0 and lattice constant 1 or t = 0", "why_tests_cant": "a statement about a limit of infinitely many truncations of an infinite-dimensional unbounded operator; tests can compare a few truncations with each other or with another approximate code", "anchors": ["ggce/engine/system.py:System", "ggce/model.py:Model.add_", "ggce/executors/solvers.py:SparseSolver.greens_function", "ggce/executors/solvers.py:DenseSolver.greens_function"]}
{"id": "C61", "title": "Atomic limit: results converge to the exact independent-boson Green's function, at any temperature", "statement": "With hopping 0 and Holstein couplings g_i to phonons of distinct positive energies Omega_i, the numbers the solvers return converge, as all limits grow, to the textbook (Lang-Firsov) Green's function -i int_0^inf exp(i(w + i eta)s) exp(sum_i [i g_i^2/Omega_i s - g_i^2/Omega_i^2 ((2 n_i + 1)(1 - cos Omega_i s) + i sin Omega_i s)]) ds with n_i the Bose occupation at the model's temperature (0 at zero temperature), for every k. For one coupling this is a series of lines at -g^2/Omega + (n - m) Omega with the weights of two Poisson distributions. So the signs, the coupling strengths, the phonon energies and the thermofield prefactors together describe the right physical system.", "quantifier": "every non-empty list of Holstein couplings with distinct energies, every temperature >= 0, every k, w, eta > 0, every way of enlarging the limits, every set iteration order", "why_tests_cant": "the reference is an integral of a transcendental function and the claim is about a limit of ever larger systems; a test compares a few truncations with a numerical quadrature to some tolerance at a few frequencies", "anchors": ["ggce/model.py:Model.add_", "ggce/model.py:Model._get_TFD_coupling_prefactors", "ggce/model.py:Hamiltonian._get_SingleTerm_objects", "ggce/engine/system.py:System", "ggce/executors/solvers.py:SparseSolver.greens_function", "ggce/executors/solvers.py:DenseSolver.greens_function"]}
{"id": "C62", "title": "Phonon clouds behave the same in any number of spatial dimensions", "statement": "For arrays with any number of spatial axes: Config(...) accepts exactly the arrays whose first and last slices along every axis contain a phonon (and arrays without phonons) and terminates the program otherwise; add_phonon_ and remove_phonon_ change exactly one site of the infinite lattice once the returned shift (one entry per axis) is taken into account, keep the array tight along every axis, and undo each other; index tuples of the wrong length and missing phonon types are rejected; identifiers agree only for equal arrays, apart from arrays without phonons, which all have the same one. With one axis this is the behaviour used by the equation generator.", "quantifier": "for every dimension d, every shape without empty axes, every number of phonon types, every occupation, every lattice site in Z^d (also far outside the array and diagonal to it), and every history of additions and removals", "why_tests_cant": "The repository tests two removals in two dimensions and no addition; the claim ranges over all dimensions, shapes, sites and histories, including trimming along several axes by one removal and padding on several sides by one addition.", "anchors": ["ggce/engine/terms.py:42-55", "ggce/engine/terms.py:140-150", "ggce/engine/terms.py:264-289", "ggce/engine/terms.py:307-348", "ggce/engine/terms.py:350-400", "ggce/engine/terms.py:402-482"]}
{"id": "C63", "title": "The order of add_ calls does not matter", "statement": "Two models made from the same parameters and the same add_ calls in different order (so that phonon types get different indices, the limit lists and the lists of terms and frequencies are permuted, identifiers and equations differ) give the same Green's function at every momentum, frequency and positive broadening, with the sparse and with the dense solver.", "quantifier": "all lists of valid calls with built-in couplings and distinct phonon energies, all permutations of them, all temperatures, all (k, w, eta > 0), all set iteration orders. Domain of the statements about Green's functions: one dimension, hopping > 0 with lattice constant 1 or hopping 0, distinct phonon frequencies, BondPeierls not combined with other couplings", "why_tests_cant": "all models and all permutations; the two systems have no equation in common, so that a test can only compare numbers at a few points", "anchors": ["ggce/model.py:Model.add_", "ggce/engine/system.py:System", "ggce/engine/terms.py:config_legal", "ggce/executors/solvers.py:SparseSolver.greens_function", "ggce/executors/solvers.py:DenseSolver.greens_function"]}
{"id": "C64", "title": "Modes without coupling do not change the result", "statement": "Adding, anywhere among the calls, modes with coupling strength 0 (g = 0 or lam = 0) does not change the Green's function, whatever their energies and phonon numbers, provided that their extents do not exceed the largest extent of the other modes or that there is only one other mode.", "quantifier": "all lists of valid calls with built-in couplings and distinct energies, all lists of calls without coupling, all interleavings, all (k, w, eta > 0), all set iteration orders. Domain of the statements about Green's functions: one dimension, hopping > 0 with lattice constant 1 or hopping 0, distinct phonon frequencies, BondPeierls not combined with other couplings", "why_tests_cant": "all models; the added modes enlarge the system by many equations, all of which must decouple exactly", "anchors": ["ggce/model.py:Model.add_", "ggce/model.py:Model.phonon_absolute_extent", "ggce/engine/system.py:System", "ggce/executors/solvers.py:SparseSolver.greens_function", "ggce/executors/solvers.py:DenseSolver.greens_function"]}
{"id": "C65", "title": "Only ratios of energies matter", "statement": "Multiplying the hopping, the temperature, all phonon energies, all couplings g, the frequency and the broadening by the same positive number s divides the Green's function by s; dimensionless strengths lam stay as they are. Hence results do not depend on the unit of energy.", "quantifier": "all s > 0, all lists of valid calls with built-in couplings and distinct energies, all temperatures, all (k, w, eta > 0), all set iteration orders. Domain of the statements about Green's functions: one dimension, hopping > 0 with lattice constant 1 or hopping 0, distinct phonon frequencies, BondPeierls not combined with other couplings", "why_tests_cant": "all real parameters and all models", "anchors": ["ggce/model.py:model_coupling_map", "ggce/model.py:Model._get_TFD_coupling_prefactors", "ggce/model.py:Model.add_", "ggce/utils/physics.py:g0_delta_omega", "ggce/utils/physics.py:G0_k_omega", "ggce/executors/solvers.py:SparseSolver.greens_function", "ggce/executors/solvers.py:DenseSolver.greens_function"]}
{"id": "C66", "title": "Small changes of the parameters change the result little", "statement": "Two models with the same calls up to hopping, phonon energies and couplings give Green's functions that differ by at most (2|t-t'| + sum |Omega-Omega'| N + sum c |g-g'| sqrt(N)) / eta^2, where N is the phonon number of the mode and c the number of terms of the coupling. On a momentum grid neighbouring values differ by at most speed * |k-k'| / eta^2 with an explicit speed.", "quantifier": "all pairs of such models, all (k, w, eta > 0), all set iteration orders. Domain of the statements about Green's functions: one dimension, hopping > 0 with lattice constant 1 or hopping 0, distinct phonon frequencies, BondPeierls not combined with other couplings", "why_tests_cant": "a bound on differences for all real parameters; sampling cannot exclude a jump", "anchors": ["ggce/model.py:Model.add_", "ggce/engine/system.py:System", "ggce/executors/solvers.py:SparseSolver.greens_function", "ggce/executors/solvers.py:DenseSolver.greens_function"]}
{"id": "C67", "title": "No spectral weight below an energy independent of the limits", "statement": "At zero temperature with positive phonon energies, below E = -2t - sum (g^2/Omega for Holstein, 4 g^2/Omega for EdwardsFermionBoson and BondPeierls, 16 g^2/Omega for Peierls), the Green's function is at most 1/sqrt((E-w)^2+eta^2) and the spectral function at most that of a single level at E. The limits on the clouds do not enter.", "quantifier": "all such models, whatever phonon_extent, phonon_number and max_phonons_per_site, all (k, eta > 0), all w <= E, all set iteration orders. Domain of the statements about Green's functions: one dimension, hopping > 0 with lattice constant 1 or hopping 0, distinct phonon frequencies, BondPeierls not combined with other couplings", "why_tests_cant": "the bound holds for all cloud sizes, far beyond what can be computed", "anchors": ["ggce/model.py:Model.add_", "ggce/engine/system.py:System", "ggce/executors/solvers.py:SparseSolver.greens_function", "ggce/executors/solvers.py:DenseSolver.greens_function"]}
{"id": "C68", "title": "One-site clouds give the momentum-average approximation of the literature", "statement": "For a single Holstein coupling at zero temperature with phonon_extent 1, both solvers return exactly the MA Green's function 1/(z + 2t cos k - Sigma(z)), where Sigma is the continued fraction Sigma_n = n g^2 / (1/gbar(z - n Omega) - Sigma_{n+1}) of the momentum average gbar of the free propagator, cut after the largest number of phonons allowed on a site.", "quantifier": "all hoppings, couplings, phonon energies, phonon numbers, caps, all (k, w, eta > 0), all set iteration orders. Domain of the statements about Green's functions: one dimension, hopping > 0 with lattice constant 1 or hopping 0, distinct phonon frequencies, BondPeierls not combined with other couplings", "why_tests_cant": "identity between two functions for all real parameters and all lengths of the fraction", "anchors": ["ggce/model.py:Model.add_", "ggce/engine/system.py:System", "ggce/engine/equations.py:Equation", "ggce/utils/physics.py:g0_delta_omega", "ggce/executors/solvers.py:SparseSolver.greens_function", "ggce/executors/solvers.py:DenseSolver.greens_function"]}
{"id": "C69", "title": "The sign of every single coupling is irrelevant", "statement": "In a list of add_ calls, the sign of the coupling g of any of them, chosen independently of the others, can be changed without changing the Green's function returned by the solvers.", "quantifier": "all lists of valid calls with built-in couplings and distinct energies, all choices of signs, all temperatures, all (k, w, eta > 0), all set iteration orders. Domain of the statements about Green's functions: one dimension, hopping > 0 with lattice constant 1 or hopping 0, distinct phonon frequencies, BondPeierls not combined with other couplings", "why_tests_cant": "all models and all subsets of the calls", "anchors": ["ggce/model.py:Model.add_", "ggce/engine/system.py:System", "ggce/executors/solvers.py:SparseSolver.greens_function", "ggce/executors/solvers.py:DenseSolver.greens_function"]}
{"id": "C70", "title": "The sign of the hopping only shifts the momentum", "statement": "The Green's function for the hopping -t at the momentum k is the one for t at k + pi/a (the sign of every second orbital can be chosen freely).", "quantifier": "all lists of valid calls with couplings g, all temperatures, all (k, w, eta > 0)", "why_tests_cant": "all models and all momenta; the repository has no test with negative hopping", "anchors": ["ggce/model.py:Model.from_parameters", "ggce/utils/physics.py:g0_delta_omega", "ggce/utils/physics.py:G0_k_omega", "ggce/engine/system.py:System", "ggce/executors/solvers.py:SparseSolver.greens_function", "ggce/executors/solvers.py:DenseSolver.greens_function"]}
{"id": "C71", "title": "Only the product of momentum and lattice constant matters", "statement": "The Green's function at the momentum k for the lattice constant a is the one at the momentum ka for the lattice constant 1.", "quantifier": "all lists of valid calls, all hoppings >= 0, all lattice constants, all temperatures, all (k, w, eta > 0)", "why_tests_cant": "all models and all real lattice constants; the repository's tests use a = 1", "anchors": ["ggce/model.py:Model.from_parameters", "ggce/utils/physics.py:g0_delta_omega", "ggce/utils/physics.py:G0_k_omega", "ggce/engine/system.py:System", "ggce/executors/solvers.py:SparseSolver.greens_function", "ggce/executors/solvers.py:DenseSolver.greens_function"]}
{"id": "C72", "title": "With one phonon the result is second-order perturbation theory", "statement": "A single coupling at zero temperature with phonon_number 1 gives exactly 1/(z + 2t cos k - Sigma(k, z)) with Sigma(k, z) = 1/2pi times the integral over q of V(k,q)^2/(z - Omega + 2t cos q), where V is g (Holstein), 2g cos((k+q)/2) (BondPeierls), 2g(sin k - sin q) (Peierls) or 2g cos q (EdwardsFermionBoson). The extent and the cap do not matter.", "quantifier": "the four couplings, all hoppings, couplings, phonon energies, extents, caps, all (k, w, eta > 0), all set iteration orders. Domain of the statements about Green's functions: one dimension, hopping > 0 with lattice constant 1 or hopping 0, distinct phonon frequencies, BondPeierls not combined with other couplings", "why_tests_cant": "identity between functions of real parameters; it fixes the signs, phases and positions of every term of the four couplings against the textbook Hamiltonians", "anchors": ["ggce/model.py:Hamiltonian._add_", "ggce/engine/system.py:System", "ggce/executors/solvers.py:SparseSolver.greens_function", "ggce/executors/solvers.py:DenseSolver.greens_function", "ggce/utils/physics.py:g0_delta_omega"]}
{"id": "C73", "title": "The residual check of the MUMPS solver certifies the result", "statement": "A result of the MPI solver that passes the residual check is within the requested tolerance of the exact solution, and a result that fails a check is not handed out as if it were good. Each computed point is accompanied by exactly one message for each check it does not pass (residual, MUMPS error, MUMPS warning, negative spectral weight), and its meta information holds the exit code, the excess over the tolerance and the memory of the run that produced it, the memory in gigabytes up to a relative error of 1e-6.", "quantifier": "all physical models, all (k, w, eta > 0), all numbers of ranks up to the number of equations, all MUMPS outcomes, all tolerances, all contents of the results directory. Domain of the statements about Green's functions: one dimension, hopping > 0 with lattice constant 1 or hopping 0, distinct phonon frequencies, BondPeierls not combined with other couplings", "why_tests_cant": "failing factorisations cannot be provoked at will, and the bound is over all outcomes of the linear solver", "anchors": ["ggce/executors/petsc4py/solvers.py:MassSolverMUMPS.solve", "ggce/executors/petsc4py/base.py:MassSolver.check_conv_manual", "ggce/executors/petsc4py/solvers.py:MassSolverMUMPS.check_conv"]}
{"id": "C74", "title": "The counts a system reports are right", "statement": "While a System is built it reports how many generalized equations it generated and compares with an analytic formula; at the end it compares the number of equations with the number of required arguments. The reported numbers are those of the truncated space, and an error is logged only if something is wrong.", "quantifier": "all well-formed models, all set iteration orders", "why_tests_cant": "over all models; tests look at a few counts", "anchors": ["ggce/engine/system.py:System._predict_total_terms", "ggce/engine/system.py:System._initialize_equations", "ggce/utils/combinatorics.py:total_generalized_equations"]}
{"id": "C75", "title": "visualize shows the model", "statement": "Model.visualize prints one block per phonon type with the limits M and N used for that type and all terms acting on it.", "quantifier": "all sequences of add_ calls", "why_tests_cant": "over all call sequences; the printed output is not tested", "anchors": ["ggce/model.py:Model.visualize", "ggce/model.py:Hamiltonian.get_dict_rep", "ggce/model.py:Model.add_"]}
{"id": "C76", "title": "Full identifiers identify terms", "statement": "Term.id(full=True) is the same for two terms exactly when cloud, f_arg, g_arg and exp_shift are the same; a missing argument is different from every argument.", "quantifier": "all clouds (any number of types and sites) and all arguments that are multiples of 1/2 or missing", "why_tests_cant": "injectivity over infinitely many terms", "anchors": ["ggce/engine/terms.py:Term.id", "ggce/engine/terms.py:Term._get_g_arg_id", "ggce/engine/terms.py:Term._get_c_exp_id"]}
{"id": "C77", "title": "A model never holds an inadmissible temperature or lattice constant", "statement": "The temperature of a Model is never negative and the lattice constant is always positive.", "quantifier": "all models, all programs of assignments and add_ calls", "why_tests_cant": "all programs", "anchors": ["ggce/model.py:Model.temperature", "ggce/model.py:Model.lattice_constant", "ggce/model.py:Model.from_parameters"]}
{"id": "C78", "title": "The temperature acts at the moment of add_", "statement": "Each add_ call registers the modes for the temperature last assigned before it. Assigning a temperature before the first call is the same as passing it to from_parameters, and assigning it after the last call changes neither the system nor any Green's function.", "quantifier": "all programs of assignments and add_ calls that do not reset the limits, all physical functions, points and linear solvers", "why_tests_cant": "all interleavings", "anchors": ["ggce/model.py:Model.temperature", "ggce/model.py:Model.add_", "ggce/engine/system.py:System", "ggce/executors/solvers.py:SparseSolver.greens_function", "ggce/executors/solvers.py:DenseSolver.greens_function"]}
{"id": "C79", "title": "High-frequency moments do not depend on the limits", "statement": "If all limits are at least J+1, the returned Green's function has the same expansion in 1/(w+i eta) as that of the Hamiltonian without limits, through the moment 2J+1, with an explicit error bound; two choices of limits of that size give numbers that differ by at most a constant over |w+i eta|^(2J+2) eta.", "quantifier": "all couplings (valid calls), all J, all limits of at least J+1 (or none on the absolute extent), all k, w, eta > 0. Domain of the statements about Green's functions: one dimension, hopping > 0 with lattice constant 1 or hopping 0, distinct phonon frequencies, BondPeierls not combined with other couplings", "why_tests_cant": "the claim is about all limits, all orders and all frequencies", "anchors": ["ggce/engine/system.py:System", "ggce/model.py:Model.add_", "ggce/executors/solvers.py:SparseSolver.greens_function"]}
{"id": "C80", "title": "The width of the spectral function", "statement": "The second moment of the spectral function is the textbook one whatever the limits: variance = sum over the couplings of g^2 times (mean square emission vertex times (n_B + 1) plus mean square absorption vertex times n_B). (Above zero temperature for all couplings except EdwardsFermionBoson; for that one see C100.)", "quantifier": "all valid calls (without EdwardsFermionBoson couplings when T > 0), all temperatures, all limits, all momenta. Domain of the statements about Green's functions: one dimension, hopping > 0 with lattice constant 1 or hopping 0, distinct phonon frequencies, BondPeierls not combined with other couplings", "why_tests_cant": "over all couplings, temperatures and limits; an integral over all frequencies", "anchors": ["ggce/model.py:Model.add_", "ggce/engine/system.py:System", "ggce/utils/physics.py:G0_k_omega"]}
{"id": "C81", "title": "Broadening is a Lorentzian average", "statement": "Raising the broadening from eta to eta+delta replaces the Green's function (and the spectral function) by its average over frequency with a Lorentzian of half width delta; so the highest value of the spectral function does not grow and the lowest does not sink.", "quantifier": "all physical models and limits, all k, w, eta > 0, delta > 0. Domain of the statements about Green's functions: one dimension, hopping > 0 with lattice constant 1 or hopping 0, distinct phonon frequencies, BondPeierls not combined with other couplings", "why_tests_cant": "an identity between infinitely many values", "anchors": ["ggce/executors/solvers.py:SparseSolver.greens_function", "ggce/executors/solvers.py:DenseSolver.greens_function"]}
{"id": "C82", "title": "The spectral function determines the Green's function", "statement": "Real and imaginary part of the returned numbers belong together: G(k,w,eta+delta) is the integral of A(k,x,eta)/(w-x+i delta) over x. Two models with the same spectral function at one broadening have the same Green's function at all frequencies and broadenings.", "quantifier": "all physical models and limits, all momenta, eta > 0, delta > 0, w. Domain of the statements about Green's functions: one dimension, hopping > 0 with lattice constant 1 or hopping 0, distinct phonon frequencies, BondPeierls not combined with other couplings", "why_tests_cant": "an identity between infinitely many values", "anchors": ["ggce/executors/solvers.py:SparseSolver.greens_function", "ggce/executors/solvers.py:DenseSolver.greens_function"]}
{"id": "C83", "title": "Inexact linear algebra: the result is as accurate as the residual", "statement": "Whatever vector the linear algebra returns, its Green's function differs from the exact one by at most (1 + sum over terms |g| sqrt(N) / eta) times the 2-norm of the residual of that vector, independently of the size of the linear system. Storing matrix and right-hand side in single precision, as the sparse solver does, adds an explicit amount; if the rounding is fine enough, the stored system still has exactly one solution, and an explicit bound on the error holds in advance.", "quantifier": "all valid calls and limits, all temperatures, all k, w, eta > 0, all vectors, all roundings of bounded relative (or tiny absolute) error. Domain of the statements about Green's functions: one dimension, hopping > 0 with lattice constant 1 or hopping 0, distinct phonon frequencies, BondPeierls not combined with other couplings", "why_tests_cant": "a bound for all vectors and all systems; the condition of the matrix is not something a test can bound", "anchors": ["ggce/executors/solvers.py:SparseSolver.solve", "ggce/executors/solvers.py:SparseSolver._scaffold"]}
{"id": "C84", "title": "A refused input ends the program, however logging is set up", "statement": "The library refuses illegal input with logger.critical, which by its documentation always terminates. Whatever filters are configured, in debug and testing mode, on every rank, and with other libraries silenced, a critical record of a module that is not itself disabled ends the program, and no other record does. (The code ends nothing where the module is disabled: there illegal input is accepted.) After the import, information and warnings are shown once, on rank 0 only; errors on every rank.", "quantifier": "all sequences of logger statements (configure_loggers with any filters, DEBUG, DISABLE_DEBUG, testing mode, enable and disable of any names), all ranks, all modules, all levels, all arrays", "why_tests_cant": "the sequences of statements and the names are unbounded, and the effect of a disabled logger on the checks shows only in combinations", "anchors": ["ggce/logger.py:configure_loggers", "ggce/logger.py:disable_logger", "ggce/engine/terms.py:_validate_config_is_legal", "ggce/engine/terms.py:Config.remove_phonon_"]}
{"id": "C85", "title": "Using the library leaves the user's logging configuration alone", "statement": "A block that silences the logger or switches to debug mode leaves the logging configuration as it was before, also when its body raises. The code does so if nothing was disabled and the configuration was the one after the import.", "quantifier": "all states of the logger, all bodies that leave it alone, bodies that raise, all modules", "why_tests_cant": "it concerns every state of a global object that other code changes as well", "anchors": ["ggce/logger.py:disable_logger", "ggce/logger.py:debug", "ggce/logger.py:_testing_mode", "ggce/executors/solvers.py:Solver.__init__"]}
{"id": "C86", "title": "Brigades agree, finish and return the serial values under every interleaving", "statement": "The ranks of a MassSolver look for result files independently and solve collectively. If no two points of the grid share a file name (or there is no results directory), then in every interleaving of all ranks the ranks of a brigade take the same decisions and meet at the same point, no rank fails or waits for ever, every execution is finite, and at the end every rank holds the solver's values in order, which greens_function assembles as in the serial loop; all files are complete. (With a repeated point the code can stop with EOFError, hang, or return and store the solution of a system mixed from two points.)", "quantifier": "all interleavings of file and collective operations, all numbers of ranks and brigade sizes, all grids, all sets of results already present", "why_tests_cant": "interleavings of any number of processes; the failures need particular timings", "anchors": ["ggce/executors/petsc4py/solvers.py:MassSolverMUMPS.solve", "ggce/executors/petsc4py/solvers.py:MassSolverMUMPS._pre_solve", "ggce/executors/petsc4py/base.py:MassSolver.greens_function"]}
{"id": "C87", "title": "Meta information belongs to the returned values", "statement": "greens_function(..., return_meta=True) returns the same values as without; whenever it returns, there is exactly one dictionary per point of the returned grid, in row-major order, from the same call of solve that gave the value at that position. A dictionary is empty exactly if the value came from a file.", "quantifier": "all solvers, grids, numbers of ranks, brigade sizes, NaN results and existing files", "why_tests_cant": "the values are filtered for NaN and reshaped while the dictionaries are not, so alignment concerns all results and layouts", "anchors": ["ggce/executors/petsc4py/base.py:MassSolver.greens_function", "ggce/executors/petsc4py/solvers.py:MassSolverMUMPS.solve"]}
{"id": "C88", "title": "The lower edge of the spectrum never rises when limits, couplings or hopping grow", "statement": "For every momentum the spectral function has a lower edge, the largest energy with no weight below it, and this edge is not above the free-electron energy -2 t cos(k a). If the limits M, N, the limit per site, the magnitudes of the couplings and the hopping do not fall, the frequencies do not rise, and possibly further phonons are added, then the lower edge of the new model at zero momentum is not above that of the old model at any momentum. In particular raising the limits gives a decreasing sequence of edges at zero momentum: the computed polaron energy is an upper bound that improves.", "quantifier": "all valid calls at zero temperature with the coupling given directly (at any temperature when only the limits are raised), all limits, all k; the couplings of the stronger model are Holstein, EdwardsFermionBoson or BondPeierls. Domain of the statements about Green's functions: one dimension, hopping > 0 with lattice constant 1 or hopping 0, distinct phonon frequencies, BondPeierls not combined with other couplings", "why_tests_cant": "an inequality between two runs for all parameters and limits, about all frequencies and broadenings at once", "anchors": ["ggce/model.py:Model.add_", "ggce/model.py:Hamiltonian.add_", "ggce/executors/solvers.py:SparseSolver.solve"]}
{"id": "C89", "title": "The spectrum begins at zero momentum", "statement": "For Holstein, EdwardsFermionBoson and BondPeierls couplings in any combination that can be built, the lower edge of the spectral function over all momenta is the one at k = 0, whatever the limits. At every momentum it lies at or below the free band.", "quantifier": "all valid calls without Peierls couplings, all limits, all temperatures, all k. Domain of the statements about Green's functions: one dimension, hopping > 0 with lattice constant 1 or hopping 0, distinct phonon frequencies, BondPeierls not combined with other couplings", "why_tests_cant": "a statement on a continuum of momenta and all parameters; it hangs on the signs the code gives to the terms of each coupling (for Peierls couplings, whose terms have both signs, it is false)", "anchors": ["ggce/model.py:Hamiltonian._get_SingleTerm_objects", "ggce/executors/solvers.py:SparseSolver.solve"]}
{"id": "C90", "title": "The self-energy is causal and bounded", "statement": "The self-energy read off from a returned Green's function, w + i eta + 2 t cos(k a) - 1/G, exists (G is never zero), has no positive imaginary part, and its modulus is at most the variance of the spectral function (sum over the couplings of mean square vertex times g^2 times 2 n + 1) over eta. Hence |G| is at least 1/(|w + i eta + 2 t cos(k a)| + variance/eta), and G differs from the free propagator G0 by at most variance/eta |G| |G0|: weak coupling is a small perturbation at all frequencies and momenta, whatever the limits.", "quantifier": "all valid calls, all limits, all temperatures, all k, w, eta > 0. Domain of the statements about Green's functions: one dimension, hopping > 0 with lattice constant 1 or hopping 0, distinct phonon frequencies, BondPeierls not combined with other couplings", "why_tests_cant": "inequalities for all frequencies, momenta, couplings and limits", "anchors": ["ggce/executors/solvers.py:SparseSolver.solve", "ggce/executors/solvers.py:DenseSolver.solve", "ggce/model.py:Model.add_"]}
{"id": "C91", "title": "A cold model is close to the one at zero temperature", "statement": "At a temperature T > 0 the calls of add_ give Green's functions that differ from those of the same calls at zero temperature by at most sum c |g| ((sqrt(1+n) - 1) sqrt(N) + sqrt(n) sqrt(N_tfd)) / eta^2, where n is the thermal occupation of the phonon and c the number of terms of its coupling. So as T falls to zero the finite-temperature results tend to the result of the separate zero-temperature branch of the code.", "quantifier": "all valid calls with positive frequencies (coupling given as g or as lambda), all limits such that the fictitious phonons do not enlarge the absolute extent (or a single call), all T > 0, all k, w, eta > 0. Domain of the statements about Green's functions: one dimension, hopping > 0 with lattice constant 1 or hopping 0, distinct phonon frequencies, BondPeierls not combined with other couplings", "why_tests_cant": "the two branches of add_ build different systems (twice as many phonon types at T > 0); a test can only compare at some temperature", "anchors": ["ggce/model.py:Model.add_", "ggce/model.py:Model._get_TFD_coupling_prefactors"]}
{"id": "C92", "title": "Equations of motion in any number of dimensions", "statement": "For a Holstein model in d dimensions and a d-dimensional phonon cloud obeying the limits, Equation.from_config succeeds and its right-hand side is exactly the interaction acting on the cloud: per Hamiltonian term one entry for every lattice site of Z^d at which a phonon can be created or absorbed without leaving the truncated space, with the right prefactor (coupling times occupation for absorption), propagator argument, cloud argument, phase and phonon energy. GreenEquation(model) has one entry per creation term on the one-phonon cloud. Couplings other than Holstein in more than one dimension, and clouds whose number of axes differs from the model's dimension, never yield an equation, and a System is never built in more than one dimension.", "quantifier": "for every dimension d >= 1, every Holstein model with any number of phonon types, every cloud of the truncated space, every lattice site", "why_tests_cant": "The repository tests equations in one dimension only, on a handful of configurations; the claim ranges over all dimensions, clouds and sites, including creation diagonally outside the cloud.", "anchors": ["ggce/engine/equations.py:Equation.from_config", "ggce/engine/equations.py:Equation._initialize_terms", "ggce/engine/equations.py:GreenEquation", "ggce/engine/terms.py:NonIndexTerm", "ggce/engine/terms.py:AnnihilationTerm", "ggce/engine/terms.py:CreationTerm", "ggce/model.py:Hamiltonian._get_SingleTerm_objects", "ggce/engine/system.py:generate_all_legal_configurations"]}
{"id": "C93", "title": "config_legal in any number of dimensions", "statement": "config_legal accepts exactly the arrays that are clouds (non-negative, a phonon on every edge) and obey the per-site, per-type number and per-type extent limits, the extent of a type being limited along every spatial axis; with allow_green every array without phonons is accepted.", "quantifier": "for every dimension, shape, number of types, occupation and every combination of limits", "why_tests_cant": "The tests check a few one-dimensional arrays; orientation dependence in two dimensions shows only when a limit is compared along different axes.", "anchors": ["ggce/engine/terms.py:config_legal", "ggce/engine/terms.py:_extent_of_1d", "ggce/engine/terms.py:_config_edges_legal"]}
{"id": "C94", "title": "A-priori error bar for the limits on the phonons", "statement": "If every limit (phonon_extent, phonon_number, their fictitious counterparts, the cap) is at least B, the number greens_function returns differs from the Green's function of the Hamiltonian without limits by at most 4 G / (b eta^2) exp(-b sqrt(B/2)), where G is the sum of the absolute values of the strengths of all coupling terms (2|g| per Holstein call, 4|g| for EdwardsFermionBoson and BondPeierls, 8|g| for Peierls, at zero temperature) and b is any rate with 0 < b <= 1/5 and 8 b (2|t| + G) <= eta. The frequencies, k and w do not enter, so the bar can be computed before the calculation, and limits that guarantee a wanted accuracy can be read off.", "quantifier": "every list of built-in couplings with distinct mode frequencies, any temperature, every k, w, eta > 0, every choice of limits, every set iteration order, both solvers, t > 0 and lattice constant 1 or t = 0", "why_tests_cant": "compares a truncated calculation with the exact Green's function of an infinite-dimensional unbounded Hamiltonian, uniformly in the limits; tests see finitely many truncations and have no exact value to compare with", "anchors": ["ggce/model.py:Model.add_", "ggce/model.py:Hamiltonian._get_SingleTerm_objects", "ggce/engine/system.py:System", "ggce/executors/solvers.py:SparseSolver.greens_function", "ggce/executors/solvers.py:DenseSolver.greens_function"]}
{"id": "C95", "title": "At fixed phonon numbers the results converge exponentially in the extents", "statement": "Keep the couplings, the phonon numbers (phonon_number, its fictitious counterpart) and the cap, and vary the extents only. The problem with these numbers of phonons and no extents has exactly one square-summable solution, and if every extent is at least B, the number greens_function returns differs from its Green's function by at most 4 V / eta^2 exp(-a (B - 2)), where V is the sum over the coupling terms of |g| sqrt(N) (2, 4, 4, 8 terms per call at zero temperature) and a is any rate with 0 < a <= 3/20 and 6 a (2|t| + V) <= eta. Two calculations that differ in their extents only, all at least B, differ by at most twice that. An extent proportional to the logarithm of the wanted accuracy suffices.", "quantifier": "every list of built-in couplings with distinct mode frequencies, any temperature, any cap, every k, w, eta > 0, every choice of extents, every set iteration order, both solvers, t > 0 and lattice constant 1 or t = 0", "why_tests_cant": "bounds the difference to a problem with infinitely many clouds, uniformly in the extents; a test sees that two extents give similar numbers at a few points and cannot tell how far both are from the limit", "anchors": ["ggce/model.py:Model.add_", "ggce/engine/terms.py:config_legal", "ggce/engine/system.py:System", "ggce/executors/solvers.py:SparseSolver.greens_function", "ggce/executors/solvers.py:DenseSolver.greens_function"]}
{"id": "C96", "title": "Limits that nothing can exceed have no effect", "statement": "(a) A phonon_max_per_site that is at least as large as every phonon number gives exactly the Green's function of the model without a cap. (b) With a cap of c phonons per site, raising the phonon number of a mode with extent M beyond c M changes nothing. (c) With one phonon type and phonon_number 1 at zero temperature, the phonon_extent does not matter. (d) With one phonon type at zero temperature, setting phonon_absolute_extent to any value not below the extent changes nothing.", "quantifier": "every list of built-in couplings with distinct mode frequencies (one call for c and d), any temperature for a and b, every cap and limit satisfying the condition, every k, w, eta > 0, every set iteration order, both solvers, t > 0 and lattice constant 1 or t = 0", "why_tests_cant": "equality of two results for all parameters and all limits above the bound; the two calculations go through different legality tests, different absolute extents and different sets of candidate configurations", "anchors": ["ggce/model.py:Model.add_", "ggce/model.py:Model.phonon_absolute_extent", "ggce/engine/terms.py:config_legal", "ggce/engine/system.py:System", "ggce/executors/solvers.py:SparseSolver.greens_function", "ggce/executors/solvers.py:DenseSolver.greens_function"]}
{"id": "C97", "title": "A frequency grid that holds the spectral weight", "statement": "Let V be the sum over the coupling terms of |g| sqrt(N), bottom = -2|t| - V + sum min(0, W) N and top = 2|t| + V + sum max(0, W) N over the modes with frequency W and phonon number N. At a distance d below the bottom or above the top, |G| is at most 1/sqrt(d^2 + eta^2) and the spectral function at most eta / (pi (d^2 + eta^2)). The integral of the spectral function over the interval from bottom - L to top + L is at least 1 - (2/pi) arctan(eta / L) and at most 1. At zero temperature with positive frequencies, bottom = -(2t + V), top = 2t + V + sum W N, V = sum c |g| sqrt(N) with c = 2, 4, 4, 8 for Holstein, EdwardsFermionBoson, BondPeierls and Peierls.", "quantifier": "every well-formed model at any temperature (the explicit form: every list of built-in couplings at zero temperature), every k, every eta > 0, every L > 0, every set iteration order, both solvers, t > 0 and lattice constant 1 or t = 0", "why_tests_cant": "a statement about the integral over a continuum of frequencies and about all frequencies beyond an energy, for all models", "anchors": ["ggce/model.py:Model.add_", "ggce/executors/solvers.py:SparseSolver.greens_function", "ggce/executors/solvers.py:DenseSolver.greens_function"]}
{"id": "C98", "title": "Accuracy of the dense solver's continued fraction under inexact arithmetic", "statement": "Let R_1, ..., R_N be any matrices in place of those computed by the loop of DenseSolver.solve and G' any number in place of the one it returns. Then |G' - G|, with G the exact result, is at most 1 + V/eta times the norm of the defects of R_N = alpha_N, (1 - beta_n R_{n+1}) R_n = alpha_n and (1 - beta_0 R_1) G' = G_0, each applied to the amplitudes R_n ... R_1 G'; V is the sum of |g| sqrt(N) over the coupling terms. No matrix needs to be invertible. If the blocks are stored with a relative rounding error u, the defects may be computed from the stored blocks, at the cost of a stated multiple of u. In exact arithmetic the defects can all be zero.", "quantifier": "every well-formed model with a physical Hamiltonian (in particular every list of built-in couplings with distinct mode frequencies), any temperature, every k, w, eta > 0, every family of matrices, every number, every rounding u, every set iteration order, t > 0 and lattice constant 1 or t = 0", "why_tests_cant": "a test compares the dense and the sparse result at some points; that the errors of all inversions along the continued fraction are never amplified by more than a known factor, whatever the matrices, is a statement about all matrices", "anchors": ["ggce/executors/solvers.py:DenseSolver.solve", "ggce/executors/solvers.py:DenseSolver._fill_matrix", "ggce/executors/solvers.py:DenseSolver._get_alpha", "ggce/executors/solvers.py:DenseSolver._get_beta"]}
{"id": "C99", "title": "Which absolute extent is in force, and what it does", "statement": "A value assigned to Model.phonon_absolute_extent while at most one phonon type is registered stays in force whatever couplings are added and whatever other setters are used afterwards; the system can then be built for any value of at least 1, and both solvers return the exact Green's function of the Hamiltonian restricted to the occupations in which the phonons of all types together lie within that many neighbouring sites, each type also within its own limits. None brings back the largest extent. With two or more types registered, an assignment has no effect, then or later.", "quantifier": "every sequence of calls of add_ and of setters of the model (for the ignored assignments: without a reset of the lists of limits); for the effect every two lists of built-in couplings with distinct mode frequencies of which the first registers at most one type, every value of at least 1, any temperature and cap, every k, w, eta > 0, every set iteration order, t > 0 and lattice constant 1 or t = 0", "why_tests_cant": "the tests assign the absolute extent in one place of one script; the claim is about all orders of assignments and additions and about the value at all points", "anchors": ["ggce/model.py:Model.phonon_absolute_extent", "ggce/model.py:Model.add_", "ggce/engine/system.py:System", "ggce/executors/solvers.py:SparseSolver.solve", "ggce/executors/solvers.py:DenseSolver.solve"]}
{"id": "C100", "title": "Finite temperature means the thermal ensemble", "statement": "The results at temperature T > 0 are those of an electron added to phonons in thermal equilibrium: occupation numbers of all sites independent with probability (1-q) q^n, q = exp(-Omega/T), the Hamiltonian that of the same calls at zero temperature. The expansion of a returned number in 1/(w + i eta) has the thermal moments <k, nu| (H - E_nu)^j |0, nu> averaged over nu as its coefficients, to the order 2J+1 if all limits are at least J+1.", "quantifier": "all lists of built-in couplings with distinct positive frequencies, all T > 0, all k, w, eta > 0, all J, all limits of at least J+1, every set iteration order, t > 0 and lattice constant 1 or t = 0", "why_tests_cant": "the tests have no independent thermal average to compare with; the average is an integral over infinitely many sites, and all orders, momenta and couplings are meant", "anchors": ["ggce/model.py:Model.add_", "ggce/model.py:Model._get_TFD_coupling_prefactors", "ggce/engine/system.py:System"]}
{"id": "C101", "title": "The results are broadened spectral measures, and converge to the one of the (thermal) Hamiltonian", "statement": "For given couplings, limits and momentum there is one probability measure rho on the energies such that the number returned at every w and eta > 0 is the integral of 1/(w + i eta - x) against rho; with all limits at least J+1 its moments through 2J+1 are those of the Hamiltonian without limits. As the limits grow in whatever way, the returned numbers converge to the transform of the only probability measure that has all moments of the Hamiltonian without limits, and the spectral function -Im G / pi to that measure broadened by a Lorentzian of half width eta. At temperature T > 0, with couplings to the displacement of the phonons (Holstein, Peierls, BondPeierls), these moments are the averages over the thermal ensemble, so the limit is the thermal spectral function.", "quantifier": "all lists of built-in couplings with distinct frequencies (positive ones for the thermal statement), all temperatures, all k, w, eta > 0, all limits, every set iteration order, t > 0 and lattice constant 1 or t = 0", "why_tests_cant": "the existence and the uniqueness of a measure, at all energies and broadenings at once, and a limit of unboundedly many runs; no finite set of values determines either", "anchors": ["ggce/executors/solvers.py:DenseSolver.greens_function", "ggce/engine/system.py:System", "ggce/model.py:Model.add_"]}
{"id": "C102", "title": "A model survives being written as JSON and read back", "statement": "Whatever statements were executed on a model that began with from_parameters, to_json does not fail, from_dict of its output does not fail, and the restored model has the same public attributes as the original (every term with the dtypes of its shifts, frequencies, dimension, hopping, limits, absolute extent, temperature, lattice constant, number of phonon types), is written as the same JSON, and leads to the same system of equations. Models with different public attributes have different JSON. Couplings added to the restored model raise the same exceptions and have the same effects as on the original, except that the absolute extent no longer follows: it is the same exactly when it had been set explicitly, or the model had no couplings when it was written, or no extent added since exceeds all those present at that time.", "quantifier": "all parameters, all sequences of add_ calls and assignments to properties before, all sequences of add_ calls after, every set iteration order", "why_tests_cant": "the JSON form is assembled by monty from the names of constructor arguments and attributes; a lost or swapped field shows only for values that differ from the defaults, and the difference in later calls only in combination with extents of other calls", "anchors": ["ggce/model.py:Model", "ggce/model.py:Hamiltonian", "ggce/model.py:SingleTerm", "ggce/model.py:Model.phonon_absolute_extent", "ggce/engine/system.py:System.from_checkpoint", "ggce/engine/system.py:System._save_model"]}
{"id": "C103", "title": "Numbers from the results directory are as accurate as its ten decimals allow", "statement": "Solvers for one system that are accurate to eps share a results directory which is empty at first. In every sequence of calls of solve, and in every interleaving of the file operations of several processes, each number that is returned at (k, w, eta), computed or read from a file, differs from the exact result at that point by at most eps + (speed + 2) 1e-10 / eta^2, where speed = a (2 |t| + sum over terms of |g| sqrt(N) |shift|); a process may stop with an exception (C31), but never obtains a number that is further off.", "quantifier": "all well-formed models (in particular all lists of built-in couplings), all histories of calls with arbitrary points and solvers, all interleavings of any number of processes, all points with eta at least 4e-10, every set iteration order. Domain of the statements about Green's functions: one dimension, hopping > 0 with lattice constant 1 or hopping 0, distinct phonon frequencies, BondPeierls not combined with other couplings", "why_tests_cant": "which points share a file, and which of them was computed first, depends on the history and on the interleaving; the error is below any tolerance a test would use unless eta is small, and its size for all couplings needs the dependence of the resolvent on momentum and energy", "anchors": ["ggce/executors/solvers.py:Solver._pre_solve", "ggce/executors/solvers.py:Solver._post_solve", "ggce/executors/solvers.py:Solver._k_omega_eta_to_str"]}
{"id": "C104", "title": "Sharp peaks: the energy and weight found by the peak helper are those of a state of the model", "statement": "For a model assembled through the interface, at every momentum k and real energy E, let Z be the largest squared overlap of the electron without phonons with a normalised eigenstate of energy E of the restricted Hamiltonian (zero if there is none). Then eta*pi*A(k, E, eta), with A = -Im G / pi taken from either solver, decreases to Z as the broadening eta is removed, so at every broadening it is an upper bound of Z; Z lies between 0 and 1. If Z > 0, then peak_location_and_weight applied to A at the frequency E + s*eta (s > 0 fixed) for the broadenings eta and c*eta (c positive, not 1) is defined for all small eta, its location differs from E by a vanishing fraction of eta, and its area tends to Z. At a frequency below the state (s < 0) the location is instead off by 2*s*eta, while the area still tends to Z.", "quantifier": "for every set of couplings, phonon limits, temperature and hopping accepted by the interface, every momentum, every energy, every s and c, and every pair of families of results of the two solvers. Domain of the statements about Green's functions: one dimension, hopping > 0 with lattice constant 1 or hopping 0, distinct phonon frequencies, BondPeierls not combined with other couplings", "why_tests_cant": "it is a statement about a limit of vanishing broadening for every model; a test can only compare a few broadenings with a reference", "anchors": ["ggce/utils/utils.py:peak_location_and_weight", "ggce/executors/solvers.py:SparseSolver.solve", "ggce/executors/solvers.py:DenseSolver.solve", "ggce/model.py:Model.add_"]}
{"id": "C105", "title": "Whole programs: what is printed does not depend on what ran before", "statement": "Take a model assembled through the interface and an empty disk, and run any number of programs for this model one after the other. Each program constructs a System (with or without a root, with any chkpt_lim) and a SparseSolver or DenseSolver with it (with or without a root), or it constructs a solver from a root alone, in a directory where an earlier program constructed the system. Then it calls solve and greens_function any number of times. Each process may iterate over sets in its own order. Then no construction and no call raises an exception; every greens_function has one row per momentum and one number per frequency; every number is finite, exactly the Green's function of the restricted Hamiltonian at the point asked for if the solver has no root, and within (speed + 2) 1e-10 / eta^2 of it otherwise. If two calls in these programs are the same and their solvers have the same root, their answers are identical, even with different solvers.", "quantifier": "for every model assembled through the interface, every finite sequence of programs, every choice of solver, roots, checkpoint limits and set orders in each, and every sequence of calls with eta >= 4e-10. Domain of the statements about Green's functions: one dimension, hopping > 0 with lattice constant 1 or hopping 0, distinct phonon frequencies, BondPeierls not combined with other couplings", "why_tests_cant": "the number of sequences of programs, directories and orders of sets is unbounded, and a test that starts from an empty directory never meets the files of another process", "anchors": ["ggce/engine/system.py:System.__init__", "ggce/engine/system.py:System.from_checkpoint", "ggce/engine/system.py:System.checkpoint", "ggce/executors/solvers.py:Solver.__init__", "ggce/executors/solvers.py:SparseSolver.solve", "ggce/executors/solvers.py:DenseSolver.solve", "ggce/executors/solvers.py:BasicSolver.greens_function"]}
{"id": "C106", "title": "Programs for different models on one disk do not disturb each other", "statement": "Run any number of programs as in C105, now each for its own model, one after the other from an empty disk. Then no construction and no call raises an exception, and every number printed is that of the model of its own program, with the accuracy of C105.", "quantifier": "for every finite sequence of programs, every assignment of models to programs, every choice of solver, roots, checkpoint limits and set orders in each, and every sequence of calls with eta >= 4e-10. Domain of the statements about Green's functions: one dimension, hopping > 0 with lattice constant 1 or hopping 0, distinct phonon frequencies, BondPeierls not combined with other couplings", "why_tests_cant": "whether a program is disturbed depends on everything that ran before it, an unbounded set of histories", "anchors": ["ggce/engine/system.py:System.__init__", "ggce/engine/system.py:System.checkpoint", "ggce/engine/system.py:System.from_checkpoint", "ggce/executors/solvers.py:Solver.__init__", "ggce/executors/solvers.py:BasicSolver._pre_solve"]}
{"id": "C107", "title": "Programs that are killed never lead to wrong numbers later", "statement": "Run programs for one model on one disk, as in C105, but any of them may be killed at any moment, also between opening a file and writing it, and they need not be sensible (they may reload from directories where there is nothing, and call with any arguments). Whatever a later program prints is accurate as in C105: a number returned by a call with eta >= 4e-10 is the exact one (without a root) or within ten decimals' worth of it (with a root); the worst that can happen is an exception. And a later program that constructs its system runs to its end, whatever state the checkpoint is in, if the results directory it uses holds no incomplete file.", "quantifier": "for every history of programs killed or not, every step at which one is killed, every choice of solver, roots, limits and set orders in each, and every later program. Domain of the statements about Green's functions: one dimension, hopping > 0 with lattice constant 1 or hopping 0, distinct phonon frequencies, BondPeierls not combined with other couplings", "why_tests_cant": "the moments at which a process can die and the histories of such processes are unbounded, and checkpoint files of different runs (with different set orders) get mixed", "anchors": ["ggce/engine/system.py:System.checkpoint", "ggce/engine/system.py:System._prime_system", "ggce/engine/system.py:System.from_checkpoint", "ggce/executors/solvers.py:BasicSolver._pre_solve", "ggce/executors/solvers.py:BasicSolver._post_solve"]}
{"id": "C108", "title": "Whole programs with a linear solver that is not exact", "statement": "Run programs for one model on one disk, killed at any moment or not, whose linear solver is only good to a relative residual rho (norm of matrix times answer minus right-hand side, at most rho times the right-hand side). Every number a program prints for a call with eta >= 4e-10 differs from the exact one by at most (1 + sum |g_h| sqrt(N_h) / eta) rho / eta without a root. With a root it differs by at most that bound at eta - 1e-10 plus the ten decimals' worth of C105: errors are not amplified by reading results of earlier programs, and do not grow with the number of programs. If the linear solver does not raise, a program that constructs its system runs to its end.", "quantifier": "for every history of programs killed or not, every linear solver with that residual, every rho >= 0, every well-formed physical model and every point with eta >= 4e-10. Domain of the statements about Green's functions: one dimension, hopping > 0 with lattice constant 1 or hopping 0, distinct phonon frequencies, BondPeierls not combined with other couplings", "why_tests_cant": "a test compares with a reference at some points, and cannot bound the error for all models, linear solvers and histories of the disk", "anchors": ["ggce/executors/solvers.py:SparseSolver.solve", "ggce/executors/solvers.py:BasicSolver._pre_solve", "ggce/executors/solvers.py:BasicSolver._post_solve", "ggce/executors/solvers.py:BasicSolver.greens_function", "ggce/engine/system.py:System.from_checkpoint"]}
{"id": "C109", "title": "Programs that run at the same time on one disk", "statement": "Start programs for one model on one disk at any moment, and let them take their steps (test for a file, read it, open it for writing, fill it, print an answer) in any order; any of them may be killed. Every number that any of them prints for a call with eta >= 4e-10 is as accurate as C108 says for a program that runs alone. Every program comes to an end. No program raises because of the others.", "quantifier": "for every set of programs, every interleaving of their steps, every linear solver with relative residual rho, every well-formed physical model and every point with eta >= 4e-10. Domain of the statements about Green's functions: one dimension, hopping > 0 with lattice constant 1 or hopping 0, distinct phonon frequencies, BondPeierls not combined with other couplings", "why_tests_cant": "a test sees one schedule of the processes; the races are between two system calls, and the statement is about all schedules of any number of processes", "anchors": ["ggce/engine/system.py:System._save_model", "ggce/engine/system.py:System.checkpoint", "ggce/engine/system.py:System.from_checkpoint", "ggce/executors/solvers.py:BasicSolver._pre_solve", "ggce/executors/solvers.py:BasicSolver._post_solve", "ggce/executors/solvers.py:BasicSolver.greens_function"]}
{"id": "C110", "title": "Programs started with mpirun on one disk", "statement": "Start a program with mpirun on any number of ranks: every rank constructs the system and a SparseSolver or DenseSolver with the communicator, on a disk that other programs have used and may still use, and the ranks and the other programs take their steps in any order; any of them may be killed. Every number that rank 0 prints for a grid, and that any rank prints for solve, at eta >= 4e-10, is as accurate as C108 says for a program that runs alone; the other ranks print None for a grid. The ranks take only finitely many steps. No rank raises and none waits forever in gather, even if messages are not buffered.", "quantifier": "for every number of ranks, every order of iteration of sets on each rank, every program and every set of other programs, every interleaving of their steps, every linear solver with relative residual rho, every well-formed physical model and every point with eta >= 4e-10. Domain of the statements about Green's functions: one dimension, hopping > 0 with lattice constant 1 or hopping 0, distinct phonon frequencies, BondPeierls not combined with other couplings", "why_tests_cant": "the test suite runs with one rank; and the statement is about all schedules of ranks and gathers, with files that appear and disappear between two system calls", "anchors": ["ggce/executors/solvers.py:BasicSolver.greens_function", "ggce/executors/solvers.py:Solver.mpi_rank", "ggce/executors/solvers.py:Solver.mpi_world_size", "ggce/executors/solvers.py:BasicSolver._pre_solve", "ggce/executors/solvers.py:BasicSolver._post_solve", "ggce/engine/system.py:System.checkpoint"]}
{"id": "C111", "title": "A basis handed to the solver may number the unknowns in any order", "statement": "The basis argument of SparseSolver, DenseSolver and MassSolverMUMPS is a dictionary from identifiers to row numbers; by default it is system.get_basis(). If it has the same identifiers and numbers them 0, 1, 2, ... in any order (for DenseSolver: within each block), the solver returns the same Green's function. A basis in which an identifier is missing never gives a value: SparseSolver and MassSolverMUMPS refuse it with a KeyError, DenseSolver with a KeyError or with the exception that the remaining numbers cause first (IndexError, LinAlgError).", "quantifier": "for every well-formed model, every order of iteration of sets, every numbering of the identifiers, every point with eta > 0, every number of ranks up to the number of equations. Domain of the statements about Green's functions: one dimension, hopping > 0 with lattice constant 1 or hopping 0, distinct phonon frequencies, BondPeierls not combined with other couplings", "why_tests_cant": "no test passes a basis; there are N! numberings of N unknowns, and that a permuted linear system has the permuted solution is an algebraic fact", "anchors": ["ggce/executors/solvers.py:Solver.__init__", "ggce/executors/solvers.py:SparseSolver.__init__", "ggce/executors/solvers.py:SparseSolver._scaffold", "ggce/executors/solvers.py:DenseSolver._fill_matrix", "ggce/executors/petsc4py/base.py:MassSolver._scaffold", "ggce/executors/petsc4py/solvers.py:MassSolverMUMPS.solve", "ggce/engine/system.py:System.get_basis"]}
{"id": "C112", "title": "If the parallel solver reports nothing, its numbers are accurate", "statement": "MassSolverMUMPS checks every solution with the factors MUMPS has computed and reports when the relative tolerance rtol is exceeded. Suppose the factors invert the matrix up to a relative error delta < 1; the solution vectors may be anything. If a session of solve calls on one results directory ends without a report of a failed check, every number returned, computed or read from a file, differs from the exact one by at most rtol (1+delta)/(1-delta) sqrt(prod N!) (1 + sum |g| sqrt(N)/eta)/eta, taken at eta - 1e-10, plus the ten decimals of the file names. Vectors closer to the solution than rtol (1-delta)/(1+delta) of its norm are never reported.", "quantifier": "for every model assembled by valid add_ calls, every list of solve calls at any points with any numbers of ranks up to the number of equations, every behaviour of MUMPS whose factors are good to delta, every delta in [0,1), every rtol >= 0. Domain of the statements about Green's functions: one dimension, hopping > 0 with lattice constant 1 or hopping 0, distinct phonon frequencies, BondPeierls not combined with other couplings", "why_tests_cant": "the error of a linear solver depends on the machine and on the size of the problem, and a test can only compare with another approximate solution; that the check certifies an absolute error of the Green's function needs a bound on the inverse of the matrix for all models", "anchors": ["ggce/executors/petsc4py/base.py:MassSolver.check_conv_manual", "ggce/executors/petsc4py/solvers.py:MassSolverMUMPS.solve", "ggce/executors/petsc4py/solvers.py:MassSolverMUMPS._pre_solve", "ggce/executors/petsc4py/solvers.py:MassSolverMUMPS._post_solve"]}
{"id": "C113", "title": "The size of the linear system is known before it is built", "statement": "Besides the Green's function, the linear system has an unknown f_a(x) exactly for those clouds a of the truncated space and arguments x for which the adjoint of some Hamiltonian term, with shift phi, can act on a at a site y = phi - x without leaving the truncated space. The number of unknowns therefore is 1 plus the number of such pairs; it lies between 1 + c and 1 + c s, where c is the number of clouds and s the number of arguments within reach (2M-1 for Holstein, 2M for BondPeierls, 2M+1 for EdwardsFermionBoson and Peierls with one mode of extent M). The assembled matrix is square with one row per unknown, names no position twice, has every diagonal position and at most 1 + A ae + C (2 ae - 1) entries per row for A destruction and C creation terms (3M, 6M-1, 6M-1, 12M-3 for one mode of the four coupling types).", "quantifier": "for every well-formed one-dimensional model, every order of sets, every point (k, w, eta); the tables for one add_ call of any coupling type with any limits at zero temperature", "why_tests_cant": "the number of unknowns and entries decides whether a calculation fits into memory; tests and the notebook show it for a few limits only, and none of them says which unknowns there must be", "anchors": ["ggce/engine/system.py:System._initialize_equations", "ggce/engine/system.py:System._determine_unique_dictionary", "ggce/executors/solvers.py:SparseSolver._sparse_matrix_from_equations", "ggce/utils/combinatorics.py:total_generalized_equations", "notebooks/GGCE_Tutorial.ipynb"]}
{"id": "C114", "title": "With a results directory nothing is computed twice", "statement": "A solver with a root solves a linear system only for points without a result file, and of several points that agree in ten decimals only for the first: everything the calls return and leave on disk depends on the linear solver only through these points. After calls that all returned, the directory has exactly one new file per such point. A program that was killed or ended by an exception has lost nothing: every call it answered is answered again by a later program with the same root, with the same digits, without writing a result file, whatever the linear solver, solver class or model of the later program. The ranks of a MassSolver whose jobs all have result files never set up a matrix and all finish with the stored numbers.", "quantifier": "for all solvers (arbitrary functions), lists of solve and greens_function calls, results directories, programs killed at any step, later programs, and all interleavings of the ranks of any number of brigades", "why_tests_cant": "tests do not restart programs at all; that no point is recomputed is a statement about solvers that are not called, over all histories", "anchors": ["ggce/executors/solvers.py:BasicSolver._pre_solve", "ggce/executors/solvers.py:BasicSolver._post_solve", "ggce/executors/solvers.py:SparseSolver.solve", "ggce/executors/solvers.py:DenseSolver.solve", "ggce/executors/petsc4py/solvers.py:MassSolverMUMPS.solve"]}
{"id": "C115", "title": "Weak coupling is second-order perturbation theory", "statement": "For any history of acceptable add_ calls the returned Green's function is that of second-order perturbation theory, G2 = 1/(z + 2t cos k - S2), where every call contributes to S2 the emission of one of its phonons (1 + n times) and, at a temperature above zero, the absorption of one (n times), n being the Bose occupation. The error is at most Gamma^2 |G2|^2 |Im S2| / (2 eta^2), Gamma being the sum of the strengths of the coupling terms, and at most Gamma^2 V / (2 eta^5) with the variance V of the spectral function. So it is of fourth order in the couplings, with a constant that depends neither on the couplings nor on the limits on the phonons; the same bound holds for the Hamiltonian without limits.", "quantifier": "for all hoppings, temperatures, caps, lists of calls (coupling types, frequencies, strengths, extents, numbers), momenta, energies, broadenings, and both solvers. Domain of the statements about Green's functions: one dimension, hopping > 0 with lattice constant 1 or hopping 0, distinct phonon frequencies, BondPeierls not combined with other couplings", "why_tests_cant": "a rate of convergence as the coupling goes to zero, uniform in the size of the cloud; no finite set of runs shows it, and the repository has no test against perturbation theory", "anchors": ["ggce/model.py:Model.add_", "ggce/model.py:Hamiltonian.add_", "ggce/engine/equations.py:Equation", "ggce/engine/terms.py:Term.step", "ggce/executors/solvers.py:SparseSolver.solve", "ggce/executors/solvers.py:DenseSolver.solve"]}
{"id": "C116", "title": "Padded grids: what is added lies outside, and slicing gives the serial result", "statement": "The tutorial says about the grid padding of MassSolver.greens_function that it is always done outside the range specified by the user, and that result[:len(k), :len(w)] is the result on the requested grid. For axes that rise or fall in steps of more than 1e-10 no result file is shared by a padded and a requested point either, so that the brigades always finish and the slice has the right value at every requested point under every interleaving of the ranks, with or without a results directory.", "quantifier": "for all grids, world sizes, brigade sizes, solver functions, contents of the results directory, and interleavings of the ranks", "why_tests_cant": "all grid and world sizes, and all schedules of the ranks; the repository's brigade tests use evenly spaced grids of one size", "anchors": ["ggce/utils/utils.py:padded_kw", "ggce/executors/petsc4py/base.py:MassSolver.greens_function", "ggce/executors/petsc4py/solvers.py:MassSolverMUMPS.solve"]}
{"id": "C117", "title": "The polaron is bound: explicit bounds on its energy that hold for every truncation", "statement": "Whatever the limits on the clouds and the temperature, the lower edge of the computed spectral function at momentum k is at most the lower eigenvalue of the two-by-two matrix with diagonal -2 t cos(k a) and tau/v and off-diagonal sqrt(v), where v is the textbook variance and tau the mean energy of the scattered state times v. So it is strictly below the energy of the free electron unless all couplings vanish. For one Holstein coupling at temperature zero, with a positive frequency, the matrix has diagonal -2 t cos(k a), Omega and off-diagonal g, and with C67 the energy lies between -2 t - g^2/Omega and its lower eigenvalue. With limits of at least J+1 the (J+1)-step Lanczos energy of the Hamiltonian without limits is an upper bound too. The two-level bound is attained without hopping and with at most one phonon.", "quantifier": "for all histories of acceptable add_ calls (with positive frequencies at positive temperature), hoppings, temperatures, limits, momenta, orders J and coefficients. Domain of the statements about Green's functions: one dimension, hopping > 0 with lattice constant 1 or hopping 0, distinct phonon frequencies, BondPeierls not combined with other couplings", "why_tests_cant": "a bound for every coupling, momentum and truncation at once; tests compare single spectra with stored numbers and cannot say that no parameter choice gives an unbound electron", "anchors": ["ggce/executors/solvers.py:SparseSolver.solve", "ggce/executors/solvers.py:DenseSolver.solve", "ggce/model.py:Model.add_", "ggce/model.py:Hamiltonian.add_", "ggce/engine/equations.py:Equation.initialize_terms", "ggce/engine/system.py:System"]}
{"id": "C118", "title": "The polaron energy is a concave function of the parameters of the model", "statement": "For Holstein, EdwardsFermionBoson or BondPeierls couplings with fixed limits, the lower edge of the computed spectral function at k = 0 is a jointly concave function of the hopping, the coupling strengths and (at temperature zero) the phonon frequencies: a model whose hopping and coupling strengths are at most the weighted means of those of two others and whose frequencies are at least the weighted means has, at every momentum, its lower edge not below the weighted mean of their polaron energies. In particular, with all couplings scaled by s and all frequencies by u, the energy E(t, s, u) is concave on t, s, u > 0, so a value between two computed parameter points can be bounded from below by linear interpolation.", "quantifier": "for all pairs of histories of acceptable add_ calls with the same kinds and limits, all third histories in between, all weights in [0,1], all momenta, all set orders. Domain of the statements about Green's functions: one dimension, hopping > 0 with lattice constant 1 or hopping 0, distinct phonon frequencies, BondPeierls not combined with other couplings", "why_tests_cant": "an inequality between three different models over all real parameters, about the edge of a spectral function and not about its values at grid points", "anchors": ["ggce/executors/solvers.py:SparseSolver.solve", "ggce/executors/solvers.py:DenseSolver.solve", "ggce/model.py:Model.add_", "ggce/model.py:Hamiltonian.add_", "ggce/engine/equations.py:Equation.initialize_terms"]}
{"id": "C119", "title": "Preparing matrices and solving from them in one parallel program", "statement": "In a program where every MPI rank calls prepare_greens_function of one MassSolverMUMPS, constructs a second one with the same matr_dir and calls its greens_function (as in the tutorial on advanced PETSc use), no rank ever reads a matrix file another rank has not finished, no rank fails or waits for ever, and greens_function returns what it returns when the matrices are built from the basis; brigades may differ between the stages, and the first stage may be repeated over what a killed run has left behind.", "quantifier": "for all models, all numbers of ranks, all brigade sizes of the two stages, all grids without clashing file names, all interleavings of the ranks, all choices of sample files, all linear solvers", "why_tests_cant": "a statement about all interleavings of any number of processes on a shared directory; the test suite runs without MPI", "anchors": ["ggce/executors/petsc4py/base.py:MassSolver.__init__", "ggce/executors/petsc4py/base.py:MassSolver.split_into_brigades", "ggce/executors/petsc4py/base.py:MassSolver.prepare_greens_function", "ggce/executors/petsc4py/base.py:MassSolver.prepare_system", "ggce/executors/petsc4py/base.py:MassSolver._scaffold_from_disk", "ggce/executors/petsc4py/base.py:MassSolver._get_matr_size", "ggce/executors/petsc4py/base.py:MassSolver.greens_function", "docs/source/tutorials/petsc_advanced.rst"]}
{"id": "C120", "title": "The polaron band of one-site clouds is flatter than the free band", "statement": "For Holstein phonons with phonon_extent = 1 (any number of modes, any temperature with phonon_extent_tfd = 1, any phonon numbers, any cap) the momentum enters the result only through the energy eps(k) = -2 t cos(k a) of the free electron: there is one self-energy S(w, eta) with G(k, w, eta) = 1/(w + i eta - eps(k) - S(w, eta)) at all k. Consequently the polaron energy E(k), the lower edge of the computed spectral function at momentum k, rises and falls with eps(k) but never by more: if eps(q) <= eps(k) then 0 <= E(k) - E(q) <= eps(k) - eps(q), and E(k) <= eps(k). This is the statement of the tutorial that the polaron band lies below the free band, increases away from k = 0 and is flattened.", "quantifier": "for all histories of acceptable add_ calls of Holstein phonons with extent one, all pairs of momenta, all frequencies and broadenings, all set orders. Domain of the statements about Green's functions: one dimension, hopping > 0 with lattice constant 1 or hopping 0, distinct phonon frequencies, BondPeierls not combined with other couplings", "why_tests_cant": "an inequality between the edges of spectral functions for all pairs of momenta and all parameters; a test sees finitely many points of a broadened curve", "anchors": ["ggce/executors/solvers.py:SparseSolver.solve", "ggce/executors/solvers.py:DenseSolver.solve", "ggce/engine/equations.py:Equation.initialize_terms", "ggce/engine/terms.py:Term.coefficient", "docs/source/tutorials/petsc_intro.rst"]}
{"id": "C121", "title": "The printout of a System shows the equations that are solved", "statement": "System.visualize prints, under the headings N, ..., 1, 0 (the numbers of phonons, from the largest down), the equations of the system, each exactly once and under the heading of its number of phonons, each with its own terms. With coef=[k, w, eta] the coefficients shown are the matrix that the sparse solver sets up at that point: the unknowns on the left are distinct and number the rows, and the sum of the coefficients shown for an unknown in an equation is the entry of the matrix. full=True prints the same lines with longer identifiers. generalized=True shows one equation for every cloud of the truncated space, those with n phonons under the heading n, and the Green's function under 0.", "quantifier": "for all well-formed models, all set orders, all points, all values of the options", "why_tests_cant": "the printout of every model is compared with the matrix of every point; the tests never call it", "anchors": ["ggce/engine/system.py:System.visualize", "ggce/engine/equations.py:Equation.visualize", "ggce/executors/solvers.py:SparseSolver._sparse_matrix_from_equations"]}
{"id": "C122", "title": "The computed polaron energy is an upper bound of the exact one and converges to it", "statement": "At zero temperature, for couplings other than Peierls, the Hamiltonian without limits has a lowest energy E at zero momentum (the lower end of the one probability measure that has its moments); it lies between the floor of C67 and -2 t, and there is no weight below E at any other momentum. Whatever the limits given to add_ and to max_bosons_per_site, the lower edge of the spectral function computed from the returned Green's functions is at E or above, at every momentum. At zero momentum it comes as close to E as one likes once all limits are large enough, in whatever proportion they grow.", "quantifier": "for all sets of calls of add_ with positive frequencies and coupling strengths, all limits, all momenta, all set orders; for all accuracies there is a bound on the limits. Domain of the statements about Green's functions: one dimension, hopping > 0 with lattice constant 1 or hopping 0, distinct phonon frequencies, BondPeierls not combined with other couplings", "why_tests_cant": "the exact energy is the infimum over an infinite family of truncations, and both the bound and the convergence quantify over all of them", "anchors": ["ggce/model.py:Model.add_", "ggce/engine/system.py:System", "ggce/executors/solvers.py:SparseSolver.greens_function", "ggce/executors/solvers.py:DenseSolver.greens_function"]}
{"id": "C123", "title": "A negative broadening gives the advanced Green's function", "statement": "For every model, momentum and frequency, the number returned for broadening -eta is the complex conjugate of the one returned for eta (the advanced Green's function). Nothing in the code refuses a negative eta.", "quantifier": "for all models, momenta, frequencies and eta > 0", "why_tests_cant": "no test uses a negative broadening, and the numbers returned there look like a Green's function", "anchors": ["ggce/utils/physics.py:g0_delta_omega", "ggce/utils/physics.py:G0_k_omega", "ggce/executors/solvers.py:SparseSolver.solve", "ggce/executors/solvers.py:DenseSolver.solve"]}
{"id": "C124", "title": "The polaron energy at zero momentum is the ground-state energy, and trial states bound it from above", "statement": "With couplings of one sign (Holstein, EdwardsFermionBoson, BondPeierls; not Peierls) the lowest energy at which the spectral function at k = 0 is nonzero is the ground-state energy of the Hamiltonian restricted to the given limits: no state of any momentum within the limits has a lower energy. The same holds without limits: the energy to which the computed ones converge from above at T = 0 is the ground-state energy of the unrestricted Hamiltonian. So every trial state bounds the computed energy from above; for a Holstein polaron at T = 0 a displaced oscillator gives at most -g^2/Omega - 2 t exp(-g^2/Omega^2) once enough phonons are allowed.", "quantifier": "for all histories of acceptable calls without Peierls and with nonzero couplings, t > 0 and temperatures; the Holstein bound also for t = 0 and for every finite limit on the phonons. Domain of the statements about Green's functions: one dimension, hopping > 0 with lattice constant 1 or hopping 0, distinct phonon frequencies, BondPeierls not combined with other couplings", "why_tests_cant": "compares the edge of a spectral function, a limit over infinitely many frequencies and broadenings, with an infimum over all states of all momenta", "anchors": ["ggce/model.py:Model.add_", "ggce/model.py:Hamiltonian._get_SingleTerm_objects", "ggce/engine/equations.py:Equation.initialize_terms", "ggce/executors/solvers.py:SparseSolver.greens_function", "ggce/executors/solvers.py:DenseSolver.greens_function"]}
{"id": "C125", "title": "The fit of a Lorentzian with scipy finds the peak", "statement": "If the given values lie on one Lorentzian and the frequencies are at least three different ones, peak_location_and_weight_scipy returns its location, and its weight and width up to a common sign, provided curve_fit finds the minimum of the sum of squares. For the spectral function of the free electron these are the band energy, 1 and the broadening.", "quantifier": "for all lists of frequencies with three different ones, all locations, nonzero weights and widths, and every least-squares routine", "why_tests_cant": "all reals, and every behaviour of the least-squares routine", "anchors": ["ggce/utils/utils.py:peak_location_and_weight_scipy", "ggce/utils/utils.py:lorentzian", "ggce/utils/physics.py:G0_k_omega"]}
{"id": "C126", "title": "A phonon configuration survives being written as JSON and read back", "statement": "Config.from_dict applied to the JSON of a Config gives a Config with the same array, the same identifier, the same budget of modifications and the same number of modifications made. The terms are MSONable as well, so the same is expected of them.", "quantifier": "for all configurations that can be constructed, in any number of dimensions, after any history of additions and removals", "why_tests_cant": "the test in the repository reads back one array, which was not modified before", "anchors": ["ggce/engine/terms.py:Config", "ggce/engine/terms.py:Config.__init__", "ggce/engine/terms.py:Term.__init__", "ggce/engine/terms.py:IndexTerm", "ggce/engine/terms.py:Config.add_phonon_"]}
{"id": "C127", "title": "What a printed Hamiltonian tells", "statement": "Printing a Hamiltonian (str, visualize) shows one line per term, in order. From the text one can read off the number of terms and for each the coupling type, both shifts, the dagger, the phonon type, and the coupling and the frequency. Two different Hamiltonians therefore print different texts.", "quantifier": "for all Hamiltonians, in particular those of models made with any add_ calls", "why_tests_cant": "no test looks at the printed text; that two different Hamiltonians never look the same is a statement about all pairs", "anchors": ["ggce/model.py:SingleTerm.__str__", "ggce/model.py:Hamiltonian.__str__", "ggce/model.py:Hamiltonian.visualize"]}
{"id": "C128", "title": "Rounding errors of the coefficients", "statement": "The free propagators, phases and matrix elements are computed in floating-point arithmetic, and the system is stored in finite precision. If the precision is fine enough, the solver still succeeds, and the Green's function it returns differs from the one in exact arithmetic by at most a constant times the unit roundoff; the constant depends on the model and the point only. In particular the evaluation of the propagator does not pick a wrong branch of a square root near the band edges.", "quantifier": "for all one-dimensional models with the built-in couplings, all momenta, frequencies and positive broadenings, all floating-point arithmetics given by a bound on the error of each operation, and all exact sparse solvers. Domain of the statements about Green's functions: one dimension, hopping > 0 with lattice constant 1 or hopping 0, distinct phonon frequencies, BondPeierls not combined with other couplings", "why_tests_cant": "tests compare with reference values at a few points with a tolerance; how the error grows with the number of sites, the broadening and the band width cannot be seen from points, and a wrong branch would show up at isolated energies only", "anchors": ["ggce/utils/physics.py:g0_delta_omega", "ggce/utils/physics.py:G0_k_omega", "ggce/engine/terms.py:NonIndexTerm.coefficient", "ggce/executors/solvers.py:SparseSolver.solve"]}
{"id": "C129", "title": "Floating-point arithmetic from beginning to end", "statement": "The sparse solver computes with rounding errors everywhere: in the propagators and phases, in the products that make up a coefficient, in the sums of coefficients that belong to one matrix element, in the storage of the matrix, and in the linear solver. If the precision is fine enough the solver still answers, and its answer differs from the Green's function in exact arithmetic by at most a constant times the precision; the constant depends on the model and the point only. From some precision on the computed spectral function is positive, so that the result is checkpointed.", "quantifier": "for all one-dimensional models with the built-in couplings, all momenta, frequencies and positive broadenings, all floating-point arithmetics given by a bound on the error of each operation, and all backward stable linear solvers. Domain of the statements about Green's functions: one dimension, hopping > 0 with lattice constant 1 or hopping 0, distinct phonon frequencies, BondPeierls not combined with other couplings", "why_tests_cant": "tests compare with reference values to a few digits at a few points; they cannot tell whether an agreement is a property of the algorithm or luck, nor how much precision a larger system or a smaller broadening needs", "anchors": ["ggce/executors/solvers.py:SparseSolver.solve", "ggce/executors/solvers.py:SparseSolver._scaffold", "ggce/executors/solvers.py:SparseSolver._sparse_matrix_from_equations", "ggce/engine/terms.py:NonIndexTerm.coefficient", "ggce/engine/terms.py:EOMTerm.coefficient"]}
{"id": "C130", "title": "The couplings are the Hamiltonians of the literature", "statement": "For every sequence of valid add_ calls the solvers return <k|(w + i eta - H)^-1 c0^dagger|0> for the Hamiltonian H written in the textbook way, with operators that create and annihilate phonons and move the electron: -t sum c_i^dagger c_j + Omega sum b_i^dagger b_i plus, for each call, the coupling that its name stands for in the literature (Holstein, EdwardsFermionBoson, BondPeierls, Peierls), restricted to the phonons within the limits given in the calls. The coupling constant is the one requested, or the one with the requested dimensionless strength; its sign may be chosen as in any paper. At a finite temperature H is the thermofield double.", "quantifier": "for all hoppings, temperatures, limits and sequences of valid calls with built-in couplings (one-dimensional models, distinct frequencies, BondPeierls not mixed with others), all momenta, frequencies, positive broadenings, and all signs of the coupling constants. Domain of the statements about Green's functions: one dimension, hopping > 0 with lattice constant 1 or hopping 0, distinct phonon frequencies, BondPeierls not combined with other couplings", "why_tests_cant": "tests compare with a few digitised curves; a coupling with a wrong site or sign in one of its terms gives a plausible spectrum too", "anchors": ["ggce/model.py:Hamiltonian._get_SingleTerm_objects", "ggce/model.py:SingleTerm", "ggce/model.py:Model.add_", "docs/source/tutorials/introduction.rst:22", "ggce/executors/solvers.py:SparseSolver.solve", "ggce/executors/solvers.py:DenseSolver.solve"]}
{"id": "C131", "title": "Growing limits approach the textbook Green's function", "statement": "When the limits given in the add_ calls and the absolute cap grow, in whatever way, the numbers returned by the solvers converge to <k|(w + i eta - H)^-1 c0^dagger|0> for the Hamiltonian H of the literature with all phonons and no limits, written with creation and annihilation operators. That Green's function exists and is unique.", "quantifier": "for all hoppings, temperatures and sequences of valid calls with built-in couplings (one-dimensional models, distinct frequencies, BondPeierls not mixed with others), all momenta, frequencies, positive broadenings, all signs of the coupling constants, all limits at least a bound that depends on the tolerance, all orders of sets. Domain of the statements about Green's functions: one dimension, hopping > 0 with lattice constant 1 or hopping 0, distinct phonon frequencies, BondPeierls not combined with other couplings", "why_tests_cant": "no finite set of limits shows a limit, and the exact Hamiltonian with all phonons cannot be solved on a computer", "anchors": ["ggce/model.py:Model.add_", "ggce/model.py:Hamiltonian._get_SingleTerm_objects", "ggce/engine/system.py:System.__init__", "ggce/executors/solvers.py:SparseSolver.solve", "ggce/executors/solvers.py:DenseSolver.solve", "docs/source/tutorials/introduction.rst:22"]}
{"id": "C132", "title": "Dense solver in floating-point arithmetic throughout", "statement": "DenseSolver.solve in floating-point arithmetic of accuracy u, from the free propagators and phases over the products in the coefficients, the blocks filled in complex64, the products of matrices, linalg.solve at every level of the continued fraction, to the final division and conversion: for every model and point there are an accuracy and a constant such that on every machine of better accuracy u the solver answers (it does not raise LinAlgError or divide by zero), with an error of at most the constant times u; the spectral function is then positive, and the two solvers agree up to a multiple of u.", "quantifier": "for all sequences of valid calls with built-in couplings (one-dimensional, distinct frequencies, BondPeierls not mixed), all momenta, frequencies and positive broadenings, and all arithmetics of accuracy u in which elementary operations, products of matrices and a backward stable linear solver have errors within u. Domain of the statements about Green's functions: one dimension, hopping > 0 with lattice constant 1 or hopping 0, distinct phonon frequencies, BondPeierls not combined with other couplings", "why_tests_cant": "tests compare a few values on one machine; that rounding errors are not blown up by the recursion is a statement about all models and machines", "anchors": ["ggce/executors/solvers.py:DenseSolver._fill_matrix", "ggce/executors/solvers.py:DenseSolver.solve", "ggce/engine/terms.py:EOMTerm.coefficient", "ggce/engine/terms.py:NonIndexTerm.coefficient", "ggce/utils/physics.py:g0_delta_omega"]}
{"id": "C133", "title": "Computed polaron energies approach the ground-state energy of the textbook Hamiltonian from above", "statement": "The Hamiltonian of the literature for one electron on the infinite chain with all phonons has a ground-state energy E, and no computed spectral function has weight below E, whatever the couplings, the momentum and the limits. Without Peierls couplings the polaron energy read off the computed spectra at k = 0 (the lower edge of the spectral function) comes as close to E as desired when the limits grow. For the Holstein model E lies between -2t - g^2/Omega and the Lang-Firsov value -g^2/Omega - 2t exp(-g^2/Omega^2).", "quantifier": "for all hoppings t >= 0 (t > 0 for the convergence), all sequences of valid calls with built-in couplings (one-dimensional models, zero temperature, positive distinct frequencies, BondPeierls not mixed with others; for the convergence also non-zero couplings and no Peierls), all signs of the coupling constants in the literature, all limits, caps, momenta and orders of sets", "why_tests_cant": "the ground-state energy is an infimum over all superpositions of all occupations on an infinite chain; no finite computation yields it, and tests compare a few truncated energies with tabulated ones", "anchors": ["ggce/model.py:Model.add_", "ggce/model.py:Hamiltonian._get_SingleTerm_objects", "ggce/engine/system.py:System.__init__", "ggce/executors/solvers.py:SparseSolver.solve", "ggce/executors/solvers.py:DenseSolver.solve", "docs/source/tutorials/introduction.rst:22"]}
{"id": "C134", "title": "Rounding of the couplings, too", "statement": "The coupling strengths of a model are computed (g from lambda by a square root in model_coupling_map, the thermofield prefactors by exp, arctanh, cosh and sinh) and therefore off by some multiple K of the accuracy u. If add_ is called with such strengths, the system is built from them and the sparse solver runs in floating-point arithmetic throughout, then from some accuracy on everything succeeds, the Green's function returned differs from that of the exact model by at most a constant times u, and its spectral function is positive.", "quantifier": "for all sequences of valid calls with built-in couplings given by g or lambda (one-dimensional, distinct frequencies, BondPeierls not mixed), all temperatures, momenta, frequencies and positive broadenings, all K, all conversions with relative errors within K u at the calls made, all arithmetics of accuracy u, all orders of set iteration. Domain of the statements about Green's functions: one dimension, hopping > 0 with lattice constant 1 or hopping 0, distinct phonon frequencies, BondPeierls not combined with other couplings", "why_tests_cant": "tests run one machine at a few parameters; how an error in the model propagates through the equations is a statement about all of them", "anchors": ["ggce/model.py:model_coupling_map", "ggce/model.py:Model._get_TFD_coupling_prefactors", "ggce/model.py:Model.add_", "ggce/executors/solvers.py:SparseSolver.solve"]}
{"id": "C135", "title": "From the Hamiltonian of the literature to the number in the computer", "statement": "Truncation and rounding together: for every tolerance there are limits such that, whatever larger limits are given in the add_ calls, there is an accuracy of the arithmetic from which on the number that the solvers compute is within the tolerance of <k|(w + i eta - H)^-1 c0^dagger|0> for the Hamiltonian H of the literature with all phonons. For the sparse solver this includes the rounding of the coupling strengths computed from lambda and the temperature.", "quantifier": "for all hoppings, temperatures and sequences of valid calls with built-in couplings (one-dimensional, distinct frequencies, BondPeierls not mixed), all momenta, frequencies and positive broadenings, all tolerances, all limits above a bound, all arithmetics and libraries above an accuracy, all orders of sets. Domain of the statements about Green's functions: one dimension, hopping > 0 with lattice constant 1 or hopping 0, distinct phonon frequencies, BondPeierls not combined with other couplings", "why_tests_cant": "tests compare a few digits of a few results with published curves; the statement is about all parameters and about the limit of exact results", "anchors": ["ggce/model.py:Model.add_", "ggce/engine/system.py:System", "ggce/executors/solvers.py:SparseSolver.solve", "ggce/executors/solvers.py:DenseSolver.solve", "ggce/utils/physics.py:g0_delta_omega"]}
