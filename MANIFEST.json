{
 "claims": [
  {
   "property": "C01",
   "status": "proved",
   "theorems": [
    "GGCE.Props.C01_config_space_gen"
   ],
   "note": "membership iff and no duplicates, every length >= 1"
  },
  {
   "property": "C02",
   "status": "proved",
   "theorems": [
    "GGCE.Props.C02_config_legal",
    "GGCE.Props.C02_cancelling_fails",
    "GGCE.Props.C02_short_extent_raises"
   ],
   "note": "iff with the infinite-chain legality; too-short limit lists raise"
  },
  {
   "property": "C03",
   "status": "proved",
   "theorems": [
    "GGCE.Props.C03_add_phonon",
    "GGCE.Props.C03_missing_type"
   ],
   "note": "one spatial dimension, any integer site"
  },
  {
   "property": "C04",
   "status": "proved",
   "theorems": [
    "GGCE.Props.C04_remove_phonon"
   ],
   "note": "one spatial dimension"
  },
  {
   "property": "C05",
   "status": "proved",
   "theorems": [
    "GGCE.Props.C05_histories",
    "GGCE.Props.C05_no_vacuum",
    "GGCE.Props.C05_vacuum_exception"
   ],
   "note": "any history; the off-site addition to a vacuum is excluded by hypothesis and shown to break the claim"
  },
  {
   "property": "C06",
   "status": "proved",
   "theorems": [
    "GGCE.Props.C06_add_remove"
   ],
   "note": ""
  },
  {
   "property": "C07",
   "status": "proved",
   "theorems": [
    "GGCE.Props.C07_budget",
    "GGCE.Props.C07_exhausted"
   ],
   "note": ""
  },
  {
   "property": "C08",
   "status": "partial",
   "theorems": [
    "GGCE.Props.C08_bad_removal_partial",
    "GGCE.Props.C08_negative_wraps",
    "GGCE.Props.C08_negative_index_accepted"
   ],
   "note": "non-negative indices abort as documented; negative indices wrap around instead of aborting (proved, the documented claim is false)"
  },
  {
   "property": "C09",
   "status": "proved",
   "theorems": [
    "GGCE.Props.C09_identifiers"
   ],
   "note": ""
  },
  {
   "property": "C10",
   "status": "proved",
   "theorems": [
    "GGCE.Props.C10_generate_all"
   ],
   "note": "keys, exactness per key, completeness"
  },
  {
   "property": "C11",
   "status": "proved",
   "theorems": [
    "GGCE.Props.C11_count",
    "GGCE.Props.C11_comb"
   ],
   "note": ""
  },
  {
   "property": "C12",
   "status": "proved",
   "theorems": [
    "GGCE.Props.C12_right_hand_side",
    "GGCE.Props.C12_removals_always_possible",
    "GGCE.Props.C12_green"
   ],
   "note": "exact list of terms per Hamiltonian term; Green's function equation included"
  },
  {
   "property": "C13",
   "status": "proved",
   "theorems": [
    "GGCE.Props.C13_phonon_number_step"
   ],
   "note": ""
  },
  {
   "property": "C14",
   "status": "proved",
   "theorems": [
    "GGCE.Props.C14_term_arguments"
   ],
   "note": ""
  },
  {
   "property": "C15",
   "status": "proved",
   "theorems": [
    "GGCE.Props.C15_single_green"
   ],
   "note": ""
  },
  {
   "property": "C16",
   "status": "proved",
   "theorems": [
    "GGCE.Props.C16_assembled",
    "GGCE.Props.C16_single_coupling",
    "GGCE.Props.C16_closure"
   ],
   "note": "for every well-formed model (Spec.WellFormed) and every set iteration order; C16_assembled and C16_single_coupling start from the user's add_ calls"
  },
  {
   "property": "C17",
   "status": "proved",
   "theorems": [
    "GGCE.Props.C17_basis"
   ],
   "note": ""
  },
  {
   "property": "C18",
   "status": "proved",
   "theorems": [
    "GGCE.Props.C18_green_last"
   ],
   "note": ""
  },
  {
   "property": "C19",
   "status": "proved",
   "theorems": [
    "GGCE.Props.C19_sparse_matrix",
    "GGCE.Props.C19_solutions"
   ],
   "note": "exact arithmetic over any field, any coefficient functions; every well-formed model with a successful build"
  },
  {
   "property": "C20",
   "status": "proved",
   "theorems": [
    "GGCE.Props.C20_dense_blocks"
   ],
   "note": "exact arithmetic; block matrices of the dense solver entry by entry"
  },
  {
   "property": "C21",
   "status": "proved",
   "theorems": [
    "GGCE.Props.C21_sparse_dense_agree"
   ],
   "note": "exact arithmetic; whenever the dense solver returns a value it is the value of every solution of the sparse system"
  },
  {
   "property": "C22",
   "status": "proved",
   "theorems": [
    "GGCE.Props.C22_nonsingular",
    "GGCE.Props.C22_assembled"
   ],
   "note": "C22_nonsingular for well-formed models with built-in shifts and self-adjoint coupling; C22_assembled from the user's side. Also covers zero hopping. Real arithmetic, not floating point."
  },
  {
   "property": "C23",
   "status": "proved",
   "theorems": [
    "GGCE.Props.C23_spectral_positive",
    "GGCE.Props.C23_assembled"
   ],
   "note": "Strict positivity, from an energy identity over the infinite lattice. Real arithmetic, not floating point."
  },
  {
   "property": "C24",
   "status": "proved",
   "theorems": [
    "GGCE.Props.C24_propagator",
    "GGCE.Props.C24_only_unit_lattice"
   ],
   "note": "Proved on the domain in the statement; C24_only_unit_lattice shows the recurrence holds only for zero hopping or positive hopping with unit lattice constant."
  },
  {
   "property": "C25",
   "status": "proved",
   "theorems": [
    "GGCE.Props.C25_free_weight"
   ],
   "note": ""
  },
  {
   "property": "C26",
   "status": "proved",
   "theorems": [
    "GGCE.Props.C26_chunks_separate",
    "GGCE.Props.C26_entries",
    "GGCE.Props.C26_total",
    "GGCE.Props.C26_parallel",
    "GGCE.Props.C26_integer_fails"
   ],
   "note": "Entry [i,j] is the solution at (k_i,w_j); for every number of ranks rank 0 returns the serial result and all others None, errors included. C26_integer_fails records that an integer grid argument is a TypeError (float_to_list). C26_chunks_separate: chunks of a grid without repeated points meet the premises of C31_shared_partial, so ranks sharing a results directory do not disturb each other in any interleaving."
  },
  {
   "property": "C27",
   "status": "proved",
   "theorems": [
    "GGCE.Props.C27_chunks",
    "GGCE.Props.C27_bad_rank"
   ],
   "note": "chunk_jobs over all ranks partitions any job list, sizes differ by at most one; errors outside the domain."
  },
  {
   "property": "C28",
   "status": "partial",
   "theorems": [
    "GGCE.Props.C28_serial",
    "GGCE.Props.C28_divisible_partial",
    "GGCE.Props.C28_values_partial",
    "GGCE.Props.C28_shape_fails",
    "GGCE.Props.C28_single_point_fails",
    "GGCE.Props.C28_nan_fails",
    "GGCE.Props.C28_uneven_fails"
   ],
   "note": "Proved for world sizes divisible by the brigade size and results without NaN: the returned values are the serial results on the (padded) grid. False as stated: after padding the shape is that of the padded grid, a single point raises, a NaN value is filtered out and the reshape raises, a world size not divisible is refused."
  },
  {
   "property": "C29",
   "status": "partial",
   "theorems": [
    "GGCE.Props.C29_padding_partial",
    "GGCE.Props.C29_single_point_fails",
    "GGCE.Props.C29_many_brigades_fail"
   ],
   "note": "Proved for at least two points on the padded axis and at most 1000 brigades (the default ext). Missing: nothing true; single-point grids and more brigades fail with IndexError, proved as C29_single_point_fails and C29_many_brigades_fail."
  },
  {
   "property": "C30",
   "status": "partial",
   "theorems": [
    "GGCE.Props.C30_ownership",
    "GGCE.Props.C30_rank",
    "GGCE.Props.C30_assembly",
    "GGCE.Props.C30_solve_partial",
    "GGCE.Props.C30_physical_partial",
    "GGCE.Props.C30_large_brigade_fails"
   ],
   "note": "Ownership, exact preallocation and distributed assembly are proved for every matrix and brigade size (C30_ownership, C30_rank, C30_assembly). The value read back is the last component of the solution for brigades with at most as many ranks as equations (C30_solve_partial, C30_physical_partial). With more ranks than equations the last rank owns no row and reading G raises IndexError (C30_large_brigade_fails). PETSc itself is modelled from its documentation and MUMPS is a parameter."
  },
  {
   "property": "C31",
   "status": "partial",
   "theorems": [
    "GGCE.Props.C31_key_iff",
    "GGCE.Props.C31_rounding",
    "GGCE.Props.C31_key_near",
    "GGCE.Props.C31_key_lattice",
    "GGCE.Props.C31_transparent_partial",
    "GGCE.Props.C31_ten_decimals_partial",
    "GGCE.Props.C31_no_root",
    "GGCE.Props.C31_collision_fails",
    "GGCE.Props.C31_other_system_fails",
    "GGCE.Props.C31_shared_partial",
    "GGCE.Props.C31_race_fails"
   ],
   "note": "Transparent for every history whose points with equal file names have equal results (in particular all inputs with at most ten decimals), also for several agreeing solvers on one directory and for all interleavings of processes with distinct points. False in general: points closer than 1e-10 collide (physical witness), the directory does not record the system, and two processes sharing a point can hit EOFError."
  },
  {
   "property": "C32",
   "status": "partial",
   "theorems": [
    "GGCE.Props.C32_negative_saved",
    "GGCE.Props.C32_negative_exists",
    "GGCE.Props.C32_positive_partial"
   ],
   "note": "The claim in the documentation is false: a negative result is reported and saved (C32_negative_saved), and negative results exist (negative broadening, C32_negative_exists). Proved: for physical models and positive broadening no result is negative, so none is saved (C32_positive_partial)."
  },
  {
   "property": "C33",
   "status": "partial",
   "theorems": [
    "GGCE.Props.C33_pickles_partial",
    "GGCE.Props.C33_model_fails",
    "GGCE.Props.C33_mixed_checkpoint"
   ],
   "note": "Once written, the three pickle files are never changed by any later construction or checkpoint in the same directory (any sequence of operations), C33_pickles_partial. The claim for the whole directory is false: model.json is opened in mode 'w' and rewritten by every construction (C33_model_fails), so a second, different model on the same root gives a directory with the new model and the old equations (C33_mixed_checkpoint). The code has no compatibility check."
  },
  {
   "property": "C34",
   "status": "proved",
   "theorems": [
    "GGCE.Props.C34_round_trip",
    "GGCE.Props.C34_default_limit",
    "GGCE.Props.C34_later_addition_fails"
   ],
   "note": "A system loaded from a complete checkpoint has the same model (as seen through the public attributes), generalized equations, argument lists and equations as the one that wrote it. C34_later_addition_fails records a limit of the statement: the restored model stores the inferred absolute extent as if it had been given, so a coupling added later behaves differently. C34_default_limit: with the default limit the equations are saved exactly up to 1,000,000 of them, everything else always."
  },
  {
   "property": "C35",
   "status": "partial",
   "theorems": [
    "GGCE.Props.C35_recover_partial",
    "GGCE.Props.C35_between_pickles_fails",
    "GGCE.Props.C35_before_model_fails",
    "GGCE.Props.C35_torn_pickle_permanent",
    "GGCE.Props.C35_reload_can_destroy"
   ],
   "note": "Proved: from a directory in which every present file is whole and the generalized equations come with their argument list, reloading gives the system that a fresh construction gives (C35_recover_partial). False in general: a crash before model.json is closed, between the first two pickles, or in the middle of a pickle leaves a directory that cannot be loaded (three witnesses), and a torn pickle is never repaired; a failed reload can also destroy information (C35_reload_can_destroy)."
  },
  {
   "property": "C36",
   "status": "partial",
   "theorems": [
    "GGCE.Props.C36_solver_root_fails",
    "GGCE.Props.C36_same_root_partial"
   ],
   "note": "Solver(system, root) does not pass its root to the system, so a solver root that differs from the system's root never receives the checkpoint and cannot be used alone later (C36_solver_root_fails). With the same root for both, reloading from the root alone gives the same solver (C36_same_root_partial)."
  },
  {
   "property": "C37",
   "status": "partial",
   "theorems": [
    "GGCE.Props.C37_rejected_unchanged_partial",
    "GGCE.Props.C37_unknown_type_changes_model"
   ],
   "note": "every documented rejection except unknown coupling types; for unknown types the claim is false (proved): the phonon type is registered although no term is added"
  },
  {
   "property": "C38",
   "status": "proved",
   "theorems": [
    "GGCE.Props.C38_bookkeeping",
    "GGCE.Props.C38_terms_belong",
    "GGCE.Props.C38_pairs"
   ],
   "note": "any history of add_ calls"
  },
  {
   "property": "C39",
   "status": "partial",
   "theorems": [
    "GGCE.Props.C39_frequencies_partial",
    "GGCE.Props.C39_equal_frequencies_fail"
   ],
   "note": "holds for distinct frequencies; false for equal frequencies (proved: construction then always raises IndexError)"
  },
  {
   "property": "C40",
   "status": "proved",
   "theorems": [
    "GGCE.Props.C40_hermitian",
    "GGCE.Props.C40_adjoint_involutive"
   ],
   "note": "any history of add_ calls"
  },
  {
   "property": "C41",
   "status": "proved",
   "theorems": [
    "GGCE.Props.C41_thermofield",
    "GGCE.Props.C41_zero_temperature"
   ],
   "note": ""
  },
  {
   "property": "C42",
   "status": "proved",
   "theorems": [
    "GGCE.Props.C42_coupling_map",
    "GGCE.Props.C42_sign_and_names",
    "GGCE.Props.C42_names"
   ],
   "note": ""
  },
  {
   "property": "C43",
   "status": "proved",
   "theorems": [
    "GGCE.Props.C43_buffer",
    "GGCE.Props.C43_flush"
   ],
   "note": "Arbitrary histories of calls and flushes; file names (uuid4) assumed not to collide."
  },
  {
   "property": "C44",
   "status": "proved",
   "theorems": [
    "GGCE.Props.C44_two_broadenings",
    "GGCE.Props.C44_recovers",
    "GGCE.Props.C44_on_peak_fails",
    "GGCE.Props.C44_two_frequencies",
    "GGCE.Props.C44_two_frequencies_defined",
    "GGCE.Props.C44_two_frequencies_choice",
    "GGCE.Props.C44_two_frequencies_recovers",
    "GGCE.Props.C44_two_frequencies_wrong_peak"
   ],
   "note": "Exact real arithmetic. Left of the peak the returned location is the mirror image (C44_two_broadenings), on the peak the result is nan (C44_on_peak_fails). For two frequencies, C44_two_frequencies_choice says which of the two Lorentzians is returned, C44_two_frequencies_recovers when it is the right one, and C44_two_frequencies_wrong_peak gives a case where it is not."
  },
  {
   "property": "C45",
   "status": "partial",
   "theorems": [
    "GGCE.Props.C45_combinations_partial",
    "GGCE.Props.C45_bond_peierls_mixture_fails"
   ],
   "note": "holds without BondPeierls or with BondPeierls only; false for every mixture (proved: construction always raises TypeError)"
  },
  {
   "property": "C46",
   "status": "partial",
   "theorems": [
    "GGCE.Props.C46_zero_couplings_partial",
    "GGCE.Props.C46_assembled_partial",
    "GGCE.Props.C46_free_model_fails"
   ],
   "note": "A model with all coupling strengths zero gives exactly the free propagator at every k, w, eta (C46_zero_couplings_partial, C46_assembled_partial). A model without any coupling term cannot be solved: KeyError (negation proved)."
  },
  {
   "property": "C47",
   "status": "partial",
   "theorems": [
    "GGCE.Props.C47_lazy_fails",
    "GGCE.Props.C47_primed_partial",
    "GGCE.Props.C47_default_primed"
   ],
   "note": "A solver built on a system constructed with autoprime=False and not primed fails instead of priming it (C47_lazy_fails); on a primed system the solver is the same as with eager priming (C47_primed_partial)."
  },
  {
   "property": "C48",
   "status": "proved",
   "theorems": [
    "GGCE.Props.C48_sign",
    "GGCE.Props.C48_negated_calls"
   ],
   "note": "For every well-formed model, every point and any odd conversion to complex numbers; both solvers."
  },
  {
   "property": "C49",
   "status": "proved",
   "theorems": [
    "GGCE.Props.C49_periodic",
    "GGCE.Props.C49_assembled"
   ],
   "note": "General form for any coefficient functions with the period; C49_assembled instantiates it with the physical ones for models assembled by valid calls. Mixtures of BondPeierls with other types never build (C45)."
  },
  {
   "property": "C50",
   "status": "proved",
   "theorems": [
    "GGCE.Props.C50_history",
    "GGCE.Props.C50_add",
    "GGCE.Props.C50_assign",
    "GGCE.Props.C50_fresh",
    "GGCE.Props.C50_default",
    "GGCE.Props.C50_system",
    "GGCE.Props.C50_setter_fails"
   ],
   "note": "Proved on a memory model with addresses (Verif/Model/Heap.lean): after any program that never assigns model.hamiltonian, operations not addressed to a model (additions, and since the last extension any in-place change of the lists of terms and frequencies of a Hamiltonian, including assignments to attributes of a SingleTerm) leave it unchanged (also the private copy in a System), additions act on the addressed model as in the value-level model, and new models start empty (default arguments never change, as long as nobody edits the shared default Hamiltonian in place). C50_setter_fails: assigning m1.hamiltonian = m0.hamiltonian stores a reference, later additions to m1 change m0 (outside the operations of the statement)."
  },
  {
   "property": "C51",
   "status": "partial",
   "theorems": [
    "GGCE.Props.C51_override_fails",
    "GGCE.Props.C51_trivial_override_partial"
   ],
   "note": "false: C51_override_fails shows the advertised use always ends in IndexError; only the trivial override works"
  },
  {
   "property": "C52",
   "status": "proved",
   "theorems": [
    "GGCE.Props.C52_bounded"
   ],
   "note": "Consequence of the energy identity behind C23."
  },
  {
   "property": "C53",
   "status": "proved",
   "theorems": [
    "GGCE.Props.C53_message",
    "GGCE.Props.C53_no_time",
    "GGCE.Props.C53_timeit",
    "GGCE.Props.C53_stream_fails",
    "GGCE.Props.C53_elapsed",
    "GGCE.Props.C53_remaining"
   ],
   "note": "Exact rational arithmetic; reading the clock takes no time. If the stream itself raises, its exception replaces the outcome of the block (C53_stream_fails)."
  },
  {
   "property": "C54",
   "status": "proved",
   "theorems": [
    "GGCE.Props.C54_names",
    "GGCE.Props.C54_point",
    "GGCE.Props.C54_greens",
    "GGCE.Props.C54_other_model_fails",
    "GGCE.Props.C54_mixed_fails"
   ],
   "note": "For a directory that was empty before. File names carry ten decimals and no model, hence the hypothesis that grid points have distinct names, and C54_other_model_fails / C54_mixed_fails for directories shared by several models."
  },
  {
   "property": "C55",
   "status": "proved",
   "theorems": [
    "GGCE.Props.C55_exact",
    "GGCE.Props.C55_value",
    "GGCE.Props.C55_assembled"
   ],
   "note": "C55_exact: existence and uniqueness of the bounded lattice amplitude (Spec/Resolvent.lean) and equality with both solvers' results; C55_value: any amplitude satisfying the equation of motion gives the result; C55_assembled: from the user's calls. Exact real/complex arithmetic; the sparse linear solver is any exact one."
  },
  {
   "property": "C56",
   "status": "proved",
   "theorems": [
    "GGCE.Props.C56_operator",
    "GGCE.Props.C56_returned",
    "GGCE.Props.C56_assembled"
   ],
   "note": "C56_operator, C56_returned, C56_assembled. Spec/Operator.lean gives the matrix elements; the operator is built from weighted permutations of occupations (Proofs/Weighted.lean, Proofs/Frame.lean)."
  },
  {
   "property": "C57",
   "status": "proved",
   "theorems": [
    "GGCE.Props.C57_symmetric"
   ],
   "note": "C57_symmetric: complex conjugation maps the operator of C56 at k to that at -k, and the resolvent is symmetric."
  },
  {
   "property": "C58",
   "status": "proved",
   "theorems": [
    "GGCE.Props.C58_lipschitz",
    "GGCE.Props.C58_grid"
   ],
   "note": "C58_lipschitz, C58_grid: resolvent identity and energy estimate for the operator of C56."
  },
  {
   "property": "C59",
   "status": "proved",
   "theorems": [
    "GGCE.Props.C59_weight",
    "GGCE.Props.C59_moment"
   ],
   "note": "C59_weight, C59_moment: contour integration of the analytic resolvent matrix element of C56 with its expansion at large z."
  },
  {
   "property": "C60",
   "status": "proved",
   "theorems": [
    "GGCE.Props.C60_converges",
    "GGCE.Props.C60_assembled",
    "GGCE.Props.C60_sequence"
   ],
   "note": "Spec.Untruncated states the exact problem without mentioning any limit; existence, uniqueness and convergence are proved (number estimate uniform in the truncation). No rate is claimed. Exact arithmetic."
  },
  {
   "property": "C61",
   "status": "proved",
   "theorems": [
    "GGCE.Props.C61_atomic",
    "GGCE.Props.C61_lines"
   ],
   "note": "C61_atomic: convergence of every returned value to atomicGreen (Spec/AtomicLimit.lean), from C60 and the explicit coherent-state solution of the untruncated equation; C61_lines: the series of Poisson lines."
  },
  {
   "property": "C62",
   "status": "proved",
   "theorems": [
    "GGCE.Props.C62_construct",
    "GGCE.Props.C62_no_axis",
    "GGCE.Props.C62_add",
    "GGCE.Props.C62_remove",
    "GGCE.Props.C62_bad_removal",
    "GGCE.Props.C62_missing_type",
    "GGCE.Props.C62_dimension_mismatch",
    "GGCE.Props.C62_add_remove",
    "GGCE.Props.C62_exhausted",
    "GGCE.Props.C62_budget",
    "GGCE.Props.C62_default_budget",
    "GGCE.Props.C62_histories",
    "GGCE.Props.C62_identifiers",
    "GGCE.Props.C62_identifiers_axes",
    "GGCE.Props.C62_one_dimension"
   ],
   "note": "Removal at negative indices wraps around as in C08; adding off-site to the vacuum is excluded from histories as in C05."
  },
  {
   "property": "C63",
   "status": "proved",
   "theorems": [
    "GGCE.Props.C63_order"
   ],
   "note": "C63_order, for the models the code can treat (one dimension, hopping 0 or positive hopping with unit lattice constant, distinct energies, BondPeierls not mixed with other couplings)."
  },
  {
   "property": "C64",
   "status": "proved",
   "theorems": [
    "GGCE.Props.C64_silent",
    "GGCE.Props.C64_wide"
   ],
   "note": "C64_silent. The proviso is needed: C64_wide shows two modes and a third one without coupling but of larger extent, which admits clouds of the first two modes that were excluded before (the absolute extent is the largest extent of all modes, coupled or not)."
  },
  {
   "property": "C65",
   "status": "proved",
   "theorems": [
    "GGCE.Props.C65_units",
    "GGCE.Props.C65_edwards"
   ],
   "note": "C65_units. For EdwardsFermionBoson the strength lam is documented as dimensionless but used as the coupling energy; it has to be multiplied as well (C65_edwards shows that otherwise the coupling does not scale)."
  },
  {
   "property": "C66",
   "status": "proved",
   "theorems": [
    "GGCE.Props.C66_parameters",
    "GGCE.Props.C66_momentum",
    "GGCE.Props.C66_assembled"
   ],
   "note": "C66_parameters and C66_momentum for well-formed models; C66_assembled for the calls of a user at zero temperature with couplings given as g."
  },
  {
   "property": "C67",
   "status": "proved",
   "theorems": [
    "GGCE.Props.C67_below",
    "GGCE.Props.C67_assembled"
   ],
   "note": "C67_below for well-formed models with positive frequencies, C67_assembled for the calls of a user."
  },
  {
   "property": "C68",
   "status": "proved",
   "theorems": [
    "GGCE.Props.C68_momentum_average"
   ],
   "note": "C68_momentum_average. The momentum average is defined as an integral over the Brillouin zone, not with the code's closed form."
  },
  {
   "property": "C69",
   "status": "proved",
   "theorems": [
    "GGCE.Props.C69_each_sign"
   ],
   "note": "C69_each_sign. C48 changes all signs at once, for arbitrary fields; here each call has its own sign."
  },
  {
   "property": "C70",
   "status": "partial",
   "theorems": [
    "GGCE.Props.C70_exact",
    "GGCE.Props.C70_returned",
    "GGCE.Props.C70_one_site_partial",
    "GGCE.Props.C70_wrong"
   ],
   "note": "The code violates this: g0_delta_omega uses |t| and G0_k_omega uses t, and no check refuses a negative hopping. C70_exact proves the claim for the exact Green's function of the truncated model, C70_returned says what the code returns instead, for every model: 1/(1/G(k) - 4t cos k). C70_wrong: wrong for every BondPeierls model with one phonon at every momentum with cos k not 0. C70_one_site_partial: right for Holstein models with phonon_extent 1."
  },
  {
   "property": "C71",
   "status": "partial",
   "theorems": [
    "GGCE.Props.C71_exact",
    "GGCE.Props.C71_product_partial",
    "GGCE.Props.C71_wrong"
   ],
   "note": "The code violates this: g0_delta_omega raises to the power |delta a| where delta already counts sites; the setter only warns about an unusual value. C71_exact proves the claim for the exact Green's function of the truncated model. C71_wrong: wrong for every BondPeierls model with one phonon and |a| not 1 at every momentum with cos(ka) not 0. C71_product_partial: right without hopping and for Holstein models with phonon_extent 1."
  },
  {
   "property": "C72",
   "status": "proved",
   "theorems": [
    "GGCE.Props.C72_second_order"
   ],
   "note": "C72_second_order, for both solvers. The vertices are stated in momentum space, the code works with sites."
  },
  {
   "property": "C73",
   "status": "partial",
   "theorems": [
    "GGCE.Props.C73_excess",
    "GGCE.Props.C73_certified_partial",
    "GGCE.Props.C73_quiet",
    "GGCE.Props.C73_flagged_stored",
    "GGCE.Props.C73_messages",
    "GGCE.Props.C73_memory",
    "GGCE.Props.C73_blind"
   ],
   "note": "C73_certified_partial: if the preconditioner is the inverse and no residual report was made, the value is within rtol times the norm of the exact solution. C73_quiet: no report for the exact solution. C73_messages: a computed point comes with exactly one message per check not passed and with the exit code and excess of its own run. C73_memory: the reported memory is within 1e-6 (relative) of gigabytes. Violated by the code: C73_flagged_stored (a flagged value is returned, cached and later given out without report and without meta information), C73_blind (the residual is measured with the preconditioner whose accuracy is in question: an all-zero factorisation passes every check)."
  },
  {
   "property": "C74",
   "status": "partial",
   "theorems": [
    "GGCE.Props.C74_reported",
    "GGCE.Props.C74_prediction_partial",
    "GGCE.Props.C74_false_alarm",
    "GGCE.Props.C74_total"
   ],
   "note": "C74_reported and C74_total hold for all well-formed models. The last part is violated: with one phonon type, phonon_absolute_extent < phonon_extent and at least two phonons an error is logged for a correct system (C74_prediction_partial says exactly when; C74_false_alarm is a concrete case)."
  },
  {
   "property": "C75",
   "status": "partial",
   "theorems": [
    "GGCE.Props.C75_display_partial",
    "GGCE.Props.C75_override",
    "GGCE.Props.C75_unknown"
   ],
   "note": "C75_display_partial: true for available coupling types without phonon_index_override (refused calls allowed). Violated otherwise because the limits are looked up by position instead of phonon index: C75_override, C75_unknown."
  },
  {
   "property": "C76",
   "status": "proved",
   "theorems": [
    "GGCE.Props.C76_full_id"
   ],
   "note": "C76_full_id. All zero-phonon configurations count as one cloud."
  },
  {
   "property": "C77",
   "status": "partial",
   "theorems": [
    "GGCE.Props.C77_kept_partial",
    "GGCE.Props.C77_unchecked",
    "GGCE.Props.C77_negative"
   ],
   "note": "C77_kept_partial: assignments and add_ calls keep it. Violated by from_parameters and the constructor, which bypass the setters (C77_unchecked); a negative temperature then acts exactly like zero (C77_negative)."
  },
  {
   "property": "C78",
   "status": "proved",
   "theorems": [
    "GGCE.Props.C78_late",
    "GGCE.Props.C78_early",
    "GGCE.Props.C78_interleaved"
   ],
   "note": "C78_late, C78_early, C78_interleaved. A trap for the user: model.temperature = T after add_ has no effect."
  },
  {
   "property": "C79",
   "status": "proved",
   "theorems": [
    "GGCE.Props.C79_expansion",
    "GGCE.Props.C79_moments",
    "GGCE.Props.C79_two"
   ],
   "note": "C79_moments: existence of model, system and number together with the bound. C79_two compares two choices of the limits. C79_expansion is the version for well-formed models. The moments are defined by repeated application of the Hamiltonian (Spec/Powers.lean), without any limit."
  },
  {
   "property": "C80",
   "status": "proved",
   "theorems": [
    "GGCE.Props.C80_textbook",
    "GGCE.Props.C80_vertex",
    "GGCE.Props.C80_width"
   ],
   "note": "C80_width: limit of z^3 (G - 1/z - eps/z^2). C80_textbook: moments 0, 1, 2 in closed form. C80_vertex: the factors are the mean squares over q of the vertex used in C72, for emission and (momenta exchanged) absorption. Phonon frequencies positive when T > 0."
  },
  {
   "property": "C81",
   "status": "proved",
   "theorems": [
    "GGCE.Props.C81_average",
    "GGCE.Props.C81_spectral",
    "GGCE.Props.C81_peaks"
   ],
   "note": "C81_average, C81_spectral, C81_peaks."
  },
  {
   "property": "C82",
   "status": "proved",
   "theorems": [
    "GGCE.Props.C82_representation",
    "GGCE.Props.C82_determined"
   ],
   "note": "C82_representation, C82_determined."
  },
  {
   "property": "C83",
   "status": "proved",
   "theorems": [
    "GGCE.Props.C83_inverse",
    "GGCE.Props.C83_residual",
    "GGCE.Props.C83_unknowns",
    "GGCE.Props.C83_stored",
    "GGCE.Props.C83_single_precision",
    "GGCE.Props.C83_assembled"
   ],
   "note": "C83_residual (Green's function), C83_unknowns (whole vector, with the factor sqrt of the product of N!), C83_stored (residual in the stored system), C83_single_precision (existence, uniqueness and bound in advance), C83_assembled (from the calls). The error of spsolve itself enters through the residual; overflow is excluded by the hypothesis on the rounding."
  },
  {
   "property": "C84",
   "status": "partial",
   "theorems": [
    "GGCE.Props.C84_critical_partial",
    "GGCE.Props.C84_refusals_partial",
    "GGCE.Props.C84_ranks",
    "GGCE.Props.C84_silenced_fails",
    "GGCE.Props.C84_accepted_fails",
    "GGCE.Props.C84_activation",
    "GGCE.Props.C84_exception",
    "GGCE.Props.C84_testing",
    "GGCE.Props.C84_setters_partial"
   ],
   "note": "C84_critical_partial and C84_refusals_partial for every history that does not disable the module; C84_ranks. Missing because false: inside disable_logger, and after logger.disable of the package, critical shows nothing and the program goes on (C84_silenced_fails), so illegal configurations are accepted (C84_accepted_fails)."
  },
  {
   "property": "C85",
   "status": "partial",
   "theorems": [
    "GGCE.Props.C85_restored_partial",
    "GGCE.Props.C85_block_fails",
    "GGCE.Props.C85_construction_fails",
    "GGCE.Props.C85_solver_fails",
    "GGCE.Props.C85_nested_fails"
   ],
   "note": "C85_restored_partial. Missing because false: after disable_logger everything is enabled whatever was disabled (C85_block_fails), so the construction of any solver undoes logger.disable('ggce') (C85_construction_fails, C85_solver_fails); an inner debug block ends the outer one, and testing mode leaves debug mode on (C85_nested_fails)."
  },
  {
   "property": "C86",
   "status": "partial",
   "theorems": [
    "GGCE.Props.C86_brigades_partial",
    "GGCE.Props.C86_sound",
    "GGCE.Props.C86_gathered_partial",
    "GGCE.Props.C86_eof_fails",
    "GGCE.Props.C86_deadlock_fails",
    "GGCE.Props.C86_mixed_fails"
   ],
   "note": "C86_brigades_partial (all interleavings), C86_sound (the premises from distinct file names on the grid), C86_gathered_partial (agreement with massGreens of C28). Missing because false: repeated points (C86_eof_fails, C86_deadlock_fails, C86_mixed_fails)."
  },
  {
   "property": "C87",
   "status": "proved",
   "theorems": [
    "GGCE.Props.C87_values",
    "GGCE.Props.C87_aligned",
    "GGCE.Props.C87_cached"
   ],
   "note": "C87_values, C87_aligned, C87_cached. The documentation speaks of one dictionary; the code returns a flat list of one per point."
  },
  {
   "property": "C88",
   "status": "proved",
   "theorems": [
    "GGCE.Props.C88_stronger",
    "GGCE.Props.C88_edge",
    "GGCE.Props.C88_assembled",
    "GGCE.Props.C88_limits"
   ],
   "note": "C88_edge (existence, bound by the free band), C88_stronger (comparison), C88_assembled and C88_limits (from the calls). Peierls couplings have terms of both signs and are excluded for the stronger model."
  },
  {
   "property": "C89",
   "status": "proved",
   "theorems": [
    "GGCE.Props.C89_center",
    "GGCE.Props.C89_assembled",
    "GGCE.Props.C89_static",
    "GGCE.Props.C89_peierls"
   ],
   "note": "C89_center, C89_assembled. C89_static gives the exact edge for one phonon and no hopping, C89_peierls shows that the claim fails for Peierls couplings, which are therefore excluded."
  },
  {
   "property": "C90",
   "status": "proved",
   "theorems": [
    "GGCE.Props.C90_causal",
    "GGCE.Props.C90_assembled"
   ],
   "note": "C90_causal (well-formed models), C90_assembled (from the calls, with the bounds)."
  },
  {
   "property": "C91",
   "status": "proved",
   "theorems": [
    "GGCE.Props.C91_cold",
    "GGCE.Props.C91_limit"
   ],
   "note": "C91_cold (the bound), C91_limit (the limit T -> 0+)."
  },
  {
   "property": "C92",
   "status": "proved",
   "theorems": [
    "GGCE.Props.C92_right_hand_side",
    "GGCE.Props.C92_removals_always_possible",
    "GGCE.Props.C92_green",
    "GGCE.Props.C92_other_couplings_fail",
    "GGCE.Props.C92_dimension_mismatch",
    "GGCE.Props.C92_no_system",
    "GGCE.Props.C92_one_dimension",
    "GGCE.Props.C92_equations_one_dimension",
    "GGCE.Props.C92_green_one_dimension"
   ],
   "note": "The truncated space is the one the code imposes: the extent limits act along the first axis only (C93), the absolute extent along every axis. C92_equations_one_dimension, C92_green_one_dimension: with one axis and any couplings the general model lists the terms of the one-dimensional one."
  },
  {
   "property": "C93",
   "status": "partial",
   "theorems": [
    "GGCE.Props.C93_config_legal_partial",
    "GGCE.Props.C93_accepts",
    "GGCE.Props.C93_extent_first_axis_only"
   ],
   "note": "The code limits the extent along the first spatial axis only (a TODO in `_extent_of_1d`): C93_extent_first_axis_only gives two phonons three sites apart in a row, accepted with limit 2, whose transpose is refused. C93_config_legal_partial is the exact characterisation of what is accepted; C93_accepts shows that nothing legal is refused."
  },
  {
   "property": "C94",
   "status": "proved",
   "theorems": [
    "GGCE.Props.C94_error",
    "GGCE.Props.C94_coupling",
    "GGCE.Props.C94_assembled",
    "GGCE.Props.C94_accuracy",
    "GGCE.Props.C94_rate"
   ],
   "note": "The quantitative form of C60. The bar is rigorous, not sharp. C94_accuracy gives limits that suffice for a wanted accuracy."
  },
  {
   "property": "C95",
   "status": "proved",
   "theorems": [
    "GGCE.Props.C95_exists",
    "GGCE.Props.C95_error",
    "GGCE.Props.C95_assembled",
    "GGCE.Props.C95_pair",
    "GGCE.Props.C95_interaction",
    "GGCE.Props.C95_accuracy",
    "GGCE.Props.C95_rate"
   ],
   "note": "The usual convergence check (enlarge the extent until nothing changes) made rigorous. The bar is not sharp. C94 is the counterpart when the numbers grow too; its rate is only exponential in the square root."
  },
  {
   "property": "C96",
   "status": "proved",
   "theorems": [
    "GGCE.Props.C96_states",
    "GGCE.Props.C96_cap",
    "GGCE.Props.C96_numbers",
    "GGCE.Props.C96_extent",
    "GGCE.Props.C96_window"
   ],
   "note": "Equality of the exact numbers (arithmetic on exact reals). The four statements follow from one: models with the same Hamiltonian whose limits allow the same occupations give the same result (C96_states)."
  },
  {
   "property": "C97",
   "status": "proved",
   "theorems": [
    "GGCE.Props.C97_outside",
    "GGCE.Props.C97_weight",
    "GGCE.Props.C97_assembled"
   ],
   "note": "C67 is the lower edge that does not depend on the limits; this adds the upper edge, finite temperature and the weight. The window is not sharp."
  },
  {
   "property": "C98",
   "status": "proved",
   "theorems": [
    "GGCE.Props.C98_residual",
    "GGCE.Props.C98_norms",
    "GGCE.Props.C98_stored",
    "GGCE.Props.C98_exact",
    "GGCE.Props.C98_assembled"
   ],
   "note": "A posteriori: the bound is in terms of the defects, and nothing is claimed about how large the defects of LAPACK are. C83 is the corresponding statement for the sparse solver."
  },
  {
   "property": "C99",
   "status": "proved",
   "theorems": [
    "GGCE.Props.C99_ignored",
    "GGCE.Props.C99_kept",
    "GGCE.Props.C99_effect"
   ],
   "note": "The refusal with two or more types is a logged error in the code, after which the old value is kept."
  },
  {
   "property": "C100",
   "status": "partial",
   "theorems": [
    "GGCE.Props.C100_ensemble_partial",
    "GGCE.Props.C100_textbook",
    "GGCE.Props.C100_edwards_fails"
   ],
   "note": "C100_ensemble_partial: for Holstein, Peierls and BondPeierls couplings. Missing because false: EdwardsFermionBoson couplings, whose fictitious phonons are added with the terms of the physical ones although creation and annihilation must be exchanged; C100_edwards_fails shows that the second moment is wrong by -2 g^2 n cos(2 k a). C100_textbook: the first three thermal moments in closed form for all couplings."
  },
  {
   "property": "C101",
   "status": "proved",
   "theorems": [
    "GGCE.Props.C101_finite",
    "GGCE.Props.C101_limit",
    "GGCE.Props.C101_thermal"
   ],
   "note": "C101_finite: any limits. C101_limit: the limits grow (all temperatures, all couplings). C101_thermal: the measure is that of the thermal ensemble of C100. Exact arithmetic, as in C56 and C60."
  },
  {
   "property": "C102",
   "status": "proved",
   "theorems": [
    "GGCE.Props.C102_round_trip",
    "GGCE.Props.C102_distinct",
    "GGCE.Props.C102_hamiltonian",
    "GGCE.Props.C102_later",
    "GGCE.Props.C102_unknown",
    "GGCE.Props.C102_unknown_file",
    "GGCE.Props.C102_numbers"
   ],
   "note": "C102_round_trip, C102_distinct, C102_hamiltonian, C102_later (exact condition; that the condition can fail is also C34_later_addition_fails). monty's rules are an assumption, stated in Verif/Model/Json.lean; JSON as a tree, numbers read back as written."
  },
  {
   "property": "C103",
   "status": "proved",
   "theorems": [
    "GGCE.Props.C103_serial",
    "GGCE.Props.C103_parallel",
    "GGCE.Props.C103_assembled"
   ],
   "note": "C103_serial, C103_parallel: any solver with accuracy eps (bounds for eps: C83, C98). C103_assembled: the solvers in exact arithmetic, eps = 0. That the error can be nonzero is C31_collision_fails; a directory shared by different systems is C31_other_system_fails. Process crashes that leave a damaged file are outside (C31 covers empty files)."
  },
  {
   "property": "C104",
   "status": "proved",
   "theorems": [
    "GGCE.Props.C104_weight",
    "GGCE.Props.C104_extraction",
    "GGCE.Props.C104_assembled"
   ],
   "note": "PeakWeight is defined on the Hamiltonian, without reference to the solvers. C104_weight: limit, monotonicity, bound. C104_extraction: the fitting helper. C104_assembled: from the calls of the user. Real arithmetic; the linear solver is exact."
  },
  {
   "property": "C105",
   "status": "proved",
   "theorems": [
    "GGCE.Props.C105_programs",
    "GGCE.Props.C105_repeat",
    "GGCE.Props.C105_assembled"
   ],
   "note": "Composes the models of construction, checkpoints, reloading, results directory, solvers and grid. The exact number is defined by the resolvent of the Hamiltonian, without reference to solvers or files. C105_programs: no exception, shape, accuracy. C105_repeat: identical answers. C105_assembled: from the calls of the user. Serial processes that are not interrupted; real arithmetic; the linear solver is exact."
  },
  {
   "property": "C106",
   "status": "partial",
   "theorems": [
    "GGCE.Props.C106_separate_partial",
    "GGCE.Props.C106_shared_root_fails"
   ],
   "note": "True if programs for different models never name the same directory (C106_separate_partial). False otherwise: with one directory for two Holstein models that differ in the coupling, the second program prints the first model's number without any message, off by more than 3/10 (C106_shared_root_fails). The code does not compare the model of a directory with the one in use. Roots are compared as strings."
  },
  {
   "property": "C107",
   "status": "proved",
   "theorems": [
    "GGCE.Props.C107_safe",
    "GGCE.Props.C107_recovers",
    "GGCE.Props.C107_torn_result",
    "GGCE.Props.C107_uninterrupted"
   ],
   "note": "A file is empty after it is opened and complete after it is written; reading an incomplete one raises. C107_uninterrupted ties the step-by-step model to Script.run. C107_torn_result: a result file left incomplete is never repaired by the program, and every later call of solve at that point with that root raises."
  },
  {
   "property": "C108",
   "status": "proved",
   "theorems": [
    "GGCE.Props.C108_accuracy",
    "GGCE.Props.C108_runs",
    "GGCE.Props.C108_exact"
   ],
   "note": "The residual is that of the system as the equations define it, so that rounding to complex64 on storage (C83) is part of rho. The dense solver is taken with exact arithmetic here (C98 bounds its residuals at one point). C108_exact: exact solvers are the case rho = 0, which gives C107 back."
  },
  {
   "property": "C109",
   "status": "partial",
   "theorems": [
    "GGCE.Props.C109_accuracy",
    "GGCE.Props.C109_terminates",
    "GGCE.Props.C109_alone",
    "GGCE.Props.C109_undisturbed_partial",
    "GGCE.Props.C109_result_race_fails",
    "GGCE.Props.C109_resume_race_fails"
   ],
   "note": "The accuracy and the termination hold as stated (C109_accuracy, C109_terminates). The last sentence does not: C109_result_race_fails has two copies of one program of which one raises EOFError on a result file that the other has just opened; C109_resume_race_fails has a complete checkpoint whose reload raises JSONDecodeError because another program that constructs the system there writes model.json anew. C109_undisturbed_partial is what holds: a program that constructs its system, in a directory others may use, and shares no result file with others raises nothing. C109_alone: a process that is alone does what the model of C107 says. Not modelled: two processes whose writes to one open file mix."
  },
  {
   "property": "C110",
   "status": "partial",
   "theorems": [
    "GGCE.Props.C110_accuracy",
    "GGCE.Props.C110_terminates",
    "GGCE.Props.C110_undisturbed_partial",
    "GGCE.Props.C110_completes",
    "GGCE.Props.C110_calls_race_fails",
    "GGCE.Props.C110_resume_race_fails"
   ],
   "note": "The accuracy and the bound on the steps hold as stated (C110_accuracy, C110_terminates). The last sentence does not. C110_calls_race_fails: two ranks compute a grid and then the same points in the other order; rank 1 may raise EOFError on a file that rank 0 has just opened, and rank 0 then waits forever in gather. C110_resume_race_fails: on every disk with a complete checkpoint, one of two ranks that construct the solver from the directory alone may raise JSONDecodeError, because the other, having read the checkpoint, writes model.json anew. C110_undisturbed_partial and C110_completes are what holds: if no result file is used by two ranks, or by a rank and another program, and none is a torn file from before, no rank raises, there is always a step to take without buffering, and the ranks come to their ends with all answers; alone_one_grid: this is so for one grid whose points have different file names. Not modelled: MPI errors, and what mpirun does after a rank has raised."
  },
  {
   "property": "C111",
   "status": "partial",
   "theorems": [
    "GGCE.Props.C111_sparse_partial",
    "GGCE.Props.C111_sparse_fails",
    "GGCE.Props.C111_missing",
    "GGCE.Props.C111_dense",
    "GGCE.Props.C111_dense_missing",
    "GGCE.Props.C111_mumps_source",
    "GGCE.Props.C111_returned_partial",
    "GGCE.Props.C111_mumps_fails"
   ],
   "note": "C111_dense: the dense solver does the same with every numbering, exceptions included. C111_missing: KeyError from the sparse and the parallel solver. C111_dense_missing: the dense solver never returns a value for a block basis without one of the identifiers. C111_returned_partial and C111_sparse_partial: the sparse and the parallel solver return the same number with every numbering that leaves {G}[0.0] last. With every other numbering the sparse solver raises ValueError, because the right-hand side is given as many rows as the number of {G}[0.0] requires (C111_sparse_fails). The parallel solver always puts the source into the last row and reads the last component: it returns the diagonal element of the inverse that belongs to whatever unknown is last (C111_mumps_source), which is a wrong number without any error, e.g. for every BondPeierls model with one phonon (C111_mumps_fails). That spsolve compares the shapes is taken from its documentation (ChecksShape)."
  },
  {
   "property": "C112",
   "status": "proved",
   "theorems": [
    "GGCE.Props.C112_certified",
    "GGCE.Props.C112_quiet",
    "GGCE.Props.C112_session",
    "GGCE.Props.C112_assembled"
   ],
   "note": "C112_certified (one call), C112_quiet (no false alarms), C112_session (several calls on one directory), C112_assembled (models from add_ calls, rtol of the code). The assumption on the factors cannot be dropped: C73_blind. Reports do not keep a number from being stored: C73_flagged_stored."
  },
  {
   "property": "C113",
   "status": "proved",
   "theorems": [
    "GGCE.Props.C113_unknowns",
    "GGCE.Props.C113_arguments",
    "GGCE.Props.C113_count",
    "GGCE.Props.C113_entries",
    "GGCE.Props.C113_one_type",
    "GGCE.Props.C113_one_mode"
   ],
   "note": "C113_arguments (which unknowns), C113_count (how many), C113_unknowns (bounds), C113_entries (matrix), C113_one_type (count computed from the clouds), C113_one_mode (one add_ call of any coupling type). Example: the 771 equations reported in the tutorial notebook. Entries are counted as stored, some may be zero."
  },
  {
   "property": "C114",
   "status": "proved",
   "theorems": [
    "GGCE.Props.C114_only_new",
    "GGCE.Props.C114_files",
    "GGCE.Props.C114_repeat",
    "GGCE.Props.C114_brigades"
   ],
   "note": "C114_only_new (independence of the solver away from new points), C114_files (one file per new point), C114_repeat (later programs, after interruptions), C114_brigades (ranks of a MassSolver, jobs may share files). Example: a program whose linear solver always raises prints a grid computed earlier, and without the earlier program ends with LinAlgError. Concurrent programs are the subject of C109."
  },
  {
   "property": "C115",
   "status": "proved",
   "theorems": [
    "GGCE.Props.C115_weak",
    "GGCE.Props.C115_untruncated",
    "GGCE.Props.C115_fourth"
   ],
   "note": "C115_weak (bounds for the returned number), C115_untruncated (the same without limits), C115_fourth (couplings multiplied by s: at most a constant times s^4). One temperature mode of EdwardsFermionBoson uses the vertex of emission for absorption, as the code does (see C100). Example: Holstein, g = 1/10, Omega = 2, eta = 1: within 1/5000 of perturbation theory whatever extent and number."
  },
  {
   "property": "C116",
   "status": "partial",
   "theorems": [
    "GGCE.Props.C116_outside_partial",
    "GGCE.Props.C116_unsorted_fails",
    "GGCE.Props.C116_slice",
    "GGCE.Props.C116_brigades_partial",
    "GGCE.Props.C116_race_fails"
   ],
   "note": "C116_slice holds for all grids. C116_outside_partial and C116_brigades_partial hold for axes that rise or fall. Missing because false: an axis that does neither, C116_unsorted_fails (frequencies 1, 3, 2 on two brigades are padded with 1, a requested point) and C116_race_fails (with a results directory a rank can then raise EOFError although no point was requested twice)."
  },
  {
   "property": "C117",
   "status": "proved",
   "theorems": [
    "GGCE.Props.C117_lanczos",
    "GGCE.Props.C117_bound",
    "GGCE.Props.C117_bracket",
    "GGCE.Props.C117_holstein",
    "GGCE.Props.C117_drift",
    "GGCE.Props.C117_sharp"
   ],
   "note": "C117_lanczos for all orders, C117_bound from the first three moments, C117_bracket and C117_holstein with the lower bound of C67, C117_drift for the reading of the kinetic part, C117_sharp that the bound is attained. Exact arithmetic, exact spsolve."
  },
  {
   "property": "C118",
   "status": "proved",
   "theorems": [
    "GGCE.Props.C118_concave",
    "GGCE.Props.C118_concaveOn"
   ],
   "note": "C118_concave for three models, C118_concaveOn as Mathlib's ConcaveOn at temperature zero. Peierls coupling is not in the claim: its two signs can keep the bare electron from overlapping with the ground state. Exact arithmetic, exact spsolve."
  },
  {
   "property": "C119",
   "status": "partial",
   "theorems": [
    "GGCE.Props.C119_stages_partial",
    "GGCE.Props.C119_sound",
    "GGCE.Props.C119_gathered_partial",
    "GGCE.Props.C119_results_partial",
    "GGCE.Props.C119_emptied_fails",
    "GGCE.Props.C119_missing_fails",
    "GGCE.Props.C119_leftover_fails",
    "GGCE.Props.C119_padding_fails"
   ],
   "note": "C119_stages_partial, C119_sound, C119_gathered_partial, C119_results_partial need a brigade_size in the second constructor (its Split is the only thing that makes the ranks wait for each other) or a single rank, points of the second grid among those of the first, and no unfinished file that is not prepared again. Without them the property is false: prepare_greens_function has no barrier, so without brigade_size a rank can read a file another has just emptied (C119_emptied_fails) or not yet written (C119_missing_fails); an unfinished file of another point can be drawn as the sample (C119_leftover_fails); different numbers of brigades can pad the grid differently (C119_padding_fails)."
  },
  {
   "property": "C120",
   "status": "proved",
   "theorems": [
    "GGCE.Props.C120_selfenergy",
    "GGCE.Props.C120_band",
    "GGCE.Props.C120_assembled"
   ],
   "note": "C120_selfenergy and C120_band for every well-formed model with terms on the electron's site and absolute extent 1; C120_assembled from the user's side, including the existence of E. For larger extents the self-energy depends on the momentum and nothing is claimed. Exact arithmetic, exact spsolve, eta > 0."
  },
  {
   "property": "C121",
   "status": "partial",
   "theorems": [
    "GGCE.Props.C121_printed",
    "GGCE.Props.C121_matrix_partial",
    "GGCE.Props.C121_full",
    "GGCE.Props.C121_generalized",
    "GGCE.Props.C121_zero_hopping_fails"
   ],
   "note": "C121_printed (without coefficients), C121_full and C121_generalized hold in full. C121_matrix_partial assumes that the particle hops or that the couplings are numpy numbers: without hopping, g0_delta_omega returns the literal 0.0 off the site, the product is a Python complex and `c.real.item()` raises AttributeError; C121_zero_hopping_fails proves that the call fails at every point as soon as one such term exists, with a concrete model. Coefficients are compared before rounding to three digits."
  },
  {
   "property": "C122",
   "status": "proved",
   "theorems": [
    "GGCE.Props.C122_polaron"
   ],
   "note": "C122_polaron. The lower edge is that of C88; couplings given by dimensionless_coupling_strength are excluded as in C67 and C88."
  },
  {
   "property": "C123",
   "status": "partial",
   "theorems": [
    "GGCE.Props.C123_advanced_partial",
    "GGCE.Props.C123_hopping_fails"
   ],
   "note": "C123_advanced_partial: holds for all couplings and temperatures without hopping. With hopping it is false: C123_hopping_fails shows for every one-phonon Holstein model with hopping and coupling that it fails at every momentum, frequency and broadening; the principal branch of the square root in g0_delta_omega gives the self-energy the wrong sign below the real axis."
  },
  {
   "property": "C124",
   "status": "proved",
   "theorems": [
    "GGCE.Props.C124_ground",
    "GGCE.Props.C124_trial",
    "GGCE.Props.C124_assembled",
    "GGCE.Props.C124_holstein",
    "GGCE.Props.C124_lang_firsov",
    "GGCE.Props.C124_peierls_fails",
    "GGCE.Props.C124_exact",
    "GGCE.Props.C124_exact_holstein"
   ],
   "note": "C124_ground is an equivalence for every well-formed model whose couplings have one sign per phonon type; C124_exact is the same without limits at T = 0, with C124_exact_holstein as explicit bounds; C124_trial needs no hopping but only admits states that the Hamiltonian links to the bare electron. Peierls couplings have both signs and are excluded; C124_peierls_fails shows that they must be."
  },
  {
   "property": "C125",
   "status": "proved",
   "theorems": [
    "GGCE.Props.C125_recovers",
    "GGCE.Props.C125_absolute",
    "GGCE.Props.C125_free",
    "GGCE.Props.C125_few",
    "GGCE.Props.C125_sign_fails",
    "GGCE.Props.C125_two_frequencies_fails"
   ],
   "note": "C125_recovers; curve_fit is any function that, when it returns, returns a global minimum (the real one may stop in a local minimum). The sign is really undetermined (C125_sign_fails), fewer than three points raise (C125_few), and three points at two frequencies are accepted but do not determine the weight (C125_two_frequencies_fails)."
  },
  {
   "property": "C126",
   "status": "partial",
   "theorems": [
    "GGCE.Props.C126_round_trip_partial",
    "GGCE.Props.C126_histories_partial",
    "GGCE.Props.C126_accepted",
    "GGCE.Props.C126_term_fails",
    "GGCE.Props.C126_no_types_fails",
    "GGCE.Props.C126_dictionary_fails"
   ],
   "note": "C126_round_trip_partial and C126_histories_partial prove it for Config if no axis is empty. It fails for every term: reading back the JSON of a Term is always a TypeError (C126_term_fails). It fails without phonon types (C126_no_types_fails). A dictionary made with as_dict shares the array with the configuration, so later additions show in it (C126_dictionary_fails). C126_accepted: only dictionaries without unknown keywords and with nested lists that form an array are read."
  },
  {
   "property": "C127",
   "status": "partial",
   "theorems": [
    "GGCE.Props.C127_term",
    "GGCE.Props.C127_numbers",
    "GGCE.Props.C127_hamiltonian_partial",
    "GGCE.Props.C127_models_partial",
    "GGCE.Props.C127_rounded_fails",
    "GGCE.Props.C127_names_fails"
   ],
   "note": "C127_models_partial (models made with add_) and C127_hamiltonian_partial say exactly when the texts agree: everything agrees except that couplings and frequencies need agree only when rounded to two decimals; C127_numbers: the numbers shown are right to 0.005. Violated: different couplings can print the same text, weak couplings as zero (C127_rounded_fails), and a coupling type given by hand to the constructor of a term can imitate further terms (C127_names_fails)."
  },
  {
   "property": "C128",
   "status": "proved",
   "theorems": [
    "GGCE.Props.C128_coefficients",
    "GGCE.Props.C128_propagator",
    "GGCE.Props.C128_momentum",
    "GGCE.Props.C128_terms",
    "GGCE.Props.C128_linear",
    "GGCE.Props.C128_assembled",
    "GGCE.Props.C128_small_hopping_fails"
   ],
   "note": "C128_propagator and C128_momentum bound the error of the two propagators operation by operation, C128_terms that of every coefficient, C128_coefficients the effect on the result for any inexact coefficients and storage, C128_linear and C128_assembled conclude that the error is at most C u below a precision u0. How fine the precision must be depends on the hopping: at every precision there is a tiny non-zero hopping for which the computed propagator to the next site is off by more than its largest possible value (C128_small_hopping_fails), because -x + i sqrt(1 - x^2) cancels. Sums and products of finished coefficients are rounded in C129; the phonon energy is exact; overflow is left out."
  },
  {
   "property": "C129",
   "status": "proved",
   "theorems": [
    "GGCE.Props.C129_exact",
    "GGCE.Props.C129_bound",
    "GGCE.Props.C129_linear",
    "GGCE.Props.C129_positive",
    "GGCE.Props.C129_assembled"
   ],
   "note": "C129_bound is the error bound with separate precisions for products and sums, storage and linear solver; C129_linear and C129_assembled conclude that the error is at most C u below a precision u0; C129_positive that the computed spectral function is positive below some precision; C129_exact that without rounding this is the solver of the other properties. Backward stability of the linear solver is a hypothesis. The numbers of the model (couplings, prefactors, frequencies, sums of frequencies, arguments of phases) are exact; overflow is left out."
  },
  {
   "property": "C130",
   "status": "proved",
   "theorems": [
    "GGCE.Props.C130_algebra",
    "GGCE.Props.C130_vertices",
    "GGCE.Props.C130_textbook"
   ],
   "note": "C130_textbook is the statement; C130_algebra shows that the operators of the specification obey the canonical commutation relations, C130_vertices what the couplings do to a bare electron. The documentation writes the EdwardsFermionBoson coupling with -g while the program builds terms with +g (and Holstein terms with -g): the theorem covers both signs. Infinite sums over the chain are taken on each vector of the basis, where finitely many summands act."
  },
  {
   "property": "C131",
   "status": "proved",
   "theorems": [
    "GGCE.Props.C131_limit"
   ],
   "note": "C131_limit. The exact propagator is a functional on finite superpositions of electron sites and occupations (ExactPropagator in Spec/Textbook.lean): it has crystal momentum k, solves the equation of motion on every vector with finitely many phonons, and has a finite mean square number of phonons."
  },
  {
   "property": "C132",
   "status": "proved",
   "theorems": [
    "GGCE.Props.C132_exact",
    "GGCE.Props.C132_linear",
    "GGCE.Props.C132_positive",
    "GGCE.Props.C132_assembled"
   ],
   "note": "C132_linear is the statement, C132_assembled from the user's side together with the sparse solver, C132_positive the sign. C132_exact: with exact operations the model is the dense solver of the other properties. The accuracy includes factors that grow with the matrices; linalg.solve may refuse matrices that are singular within the accuracy (LibTo). C98 gives explicit bounds in terms of residuals. Rounding of the couplings is the subject of C134 (sparse solver); overflow is left out."
  },
  {
   "property": "C133",
   "status": "proved",
   "theorems": [
    "GGCE.Props.C133_ground",
    "GGCE.Props.C133_bound",
    "GGCE.Props.C133_holstein"
   ],
   "note": "C133_bound (existence of the ground-state energy, and no weight below it, for all couplings), C133_ground (convergence, without Peierls), C133_holstein (bounds of the Holstein model). The ground-state energy (ChainGround in Spec/TextbookGround.lean) is the largest lower bound of <psi|H|psi>/<psi|psi> over finite superpositions of vectors c_e^dagger prod (b^dagger)^n |0>, with H written in the operators of C130. That the edge at k = 0 need not be the ground-state energy with Peierls couplings is C124_peierls_fails."
  },
  {
   "property": "C134",
   "status": "proved",
   "theorems": [
    "GGCE.Props.C134_linear",
    "GGCE.Props.C134_assembled"
   ],
   "note": "C134_assembled from the user's side, C134_linear for models with nearby couplings. Hopping, frequencies and couplings given as numbers are floats already and are taken as they are. Combines the constants of C129, which depend on bounds for the model only (linear_uniform), with C66. For the sparse solver. Overflow is left out."
  },
  {
   "property": "C135",
   "status": "proved",
   "theorems": [
    "GGCE.Props.C135_end_to_end"
   ],
   "note": "C135_end_to_end combines C131 with C134 and C132. The order of the quantifiers matters: first limits, then accuracy (larger limits need more accuracy). Overflow is left out. The dense solver with exact coupling strengths."
  }
 ]
}