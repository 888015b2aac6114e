# GGCE in Lean 4: design of the formal model

The object of study is `/repo` (matthewcarbone/GGCE, Python). The code is never run here;
the model is a reading of the source, every definition citing the lines it models.

## Layout

    lean/Verif/Py.lean            exceptions as values, Python string rendering, insertion-ordered dict
    lean/Verif/Model/*.lean       the model, one file per source module (only definitions)
    lean/Verif/Spec/*.lean        independent specifications (clouds on the infinite chain, the restricted Hamiltonian, Lorentzians, ...)
    lean/Verif/Proofs/*.lean      lemmas
    lean/Verif/Props/*.lean       property theorems C01..., each with a non-vacuity example

## Conventions

* `logger.critical` terminates the process (`ggce/logger.py:117-120`), so it is modelled as the
  exception value `Err.abort`. Other Python exceptions are the other constructors of `Err`.
* Mutation through `self` becomes a function returning the new value.
* Integers are unbounded (numpy int64 overflow is not modelled). Floats are exact reals; everything about
  rounding (complex64 storage, spsolve error) is outside the model, except in C83, C98, C128, C129, C132, C134 and C135, which bound its effect on the result.
* Lattice shifts (`psi`, `phi`, `f_arg`, `g_arg`, `exp_shift`) are multiples of 1/2 for all built-in couplings;
  they are stored as twice their value (an `Int`) with the numpy dtype flag (int/float), because
  in-place addition of a float array to an int array raises in numpy.
* The Python type of a coupling is not modelled. A `SingleTerm` made by hand with an `int` coupling gives annihilation
  terms an `np.int64` prefactor, which the `constant_prefactor` setter rejects. `Model.add_` always multiplies the
  strength by a float, so models made with it are not affected.
* numpy is the version the project pins (below 1.24): lists of numpy scalars print as plain numbers, and arrays of
  size one are accepted where a number is expected.
* One spatial dimension for the engine: `generate_all_legal_configurations` aborts for more
  (`system.py:80-81`).
* `set` iteration order (system.py:174-177) is an arbitrary function returning a permutation of the
  deduplicated list; theorems quantify over it.
* The linear solvers (`spsolve`, `linalg.solve`, MUMPS) are not modelled as algorithms: they are
  specified by "returns a solution of the linear system".
* The results directory and the matrix directory are finite maps from names to contents. For checkpoints, and for several
  processes on one results directory, opening a file for writing and filling it are separate steps, so torn files occur.

## Plan per property

| id | modelled | proof |
|----|----------|-------|
| C01 | `config_space_gen` as structural recursion | induction on length: membership iff, `Nodup` |
| C02 | `config_legal` and helpers, 1-D | equivalence with a predicate on infinite-chain occupations |
| C03 C04 | `Config.add_phonon_`, `remove_phonon_` 1-D | occupation function of the result |
| C05 C07 | op histories | invariant by induction on the op list |
| C06 | both | from C03/C04 and uniqueness of the canonical form |
| C08 | numpy index wrap-around | iff for abort; counterexample for negative index |
| C09 | string rendering of ids | injectivity by parsing lemmas |
| C10 C11 | generation loops, `comb` formula | membership iff + Nodup; counting by stars and bars |
| C12-C15 | `Equation._initialize_terms`, terms | refinement to one-boson operations on infinite-chain clouds |
| C16-C18 | `System._prime_system` | refinement + reachability of each cloud, for any set order |
| C19 C20 | matrix assembly | sums over term lists |
| C21 C48 | linear algebra over a field | parity similarity + block elimination |
| C22 C23 | coefficients over the complex numbers | extension of the finite solution to an l2 eigen-equation of a Hermitian operator |
| C24 C25 | physics.py over the complex numbers | algebra of y = -x + i sqrt(1-x^2); geometric series |
| C26-C29 | job lists, array_split, padding, gather | list lemmas |
| C30 | ownership ranges | counting |
| C31-C36 C47 | file map + construction/crash histories | induction over histories, counterexamples for doc claims |
| C37-C40 | `Model.add_` histories | invariants by induction; counterexamples |
| C41 C42 C44 | real analysis | field algebra, limits |
| C43 | Buffer | invariant by induction |
| C45 C46 | build with numpy dtypes | general failure theorem / evaluation |
| C49 | coefficients | periodicity of the exponentials + parity gauge |
| C50 | memory with addresses for lists, Hamiltonians and models | separation invariant over all histories; refinement to the value-level model |
| C51 | `phonon_index_override` | counterexample; the trivial case |
| C52 | energy identity | bound on the spectral function |
| C53 | `elapsed_time`, `time_remaining`; `timeit` and its message with two decimals (`Model/Text.lean`) | case analysis over the rationals; the printed number is read back with an independent reader |
| C54 | prepared matrices on disk | file names injective on a grid; replay equals direct assembly |
| C55 | solvers return the exact Green's function of the restricted Hamiltonian | equation of motion on the infinite chain, translated cloud by cloud; bounded amplitudes are emitted by their sources |
| C56 | results are matrix elements of the resolvent of one self-adjoint operator per momentum | Hamiltonian in the frame of the electron as a sum of weighted permutations; its resolvent solves the equation of motion of C55 |
| C57 | G(k) = G(-k) | complex conjugation maps the operator of C56 at k to the one at -k |
| C58 | |G - G'| <= |z - z'| / (eta eta') | resolvent identity for the operator of C56 |
| C59 | integral of the spectral function is 1, first moment is the free band energy | Cauchy's theorem on rectangles and the expansion of the resolvent at high energy |
| C60 | `Spec/Untruncated.lean`: Hamiltonian on all occupations with finitely many phonons, solution with finite mean square number | restricted operators of C56 compared with it: commutator with the phonon number gives a bound uniform in the limits, a limit along an ultrafilter gives existence, the tail of a convergent sum gives convergence and uniqueness |
| C61 | `Verif/Props/Atomic.lean` (`C61_atomic`, `C61_lines`) | spec in `Spec/AtomicLimit.lean` (the textbook formula, no clouds or truncation); time evolution of displaced oscillators in `Proofs/Coherent.lean`, `Proofs/Displaced.lean`, link to the model in `Proofs/Atomic.lean` |
| C62 | Model `Verif/Model/ConfigND.lean`: an array is its shape and a function on index tuples `Fin d → ℕ`; `swapaxes` plus slicing of axis 0 is modelled as slicing axis `ii` directly, and the loop over axes carries both the array and its sum over types as the code does. Spec `Verif/Spec/LatticeND.lean` reads an array as occupations of ℤ^d. | Theorems in `Verif/Props/ConfigND.lean`: construction, adding, removing, round trip, histories, identifiers, agreement with the one-dimensional model. The repository's 2-D tests are evaluated as examples; `Verif/Props/RepoTests.lean` does the same for the tests of terms, system and model. |
| C63 | `Proofs/Blueprint.lean`: the assembled model in closed form; `Proofs/Relabel.lean`: renaming the types maps resolvent amplitudes to resolvent amplitudes | C55 (existence and uniqueness) on both sides; `Props/Parameters.lean` |
| C64 | spec `Spec/Calls.lean` (Silent) | `Proofs/Rescale.lean`: the amplitude extended by zero to occupations with phonons of the added modes is a resolvent amplitude; then C55 and C63 |
| C65 | spec `Spec/Calls.lean` (rescaled) | the coupling map is homogeneous and the thermofield prefactors are invariant; `Proofs/Rescale.lean` divides the amplitude by s; then C55 |
| C66 | resolvent identity for two bounded self-adjoint operators; distance and speed in `Spec/Stability.lean` | `C66_parameters`, `C66_momentum`, `C66_assembled` |
| C67 | quadratic form of the restricted Hamiltonian bounded below by Cauchy and Schwarz, uniformly in the limits; `Spec/Floor.lean` | `C67_below`, `C67_assembled` |
| C68 | from resolvent amplitudes of one-site clouds; `Spec/MomentumAverage.lean` states the continued fraction | `C68_momentum_average` |
| C69 | `Proofs/Gauge.lean`: multiplying the amplitude of a cloud by one sign per phonon maps resolvent amplitudes to resolvent amplitudes | then C55 (existence and uniqueness) on both sides; `Props/Signs.lean` |
| C72 | `Proofs/OneBoson.lean`: the dense solver with one phonon in closed form; `Proofs/SecondOrder.lean`: the propagator as a Fourier integral and the four self-energies; `Spec/SecondOrder.lean` | `C72_second_order` in `Props/SecondOrder.lean` |
| C73 | `Model/Diagnostics.lean`: residual in the preconditioned norm, messages, meta information, the cache; MUMPS is an arbitrary function | `Props/Diagnostics.lean` |
| C74 | `Model/Reports.lean`: the three messages with their numbers | `Proofs/Reports.lean` counts the clouds within an absolute extent; `Props/Reports.lean` |
| C75 | `Model/Reports.lean`: the data shown, not the layout | invariant of `add_` in `Proofs/Reports.lean`; `Props/Reports.lean` |
| C76 | `Model/Setters.lean`: `fullTermId` | unique reading of the concatenated strings, `Proofs/Setters.lean`; `Props/Setters.lean` |
| C77 | `Model/Setters.lean`: one statement per setter, sequences of them | `Props/Setters.lean` |
| C78 | `Model/Setters.lean` | `Props/Setters.lean` |
| C79 | as C56; moments of the Hamiltonian without limits in `Spec/Powers.lean` | states reached from the bare electron in J steps fit the limits (`Proofs/Reach.lean`); expansion of the resolvent with remainder (`Proofs/Powers.lean`); `Props/Sumrules.lean` |
| C80 | as C79; closed form in `Spec/Variance.lean` | sum over pairs of conjugate terms (`Proofs/Variance.lean`); `Props/Sumrules.lean` |
| C81 | as C56 | Cauchy's theorem on a line (`Proofs/Moments.lean`), `Proofs/Broadening.lean`; `Props/Broadening.lean` |
| C82 | as C56 | `Proofs/Broadening.lean`, identity theorem; `Props/Broadening.lean` |
| C83 | `LinSys.store` and `sparseSolveStored` (`Verif/Model/Store.lean`): every stored number rounded by an arbitrary function with error at most `u |z| + τ` | the unknowns with residual, read as amplitudes on occupations, satisfy `(z - H) u = V r` with `V` the interaction, so the norm of the inverse is at most `1 + |V| / eta` (`Proofs/Residual.lean`); `Proofs/VecNorm.lean`; `Props/Residual.lean` |
| C87 | `massGreensMeta`, `solveMeta` (`Verif/Model/Meta.lean`) | a filtered list that still fits the shape has lost nothing (`Props/Meta.lean`) |
| C88 | nothing new: the returned numbers of the existing model; `Spec/Edge.lean` defines the edge from the returned numbers alone | `c - H` has non-negative entries after a change of signs, so its powers on the bare state dominate those of the weaker model (`Proofs/Compare.lean`); having no weight below e is the same as `|(c - H)^j v| ≤ (c - e)^j` for all j (`Proofs/Edge.lean`); `Props/Edge.lean` |
| C89 | nothing new | C88_stronger with the model compared to itself (`Props/Edge.lean`); that Peierls couplings have to be excluded is shown with the exact edge for one phonon (C72), `Props/EdgeStatic.lean` |
| C90 | nothing new: the numbers returned by the existing model; `Spec/SelfEnergy.lean` | the response divided by G, minus the bare state, is orthogonal to it and solves an equation whose imaginary part bounds it (`Proofs/SelfEnergy.lean`); the length of H on the bare state is at most the second moment (C79); `Props/SelfEnergy.lean` |
| C91 | nothing new | the zero-temperature model with uncoupled phonons in the place of the fictitious ones has the shape of the model at T: C64 (uncoupled phonons change nothing) and C66 (stability); `Props/Cold.lean` |
| C92 | `Model/EngineND.lean`: `HTerm.ofSingle`, `mkNonIndexND`, `stepND`, `simplifyGreenND`, `finishTermND`, `annTermsND`, `creTermsND`, `initTermsND`, `mkEquationND`, `mkEOMND`, `mkGreenND` | The lattice specification (`Spec/RhsND.lean`) generalises the one of C12; additions and removals are taken from C62, phonon counts are finite sums over Z^d and hence translation invariant, creation sites are matched by uniqueness of a cloud given its occupations. `C92_one_dimension` shows that with one axis the truncated space is that of C12; `C92_equations_one_dimension` and `C92_green_one_dimension` show that with one axis the equations are, term by term and for every coupling, those of `Model/Engine.lean` (`Spec/OneDim.lean`: `SameTerm`, `SameEom`). |
| C93 | `Model/EngineND.lean`: `NArr.indices`, `NArr.whereNonzero0`, `NArr.extentOf`, `NArr.anyExceeds`, `NArr.configLegal` | Membership and absence of repetitions in the row-major index list, then the spread of the first components against the span on the lattice, and the same case analysis as C10. |
| C94 | the same definitions as C60; the bar is defined in `Spec/ErrorBar.lean` from the hopping and the coupling terms alone | `Proofs/Decay.lean` is an abstract Combes–Thomas estimate: conjugating the resolvent with exp(phi), where phi changes little in every move, costs at most half of eta, so amplitudes decay like exp(-phi). `Proofs/ErrorBar.lean` takes phi = b (sqrt(size + 1) - 1) with size = number of phonons plus distance of the farthest phonon from the electron: a move changes size by at most 3, its matrix element grows like the square root of the number of phonons, and the square root in phi compensates for that. States excluded by the limits have size at least B/2. The comparison is with the Hamiltonian limited to r phonons, r large, which by C60 is arbitrarily close to the exact one. |
| C95 | the same definitions as C60 and C94; the problem without extents is stated in `Spec/Spread.lean`, which mentions numbers and cap but no extent | the estimate of `Proofs/Decay.lean` with phi = a times the distance of the farthest phonon from the electron (`Proofs/Spread.lean`): a hop changes the distance by at most 1, a coupling term by at most 2, and matrix elements between admitted occupations are at most |g| sqrt(N). Occupations excluded by the extents alone have a phonon at distance at least B/2. Existence and uniqueness (`spread_iff`): the Hamiltonian with limited numbers is bounded and self-adjoint, and the solution is its resolvent applied to the bare electron. |
| C96 | the same definitions as C55 and C56; the setter of the absolute extent is `Model.setAbsExtent` | the operator of C56 depends on the limits only through the set of allowed occupations (`C96_states`); in each of the four cases the sets coincide (`allowed_cap`, `allowed_number`, `allowed_one`, in `Props/Redundant.lean`) |
| C97 | the same definitions as C56; the window is stated in `Spec/Window.lean` | `Proofs/Window.lean`: the quadratic form of the Hamiltonian lies between the two energies (`hamOp_window`: phonon energies up to N per mode, norm of the interaction at most V, hopping at most 2|t|), hence the resolvent is small beyond them; the tails are integrated (`lorentz_tail`) and subtracted from the total weight of C59 |
| C98 | the blocks are those of `fillMatrix` (`Spec/DenseResidual.lean`, `IsBlocks`); the matrices and the number are arbitrary | the amplitudes `R_n ... R_1 G'`, with the sign of every odd level flipped, are put into the sparse equations; the residual there is, level by level, the defect (`flip_defect`, `sum_levels` in `Proofs/DenseResidual.lean`), and the bound on the inverse from C83 applies (`Setting.residual`) |
| C99 | `Model.setAbsExtent`, `Model.run` (sequences of statements, `Model/Setters.lean`) | induction over the statements (`step_abs`); the model with and without the assignment differ in one field (`adds_abs`), which stays well-formed, so C55 applies |
| C100 | spec `Spec/Thermal.lean`: product measure on infinitely many sites, no fictitious phonons | both sides are sums over products of ladder operators (`Proofs/Thermal.lean`); per mode and site the thermal average of a product obeys the same recursion as the vacuum average with `b = C B + S B'†` (`Proofs/ThermalMode.lean`); the measure factorises (`Proofs/ThermalWords.lean`) |
| C101 | spec `Spec/Measure.lean`: moments of a measure, Stieltjes transform, Lorentzian broadening | spectral measure of a bounded self-adjoint operator from the continuous functional calculus and the Riesz-Markov-Kakutani theorem (`Proofs/SpectralMeasure.lean`); limit by Prokhorov's theorem, uniqueness because the moments grow no faster than `A^j j!` and the moment generating function is analytic (`Proofs/MomentProblem.lean`, `Proofs/HopsMeasure.lean`) |
| C102 | spec `Spec/Json.lean`: equality of all public attributes | `Model/Json.lean`: as_dict looks up public attributes first, then private ones; decoder builds terms inside the Hamiltonian inside the model; the checks of the setters of `SingleTerm` are part of it |
| C103 | spec `Spec/CacheAccuracy.lean`: distance to every number the solvers return in exact arithmetic | invariant: every stored number belongs to a point with the same file name, hence within 1e-10 in each coordinate (`C31_key_near`); C58 and C66 turn this into a distance of results; the same invariant along every step of the interleaved processes |
| C104 | Eigenstates of the restricted Hamiltonian as square-summable amplitudes; weight as a maximum | Resolvent on the eigenspace and on its orthogonal complement (density of the range), spectral measure for monotonicity, then the limit of the formulas of the helper; example with energy -1 and weight 4/5 |
| C105 | ExactAt, tolerance, Expected (one predicate on call and answer), InOrder (reload only after construction) | Invariant of the disk: every directory holds files of constructions for this model, possibly with different set orders, and results are exact for some point of that name; each step keeps it; example with four programs |
| C106 | AllExpected (each answer against the exact number of its own model), SeparateRoots | The invariant of C105 with an owner for every directory; the witness uses the second-order formula of C72 for the exact numbers |
| C107 | History (disks after any programs, each stopped after any step), Expected of C105 | An invariant of every state of the disk: each complete file is as some construction for the model would write it; generalized equations do not depend on the order of sets, and merging arguments twice only composes two orders, so files of different runs fit together |
| C108 | Relative (residual of a linear solver), ExpectedTo, History of C107 | The invariant of C107 with numbers accurate to acc(eta), for any acc that falls with eta; C83 bounds acc for a residual, and the names of the files shift eta by at most 1e-10 |
| C109 | Reach (disks and processes under any schedule), ExpectedTo, Steady | A process is a tree of reads, writes and outputs; the invariant of C107 holds under every write of every process because checkpoint files of different runs fit together (re-merging arguments only composes set orders), and a rely-guarantee argument for the files only one process uses |
| C110 | RankReach (disks, ranks and other programs under any schedule), RankExpected, Alone, Ready | A rank is a tree of reads, writes, outputs and gathers; the invariant of C109 for every write, a second invariant that the messages of rank i are the numbers of its chunk of each grid, and a rely-guarantee argument for files of one rank; if all ranks wait, the one that is furthest behind is in the same gather as rank 0 |
| C111 | Numbering, BlockNumbering, ChecksShape; Solution, DistSolution, SolvesAll | A numbering is a permutation of the row numbers; the assembled coordinate list is the permuted list; reindex the sums; the dense recursion commutes with permuting each block. For the wrong number: with one phonon the diagonal elements of the inverse cannot all be equal unless the self-energy is zero, which C72 excludes |
| C112 | Factorises, certified, massSession (Spec/Tolerance.lean) on top of massSolve of C73 | The compared number lies within delta of the distance to the solution; the length of the solution is at most sqrt(prod N!) (1 + V/eta)/eta by C83_inverse; invariant of the directory as in C103 |
| C113 | argSet, oneArgs, rowBound, argTable, rowTable (Spec/Size.lean), all in terms of the model and of clouds | Every argument comes from a term of an equation; acting is reversible, so the terms that lead to a cloud are those whose adjoint can act on it; sites of action are bounded by the edges of both clouds |
| C114 | wanted, newPoints, Kept (Spec/Recompute.lean); not computing is expressed as independence of the function that computes | Files are only added; an answer is on file when it is given; a call whose points are on file reads them without a step |
| C115 | secondOrderSum, secondOrderGreen, couplingSum, scaledCall (Spec/WeakCoupling.lean) on top of secondOrderSelf of C72 | The part left out by at most one phonon always leads to two phonons, so the first correction vanishes and the second is bounded by the norm of the one-phonon part, which the self-energy determines; the one-phonon problem of several modes splits into those of the modes, each solved by C72 |
| C116 | Ordered, Outside, slice (Spec/Padding.lean); massGrid, massGreens, Crew.Plan as in C28 and C86 | extendGrid keeps a pairwise gap in either direction; uniqueness of grids of values; distinct file names from C31_key_near, then C86 |
| C117 | drift, scatteredEnergy, lowerLevel (Spec/Binding.lean); Edge, EmptyBelow as in C88; moment as in C79; strengthSq, spread, variance as in C80 | third moment from two steps of the Hamiltonian on the bare electron (Proofs/ThirdMoment.lean); powers of c - H on a Krylov state grow no faster than on the bare electron, hence its mean energy is not below the edge (Proofs/Krylov.lean); optimal trial state by hand |
| C118 | Between, scaledCalls (Spec/Concave.lean), PolaronEnergy; Edge, Stronger, Looser as in C88 | with all couplings negative c - H has nonnegative matrix elements; couplings that vanish together make the two operators comparable up to constants, so on any state that powers of their mean reach from the bare electron each grows at its own rate, and the rates add up in the mean (Proofs/Concave.lean) |
| C119 | matName, massGreens, petscSolve as in C30 and C54; Step is the shared-directory transition system of Model/Stages.lean | the state is before or after the split for all ranks at once; before it, an emptied file has a writer; after it, all files are complete, so all ranks infer the same size and read the same matrix, and the collective step is petscSolve (Proofs/Stages.lean) |
| C120 | Onsite, freeEnergy (Spec/Flat.lean), Edge as in C88 | amplitudes with phonons move in phase with the site of the phonons, so those at two momenta differ by one factor (Proofs/Flat.lean, resolvent_onsite); the change of the energy of the bare electron is a perturbation of rank one, whose effect on the powers of c - H is bounded from both sides by induction |
| C121 | rows, headings, shownEntry, Longer (Spec/Print.lean): a reader of the printed lines that knows nothing of the equations | the lines are modelled in Model/Print.lean; reading is shown to invert printing block by block (Proofs/Print.lean), then C19_sparse_matrix |
| C122 | Begins (Spec/Bottom.lean): no mass below e, some mass below every higher energy | the powers of c - H in a truncated model are dominated by those in a larger one (C88), hence so are exponential averages of the spectral measures; these converge weakly to the measure of C101, and the average of exp(-s x) over it is at most exp(-s E); large s leaves no mass below E in the truncated model |
| C123 | stated with complex conjugation of the returned numbers; nothing else | the coefficients at (-k, w, -eta) are conjugate to those at (k, w, eta), hence so are the blocks and the continued fraction (Proofs/Negative.lean); C57 removes the sign of k. The counterexamples use the closed form for one phonon (Proofs/OneBoson.lean), which holds for any broadening |
| C124 | the ground-state energy is the largest lower bound of the energy (H in f, f) / (f, f) over states with finitely many amplitudes, with H written out as in Spec/Operator.lean | powers of c - H applied to the bare electron have, up to known signs, positive amplitudes on every linked occupation, so their growth rate, which is the spectral edge, bounds the quadratic form on all linked states at every momentum (Proofs/Variational.lean); the displaced oscillator is computed in Proofs/LangFirsov.lean; without limits by C122, because limits that admit a state do not change its energy |
| C125 | `peak_location_and_weight_scipy` with `curve_fit` as an arbitrary function (Model/Fits.lean); least squares in Spec/CurveFit.lean | the true parameters have residual zero, so the minimum passes through all points; the reciprocals are quadratic polynomials that agree at three points |
| C126 | `to_json`/`from_dict` of `Config` and of the terms on JSON trees, arrays as nested lists (Model/TermJson.lean) | the shape inferred from the nested lists is the shape of the array, and each entry is found at its place |
| C127 | `SingleTerm.__str__`, `Hamiltonian.__str__` as lists of characters, the format `.02f` (Model/Text.lean) | printed numbers are read back with an independent reader; the separators cannot occur inside the parts |
| C128 | `g0F`, `G0F` (Model/Float.lean): the lines of physics.py with a rounding function after every operation | the real part of the root in the prefactor is at least eta, so the root is Lipschitz with constant 1/eta across the branch cut; the bound of C83 on the inverse of the matrix turns errors of coefficients into errors of the result |
| C129 | `coefficientF`, `addToF`, `rowLoopF`, `scaffoldF`, `sparseSolveF` (Model/FloatSolver.lean): the sparse solver with a machine's products and sums | the inexact assembly visits the same positions as the exact one with values that stay close (a relation on the lists, by induction over the loops); the residual of the answer in the exact system is bounded and C83 applies |
| C130 | `termShapes`, `getSingleTerms`, `Hamiltonian.add`, `Model.add` (Model/Model.lean), compared with operators on finite superpositions of electron sites and occupations (Spec/Textbook.lean) | each sum over the chain has one or two summands on a basis vector and equals the sum over the program's terms up to a sign per coupling; signs are removed by the gauge transformation of C69; existence, uniqueness and the solvers by C55 |
| C131 | as C130, together with the limits in `Model.add` and the enumeration of `buildSystem` | the untruncated equations of C60 carried over to the operators of C130 by Bloch's theorem, the factorials of the unnormalised vectors and the gauge transformation of C69, in both directions, so that uniqueness carries over too |
| C132 | `fillRowF`, `fillMatrixF`, `fillEntryF`, `denseRF`, `denseSolveF` (Model/FloatDense.lean): the dense solver with a machine's products, sums, matrix products, linear solver and storage | machines of growing accuracy form a filter; every step of the recursion turns inputs with errors O(u) into outputs with errors O(u): determinants and inverses are continuous, so nearby matrices can be solved and the answers stay bounded; the coefficients by C128 |
| C133 | as C130, together with the limits in `Model.add` and the enumeration of `buildSystem` | the ground-state energy over all momenta of C124 equals the one on the chain: Parseval's identity on a ring longer than the vector gives one inequality, wave packets of growing length the other; signs by the gauge transformation of C69 |
| C134 | `Prims` with inexact values (`PrimsNear`) in the models of `Model.add_` and its helpers | parts of the two models are close (`parts_near`), hence the models (`CouplingsNear`); same clouds, same number of equations; `linear_uniform` bounds the error of the solver for all of them at once, C66 the difference of the exact results |
| C135 | no new code; everything below the solvers' entry points | C131 with half the tolerance for the truncation, C134 (sparse) and C132 (dense) with the other half for the rounding |

## What is modelled

| source | model | left out |
|---|---|---|
| `ggce/model.py` | `Model/Model.lean`, `Model/RealPrims.lean`, `Model/Heap.lean`, `Model/Setters.lean`, `Model/Reports.lean` (data of `visualize`), `Model/Json.lean` (`to_json`, `from_dict`, the checks of the `SingleTerm` setters) | `__repr__`/`__str__` |
| `ggce/engine/terms.py` | `Model/Config.lean`, `Model/ConfigND.lean` and `Model/EngineND.lean` (any dimension), `Model/Engine.lean`, `Model/Solver.lean` (coefficients), `Model/Setters.lean` (full identifiers), `Model/TermJson.lean` (JSON of `Config` and terms) | `__repr__`; coefficients of terms only in one dimension |
| `ggce/engine/equations.py` | `Model/Engine.lean`, `Model/Solver.lean` (bias), `Model/Print.lean` (`visualize`) | rounding of printed coefficients |
| `ggce/engine/system.py` | `Model/Engine.lean`, `Model/Disk.lean`, `Model/Reports.lean` (reported counts), `Model/Print.lean` (`visualize`) | other logging, `mpi_comm` |
| `ggce/executors/solvers.py` | `Model/Solver.lean`, `Model/FloatSolver.lean` and `Model/FloatDense.lean` (in floating-point arithmetic), `Model/Cache.lean`, `Model/Grid.lean`, `Model/Disk.lean`, `Model/Script.lean` (programs composed of these), `Model/Interrupt.lean` (the same step by step, for programs that are killed), `Model/Parallel.lean` (several processes), `Model/Ranks.lean` (the ranks of an MPI program, with `gather`) | progress bars, timing |
| `ggce/executors/petsc4py/base.py`, `solvers.py` | `Model/Grid.lean`, `Model/Crew.lean`, `Model/Stages.lean` (interleavings), `Model/Meta.lean`, `Model/Petsc.lean`, `Model/Diagnostics.lean` (tolerance and memory checks) | KSP options, timings |
| `ggce/utils/combinatorics.py` | `Model/Combinatorics.lean` | |
| `ggce/utils/physics.py` | `Model/RealPhys.lean` | the commented code |
| `ggce/utils/utils.py` | `Model/Utils.lean`, `Model/Fits.lean`, `Model/Grid.lean` (`float_to_list`, `chunk_jobs`, padding) | the algorithm inside `curve_fit` |
| `ggce/logger.py` | `Model/Logger.lean` (handlers, filters, activation, the context managers); elsewhere `critical` ends the process, justified by `C84_refusals_partial` while the package is not disabled | formats, colours, user handlers |

Deliberate idealisations: unbounded integers, exact real and complex numbers, exact linear solvers, no time limits, no memory
limits, no other program changing files, `uuid4` names never collide, PETSc as documented.

Evidence that the reading is right, besides the citations: the model computes 166 generalized and 771 specific
equations for the Edwards model with `M = 3`, `N = 9`, as recorded in the output of `notebooks/GGCE_Tutorial.ipynb`
(lines 240-242 of the notebook file).

The model definitions were also run numerically, outside this project: `Model.adds`, `buildSystem`, `fullBasis` and
`scaffold` with `R` and `K` replaced by floats, the resulting linear system solved by a small C program, and the spectral
function compared with the reference values of the repository's own tests. All six parameter sets of
`ggce/_tests/test_literature.py` (EdwardsFermionBoson, `M = 3`, `N = 9`, three momenta each, every fourth frequency) and
both small-cloud sets of `ggce/_tests/test_literature_finT.py` (Holstein at `T = 0.1` and `0.4`, every third frequency)
agree to a relative accuracy of about 1e-5 or better; the tests themselves ask for 1e-4. The reference values were computed
with `complex64` matrices. The two parameter sets marked slow in that file (skipped by default) hold values read off a
published figure: one of them is negative (−0.0019 at `T = 0.1`), which no spectral function of this code can be (C23), so that
the test cannot pass with its tolerance of 1e-4. For the other one (`T = 0.4`) the model gives 0.9162 and 0.0509 at the two
frequencies tried, the file has 0.8458 and 0.0599.

## Domain of the physical statements

The properties about Green's functions (C22, C23, C52, C55 and most from C56 on) are not about every model the interface
accepts. Unless a property says otherwise they assume

* one dimension;
* positive hopping and lattice constant 1, or hopping 0 (`hl` in the theorems, part of `Physical`). Outside of this the
  propagator of the code does not solve its equation of motion (`C24_only_unit_lattice`), and results are wrong (`C71_wrong`);
* distinct phonon frequencies (otherwise the system cannot be built, `C39_equal_frequencies_fail`);
* BondPeierls not combined with other couplings (otherwise it cannot be built, `C45_bond_peierls_mixture_fails`);
* exact arithmetic, except for the properties about rounding (C83, C98, C128, C129, C132, C134, C135). Those bound errors by
  a constant times the accuracy for all sufficiently accurate arithmetics. They do not show that double precision is
  accurate enough for a given model.

## Where the code and the documented or expected behaviour differ

Each item is a theorem with a concrete witness, next to the `_partial` theorem for the part that holds.

| property | what happens | theorem |
|---|---|---|
| C08 | negative indices wrap around instead of being refused | `C08_negative_wraps`, `C08_negative_index_accepted` |
| C37 | an unknown coupling type registers a phonon type without terms | `C37_unknown_type_changes_model` |
| C39 | two modes with the same frequency make construction raise `IndexError` (frequencies are stored without repetition) | `C39_equal_frequencies_fail` |
| C45 | BondPeierls together with any other type raises `TypeError` (in-place addition of a float array to an int array) | `C45_bond_peierls_mixture_fails` |
| C46 | no couplings at all raises `KeyError` | `C46_free_model_fails` |
| C51 | the advertised use of `phonon_index_override` raises `IndexError` | `C51_override_fails` |
| C24 | the closed form solves the recurrence only for unit lattice constant | `C24_only_unit_lattice` |
| C26 | an integer `k` or `w` raises `TypeError` | `C26_integer_fails` |
| C28 | padded shape is returned, a single point raises, `nan` values are dropped and the reshape raises | `C28_*_fails` |
| C29 | single-point grids and more than 1000 brigades raise `IndexError` | `C29_*_fail*` |
| C30 | more ranks than equations raises `IndexError` | `C30_large_brigade_fails` |
| C31 | points closer than 1e-10 share a result; the directory does not record the system; two processes on one point can raise `EOFError` | `C31_*_fails` |
| C32 | negative results are saved | `C32_negative_saved` |
| C33 | `model.json` is rewritten by every construction | `C33_model_fails`, `C33_mixed_checkpoint` |
| C34 | a coupling added after a reload behaves differently | `C34_later_addition_fails` |
| C35 | three points of interruption leave a directory that cannot be loaded | `C35_between_pickles_fails`, `C35_before_model_fails`, `C35_torn_pickle_permanent` |
| C36 | the solver's root is not given to the system | `C36_solver_root_fails` |
| C44 | left of the peak the mirror image is returned, on the peak `nan`; the two-frequency fit can return the wrong Lorentzian | `C44_on_peak_fails`, `C44_two_frequencies_wrong_peak` |
| C47 | a solver does not prime a lazy system | `C47_lazy_fails` |
| C50 | assigning `model.hamiltonian` shares it | `C50_setter_fails` |
| C54 | a matrix directory shared by two models gives wrong values silently, or an error | `C54_other_model_fails`, `C54_mixed_fails` |
| C64 | a mode without coupling but with a larger extent than all others changes the set of clouds of the other modes | `C64_wide` |
| C65 | the `lam` of the EdwardsFermionBoson coupling is documented as dimensionless but is an energy | `C65_edwards` |
| C70 | negative hopping: the two free propagators disagree on the sign, results are wrong | `C70_returned`, `C70_wrong` |
| C71 | lattice constants other than 1 give wrong results (a warning only) | `C71_wrong` |
| C73 | a result that fails the MUMPS checks is returned, cached and later given out silently; the residual check uses the factorisation it checks | `C73_flagged_stored`, `C73_blind` |
| C74 | an error about the number of equations is logged for a correct system with a reduced absolute extent | `C74_false_alarm` |
| C75 | `visualize` shows the limits of another phonon type after an override or an unknown coupling type | `C75_override`, `C75_unknown` |
| C77 | `from_parameters` accepts a negative temperature (which acts like zero) and any lattice constant | `C77_unchecked`, `C77_negative` |
| C84 | `logger.critical` is documented to terminate always; while the package is disabled it does nothing, and illegal configurations are accepted | `C84_silenced_fails`, `C84_accepted_fails` |
| C85 | `disable_logger` ends with everything enabled, so constructing a solver undoes a user's `logger.disable("ggce")`; nested debug blocks and testing mode leave another configuration than they found | `C85_block_fails`, `C85_construction_fails`, `C85_solver_fails`, `C85_nested_fails` |
| C86 | with a repeated point, the ranks of a brigade can disagree about the result file: one stops with `EOFError`, or waits for ever, or the brigade solves a matrix with rows of two points and stores the value | `C86_eof_fails`, `C86_deadlock_fails`, `C86_mixed_fails` |
| C93 | `config_legal` compares the extent of a type with its limit along the first spatial axis only | `C93_extent_first_axis_only` |
| C100 | the fictitious phonons of an EdwardsFermionBoson coupling are added with the terms of the physical ones; the thermofield transformation asks for creation and annihilation to be exchanged, so above zero temperature the results are not those of the thermal ensemble | `C100_edwards_fails` |
| C106 | one directory for two models: the second program silently prints the numbers of the first model | `C106_shared_root_fails` |
| C109 | two programs at the same time with one result file in common, or one that reloads a checkpoint while another constructs a system there: one of them may raise | `C109_result_race_fails`, `C109_resume_race_fails` |
| C110 | MPI ranks with one directory: if the points of a second grid move to another rank, a rank may raise `EOFError` on a file that another has just opened, and rank 0 waits forever in `gather`; ranks that construct the solver from the directory alone may raise `JSONDecodeError` | `C110_calls_race_fails`, `C110_resume_race_fails` |
| C111 | a basis that numbers another unknown last: `SparseSolver` raises `ValueError` (the right-hand side has too few rows), `MassSolverMUMPS` returns a wrong number without an error | `C111_sparse_fails`, `C111_mumps_fails` |
| C116 | padding an axis that neither rises nor falls can add a requested point again; with a results directory a rank may then raise `EOFError` | `C116_unsorted_fails`, `C116_race_fails` |
| C119 | `prepare_greens_function` does not wait for the other ranks: if the second solver has no `brigade_size`, a rank may read a matrix file that another has just emptied or not yet written; other numbers of brigades may ask for padded points that were not prepared; an unfinished file of an earlier run can be drawn as the sample | `C119_emptied_fails`, `C119_missing_fails`, `C119_padding_fails`, `C119_leftover_fails` |
| C121 | `System.visualize(coef=...)` raises `AttributeError` without hopping: `c.real.item()` on a Python complex | `C121_zero_hopping_fails` |
| C123 | a negative `eta` is accepted and, with hopping, does not give the advanced Green's function: the self-energy has the wrong sign | `C123_hopping_fails` |
| C125 | the fit with scipy may return a negative weight together with a negative width; three points at two frequencies are accepted although they do not determine the peak | `C125_sign_fails`, `C125_two_frequencies_fails` |
| C127 | couplings are printed with two decimals: weak couplings look like zero, different Hamiltonians print the same text | `C127_rounded_fails`, `C127_names_fails` |
| C128 | for a tiny non-zero hopping (below about `u |w|`) `g0_delta_omega` loses all digits: `-x + 1j*sqrt(1 - x**2)` cancels for large `x = w / 2t`, and the power amplifies what is left; a hopping of exactly zero is fine | `C128_small_hopping_fails` |
| C126 | the terms inherit `from_dict` from `MSONable`, but it raises `TypeError` on the dictionary of every term; a dictionary made with `Config.as_dict` shares its array with the configuration | `C126_term_fails`, `C126_dictionary_fails`, `C126_no_types_fails` |
| C130 | the documentation writes the EdwardsFermionBoson Hamiltonian with `-g`, the program builds its terms with `+g` (and Holstein terms with `-g`); the Green's function is the same | `C130_textbook` (any signs) |

`config_legal` with `allow_green` accepts arrays with negative entries that sum to zero (`C02_cancelling_fails`). Observed and
not made into theorems: the docstring of `g0_delta_omega` swaps the two cases of zero hopping; negative zero has its own file name. (The
gigabyte constant of the memory report is 1073741274 instead of 1073741824: `C73_memory`.)

## Wrong programs

`seeded/LOG.jsonl` lists edits of the model that imitate bugs, what they break, and which theorems then fail. They
were made in a scratch copy; a theorem counts as failed if it, or a lemma it uses, no longer checks.

## Trusted base

* Lean 4.33.0's kernel, and Mathlib's definitions used in statements (fields, complex numbers, `Real.cosh`, matrices,
  sums).
* Axioms: at most `propext`, `Classical.choice`, `Quot.sound`; per theorem in `AXIOMS.md`. No axioms of our own, no
  `sorry`, no `native_decide`, no `bv_decide`. `decide +kernel` is used only for concrete examples and witnesses; it is
  checked by the kernel.
* The reading of Python, numpy, scipy, monty, mpi4py and PETSc semantics recorded in the comments of `Verif/Py.lean` and
  `Verif/Model/*`.
* The specifications in `Verif/Spec/*`, meant to be short enough to be checked by eye.
