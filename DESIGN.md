# Formal model of QuanGuru (Lean 4 + Mathlib)

Source: `/repo` (CirQuS-UTS/QuanGuru, pinned commit), read as text, never executed.
Paths below are relative to `/repo/src/quanguru/`; `classes/` is abbreviated `c/`, `QuantumToolbox/` is `t/`.

## Layout

All modules are under `lean/Verif/` and imported by `lean/Verif.lean`. Every model definition cites file and lines and names
its simplifications. Theorems that establish a property are called `C<nn>_...`; a suffix `_partial` means that the English
statement is not covered completely (what is missing is said in `MANIFEST.json` and below). Next to the theorems there are
`example`s showing that the hypotheses are met by concrete non-trivial cases.

| folder | code | properties |
|--------|------|------------|
| `Sweep/` (Model, Spec, Lemmas, Lemmas2, Props) | `c/QSweep.py`, index part of `c/modularSweep.py`, `_reShape` of `c/QRes.py` | C01-C03 |
| `Py/Dict` | Python dictionaries as association lists | shared |
| `Results/` | `c/QRes.py`, `run` of `c/QSim.py`, pool bookkeeping of `c/modularSweep.py` | C04-C06 |
| `Evol/Model, Lemmas, Props` | `timeEvolDefault`, `_runSweepAndPrep`, callbacks | C07, C08 |
| `Evol/Sampling` | samples inside a step, time dependent sweep | C09, C51 |
| `Evol/Time` | time parameters of one simulation (`c/QSimBase.py`) | C10 |
| `Bound/` | `_parameter`, `_bound`, `_boundTree` | C11, C12 |
| `Flags/` | `_paramUpdated`, `delMatrices` (`c/baseClasses.py`) | C13, C16 |
| `Cache/` (Model, Lemmas, Invariant, Props, Count, CountProps, Stable, Findings, Undo) | unitary caches (`c/QPro.py`) | C14, C15, C17-C20 |
| `Cache/Open` | dissipators of open protocols | C53 |
| `Names/` (Model, Dict, Recurse, Registry, Lookup) | `c/base.py` | C21-C25 |
| `Tree/` (Model, Spec, Lemmas, Paths, Remove, Props) | positions in composites (`c/QSystem.py`) | C26-C28 |
| `Tree/Ham`, `Tree/Copy`, `Tree/Heap`, `Tree/Pauli` | terms (`c/QTerms.py`), `copy`, containment, Pauli test | C29, C30, C31, C54 |
| `Init/` (Model, Props, Access) | initial states | C32 |
| `Sim/` (Couplings, Pool, Csv, Remove, FreeEvol) | `extensions/couplings.py`, `extensions/saveReadCSV.py`, `c/QSim.py` | C33-C36, C52 |
| `Toolbox/Wigner`, `Toolbox/WignerProps`, `Toolbox/Husimi` | `t/quasiProbabilities.py` | C56, C57 |
| `Toolbox/Mixed` | `t/states.py` (list form of `densityMatrix`, `normalise`, `completeBasisMat`) | C58 (and C49 for orthonormal bases) |
| `Toolbox/TraceDist` | `t/functions.py` (`traceDistance`) | C59 |
| `Toolbox/Steady` | `t/evolution.py` (`steadyState`), `t/functions.py` (`sortedEigens`, by magnitude) | C69 |
| `Old/Model`, `Old/Coupling` | `c/QSys.py` (`qCoupling`, `termTimeDep.freeMat`, `compQSystem.totalHamiltonian`, `_removeSubSysExc`, `copy`) on the structures of `Tree/Model` | C70 |
| `Old/Dims`, `Old/Three` | `c/QSys.py` (`__addSub`, `updateDimension`, `removeSubSys`, `dimension`) | C71 |
| `Whole/Model`, `Whole/Props`, `Whole/Schroedinger` | `c/modularSweep.py`, `c/QSim.py` (`run`) on top of `Cache`, `Sweep`, `Tree/Ham` and `Toolbox/Evolution` | C72 |
| `TimeDep/Model`, `TimeDep/Lemmas`, `TimeDep/Props`, `TimeDep/Clock`, `TimeDep/Findings`, `TimeDep/Schroedinger` | `_timeDependency` in `c/QTerms.py`, `c/QSystem.py`, `c/QPro.py`, `_currentTime` in `c/QSim.py`, on top of `Whole` and `Bound` | C73 |
| `Obj/Classes`, `Obj/Attr`, `Obj/AttrProps` | slots, properties and class attributes of all classes derived from `named`; `c/QSimComp.py`; `named.__setKwargs` | C74 |
| `Obj/Pickle` | `named.__getstate__`, `__setstate__`, `_findInSlots` in `c/base.py` | C75 |
| `Sim/Create` | `Simulation.addQSystems`, `addSubSys`, `createQSystems`, `createSubSys`, `addProtocol`, beginning of `run` in `c/QSim.py` | C76 |
| `Cache/OpenModel`, `Cache/OpenProps`, `Whole/Open`, `Whole/Lindblad` | `unitary`, `getUnitary`, `_defGetUnitary`, `_defCreateUnitary` with dissipators and caches in `c/QPro.py`; the branch of open protocols in `_runSweepAndPrep`, `timeEvolBase` of `c/modularSweep.py` | C77 |
| `Env/Jump`, `Env/JumpProps` | `dissipatorObj` in `environment.py`: `jOper`, `jOperMatrix`, `system`, `addToProtocol`, with the objects of `Ham/Model` | C78 |
| `Init/Composite` | `compositeState`, `basisBra`, `zerosKet` in `states.py` | C79 |
| `Toolbox/Fidelity` | `_fidelityTest` in `functions.py` | C80 |
| `Whole/Sampled`, `Whole/SampledProps` | `runSimulation`, `timeEvolBase` with `stepSample` in `modularSweep.py`, in whole runs with sweeps and caches | C81 |
| `Whole/TimeSweep`, `Whole/TimeSweepProps` | `timeDependent`, `timeEvolDefault` in `modularSweep.py` with sweeps in `timeDependency`, in whole runs with sweeps and caches | C82 |
| `Whole/Inner`, `Whole/InnerLemmas`, `Whole/InnerProps` | `_defGetUnitary` in `QPro.py` with sweeps in the protocol's own `timeDependency` | C83 |
| `Toolbox/OpPow` | C84: `operatorPow`, `_matPower` and the powers of the operators |
| `Sweep/Double` | rounding to double precision: definition, relative error, integers |
| `Sweep/Range` | C85: sweep lists made from `sweepMin`, `sweepMax`, `sweepStep`, `logSweep` |
| `Sweep/Create` | C86: `createSweep` and the attributes a sweep assigns |
| `Sweep/Hist` | C87: sweeps created, changed and removed between runs, with the attributes they assign; counters left by `prepare` |
| `Results/Return` | end of `Simulation.run`: copying of the states, return value, reset of all results |
| `Bound/State`, `Bound/StateProps` | the initial state of simulations bound to other simulations: getter, setters of simulation and protocol, binding, moving |
| `Bound/StateNone` | assigning `None` as the initial state of a system or protocol (C89) |
| `Args/Model`, `Args/Props` | the checks of types and values and the setters that use them: frequency, dimension, key, name; sweeps over a frequency |
| `Term/Setters`, `Term/SettersProps` | the setters of a term: systems, operators, orders, and the sub-terms of a coupling from which its matrix is made |
| `Term/First` | the dictionary of terms of a system, its first term, and `frequency`, `operator` and `order` of the system |
| `Term/Remove` | the search of a term through sub- and super-systems by `removeTerm` |
| `Term/Shared` | lists of operators and orders that the user changes after assigning them |
| `Toolbox/Loop` | `loopIt` |
| `Tree/Plus` | `+` of quantum systems |
| `Tree/PlusMem` | `+` on objects is `+` on trees |
| `Names/Gc` | names of objects that do not exist any more |
| `Results/Record` | everything that is recorded in one evolution |
| `Old/Init`, `Old/InitProps`, `Old/InitSame` | initial states of the older system classes |
| `Gate/Model`, `Gate/Props` | gate objects (`SpinRotation`, `xGate`) and their cached matrices |
| `Names/Reset` | sessions with `_resetAll`: objects, registries and result objects of the parts before and after |
| `Units/Model`, `Units/Props` | `settings` and `constants` of `simUnits.py` |
| `Names/Results` | the result object of an object, the setter `computeBase.alias` and the dictionary of all results |
| `SpinJ/Model`, `SpinJ/Props` | `jValue` and the constructors of spins and qubits, newer and older classes |
| `Evol/OpenSampling` | one time step of an open protocol with samples |
| `Names/CopyDict` | `aliasDict.copy` |
| `Evol/SweepClock` | time parameters after runs with `timeDependency` sweeps |
| `Tree/FloatDims` | rescaling of positions with floating point division (C26) |
| `Toolbox/Concurrence` | `t/functions.py` (`concurrence`, eigenvalues of `sortedEigens`) | C60 |
| `Toolbox/Gates` | `t/basicGates.py` | C61 |
| `Toolbox/Thermo` | `t/thermodynamics.py` (`nBarThermal`, `qubitPolarisation`) | C62 |
| `Toolbox/EigStat` | `t/eigenVecVal.py` (statistics of given eigenvectors) | C63 |
| `Toolbox/Spread` | `t/functions.py` (`standardDev`, `spectralNorm`, `_expectationColArr`) | C64 |
| `Env/Drive` | `QDrive.py` | C65 |
| `Env/Bath` | `environment.py` | C66 |
| `Ham/Model`, `Ham/Props`, `Ham/Current` | `QSystem.py`, `QTerms.py` (stored Hamiltonians) | C67 |
| `Tree/Hermitian` | Hamiltonians of composites (`c/QTerms.py`, `c/QSystem.py`), free evolution | C68 |
| `NMat/`, `PTrace/` | `t/linearAlgebra.py` with run-time shapes | C38, C45 |
| `Toolbox/` | `t/` on Mathlib matrices | C37, C39-C44, C46-C50 |

`seeded/LOG.jsonl` records the mutations tried against the theorems (in a scratch copy), one per line.
`theorems_failed` lists what stopped building; modules importing a failed one are not built, so later theorems are not
listed. `claimed_theorems_depending_on_these` says which claims use a failed statement; it does not say that each of them
became false. `claim_broken` is assigned by hand per group of mutants and narrowed to the claims so affected. Edits which
did not compile or did not apply are left out. For tightened entries the failures are those after tightening.

## Trusted base

* Lean 4.33.0 kernel; axioms `propext`, `Classical.choice`, `Quot.sound` only (checked with `#print axioms`).
* The reading of the Python source recorded in the comments of the model (there is no mechanical link).
* Python `int` = `Nat`/`Int`; Python/NumPy floats and complex numbers are modelled by ℚ/ℝ/ℂ (no rounding) in the
  algebraic parts. Where the code does integer work through floating point (`(ind-remain)/arg`,
  `int((dims*new)/old)`) the model takes an arbitrary rounding function that is exact on integers up to 2^53
  or states the exactness assumption.
* Python `dict` = association list in insertion order. NumPy/SciPy primitives (`kron`, `@`, `expm`, `conj().T`,
  `reshape`, `einsum`, `eigvals`) = the corresponding Mathlib operation (`Matrix.kroneckerMap`, `*`, `NormedSpace.exp`,
  `conjTranspose`, index maps, `IsHermitian.eigenvalues`).
* Exceptions are values (`Option`, or a flag next to the state left behind); a RecursionError is the exhaustion of an explicit
  limit, and the theorems hold for every limit (or for every large enough one, as stated).
* Float `//` and `int(a/b)` in the time grid (C10, C51) are the exact floor; rounding of these two operations is not modelled.
* Not modelled: sparse/dense representation, warnings, printing, `deepcopy`/pickle, weakref lifetime, real multiprocessing
  (only job→result bookkeeping), plotting, QuTiP interfaces; of the older classes in
  `c/QSys.py` only Hamiltonians, couplings and dimensions (C70, C71) and initial states (C99).

## Plan per property

| id | what is modelled | how it is proved |
|----|------------------|------------------|
| C01 | `Sweep.prepare`, `_indicesForSweep`, loop | mixed-radix bijection by induction on the list of lengths |
| C02 | `_reShape`, `_finalise` | nested-list lookup at the mixed-radix index = flat lookup, induction on depth |
| C03 | `prepare`/`runSweep` flags | induction over the sweep list; negation with witness when the first sweep has `combinatorial=True` (index runs one past) |
| C04 | pool.map as job→result under arbitrary permutation/assignment; `_organise` | induction; negation for `calculated` |
| C05 | `run`, `_reset`, `_organise`, `_finalise` over histories | state after reset is independent; negation for `resetRes=False` |
| C06 | `resAverage` | invariant avg*count = sum |
| C07 | `timeEvolDefault`/`timeEvolBase` | induction on steps |
| C08 | same, with an event trace | counting lemma on traces |
| C09 | stepSample branch with `exp(-i H dt/n)`, and the branch of open protocols (`Evol/OpenSampling.lean`) | exp additive law |
| C10 | timeBase setters/getters over ℚ | invariant over op list; negation: `stepCount=n` reads back `n+1` |
| C11 | `_parameter` heap, `setAttrParam` | invariant/refinement; |
| C12 | `_bound`, `_boundTree` heap | rank invariant for distinct objects; negation with witness after same-value assignment |
| C13 | `_paramUpdated` setter on a graph | reachability theorem on acyclic graphs |
| C14 | protocol cache state machine | freshness invariant; negations (`ratio`, `addStep` of an already computed step) |
| C15 | same machine with counter | potential argument |
| C16 | `delMatrices` DFS with `_exclude` | closure theorem for arbitrary finite graph; negation for shared default argument |
| C17 | `_hc` cache | negation + partial |
| C18 | `_defCreateUnitary`, `_puValues`, copyStep | product over list, refinement to fresh product |
| C19 | `prepare`, fixed branch | negation + partial |
| C20 | `Update` | one system / equal values proved; for evolutions the exact condition under which updates are undone (`Cache/Undo.lean`); negation for several systems |
| C21–C25 | names, alias dictionary, registry, list recursion | refinement to a finite map under pairwise-disjoint member sets; negations for overlapping cases |
| C26 | tree of systems with `_dimsBefore`, `_dimsAfter`, dimension; all user actions (`Tree/Model`) | well-formedness preserved by every action, induction on paths and histories |
| C27 | `addSubSys` of a nested composite | exact condition for consistency afterwards; it fails next to any system of dimension >= 2 |
| C28 | `_removeSubSysExc` including its recursion | stand-alone proved; loss of dimensions proved |
| C29 | `_dimInput`, `_constructMatrices`, `totalHamiltonian` on the structures of `Tree` with run-time shaped matrices (`Tree/Ham`) | matrix algebra, induction on the structure |
| C30 | `copy`, `__rmul__`, constructors and terms (`Tree/Copy`) | exact characterisation of the copied term list; structures with at most one term per system proved; negations |
| C31 | containment graph with object identity (`Tree/Heap`) | negation (self and indirect cycles), partial (direct; careful histories well-founded) |
| C32 | initial states over nested systems (`Init`) | mutual induction; read-after-assign; negations |
| C33 | `checkCavQub` decision logic (`Sim/Couplings`) | case analysis, induction over the list of sub-systems; negations |
| C34 | `_poolMemory.run` (`Sim/Pool`) | decision table and invariant over histories |
| C35 | rows, cells, file names (`Sim/Csv`) | round trip by splitting/joining lists of characters; injectivity of names; collision witnesses |
| C36 | removal functions of simulations and sweeps (`Sim/Remove`) | exact effect and exact condition for raising |
| C37 | `superPos`, `weightedSum`, `normalise` | sums over `Fin d` |
| C38 | `tensorProd`, `hc`, `trace`, `innerProd` with run-time shapes (`NMat`) | index arithmetic, sums over products of ranges |
| C39 | `mat2Vec`, `vec2Mat`, superoperators | reindexing by `finProdFinEquiv` |
| C40 | `dissipator`, `Liouvillian`, `LiouvillianExp` | linear functionals pushed through the exponential series |
| C41 | `Unitary`, products | Mathlib matrix exponential |
| C42 | `Jx ... Js` for every spin | entries of sums with at most one non-zero term |
| C43 | bosonic operators, parity, displacement, squeezing | entries; exponential of skew-adjoint matrices |
| C44 | rotations and gates of closed systems | exponential of an involution |
| C45 | `partialTrace` with NumPy's `einsum` semantics (`PTrace`) | sums over labels, mixed-radix digits; duality with embedded operators |
| C46 | `expectation`, `fidelityPure`, Bell states, variance | trace identities |
| C47 | gates in open systems (`_prepostSO(U)`) | equivalence with Hermiticity; negation |
| C48 | `JCHam`, `UJC` | block decomposition into 2 x 2 blocks; differential-equation-free proof by the exponential of an involution; negation |
| C49 | IPR, purity, entropy | Cauchy-Schwarz/Jensen, spectral theorem |
| C50 | densities | integrals via Mathlib (Beta and Gamma integrals); negation for beta=4 |
| C51 | time-dependent sweep | exact condition (iff), combination `k mod M` at step `k` for any sweeps, negation (wrap-around) |
| C52 | `_freeEvol` and the methods filling `subSys` | induction over the list of keys |
| C53 | collapse operator lists through `unitary`/`getUnitary`, `Liouvillian` | mutual induction over nested protocols; negation: own rates doubled, decaying qubit |
| C54 | test of Pauli dimensions in the setters | case analysis; exact characterisation; negations in both directions |
| C55 | `Toolbox/Evolution.lean` (as for C40); complete positivity is specified in `Toolbox/Positivity.lean` as positivity with an ancilla of any size | Generator brought to the form `GX + XG† + Σ K X K†`; the steps `1 + sL + s² G·G†` are in Kraus form, their powers converge to `exp(tL)` (`Toolbox/PowExp.lean`) and the positive cone is closed. Exact solution of the decaying qubit; negative rates break positivity (proved). |
| C56 | `Toolbox/Wigner.lean`: the three loops with the list `Wlist` updated in place, at one grid point | Invariants of the loops against the closed form with binomial sums; Gaussian moments in the plane (rotation symmetry and polar coordinates) for the integral |
| C57 | `Toolbox/Husimi.lean`: numpy arrays with shapes and the broadcasting rule, `polyval`, `fliplr` | Horner's scheme by induction; shape analysis for kets; Gaussian moments of C56 for the integral |
| C58 | `Toolbox/Mixed.lean`: weighted sums over zipped lists, the in-place loop of `completeBasisMat` | list induction; `UᴴU = 1 → UUᴴ = 1` for completeness |
| C59 | `Toolbox/TraceDist.lean`: roots of the characteristic polynomial of `(A-B)†(A-B)` | diagonalisation and a sign matrix for Hermitian differences; general matrices through the dilation `[[0,D],[D†,0]]`; positive/negative parts and C55 for open evolution |
| C60 | `Toolbox/Concurrence.lean`: sorted roots of the characteristic polynomial of `ρ (σyσy ρ* σyσy)`, without the rounding to 15 decimals | for `ρ = W W†` the matrix `W^T σyσy W` is symmetric and carries the same singular values; a Takagi vector of the largest one and the trace norm of the rest bound the concurrence of every mixture by the sum over its kets. Not proved: concurrence zero implies separable |
| C61 | `Toolbox/Gates.lean`: the coordinate lists of the gates | entry-wise for all phases; Bell states and concurrence through C60 |
| C62 | `Toolbox/Thermo.lean`: both functions with their divisions as `Except` | series `Σ n q^n`, monotonicity of `exp`, `exp` of a diagonal matrix |
| C63 | `Toolbox/EigStat.lean`: flattening and the pair loop with its running index | induction over the loop, index lemma for concatenated lists of equal length |
| C64 | `Toolbox/Spread.lean`: variance, sorted roots of the characteristic polynomial of `A†A` | `ρ = B†B` and Cauchy–Schwarz for the trace inner product; the eigenvector of the largest eigenvalue attains the norm |
| C65 | `Env/Drive.lean`: pulses over the reals, the midpoint sum over the list of grid points, histories of a drive with the stored shape | induction over the grid, interval integrals of Mathlib for the error bound, invariant: the mark is never reset |
| C66 | `Env/Bath.lean`: baths, dissipators and the dictionaries of the free evolutions; every history of assignments | invariant: the stored number is right unless the bath is marked; the stationary state by `A ρ = q ρ A` and an intertwining argument for the exponential |
| C67 | `Ham/Model.lean`: all systems and terms with their parameters, stored matrices and marks; marking and deleting are the functions of `Flags/Model.lean` | invariant: a stored, unmarked Hamiltonian is the current one and all sub-systems are so too; marks and deletions are closed upwards; evaluation by induction on the recursion limit |
| C68 | the Hamiltonians of C29 and the evolution operator of C41 | every term matrix and that of its adjoint, commuting factors of different systems, sum over the permuted terms; expectation by commutation with the exponential |
| C69 | `Toolbox/Steady.lean`: any routine returning the roots of the characteristic polynomial by magnitude, with an eigenvector each; evolution of C40 | powers bounded by splitting into positive matrices; existence: a kernel vector, whose positive part is kept by a channel; convergence by the Gelfand formula; converse by the generalised eigenspace |
| C70 | `Old/Coupling.lean`: structures of `Tree/Model`, couplings as lists of entries (paths, operators), `addTerm` with fuel and an outcome done/raised/running | two-body entries: embedded operators of disjoint systems commute (C29), so the sorted product is the product; equality with `Tree.hamil`; argument sequences by induction over the groups; witnesses |
| C71 | `Old/Dims.lean`: setters shared with `Tree/Model`, `updateDimension` seen from each composite on the way, removal | agreement with `Tree.setDim` for one and two levels, exact condition for three levels by comparison with `Tree.setDim`, removal as division by the dimension, induction over histories; negations for every structure by comparing total dimensions |
| C72 | `Whole/Model.lean`: a run threads one state with parameters and caches through all points; parallel jobs each start from the state before | the cache invariant of C14 through assignments, steps and points; points then reduce to a pure function of the delivered values and C02 gives the place in the results; with `Tree/Ham` and C41 the stored states are the solution of the Schrödinger equation |
| C73 | `TimeDep/Model.lean`: the functions of `Cache` and `Whole` with the calls of the user's functions; the current time follows the bounds of `Bound/Model.lean` | if the functions have nothing to change, asking with and without them is the same (induction on the recursion depth); after the first call of a step they have nothing to change; then as for C72; which simulation gives the time: invariant over the histories of C11 |
| C74 | `Obj/Classes.lean`: the class bodies as tables; `Obj/Attr.lean`: Python's lookup along the bases, and the two custom methods of `QSimComp` for arbitrary getters and setters | case analysis for arbitrary getters and setters; which names a class defines is a finite computation over the complete tables, and all other names are covered by the lookup lemma |
| C75 | `Obj/Pickle.lean`: the loop over the slots, the key of private slots, the registry of names; the transport itself (memo, order of restoring) is pickle's and not modelled | induction over the chain of bases; the conditions on the class are computed for all classes of the library |
| C76 | `Sim/Create.lean`: calls on the dictionary of C52 | relation between the dictionary and the list of requested evolutions, kept by every call |
| C77 | `Cache/OpenModel.lean`, `Whole/Open.lean`: the caches of C14 and the runs of C72, with the lists of dissipators handed down; all protocols open | refinement: if every protocol is used with one list of dissipators, each call equals that of a closed protocol whose leaves have the Lindblad propagators, so C14 and C72 apply; trace and positivity from C40 and C55 |
| C78 | `Env/Jump.lean`: dissipators as further objects of `Ham/Model.lean` (marks and `delMatrices` reach them), all operations on systems, terms and dissipators. An operation that raises ends the history; the links from a dissipator to the free evolutions it was added to only mark them | invariant: a stored jump matrix is the operator embedded at the present position; every operation either keeps matrix and position or deletes the matrix (`keep_step`) |
| C79 | `Init/Composite.lean`: `compositeState` on top of `superPos` and `tensorProd`, `basisBra`, `zerosKet` | algebra: lists of factors, mixed-radix digits, partial trace of products (C38, C45); agreement with `Init/Model` (C32) |
| C80 | `Toolbox/Fidelity.lean`: `fidelityTest` with the positive square root (`CFC.sqrt`) for `scipy.linalg.sqrtm` | algebra: polar decomposition of `sqrt(sigma) sqrt(rho)` from a generalised inverse gives symmetry and the upper bound; rank one roots give agreement with `fidelityPure` (C46) |
| C81 | `Whole/Sampled.lean`: the run of C72 with the sampling branch and the decision for it; `Whole/SampledProps.lean`: the statements | invariant of the caches (C14) through the nested loops over steps and samples; powers of propagators (C41) for free evolutions; concrete runs for the failures |
| C82 | `Whole/TimeSweep.lean`: the run of C72 with an assignment of time-dependent values before every step; `Whole/TimeSweepProps.lean`: the statements | invariant of the caches (C14) through the loops over sweep points and steps, in which the time-dependent attributes are never set back; propagators (C41) for free evolutions; concrete runs for the failures |
| C83 | `Whole/Inner.lean`: `_defGetUnitary` with its loop over the values; `Whole/InnerLemmas.lean`: the loop and the caches; `Whole/InnerProps.lean`: the statements | the caches are those of a program in which the protocol is a leaf that gives the product; invariant of C14 inside and outside the loop |
| C84 | `Toolbox/OpPow.lean`: `_matPower`, `operatorPow` with the fallback of the bare `except`; operator functions by their positional arguments (not modelled: result format; `displacement`, `squeeze`, `parityEXP` as argument) | the recursion is the monoid power; entries of the powers by induction; case analysis for the errors |
| C85 | `Sweep/Range.lean`: `numpy.arange` (length and elements as NumPy computes them, with rounding after each operation), `numpy.logspace` (exact), the getter `sweepList` with its cache; `Sweep/Double.lean`: double precision | closed form without rounding; error bounds with rounding; induction over histories of assignments and readings for the cache |
| C86 | `Sweep/Create.lean`: `createSweep` with its checks, `_runUpdate` on attributes and auxiliary dictionary | decision logic; induction over the systems and over the sweeps of a point |
| C87 | `Sweep/Hist.lean`: `assignLoop`, `pointLoop`, `runSim`, `hstep` (commands: create, remove, new list, new flag, assign, run) | points of a run from C01/C03/C86 for arbitrary left-over counters; the counters after any history by induction over the commands |
| C88 | `Results/Return.lean` | `fullRun` extends the run of C04/C05 by `QSim.py:355-359`. The stored states of a protocol are followed through the callbacks, `_organise`, `_finalise` and the copying loop (`run_states`, `copyStates_get`), then C02 gives the nested index. Other result objects: an invariant of one object carried through the loop (`run_inv_obj`). |
| C89 | `Bound/State.lean`, `Bound/StateProps.lean`, `Bound/StateNone.lean` | `stateBase.initialState` with its two attributes `_bound` and `_timeBase__bound`, the setters of simulation and protocol, `_bound`, over all programs of assignments, dimension changes, bindings and reads; the getter is shown to refine one over known systems, the values by induction over the bindings and the program.  Assigning `None` is a separate step, not a command of the programs.  Not covered: composite inputs (C32) |
| C90 | `Args/Model.lean`, `Args/Props.lean` | `raiseAttrType`, `checkCorType`, the setters with `isinstance` for the classes of Python and NumPy, the points of a sweep over a frequency; by cases and by induction over terms, assignments and values.  Not covered: NaN, the texts of messages, keyword arguments of decorated functions |
| C91 | `Term/Setters.lean`, `Term/SettersProps.lean` | `qSystem`, `operator`, `order`, `_createTerm` and `_constructMatrices` of `QTerm` over all programs of assignments and changes of dimension with exceptions caught; shapes and agreement of the sub-terms with the term by induction over the program, exact conditions for the exceptions.  Not covered: flags and stored matrices (C13, C67), what a factor is as a matrix (C29) |
| C92 | `Term/First.lean` | `createTerm`, `addTerms`, `removeTerm`, `resetTerms`, `terms = …`, `_firstTerm` and the properties of one system over all programs; the stored first term is the head of the dictionary by induction over the program.  Not covered: several systems (C67), the checks of values (C90, C91) |
| C93 | `Term/Remove.lean` | `_removeTermExc` as a search with a list of visited systems on arbitrary finite graphs of systems; invariant: a visited system does not have the term and its neighbours are visited, so a failed search has seen all reachable systems; depth bounded by the number of systems not visited.  Not covered: what deleting matrices does (C16, C67) |
| C94 | `Toolbox/Loop.lean` | `zip` item by item, the list comprehension with exceptions; the calls are determined by their positions.  Not covered: infinite or stateful iterators |
| C95 | `Term/Shared.lean` | a memory of list objects and any number of couplings with references into it; all programs of changes in place, assignments, frequencies, readings and `delMatrices`; invariants: an unmarked Hamiltonian is frequency times stored matrix (all programs), the stored matrix is that of the values shown (programs that change no list in use).  Not covered: changes of systems and dimensions (C67), the check of Pauli operators (C91) |
| C96 | `Tree/Plus.lean` | `+` on the trees of C26 by cases of the kinds; expressions of single systems by induction; objects with identities for operands that are used again, and the trees as what these objects are as long as nothing is used twice (`C96_objects`).  Not covered: copies of composites (C30), names as operands (C22), terms and simulations of the operands |
| C97 | `Names/Gc.lean` | the registry of C22 with weak references, all programs of creations, aliases, lost references, pickling and lookups, by induction.  Not covered: which attributes hold an object (the statement `drop` says that none does), the registry of the other process (C75) |
| C98 | `Results/Record.lean` | the result objects of C06 with `resultsMethod`, all programs of recording statements under all keys of one object, by induction.  Not covered: averages of arrays, keys that are not strings in `singleResult` |
| C99 | `Old/Init*.lean` | `_createAstate` with its decorator, the property `initialState`, `initialStateSystem` and `copy` on trees of older systems, by induction on the tree and on the history; the states are compared with the model of C32.  Not covered: removed systems, mixtures of older and newer systems, explicitly created simulations |
| C100 | `Gate/*.lean` | the attributes of a gate, `_rotMat`, `instantFlip`, `_gateImplements`, `_identity` and the part of `unitary` that caches, on matrices with run-time sizes; all histories of assignments, systems, dissipators and questions, by induction; the matrices are linked with C41, C42 and C44.  Not covered: rounding, updates and time-dependent sweeps of gates (C20, C83) |
| C101 | `Names/Reset.lean` | creation, aliases, `_resetAll`, the registry that each object keeps and the dictionary of the result objects, on the names of C21-C23; the part after a reset is related to a fresh session by renumbering the objects, for all histories by induction.  Not covered: garbage collection (C97), aliases given as lists |
| C102 | `Units/*.lean` | the two dictionaries with their attributes, all histories of assignments, `update` and `del`, by induction; `constants[...]`, `constants.x`, `get` and `hasattr`.  Not covered: keys that are names of attributes of `dict` |
| C103 | `Names/Results.lean` | programs that create objects with and without results and assign strings, lists and tuples (nested) as aliases, on top of the model of the registry of C21/C22; by induction over the programs.  Not covered: aliases assigned to result objects directly, keyword arguments of constructors |
| C104 | `SpinJ/*.lean` | `jValue`, `dimension` and the keywords of the constructors on integers, exact numbers and other values, with the test of C54 for Pauli operators; the Hamiltonian with `Jz` through C42; all histories of assignments by induction.  Not covered: rounding of floats, keywords other than `jValue` and `dimension` |

## Disagreements between code and property (each proved for a concrete witness or in general)

| id | theorem | what the code does |
|----|---------|--------------------|
| C03 | `C03_first_combinatorial_always_fails`, `..._run_fails` | a first sweep with `combinatorial=True` makes every run raise IndexError |
| C04 | `C04_parallel_calculated_lost`, `C04_calculated_differs` | `calculated` values are lost in parallel runs |
| C05 | `C05_noreset_truncates`, `C05_noreset_scalar_raises` | `resetRes=False` neither keeps nor extends earlier results |
| C09 | `C09_gate_sampling_changes_evolution`, `C09_free_protocol_changes_evolution`, `C09_open_advance`, `C09_open_changes` | samples apply a gate several times; a plain free evolution and the steps of every open protocol only advance `dt/samples` |
| C10 | `C10_assigned_count_reads_plus_one`, `C10_decimals` | an assigned `stepCount = n` reads back `n + 1`; with the doubles nearest to the decimals 0.3 and 0.1 one step fewer than with the decimals themselves |
| C11 | `C11_equal_value_not_overridden`, `C11_own_step_replaced`, `C11_own_step_changed`, `C11_copied_when_bound`, `C11_reading_detaches` | binding and reading may copy values and detach parameters; a step size assigned before binding is replaced by `totalTime / stepCount` if the other simulation has both its times |
| C12 | `C12_cycle`, `C12_self` | cyclic bounds are possible; reading then never ends |
| C14 | `C14_ratio`, `C14_added_step`, `C14_step_asked_first`, `C14_protocol_update` | out-of-date unitaries |
| C15 | `C15_copy_before_original`, `C15_updates` | avoidable exponentiations |
| C16 | `C16_second_call_does_nothing` | the shared default list makes later calls ineffective |
| C17 | `C17_stale`, `C17_witness` | the conjugate is never refreshed |
| C19 | `C19_none`, `C19_prepare_computes_nothing` | `None` instead of a unitary |
| C20 | `C20_several_systems`, `C20_same_attribute`, `C20_group`, `C20_restored_iff` | updates are not undone: several systems get the value of the first one, several updates of one attribute leave the value before the last change |
| C21, C22 | `C21_clash`, `C22_hidden` | an alias equal to a (later) default name hides an object |
| C23 | `C23_subclass_without_counters` | user-defined subclasses share counters with equal labels |
| C25 | `C25_del_ambiguous`, `C25_update_no_copy` | a key is still contained after its deletion; an empty dictionary updated with another one is not always equal to it |
| C27 | `C27_iff`, `C27_not_consistent` | growing a nested composite |
| C28 | `C28_dimension_lost`, `C28_zero` | removal sets dimensions to one |
| C30 | `C30_only_if`, `C30_two_terms`, `C30_deep_coupling`, `C30_initial_state` | copies keep only the last term, or raise |
| C31 | `C31_self`, `C31_cycle` | a system can contain itself |
| C32 | `C32_array_norm`, `C32_part_ignored`, `C32_stale` | arrays are not normalised; parts are ignored; stale states |
| C33 | `C33_recursion`, `C33_unbound`, `C33_cavity_ignored`, `C33_qubit_then_spin` | wrong exceptions, a given cavity is ignored |
| C34 | `C34_sticky` | `p=None` after pool and single run |
| C35 | `C35_collision`, `C35_key_collision`, `C35_one_row`, `C35_flat` | file names collide; nesting lost |
| C36 | `C36_other_sweep_raises`, `C36_after_run`, `C36_protocol_by_name` | KeyError and half-done removals |
| C39, C47 | `C39_prepostSO_default_not_conjugation`, `C47_rotations_wrong`, `C47_trace_witness` | gates of open systems apply `U rho U` instead of `U rho U^dag` |
| C44 | `C44_gate_phase_ignored` | the instant implementation ignores `phase` |
| C45 | `C45_negative_index` | negative indices |
| C46 | `C46_dimension_one_differs` | a 1 x 1 ket is taken for a density matrix |
| C48 | `C48_not_JCHam`, `C48_nan` | `UJC(wq)` belongs to `JCHam(wq/2)`; NaN on resonance without coupling |
| C50 | `C50_eigen_four`, `C50_clipped` | wrong normalisation for beta = 4; clipping |
| C51 | `C51_wraps_around`, `C51_wraps_around_without_totalTime` | an extra step uses the first value again |
| C51 | `C51_first_list_decides`, `C51_run_before` | without a total time the first time-dependent list decides the number of steps of all later runs, also after it has been replaced or removed |
| C26 | `C26_float_wrong` | positions are rescaled with floating point numbers and are rounded when a total dimension exceeds 2^53 |
| C52 | `C52_lost`, `C52_reordered` | a placeholder and an explicitly added free evolution of one system |
| C53 | `C53_own_rates_doubled`, `C53_decay_witness`, `C53_not_once` | own dissipators act twice |
| C13 | `C13_untold_follower` (`Bound/Props`) | a simulation with one assigned time parameter is no longer told of changes of the others, which it still takes from its parent |
| C54 | `C54_wrongly_accepted`, `C54_wrongly_refused` | only the first term is checked |
| C56 | `C56_mass`, `C56_vacuum` | the integral is twice the trace: a factor one half is missing |
| C57 | `C57_ket_raises`, `C57_density_raises`, `C57_vacuum_wrong` | density matrices raise AttributeError, kets ValueError unless the grid has one point or as many as the dimension; then the values are wrong |
| C58 | `C58_docstring`, `C58_overwritten`, `C58_truncated`, `C58_single` | the docstring of `densityMatrix` prints a matrix that is not positive; `completeBasisMat` overwrites the caller's list; lists of different lengths are cut silently; `densityMatrix(k)` is not normalised, `densityMatrix([k])` is |
| C59 | `C59_kets`, `C59_kets_sign` | `traceDistance` accepts kets (its neighbours convert them) and returns half the Euclidean distance |
| C62 | `C62_docstring` | the population ratio in the docstring of `qubitPolarisation` should read `exp(-freq/temp)` |
| C62 | `C62_nbar_negative` | `nBarThermal` accepts negative frequencies or temperatures and returns numbers below −1 |
| C62 | not modelled | `HeatCurrent` ends with `.tr()`, which no matrix type has: every call raises |
| C63 | `C63_docstring`, `C63_odd` | `eigVecStatKet` returns a pair, its docstring shows one list; in odd dimensions the symplectic statistics drop the last component |
| C65 | `C65_gap`, `C65_rotation_scaled` | both end points of a pulse are excluded, so two adjacent pulses leave a gap; a given `_scale` divides the requested rotation angle |
| C66 | `C66_temperature_ignored`, `C66_argument_order`, `C66_members` | rates are stored when the system is assigned and never refreshed; `system` before `jRate` (as in `thermalBath.jOpers`) gives rate zero; `bath.dissipator = d` drops the earlier dissipators from `subSys`. Seen in the source, not modelled: the `jOpers` setter takes three arguments, so assigning raises TypeError; `jOper` before `system` raises AttributeError (jump operators: C78) |
| C67 | `C67_resetTerms_keeps`, `C67_resetSubSys_keeps`, `C67_same_system_keeps`, `C67_fixed_unitary_keeps`, `C67_readded_witness`, `C67_removal_drops`, `C67_outer_coupling_witness` | `resetTerms` and `resetSubSys` neither mark nor delete; assigning the same `qSystem` again removes the operator without a mark; `unitary()` with a fixed free evolution clears the mark of the system; a removed term keeps its matrix when dimensions change; removing a composite removes its own inner couplings; removing from an inner composite leaves couplings of the outer one. |
| C68 | `C68_same_system_twice`, `C68_adjoint_not_added`, `C68_complex_frequency` | limits of the claim, not errors: the library accepts terms that make the Hamiltonian non-Hermitian (a system named twice in a coupling, a coupling without its adjoint, a complex frequency) and then evolves with a non-unitary operator |
| C69 | `C69_degenerate`, `C69_closed_alias` | `steadyState` returns all eigenvectors of the propagator for time one and does not check that the last is a state: with a conserved quantity it may be traceless, and for closed systems it need not be stationary when energies differ by a multiple of 2π |
| C70 | `C70_rest_ignored`, `C70_three_body`, `C70_one_system`, `C70_endless`, `C70_composite_first`, `C70_one_operator`, `C70_removal_raises`, `C70_coupled_stays`, `C70_after_exception`, `C70_copy_empty` | `__coupOrdering` loops over `range(2)` instead of over the systems; `addTerm` calls itself with unchanged arguments after two lists of systems; a composite as first system makes it return without a word; `removeSysCoupling` pops from the dictionary it iterates over, so RuntimeError; the dictionary is not copied |
| C71 | `C71_nested_growth`, `C71_cached_dimension`, `C71_three_levels`, `C71_inner_removal` | adding to an inner composite updates neither the outer ones nor their cached dimension; `updateDimension` of a middle composite rescales what is after itself instead of its own sub-systems; removal from an inner composite informs composites beside it but not single systems |
| C72 | `C72_unmarked` | a sweep over an attribute that is assigned without marking (`phase` of `SpinRotation`) gives every point the unitary of the first one; with multi-processing the results differ |
| C73 | `C73_second_simulation` | a system added to a second simulation takes its time from the second one also while the first is running |
| C73 | `C73_own_step_size` | a system with a step size of its own, assigned before or after it was added to a simulation, stays at time 0 (before the run), since assigning it removes the bound, even inside `_bound` |
| C73 | `C73_sub_system_step` | the simulation of a sub-system is not bound to that of the composite; as step of a protocol it resets the time dependent attributes to time 0 |
| C73 | `C73_called_often` | the functions are called several times per step (`unitary`, `getUnitary`, each step), which shows if they use what they assign |
| C74 | `C74_sim_total_time` | `obj.simTotalTime` (and `simStepSize`, …) can be assigned, but reading it gives the tuple of all parameters |
| C74 | `C74_super_system` | `protocol.superSys = None` is accepted: the `AttributeError` in the middle of the setter is caught and the simulation's `superSys` is removed as well |
| C74 | `C74_steps` | `protocol.subSys = [g1, g2]` is accepted, but the protocol ends up without steps and its simulation with the gates as its systems |
| C75 | `C75_no_slots` | a user's class derived from e.g. `Gate` without its own `__slots__` cannot be pickled (`AttributeError`), so it cannot be used with multi-processing |
| C75 | `C75_underscore`, `C75_same_slot` | the same for a class named with a leading underscore that has a private slot; a private slot with the name of one in a base class loses the base's value |
| C75 | `C75_registry_changed` | pickling replaces the weak references in the registry of the sending process by the objects: they are never freed afterwards, and names of freed objects raise instead of giving `None` |
| C76 | `C76_created_twice` | `simulation.createSubSys(cls, Protocol=p)` evolves the new system twice, freely and with the protocol |
| C76 | `C76_list_ignores` | the protocol given with a list of systems is ignored |
| C76 | `C76_after_run`, `C76_remove_free` | after a run the free evolution is an entry of its own: a protocol added then does not replace it, and before the run it cannot be removed by `protocolRemove` |
| C77 | `C77_getUnitary_before` | `getUnitary()` and `unitary()` share a cache but use the own dissipators once and twice: the result of `unitary()` depends on which was called first |
| C77 | `C77_step_asked` | a step that is also asked for on its own (e.g. run by the same simulation) takes over the dissipators of the protocol around it, or takes them away from it, depending on the order |
| C77 | `C77_second_protocol` | in a protocol that contains a step of another protocol its own dissipators do not act in that step |
| C77 | `C77_added_later` | a dissipator added after the propagator was computed is ignored until a parameter is assigned |
| C77 | `C77_mixed_start` | a density matrix given as initial state of an open system is squared before the evolution |
| C78 | `C78_lost`, `C78_order_witness`, `C78_repair` | a change of dimension, a new or removed sub-system or a removed term anywhere in the structure sets the jump matrix to `None`; every later propagator raises AttributeError, and assigning the operator again raises ValueError; only `jOperMatrix = None` repairs it |
| C78 | `C78_moved` | a dissipator given to another system keeps the matrix embedded for the first one, and stays in the free evolution of the first one |
| C78 | `C78_composite` | dissipators of sub-systems are not used by the free evolution of the composite |
| C79 | `C79_truncated`, `C79_rows_witness` | `zip` drops the surplus when the numbers of dimensions and inputs differ: a state of a smaller space is returned without an error |
| C81 | `C81_swept_samples`, `C81_nested_samples`, `C81_updates_ignored`, `C81_stays_on` | whether a protocol is sampled is decided before the sweeps are applied and from its own steps only, so a swept number of samples, or samples in a nested protocol, shorten the evolution; the updates of a sampled protocol are ignored; sampling is never switched off |
| C82 | `C82_initial`, `C82_step_count`, `C82_short_range`, `C82_range_parallel`, `C82_range_combinations` | time-dependent attributes keep their last value, so initial states or numbers of steps that depend on them differ in the second run; values given as `sweepMin`, `sweepMax`, `sweepStep` raise `IndexError` in the first run if there are fewer of them than steps or there is a second combinatorial sweep, and then the run with multi-processing raises where the one without does not |
| C83 | `C83_unprepared`, `C83_calls`, `C83_repeated_partial`, `C83_reading_changes`, `C83_step_stale` | no function of the library prepares the `timeDependency` of a protocol, so its unitary raises `IndexError` unless the user calls `prepare()`; every value is one more evolution for the whole step size; asking for the unitary leaves the last values in the attributes and so changes the unitaries of other protocols; if the protocol is a step, an earlier step with the same attribute stays at the value before, unmarked |
| C84 | `C84_spin_dimension`, `C84_errors_lost` | `operatorPow(Jx, dim, n)` takes `dim` for the spin and returns a matrix of dimension `2*dim+1`; with an invalid dimension the bare `except` calls `op(sparse)`, where `True` is taken for the dimension one, and no error is raised |
| C85 | `C85_beyond_iff`, `C85_extra`, `C85_stale`, `C85_rerun`, `C85_silent` | the list goes beyond `sweepMax` unless the difference is a multiple of the step, and sometimes (`1`, `1.3`, `0.1`) by rounding; once the list was read, e.g. by a run, changes of `sweepMin`, `sweepMax`, `sweepStep` and `logSweep` are ignored; errors in making the list are dropped and the list is `None` |
| C86 | `C86_silent`, `C86_order` | `createSweep` accepts an attribute that the first system does not have (e.g. a misspelled name) and sweeps an entry of the auxiliary dictionary instead, even if the other systems have the attribute |
| C87 | `C87_stale`, `C87_leftover`, `C87_error_leaves` | after the last sweep has been removed `prepare` does nothing, so `run` repeats the same point as often as the last run with sweeps had points and nests the results accordingly; the swept attributes keep the values of the last point; a run that raises leaves a half-assigned point |
| C88 | `C88_returns_nothing`, `C88_rerun_raises`, `C88_others_lost` | `run()` returns an empty list unless a protocol is stored under the name of the owner (a `Simulation` of its own, or a system with explicit protocols); reading the return value inserts that key, so the next run with `resetRes=False` raises IndexError. `resetRes=True` is described as deleting the results of the previous run of this simulation but deletes the results and states of every object of the program. |
| C89 | `C89_own_time_raises`, `C89_moved`, `C89_failed_kept` | giving a protocol a time parameter of its own cuts its way to the initial state: when the dimension changes, reading it raises AttributeError on `None.initialState`; a protocol given another system keeps starting from the state of the old one; an assignment that raises has stored its input; the setter of a protocol ignores the largest level of its input, so level 4 of 3 levels is not reported as the setter of a system does (example) |
| C89 | `C89_none_system`, `C89_none_protocol` | `system.initialState = None` raises ValueError and keeps the state until the dimension changes, then reading raises; `protocol.initialState = None` makes the protocol start from the present state of its system for good instead of following it |
| C90 | `C90_numpy_rejected`, `C90_integer_range_raises`, `C90_integer_range`, `C90_decorator_named`, `C90_key` | NumPy integers and single precision numbers are not accepted as frequencies, although they are as dimensions; therefore a range sweep over a frequency with three integers raises TypeError at its first point, while the same range with a step `1.0` or the list of the same Python integers runs; the decorator raises on every call if the argument is named, which its comment recommends against but allows; `sweepKey` is not checked although `key` is |
| C91 | `C91_failed_used` | a coupling assigns the operators to its sub-terms before it checks the dimensions for Pauli operators: after the ValueError `operator` is the old list, but the next matrix is made of the refused operators |
| C92 | `C92_removed`, `C92_reset` | removing the first term raises no error, as the documentation of `removeTerm` says it does, and like `resetTerms` keeps it as the first term: `frequency`, `operator` and `order` of the system then act on a term that is not in the Hamiltonian |
| C95 | `C95_stale`, `C95_stale_witness`, `C95_change_only_shows` | the list is kept, not copied, and compared with itself: after `ops[0] = x; term.operator = ops` (or a copy of `ops`) the coupling shows `x`, but its Hamiltonian is the old one until the frequency is changed or `delMatrices` is called |
| C96 | `C96_single_first`, `C96_not_associative`, `C96_untyped_composite`, `C96_raises`, `C96_used_twice` | `a + (b + c)` has the order b, c, a; a system without kind plus a composite is dropped; a single system plus one without kind raises UnboundLocalError; after `x = a + b; y = a + c` the matrices of `a` have the size of all three systems and fit neither composite |
| C97 | `C97_reserved`, `C97_lookup_dead`, `C97_pickle_keeps` | names and aliases of a collected object stay reserved, looking them up gives `None` without an exception, and pickling one object (parallel run) keeps all objects of the session for ever |
| C98 | `C98_average_overwrites`, `C98_raises`, `C98_method_lost` | an average throws away what was recorded one by one under the same key, a value recorded after an average raises, and `resultsMethod` with `average=True` or without a string loses the value silently |
| C99 | `C99_assign_raises`, `C99_read_raises`, `C99_state_never_set`, `C99_input_kept`, `C99_copy_after` | the older classes have `_createAstate` but the simulation calls `_createState`: assigning and reading an initial state always raises, the input is kept nevertheless, and after that the system cannot be copied |
| C100 | `C100_quiet`, `C100_phase_stale`, `C100_open_stale`, `C100_removed_stale`, `C100_bad_axis`, `C100_size_forgotten`, `C100_spinRotation_implementation` | `phase` and `implementation` are plain attributes, and adding or removing systems and adding dissipators do not mark a gate: after the first question they are not noticed; an axis that does not exist raises but is shown, while the rotation goes on about the axis before; an `instant` gate on a system that is no qubit raises once and then answers with a matrix of the wrong size; a `SpinRotation` ignores `implementation` |
| C101 | `C101_old_alias_iff`, `C101_old_alias_any`, `C101_old_alias_witness`, `C101_same_names`, `C101_replaces`, `C101_results_kept`, `C101_results_replaced`, `C101_results_wrong` | after `_resetAll` the aliases of older objects are checked against the objects created later, so two older objects can get the same alias; older and newer objects have the same names and replace each other in a dictionary of sub-systems; the result objects are not forgotten, a new one takes the place of the older one with its name, and the alias under which a run stores the states of a new system can give the results of another one |
| C102 | `C102_update_ignored`, `C102_attribute_only`, `C102_deleted`, `C102_shadowed`, `C102_unknown`, `C102_get` | `settings.update` and `del settings[...]` are not noticed by the constants; `settings.trueVals = v` is not shown by `settings["trueVals"]`; an assigned `constants.hbar` stays whatever the settings are; `hasattr(constants, name)` raises `KeyError` for unknown names; `constants.get` finds nothing |
| C103 | `C103_tuple`, `C103_half_done`, `C103_list_stops`, `C103_witness` | a tuple of aliases and lists in lists give the results no alias; if `s + "Results"` is taken the assignment raises and the object keeps the alias `s`; a refused element of a list leaves the earlier ones with the object but not with the results; an alias such as "Qubit1Results" makes the constructor of `Qubit1` raise |
| C104 | `C104_rounded`, `C104_old_negative`, `C104_old_rounded`, `C104_qubit_keywords`, `C104_qubit_changed`, `C104_levels` (second part) | a number that is no multiple of one half is rounded down silently; the older class accepts negative spins, with dimensions that are not positive, and rounds -0.7 and -0.3 to -0.5; the spin given to `Qubit(...)` is used only if `dimension` is given before it; a qubit can be given any spin; spin 0 has no Hamiltonian |
