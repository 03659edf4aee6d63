{"id": "C01", "title": "Every combination of swept values is simulated exactly once", "statement": "When a Simulation with a multi-parameter Sweep is run, the sequence of index tuples handed to the sweeps while the run counter goes through range(indMultip) contains every tuple (i_1,...,i_k) with 0 <= i_j < len(sweepList_j) exactly once and nothing else; the sweep created last varies fastest.", "quantifier": "every number of combinatorial sweeps and every list of sweep lengths with at most 2^53 combinations (above that the float division in the index computation is not exact)", "why_tests_cant": "tests fix two or three small lengths; the claim is a bijection for every tuple of lengths", "anchors": ["src/quanguru/classes/QSweep.py: Sweep.prepare", "src/quanguru/classes/QSweep.py: Sweep._indicesForSweep", "src/quanguru/classes/modularSweep.py: nonParalEvol, _runSweepAndPrep"]}
{"id": "C02", "title": "Result nesting agrees with sweep order", "statement": "After run(), a stored result/state list has one nesting level per combinatorial sweep and results[i_1]...[i_k] is what was stored by the run in which sweep j (in creation order) had its i_j-th value, a stored list of one element being replaced by this element.", "quantifier": "every number of sweeps, the first one without combinatorial=True (see C03), all lengths of sweeps with at most 2^53 combinations, every stored payload", "why_tests_cant": "an index permutation or transposition bug is invisible whenever the tested lengths are equal or there is one sweep", "anchors": ["src/quanguru/classes/QRes.py: qResults._reShape, qResults._finalise", "src/quanguru/classes/QSweep.py: Sweep._indicesForSweep, Sweep.prepare"]}
{"id": "C03", "title": "Simultaneous (non-combinatorial) sweeps move in lockstep", "statement": "A sweep created with combinatorial=False always uses the same list position as the closest preceding sweep that opened an axis, and the parameter set of run (i_1,...,i_k) gives each sweep its own i_j-th value, whatever the combinatorial flags are.", "quantifier": "every list of sweeps with arbitrary combinatorial flags and list lengths", "why_tests_cant": "the flag pattern is a 2^n space; tests cover one or two patterns and never set the flag on the first sweep", "anchors": ["src/quanguru/classes/QSweep.py: Sweep.runSweep, Sweep.prepare, _sweep.runSweep, _sweep._defSweep"]}
{"id": "C04", "title": "Parallel and sequential runs give the same results", "statement": "run(p=True) returns the same results, states and calculated quantities as run(p=False), for every number of workers and every order in which workers finish.", "quantifier": "every job-to-worker assignment, every completion order, every per-point simulation function and every shape", "why_tests_cant": "schedules are non-deterministic and exponentially many; tests see one of them", "anchors": ["src/quanguru/classes/modularSweep.py: paralEvol, nonParalEvol, parallelTimeEvol", "src/quanguru/classes/QRes.py: qResults._organiseMultiProcRes, _organise, _organiseSingleProcRes, _copyAllResBlank"]}
{"id": "C05", "title": "Re-running a simulation", "statement": "run() (resetRes=True) gives results that do not depend on any earlier run; run(resetRes=False) keeps the results of the earlier runs as documented.", "quantifier": "every history of earlier runs and every result content", "why_tests_cant": "requires quantification over all previous histories", "anchors": ["src/quanguru/classes/QSim.py: Simulation.run", "src/quanguru/classes/QRes.py: qResults._reset, _resetLast, _organise, _finalise"]}
{"id": "C06", "title": "Running average is the arithmetic mean", "statement": "Storing values v_1..v_n under a key with resAverage during one time evolution leaves exactly (v_1+...+v_n)/n as the result of that key, independently of values stored under other keys, if nothing else is stored under this key.", "quantifier": "every sequence of stored values and every interleaving with other keys", "why_tests_cant": "induction over the history of stores; examples check only short lists", "anchors": ["src/quanguru/classes/QRes.py: qResBase.resAverage"]}
{"id": "C07", "title": "Trajectory content and length", "statement": "For a closed system with a constant protocol the stored states of one run are stepCount+1 many, as many as points in timeList, and the k-th stored state is (U^k) applied to the initial state, U being the protocol unitary; for an open system it is the k-fold superoperator.", "quantifier": "every step count, every unitary, every initial state, every number of protocols", "why_tests_cant": "off-by-one errors at arbitrary k and arbitrary dimension cannot be excluded by samples", "anchors": ["src/quanguru/classes/modularSweep.py: timeEvolDefault, timeEvolBase", "src/quanguru/classes/QSim.py: Simulation.timeList, Simulation.__compute"]}
{"id": "C08", "title": "Compute callbacks fire exactly once per time point", "statement": "During one sweep point, the compute function of the simulation and of each protocol is called exactly stepCount+1 times, the compute of each distinct quantum system exactly stepCount+1 times even if it is evolved by several protocols, and each preCompute/postCompute exactly once, before/after all of them.", "quantifier": "every assignment of protocols to systems and every step count", "why_tests_cant": "the number of calls depends on the aliasing pattern between protocols and systems and on the step count, an infinite family", "anchors": ["src/quanguru/classes/modularSweep.py: _runSweepAndPrep, timeEvolDefault"]}
{"id": "C09", "title": "Sampling inside a step does not change the evolution", "statement": "With samples=n in the steps of a protocol, the state after one full protocol step equals the state obtained with samples=1 (for time-independent steps), and every step contributes exactly n sample states.", "quantifier": "every number of samples, steps, Hamiltonians and states", "why_tests_cant": "an identity of matrix exponentials for every n and every Hamiltonian", "anchors": ["src/quanguru/classes/modularSweep.py: timeEvolBase", "src/quanguru/classes/QPro.py: freeEvolution.matrixExponentiation"]}
{"id": "C10", "title": "Time grid consistency", "statement": "Whenever stepCount is read successfully it equals floor(totalTime/stepSize)+1; the grid covers totalTime; and a stepCount that was explicitly assigned reads back as assigned.", "quantifier": "every history of assignments to totalTime, stepSize and stepCount", "why_tests_cant": "histories are unbounded and the values real", "anchors": ["src/quanguru/classes/QSimBase.py: timeBase.totalTime, timeBase.stepCount, timeBase.stepSize"]}
{"id": "C11", "title": "Inherited time/state parameters follow the parent until overridden", "statement": "A simulation bound to a parent reports the parent's current value of a parameter after any sequence of changes, until the parameter is assigned on the child itself; assigning on the child never changes the parent, and afterwards the child is not affected by the parent.", "quantifier": "every tree of simulations and every history of assignments and bindings", "why_tests_cant": "depends on arbitrary histories and arbitrary chain lengths", "anchors": ["src/quanguru/classes/QSimBase.py: _parameter.value, setAttrParam, timeBase._bound"]}
{"id": "C12", "title": "Reading a bound parameter always terminates", "statement": "No history of binding and assigning operations on simulations can make the parameter dependency cyclic, so reading stepSize/totalTime/... always terminates.", "quantifier": "every history of binding / assignment operations", "why_tests_cant": "reachability over unbounded histories", "anchors": ["src/quanguru/classes/QSimBase.py: timeBase._bound, timeBase._boundTree, setAttrParam"]}
{"id": "C13", "title": "A parameter change reaches every dependent object and only those", "statement": "Assigning a different value to a parameter of an object marks the object and every object depending on it directly or transitively as changed, and no other object; assigning the value it already has marks nothing.", "quantifier": "every acyclic dependency graph, every object, every flag state", "why_tests_cant": "arbitrary graphs; tests use chains of two or three objects", "anchors": ["src/quanguru/classes/baseClasses.py: paramBoundBase._paramUpdated, _createParamBound", "src/quanguru/classes/QSimBase.py: setAttr"]}
{"id": "C14", "title": "A protocol never uses an out-of-date unitary", "statement": "At every moment unitary() of a protocol equals the unitary computed from scratch from the current parameters of its system(s), steps, ratio and updates.", "quantifier": "every history of parameter assignments, ratio changes, step additions and unitary() calls", "why_tests_cant": "cache staleness depends on histories", "anchors": ["src/quanguru/classes/QPro.py: genericProtocol.unitary, getUnitary, _defGetUnitary, ratio, qProtocol.addStep, qProtocol._paramUpdated"]}
{"id": "C15", "title": "Unchanged parameters cause no re-exponentiation", "statement": "Calling unitary() again, or re-assigning equal parameter values (as multi-parameter sweeps do), never recomputes a matrix: the number of exponentiations is at most the number of value-changing assignments plus one.", "quantifier": "every history of assignments and unitary() calls", "why_tests_cant": "a counting claim over unbounded histories", "anchors": ["src/quanguru/classes/QSimBase.py: setAttr", "src/quanguru/classes/QPro.py: genericProtocol.unitary, freeEvolution.matrixExponentiation"]}
{"id": "C16", "title": "Matrix invalidation is complete and terminates on every object graph", "statement": "delMatrices() removes the cached matrices of the object and of everything reachable through its dependents and sub-systems, of nothing else, visits each object once, and terminates even if the graph is cyclic; this also holds for repeated calls.", "quantifier": "every finite object graph, cyclic or not, and every sequence of calls", "why_tests_cant": "arbitrary (cyclic) graphs and repeated calls", "anchors": ["src/quanguru/classes/baseClasses.py: paramBoundBase.delMatrices"]}
{"id": "C17", "title": "The Hermitian-conjugate step is the conjugate of the current unitary", "statement": "A step obtained from protocol.hc always contributes the Hermitian conjugate of the current unitary of that protocol.", "quantifier": "every history of parameter changes between uses", "why_tests_cant": "depends on the history of cached values", "anchors": ["src/quanguru/classes/baseClasses.py: paramBoundBase._hc", "src/quanguru/classes/QPro.py: copyStep.getUnitary, copyStep.unitary"]}
{"id": "C18", "title": "Protocol unitary is the ordered product of its steps", "statement": "The unitary of a protocol with steps s_1,...,s_n (repeated steps included) is U(s_n) ... U(s_2) U(s_1), each step's updates being in force only while that step is computed.", "quantifier": "every list of steps with repetitions, every step unitary, every set of updates", "why_tests_cant": "non-commutative product of arbitrary length", "anchors": ["src/quanguru/classes/QPro.py: qProtocol._defCreateUnitary, qProtocol.addStep, qProtocol._puValues, copyStep"]}
{"id": "C19", "title": "A fixed protocol is computed once and is available", "statement": "A protocol or step marked fixed returns, at every unitary() call during a simulation, the unitary computed at the beginning of the simulation, and never None.", "quantifier": "every history of parameter changes and calls", "why_tests_cant": "requires all histories including those where parameters change before the first evaluation", "anchors": ["src/quanguru/classes/QPro.py: genericProtocol.prepare, unitary, _defGetUnitary"]}
{"id": "C20", "title": "Updates are undone after the step", "statement": "After the unitary of a step with updates is computed, the updated attribute of every system of the update has the value it had before.", "quantifier": "every list of systems in an update, all old and new values", "why_tests_cant": "depends on the combination of old values of several systems", "anchors": ["src/quanguru/classes/QPro.py: Update._setup, Update._setback", "src/quanguru/classes/baseClasses.py: updateBase._runUpdate"]}
{"id": "C21", "title": "Name and alias lookup agree", "statement": "An object stored in a sub-system/result dictionary is found, replaced, deleted and tested for membership equally by the object's name object, its name string or any of its aliases, also for aliases given after it was stored.", "quantifier": "every dictionary content reachable by the API, every key form", "why_tests_cant": "arbitrary sets of names/aliases and operation histories", "anchors": ["src/quanguru/classes/base.py: aliasClass, keySearch, aliasDict"]}
{"id": "C22", "title": "Names and aliases identify objects uniquely", "statement": "At every moment a name or alias given to getByNameOrAlias identifies exactly the object to which it was assigned: no name/alias is shared by two objects and registering a new object never hides an old one.", "quantifier": "every history of object creations and alias assignments", "why_tests_cant": "depends on global registry histories", "anchors": ["src/quanguru/classes/base.py: named.__init__, named.alias, named.getByNameOrAlias, named.__namer"]}
{"id": "C23", "title": "Default names are unique, stable and reproducible", "statement": "Objects created by the user and internally get pairwise different default names, a name never changes, and after _resetAll the same creation sequence yields the same names.", "quantifier": "every creation history over the classes of the library, or over any classes with own counters and labels that cannot be confused", "why_tests_cant": "unbounded creation histories and label clashes", "anchors": ["src/quanguru/classes/base.py: named._incrementInstances, named.__namer, named._resetAll, aliasClass.name"]}
{"id": "C24", "title": "List arguments are processed element by element", "statement": "A method documented to accept (nested) lists/tuples applies the operation to every element in order, exactly once, at any nesting depth, and returns the result for the last object (provided no empty list occurs in the argument).", "quantifier": "every nested list", "why_tests_cant": "arbitrary nesting depth", "anchors": ["src/quanguru/classes/base.py: _recurseIfList, addDecorator"]}
{"id": "C25", "title": "aliasDict obeys the dictionary laws", "statement": "get after set returns the value set, other keys are unaffected, delete removes, setdefault keeps, update equals repeated set, pop returns and removes, and insertion order is kept, with keys identified up to equality of names/aliases.", "quantifier": "every dictionary, key and value, every operation history", "why_tests_cant": "algebraic laws for all histories; the key equality is not transitive", "anchors": ["src/quanguru/classes/base.py: keySearch, aliasDict.__getitem__, __setitem__, __delitem__, update, setdefault, pop, get"]}
{"id": "C26", "title": "Positions in a composite system stay consistent", "statement": "After building a (nested) composite system, changing dimensions of any single system at any depth and removing single systems, the dimension before/after every system equals the product of the dimensions of all single systems left/right of it, and the dimension of a composite is the product of its parts.", "quantifier": "every nesting structure and every history of additions, dimension changes and removals", "why_tests_cant": "unbounded trees and histories", "anchors": ["src/quanguru/classes/QSystem.py: QuantumSystem.addSubSys, __addSub, dimension, _updateDimension, __dimsABUpdate, _removeSubSysExc"]}
{"id": "C27", "title": "Growing a composite that is already part of a larger one", "statement": "Adding a sub-system to a composite that is itself a sub-system leaves the dimension before/after of all systems of the whole structure consistent.", "quantifier": "every nesting structure and position", "why_tests_cant": "structure-dependent; the existing tests only add before nesting", "anchors": ["src/quanguru/classes/QSystem.py: QuantumSystem.addSubSys, __addSub"]}
{"id": "C28", "title": "A removed system survives its removal", "statement": "After removeSubSys the removed (single or composite) system is a stand-alone system with the dimensions it had before, dimension 1 before/after it and consistent inner structure.", "quantifier": "every composite structure and every removed system", "why_tests_cant": "arbitrary structures; the existing tests compare the dimension with itself", "anchors": ["src/quanguru/classes/QSystem.py: QuantumSystem._removeSubSysExc, removeSubSys"]}
{"id": "C29", "title": "Operators of a system act on its own factor only", "statement": "The matrix of a term of a system inside a composite is the Kronecker product identity(before) x operator x identity(after), its size is the total dimension of the composite, and operators of different sub-systems commute; the Hamiltonian of a composite is the sum of these.", "quantifier": "all dimensions, positions and operators", "why_tests_cant": "matrix identities for all sizes", "anchors": ["src/quanguru/QuantumToolbox/operators.py: compositeOp", "src/quanguru/classes/QTerms.py: QTerm._dimInput, QTerm._constructMatrices", "src/quanguru/classes/QSystem.py: totalHamiltonian"]}
{"id": "C30", "title": "A copied system has the same Hamiltonian", "statement": "copy() of a system and the members of n*system have the same terms (operators, frequencies, orders) as the original, hence the same Hamiltonian.", "quantifier": "every list of terms", "why_tests_cant": "depends on arbitrary number of terms; existing tests copy systems with one term", "anchors": ["src/quanguru/classes/QSystem.py: QuantumSystem.copy, __rmul__"]}
{"id": "C31", "title": "A system can never contain itself", "statement": "No history of addSubSys calls makes a quantum system a direct or indirect sub-system of itself, so dimension, Hamiltonian and state computations terminate. In any history a system contains exactly what was added to it, and a system to which nothing was added has the dimension given last.", "quantifier": "every history of additions", "why_tests_cant": "cycles of arbitrary length", "anchors": ["src/quanguru/classes/QSystem.py: QuantumSystem.addSubSys"]}
{"id": "C32", "title": "Initial state of a composite is the product of the parts", "statement": "The initial state of a composite system is the tensor product, in sub-system order, of the states of the parts, has norm one and the dimension of the system, or is refused with an error/None when an input does not fit.", "quantifier": "every structure, dimensions and inputs", "why_tests_cant": "recursive structure and arbitrary dimensions", "anchors": ["src/quanguru/classes/QSystem.py: _createInitialState", "src/quanguru/classes/QSimBase.py: stateBase._setGetMaxInput", "src/quanguru/QuantumToolbox/states.py: superPos"]}
{"id": "C33", "title": "Coupling helpers resolve cavity and qubit independently of the argument order", "statement": "JC/Rabi/Dicke create the coupling between the cavity and the qubit (spin) whatever the order of the two systems, take them from the composite if not given, and raise a ValueError whenever they cannot be determined.", "quantifier": "every list of system kinds in the composite and every combination of arguments", "why_tests_cant": "a decision table over unbounded lists of sub-systems", "anchors": ["src/quanguru/classes/extensions/couplings.py: checkCavQub, JC, Rabi, Dicke"]}
{"id": "C34", "title": "Choice between single- and multi-process execution", "statement": "p=False always runs in a single process, p=True always in a pool with the requested (or last used, or available minus one) number of processes, and p=None does what the last call did.", "quantifier": "every history of run(p, coreCount) calls", "why_tests_cant": "depends on history through remembered state", "anchors": ["src/quanguru/classes/QSim.py: _poolMemory.run"]}
{"id": "C35", "title": "Saved results can be read back and never overwrite each other", "statement": "Every result list saved to CSV can be read back unchanged, and different parts of the results are written to different files.", "quantifier": "every nesting depth, length and key", "why_tests_cant": "file-name collisions need long lists; all nesting shapes", "anchors": ["src/quanguru/extensions/saveReadCSV.py: saveCSV, readCSV, _recursiveSaveList, _saveDictToCSV"]}
{"id": "C36", "title": "Removing a system or a sweep removes exactly its own entries", "statement": "Removing a system from a simulation/sweep removes it from all sweeps containing it and leaves the others untouched.", "quantifier": "every set of sweeps and systems", "why_tests_cant": "depends on the membership pattern", "anchors": ["src/quanguru/classes/QSweep.py: Sweep.removeSweep", "src/quanguru/classes/QSim.py: Simulation.removeQSystems, removeProtocol, removeSweep"]}
{"id": "C37", "title": "States made from occupation inputs are normalised with the requested populations", "statement": "superPos returns a unit vector whose squared amplitude at level k is the requested population of k divided by the sum, equal for integer lists, and zero elsewhere; with coefficient input amplitudes are proportional to the input.", "quantifier": "every dimension and every non-trivial input", "why_tests_cant": "real-valued inputs of arbitrary size", "anchors": ["src/quanguru/QuantumToolbox/states.py: superPos, normalise, weightedSum, basis"]}
{"id": "C38", "title": "Tensor product laws", "statement": "tensorProd is associative, compatible with products and Hermitian conjugation ((AxB)(CxD)=ACxBD, (AxB)^dag=A^dag x B^dag), preserves norms, and integer arguments act as identities.", "quantifier": "all dimensions and matrices, any number of factors", "why_tests_cant": "matrix identities for all sizes", "anchors": ["src/quanguru/QuantumToolbox/linearAlgebra.py: tensorProd, hc, norm, innerProd"]}
{"id": "C39", "title": "Vectorisation round trip and superoperator action", "statement": "vec2Mat(mat2Vec(rho)) = rho and conversely, and applying the pre, post and pre-post superoperators to the vectorised matrix gives the vectorised A rho, rho B, A rho B.", "quantifier": "all dimensions and matrices", "why_tests_cant": "index conventions (row/column stacking, transposes) for all sizes", "anchors": ["src/quanguru/QuantumToolbox/states.py: mat2Vec, vec2Mat", "src/quanguru/QuantumToolbox/evolution.py: _preSO, _postSO, _prepostSO"]}
{"id": "C40", "title": "Open-system evolution preserves trace and Hermiticity", "statement": "For every Hamiltonian, collapse operators and real rates the Liouvillian maps every matrix to a traceless one and Hermitian to Hermitian, and evolution by its exponential preserves trace and Hermiticity for every time; without dissipation it equals U rho U^dag.", "quantifier": "all dimensions, Hamiltonians, collapse operators, rates, times, states", "why_tests_cant": "matrix identities incl. exponentials for all sizes", "anchors": ["src/quanguru/QuantumToolbox/evolution.py: Liouvillian, LiouvillianExp, dissipator"]}
{"id": "C41", "title": "Closed-system evolution is unitary and composes", "statement": "Unitary(H,t) of a Hermitian H is unitary, Unitary(H,s)Unitary(H,t)=Unitary(H,s+t), Unitary(H,0)=1; hence all trajectories keep the norm and any product of protocol steps is unitary.", "quantifier": "all dimensions, Hermitian matrices and times, all step lists", "why_tests_cant": "matrix exponential identities", "anchors": ["src/quanguru/QuantumToolbox/evolution.py: Unitary", "src/quanguru/classes/QPro.py: qProtocol._defCreateUnitary"]}
{"id": "C42", "title": "Spin operators satisfy the angular momentum algebra for every spin", "statement": "[Jx,Jy]=iJz and cyclic, [Jz,J+-]=+-J+-, [J+,J-]=2Jz, Jx^2+Jy^2+Jz^2=j(j+1), J-=J+^dag, Jx,Jy,Jz Hermitian, and for j=1/2 they are half the Pauli matrices.", "quantifier": "every spin (every dimension)", "why_tests_cant": "infinitely many dimensions", "anchors": ["src/quanguru/QuantumToolbox/operators.py: Jp, Jm, Jx, Jy, Jz, Js, sigmax, sigmay, sigmaz"]}
{"id": "C43", "title": "Bosonic operators", "statement": "create = destroy^dag, create destroy = number, [destroy,create] = 1 except the last diagonal entry which is 1-d, destroy|n>=sqrt(n)|n-1>, create|n>=sqrt(n+1)|n+1>, and parityEXP of the number operator equals paritySUM.", "quantifier": "every truncation dimension", "why_tests_cant": "infinitely many dimensions", "anchors": ["src/quanguru/QuantumToolbox/operators.py: destroy, create, number, paritySUM, parityEXP"]}
{"id": "C44", "title": "Rotation gates", "statement": "x/y/zRotation are unitary, compose additively, have period 4 pi, equal exp(-i angle sigma/2), and agree with spinRotation for spin 1/2; the two implementations of the xGate agree for the default phase.", "quantifier": "all angles", "why_tests_cant": "real parameter", "anchors": ["src/quanguru/QuantumToolbox/spinRotations.py", "src/quanguru/classes/QGates.py: SpinRotation, xGate"]}
{"id": "C45", "title": "Partial trace", "statement": "partialTrace keeps the trace and Hermiticity, gives tr(B) A for A x B, (rho_A for product states), is independent of the order in the keep list, and satisfies tr(partialTrace(rho) O) = tr(rho (O x 1)).", "quantifier": "every number of subsystems, dimensions, every kept subset given by distinct non-negative indices", "why_tests_cant": "arbitrary number of factors and index sets", "anchors": ["src/quanguru/QuantumToolbox/linearAlgebra.py: partialTrace"]}
{"id": "C46", "title": "Expectation and fidelity do not depend on the representation of the state", "statement": "expectation and fidelityPure give the same value for a ket and for its density matrix; fidelity is symmetric, within [0,1], 1 for equal pure states and only for them; expectation is linear in the operator (exactly for Hermitian operators, otherwise up to the rounding of imaginary parts below 0.5e-12) and real for Hermitian operators; innerProd/outerProd are consistent (<a|b> = tr |b><a|).", "quantifier": "all dimensions other than one (there the shape does not tell kets from matrices), states, operators", "why_tests_cant": "identities/inequalities over real vector spaces", "anchors": ["src/quanguru/QuantumToolbox/functions.py: expectation, fidelityPure", "src/quanguru/QuantumToolbox/linearAlgebra.py: innerProd, outerProd, trace", "src/quanguru/QuantumToolbox/states.py: densityMatrix"]}
{"id": "C47", "title": "Gates act the same on open and closed systems", "statement": "A gate in an open-system protocol transforms rho to U rho U^dag where U is the matrix the gate uses for closed systems.", "quantifier": "all gates, dimensions and states", "why_tests_cant": "complex phases: real symmetric test gates cannot show it", "anchors": ["src/quanguru/QuantumToolbox/evolution.py: _prepostSO", "src/quanguru/classes/QGates.py: SpinRotation, xGate"]}
{"id": "C48", "title": "Analytic Jaynes-Cummings propagator", "statement": "The analytic JC evolution matrix is unitary, is the identity at t=0 and composes in time, i.e. agrees with the exponential of the JC Hamiltonian.", "quantifier": "all cavity dimensions, frequencies, couplings and times", "why_tests_cant": "real parameters and all dimensions", "anchors": ["src/quanguru/QuantumToolbox/Hamiltonians.py: UJC, JCHam, qubCavFreeHam"]}
{"id": "C49", "title": "Inverse participation ratio, purity and entropy bounds", "statement": "For normalised states 1 <= IPR <= d, 1/d <= purity <= 1 and 0 <= entropy <= log d, with the extreme values attained by basis states and uniform superpositions / pure and maximally mixed states.", "quantifier": "all dimensions and states", "why_tests_cant": "inequalities over real vector spaces", "anchors": ["src/quanguru/QuantumToolbox/IPR.py: iprKet, iprKetNB", "src/quanguru/QuantumToolbox/states.py: purity", "src/quanguru/QuantumToolbox/functions.py: entropy"]}
{"id": "C50", "title": "Random-matrix distributions are normalised", "statement": "EigenVectorDist and WignerDyson are probability densities (non-negative, total mass one) for every supported beta and dimension.", "quantifier": "all dimensions and betas", "why_tests_cant": "integrals for an infinite family", "anchors": ["src/quanguru/QuantumToolbox/rmtDistributions.py: EigenVectorDist, WignerDyson"]}
{"id": "C51", "title": "Time-dependent sweep covers its list", "statement": "With a timeDependency sweep of N values the evolution uses each of the N values at one step, in order.", "quantifier": "every list length and time grid", "why_tests_cant": "depends on the relation between list length and step count", "anchors": ["src/quanguru/classes/modularSweep.py: timeDependent, timeEvolDefault", "src/quanguru/classes/QSimBase.py: timeBase.stepCount"]}
{"id": "C52", "title": "Order of systems and protocols is kept when the simulation is prepared", "statement": "Preparing a simulation replaces placeholder keys by free-evolution protocols without changing the order, the set of systems, or already given protocols, and doing so repeatedly changes nothing more.", "quantifier": "every content of the simulation's dictionary", "why_tests_cant": "arbitrary lists and repeated preparation", "anchors": ["src/quanguru/classes/QSim.py: Simulation._freeEvol, addQSystems, addProtocol"]}
{"id": "C53", "title": "Each dissipator acts once with its given rate", "statement": "The propagator returned by unitary() of an open protocol is the exponential of the Lindblad generator in which every dissipator of the protocol and of its steps occurs once, with the rate it was given.", "quantifier": "every Hamiltonian, list of dissipators and rates, and every nesting of protocols", "why_tests_cant": "arbitrary nesting, dimensions and rates; tests compare a few decay curves", "anchors": ["src/quanguru/classes/QPro.py: genericProtocol.unitary, getUnitary, freeEvolution.matrixExponentiation", "src/quanguru/classes/environment.py: dissipatorObj"]}
{"id": "C54", "title": "Only dimensions that fit the operators are accepted", "statement": "Setting the dimension of a system is refused with a ValueError exactly when the dimension is not positive or some term applies a Pauli operator to this system and the dimension is not two.", "quantifier": "every list of terms of the system and of the composites containing it, and every dimension", "why_tests_cant": "arbitrary numbers of terms and levels of nesting; tests use systems with one term", "anchors": ["src/quanguru/classes/QSystem.py: dimension setter, _hasConsistentDimensionTerm", "src/quanguru/classes/QTerms.py: QTerm._isCorrectPauliDim, _checkAndUpdateParamsWhenMultiple"]}
{"id": "C55", "title": "Open-system evolution keeps states positive", "statement": "For every Hermitian Hamiltonian, collapse operators and non-negative rates, the propagator over any time t >= 0 maps density matrices to density matrices (positive semidefinite, trace one), also when the system is one half of a larger entangled system; all states returned by evolveOpen are density matrices. A negative rate is accepted by the code and breaks this.", "quantifier": "all dimensions, Hermitian Hamiltonians, lists of collapse operators, non-negative rates, times t >= 0, states, ancilla sizes and numbers of steps", "why_tests_cant": "positivity of an exponential of a superoperator for all sizes and all states is an analytic fact; a test checks eigenvalues of a few states up to rounding", "anchors": ["src/quanguru/QuantumToolbox/evolution.py: Liouvillian, LiouvillianExp, dissipator, evolveOpen"]}
{"id": "C56", "title": "Wigner returns the Wigner function of the state", "statement": "At every point of the grid Wigner(rho, vec, g) is the sum of rho_mn times the Wigner function of |m><n|; at the origin it is the parity of the state times g^2/(2 pi); its integral over phase space is the trace of the state.", "quantifier": "all dimensions, Hermitian matrices, scalings g and grid points", "why_tests_cant": "the loops update a list in place along three nested indices; the integral over the phase plane is not accessible to a test on a grid", "anchors": ["src/quanguru/QuantumToolbox/quasiProbabilities.py: Wigner"]}
{"id": "C57", "title": "HusimiQ returns the overlap with the coherent states", "statement": "For every ket or density matrix and every grid, HusimiQ(state, vec, g) returns at each grid point g^2/4 times <alpha|rho|alpha>/pi with alpha = g(x+iy)/2, so it is non-negative and integrates to the trace.", "quantifier": "all dimensions, states, grids and scalings", "why_tests_cant": "the result depends on how the shapes of state and grid are broadcast; a test with one grid size does not show for which sizes it works", "anchors": ["src/quanguru/QuantumToolbox/quasiProbabilities.py: HusimiQ, _qfuncPure"]}
{"id": "C58", "title": "Mixed states are density matrices with the requested weights", "statement": "densityMatrix(kets, probability) returns the sum of w|psi><psi| divided by its trace; with non-negative weights it is positive with trace one, it only depends on the ratios of the weights, needs no rescaling for unit kets and probabilities with sum one, and is refused exactly if nothing with a non-zero weight is left. Kets or weights beyond the shorter list are ignored. normalise of a matrix gives trace one and is idempotent. completeBasisMat turns an orthonormal basis into orthogonal projectors with sum one, and overwrites the list it was given.", "quantifier": "all dimensions, lists of kets, weights and matrices", "why_tests_cant": "lists of any length with real weights; the side effect on the argument and the silent truncation are only seen by tests that look for them", "anchors": ["src/quanguru/QuantumToolbox/states.py: densityMatrix, weightedSum, normalise, completeBasisMat"]}
{"id": "C59", "title": "The trace distance is a metric that no evolution increases", "statement": "traceDistance(A, B) of square matrices is non-negative, zero exactly for A = B, symmetric and satisfies the triangle inequality. For density matrices it is at most one and equals the largest difference in probability that any measurement can show; for pure states it is sqrt(1 - |<a|b>|^2). Closed evolution keeps it, open evolution with non-negative rates does not increase it. Applied to kets it returns half the Euclidean distance, which distinguishes k from -k.", "quantifier": "all dimensions, matrices, density matrices, unitaries, measurements, Hamiltonians, collapse operators, non-negative rates and times", "why_tests_cant": "inequalities over all states and all evolutions; the maximum over all measurements cannot be sampled", "anchors": ["src/quanguru/QuantumToolbox/functions.py: traceDistance"]}
{"id": "C60", "title": "Concurrence detects two-qubit entanglement", "statement": "concurrence(state) of a ket with components a, b, c, d is 2|ad - bc|, hence zero exactly for product kets and one for the Bell states, and a ket and its density matrix give the same value. For density matrices it equals the formula of the docstring (eigenvalues of the square root of sqrt(rho) rho~ sqrt(rho)) although the code computes something else, it is between zero and one, unitaries on the single qubits do not change it, the concurrence of a mixture is at most the sum over the kets mixed, and every mixture of product states has concurrence zero. sortedEigens returns the eigenvalues of a Hermitian matrix in ascending order.", "quantifier": "all kets, density matrices, single-qubit unitaries, mixtures of any length", "why_tests_cant": "inequalities over all states and all decompositions; the code uses a different matrix than the documented formula", "anchors": ["src/quanguru/QuantumToolbox/functions.py: concurrence, sortedEigens"]}
{"id": "C61", "title": "The basic two-qubit gates have their truth tables", "statement": "CNOT() flips the second qubit exactly if the first one is excited, CPHASE(phase) multiplies |11> by exp(i phase) and leaves the other basis kets alone. All gates are unitary, CNOT and Hadamard are their own inverses, phases add up and matter only modulo 2 pi, CPHASE is symmetric in its qubits. Hadamard gates on the target turn CPHASE(pi) into CNOT, and Hadamard on the first qubit followed by CNOT makes the four BellStates of the library from the basis kets. CPHASE on the uniform superposition has concurrence |sin(phase/2)|.", "quantifier": "all phases, all basis kets", "why_tests_cant": "identities over all real phases", "anchors": ["src/quanguru/QuantumToolbox/basicGates.py: CNOT, CPHASE, Hadamard", "src/quanguru/QuantumToolbox/states.py: BellStates"]}
{"id": "C62", "title": "Thermal occupation and polarisation", "statement": "nBarThermal(w, T, hbar, kb) raises only at non-zero temperature, there exactly for kb = 0 and for w or hbar zero. Otherwise, for positive arguments, it is the mean of the thermal distribution, satisfies detailed balance n/(n+1) = exp(-hbar w/(kb T)), grows strictly with the temperature and is continuous at temperature zero, where it returns zero. qubitPolarisation(freq, temp) is -tanh(freq/(2 temp)) = -1/(2 n + 1), the expectation value of sigmaz in the thermal state of freq/2 sigmaz. The population ratio given in its docstring has the wrong sign in the exponent; negative frequencies are accepted by nBarThermal and give numbers below -1.", "quantifier": "all real frequencies, temperatures and constants", "why_tests_cant": "limits, monotonicity and an infinite series", "anchors": ["src/quanguru/QuantumToolbox/thermodynamics.py: nBarThermal, qubitPolarisation"]}
{"id": "C63", "title": "Eigenvector statistics account for every component once", "statement": "_eigStatEig(E) lists |E[i,k]|^2 at position i*d+k and nothing else; with symp=True position k*(d//2)+m holds the sum of components 2m and 2m+1 of eigenvector k. For unit eigenvectors the values add up to d, in pairs too if d is even; in odd dimensions the pairs leave out the last component of every eigenvector, together one unit of weight for orthonormal eigenvectors. eigVecStatKet(basis, ket) gives the squared components of the ket, adding up to one, and their pair sums with the same exception; it returns both lists, not the single list its docstring shows.", "quantifier": "all dimensions, matrices, kets and complete bases", "why_tests_cant": "index arithmetic and sums for every dimension, even and odd", "anchors": ["src/quanguru/QuantumToolbox/eigenVecVal.py: _eigStatEig, _eigsStatEigSymp, eigVecStatKet"]}
{"id": "C64", "title": "Standard deviations obey the uncertainty relation, spectralNorm is the operator norm", "statement": "For Hermitian A, B and every ket or density matrix standardDev(A) standardDev(B) is at least half the modulus of the expectation of the commutator; the deviation in a unit ket vanishes exactly for eigenvectors, is at most spectralNorm(A), and standardDev(a A + b) = |a| standardDev(A). spectralNorm(A)[0] is the smallest s with norm(A k) <= s norm(k) for all kets, is attained by a unit ket, is submultiplicative, satisfies the triangle inequality, and unitaries on either side do not change it. _expectationColArr gives the expectation value of every column also for columns that are not orthogonal, which the docstring leaves open.", "quantifier": "all dimensions, Hermitian operators, rectangular matrices, kets, density matrices, real factors", "why_tests_cant": "inequalities over all operators and states", "anchors": ["src/quanguru/QuantumToolbox/functions.py: standardDev, spectralNorm, _expectationColArr"]}
{"id": "C65", "title": "Drives add up their pulses, and a requested rotation angle is the computed area", "statement": "A pulse is zero outside the open interval (t0, t1) and its scaled function inside; a qDrive is the sum of its pulses in any order, so a pulse cut in two is missing at the cut. integrateShape on the grid of addPulse differs from the area by at most |scale| L (t1-t0)^2/2000 for functions with Lipschitz constant L and is exact for linear ones. addPulse(rotation=r) raises exactly if the computed area is zero, else changes only the scale so that 2 pi times the computed area is r, or r/s if a scale s was given too. totalShape always returns the current coefficients at the given times, whatever was asked or changed before.", "quantifier": "all real functions, intervals, angles, lists of pulses and histories of a drive", "why_tests_cant": "error bounds over all Lipschitz functions and every history of cached shapes", "anchors": ["src/quanguru/classes/QDrive.py: pulse.apply, pulse.integrateShape, qDrive.addPulse, qDrive.apply, genericDrive.totalShape"]}
{"id": "C66", "title": "Dissipators act with the thermal rates of their bath", "statement": "After any history bath.nBar equals nBarThermal of its current frequency and temperature, exceptions included, and dissipator.jRate equals rate*(nBar + type). The rate used by the evolution of a system should be the current jRate; it is the jRate at the last assignment of the system, so later changes of temperature, frequency, rate or bath have no effect, and giving system before jRate puts the rate zero into effect. A bath lists only the last dissipator given to it, though all share its temperature. The rates of an emitting and an absorbing dissipator of one bath obey detailed balance, and with these rates the thermal state of a cavity or a qubit does not change in time.", "quantifier": "all histories of assignments to baths and dissipators, frequencies, temperatures, rates, dimensions and times", "why_tests_cant": "interleavings of assignments are unbounded; stationarity holds for all times and dimensions", "anchors": ["src/quanguru/classes/environment.py: thermalBath.nBar, dissipatorObj.jRate, dissipatorObj.superSys, addToProtocol, thermalBath.subSys"]}
{"id": "C67", "title": "Hamiltonians and free evolutions are never out of date", "statement": "After any sequence of assignments to frequencies, operators, orders, systems of terms and dimensions, of adding and removing sub-systems and terms, and of evaluations in between, totalHamiltonian of every system and of every term in use returns what the current parameters give, and unitary() uses that Hamiltonian; evaluating never changes what later evaluations return.", "quantifier": "all histories of operations on any number of systems and terms in any structure, with arbitrary matrices, dimensions and operators", "why_tests_cant": "the cached matrices and marks depend on the whole history; interleavings are unbounded", "anchors": ["src/quanguru/classes/QSystem.py: totalHamiltonian, addSubSys, addTerms, _removeSubSysExc, removeTerm, resetTerms, unitary", "src/quanguru/classes/QTerms.py: totalHamiltonian, _freeMatrix, _checkAndUpdateParamsWhenMultiple, qSystem", "src/quanguru/classes/baseClasses.py: _paramUpdated, delMatrices"]}
{"id": "C68", "title": "Composite Hamiltonians are Hermitian and free evolution conserves norm and energy", "statement": "For a composite nested to any depth, if every term comes with its adjoint (in particular if all operators are Hermitian, all frequencies real and no coupling names a system twice), totalHamiltonian is Hermitian, the free evolution is unitary for every time, every trajectory keeps its norm, and the expectation of the energy and of every observable commuting with all terms stays constant. Without these conditions the library accepts the terms and the Hamiltonian need not be Hermitian.", "quantifier": "all structures, dimensions, operators, powers, frequencies, couplings of any number of systems, time steps and states", "why_tests_cant": "structures, dimensions and trajectories are unbounded; products of operators are Hermitian only because factors of different systems commute", "anchors": ["src/quanguru/classes/QTerms.py: _dimInput, _constructMatrices, totalHamiltonian", "src/quanguru/classes/QSystem.py: totalHamiltonian", "src/quanguru/QuantumToolbox/evolution.py: Unitary"]}
{"id": "C69", "title": "steadyState ends with the state every trajectory tends to", "statement": "With a Hermitian Hamiltonian (or none), operators as collapse operators and non-negative rates, every eigenvalue returned by steadyState has magnitude at most one, one is among them, the last one has magnitude one, and a density matrix that no evolution changes exists. All density matrices evolve to one and the same state exactly if the last eigenvalue is the only one of magnitude one; then it equals one and its eigenvector, as a matrix divided by its trace, is that state and the only one of trace one left unchanged. Otherwise the last eigenvector need not be a state at all. Without collapse operators all eigenvalues have magnitude one and the returned vectors give states that are unchanged after whole time units, but not always in between.", "quantifier": "all dimensions, Hermitian Hamiltonians, lists of collapse operators and rates, initial states, times, and all choices of eigenvectors and of the order of equal magnitudes", "why_tests_cant": "limits over unbounded time, and all eigenvector choices of the numerical routine", "anchors": ["src/quanguru/QuantumToolbox/evolution.py: steadyState, LiouvillianExp", "src/quanguru/QuantumToolbox/functions.py: sortedEigens"]}
{"id": "C70", "title": "Couplings of the older classes are the sums of products their terms say", "statement": "For composites built from qSystem and compQSystem, nested to any depth, the total Hamiltonian is the sum of the strength times the product of the embedded operators over all coupling terms, and of frequency times operator to the power order over all single systems; it equals the Hamiltonian of the newer QuantumSystem for the same structure and terms and is Hermitian when the terms come with their adjoints. qCoupling.addTerm returns for every sequence of arguments and appends one term per tuple of operators, in order, leaving the present ones. Removing a system from its composite removes exactly the terms with this system from the couplings. A copy of a coupling has the same terms.", "quantifier": "all structures, depths, dimensions, strengths, numbers of coupled systems, sequences of addTerm arguments, and removals", "why_tests_cant": "numbers of systems per term, nesting depth and argument sequences are unbounded; non-termination cannot be observed by a test that ends", "anchors": ["src/quanguru/classes/QSys.py: qCoupling.addTerm, _qCoupling__coupOrdering, _qCoupling__addTerm, removeSysCoupling, compQSystem.totalHamiltonian, qSystem.totalHamiltonian, term.freeMat, compQSystem._removeSubSysExc"]}
{"id": "C71", "title": "Systems in composites of the older classes know their position", "statement": "After any sequence of creating qSystem and compQSystem objects, adding systems to composites, setting dimensions of single systems and removing systems, every system knows the product of the dimensions of all single systems before and after it, dimension of a composite is the product of the dimensions of its parts, and a removed system stands alone with its own structure and dimensions unchanged and can be used again.", "quantifier": "all sequences of operations, all structures, depths and dimensions", "why_tests_cant": "nesting depth, number of systems and operation sequences are unbounded", "anchors": ["src/quanguru/classes/QSys.py: compQSystem._compQSystem__addSub, updateDimension, removeSubSys, dimension, qSystem.dimension, genericQSys._genericQSys__dimsABUpdate"]}
{"id": "C72", "title": "Every sweep point is computed as if it were the only one", "statement": "Simulation.run with any sweeps stores at results[t_1]...[t_k] of a protocol exactly the states a fresh simulation without sweeps would store whose parameters have the values selected by t: the initial state followed by stepCount applications of the unitary computed from scratch with these values. Neither unitaries cached before the run or at earlier points nor the order of the points matter, a second run and a run with multi-processing give the same results, and parameters that are not swept are left unchanged. For a freeEvolution of a composite system with Hermitian terms the states are exp(-i k stepSize ratio H) psi0 with H the Hamiltonian at the point, and they keep their norm.", "quantifier": "all sweeps (numbers, lengths, simultaneous or nested, several systems each), all protocol structures, all parameter values, all histories of use before the run, all structures and sizes of the system", "why_tests_cant": "numbers of sweeps and points, nesting of protocols and earlier uses of the objects are unbounded, and a stale unitary only shows at particular combinations of them", "anchors": ["src/quanguru/classes/modularSweep.py: nonParalEvol, paralEvol, _runSweepAndPrep, timeEvolBase", "src/quanguru/classes/QSim.py: run", "src/quanguru/classes/QSweep.py: runSweep", "src/quanguru/classes/QPro.py: genericProtocol.unitary, freeEvolution.matrixExponentiation", "src/quanguru/classes/QRes.py: _finalise"]}
{"id": "C73", "title": "Time dependent terms have their values at the time of the running simulation", "statement": "If terms of a system (or of its sub-systems at any depth) have a timeDependency function, step k of Simulation.run applies the unitary computed from scratch with every time dependent attribute at the value its function gives at time stepSize*(k+1) of the simulation that is run, all other attributes being as set by the sweeps and the user. Unitaries cached at earlier steps, points or runs and the values the functions left behind do not matter; a second run and a run with multi-processing give the same results. A simulation that is bound to another one takes its time from that one. For a composite system with Hermitian terms each step is exp(-i stepSize ratio H) with H the Hamiltonian at that time, and the norm is kept.", "quantifier": "all functions of time and of attributes that no function assigns, all structures of systems and protocols, all chains of bound simulations, all sweeps, all numbers of steps, all histories", "why_tests_cant": "functions, nesting, numbers of steps and histories are unbounded, and a stale unitary only shows for particular functions", "anchors": ["src/quanguru/classes/QSim.py: Simulation._currentTime", "src/quanguru/classes/QTerms.py: QTerm._timeDependency", "src/quanguru/classes/QSystem.py: QuantumSystem._timeDependency", "src/quanguru/classes/QPro.py: genericProtocol.unitary, genericProtocol.getUnitary", "src/quanguru/classes/modularSweep.py: _runSweepAndPrep, timeEvolBase"]}
{"id": "C74", "title": "Attributes of the internal simulation can be used through the object", "statement": "For every class with an internal simulation (quantum systems, protocols, gates), reading or assigning totalTime, stepSize, stepCount, samples, delStates, initialStateSystem, Sweep or evolFunc on the object is reading or assigning it on obj.simulation. An attribute that the class has itself is never taken from or stored in the simulation. A name that neither has raises AttributeError and changes nothing. What is assigned is what is read, and keywords given to the constructor are assigned in the same way. Assigning to a property without a setter raises AttributeError and changes nothing.", "quantifier": "all classes derived from QSimComp, all attribute names, all getters and setters, all states, all keyword lists", "why_tests_cant": "there are arbitrarily many names and setters, and an AttributeError that is raised inside a setter and swallowed leaves no trace", "anchors": ["src/quanguru/classes/QSimComp.py: QSimComp.__getattribute__, QSimComp.__setattr__, QSimComp.simParameters", "src/quanguru/classes/base.py: named.__setKwargs", "src/quanguru/classes/QPro.py: genericProtocol.superSys, qProtocol.addSubSys"]}
{"id": "C75", "title": "Objects sent to another process arrive complete", "statement": "Pickling and unpickling an object of a class of the library, or of a class derived from one, gives an object with the same attributes and values. Names and aliases are resolved in the copy to the copies of the objects they were resolved to before, and the process that sends the object is not changed by it.", "quantifier": "all classes derived from named, all attribute values, all registries", "why_tests_cant": "attribute values and registries are unbounded, and user defined classes are not known to the test suite", "anchors": ["src/quanguru/classes/base.py: named.__getstate__, named.__setstate__, named._findInSlots, named.getByNameOrAlias"]}
{"id": "C76", "title": "A simulation runs the evolutions that were asked for", "statement": "After systems and protocols have been added to a simulation with addQSystems, addSubSys, createQSystems, createSubSys or addProtocol, a run evolves exactly the requested pairs of protocol and system, each once and in the order of the calls: a system without a protocol evolves freely, a system with protocols evolves with these. A simulation to which nothing was added evolves the system it belongs to freely. Protocols given for removal are no longer run, and it does not matter whether the simulation was run in between.", "quantifier": "all sequences of calls, all systems and protocols", "why_tests_cant": "sequences of calls are unbounded and interact with earlier runs", "anchors": ["src/quanguru/classes/QSim.py: Simulation.addQSystems, Simulation.createQSystems, Simulation.addSubSys, Simulation.createSubSys, Simulation.addProtocol, Simulation.run", "src/quanguru/classes/QSystem.py: QuantumSystem.addProtocol"]}
{"id": "C77", "title": "Sweeps of open systems give the solutions of the Lindblad equation at every point", "statement": "unitary() of an open protocol is the propagator made from scratch from the current parameters, in which the dissipators of the protocol and of every protocol on the way down act on each step, whatever was computed before. Simulation.run with any sweeps stores at results[t_1]...[t_k] the density matrix of the initial state followed by stepCount applications of this propagator for the parameters selected by t, with and without multi-processing. For a freeEvolution of a composite system with Hermitian terms these are exp(k stepSize ratio L) rho0 with the Lindblad generator L of the point; they keep trace one and stay positive semidefinite.", "quantifier": "all protocol structures, dissipators and rates, all histories of use, all sweeps and parameter values, all structures and sizes of the system", "why_tests_cant": "nesting, histories, sweeps and dimensions are unbounded; a propagator cached with the dissipators of another protocol only shows for particular orders of calls", "anchors": ["src/quanguru/classes/QPro.py: genericProtocol.unitary, getUnitary, _defGetUnitary, qProtocol._defCreateUnitary, copyStep.getUnitary, freeEvolution.matrixExponentiation", "src/quanguru/classes/modularSweep.py: _runSweepAndPrep, timeEvolBase", "src/quanguru/classes/environment.py: addToProtocol"]}
{"id": "C78", "title": "The jump operator of a dissipator acts on its own system, wherever the system is", "statement": "After any history of operations on systems, terms and dissipators, dissipator.jOperMatrix is the operator assigned last to jOper, embedded at the present position of the system of the dissipator: it changes the state of this system by jOper and leaves the states of all others. An accepted assignment puts the new matrix into effect in all free evolutions with the dissipator. The free evolution of a system uses exactly the dissipators that were given the system or were added to it.", "quantifier": "all histories of changes of dimensions, sub-systems, terms, operators and systems, all structures and sizes", "why_tests_cant": "histories and structures are unbounded; a jump matrix that belongs to an earlier position has the right shape in many tests and only gives wrong dynamics", "anchors": ["src/quanguru/classes/environment.py: dissipatorObj.jOper, jOperMatrix, superSys, addToProtocol", "src/quanguru/classes/baseClasses.py: paramBoundBase.delMatrices", "src/quanguru/classes/QSystem.py: delMatrices", "src/quanguru/classes/QPro.py: genericProtocol.unitary", "src/quanguru/QuantumToolbox/operators.py: compositeOp"]}
{"id": "C79", "title": "compositeState is the product of the requested states", "statement": "compositeState(dimensions, excitations) returns a ket of norm one with prod(dimensions) rows in which the probability of finding the parts in given levels is the product of the probabilities the inputs ask for; the reduced state of each part is the requested one; the state agrees with the initial state of a composite system given the same inputs; and anything that does not fit is refused. basisBra is the row dual to a basis ket, zerosKet a column of zeros.", "quantifier": "all lists of dimensions and of int, list and dict inputs", "why_tests_cant": "any number of parts, all dimensions and populations", "anchors": ["src/quanguru/QuantumToolbox/states.py: compositeState, superPos, basisBra, zerosKet", "src/quanguru/QuantumToolbox/linearAlgebra.py: tensorProd, partialTrace", "src/quanguru/classes/QSystem.py: _createInitialState"]}
{"id": "C80", "title": "The fidelity of mixed states", "statement": "For density matrices _fidelityTest(rho, sigma) is symmetric in its arguments, lies between 0 and 1, is 1 exactly when rho equals sigma and 0 exactly when rho @ sigma is zero, does not change when both states are evolved by the same unitary, and equals fidelityPure(rho, sigma) whenever one of the two is pure. It is never below fidelityPure and differs from it for mixed states (for the completely mixed qubit 1 against 1/2). Kets are refused.", "quantifier": "all dimensions, all density matrices (positive semidefinite matrices for symmetry, lower bound, zero and invariance), all unitaries, all unit kets", "why_tests_cant": "Equality, range and symmetry of a function of two matrix square roots are statements over a continuum of pairs of states of every dimension; random tests never meet the rank-deficient pairs where the proof is delicate.", "anchors": ["src/quanguru/QuantumToolbox/functions.py:188-199"]}
{"id": "C81", "title": "Samples inside steps in whole runs", "statement": "When a step of a protocol in a simulation has samples > 1, every time step of every sweep point of run() applies the unitaries of the steps for the parameters of the point, in order and each as often as it has samples, records all intermediate states in sampleStates, and the resulting states are those of the run without samples (free evolutions), whatever was computed, run or cached before, with and without multi-processing.", "quantifier": "all protocols of free evolutions, gates and nested protocols, all numbers of samples, all sweeps, all histories of assignments and calls before the run", "why_tests_cant": "The unitary caches, the sweep and the decision whether to sample interact over the history of the objects; a test sees one history and one number of samples.", "anchors": ["src/quanguru/classes/modularSweep.py:39-49", "src/quanguru/classes/modularSweep.py:147-161", "src/quanguru/classes/QPro.py:195-206", "src/quanguru/classes/QPro.py:400-407"]}
{"id": "C82", "title": "Time-dependent sweeps in whole runs", "statement": "When simulation.timeDependency has sweeps with N values, time step k of every sweep point of run() applies the unitary of the protocol for the parameters of the sweep point with the time-dependent attributes at value k modulo N, so the states are those of the piecewise constant Hamiltonian; the result does not depend on the values these attributes had before the run or at the end of the sweep point before, nor on what was computed or cached, a second run gives the same results, and so does a run with multi-processing.", "quantifier": "all protocols, all sweeps and time-dependent sweeps with simultaneous and combinatorial values, all numbers of steps, all histories of assignments and calls before the run", "why_tests_cant": "The last time-dependent value stays assigned after each sweep point, so every later point and run starts from a different history of the caches; a test sees one history.", "anchors": ["src/quanguru/classes/modularSweep.py:97-145", "src/quanguru/classes/QSweep.py:117-174", "src/quanguru/classes/QSweep.py:313-358"]}
{"id": "C83", "title": "Time-dependent sweeps inside a protocol", "statement": "When the timeDependency of a protocol has (prepared) sweeps with N combinations of values, unitary() and getUnitary() of the protocol return U(N-1)...U(1)U(0), where U(k) is the unitary of the protocol with the swept attributes at combination k and everything else as it is now; repeated calls return the same, whatever was computed, cached or assigned before; no attribute that is not swept changes, and the unitaries of all other protocols are those of the current parameters.", "quantifier": "all protocols with steps of any depth, all lists of simultaneous and combinatorial sweeps, all histories of assignments and calls", "why_tests_cant": "The loop assigns attributes while it computes, so that caches of the steps are made and thrown away inside one call; a wrong flag gives a wrong factor for particular lists of values and particular histories only.", "anchors": ["src/quanguru/classes/QPro.py:96-101", "src/quanguru/classes/QPro.py:195-250", "src/quanguru/classes/QSweep.py:312-358"]}
{"id": "C84", "title": "operatorPow returns the power of the operator of the requested dimension", "statement": "operatorPow(op, dim, power) returns op of dimension dim multiplied power times with itself: for destroy the entry (i, j) is sqrt(j!/i!) if j = i + power and zero otherwise (so that it is zero from power dim on), for create its transpose, for number i**power on the diagonal, for the Pauli operators the identity or the operator, depending on the parity of power. Powers that are not positive and invalid dimensions raise.", "quantifier": "for all operator functions of the toolbox with the signatures (dimension, sparse), (sparse) and (j, sparse, isDim), all integers dim and power, both values of sparse", "why_tests_cant": "the powers and dimensions are unbounded; the wrong dimension for spin operators and the swallowed errors need inputs the examples do not use", "anchors": ["src/quanguru/QuantumToolbox/operators.py:968-1011", "src/quanguru/QuantumToolbox/linearAlgebra.py:405-446"]}
{"id": "C85", "title": "A sweep over a range has the values of the range", "statement": "The list of a sweep with sweepMin, sweepMax and sweepStep consists of sweepMin, sweepMin + sweepStep, ... up to sweepMax and no value beyond it; with logSweep it has sweepStep values from 10**sweepMin to 10**sweepMax with equal ratios. The list used by a run is always that of the current attributes, and attributes that do not define a list raise.", "quantifier": "for all integer and floating point values of the attributes (positive and negative steps, any number of values) and all histories of assignments, readings and runs", "why_tests_cant": "the number of values depends on rounding in the three operations before the ceiling, which only fails for some decimal steps; the cache shows only in histories with a reading between two assignments", "anchors": ["src/quanguru/classes/QSweep.py:122-143", "src/quanguru/classes/QSweep.py:312-323"]}
{"id": "C86", "title": "A sweep assigns the attribute it names, on every system it is given", "statement": "createSweep(system, sweepKey) either raises, and then no sweep is added, or the new sweep assigns its value to the attribute sweepKey of every given system and changes nothing else; a name that a given system does not have raises. Without a system the owner of the simulation is swept. After all sweeps of a point each attribute has the value of the last sweep that names it.", "quantifier": "for all objects and attributes, all lists of systems, all keys, all values, any number of sweeps", "why_tests_cant": "whether the attribute is checked depends on the order of the systems in the list; a misspelled name has no visible effect at all", "anchors": ["src/quanguru/classes/QSweep.py:268-310", "src/quanguru/classes/baseClasses.py:90-102"]}
{"id": "C87", "title": "A run carries out the sweeps that exist when it starts", "statement": "Whatever sweeps were created, changed, removed or run before, Simulation.run computes exactly the points of the sweeps that exist now, in the order of nested loops, each with the attributes these sweeps name set to their values at this point and all other attributes as before the run; without sweeps it computes one point. (False without sweeps: the counters of the last run with sweeps are used again; and attributes are not restored after a run.)", "quantifier": "every history of creating, changing and removing sweeps, assigning attributes and running", "why_tests_cant": "the counters survive from run to run, so a failure needs a particular history; tests use fresh simulations", "anchors": ["src/quanguru/classes/QSweep.py: Sweep.prepare, Sweep.runSweep, Sweep.removeSweep, Sweep.createSweep", "src/quanguru/classes/modularSweep.py: nonParalEvol, _runSweepAndPrep", "src/quanguru/classes/QSim.py: Simulation.run"]}
{"id": "C88", "title": "What Simulation.run returns and what it deletes", "statement": "simulation.run() returns the states of the free evolution of the system the simulation belongs to: with sweeps a nested list in which the entry at an index tuple is the trajectory computed with the parameter values of that tuple, without sweeps the trajectory itself; the same value is afterwards in system.states, whether one or several processes were used. When no stored protocol has the name of the owner, an empty list is returned, and the following run(resetRes=False) raises. With resetRes=True the results and states of all objects that this simulation does not write to are empty afterwards.", "quantifier": "for all sweeps, trajectories, protocols, previous contents of all result objects, one process or any schedule of a pool", "why_tests_cant": "The returned object is produced by four stages (storing, organising, reshaping, copying) over all keys, sweeps and previous contents; tests only look at single nested shapes.", "anchors": ["src/quanguru/classes/QSim.py:316-359", "src/quanguru/classes/QRes.py:241-322"]}
{"id": "C89", "title": "The initial state of a protocol follows its system", "statement": "A protocol (or system) that was never given an initial state returns from `initialState` what its system (or simulation) returns, with the same exception if that raises. After `system.initialState = x` succeeded, reading it, directly or through any protocol that follows it, gives the state made of `x` for the dimension the system has at that moment. An initial state assigned to a protocol stays its own whatever is assigned to the system. A protocol follows its system from the binding on until it is given an initial state or a time parameter of its own.", "quantifier": "for all inputs and dimensions, all programs that assign initial states and time parameters, change dimensions, bind, move and read in any order, all depths of binding", "why_tests_cant": "The value depends on two bound attributes per simulation that are changed by different commands, and on cached states at each level; the tests assign a state once and run. The failures (own time parameter then a dimension sweep; a moved protocol) need particular orders of commands.", "anchors": ["src/quanguru/classes/QSimBase.py:182-262", "src/quanguru/classes/QSimBase.py:425-498", "src/quanguru/classes/QPro.py:137-140", "src/quanguru/classes/QPro.py:187-193"]}
{"id": "C90", "title": "Which values are accepted by the setters", "statement": "`frequency = v` succeeds for every real or complex number and for `None`; then the term, and all terms of a coupling, have this frequency. For any other `v` it raises TypeError and nothing changes. `dimension = d` is accepted if and only if `d` is a positive integer. `key = v` raises TypeError if and only if `v` is not a string, and then the key stays. A sweep over `frequency` computes a point for each of its values, whether they were given as a list or as a range. The name of an object is the first one assigned.", "quantifier": "for all values of the built-in number types, NumPy scalars, strings, lists, None and other objects; all couplings of any depth; all sequences of assignments; all lists and ranges", "why_tests_cant": "Whether a value is accepted depends on its class, not its value; the tests sweep frequencies with floats or lists only. Integer ranges and NumPy integers need particular inputs.", "anchors": ["src/quanguru/classes/exceptions.py:16-58", "src/quanguru/classes/QTerms.py:225-238", "src/quanguru/classes/QSystem.py:253-254", "src/quanguru/classes/QSweep.py:113-187", "src/quanguru/classes/baseClasses.py:72-75", "src/quanguru/classes/base.py:112-118"]}
{"id": "C91", "title": "A coupling is made of the operators and orders it shows", "statement": "`term.operator = v` and `term.order = v` succeed exactly if `v` is one value for a term of one system, or a list with one value per system for a coupling, and every system given a Pauli operator has dimension 2 or none yet; otherwise TypeError (one value against a list) or ValueError (no system, lengths, dimensions) is raised and the term is as before. The matrix of the term is the product, in the order of `qSystem`, of the operators in `operator` for the present dimensions to the powers in `order`. createTerm gives a term with the given systems, operators and orders, orders being 1 if not given.", "quantifier": "for all systems, operators, orders and dimensions, all programs of assignments to systems, operators, orders and dimensions, exceptions caught", "why_tests_cant": "The operators of a coupling are stored twice and the two copies are written at different times; they come apart only if an assignment fails between them and the program goes on. Tests do not go on after an exception.", "anchors": ["src/quanguru/classes/QTerms.py:100-155", "src/quanguru/classes/QTerms.py:157-217", "src/quanguru/classes/QTerms.py:262-318"]}
{"id": "C92", "title": "frequency, operator and order of a system are those of its first term", "statement": "After any program of creating, adding, removing and replacing terms, `system.frequency = w` (likewise operator and order) changes the frequency of the first term in `system.terms`, which is made if there is none, and changes no other term; so the Hamiltonian is the one with this term changed, and `system.frequency` returns `w`. createTerm adds one term with the given data behind the others, removeTerm takes away exactly the given term.", "quantifier": "for all programs of createTerm, addTerms, removeTerm, resetTerms, assignments to terms, frequency, operator and order, and reads", "why_tests_cant": "The first term is stored beside the dictionary of terms, and the two come apart only after particular removals. The getters hide it, because they read the stale term too; tests that set a frequency and read it back pass.", "anchors": ["src/quanguru/classes/QSystem.py:548-586", "src/quanguru/classes/QSystem.py:598-660", "src/quanguru/classes/QSystem.py:662-702"]}
{"id": "C93", "title": "removeTerm finds the term wherever it is", "statement": "`system.removeTerm(t)` returns for every graph of sub- and super-systems, also shared or cyclic ones. If `t` is a term of the system it is removed there; else, if it is a term of any system that is reached through subSys and superSys links, it is removed from exactly one of them and no other term of any system changes; else nothing is removed, without an error. The matrices of the called system and of the one that had the term are deleted, and of no system that is not linked.", "quantifier": "for all finite graphs of systems, distributions of terms and called systems", "why_tests_cant": "The recursion goes down and up at the same time and ends only because of the list of visited systems; tests try a few shapes of composites. That a search that finds nothing has seen everything is a statement about all graphs.", "anchors": ["src/quanguru/classes/QSystem.py:615-649"]}
{"id": "C94", "title": "loopIt calls the function once per position", "statement": "`loopIt(f, l1, ..., ln)` returns the list of `f(l1[i], ..., ln[i])` for the positions i that all inputs have, in order; without inputs it returns the empty list. It raises exactly if one of these calls raises, and then what the first of them raises.", "quantifier": "for all functions, also raising ones, and all numbers and lengths of inputs", "why_tests_cant": "Tests use inputs of one length and functions that do not raise.", "anchors": ["src/quanguru/QuantumToolbox/_helpers.py:28-57"]}
{"id": "C95", "title": "Assigning a changed list of operators or orders is noticed", "statement": "After any sequence of changes of lists in place, assignments of lists to operator and order of couplings, assignments of frequencies, readings and delMatrices, totalHamiltonian of every coupling is the frequency times the matrix of the operators and orders which the coupling shows.", "quantifier": "for all programs, numbers of couplings and lists, also lists shared by several couplings or attributes", "why_tests_cant": "Tests assign literal lists; the failure needs a list object that is changed between two assignments and a reading in between.", "anchors": ["src/quanguru/classes/QTerms.py:157-242", "src/quanguru/classes/QSimBase.py:39-47"]}
{"id": "C96", "title": "a + b contains the systems of a followed by those of b", "statement": "a + b returns a composite system that contains the single systems of a followed by those of b, each with the positions (dimensions before and after it) that fit the returned composite. a + b + c + ... contains all of them directly, in the order written.", "quantifier": "for all operands (without kind, single, composite, nested) and all expressions of single systems, also with operands that are used more than once", "why_tests_cant": "Tests add two or three systems from left to right; other bracketings and operands used twice are not tried.", "anchors": ["src/quanguru/classes/QSystem.py:382-440"]}
{"id": "C97", "title": "Names of objects that do not exist any more", "statement": "An object is found by its name and its aliases as long as it exists; once it is collected, looking up its name raises ValueError and its aliases can be given to other objects. Pickling an object does not change which objects exist.", "quantifier": "for all programs of creations, aliases, lost references, pickling and lookups by name", "why_tests_cant": "Tests keep their objects alive and reset the registry between tests.", "anchors": ["src/quanguru/classes/base.py:331-335", "src/quanguru/classes/base.py:345-398", "src/quanguru/classes/base.py:438-447"]}
{"id": "C98", "title": "Everything recorded under a key is shown", "statement": "After any sequence of singleResult, resAverage and resultsMethod in one evolution, each key shows what was recorded under it: the list of the values in order, or the mean of the averaged values; recording never raises, no value is lost, and keys do not influence each other.", "quantifier": "for all programs of recording statements with any keys and values, from the beginning of any evolution", "why_tests_cant": "Tests use one way of recording with one key.", "anchors": ["src/quanguru/classes/QRes.py:124-165", "src/quanguru/classes/QRes.py:253-263"]}
{"id": "C99", "title": "Initial states of the older system classes", "statement": "For qSystem and compQSystem (QSys.py), assigning initialState stores the input and creates the tensor product of the states of the parts, as for the newer QuantumSystem; reading gives that state back; copying a system copies its initial state. The private method _createAstate builds the same state as the newer class.", "quantifier": "for all trees of older systems, all histories of creating, adding, giving dimensions and assigning, all inputs", "why_tests_cant": "The tests do not create systems of the older classes with initial states; the failure concerns every one of them.", "anchors": ["src/quanguru/classes/QSys.py:61-84", "src/quanguru/classes/QSys.py:198-206", "src/quanguru/classes/QSys.py:299-310", "src/quanguru/classes/QSys.py:573-585", "src/quanguru/classes/QSys.py:1039-1046", "src/quanguru/classes/QSimBase.py:182-240"]}
{"id": "C100", "title": "A gate rotates by what it shows", "statement": "SpinRotation and xGate: gate.unitary() is the product, in the order of addition, of the rotations exp(-i phase angle J) of the systems of the gate about gate.rotationAxis (for xGate with implementation 'instant' or 'flip' on two-level systems: of the explicit rotation matrices), placed in the total space, and unitary in a closed system. Whatever was assigned, added, removed or asked before, the answer is the one that the attributes give now.", "quantifier": "for all histories of assignments to angle, rotationAxis, phase and implementation, of adding, removing and changing systems, of opening the system and of calls of unitary; all numbers, dimensions and places of systems", "why_tests_cant": "Tests ask a gate once after it is set up; what is answered later depends on whether each change marks the cached matrix, and on the order of the changes.", "anchors": ["src/quanguru/classes/QGates.py:30-125", "src/quanguru/classes/QPro.py:195-266", "src/quanguru/classes/QPro.py:411-454", "src/quanguru/classes/QSimBase.py:39-47"]}
{"id": "C101", "title": "A reset is a restart", "statement": "named._resetAll() is like restarting the script: objects created afterwards get the names, find by getByNameOrAlias the objects, and are allowed the aliases of a fresh session that executes only the statements after the reset; objects from before keep finding each other, are kept apart from the new ones, and leave nothing behind in the dictionary of results.", "quantifier": "for all histories of creations, aliases and resets before, and all creations and aliases (of older and newer objects) after the reset; all classes with own counters", "why_tests_cant": "Tests call _resetAll between unrelated tests; whether older objects interfere needs histories that mix statements about objects from both sides.", "anchors": ["src/quanguru/classes/base.py:367-398", "src/quanguru/classes/base.py:440-447", "src/quanguru/classes/base.py:474-489", "src/quanguru/classes/QRes.py:209-219"]}
{"id": "C102", "title": "The constants follow the settings", "statement": "settings[k] and settings.k are always the same, the value given last to k; constants['hbar'], constants.hbar and constants.get('hbar') are the SI value when settings.trueVals is true, else 1; for other names constants[k] raises KeyError and hasattr(constants, k) is False.", "quantifier": "for all histories of assignments to items and attributes of settings and constants, of update and of del; all values", "why_tests_cant": "The two views of a setting can come apart by any mixture of item, attribute and update assignments in any order.", "anchors": ["src/quanguru/simUnits.py:8-47"]}
{"id": "C103", "title": "Results are found under the names of their object", "statement": "For every name or alias m of an object that stores results, m + 'Results' is an alias of its result object (obj.qRes), and looking up m + 'Results' by getByNameOrAlias and in qResults._allResults gives that result object; an assignment to alias that raises changes nothing.", "quantifier": "for all programs that create objects and assign strings, lists or tuples of strings to alias, in any order", "why_tests_cant": "The aliases of the object and of its results are kept in two places and checked one after the other; they come apart only for particular forms of the argument or when some other object has the derived alias.", "anchors": ["src/quanguru/classes/baseClasses.py:253-257", "src/quanguru/classes/baseClasses.py:303-312", "src/quanguru/classes/QRes.py:213-219"]}
{"id": "C104", "title": "A spin has the spin quantum number it is given", "statement": "After spin.jValue = j with j = 0, 1/2, 1, ... jValue reads j, the dimension is 2j+1 and the Hamiltonian is frequency*Jz with the levels frequency*m, m = j, j-1, ..., -j; every other value is refused with an exception and changes nothing. A qubit always has spin 1/2.", "quantifier": "for all numbers and other values, all frequencies, all histories of assignments to jValue and dimension, all keywords of the constructors", "why_tests_cant": "The value is converted to an integer dimension and back; tests try some half-integers, not all numbers or orders of keywords.", "anchors": ["src/quanguru/classes/QSystem.py:781-836", "src/quanguru/classes/QSys.py:1048-1102", "src/quanguru/classes/QTerms.py:280-302"]}
