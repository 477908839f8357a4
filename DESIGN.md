# Formal model of FlowKet in Lean 4

Source: `/repo` (HUJI-Deep/FlowKet, pinned commit), read as text. Nothing was executed.
Paths below are relative to `/repo/src/flowket` unless they begin with `experiments/`.

## Trusted base

* Lean 4.33.0 kernel and the Mathlib modules imported by each file.
* Axioms: only `propext`, `Classical.choice`, `Quot.sound`. There are no own axioms, no `sorry`,
  no `native_decide`, no `bv_decide`, no `unsafe`/`implemented_by`.
* The reading of the Python source: each definition cites the file and lines it models, and says
  where it simplifies. This reading is not checked by machine.
* The meaning of the third-party primitives (numpy, TensorFlow, Keras, networkx, h5/pickle) as written
  in the model definitions.

General idealisations, used unless a definition says otherwise:

* floating point numbers are exact reals / complex numbers (exceptions: C01 int32 wrap, C52 float32
  overflow to infinity and NaN);
* numpy and TF random numbers are arbitrary inputs of the model; probability statements use `PMF`
  or finite sums over equally likely choices;
* TF graph building versus graph running is collapsed: a layer is a function;
* exceptions are values (`Except`/`Option`), so "rejects" and "raises" are statements about results.

## Layout

`lean/Verif/<Topic>/Model.lean` definitions citing the code; `Spec.lean` (or a marked section at the
top of `Props.lean`) the independent specification; `Lemmas*.lean` helper lemmas; `Props.lean` the
property theorems, each followed by `example`s showing that a concrete non-trivial case satisfies
the hypotheses.

## Seeded bugs: what the log shows

`seeded/LOG.jsonl` lists edits of the model and what then failed to build. A survivor is conclusive: no
theorem notices the edit. A failure is weaker evidence. If a property theorem itself fails, or only a
lemma it is proved from, this may be due to the proof and not to the statement. For every entry it was
checked mechanically that the edited definition occurs (through definitions) in the statement of a theorem
of the claim. For entries where only lemmas failed, that the statement becomes false was judged by reading;
these entries carry a note, also where the edit turned out to be harmless or the test invalid.

The log is not complete. Attempts in which nothing failed and the edit was taken not to break the claim, or in which only a `_violated`
theorem, an example or the edited definition itself failed, were left out for most of the work. Those whose build results were still at hand
(26) have been added at the end with a note; those of earlier runs are lost. The number of survivors in the log is therefore too low, and
survivors whose note says so have not been settled: they may be gaps of the theorems.

## Per-property plan

| Property | What is modelled | How proved |
|---|---|---|
| C01 | the four codec functions on naturals and digit lists; int32 result as `Int.bmod _ 2^32` | induction on number of bits; wrap: witness at 32 bits |
| C02 | slicing loop of `to_log_wave_function_vector` with numpy shape check as `Except` | loop invariant on filled prefix |
| C03 | `itertools.product` of ranges | induction on shape; sortedness |
| C04 | the while loop with moves as functions, state = (move, last cell) | closed form of k-th cell per anti-diagonal; loop refines it; n=1 witness |
| C05 | flat index and `argsort`-like inverse; gather | permutation algebra |
| C06 | padding, per-site loops writing `all_conn`, `mel` | equality with Pauli-operator spec on functions of configurations |
| C07 | per-axis/per-index writes of `calc_conn_and_mel` | per-bond identity XX+YY+ZZ, then sum over bonds |
| C08 | sign gauge on bipartite lattices | bond flips parity; odd ring: spectral counterexample |
| C09 | same models | per-row case analysis |
| C10 | same models | same |
| C11 | matrix entry = sum of mel over rows equal to t | from C06/C07 kernel form |
| C12 | calculator cache with work arrays as mutable store | state machine over call histories; result independent of store; aliasing witness |
| C13 | shape field mutated by calculator constructor | state machine; witness |
| C14 | list building + shuffle as permutation + assertion | counting; characterisation of success |
| C15 | edge list comprehension | membership and multiplicity for all sizes |
| C16 | new_netket_find_conn as state machine | list lemmas |
| C17 | boolean-mask gather/scatter vs dense reshape | list/finset sums |
| C18 | local_values over C06/C07 | algebra of exp/log ratio; finite sums |
| C19 | log-sum-exp with max shift | real analysis algebra |
| C20 | update_local_energy | finite sums; Hermitian spectral bound |
| C21 | coefficients, loss | `HasDerivAt` of Rayleigh quotient |
| C22 | `_set_batch_size` and per-slice filling | divisibility, loop invariant |
| C23 | generator as state machine | invariant over steps |
| C24 | coefficients of VMC | finite sums |
| C25, C26 | `MiniBatchGenerator` state machine | invariant; witness for non-dividing sizes |
| C27, C28 | wrapped optimizer as abstract step; counter and accumulators | refinement over chunks; witness |
| C29 | EMA recurrence | closed form by induction |
| C30, C31 | flat vector splitting | list induction |
| C32, C33 | matrices over ℂ; CG loop as state machine with fuel-free inductive run relation | linear algebra; invariant (residual), conjugacy for exactness |
| C34 | normalize_in_log_space | rpow/exp algebra |
| C35 | conditionals as functions with a dependency hypothesis | induction over the ordering |
| C36, C37 | sampler as `PMF` program | induction over sites |
| C38–C40 | every machine constructor as the sequence of layer calls it makes (`Machines/Model.lean`), run on the layer model of `Net/`; even kernels of the 2-D machine raise | certificate per node (largest rank of an input it can see), extended layer by layer; induction on depth |
| C41 | per-layer `deps`/`apply_for_single_output` | per-layer equality with forward |
| C42 | axis arithmetic as coded | witness of wrong dependency; partial for non-negative axes |
| C43, C44 | dependency graph of layer/location nodes, any topological order | order-independent evaluation; uniqueness of fixed point; networkx laziness as generator value |
| C45 | batch arithmetic of samplers | arithmetic; witness |
| C46–C50 | MH samplers as state machines driven by random inputs | invariants; detailed balance by finite sums over proposals |
| C51 | r-hat with division by zero as error | witness and general partial |
| C52 | extended floats (finite, ±inf, NaN) for the mask; real-valued masked softmax for the idealised part | case analysis |
| C53 | Python attribute/MRO semantics of the three classes | evaluation of the constructor for every input |
| C54–C57 | array symmetries as functions on index functions; ensemble reduction as log-mean | group action, sum reindexing |
| C58 | kernel construction by rolls | reindexing |
| C59 | file system with atomic single-file steps, crash after any prefix | witness; partial for crash outside save |
| C60 | stage loop | list induction |
| C61 | dtype of the field as a sum type, integer store truncates | algebra; witness |
| C62 | shape bookkeeping of the local energy estimators | case analysis; witness |
| C63 | right-hand side of the reconfiguration system on both routes | witness; partial on the matrix |
| C64 | the dependency graph of the machine networks and the fast sampler on it | certificate gives acyclicity, consistency theorem C43; `Reshape` layer for the custom ordering raises |
| C65 | machine networks, their last two layers, `predictions`, plain sampler | C35, C36 applied to the built networks with causality from C38–C40 |
| C66 | warm up inside `next` of the MH model | sweeps counted along the path; witness for the default setting |
| C67 | `calc_r_hat_value` on real arrays, BDA3 formulas as separate specification | equality of r-hat, variance, autocorrelations; witness for the sum |
| C68 | global proposals with arbitrary distribution `q` | kernel computed; equivalence with uniform `q`; non-stationarity |
| C69 | `numpy.random.choice` by inverse cumulative distribution of a uniform number | measure of intervals, product measure over rows, decoding from C01 |
| C70, C71 | complex logarithms with minus infinity; dense layers as lists, kernel by rolls, stacking and reshaping | exponential of sums, list to product |
| C72 | configuration values that may be lists; stage loop as far as batch sizes go | witness for all stages; list induction |
| C73 | state machine of batches, epochs, saves and restarts | witness history; invariant |
| C74 | symmetrised evaluation model, estimator of C18 on batches drawn from the base model | the Hamiltonians commute with renaming of sites and spin flip; averages of invariant quantities agree; product expectation |
| C75 | layers as explicit sums over real coordinates of weights, patches, upstream gradients | partial derivatives by calculus compared with the returned arrays; witnesses for complex inputs and dilation |
| C76, C77 | reshapes by flat index; the loop that sets the dilation rates | index arithmetic; induction over layers |
| C78 | kernel as columns with length, stored direction and scale | algebra of norms with the floor of the l2 normalisation |
| C79 | initialiser as counter state machine over random draws; normal moduli | unfolding two calls; second and fourth moments of the normal distribution |
| C80 | lockstep of W accumulating optimizers with a mean of the accumulators; targets with averaged energy | simulation relation with one process, induction over batches; decomposition of the variance |
| C81 | callbacks as functions on logs and generator states, `evaluate` as a loop | closed form of the loop by induction over steps; sum over batches; decomposition of the variance |
| C82 | the evaluations of both scripts with exceptions as values | case analysis on the keys and sizes |
| C83 | `on_epoch_end` of all callbacks, histories of epochs with changing weights | induction over epochs; witness of a stale batch |
| C84 | `BadEigenStateStopping.on_epoch_end`, the run as a recursion over epochs | induction over epochs |
| C85 | the observables sigma_z and abs_sigma_z of a batch | inequalities of means; expectation over the product measure, diagonal operator |
| C86 | `exact_evaluate` and the exact callbacks on top of the arrays of C19, C20 | closed form of the arrays; sums over states as sums over spin configurations |
| C87 | n-step probabilities of the transition probabilities of C48 (product over chains) | finite Markov chains: Doeblin contraction, irreducible and a loop implies primitive; connectedness by flips, swaps along the lattice axes |
| C88 | `vmcCoefficients` of C24 and the loss on batches of independent samples | expected value over batches as a finite sum with product weights; covariance identity; derivative of the Rayleigh quotient; measure of the sampler from C36 |
| C89 | `estimate` of C23 on batches of independent samples | first and second moments of sums of independent samples |
| C90 | the loop generator, Keras step (mean of the per-sample gradients), accumulating optimizer (`fitGenerator`) | invariant between steps of a batch; the accumulated mini-batch means are the batch mean; specification trains on whole batches |
| C91 | stages: new sampler and mini-batch size, frequency set, counter kept (`runStages`) | induction over stages with the invariant of C90; a generic lemma for a stage with offset gives the counterexamples |
| C92 | table lookup, stages and evaluation of examples/ising.py | unfolding for every depth |
| C93 | `on_batch_end`, `on_epoch_end`, `_write_logs` as a state machine that writes records | invariant over histories against a specification of the writes (`EverySamples`, `epochWrites`) |
| C94 | the histogram part of `on_epoch_end` with fuel for its loop | the pieces concatenate to the batch; with size 0 the fuel always runs out |
| C95 | the callback with clock readings, path patterns as lists of literal pieces and fields | case analysis of a step; induction over histories for plain paths |
| C96 | four real convolutions over an abstract geometry (any dimension, stride, dilation, padding), bias, activation | real and imaginary parts of the sums |
| C97 | `conv2d_complex` with the sizes, paddings and dilations of tensorflow, in both formats | the geometry at the only output position is the identity |
| C98 | `Training/ExactTraining.lean`: generator, Keras gradient of a slice, accumulating optimizer, refreshes by `MachineUpdated` | invariant over the position in the cycle; the accumulated gradient is the sum over all states, which C21 identifies with the derivative of the energy; instances for Ising and Heisenberg |
| C99 | `Callbacks/ExactTraining.lean`: `fit_generator` with the lists of callbacks run at the end of batches and epochs | the invariant of C98 fixes the arrays the callbacks read; report lemma shared with C86; arithmetic of batch numbers |
| C100 | `Callbacks/MCMC.lean`: sampler, generator, mini-batches and `MCMCStats` as one state machine over the training steps; steps run in one thread, as with `workers=0` | a batch lasts `batch / mini` steps (invariant on `_idx`); the draw is a stretch of sweeps by C46, its energies by C06 and C07, its statistics by C51 and C67 |
| C101 | `Energy/Range.lean`: the refresh of `ExactVariational` in an arithmetic with a largest and a smallest number, exact in between; infinity and not-a-number as `none` | exponentials at the largest entry decide overflow; bounds of every sum by its absolute values; error of flushing is one smallest number per operation |
| C102 | `Training/Rescale.lean` on top of the run of C100: an optimizer with state that sees the loss of the mini-batch as a function of the weights | simulation: one sweep commutes with adding a constant, hence warm up, main loop, calls, batches, steps; targets sum to zero, so the loss is the same function |
| C103 | `Symmetry/Range.lean`: the two ensemble operations in the arithmetic of C101 | logsumexp as in C101; underflow and overflow of single exponentials; for normalised networks the mean of all probabilities is `2^-n`, so some orbit lies below any bound |
| C104 | Accept decisions of both kinds of sweeps and local values (both strategies) in the arithmetic of C101 (`Samplers/Range.lean`). | Decisions agree with the exact ones for every uniform number at least the smallest positive number, hence whole runs by rewriting the sweeps. Local values: induction over the rows with error bounds; the probability of failing samples is bounded by a Markov-type inequality over all configurations, for the Ising chain and the Heisenberg grid. Counterexamples: one unlikely sample, and padded NetKet rows. |
| C105 | `Net/Registry.lean`: `sys.modules` and the dictionary of the only `TopologyManager` as a state machine whose events are import statements and registrations; every registration of the package, lookup with wrappers, draws of the input layer | invariant that fixes the table from what is loaded, by induction over histories; violations for all histories with or without the import of `flowket.samplers` |
| C106 | `Net/Categories.lean`: `tensorflow.multinomial` as inverse distribution function of a uniform number, the draw of the input layer in a process, on top of the fast sampler of C43 | the event that a batch is returned is a product of intervals (unique consistent configuration), so its measure is the product of the softmax probabilities |
| C107 | `kron`, `interaction`, `bondOperator`, `j1j2Operator` over the edge list of C15 and the wrapper of C16; `graphConn` states what NetKet's GraphOperator is assumed to return | sum over the edge list sorted by pairs of sites (C15 counts), one bond = J times XX+YY+ZZ; row count by an invariant over histories; specification by Pauli matrices on the lattice |
| C108 | `totalSpinEdges`, `totalSpinOperator` of the exact J1-J2 example, same assumption about NetKet | the exact answer for every batch and history; the total spin of basis states computed from Pauli matrices differs; violation |
| C109 | both `_sweep` methods with logarithms that may be minus infinity (`Ext`, `doubleDiff`, `expExceeds`), machine updates and sweeps as events | decisions compared with the exact rule for squared amplitudes, induction over events; violations for local moves, exchange moves and stuck chains |
| C110 | Networks of the 1-D machines (Machines/Model.lean), numbered from the right | Certificates of how far left each node reads, by induction over the hidden layers, joined with C38 through a hybrid input; weights that relay one site through all layers show that the window is used |
| C111 | `_update_s_matrix_stats` (eigvalsh as Mathlib's eigenvalues, tolerance, mask, count, minimum), the two `K.update`s of the iterative solver on the conjugate gradient model | solver statistics from C33; rank via the spectral theorem (rank = number of non-zero eigenvalues), filter subset; witnesses with eigenvalue 1e-10 and with equal derivatives |
| C112 | `LayerNormalization.call` and `build` over the reals, `rsqrt` partial | algebra of mean and mean square; bound from one term of the sum of squares |
| C113 | `checkpointOf` and `restart` on top of the accumulation model of C27-C29 | relation between a restarted and an uninterrupted state kept by every step; loss from C27, average from C29; witnesses |
| C114 | `get_config`, constructors and `call` arguments of all layers over Python values with tuples and lists, JSON, Keras defaults for both version ranges, `CheckpointByTime._save` | keyword binding of the produced configuration gives back the object; operations read tuples and lists alike; failures by cases |
| C115 | the relative error of the callbacks (C86, C81) against the lowest eigenvalue of the Hamiltonian | positive semidefinite matrix `H - E0`; trial states (single configurations, uniform state, parity state) for the sign of the ground energies; linearity of the expectation |
| C116 | `RuntimeStats` of both kinds with the time stamps of the generators over an arbitrary monotone clock, whole training loops, `MachineUpdated`, `exact_evaluate` | invariants of the training loop: which reading of the clock started the current batch, and that the totals logged fit in the time passed as long as no batch is logged twice; arithmetic of log steps; closed form of the log for whole cycles; witnesses for the five schedules that double count or log nothing |
| C117 | a drawing thread and the training loop of `fit_generator` as a state machine over arbitrary generators and networks; views of the exact generator | invariant over all schedules giving the delay of every batch; conversely a schedule for every allowed delay, by induction over updates; closed form for `workers=0` |
| C118 | the reference energies of the runner scripts and of the Ising example as functions of the command line arguments (Experiment/Reference.lean); no code in Experiment/Bounds.lean | variational principle on lattices of every size; lower bounds of the spectrum by splitting the Heisenberg Hamiltonian into stars (Schur test) and the Ising Hamiltonian into bonds; upper bounds by the Neel, aligned and polarised states; the counts of bonds and sites of the three lattices by evaluation in the kernel |
| C119 | run name, file names and restart of examples/ising.py and experiments/train.py as functions on lists of characters, histories of writes to a disk (Experiment/RunNames.lean); decimal digits of integers computed, texts of floats an injective function without underscores | names are split uniquely at underscores, dots and slashes; refinement of the shared disk to one store per run by induction over the history |
| C120 | `evaluate` with the generator it advances and the generator its callbacks read as separate objects; the four evaluating scripts | induction over the steps; the report is compared with the statistics of the samples drawn for the evaluation (`ReportOf`); for the J1-J2 example the report is proved to be that of the last training batch |
| C121 | the collective operations of every process of train.py with Horovod in order, with rank-0 guards; a transition system of all interleavings in which a collective operation needs all workers under the same name | the remaining collective operations of all workers shrink by the same prefix in every step; equal lists never get stuck, different lists never finish; the number of epochs run is counted through the averages of the loss; one more operation asked for by rank zero only keeps every execution from finishing |
| C122 | `netket_vector_to_exact_variational_vector` for any numbering by NetKet of the unrestricted space, followed by `vector_to_machine` (Exact/NetketVector.lean) | the numbering is a bijection of configurations and indices; sums over NetKet's basis are re-indexed |
| C123 | `build2D` (Machines/Model.lean): the two stacks, residual blocks and head of the 2-D machine, as a graph of layers with arbitrary weights | upper bound: certificates numbering locations by row and by column, pushed through every layer for all weights; lower bound: positive weights and an invariant comparing the evaluations of two inputs layer by layer (`Machines/Receptive2D.lean`); together an equivalence with a condition on depth, kernel and lattice |
| C124 | Keras' `ModelCheckpoint(save_best_only)` and `EarlyStopping` as folds over the epochs' logs, joined to the models of the default callbacks (Monte Carlo and exact) | the fold keeps the first minimum (induction from the right); logs from C83 and C99; invariants of the waiting counter; violations: the monitored entry is missing from every epoch log, and a two-step gradient descent that overshoots |
| C125 | stages of `PeriodicPadding`, convolution and activation made of the layers of `Net/Layers.lean`, sum pooling | index arithmetic modulo the lattice size; every stage commutes with translations; translations permute the sites; for long kernels the remaining windows are counted |
| C126 | the variance of the exact callbacks (C86) against the residual `H psi - E psi` and the spectrum | split into real and imaginary parts of the local energies; lowest eigenvalue of `(H - E)^2` and the eigenvector it gives for `H`; product state along the y axis as witness |
| C127 | the conjugate gradient loop, the direct solver, `get_updates`, and the exact generator (Optimizers/Downhill.lean) | the quadratic form falls in every CG step from zero, so the result has positive product with the right-hand side; chain rule and slope argument for the energy; the JVP variant refuted by two samples |
| C128 | the operation graph of `lncosh` with the gradient functions TensorFlow registers for each operation (trusted), one entry at a time (Net/LncoshGrad.lean) | the contributions through the absolute value cancel; compared with the derivative of any holomorphic logarithm of cosh |
| C129 | `get_model_parameters_complex_value_gradients`, `to_complex_tensors`, `from_complex_vector_to_tensors`, the Jacobian-vector product by forward-mode differentiation, the interleaved real and imaginary parameters; `tf.gradients` as the vector of partial derivatives (`Optimizers/ComplexGradient.lean`) | partial derivatives along real and imaginary directions of every entry assembled by linearity of the Fréchet derivative; induction over the list of weights |
| C130 | the `use_energy_loss` branch of `get_energy_grad`, the batch mean of the loss, both solvers after it (`Optimizers/EnergyLoss.lean`) | C129 applied to the mean loss; homogeneity of the linear solve and of every conjugate gradient iteration by induction over the loop; factor B shown to change the update |
| C131 | Symmetry groups of chains and lattices as inductive predicates on transformations of configurations; operators, histories and estimators as in C06, C07, C107, C18 | Each generator exchanges with the Hamiltonian (bonds are mapped onto bonds, sums are reindexed); induction over composition; estimates by the refinement of C18 |
| C132 | Any nesting of the symmetrising functions as an inductive predicate; energy from the rows of the operators | Probabilities of a symmetrised model are means; Cauchy-Schwarz for the off-diagonal part, symmetry of the form (C131) for the means; three counterexamples on two sites where it fails |
| C133 | Targets of the generator (local energies minus their mean over the batch, conjugated) for each operator; stochastic-reconfiguration steps with both solvers, runs of any length as an inductive relation | Local energies of an eigenstate are all the eigenvalue; zero right-hand sides have only the zero solution; two samples with different local energies for the converse; a single-sample batch as counterexample |
| C134 | Sweeps of the chains as transition probabilities (C87), estimator of each operator (C18) | Limit of the distribution and confinement to the reachable set give the limit of the mean; the weighted mean of local energies over a set the operator does not leave is the Rayleigh quotient; counterexamples with exchange moves for Ising and with constant amplitudes |
| C135 | the loop of the fast sampler with a record of the cells it computes and the activations each reads (Net/FastSamplerCost.lean) | the order is duplicate free, contains only cells of the network, and puts the reads of every cell before it (C42 graph lemmas); values depend only on the recorded reads |
| C136 | estimator, targets and direct SR step of C18, C24, C32 on batches of independent samples; probabilities as sums over all batches (Energy/LargeBatch.lean) | Chebyshev, law of large numbers for finitely many means, and continuity of the outputs in those means (matrix inverse at a positive definite matrix); transfer to the random numbers of the autoregressive sampler by C36 |
| C137 | `normalize_tuple`, `normalize_padding` on an inductive type of Python values (Net/Arguments.lean) | case analysis and induction over the elements; violations by witnesses for every n |
| C138 | the summaries and the output of the histogram layer (Net/Histograms.lean) | exponentials of real and imaginary parts; periodicity and bounds of the floor remainder |
| C139 | the batches of `next(sampler)` as a function of the states of the chains after each sweep (`metropolisSource`, tied to the model of `__next__` by C139_batch); expected values over runs of the Markov chain of sweeps (`runMean`) | mean square of a time average bounded by the correlations: pairs of times closer than k0 contribute at most (2 k0 + 1) M^2 / N, the others at most M times the remaining distance from equilibrium (C87); Chebyshev; C136 is stated for every source that obeys the law of large numbers, so that it applies to Metropolis batches as well; for one magnetisation the same proof with the matrix of the operator restricted to a part it does not leave (Energy/SectorBatch.lean) |
| C140 | the sampler of C36 run on any computed log probabilities and any distribution of the random numbers (`randOf`, `UniformUpTo`; `gridUnif` for numpy's 53 bits) | hybrid argument over sites and over rows; a site changed by at most eps costs 2 eps because the half-half site is again a normalised causal chain |
| C141 | the operators of C06 and C07, their energies as in C132 | absolute values termwise; zeros and phases of a lowest state spread along the moves of the operator (Perron-Frobenius by perturbation); uniqueness by the parallelogram law; existence by compactness; witnesses without rotation and without field |
| C142 | sequences of calls of the three symmetrising functions (`Step`, `nest`) on squares; flips and translations on lattices of any dimension | every call has its own symmetries (C54-C56) and keeps the others: termwise, or by a permutation of the terms; induction on the sequence; constant ensembles return their member |
| C143 | the exact training loop of C98 with `SGD(lr)` (no momentum) as optimizer | descent lemma along the line of a step, from the bound on the gradient; the energy is differentiable and bounded below by the absolute sum of matrix elements; monotone convergence; one spin in a field as instance and as counterexample for large rates |
| C144 | the symmetrisation functions of ensemble.py on positive models and the operator rows of C141 | composing the lowest state with a symmetry gives a lowest state of the same norm, uniqueness and positivity (C141) give equality; induction over the nesting for the models |
| C145 | the loop of C90 with the sampler of C36, the targets of C24 and the optimizer of C143: `drawBatch`, `overBatches` (iterated expected value over the random numbers of the batches) | the loop is a fold over batches (C90); each expected value over random numbers is one over samples of the current wave function (C36); the mean of the batch gradient is (1 - 1/B) times the gradient (C88), its mean square is bounded by the operator norm since the mean squared local energy is the squared length of H psi over that of psi; tangent parabola bound, telescoping sum |
| C146 | the autoregressive wave function of `Autoregressive/Model.lean` with an arbitrary causal network | the network whose outputs are half the logarithms of the marginal weights of `\|ψ\|²` over the configurations that agree on earlier sites, with the phase at the last site; the conditionals telescope. Zeros are filled with small values and the limit taken; energies are continuous. The Ising ground state is positive (C141), so it is reached exactly |
| C147 | energies of the operators as in C141, sampler of `Autoregressive/Model.lean` | the excess energy is a non-negative quadratic form that vanishes on the ground state, so adding multiples of the ground state does not change it (parallelogram law); split off the share of the ground state and use the gap; the gap exists by compactness and uniqueness (C141); Cauchy-Schwarz for the probabilities |
| C148 | Two networks whose outputs differ by at most `ε` (`OffBy`), put through the same estimator (`estimate`) and the same exact evaluation object; the arithmetic of the estimators is exact | `exp` of a small number is close to one, row by row for batches; for exact evaluation the quadratic form of a symmetric matrix is bounded by its largest row sum (`form_le`), applied to numerator and denominator of the Rayleigh quotient; row sums computed per operator |
| C149 | The models of `RBM` and `RBMSym` of C71 (`rbm`, `rbmSym`), exact complex arithmetic | The logarithm of the wave function is a sum of products of spins (`expand`, characters of the group of spin flips); two hidden units with opposite weights give the factor of one product (`two_units`: product formula of `cosh` and surjectivity of the complex cosine); translations of a filter average the logarithm (`moved_sum`); zeros by approximation as in C146 |
| C150 | one-sweep transition probabilities of the samplers (as for C87), with a wave function that is any function of the configurations so far | `Samplers/KeepUp.lean`: transition probabilities are Lipschitz in the log amplitudes, comparison with the chain of frozen weights (C87), conditioning on the history |
| C151 | runs of `Run` (Optimizers/Settle.lean): the exact generator, the Jacobian of a holomorphic network and `get_updates` with either solver, step after step | both solvers beat the best multiple of the gradient in the quadratic form of the system, so each step gains at least the squared gradient over the largest eigenvalue; energies lie below a parabola and are bounded below, so the gains are summable; networks linear in their weights: second derivatives of normalised products of amplitudes are bounded |
| C152 | the transition probabilities of C48 and C68 over `n` sweeps, and the distribution of one chain among several (`chance`) | every transition is at least a draw from the limit with probability mean weight over largest weight (Doeblin's condition); from the configuration of largest weight it is exactly such a mixture |
| C153 | the estimators of C18 and the samplers of C36 | Hoeffding's lemma for the distribution of one local energy, the product of the moment generating functions over the batch, Markov's inequality; for the samplers a union over the batches that are far off |
| C154 | the samplers of C36, C64 and C69 (the fast one with the draws the registry of C105 gives), the estimators of C18 and the magnetisations of C85 | the random numbers of each sampler are pushed forward to independent samples; expected values over them are finite sums; variance of a mean, bound of the variance of a bounded number, Hoeffding's inequality |
| C155 | `evaluate` with the default callbacks over `T` batches drawn by an `Independent` sampler; the numbers of a batch come from the operator's connections | `T` batches of `B` independent samples are `T * B` independent samples; the logged means of means are means over all samples, so the bounds of C154 apply; the variance is the mean of the batch variances |
| C156 | the scripts' evaluations (`trainEvaluation`, `runEvaluation`) of the symmetrised model with samples of the base model | averages of symmetric quantities agree under both models (as in C74); local energies and abs_sigma_z are symmetric, sigma_z is not: a tilted base model of every size is the witness |
| C157 | the answers of the J1-J2 wrapper (C16, C107) as the arrays of the energy observable, of the training targets and of the tables of exact evaluation | the padded arrays meet the contract of C17, so the local energies are those of the Hamiltonian (C107); the estimates agree with those of a list of rows without padding, which is symmetric, and the theorems on C88, C89, C145, C153, C154, C155 and C20 transfer |
| C158 | the training loop of C145 with any independent sampler (`Training/AnySampler.lean`), the batch gradient and its split into an average over the samples and a product of two deviations | `C158_gradient_*`: mean square error of the batch gradient at most 64 C² spread / B (variance of means of independent samples); `C158_sgd_*`: descent lemma with that noise, induction over batches, average over T batches; all five operators; `C158_eigenstate` |
| C159 | `nest` of C142 with the flag `probabilistic`, `evaluate` of C155, the targets of C88 and C157 | induction over the nesting: averages of invariant quantities agree for base and symmetrised model; local energies and logarithmic derivatives are invariant because the Hamiltonian commutes with each move (C131); batches by induction over their size; then `evaluation_core` (C155) and the error bound of C158 |
| C160 | `find_conn` of Ising, Heisenberg and J1-J2, `estimate`, the targets of C24 | renaming of the sites carries the bonds of one shape to those of the other, hence the Hamiltonians (C06, C07, C107), hence the lists of local energies, of which everything else is a function; one periodic Ising site is an exception, proved as a violation |
| C161 | `Observable.local_values` with a wave function of whole arrays that records its calls; Keras' batches of `predict` (assumed of Keras: `make_batches`) | the recorded call is the list of used or of all connections; lengths by counting used rows (Ising: all; Heisenberg: bonds of unequal spins); the results depend on the recorded rows only because the traced function uses nothing else |
| C162 | the training loop of C145 and C158 with the draws of a sampler of the base model and local energies of the symmetrised model of C159 | the next weights are a function of the batch that is invariant in every sample (C131, derivatives of an invariant function), so batches of both distributions give the same distribution of next weights; then the supermartingale argument of C158 |
| C163 | `sgdStages`: the stages of C91 (`runStage`) on one optimizer with the learning rate set per stage; `SGD` instead of the `Adam` of experiments/train.py | every stage is a fold of the next-weights function of its batch size over its random numbers; averages over runs are taken stage after stage; the step inequality of C158 is telescoped over all stages, the limit follows by squeezing; examples show that doubled batches and learning rates 1, 1/2, 1/3, ... meet the conditions; for symmetrised models with samples of the base model the averages over batches of both distributions agree (C162) |
| C164 | the estimators and targets of C18 and C24, the training loop of C90, the steps of C32 | values are functions of the sample and of sums over the batch, which permutations keep; whole batches are used up by C90, so the order inside mini-batches drops out of the sum; matrix and right-hand side of the reconfiguration system are sums over the batch |
| C165 | Keras' `Adam` (assumed) as optimizer of the training loop and of the stages, with the learning rate set per stage | gradients `c` times as large give states with `m` times `c` and `v` times `c²`, hence the same weights for `epsilon / c`, joined with C90; `m² ≤ (1 - β^t) v` is kept by every update with equal decay rates and bounds the step; updates are counted by `(a + k) / f - a / f` along the loop; a witness with 199 zero gradients for unequal rates |
| C166 | the find_conn models, estimator, targets, training loop, Adam (C165) and stochastic reconfiguration | the Hamiltonians are linear in the couplings; means and targets are linear in local energies; the gradient of the loss is linear in the target (uniqueness of derivatives), then a relation between the optimizer states kept by every batch, joined with C90 |
| C167 | `Samplers/Cost.lean`: the samplers with a record of the arrays passed to `predict` | the recorded functions without the record are the models of C36 and C46; the record grows by one entry per sweep or site (inductions over the loops); two machines that agree on the final record agree along the whole run |
| C168 | `Optimizers/Reparametrise.lean`: repeated steps of `getUpdatesDirect` (C32) with batches drawn for the current wave function | chain rule gives the Jacobian `J A`; `S' = Aᴴ S A` and `v' = Aᴴ v`, so `A x' = x`; induction over the steps with the update of C30; a witness for shift 1 and `A = 2` |
| C169 | `Experiment/EnergyRange.lean`: the exact energies of C20 and C157 for all networks | expectations of `σᶻσᶻ` and `σˣ` by pairing configurations, a bond of the Heisenberg model as twice a signed exchange minus one; induction over the bonds, which are counted; the constant wave function attains the bounds |
| C170 | `Symmetry/TotalSpin.lean`: the answers of the Heisenberg and J1-J2 operators (C07, C107) and the squared total spin of C108 | the coupling of two sites is twice their exchange minus one; the total spin is unchanged when sites are renamed, so it commutes with every exchange; sums of such terms; a witness of three sites with rotation |
| C171 | `Training/Signs.lean`: reports and targets of the Ising operator as in C166 | local energies under multiplication with the product of all spins and under reversal of a sublattice; parity of neighbouring sites; a triangle as witness for odd lengths |
| C172 | `Experiment/CouplingChange.lean`: objects of C20 and C157, ground energies as in C20 | the difference of two Ising forms is the form of the differences of the couplings, bounded as in C169; ground energies by the variational principle in both directions |

## Known disagreements between code and property

Each entry names a property that is false of the code as it stands. A theorem `..._violated` (or a
similarly named one) proves the failure with a witness; the `_partial` theorems say what does hold.

* **C01** State numbering is a bijection. Holds for the scalar functions and for arrays of up to 31 digits. The code violates it beyond: the int32 result array wraps from 32 digits on and every call fails from 64 digits on (C01_array_encode_wraps).
* **C02** Exact amplitude vector does not depend on the evaluation batch size. Enumeration part proved in full; vector_to_machine proved up to 32 sites, violated by the code for 33 to 63 sites (int32 index wraps, C02_vector_machine_wraps).
* **C04** Zigzag ordering is a Hamiltonian path on the square. Proved for n >= 2 and for rejection of non-squares; the code violates it for n <= 1 (C04_zigzag_small).
* **C08** The unitary rotation does not change the physics. Proved on every lattice and chain whose bonds join two sublattices (open, or even lengths), for the action and for the eigenvalues. The code violates it on periodic lattices with an odd length (C08_violated, C08_violated_chain: the three-site ring has eigenvalue -5 only when rotated).
* **C12** find_conn answers do not depend on earlier calls. First half (values do not depend on history) proved in full. Second half proved as long as no later call has the same batch size; otherwise the code overwrites earlier results (C12_aliasing_violated).
* **C13** find_conn leaves the operator description unchanged. Proved for 2-D operators; violated for every 1-D Heisenberg operator (C13_violated).
* **C14** Heisenberg.random_states stays in the requested sector. Everything returned is right (C14_sound), and the zero sector of even lattices succeeds; every other request raises (C14_violated).
* **C16** Padding of NetKet connection lists is neutral. Proved for the new NetKet interface. With the old interface every non-empty call raises (C16_old_interface_violated).
* **C25** Mini-batches partition the batch. Every served index is in range and batches are disjoint consecutive slices (C25_sequence); they cover the whole batch when the mini batch size divides it (C25_partition_partial). The code drops the remainder otherwise (C25_tail_dropped).
* **C28** Changing the accumulation frequency during training. C28_first_update_after_change gives the exact behaviour for a change at any moment; the claim itself holds when the change happens right after an update and the step counter is a multiple of the new frequency (C28_change_partial). The code violates it at other moments (C28_violated).
* **C37** Zero-based sampling agrees with the zero-based encoding. Violated: C37_inverted gives the exact distribution with zero_base=True (value one drawn with the probability of category zero), C37_violated a witness. Holds only when both categories are equally likely (C37_symmetric_partial).
* **C41** Per-location evaluation equals the full layer. True for every layer configuration in Layer.Supported. Missing, because false in the code: PeriodicPadding longer than the axis, one-hot layers, gathering the channel axis and concatenating along the channel axis given as a positive number when values carry no spatial axes, as in the sampler (C41_violated_*).
* **C42** Negative axes and reshapes are resolved correctly. Proved for GatherLayer and Concatenate with axes counted from the front and for Reshape targets without an unknown size; targets whose unknown size comes first are covered by C41_single_partial. Missing, because false in the code: negative axes are resolved wrongly, the Reshape layer cannot be queried with the keyword the dependency graph uses, an unknown size that is not first gives a wrong location (C42_violated_*).
* **C44** Models without autoregressive order are rejected. The fast sampler can be built exactly for acyclic dependency graphs, and never for models with cyclic conditionals. assert_valid_probabilistic_model accepts cyclic models (C44_violated_assert), because the generator returned by networkx.topological_sort is never iterated.
* **C45** Samplers return as many samples as advertised. False in the code for FastAutoregressiveSampler: C45_fast_iff shows that the number of rows is the batch size exactly if the mini-batch size divides it, C45_violated_fast gives 900 rows for 1000/300. Ensemble, Metropolis and copying are proved. The plain and exact samplers allocate arrays of batch_size rows (C36, C69).
* **C51** Convergence statistics are available for every sampler setup. False in the code: C51_violated, with one chain (the default) line 75 divides by zero. C51_statistics_partial and C51_single_partial: with two or more chains the values are those of the cited book.
* **C52** Equal-up-down constraint. False of the code: -1e300 becomes -inf in float32 and -inf*0 is NaN, so every unmasked conditional is NaN (C52_violated) and the sampler returns all spins down (C52_violated_samples). The mask pattern is right (C52_mask_partial) and with exact masking the state would be normalised on the balanced configurations (C52_ideal_partial).
* **C53** Wrapping a Keras conditional model. False of the code: AutoregressiveWrapper.__init__ skips the initialiser that sets _conditional_log_wave_function, so every valid model raises AttributeError (C53_violated). Invalid models are rejected and the library's own networks construct correctly (C53_*_partial).
* **C59** Checkpoints survive a crash. False of the code: a crash inside a save mixes weights and optimizer state (C59_violated_mixed) or leaves files on which the restart raises (C59_violated_raises). Histories without a crash inside a save are consistent (C59_between_partial).
* **C61** The number type of the Ising field does not matter. What an integer field does is proved exactly for every coupling on chains and grids (C61_integer_field_chain/_grid: the diagonal element is the energy rounded towards zero, and the answers agree exactly when the energy is an integer). The claim itself holds for integer couplings (the _partial theorems) and is violated otherwise (C61_integer_field_truncates, C61_interaction_lost).
* **C62** Local energies evaluate the network on arrays of its input shape. Proved for 2-D Heisenberg operators; on Heisenberg chains C62_chain says for every batch and history which shape the network gets, and it is the wrong one if at least 95 percent of the connections are used (C62_violated). Ising operators have no state that could change, their connections and their shape agree by definition.
* **C63** Stochastic reconfiguration takes the same step whichever way products are computed. Violated: without the Jacobian, get_energy_grad multiplies the targets by the Jacobian instead of its adjoint (C63_violated). Proved part: both routes use the same system matrix.
* **C64** Every autoregressive machine can be sampled with the fast sampler. Proved for the 1-D real, 1-D complex and 2-D (odd kernel) machines for all settings, weights and sizes (C64_real_partial, C64_complex_partial, C64_2D_partial). Violated for the machine with a custom ordering: C64_violated_custom shows that the fast sampler can never be built on it.
* **C66** Metropolis discards the first part of every batch. False in the code. C66_violated: with the default unused_sampels=0 the warm up makes no sweep for any discard ratio. C66_warm_up_partial gives the number of sweeps that do happen (unused_sampels per discarded sample, not unused_sampels+1).
* **C67** Effective sample size follows the cited estimator. False in the code: C67_violated_one_more and C67_violated_last_pair say in general by how much the returned autocorrelation sum differs from the cited rule, C67_violated is a concrete array. C67_no_cutoff_partial: agreement if no pair of autocorrelations is negative.
* **C68** Metropolis with a global proposal sampler has the right stationary distribution. False in the code: the acceptance ratio ignores the proposal distribution q. C68_iff: with one chain detailed balance holds exactly for uniform q. C68_violated: for every non-uniform q the squared amplitudes of the constant wave function are not stationary. C68_uniform_partial: uniform q is correct for every wave function and number of chains. C68_limit: the chains converge to the squared amplitudes times q; C68_converges_iff: that is the claimed limit exactly for uniform q, whatever the wave function.
* **C72** One batch size for all stages. False of the code for a single batch size: the list is repeated, not its element, and min(list, int) raises (C72_violated). One value per stage works with several stages (C72_per_stage_partial).
* **C73** A restart repeats no batch. False of the code: the saved batch number is ignored, so a checkpoint saved inside an epoch leads to repeated updates (C73_violated). Exact if checkpoints are saved only at the end of training runs (C73_at_end_partial).
* **C75** Per-example Jacobians are the true derivatives. Proved for real dense and convolution layers without dilation, for complex ones on real inputs, and for biases. The code violates it for complex layers with complex inputs (the layer input is not conjugated; the result is right exactly if the input is real) and for dilated convolutions (patches are cut with the dilation as rate where the kernel gradient needs it as stride, giving a wrong shape or wrong values). Trusted: the sign convention of TensorFlow complex gradients.
* **C76** Vectors of real numbers become complex numbers one to one. Proved for the last axis and all non-negative axes. The code violates it for other negative axes: the call raises unless the axis has size four, and with size four it pairs neighbouring entries.
* **C77** Dilation doubles from layer to layer up to the given maximum. Proved if dilation is off or the maximum is a power of two. The code violates it without a maximum (use_dilation=True is then without effect) and for other maxima (the next power of two is used).
* **C79** Complex initialisers draw weights of the documented size. Proved that each weight is modulus times exp(i phase) of one draw and that an initialiser cannot be reused. The code violates the variances: the square root of the wanted variance is never taken and the scale is squared twice. The moduli are modelled as normal numbers, the phase as arbitrary.
* **C80** Training with several workers is training on the union of their batches. Weights, energy and gradient are proved. The code violates the variance: each worker logs its own, so that the average misses the variance of the workers' mean energies.
* **C81** evaluate() reports the statistics of all its samples. Energy and magnetisations are proved when the generator hands out whole batches. The code violates the rest: with mini batches of at most half of the batch every batch is counted once per mini batch, so that up to that many steps see one batch only; the returned variance is the mean of the batch variances and misses the variance of the batch energies.
* **C82** The evaluations of the experiment scripts finish and report. Proved if the ground state energy is known and the sizes fit. The code violates the rest: with an unknown ground state energy (the default) both scripts raise KeyError 'energy/relative_error'; a mini batch size below 16 gives a ZeroDivisionError in train.py; fewer samples than the mini batch size give an IndexError in run_evaluation.py.
* **C83** Validation statistics belong to the weights at the end of the epoch. Proved for validation generators that hand out whole batches. The code violates it for mini batches of at most half of the batch: the second epoch logs the statistics of samples of the earlier weights.
* **C86** exact_evaluate reports the exact values of the current network. Proved for the default callbacks and for further operators with logging at the end of epochs. The code violates it for further operators in the default mode: ExactObservableCallback.on_batch_end reads self.generator, which does not exist, and raises an AttributeError. The times of RuntimeStats are not modelled.
* **C87** The Metropolis chains converge to the squared amplitudes. Proved for uniform moves, exchange moves (on the sector of the start) and Hamiltonian moves of Ising (also with zero field) and Heisenberg (on the sector of the start), for every wave function and start; for local moves if the squared amplitude is not constant. The code violates it for local moves with constant squared amplitude (for instance a machine whose weights are zero): every flip is accepted, so the chain alternates between configurations with an even and an odd number of down spins and never converges. The global sampler is not covered (see C68).
* **C90** The mini-batch size changes memory use, not the training. Proved for mean accumulation and dividing sizes (C90_mean_partial). With the default sum accumulation, used by all shipped scripts, every gradient is multiplied by the number of mini-batches per batch (C90_sum_scales), so the parameters differ (C90_violated). Assumes that Keras averages the per-sample loss over the samples of one step.
* **C91** In staged training every update uses one whole fresh batch. Proved for stages that start at a multiple of their number of mini-batches per batch (C91_aligned_partial), which the shipped runners do (C91_runners_aligned). Otherwise the first update of a stage uses only the first part of a batch, because the counter of accumulated steps is not reset when the frequency changes (C91_first_update, C91_violated); this happens in the third stage of examples/ising.py (C91_violated_shipped).
* **C92** The Ising example trains with the tabulated mini-batch sizes and evaluates. False at every depth: examples/ising.py starts its minimum at 1, so it always trains with mini-batches of one sample, and its evaluation asks for batches of 1 // 16 = 0 samples, which raises (C92_violated). The training stages do run (C92_stages_run_partial).
* **C94** Weight histograms see every sample of the current batch once. Proved for models without learning phase and positive batch_size (C94_histograms_partial). With a learning phase the assertion on the number of tensors fails (C94_violated_learning_phase); with batch_size=0 the loop never ends (C94_violated_zero).
* **C95** Time checkpoints have the documented names and times. The times are proved (C95_times). The names are as documented for paths without the field epoch (C95_names_partial); a path with {epoch} raises KeyError at the first save (C95_violated_epoch) and any field raises at the end of training (C95_violated_end); None as the logs at the end raises (C95_none_fails). Paths without fields never fail (C95_plain_partial).
* **C97** The shortcut of conv2d_complex does not change its result. Without dilation the shortcut is right in NHWC for both paddings (C97_shortcut_partial). In NCHW results are right for images of more than one channel or more than one column (C97_nchw_partial). With dilation the shortcut ignores it (C97_violated). In NCHW the shortcut takes the channel axis for the rows, so for an image of one channel and one column it can add cells that the convolution does not meet, and it returns the filters along the last axis (C97_violated_nchw).
* **C100** Markov chain statistics logged in training describe the chains of the batch in use. False in the code with one chain, the default: C100_violated, every logging call raises a division by zero (C51). C100_statistics_partial: two or more chains of two or more samples; the sum of correlations and the effective sample size only when no pair of correlations is negative, because the code cuts the sum elsewhere than the definition (C67). C100_single_partial: with one sample per chain constants are logged.
* **C101** Exact results do not depend on the normalisation of the network. Fails: lines 79-83 of exact_variational.py exponentiate the sums of two unnormalised logarithmic amplitudes and divide by the exponential of the logarithmic norm, although the normalised log_probs are at hand. For every network and operator a large enough constant makes the energy and all targets infinite or not a number (overflow), and so does a small enough one (division by zero after underflow). In between there is a range in which the squared amplitudes fit and the norm does not: then the energy is reported as exactly 0, without any warning value (n spins in a transverse field: true energy -n). Proved: the probabilities are always right up to underflow and do not depend on the constant; the energy is right up to an explicit bound when norm and products fit. Rounding inside the range is not modelled.
* **C103** Symmetrised models survive the range of floating point numbers. Proved for probabilistic ensembles (the default), where logsumexp subtracts the largest exponent. Fails for averages (probabilistic=False): average_ensemble_op exponentiates the logarithmic amplitudes themselves. One member beyond the largest number makes the result infinite or not a number; if all members are below the smallest number the result is minus infinity. For every normalised network and family of m symmetry maps this happens at some configuration as soon as m is below 2^n times the square of the smallest number; for the uniform network in single precision from 300 spins on it happens at every configuration. Proved for averages: exact when amplitudes, their sum and mean fit.
* **C104** Monte Carlo results survive the range of floating point numbers. Sampling holds in full (C104_decision, C104_runs): runs coincide with the exact ones unless a uniform number is below the smallest positive number. Local energies are accurate as long as the sample is not less probable than a connection by more than the square of the representable range (C104_energy_partial), which samples of |psi|^2 violate with probability at most B(n+1)/M^2 (C104_ising_partial, C104_ising_grid_partial, C104_heisenberg_partial, C104_heisenberg_chain_partial), and do not depend on a constant factor. For a single unlikely sample the local energy is inf or nan (C104_violated_sample), and for NetKet operators the rows of zeros that pad the answer are evaluated by default and make the local energy nan whenever the network is large at the meaningless all-zero configuration (C104_violated_padding). Rounding is not modelled.
* **C105** What a layer means to the sampler does not depend on unrelated imports. Proved: lookups do not depend on the order or number of imports (C105_order), every layer but the input layer keeps its rule under later imports (C105_stable_partial), what the input layer gets (C105_input), wrappers (C105_wrapped), own classes (C105_own), and that drawn values are read back as the drawn category for spins if flowket.samplers was imported (C105_spins_partial) and for categories if it was not (C105_categories_partial). Violated: flowket.samplers re-registers the input layer for the whole process, so importing it anywhere makes deepar's fast sampler write 1 - 2k for models of categories, which ToOneHot never reads as category k (C105_violated_categories, C105_violated_import); without that import deepar's fast sampler writes 0 and 1 for spin machines, which read both as category zero (C105_violated_machines).
* **C106** The fast sampler draws from models with any number of categories. Proved for programs that do not import flowket.samplers (C106_categories_partial), with values 1 - 2k in place of k for programs that do (C106_spins_partial, the right values for spin machines), together with the likelihood formula (C106_likelihood) and normalisation (C106_normalised). Violated for models of categories once flowket.samplers was imported: category zero is never returned (C106_violated_import).
* **C108** The total spin observable reports the total spin. Violated: total_spin_netket_operator only lists edges from a site to itself instead of all pairs of sites. Under the assumption graphConn about NetKet (and that NetKet accepts such edges) the answer is the number of sites for every sample and every wave function (C108_reported_partial), while the total spin differs between states (C108_basis_state, C108_violated).
* **C109** Metropolis handles configurations of amplitude zero. Violated. The samplers with symmetric proposals raise an exception as soon as any chain proposes a configuration of amplitude zero (C109_symmetric_partial), so for wave functions of fixed magnetisation two local sweeps in a row never succeed (C109_violated_local), and exchange sweeps raise unless every chain happens to start with that magnetisation (C109_violated_exchange). The Hamiltonian sampler has no such check and decides correctly (C109_hamiltonian), but a chain at a configuration of amplitude zero whose neighbours all have amplitude zero is stuck forever (C109_violated_stuck), because the difference of two infinities is not a number. What holds: chains of positive probability keep one (C109_positive) and the stored values stay in step (C109_in_step).
* **C110** How far back the 1-D machines can see. Disagrees with the code for the default arguments: with use_dilation=True and max_dilation_rate=None the dilation never grows (lines 58-60), so the conditional of a site depends on no more than (kernel_size - 1) h + 1 sites before it (C110_violated_default, for all weights). Proved as stated when a maximal dilation is given that the h layers do not pass early (C110_partial) and without dilation (C110_undilated); C110_window gives the window for every setting. 'For some weights' is proved for machines without skip connections and activations that fix 0 and 1 and send -1 to -1 or 0 (none, relu).
* **C111** The statistics of stochastic reconfiguration describe the solved system. False of the code in two corners (C111_violated_rank, C111_violated_min_eigval): the tolerance of the rank uses K.epsilon() (1e-7) times the largest matrix entry instead of the machine precision times the largest singular value, so small but exactly representable eigenvalues are dropped and the rank is too low; when all samples have the same derivatives no eigenvalue is left and the smallest eigenvalue is reported as inf. Proved: the iterative solver's statistics, the rank as an upper bounded number, its exactness when no eigenvalue lies below the tolerance, and that a reported smallest eigenvalue is an eigenvalue above the tolerance. Not modelled: the order in which one session run updates the variables and reads the metrics, and the rounding of eigvalsh.
* **C113** A restart continues gradient accumulation and weight averaging. False of the code: the variables of the accumulation and of the moving average are not among the optimizer weights that a checkpoint saves. A checkpoint inside a group of mini-batches loses the gradients accumulated so far (C113_lost, C113_violated_accumulators, for every frequency of two or more), and after a restart the moving average covers only the updates since the restart, with division by zero before the first (C113_ema_after_restart, C113_violated_ema). Exact for weights and optimizer state when the checkpoint is saved between two updates (C113_partial). Modelled from TensorFlow's source: the optimizer's weights do not contain attributes set from outside.
* **C114** Layers and models can be rebuilt from their configuration. False of the code: complex layers and the subclasses of Lambda cannot be rebuilt (C114_violated_complex_and_lambda), LayerNormalization loses its epsilon (C114_violated_layer_normalization), PeriodicPadding with pairs of widths raises after a trip through a file (C114_violated_padding), so CheckpointByTime with its default arguments fails on every autoregressive machine and with complex optimizers (C114_violated_checkpoint). The other layers are rebuilt exactly in memory (C114_copy_partial) and with the same operation through a file (C114_reload_partial). The behaviour of Keras (default get_config, from_config, Lambda, JSON) is modelled from its source, for versions before 1.14 and for 1.14; WeightNormalization and LambdaWithOneToOneTopology, which hold an arbitrary layer or function, are not modelled.
* **C115** The reported relative error is the distance from the ground state. Proved for negative ground energies, with equality for ground states only; the Ising model (with a field or coupling) and the Heisenberg model are proved to have negative ground energies on all lattices but the periodic Ising chain of one site, so the claim holds for them without assumption; on average for sampled batches. The code violates it for positive ground energies: the error is divided by E0 and not by |E0|, so that it is reported with the wrong sign and the worst states have the smallest error. For a ground energy of zero the code divides by zero (infinity or nan; excluded from the model).
* **C116** Logged run times add up, and no time is counted twice. That the parts are durations that add up to the total since the batch or cycle began is proved for all sizes, modes and callbacks. Counting once is proved for whole batches, for epoch logging where no batch reaches over two epoch ends, and for exact training in batch mode or with epochs of at least one cycle; with epochs of whole cycles every cycle's full time is logged. False otherwise: with several mini-batches per batch every step logs the sampling of the batch again; in epoch mode with a validation generator the validation sampling is logged as gradients; in exact training nothing is ever logged in batch mode when an epoch is shorter than a cycle, and in epoch mode such epochs count a refresh repeatedly; MachineUpdated before RuntimeStats makes the logged interval contain no training; exact_evaluate in batch mode returns no times unless a cycle is one batch.
* **C117** Every training step uses a batch drawn with the current weights. Proved for workers=0, which all examples use, for Monte Carlo and exact generators. False with a second thread (main.py line 77 passes max_queue_size=0 without workers=0, which is an unbounded queue): the delays that occur are characterised exactly. For queue size m > 0 a batch is at most m + 1 steps old, and every order-preserving delay up to that bound occurs for some schedule; for size 0 a whole training may run on batches of the initial weights. The exact generator hands out views of arrays it overwrites, so with a queue the steps of one cycle can use coefficients of two refreshes. The thread and queue behaviour of Keras is modelled, not part of the repository.
* **C118** The experiment scripts' reference energies belong to the system that is run, and every system can be run. Violated: ising_runner.py looks its reference up by field, so that on its default lattice (open 12x12) every field other than 2, 2.5, 3, 3.5, 4 ends in a KeyError (C118_violated_field), though the same fields work on every other lattice; examples/ising.py stops the same way when --gamma, which is not required, is left out (C118_violated_example). Proved: the lookup succeeds in all other cases, a reference is used exactly for the intended lattices, and it is the ground energy of the operator of the script up to a fifth (Ising) or three tenths (Heisenberg), by rigorous bounds over all wave functions: energies of single bonds and stars from below, aligned, polarised and Neel states from above. Missing: the digits of the references themselves (they come from Monte Carlo calculations).
* **C119** Every run continues its own work only, and its files say which run it is. Proved for examples/ising.py: file names determine arguments and kind of file, and every run behaves as if runs with other arguments did not exist (C119_example). Violated: the label weights_normalization in the name of the run shows no_weights_normalization, the opposite of what the run does (C119_violated_label); experiments/train.py does not compare its arguments with those of the checkpoint in output_path (it overwrites config.json) and continues from weights of a run with another field, lattice boundary or learning rate (C119_violated_shared), so that isolation holds only if all runs in an output directory have the same arguments (C119_train_partial).
* **C120** An evaluation shows the numbers of the model it evaluates. Proved for train.py, run_evaluation.py and evaluate_with_2d_obc_invariant.py. The code violates it in examples/j1j2_2d_monte_carlo_4.py: line 81 evaluates the generator of the symmetrised model with callbacks made for the training generator, so that every step reports the last training batch with the network that was trained (C120_violated_stale, C120_violated_j1j2).
* **C121** Workers of a distributed training never wait for each other for ever. Proved if all workers find the same checkpoint file or none. The code violates it on machines with separate file systems: only rank 0 writes checkpoints and the epoch to resume from is not broadcast, so after a restart rank 0 resumes while the others start from epoch 0, and every execution gets stuck (C121_violated_restart, C121_violated_epochs). Collective operations run in one session call count as one; failures of workers are not modelled.
* **C124** The checkpoint of the best model holds the best model. Holds for a checkpoint and early stopping that watch the validation energy (whole batches; C124_partial, C124_stops_partial), and for exact training that logs at the end of epochs with MachineUpdated before the loggers (C124_exact). False of the code otherwise. With the default way of logging, which examples/custom_keras_model.py uses, the energies are only in the logs of batches, so the checkpoint of the best model is never written and early stopping never stops (C124_violated_default, C124_violated_exact_default). With logging at the end of epochs the recorded energy is that of the weights before the last step while the weights after it are saved (C124_stale), and in a concrete run the file holds worse weights than a later epoch (C124_violated_epoch_mode). ModelCheckpoint and EarlyStopping belong to Keras and are modelled from their documented behaviour.
* **C125** Networks with periodic padding are translation invariant. Holds if no padding is longer than the lattice (C125_partial for any number of dimensions, C125_benchmark for the network of the example with at most n + 1 taps on n spins). False of the code for longer kernels: PeriodicPadding silently cuts off what exceeds the lattice, and with n + 1 < k <= 2n taps there are weights for which translations change the amplitude (C125_violated_long_kernel); with more than 2n + 1 taps the network cannot be built (C125_violated_raises).
* **C126** The reported variance measures the distance from an eigenstate. Proved for wave functions that are real up to a common factor (zero variance exactly for eigenstates, Weinstein's bound on the distance to the spectrum), for all four operators; for every network eigenstates are reported with their eigenvalue and variance zero, and the reported variance is the true one less the weight of the imaginary parts of the local energies. The code violates it for complex wave functions, since it drops the imaginary parts of the local energies: for the Ising model without coupling a state that is no eigenstate is reported with energy 0 and variance 0, and for one site no energy level is near.
* **C127** A stochastic-reconfiguration step goes downhill. C127_direction: both solvers give a direction with negative product with the batch gradient, for every tolerance below one and positive iteration limit. C127_exact: with all states in one batch of ExactVariational, a holomorphic network and every small enough learning rate, the exact energy strictly falls unless it is stationary. C127_violated_jvp: with compute_jvp_instead_of_full_jacobian the right-hand side is not the gradient (C63) and a step can lead uphill. The iterative solver with a single parameter fails (C32).
* **C130** Stochastic reconfiguration takes the same step with use_energy_loss as without. False of the code by a factor: Keras averages the loss over the batch, while the other branch sums over it, so with use_energy_loss=True the energy gradient and the step are those without divided by the number of samples (C130_violated: the updated weights differ for every batch of two samples or more unless the gradient is zero; optimizer.py marks the branch 'todo fix this branch!'). Proved instead: the gradient is exactly 1/B times the other (C130_gradient_partial), the updates agree for both solvers when the learning rate is multiplied with the batch size (C130_step_partial), and with products by differentiation the step goes downhill, unlike without use_energy_loss (C130_jvp_partial, compare C127_violated_jvp).
* **C132** Symmetrising a model does not raise its energy. False in general, so the theorems need positive amplitudes (imaginary part of the logarithm zero), a field h >= 0 or unitary_rotation=True, and probabilistic=True. C132_violated_phases: with phases, make_up_down_invariant raises the energy of a two-site Ising model from 1 to 2, because probabilistic_ensemble_op averages phases. C132_violated_without_rotation: with unitary_rotation=False a positive model of the two-site Heisenberg chain goes from -1 to 1. C132_violated_average: with probabilistic=False a positive model of the two-site Ising chain goes from -1/3 to 0. Proved: for stoquastic operators and positive base models, any nesting does not raise the energy (C132_*_partial), and for every wave function there is a positive base model whose symmetrised versions have its norm and at most its energy (C132_no_loss_*).
* **C133** Training rests at eigenstates and only there. Proved for batches of two or more samples (the rest half for every batch size). With batch_size 1 the mean is subtracted from itself, so every target is zero for every network and training never moves, eigenstate or not (C133_violated_single_sample); nothing in the generator rejects that batch size.
* **C134** The energy reported for Metropolis samples converges to the energy of the wave function. Proved for uniform and Hamiltonian moves, for exchange moves with the Heisenberg model, and for single-spin moves unless all amplitudes have the same modulus. Exchange moves with the Ising model are accepted although the operator connects the sector with others: the reported energy then converges to values below any bound, in particular below the ground energy (C134_violated_exchange_ising). Single-spin moves with amplitudes of the same modulus (a network with zero weights) alternate and the reported energy converges to no number (C134_violated_local). The batch is the states of the chains after a number of sweeps; longer batches are means of such.
* **C137** Sizes handed to complex convolutions are completed to tuples of integers or refused. C137_partial proves the documented behaviour for integers, iterables of integers, NaN or non-literal strings, and all values that cannot be iterated apart from booleans; C137_violated: iterables with None raise TypeError and with infinities OverflowError instead of ValueError; floats, booleans and strings of digits are accepted and passed on unconverted; C137_violated_numpy: a single NumPy integer is refused.
* **C139** Long Metropolis batches obey the law of large numbers. Uniform moves, exchange moves and Hamiltonian moves: proved from every start. Local moves: proved if not all amplitudes have the same modulus (C139_local_partial); otherwise, with every second sweep used, half of the configurations never occur (C139_violated_local). Batches confined to one magnetisation train the restricted wave function exactly in the limit (C139_training_heisenberg_grid, C139_training_heisenberg_chain).
* **C156** The scripts' final evaluation reports the numbers of the symmetrised model with errors that shrink with the number of samples. Energy, relative error, local energy variance and abs_sigma_z are proved right for the symmetrised model (C156_*_partial). sigma_z is not: the samples come from the base model and sigma_z changes its sign under the spin flip, so the scripts print the magnetisation of the base model, while that of the symmetrised model is zero (C156_violated_sigma).
* **C160** Energies and training targets do not depend on how the lattice is laid out. The Ising operator binds a single periodic site to itself when its shape is (1,), but not when it is (1, 1) (ising.py lines 28-38): the energies differ by J (C160_violated_one_site). Everything else is proved: Ising chains of at least two sites (C160_ising_chain_partial), all Ising grids, all Heisenberg chains and grids, J1-J2 grids.

## Axioms per theorem

From `#print axioms`. Every property theorem depends on a subset of `propext`, `Classical.choice`,
`Quot.sound`.

* no axioms: `Verif.J1J2.C15_small_periodic`, `Verif.Checkpoint.C59_violated_raises`, `Verif.Net.Registry.C105_wrapped`, `Verif.Training.Queue.C117_main_thread`
* `Classical.choice`, `Quot.sound`, `propext`: `Verif.Exact.C01_number_roundtrip`, `Verif.Exact.C01_spins_roundtrip`, `Verif.Exact.C01_table_complete`, `Verif.Exact.C01_array_decode`, `Verif.Exact.C01_array_encode_partial`, `Verif.Exact.C01_array_encode_wraps`, `Verif.Exact.C02_exact_vector`, `Verif.Exact.C02_rejected`, `Verif.Exact.C02_vector_machine_partial`, `Verif.Exact.C02_vector_machine_wraps`, `Verif.Exact.C02_vector_roundtrip_partial`, `Verif.Ordering.C03_raster_complete`, `Verif.Ordering.C03_raster_position`, `Verif.Ordering.C04_zigzag_partial`, `Verif.Ordering.C04_zigzag_small`, `Verif.Ordering.C05_gather_inverse`, `Verif.Operators.C06_ising_chain`, `Verif.Operators.C06_ising_grid`, `Verif.Operators.C07_heisenberg_grid`, `Verif.Operators.C07_heisenberg_chain`, `Verif.Operators.C08_rotation_partial`, `Verif.Operators.C08_spectrum_partial`, `Verif.Operators.C08_violated`, `Verif.Operators.C08_rotation_chain_partial`, `Verif.Operators.C08_spectrum_chain_partial`, `Verif.Operators.C08_violated_chain`, `Verif.Operators.C09_ising_chain`, `Verif.Operators.C09_ising_grid`, `Verif.Operators.C09_heisenberg_grid`, `Verif.Operators.C09_heisenberg_chain`, `Verif.Operators.C10_heisenberg_grid`, `Verif.Operators.C10_heisenberg_chain`, `Verif.Operators.C10_ising_chain`, `Verif.Operators.C10_ising_grid`, `Verif.Operators.C10_heisenberg_chain_all`, `Verif.Operators.C11_ising_chain`, `Verif.Operators.C11_ising_grid`, `Verif.Operators.C11_heisenberg_grid`, `Verif.Operators.C11_heisenberg_chain`, `Verif.Operators.C12_history_independent_grid`, `Verif.Operators.C12_history_independent_chain`, `Verif.Operators.C12_results_stay_partial`, `Verif.Operators.C12_aliasing_violated`, `Verif.Operators.C13_shape_kept_partial`, `Verif.Operators.C13_violated`, `Verif.Operators.C13_sites_kept_partial`, `Verif.Operators.C14_sound`, `Verif.Operators.C14_zero_sector_partial`, `Verif.Operators.C14_violated`, `Verif.J1J2.C15_edges`, `Verif.J1J2.C15_edges_in_lattice`, `Verif.Netket.C16_padding_neutral`, `Verif.Netket.C16_rows_monotone`, `Verif.Netket.C16_old_interface_violated`, `Verif.Energy.C17_strategies_agree`, `Verif.Energy.C17_needs_contract`, `Verif.Energy.C18_ising_chain`, `Verif.Energy.C18_ising_grid`, `Verif.Energy.C18_heisenberg_grid`, `Verif.Energy.C18_heisenberg_chain`, `Verif.Energy.Exact.C19_probabilities`, `Verif.Energy.Exact.C20_exact_energy`, `Verif.Energy.Exact.C20_ising_chain`, `Verif.Energy.Exact.C20_ising_grid`, `Verif.Energy.Exact.C20_heisenberg_grid`, `Verif.Energy.Exact.C20_heisenberg_chain`, `Verif.Energy.Exact.C21_gradient`, `Verif.Energy.Exact.C22_batch_independent`, `Verif.Energy.Exact.C23_generator`, `Verif.Energy.Exact.C23_each_state_once`, `Verif.Energy.Exact.C24_monte_carlo`, `Verif.Energy.Exact.C24_exact`, `Verif.Training.C25_sequence`, `Verif.Training.C25_partition_partial`, `Verif.Training.C25_tail_dropped`, `Verif.Training.C26_fresh_after_change`, `Verif.Training.C26_history`, `Verif.Training.C27_accumulation_is_big_batch`, `Verif.Training.C27_rejects`, `Verif.Training.C28_first_update_after_change`, `Verif.Training.C28_change_partial`, `Verif.Training.C28_violated`, `Verif.Training.C29_ema_is_average`, `Verif.Training.C29_ema_idempotent`, `Verif.Training.C29_ema_constant`, `Verif.Training.C29_ema_before_update`, `Verif.Optimizers.C30_complex_update`, `Verif.Optimizers.SR.C32_positive_semidefinite`, `Verif.Optimizers.SR.C32_is_covariance`, `Verif.Optimizers.SR.C32_unique_solution`, `Verif.Optimizers.SR.C32_product`, `Verif.Optimizers.SR.C32_product_via_jvp`, `Verif.Optimizers.SR.C32_iterative`, `Verif.Optimizers.SR.C32_update`, `Verif.Optimizers.SR.C32_update_iterative`, `Verif.Optimizers.CG.C33_result`, `Verif.Optimizers.CG.C33_deterministic`, `Verif.Optimizers.CG.C33_terminates`, `Verif.Optimizers.CG.C33_exact`, `Verif.Autoregressive.C34_real`, `Verif.Autoregressive.C34_complex`, `Verif.Autoregressive.C35_normalised`, `Verif.Autoregressive.C35_needs_order`, `Verif.Autoregressive.C36_distribution`, `Verif.Autoregressive.C36_spins`, `Verif.Autoregressive.C37_inverted`, `Verif.Autoregressive.C37_violated`, `Verif.Autoregressive.C37_symmetric_partial`, `Verif.Machines.C38_real`, `Verif.Machines.C38_complex`, `Verif.Machines.C39_causal`, `Verif.Machines.C39_even_rejected`, `Verif.Machines.C40_causal`, `Verif.Net.C41_single_partial`, `Verif.Net.C42_gather_partial`, `Verif.Net.C42_concat_partial`, `Verif.Net.C43_consistent`, `Verif.Net.C43_unique`, `Verif.Net.C43_any_order`, `Verif.Net.C43_plain`, `Verif.Net.C43_plain_sampler`, `Verif.Net.C44_violated_assert`, `Verif.Net.C44_accepted_causal`, `Verif.Net.C44_cyclic_rejected`, `Verif.Net.C44_fast_sampler_iff`, `Verif.Sizes.C45_ensemble`, `Verif.Sizes.C45_metropolis`, `Verif.Metropolis.C46_next`, `Verif.Metropolis.C46_succeeds`, `Verif.Metropolis.C46_ratio`, `Verif.Metropolis.C46_counts`, `Verif.Metropolis.C47_in_step`, `Verif.Metropolis.C47_decision`, `Verif.Metropolis.C48_local`, `Verif.Metropolis.C48_exchange`, `Verif.Metropolis.C48_uniform`, `Verif.Metropolis.C49_symmetric`, `Verif.Metropolis.C49_ising_chain`, `Verif.Metropolis.C49_ising_grid`, `Verif.Metropolis.C49_heisenberg_grid`, `Verif.Metropolis.C49_heisenberg_chain`, `Verif.Metropolis.C50_local`, `Verif.Metropolis.C50_exchange`, `Verif.Metropolis.C50_uniform`, `Verif.Metropolis.C50_ising`, `Verif.Metropolis.C50_heisenberg_grid`, `Verif.Metropolis.C50_heisenberg_chain`, `Verif.RHat.C51_violated`, `Verif.RHat.C51_statistics_partial`, `Verif.RHat.C51_single_partial`, `Verif.EqualUpDown.C52_violated`, `Verif.EqualUpDown.C52_violated_samples`, `Verif.EqualUpDown.C52_mask_partial`, `Verif.EqualUpDown.C52_ideal_partial`, `Verif.Wrapper.C53_violated`, `Verif.Wrapper.C53_rejects_partial`, `Verif.Wrapper.C53_networks_partial`, `Verif.Ensemble.C54_invariant`, `Verif.Ensemble.C54_layers`, `Verif.Ensemble.C55_translations`, `Verif.Ensemble.C55_with_rotations`, `Verif.Ensemble.C56_invariant`, `Verif.Ensemble.C57_dihedral`, `Verif.Ensemble.C57_models`, `Verif.Ensemble.C57_spin_flip`, `Verif.Ensemble.C57_translations`, `Verif.Ensemble.C57_with_rotations`, `Verif.RBM.C58_invariant`, `Verif.Operators.C61_integer_field_chain_partial`, `Verif.Operators.C61_integer_field_truncates`, `Verif.Operators.C61_integer_field_chain`, `Verif.Operators.C61_integer_field_grid`, `Verif.Operators.C61_integer_field_grid_partial`, `Verif.Operators.C61_interaction_lost`, `Verif.Energy.C62_shape_grid_partial`, `Verif.Energy.C62_violated`, `Verif.Energy.C62_chain`, `Verif.Optimizers.SR.C63_violated`, `Verif.Optimizers.SR.C63_same_matrix_partial`, `Verif.Machines.C64_real_partial`, `Verif.Machines.C64_complex_partial`, `Verif.Machines.C64_2D_partial`, `Verif.Machines.C64_violated_custom`, `Verif.Machines.C65_real`, `Verif.Machines.C65_complex`, `Verif.Machines.C65_2D`, `Verif.Machines.C65_custom`, `Verif.Metropolis.C66_violated`, `Verif.Metropolis.C66_warm_up_partial`, `Verif.RHat.C67_violated_one_more`, `Verif.RHat.C67_violated_last_pair`, `Verif.RHat.C67_no_cutoff_partial`, `Verif.RHat.C67_violated`, `Verif.Metropolis.C68_limit`, `Verif.Metropolis.C68_converges_iff`, `Verif.Metropolis.C68_iff`, `Verif.Metropolis.C68_violated`, `Verif.Metropolis.C68_uniform_partial`, `Verif.ExactSampler.C69_wave_function`, `Verif.ExactSampler.C69_wave_function_rejects`, `Verif.ExactSampler.C69_exact`, `Verif.RBM.C70_lncosh`, `Verif.RBM.C71_sym`, `Verif.RBM.C71_rbm`, `Verif.Stages.C72_per_stage_partial`, `Verif.Ensemble.C74_ising`, `Verif.Ensemble.C74_heisenberg`, `Verif.Jacobian.C75_dense_partial`, `Verif.Jacobian.C75_conv_partial`, `Verif.Jacobian.C75_conv1d_partial`, `Verif.Jacobian.C75_complex_dense_partial`, `Verif.Jacobian.C75_complex_conv_partial`, `Verif.Jacobian.C75_complex_bias_partial`, `Verif.Jacobian.C75_bias_arrays`, `Verif.Jacobian.C75_violated_complex_iff`, `Verif.Jacobian.C75_violated_complex`, `Verif.Jacobian.C75_violated_dilation`, `Verif.Jacobian.C75_unsupported`, `Verif.Machines.C76_bijection_partial`, `Verif.Machines.C76_head`, `Verif.Machines.C76_violated_negative_axis`, `Verif.Machines.C76_odd`, `Verif.Machines.C77_partial`, `Verif.Machines.C77_off`, `Verif.Machines.C77_violated_default`, `Verif.Machines.C77_violated_maximum`, `Verif.WeightNorm.C78_initial`, `Verif.WeightNorm.C78_initial_exponential`, `Verif.WeightNorm.C78_length`, `Verif.WeightNorm.C78_scale`, `Verif.WeightNorm.C78_violated_small`, `Verif.Initializers.C79_weight_partial`, `Verif.Initializers.C79_single_use`, `Verif.Initializers.C79_violated_glorot`, `Verif.Initializers.C79_violated_he`, `Verif.Initializers.C79_fans`, `Verif.Initializers.C79_violated_differ`, `Verif.Training.C80_weights`, `Verif.Training.C80_targets`, `Verif.Training.C80_violated_variance`, `Verif.Training.C80_violated_witness`, `Verif.Callbacks.C81_values`, `Verif.Callbacks.C81_partial`, `Verif.Callbacks.C81_violated_repeats`, `Verif.Callbacks.C81_violated_variance`, `Verif.Callbacks.C81_no_steps`, `Verif.Callbacks.C82_known_partial`, `Verif.Callbacks.C82_violated_unknown`, `Verif.Callbacks.C82_violated_sizes`, `Verif.Callbacks.C83_partial`, `Verif.Callbacks.C83_violated`, `Verif.Callbacks.C84_stops`, `Verif.Callbacks.C84_good`, `Verif.Callbacks.C85_range`, `Verif.Callbacks.C85_flip`, `Verif.Callbacks.C85_expected`, `Verif.Callbacks.C86_default`, `Verif.Callbacks.C86_observable_partial`, `Verif.Callbacks.C86_violated_observable`, `Verif.Metropolis.C87_uniform`, `Verif.Metropolis.C87_local_partial`, `Verif.Metropolis.C87_violated_local`, `Verif.Metropolis.C87_exchange_neighbours`, `Verif.Metropolis.C87_exchange`, `Verif.Metropolis.C87_ising_chain`, `Verif.Metropolis.C87_ising_grid`, `Verif.Metropolis.C87_heisenberg_grid`, `Verif.Metropolis.C87_heisenberg_chain`, `Verif.Energy.C88_ising_chain`, `Verif.Energy.C88_ising_grid`, `Verif.Energy.C88_heisenberg_grid`, `Verif.Energy.C88_heisenberg_chain`, `Verif.Energy.C88_single_sample`, `Verif.Autoregressive.C88_autoregressive`, `Verif.Training.C88_any_sampler`, `Verif.Energy.C89_ising_chain`, `Verif.Energy.C89_ising_grid`, `Verif.Energy.C89_heisenberg_grid`, `Verif.Energy.C89_heisenberg_chain`, `Verif.Autoregressive.C89_autoregressive`, `Verif.Training.C90_mean_partial`, `Verif.Training.C90_sum_scales`, `Verif.Training.C90_violated`, `Verif.Training.C91_aligned_partial`, `Verif.Training.C91_first_update`, `Verif.Training.C91_violated_shipped`, `Verif.Training.C91_violated`, `Verif.Training.C92_stages_run_partial`, `Verif.TensorBoard.C93_samples`, `Verif.TensorBoard.C93_batch`, `Verif.TensorBoard.C94_histograms_partial`, `Verif.CheckpointNames.C95_times`, `Verif.CheckpointNames.C95_history`, `Verif.CheckpointNames.C95_names_partial`, `Verif.CheckpointNames.C95_violated_epoch`, `Verif.CheckpointNames.C95_violated_end`, `Verif.CheckpointNames.C95_none_fails`, `Verif.CheckpointNames.C95_plain_partial`, `Verif.ComplexConv.C96_convolution`, `Verif.ComplexConv.C96_linear`, `Verif.ComplexConv.C96_real`, `Verif.ComplexConv.C96_log`, `Verif.ComplexConv.C96_crelu`, `Verif.ComplexConv.C97_shortcut_partial`, `Verif.ComplexConv.C97_violated`, `Verif.ComplexConv.C97_nchw_partial`, `Verif.ComplexConv.C97_violated_nchw`, `Verif.Training.C98_descent`, `Verif.Training.C98_ising_chain`, `Verif.Training.C98_ising_grid`, `Verif.Training.C98_heisenberg_grid`, `Verif.Training.C98_heisenberg_chain`, `Verif.Callbacks.C99_waves`, `Verif.Callbacks.C99_last_gradient`, `Verif.Callbacks.C99_current`, `Verif.Callbacks.C99_same_training`, `Verif.Callbacks.MCMC.C100_statistics_partial`, `Verif.Callbacks.MCMC.C100_violated`, `Verif.Callbacks.MCMC.C100_single_partial`, `Verif.Energy.Range.C101_probabilities_partial`, `Verif.Energy.Range.C101_violated_overflow`, `Verif.Energy.Range.C101_violated_underflow`, `Verif.Energy.Range.C101_violated`, `Verif.Energy.Range.C101_energy_partial`, `Verif.Energy.Range.C101_targets_partial`, `Verif.Energy.Range.C101_violated_silent`, `Verif.Energy.Range.C101_violated_silent_field`, `Verif.Training.Rescale.C102_sampling`, `Verif.Training.Rescale.C102_estimates`, `Verif.Training.Rescale.C102_runs`, `Verif.Training.Rescale.C102_loss`, `Verif.Training.Rescale.C102_minibatches`, `Verif.Training.Rescale.C102_training`, `Verif.Ensemble.Range.C103_probabilistic_partial`, `Verif.Ensemble.Range.C103_violated_overflow`, `Verif.Ensemble.Range.C103_violated_underflow`, `Verif.Ensemble.Range.C103_violated_normalised`, `Verif.Ensemble.Range.C103_average_partial`, `Verif.Ensemble.Range.C103_violated_uniform`, `Verif.Metropolis.Range.C104_decision`, `Verif.Metropolis.Range.C104_runs`, `Verif.Metropolis.Range.C104_energy_partial`, `Verif.Metropolis.Range.C104_factor_partial`, `Verif.Metropolis.Range.C104_violated_overflow`, `Verif.Metropolis.Range.C104_ising_partial`, `Verif.Metropolis.Range.C104_heisenberg_partial`, `Verif.Metropolis.Range.C104_violated_sample`, `Verif.Metropolis.Range.C104_violated_padding`, `Verif.Metropolis.Range.C104_ising_grid_partial`, `Verif.Metropolis.Range.C104_heisenberg_chain_partial`, `Verif.Net.Registry.C105_order`, `Verif.Net.Registry.C105_stable_partial`, `Verif.Net.Registry.C105_input`, `Verif.Net.Registry.C105_own`, `Verif.Net.Registry.C105_spins_partial`, `Verif.Net.Registry.C105_categories_partial`, `Verif.Net.Registry.C105_violated_categories`, `Verif.Net.Registry.C105_violated_import`, `Verif.Net.Registry.C105_violated_machines`, `Verif.Net.Categories.C106_categories_partial`, `Verif.Net.Categories.C106_spins_partial`, `Verif.Net.Categories.C106_violated_import`, `Verif.Net.Categories.C106_likelihood`, `Verif.Net.Categories.C106_normalised`, `Verif.J1J2.Op.C107_hamiltonian`, `Verif.J1J2.Op.C107_connections`, `Verif.J1J2.Op.C108_reported_partial`, `Verif.J1J2.Op.C108_basis_state`, `Verif.J1J2.Op.C108_violated`, `Verif.Metropolis.Zero.C109_in_step`, `Verif.Metropolis.Zero.C109_hamiltonian`, `Verif.Metropolis.Zero.C109_violated_stuck`, `Verif.Metropolis.Zero.C109_symmetric_partial`, `Verif.Metropolis.Zero.C109_positive`, `Verif.Metropolis.Zero.C109_violated_local`, `Verif.Metropolis.Zero.C109_violated_exchange`, `Verif.Machines.C110_window`, `Verif.Machines.C110_partial`, `Verif.Machines.C110_undilated`, `Verif.Machines.C110_violated_default`, `Verif.Optimizers.SR.C111_solver`, `Verif.Optimizers.SR.C111_rank_bound`, `Verif.Optimizers.SR.C111_rank_partial`, `Verif.Optimizers.SR.C111_min_eigval`, `Verif.Optimizers.SR.C111_violated_rank`, `Verif.Optimizers.SR.C111_violated_min_eigval`, `Verif.Net.LayerNorm.C112_finite`, `Verif.Net.LayerNorm.C112_normalised`, `Verif.Net.LayerNorm.C112_bounded`, `Verif.Net.LayerNorm.C112_shift`, `Verif.Net.LayerNorm.C112_scale`, `Verif.Net.LayerNorm.C112_local`, `Verif.Training.C113_partial`, `Verif.Training.C113_lost`, `Verif.Training.C113_violated_accumulators`, `Verif.Training.C113_ema_after_restart`, `Verif.Training.C113_violated_ema`, `Verif.Net.Config.C114_copy_partial`, `Verif.Net.Config.C114_reload_partial`, `Verif.Net.Config.C114_operations`, `Verif.Net.Config.C114_violated_padding`, `Verif.Net.Config.C114_violated_layer_normalization`, `Verif.Net.Config.C114_violated_complex_and_lambda`, `Verif.Net.Config.C114_violated_checkpoint`, `Verif.Callbacks.C115_partial`, `Verif.Callbacks.C115_ising_chain`, `Verif.Callbacks.C115_ising_grid`, `Verif.Callbacks.C115_heisenberg_grid`, `Verif.Callbacks.C115_heisenberg_chain`, `Verif.Callbacks.C115_monte_carlo_partial`, `Verif.Callbacks.C115_violated_positive`, `Verif.Callbacks.C115_violated`, `Verif.Callbacks.Runtime.C116_monte_carlo`, `Verif.Callbacks.Runtime.C116_monte_carlo_once_partial`, `Verif.Callbacks.Runtime.C116_violated_mini_batches`, `Verif.Callbacks.Runtime.C116_violated_validation`, `Verif.Callbacks.Runtime.C116_exact`, `Verif.Callbacks.Runtime.C116_exact_once_partial`, `Verif.Callbacks.Runtime.C116_exact_complete`, `Verif.Callbacks.Runtime.C116_violated_exact_short_epochs`, `Verif.Callbacks.Runtime.C116_violated_exact_epochs`, `Verif.Callbacks.Runtime.C116_violated_machine_updated`, `Verif.Callbacks.Runtime.C116_violated_exact_evaluate`, `Verif.Callbacks.C116_among_callbacks`, `Verif.Training.Queue.C117_queue_partial`, `Verif.Training.Queue.C117_violated_minimum`, `Verif.Training.Queue.C117_exact_main_thread`, `Verif.Experiment.Reference.C118_ising_partial`, `Verif.Experiment.Reference.C118_heisenberg_partial`, `Verif.Experiment.Reference.C118_example_partial`, `Verif.Experiment.Reference.C118_violated_field`, `Verif.Experiment.Reference.C118_violated_example`, `Verif.Experiment.RunNames.C119_example`, `Verif.Experiment.RunNames.C119_violated_label`, `Verif.Experiment.RunNames.C119_train_partial`, `Verif.Experiment.RunNames.C119_violated_shared`, `Verif.Callbacks.C120_partial`, `Verif.Callbacks.C120_violated_stale`, `Verif.Callbacks.C120_violated_j1j2`, `Verif.Workers.C121_partial`, `Verif.Workers.C121_violated_epochs`, `Verif.Workers.C121_violated_restart`, `Verif.Workers.C121_rank_zero_alone`, `Verif.Exact.C122_amplitudes`, `Verif.Exact.C122_eigenvector`, `Verif.Machines.C123_window`, `Verif.Callbacks.C124_partial`, `Verif.Callbacks.C124_violated_default`, `Verif.Callbacks.C124_stops_partial`, `Verif.Callbacks.C124_exact`, `Verif.Callbacks.C124_stale`, `Verif.Callbacks.C124_violated_exact_default`, `Verif.Callbacks.C124_violated_epoch_mode`, `Verif.Net.C125_partial`, `Verif.Net.C125_benchmark`, `Verif.Net.C125_violated_long_kernel`, `Verif.Net.C125_violated_raises`, `Verif.Callbacks.C126_reported`, `Verif.Callbacks.C126_partial`, `Verif.Callbacks.C126_ising_chain`, `Verif.Callbacks.C126_ising_grid`, `Verif.Callbacks.C126_heisenberg_grid`, `Verif.Callbacks.C126_heisenberg_chain`, `Verif.Callbacks.C126_violated`, `Verif.Callbacks.C126_violated_near`, `Verif.Optimizers.SR.C127_direction`, `Verif.Optimizers.SR.C127_exact`, `Verif.Optimizers.SR.C127_violated_jvp`, `Verif.Net.Backprop.C128_gradient`, `Verif.Net.Backprop.C128_tanh`, `Verif.Net.Backprop.C128_zero`, `Verif.Optimizers.Grad.C129_gradient`, `Verif.Optimizers.Grad.C129_holomorphic`, `Verif.Optimizers.Grad.C129_descent`, `Verif.Optimizers.Grad.C129_product`, `Verif.Optimizers.SR.C130_gradient_partial`, `Verif.Optimizers.SR.C130_step_partial`, `Verif.Optimizers.SR.C130_violated`, `Verif.Optimizers.SR.C130_jvp_partial`, `Verif.Ensemble.C131_ising_chain`, `Verif.Ensemble.C131_ising_grid`, `Verif.Ensemble.C131_heisenberg_chain`, `Verif.Ensemble.C131_heisenberg_grid`, `Verif.Ensemble.C131_j1j2`, `Verif.Ensemble.C131_energy_ising_chain`, `Verif.Ensemble.C131_energy_ising_grid`, `Verif.Ensemble.C131_energy_heisenberg_chain`, `Verif.Ensemble.C131_energy_heisenberg_grid`, `Verif.Ensemble.C132_ising_chain_partial`, `Verif.Ensemble.C132_ising_grid_partial`, `Verif.Ensemble.C132_ising_square_partial`, `Verif.Ensemble.C132_heisenberg_chain_partial`, `Verif.Ensemble.C132_heisenberg_grid_partial`, `Verif.Ensemble.C132_heisenberg_square_partial`, `Verif.Ensemble.C132_no_loss_ising`, `Verif.Ensemble.C132_no_loss_heisenberg`, `Verif.Ensemble.C132_violated_phases`, `Verif.Ensemble.C132_violated_without_rotation`, `Verif.Ensemble.C132_violated_average`, `Verif.Optimizers.SR.C133_step`, `Verif.Optimizers.SR.C133_ising_chain_partial`, `Verif.Optimizers.SR.C133_ising_grid_partial`, `Verif.Optimizers.SR.C133_heisenberg_grid_partial`, `Verif.Optimizers.SR.C133_heisenberg_chain_partial`, `Verif.Optimizers.SR.C133_violated_single_sample`, `Verif.Optimizers.SR.C133_training`, `Verif.Optimizers.SR.C133_rests`, `Verif.Optimizers.SR.C133_exact`, `Verif.Metropolis.C134_exchange_heisenberg_grid`, `Verif.Metropolis.C134_exchange_heisenberg_chain`, `Verif.Metropolis.C134_hamiltonian_heisenberg_grid`, `Verif.Metropolis.C134_hamiltonian_heisenberg_chain`, `Verif.Metropolis.C134_uniform`, `Verif.Metropolis.C134_local_partial`, `Verif.Metropolis.C134_hamiltonian_ising_chain`, `Verif.Metropolis.C134_hamiltonian_ising_grid`, `Verif.Metropolis.C134_estimators`, `Verif.Metropolis.C134_violated_exchange_ising`, `Verif.Metropolis.C134_violated_local`, `Verif.Net.C135_work`, `Verif.Machines.C135_real`, `Verif.Machines.C135_complex`, `Verif.Machines.C135_2D`, `Verif.Energy.C136_ising_chain`, `Verif.Energy.C136_ising_grid`, `Verif.Energy.C136_heisenberg_grid`, `Verif.Energy.C136_heisenberg_chain`, `Verif.Energy.C136_independent`, `Verif.Energy.C136_frequencies`, `Verif.Energy.C136_rate`, `Verif.Autoregressive.C136_autoregressive`, `Verif.Net.Arguments.C137_partial`, `Verif.Net.Arguments.C137_length`, `Verif.Net.Arguments.C137_idempotent`, `Verif.Net.Arguments.C137_padding`, `Verif.Net.Histograms.C138_histograms`, `Verif.Metropolis.C139_batch`, `Verif.Metropolis.C139_uniform`, `Verif.Metropolis.C139_local_partial`, `Verif.Metropolis.C139_exchange`, `Verif.Metropolis.C139_ising_chain`, `Verif.Metropolis.C139_ising_grid`, `Verif.Metropolis.C139_heisenberg_grid`, `Verif.Metropolis.C139_heisenberg_chain`, `Verif.Metropolis.C139_energy_heisenberg_grid`, `Verif.Metropolis.C139_energy_heisenberg_chain`, `Verif.Metropolis.C139_training_heisenberg_grid`, `Verif.Metropolis.C139_training_heisenberg_chain`, `Verif.Metropolis.C139_violated_local`, `Verif.Metropolis.C139_magnetisations`, `Verif.Metropolis.C139_magnetisations_sector`, `Verif.Autoregressive.C140_batches`, `Verif.Autoregressive.C140_numpy`, `Verif.Autoregressive.C140_log_errors`, `Verif.Autoregressive.C140_averages`, `Verif.Autoregressive.C140_norm`, `Verif.Ensemble.C141_phases_ising_chain`, `Verif.Ensemble.C141_phases_ising_grid`, `Verif.Ensemble.C141_phases_heisenberg_chain`, `Verif.Ensemble.C141_phases_heisenberg_grid`, `Verif.Ensemble.C141_lowest_ising_chain`, `Verif.Ensemble.C141_lowest_ising_grid`, `Verif.Ensemble.C141_lowest_heisenberg_chain`, `Verif.Ensemble.C141_lowest_heisenberg_grid`, `Verif.Ensemble.C141_violated_without_rotation`, `Verif.Ensemble.C141_needs_field`, `Verif.Ensemble.C142_square`, `Verif.Ensemble.C142_base`, `Verif.Ensemble.C142_lattice`, `Verif.Ensemble.C142_repeat`, `Verif.Ensemble.C142_idempotent`, `Verif.Training.C143_ising_chain`, `Verif.Training.C143_ising_grid`, `Verif.Training.C143_heisenberg_grid`, `Verif.Training.C143_heisenberg_chain`, `Verif.Training.C143_needs_small_rate`, `Verif.Ensemble.C144_ising_chain`, `Verif.Ensemble.C144_ising_grid`, `Verif.Ensemble.C144_heisenberg_chain`, `Verif.Ensemble.C144_heisenberg_grid`, `Verif.Ensemble.C144_symmetrised_ising`, `Verif.Ensemble.C144_symmetrised_heisenberg`, `Verif.Training.C145_any_ising_chain`, `Verif.Training.C145_any_ising_grid`, `Verif.Training.C145_any_heisenberg_grid`, `Verif.Training.C145_any_heisenberg_chain`, `Verif.Training.C145_ising_chain`, `Verif.Training.C145_ising_grid`, `Verif.Training.C145_heisenberg_grid`, `Verif.Training.C145_heisenberg_chain`, `Verif.Training.C145_noise_bounded`, `Verif.Autoregressive.C146_every_wave`, `Verif.Autoregressive.C146_no_zeros`, `Verif.Autoregressive.C146_approach`, `Verif.Autoregressive.C146_ising_chain`, `Verif.Autoregressive.C146_ising_grid`, `Verif.Autoregressive.C146_heisenberg_chain`, `Verif.Autoregressive.C146_heisenberg_grid`, `Verif.Autoregressive.C146_ground_ising_chain`, `Verif.Autoregressive.C146_ground_ising_grid`, `Verif.Ensemble.C147_ising_chain`, `Verif.Ensemble.C147_ising_grid`, `Verif.Ensemble.C147_heisenberg_chain`, `Verif.Ensemble.C147_heisenberg_grid`, `Verif.Ensemble.C147_samples`, `Verif.Ensemble.C147_needs_field`, `Verif.Energy.C148_ising_chain`, `Verif.Energy.C148_ising_grid`, `Verif.Energy.C148_heisenberg_grid`, `Verif.Energy.C148_heisenberg_chain`, `Verif.RBM.C149_rbm`, `Verif.RBM.C149_sym`, `Verif.RBM.C149_energy_chain`, `Verif.RBM.C149_energy_grid`, `Verif.RBM.C149_ground`, `Verif.Metropolis.C150_uniform`, `Verif.Metropolis.C150_local`, `Verif.Metropolis.C150_exchange`, `Verif.Metropolis.C150_ising_chain`, `Verif.Metropolis.C150_ising_grid`, `Verif.Metropolis.C150_heisenberg_grid`, `Verif.Metropolis.C150_heisenberg_chain`, `Verif.Metropolis.C150_weights`, `Verif.Optimizers.SR.C151_settles`, `Verif.Optimizers.SR.C151_goes_on`, `Verif.Optimizers.SR.C151_linear`, `Verif.Metropolis.C152_global`, `Verif.Metropolis.C152_global_sharp`, `Verif.Metropolis.C152_uniform`, `Verif.Metropolis.C152_uniform_sharp`, `Verif.Metropolis.C152_enough`, `Verif.Energy.C153_ising_chain`, `Verif.Energy.C153_ising_grid`, `Verif.Energy.C153_heisenberg_grid`, `Verif.Energy.C153_heisenberg_chain`, `Verif.Energy.C153_enough`, `Verif.Autoregressive.C153_autoregressive`, `Verif.Energy.C154_autoregressive`, `Verif.Energy.C154_wave_function`, `Verif.Energy.C154_exact`, `Verif.Energy.C154_magnetisations`, `Verif.Energy.C154_ising_chain`, `Verif.Energy.C154_ising_grid`, `Verif.Energy.C154_heisenberg_grid`, `Verif.Energy.C154_heisenberg_chain`, `Verif.Net.Categories.C154_fast`, `Verif.Machines.C154_fast_real`, `Verif.Machines.C154_fast_complex`, `Verif.Machines.C154_fast_2D`, `Verif.Callbacks.C155_ising_chain`, `Verif.Callbacks.C155_ising_grid`, `Verif.Callbacks.C155_heisenberg_grid`, `Verif.Callbacks.C155_heisenberg_chain`, `Verif.Ensemble.C156_run_ising_partial`, `Verif.Ensemble.C156_run_heisenberg_partial`, `Verif.Ensemble.C156_train_ising_partial`, `Verif.Ensemble.C156_train_heisenberg_partial`, `Verif.Ensemble.C156_violated_sigma`, `Verif.J1J2.Op.C157_local_energies`, `Verif.J1J2.Op.C157_unbiased_energy`, `Verif.J1J2.Op.C157_rarely_far`, `Verif.J1J2.Op.C157_any_sampler`, `Verif.J1J2.Op.C157_unbiased_gradient`, `Verif.J1J2.Op.C157_sgd_learns`, `Verif.J1J2.Op.C157_evaluation`, `Verif.J1J2.Op.C157_exact_tables`, `Verif.J1J2.Op.C157_exact_energy`, `Verif.Training.C158_gradient_ising_chain`, `Verif.Training.C158_gradient_ising_grid`, `Verif.Training.C158_gradient_heisenberg_grid`, `Verif.Training.C158_gradient_heisenberg_chain`, `Verif.Training.C158_gradient_j1j2`, `Verif.Training.C158_eigenstate`, `Verif.Training.C158_sgd_ising_chain`, `Verif.Training.C158_sgd_ising_grid`, `Verif.Training.C158_sgd_heisenberg_grid`, `Verif.Training.C158_sgd_heisenberg_chain`, `Verif.Training.C158_sgd_j1j2`, `Verif.Ensemble.C159_evaluation_ising`, `Verif.Ensemble.C159_evaluation_heisenberg`, `Verif.Ensemble.C159_evaluation_j1j2`, `Verif.Ensemble.C159_gradient_ising`, `Verif.Ensemble.C159_gradient_heisenberg`, `Verif.Ensemble.C159_gradient_j1j2`, `Verif.Ensemble.C160_ising_chain_partial`, `Verif.Ensemble.C160_ising_grid`, `Verif.Ensemble.C160_heisenberg_chain`, `Verif.Ensemble.C160_heisenberg_grid`, `Verif.Ensemble.C160_j1j2`, `Verif.Ensemble.C160_violated_one_site`, `Verif.Energy.C161_any_operator`, `Verif.Energy.C161_ising_chain`, `Verif.Energy.C161_ising_grid`, `Verif.Energy.C161_heisenberg_grid`, `Verif.Energy.C161_heisenberg_chain`, `Verif.Ensemble.C162_ising`, `Verif.Ensemble.C162_heisenberg`, `Verif.Ensemble.C162_j1j2`, `Verif.Ensemble.C163_symmetrised_ising`, `Verif.Ensemble.C163_symmetrised_heisenberg`, `Verif.Ensemble.C163_symmetrised_j1j2`, `Verif.Training.C163_ising_chain`, `Verif.Training.C163_ising_grid`, `Verif.Training.C163_heisenberg_grid`, `Verif.Training.C163_heisenberg_chain`, `Verif.Training.C163_j1j2`, `Verif.Training.C164_ising_chain`, `Verif.Training.C164_ising_grid`, `Verif.Training.C164_heisenberg_grid`, `Verif.Training.C164_heisenberg_chain`, `Verif.Training.C164_j1j2`, `Verif.Training.C165_mini_batches`, `Verif.Training.C165_steps`, `Verif.Training.C165_stages`, `Verif.Training.C165_unequal_rates`, `Verif.Training.C166_linear_ising_chain`, `Verif.Training.C166_linear_ising_grid`, `Verif.Training.C166_unit_ising_chain`, `Verif.Training.C166_unit_ising_grid`, `Verif.Training.C166_linear_j1j2`, `Verif.Metropolis.C167_symmetric_complete`, `Verif.Metropolis.C167_hamiltonian_complete`, `Verif.Metropolis.C167_metropolis`, `Verif.Metropolis.C167_symmetric`, `Verif.Metropolis.C167_hamiltonian`, `Verif.Autoregressive.C167_autoregressive`, `Verif.Optimizers.SR.C168_same_training`, `Verif.Optimizers.SR.C168_shift_matters`, `Verif.Experiment.C169_ising_chain`, `Verif.Experiment.C169_ising_grid`, `Verif.Experiment.C169_heisenberg_chain`, `Verif.Experiment.C169_heisenberg_grid`, `Verif.Experiment.C169_attained`, `Verif.Experiment.C169_attained_ising`, `Verif.Experiment.C169_j1j2`, `Verif.Symmetry.TotalSpin.C170_heisenberg_grid`, `Verif.Symmetry.TotalSpin.C170_heisenberg_chain`, `Verif.Symmetry.TotalSpin.C170_j1j2`, `Verif.Symmetry.TotalSpin.C170_definite_heisenberg`, `Verif.Symmetry.TotalSpin.C170_definite_j1j2`, `Verif.Symmetry.TotalSpin.C170_rotated`, `Verif.Training.C171_field_chain`, `Verif.Training.C171_field_grid`, `Verif.Training.C171_coupling_chain`, `Verif.Training.C171_coupling_grid`, `Verif.Training.C171_odd`, `Verif.Experiment.C172_exact_chain`, `Verif.Experiment.C172_exact_grid`, `Verif.Experiment.C172_ground_chain`, `Verif.Experiment.C172_ground_grid`, `Verif.Experiment.C172_j1j2`
* `Quot.sound`, `propext`: `Verif.Energy.Exact.C22_accepted`, `Verif.Optimizers.C31_join_of_split`, `Verif.Optimizers.C31_split_of_join`, `Verif.Optimizers.C31_too_short_refused`, `Verif.Net.C41_violated_periodic`, `Verif.Net.C41_violated_oneHot`, `Verif.Net.C41_violated_gather_channels`, `Verif.Net.C41_violated_concat_channels`, `Verif.Net.C42_violated_gather`, `Verif.Net.C42_violated_concat`, `Verif.Net.C42_violated_concat_value`, `Verif.Net.C42_violated_reshape`, `Verif.Net.C42_violated_reshape_unknown`, `Verif.Net.C42_reshape_partial`, `Verif.Sizes.C45_mini_at_most_batch`, `Verif.Sizes.C45_copy`, `Verif.Sizes.C45_fast_iff`, `Verif.Stages.C60_resume`, `Verif.Stages.C60_epochs`, `Verif.Stages.C72_violated`, `Verif.Stages.C73_violated`, `Verif.Stages.C73_at_end_partial`, `Verif.Jacobian.C75_violated_dilation_shape`, `Verif.TensorBoard.C93_epoch`, `Verif.TensorBoard.C94_violated_zero`, `Verif.Callbacks.C99_every_cycle`, `Verif.Training.Queue.C117_violated_queue`, `Verif.Training.Queue.C117_violated_unbounded`, `Verif.Training.Queue.C117_violated_exact_views`, `Verif.Net.C135_reads`, `Verif.Net.Arguments.C137_violated`
* `propext`: `Verif.Ordering.C04_rejects`, `Verif.Sizes.C45_violated_fast`, `Verif.Metropolis.C50_start`, `Verif.Checkpoint.C59_violated_mixed`, `Verif.Checkpoint.C59_between_partial`, `Verif.Training.C91_runners_aligned`, `Verif.Training.C92_violated`, `Verif.TensorBoard.C94_violated_learning_phase`, `Verif.TensorBoard.C94_needs_data`, `Verif.Workers.C121_mini_batch_size`, `Verif.Net.Arguments.C137_violated_numpy`
