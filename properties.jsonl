{"id": "C01", "title": "State numbering is a bijection", "statement": "Converting a state number to spins and back gives the same number, and converting spins to a number and back gives the same spins, both in the +1/-1 and in the 0/1 encoding. The scalar and the array versions of the conversions agree entry by entry. Hence the table of states used by exact enumeration lists every spin configuration exactly once.", "quantifier": "every number of bits, every state number below 2^bits, every list of spins (array version: every bit count for which the int32 result type does not wrap; the wrap itself is part of the claim)", "why_tests_cant": "Tests can only try a few widths; the claim is about all 2^n codes for all n, and the int32 wrap only shows at widths no test allocates.", "anchors": ["src/flowket/exact/utils.py: decimal_to_binary, binary_to_decimal, binary_array_to_decimal_array, decimal_array_to_binary_array"]}
{"id": "C02", "title": "Exact amplitude vector does not depend on the evaluation batch size", "statement": "to_log_wave_function_vector returns, at position k, the value the model assigns to the k-th spin configuration, whatever batch size was asked for; and turning a vector into a machine with vector_to_machine and reading it back returns the vector. A batch size that does not divide the number of states is reported as an error and never returns a wrong vector.", "quantifier": "every model (any function from configurations to log-amplitudes), every number of spins, every batch size", "why_tests_cant": "The batch size and the vector range over unbounded sets, and the failing batch sizes are exactly the ones not powers of two, which test suites do not try.", "anchors": ["src/flowket/exact/utils.py: to_log_wave_function_vector, vector_to_machine"]}
{"id": "C03", "title": "Raster ordering visits every site once, in reading order", "statement": "raster(shape) yields every multi-index of the shape exactly once and in lexicographic order, so its k-th element is the site whose row-major flat index is k.", "quantifier": "every shape of every rank", "why_tests_cant": "Unbounded number of ranks and sizes.", "anchors": ["src/flowket/deepar/ordering/raster.py: raster"]}
{"id": "C04", "title": "Zigzag ordering is a Hamiltonian path on the square", "statement": "zigzag((n, n)) visits every site of the n x n grid exactly once, starts at the corner and moves to a touching site (also diagonally) at every step; non-square input is rejected.", "quantifier": "every n (the 1 x 1 grid is a counterexample in the code: it yields a site outside the grid)", "why_tests_cant": "The path is built by a loop with turning rules; whether it ever leaves the grid or revisits a site for some n needs an invariant.", "anchors": ["src/flowket/deepar/ordering/zigzag.py: zigzag", "src/flowket/deepar/ordering/moves.py"]}
{"id": "C05", "title": "Flat ordering and its inverse undo each other", "statement": "For any ordering that lists every site of a shape once, gathering along to_flat_ordering and then along to_flat_inverse_ordering restores the original array, and the other way round.", "quantifier": "every shape, every ordering of its sites, every array", "why_tests_cant": "There are (number of sites)! orderings.", "anchors": ["src/flowket/deepar/ordering/flat.py: to_flat_ordering, to_flat_inverse_ordering", "src/flowket/deepar/layers/gathering.py: GatherLayer"]}
{"id": "C06", "title": "Ising.find_conn is the transverse-field Ising Hamiltonian", "statement": "For every wave function psi and every configuration s, the sum over the returned connections of matrix element times psi(connection) equals (H psi)(s) with H = -j * sum over nearest-neighbour bonds of Z Z - h * sum over sites of X, where the bonds are the grid bonds (with the wrap-around bonds when pbc is set, dimensions of size one carrying no bond in two dimensions).", "quantifier": "every 1-D and 2-D lattice size, both boundary conditions, every field and coupling, every batch of configurations, every wave function", "why_tests_cant": "The claim is about all sizes and all 2^N configurations; tests compare a handful of small lattices.", "anchors": ["src/flowket/operators/ising.py: Ising.find_conn", "src/flowket/operators/operator.py"]}
{"id": "C07", "title": "Heisenberg.find_conn is the Heisenberg Hamiltonian", "statement": "Without the unitary rotation, summing matrix element times psi(connection) over the returned connections gives (H psi)(s) with H = sum over nearest-neighbour bonds of X X + Y Y + Z Z in Pauli matrices. With the rotation the sign of the X X + Y Y part is reversed.", "quantifier": "every 1-D and 2-D lattice size, both boundary conditions, every batch of configurations, every wave function", "why_tests_cant": "All sizes, all configurations, all wave functions.", "anchors": ["src/flowket/operators/heisenberg.py: Heisenberg, HeisenbergFindConn"]}
{"id": "C08", "title": "The unitary rotation does not change the physics", "statement": "The Heisenberg operator with unitary_rotation=True is the operator without it conjugated by a diagonal sign change, so both have the same spectrum and energies agree after a gauge change of the wave function.", "quantifier": "every lattice on which the rotation is meaningful: open boundaries, or even lengths. On periodic lattices with an odd length the claim is false (counterexample: ring of three sites) although the flag defaults to True and nothing rejects it", "why_tests_cant": "Statement over all wave functions and all sizes; the failing lattices give plausible but wrong energies.", "anchors": ["src/flowket/operators/heisenberg.py: Heisenberg.__init__ (off_diag)"]}
{"id": "C09", "title": "Connection lists keep their contract", "statement": "find_conn returns exactly max_number_of_local_connections rows; row zero is the configuration itself and is marked used; every row holds a configuration of plus and minus ones; a row that is not marked used has matrix element zero.", "quantifier": "every lattice size, boundary condition, batch, and (for Heisenberg) every history of earlier find_conn calls", "why_tests_cant": "The estimators silently divide by row zero and index fixed-size arrays; a single violating configuration corrupts energies.", "anchors": ["src/flowket/operators/ising.py: Ising.find_conn", "src/flowket/operators/heisenberg.py: HeisenbergFindConn.find_conn, calc_conn_and_mel"]}
{"id": "C10", "title": "Which configurations are connected", "statement": "Every used Heisenberg connection has the same total magnetization as the sample, and differs from it on no site or exactly on one nearest-neighbour pair that is exchanged. Every off-diagonal Ising connection differs from the sample on exactly one site, and each site occurs in exactly one of them.", "quantifier": "every lattice size, boundary condition, configuration", "why_tests_cant": "All configurations and sizes.", "anchors": ["src/flowket/operators/heisenberg.py: calc_conn_and_mel", "src/flowket/operators/ising.py: find_conn"]}
{"id": "C11", "title": "Operators are Hermitian", "statement": "The matrix element from s to t computed from find_conn(s) equals the one from t to s computed from find_conn(t): the represented matrix is real symmetric.", "quantifier": "every pair of configurations, every lattice size and boundary condition, Ising and Heisenberg", "why_tests_cant": "All pairs of configurations; real energies and the gradient formula rest on it.", "anchors": ["src/flowket/operators/ising.py: find_conn", "src/flowket/operators/heisenberg.py: find_conn"]}
{"id": "C12", "title": "find_conn answers do not depend on earlier calls", "statement": "The values a Heisenberg find_conn call returns are a function of its argument only, although work arrays are cached and reused; and results obtained from an earlier call stay valid after later calls.", "quantifier": "every history of find_conn calls with any batch sizes and configurations (the second half is false in the code: a later call with the same batch size overwrites the arrays returned earlier)", "why_tests_cant": "Depends on the whole call history and on aliasing.", "anchors": ["src/flowket/operators/heisenberg.py: Heisenberg.find_conn, HeisenbergFindConn"]}
{"id": "C13", "title": "find_conn leaves the operator description unchanged", "statement": "Asking an operator for connections does not change its hilbert_state_shape, so random_states, local-value reshaping and later calls keep using the shape the user gave.", "quantifier": "every operator and every history of calls (false in the code for one-dimensional Heisenberg operators: the shape gains a trailing 1 after the first call)", "why_tests_cant": "History-dependent side effect.", "anchors": ["src/flowket/operators/heisenberg.py: HeisenbergFindConn.__init__ lines 58-59", "src/flowket/operators/operator.py: random_states"]}
{"id": "C14", "title": "Heisenberg.random_states stays in the requested sector", "statement": "random_states(n) returns n configurations of plus and minus ones whose total magnetization is total_sz.", "quantifier": "every lattice size, every total_sz, every random shuffle (false in the code unless total_sz is 0 and the number of sites is even: any other request raises)", "why_tests_cant": "Quantifies over shuffles and sectors; tests use the default sector only.", "anchors": ["src/flowket/operators/heisenberg.py: Heisenberg.random_states"]}
{"id": "C15", "title": "J1-J2 bond list is the square lattice with diagonals", "statement": "The coloured edge list built for the J1-J2 model contains every nearest-neighbour bond once with colour 1 and every diagonal bond once with colour 2, and nothing else, for open and periodic boundaries.", "quantifier": "every lattice height and width (periodic: at least three in both directions, below that wrapped bonds coincide)", "why_tests_cant": "The edge list is written by hand-split loop cases for borders and corners; only an argument over all sizes covers the corners.", "anchors": ["src/flowket/operators/j1j2.py: j1j2_two_dim_netket_operator"]}
{"id": "C16", "title": "Padding of NetKet connection lists is neutral", "statement": "The wrapper around a NetKet operator returns, for each sample, the NetKet connections followed by padding with matrix element zero; the number of rows never shrinks between calls and is large enough for every sample; rows marked used are exactly those with nonzero element (plus row zero) when unused rows are tracked. Sums over connections therefore equal the NetKet sums.", "quantifier": "every underlying operator, every batch, every history of calls", "why_tests_cant": "History-dependent row count and arbitrary third-party connection lists.", "anchors": ["src/flowket/operators/netket_operator.py: NetketOperatorWrapper.new_netket_find_conn"]}
{"id": "C17", "title": "Both local-value strategies give the same numbers", "statement": "The strategy for sparse connection lists and the one for dense lists return the same local values whenever row zero is used and unused rows have zero element, so the 95% threshold that picks one has no effect on results.", "quantifier": "every operator output satisfying the connection contract, every wave function, every batch", "why_tests_cant": "The branch taken depends on the data; tests compare on one operator.", "anchors": ["src/flowket/observables/monte_carlo/operator.py: Observable.local_values and both helpers"]}
{"id": "C18", "title": "Local energies are (H psi)/psi and average to the energy", "statement": "Observable.local_values returns (H psi)(s)/psi(s) for every sample, and the |psi|^2-weighted mean of these values over all configurations is the Rayleigh quotient; if psi is an eigenvector every local value equals the eigenvalue, so the reported variance is zero.", "quantifier": "every wave function without zeros (given by its logarithm), every batch, Ising and Heisenberg on every lattice", "why_tests_cant": "All wave functions and all sample batches.", "anchors": ["src/flowket/observables/monte_carlo/operator.py", "src/flowket/observables/monte_carlo/observable.py: BaseObservable.estimate"]}
{"id": "C19", "title": "Exact probabilities", "statement": "ExactVariational.probs is |psi(s)|^2 divided by the sum over all configurations: non-negative, summing to one, unchanged if the network output is shifted by a constant, and computed without depending on the max-shift used in the log-sum-exp.", "quantifier": "every log-amplitude vector", "why_tests_cant": "All real vectors; tests check one network.", "anchors": ["src/flowket/optimization/exact_variational.py: _update_wave_function_arrays", "src/flowket/exact/utils.py: complex_norm_log_fsum_exp, log_fsum_exp"]}
{"id": "C20", "title": "Exact energy is the Rayleigh quotient and bounds the ground energy", "statement": "For a Hermitian operator the energy reported by ExactVariational is <psi|H|psi>/<psi|psi>, is real, and is never below any lower bound of the spectrum.", "quantifier": "every Hermitian operator given by its connection lists, every wave function, every number of spins", "why_tests_cant": "All wave functions; the variational principle is the reason users trust the number.", "anchors": ["src/flowket/optimization/exact_variational.py: ExactObservable.update_local_energy"]}
{"id": "C21", "title": "Exact training targets are the energy gradient", "statement": "The coefficients yielded with the states sum to zero, and the derivative of the energy along any change of the network parameters equals the sum of the per-sample loss 2*Re(coefficient * d log psi). Gradient descent on the loss is gradient descent on the energy.", "quantifier": "every Hermitian operator, every differentiable family of log-amplitudes", "why_tests_cant": "A statement about derivatives for all networks; numerical checks only sample directions.", "anchors": ["src/flowket/optimization/exact_variational.py: _update_local_energy, to_generator", "src/flowket/optimization/loss.py: loss_for_energy_minimization"]}
{"id": "C22", "title": "Exact results do not depend on the batch size", "statement": "A batch size is accepted exactly when it is at least the number of states or divides it; for all accepted batch sizes probabilities, energy, variance and gradient coefficients are the same.", "quantifier": "every batch size, operator and wave function", "why_tests_cant": "All pairs of batch sizes.", "anchors": ["src/flowket/optimization/exact_variational.py: _set_batch_size, update_local_energy, _update_wave_function_arrays"]}
{"id": "C23", "title": "Exact generator covers each state once per refresh", "statement": "The generator refreshes energies exactly once per cycle, at the start; within a cycle every configuration is yielded exactly once, each with the coefficient computed at that refresh.", "quantifier": "every number of generator steps, every accepted batch size, every way the network changes between steps", "why_tests_cant": "Unbounded training histories.", "anchors": ["src/flowket/optimization/exact_variational.py: to_generator, machine_updated"]}
{"id": "C24", "title": "Monte Carlo training targets", "statement": "The loss coefficients of a batch sum to zero, are conj(local energy - mean)/batch size, and the exact coefficients are their expectation: probability times the centred conjugate local energy.", "quantifier": "every batch and wave function", "why_tests_cant": "All batches; ties the two training modes together.", "anchors": ["src/flowket/optimization/variational_monte_carlo.py: loss_coefficients, next_batch", "src/flowket/optimization/exact_variational.py"]}
{"id": "C25", "title": "Mini-batches partition the batch", "statement": "Successive mini-batches are consecutive slices that together give every sample of a batch exactly once, a new batch is drawn exactly when the old one is used up, and the number of mini-batches per batch equals the advertised update_params_frequency.", "quantifier": "every number of steps, every batch and mini-batch size (false in the code when the mini-batch size does not divide the batch size: the tail is dropped and the advertised frequency is one too large)", "why_tests_cant": "Unbounded step sequences and all size pairs.", "anchors": ["src/flowket/optimization/mini_batch_generator.py: MiniBatchGenerator"]}
{"id": "C26", "title": "Changing the sampler takes effect at once", "statement": "After set_sampler or set_batch_size the next mini-batch comes from a freshly drawn batch; no sample drawn before the change is ever returned.", "quantifier": "every history of next and set calls", "why_tests_cant": "History-dependent.", "anchors": ["src/flowket/optimization/mini_batch_generator.py: set_batch_size, next_mini_batch_size", "src/flowket/optimization/variational_monte_carlo.py: set_sampler"]}
{"id": "C27", "title": "Gradient accumulation equals large-batch training", "statement": "With update frequency f, feeding gradients g1..g(nf) leaves the parameters exactly as the wrapped optimizer would after n steps on the sums (or means) of consecutive groups of f; between updates parameters do not move, so all gradients of a group are taken at the same parameters.", "quantifier": "every wrapped optimizer, every gradient sequence, every frequency at least one, both sum and mean mode", "why_tests_cant": "All optimizers and all histories.", "anchors": ["src/flowket/optimizers/accumulate_gradient_optimizer.py: updated_get_updates"]}
{"id": "C28", "title": "Changing the accumulation frequency during training", "statement": "After set_update_params_frequency(k) every further parameter update uses exactly k gradients.", "quantifier": "every history of steps and frequency changes (false in the code: the step counter is not reset, so the first update after a change can use fewer or more gradients)", "why_tests_cant": "History-dependent.", "anchors": ["src/flowket/optimizers/accumulate_gradient_optimizer.py: set_update_params_frequency, update_switch"]}
{"id": "C29", "title": "Weight averaging is a proper average", "statement": "After t updates set_weights_ema replaces the weights by a convex combination of the weights after each update, with weights proportional to decay^(t-i); constant weights stay constant; calling it twice changes nothing more. Before the first update there is nothing to average.", "quantifier": "every decay in (0,1), every weight history", "why_tests_cant": "All histories; the bias correction is only right for every t by an induction.", "anchors": ["src/flowket/optimizers/accumulate_gradient_optimizer.py: set_weights_ema, update_function"]}
{"id": "C30", "title": "Complex update moves the complex weight by the complex step", "statement": "apply_complex_gradient changes every complex weight w of the model to w + lr*g where g is the corresponding block of the flat complex gradient, although real and imaginary parts are stored separately with a sign flip.", "quantifier": "every list of weight shapes, every gradient", "why_tests_cant": "All shapes and orders of weights; sign and conjugation errors are easy.", "anchors": ["src/flowket/optimizers/complex_values_optimizer.py: apply_complex_gradient", "src/flowket/layers/complex/base_layer.py: add_complex_weight", "src/flowket/optimizers/utils.py: column_to_tensors"]}
{"id": "C31", "title": "Splitting and joining flat vectors are inverse", "statement": "column_to_tensors splits a column into tensors of the template shapes, tensors_to_column joins them; composing in either order is the identity.", "quantifier": "every list of shapes and every column of matching length", "why_tests_cant": "All shape lists.", "anchors": ["src/flowket/optimizers/utils.py: column_to_tensors, tensors_to_column"]}
{"id": "C32", "title": "Stochastic reconfiguration solves a well-posed system", "statement": "The covariance matrix built from the centred Jacobian is Hermitian and positive semidefinite, so with a positive diagonal shift the system has exactly one solution; the matrix-free product used by the iterative solver equals multiplication by that matrix, also when computed from the uncentred Jacobian.", "quantifier": "every Jacobian, batch size, number of parameters, positive shift, vector", "why_tests_cant": "All matrices.", "anchors": ["src/flowket/optimizers/stochastic_reconfiguration/optimizer.py"]}
{"id": "C33", "title": "Conjugate gradient solver", "statement": "At every iteration the stored residual is rhs - A x; the loop stops only if the residual norm is at most tol times the initial one or the iteration limit is reached; for a Hermitian positive definite operator, without an iteration limit, it reaches the exact solution after at most N steps.", "quantifier": "every linear operator, right-hand side, start vector, tolerance and iteration limit", "why_tests_cant": "All systems and all iteration counts.", "anchors": ["src/flowket/optimizers/stochastic_reconfiguration/linear_equations.py: conjugate_gradient"]}
{"id": "C34", "title": "Log-space normalisation", "statement": "NormalizeInLogSpace(norm_type=t) returns values whose exponentials have t-norm one over the category axis, does not change phases, and changes all categories by the same amount.", "quantifier": "every real or complex vector, every positive norm type", "why_tests_cant": "All vectors.", "anchors": ["src/flowket/deepar/layers/autoregressive.py: normalize_in_log_space"]}
{"id": "C35", "title": "Autoregressive machines are normalised wave functions", "statement": "If the conditional at each site depends only on sites earlier in some ordering, the sum over all configurations of |psi|^2 is exactly one.", "quantifier": "every network with that dependency structure, every ordering, every number of sites", "why_tests_cant": "The sum has 2^N terms and the statement ranges over all weights.", "anchors": ["src/flowket/machines/abstract_machine.py: AutoNormalizedAutoregressiveMachine, AutoregressiveMachine", "src/flowket/deepar/layers/autoregressive.py: combine_autoregressive_conditionals", "src/flowket/deepar/layers/one_hot.py"]}
{"id": "C36", "title": "AutoregressiveSampler samples from |psi|^2", "statement": "With the plus/minus-one convention the sampler returns configuration s with probability equal to the product of the conditionals, i.e. |psi(s)|^2, independently for each batch row, if the ordering passed is compatible with the network.", "quantifier": "every network, ordering, lattice of one or two dimensions, batch size", "why_tests_cant": "A statement about distributions.", "anchors": ["src/flowket/deepar/samplers/autoregressive.py: AutoregressiveSampler.__next__", "src/flowket/samplers/__init__.py"]}
{"id": "C37", "title": "Zero-based sampling agrees with the zero-based encoding", "statement": "With zero_base=True (the default) AutoregressiveSampler assigns value k with the probability the network gives to category k, the category ToOneHot assigns to the value k, like FastAutoregressiveSampler does.", "quantifier": "every network (false in the code: value 1 is drawn with the probability of category 0)", "why_tests_cant": "Only a distributional comparison shows the inversion; shapes and value ranges look right.", "anchors": ["src/flowket/deepar/samplers/autoregressive.py: __next__ lines 37, 42", "src/flowket/deepar/layers/one_hot.py: to_one_hot", "src/flowket/deepar/graph_analysis/sampling_topology.py"]}
{"id": "C38", "title": "1-D convolutional machine is autoregressive", "statement": "The conditional at site i computed by SimpleConvNetAutoregressive1D (and its complex-valued version) depends only on sites before i.", "quantifier": "every depth, kernel size, number of channels, dilation setting, skip connections, weights, chain length, input", "why_tests_cant": "All architectures and weights; one leaked dependency breaks normalisation and sampling silently.", "anchors": ["src/flowket/machines/simple_conv_net_autoregressive_1D.py", "src/flowket/machines/complex_values_simple_conv_net_autoregressive_1D.py"]}
{"id": "C39", "title": "2-D convolutional machine is autoregressive", "statement": "The conditional at site (i,j) computed by ConvNetAutoregressive2D depends only on sites earlier in raster order. Even kernel sizes are rejected when the model is built.", "quantifier": "every depth, kernel size, width, weights, lattice, input", "why_tests_cant": "All architectures; the two-stack masking is subtle.", "anchors": ["src/flowket/machines/conv_net_autoregressive_2D.py"]}
{"id": "C40", "title": "Custom-ordering machine is autoregressive in that ordering", "statement": "SimpleCustomOrderingAutoregressive built with an ordering of the sites produces at every site a conditional that depends only on sites earlier in that ordering.", "quantifier": "every ordering of every lattice, every architecture setting, weights, input", "why_tests_cant": "All orderings.", "anchors": ["src/flowket/machines/simple_custom_autoregressive_ordering.py"]}
{"id": "C41", "title": "Per-location evaluation equals the full layer", "statement": "For every supported layer, evaluating the layer at one location from the values at its declared dependencies gives the same result as evaluating the whole layer and reading that location.", "quantifier": "every layer configuration in the supported set, every input tensor, every location", "why_tests_cant": "All shapes, strides, dilations, paddings; tests fix one configuration per layer.", "anchors": ["src/flowket/deepar/graph_analysis/", "src/flowket/deepar/layers/"]}
{"id": "C42", "title": "Negative axes and reshapes are resolved correctly", "statement": "Dependency analysis gives the right dependencies for GatherLayer and Concatenate with negative axes, and for Reshape layers including a -1 in the target shape.", "quantifier": "every axis and shape (false in the code: negative axes are mis-resolved, Reshape dependency queries raise because the method lacks the output_index parameter, and -1 in the target shape builds a wrong shape)", "why_tests_cant": "Needs all axis/rank combinations.", "anchors": ["src/flowket/deepar/graph_analysis/gathering_topology.py lines 13-14", "src/flowket/deepar/graph_analysis/concatenate_topology.py lines 25-28", "src/flowket/deepar/graph_analysis/reshape_topology.py"]}
{"id": "C43", "title": "Fast sampler is consistent with the full network", "statement": "FastAutoregressiveSampler returns samples x such that every x[site] is the draw made from the full network output at that site evaluated on x itself; such an x is unique for given random numbers, and equals what the plain site-by-site sampler returns with the same draws.", "quantifier": "every network of supported layers with acyclic dependency graph, every topological order, every sequence of random draws", "why_tests_cant": "All graphs and all topological orders the library may pick.", "anchors": ["src/flowket/deepar/samplers/fast_autoregressive.py: _build_sampling_function", "src/flowket/deepar/graph_analysis/dependency_graph.py", "src/flowket/deepar/samplers/autoregressive.py"]}
{"id": "C44", "title": "Models without autoregressive order are rejected", "statement": "assert_valid_probabilistic_model raises for every model whose conditionals depend cyclically on each other, and FastAutoregressiveSampler cannot be built for one.", "quantifier": "every network (the first half is false in the code: the topological sort is a lazy generator that is never consumed)", "why_tests_cant": "Ranges over all graphs; and the check is inert only through laziness.", "anchors": ["src/flowket/deepar/graph_analysis/dependency_graph.py: assert_valid_probabilistic_model", "src/flowket/deepar/samplers/fast_autoregressive.py line 64", "src/flowket/machines/abstract_machine.py: keras_conditional_wave_functions_to_wave_function"]}
{"id": "C45", "title": "Samplers return as many samples as advertised", "statement": "next(sampler) returns batch_size configurations for FastAutoregressiveSampler, Ensemble, Metropolis-Hastings and exact samplers; copying a sampler with a new batch size leaves the original unchanged; the mini-batch size never exceeds the batch size.", "quantifier": "every batch size, mini-batch size, ensemble (false in the code for FastAutoregressiveSampler when the mini-batch size does not divide the batch size)", "why_tests_cant": "All size pairs.", "anchors": ["src/flowket/deepar/samplers/base_sampler.py", "src/flowket/deepar/samplers/fast_autoregressive.py: __next__", "src/flowket/deepar/samplers/ensemble.py"]}
{"id": "C46", "title": "Metropolis batch bookkeeping", "statement": "Row c*samples_per_chain+i of a batch is the state of chain c after sample i; between consecutive rows of a chain exactly unused_sampels+1 sweeps happen; the acceptance ratio lies in [0,1] and equals accepted moves over proposed moves.", "quantifier": "every number of chains dividing the batch size, every unused_sampels, every run", "why_tests_cant": "All runs; convergence statistics rely on this layout.", "anchors": ["src/flowket/samplers/metropolis_hastings.py: MetropolisHastingsSampler.__next__, warn_up"]}
{"id": "C47", "title": "Metropolis keeps amplitude cache and chain in step", "statement": "At every point between sweeps the cached log-amplitude of each chain is the value the current machine gives to the current configuration of that chain.", "quantifier": "every machine, every history of machine changes followed by next calls, every sequence of proposals and uniform numbers", "why_tests_cant": "All histories; a stale cache biases the chain without any error.", "anchors": ["src/flowket/samplers/metropolis_hastings.py: machine_updated, _sweep"]}
{"id": "C48", "title": "Local, exchange and uniform Metropolis satisfy detailed balance", "statement": "For each of these samplers the one-sweep transition probabilities satisfy |psi(s)|^2 P(s,t) = |psi(t)|^2 P(t,s), so |psi|^2 is stationary.", "quantifier": "every wave function, every lattice shape, every pair of configurations", "why_tests_cant": "Statement about all transition probabilities.", "anchors": ["src/flowket/samplers/metropolis_hastings.py: MetropolisHastingsSymmetricProposal, Local, Exchange, Uniform"]}
{"id": "C49", "title": "Hamiltonian Metropolis satisfies detailed balance", "statement": "Proposing a uniformly chosen connected configuration and correcting by the ratio of connection counts gives detailed balance for |psi|^2 when connectivity is symmetric, in particular for Ising and Heisenberg on every lattice.", "quantifier": "every wave function, lattice, pair of configurations", "why_tests_cant": "All configurations; the correction factor is only visible when counts differ.", "anchors": ["src/flowket/samplers/metropolis_hastings.py: MetropolisHastingsHamiltonian._sweep"]}
{"id": "C50", "title": "Metropolis moves preserve the configuration space", "statement": "Configurations stay in plus/minus one at every step; exchange moves and Heisenberg-Hamiltonian moves never change the total magnetization; a local move changes at most one spin.", "quantifier": "every run of any length", "why_tests_cant": "Unbounded runs.", "anchors": ["src/flowket/samplers/metropolis_hastings.py"]}
{"id": "C51", "title": "Convergence statistics are available for every sampler setup", "statement": "calc_r_hat_value returns the Gelman-Rubin statistics for every number of chains.", "quantifier": "every number of chains and samples (false in the code: with num_of_chains=1, the default, it divides by zero)", "why_tests_cant": "Needs the chain count as a variable; tests use several chains.", "anchors": ["src/flowket/samplers/metropolis_hastings.py: calc_r_hat_value", "src/flowket/callbacks/monte_carlo/mcmc_stats.py"]}
{"id": "C52", "title": "Equal-up-down constraint", "statement": "With equal_up_down_spins=True all configurations with unequal numbers of up and down spins get probability zero, the others keep finite conditionals, and the state stays normalised and autoregressive in raster order.", "quantifier": "every network, every even number of sites (false in the code: the float32 mask constant overflows to -inf and -inf*0 makes every unmasked conditional NaN)", "why_tests_cant": "All configurations and the float semantics.", "anchors": ["src/flowket/layers/spins_invariants.py: equal_up_down_spins_function", "src/flowket/machines/abstract_machine.py lines 52-53"]}
{"id": "C53", "title": "Wrapping a Keras conditional model", "statement": "keras_conditional_wave_functions_to_wave_function returns a wave-function machine for every valid conditional model.", "quantifier": "every model (false in the code: the constructor skips its own base initialiser and reads an attribute that was never set)", "why_tests_cant": "No test calls it; the claim is that no model at all succeeds.", "anchors": ["src/flowket/machines/abstract_machine.py: AutoregressiveWrapper, keras_conditional_wave_functions_to_wave_function"]}
{"id": "C54", "title": "Dihedral ensemble is invariant", "statement": "The model returned by make_2d_obc_invariants gives the same log-amplitude to a square configuration and to its rotations and reflections.", "quantifier": "every base model, every square size, every configuration, every element of the symmetry group, both ensemble types", "why_tests_cant": "All base models and configurations.", "anchors": ["src/flowket/machines/ensemble.py: make_2d_obc_invariants, build_ensemble", "src/flowket/layers/dihedral_4_invariants.py"]}
{"id": "C55", "title": "Translation ensemble is invariant", "statement": "The model returned by make_pbc_invariants gives the same log-amplitude to a configuration and to all its translations (and, with apply_also_obc_invariants, rotations and reflections).", "quantifier": "every base model, size, configuration, translation", "why_tests_cant": "All models and sizes.", "anchors": ["src/flowket/machines/ensemble.py: make_pbc_invariants, build_symmetrization_ensemble", "src/flowket/layers/transition_invariants.py"]}
{"id": "C56", "title": "Spin-flip ensemble is invariant", "statement": "The model returned by make_up_down_invariant gives the same log-amplitude to a configuration and to its global spin flip.", "quantifier": "every base model and configuration", "why_tests_cant": "All models.", "anchors": ["src/flowket/machines/ensemble.py: make_up_down_invariant"]}
{"id": "C57", "title": "Probabilistic ensembles stay normalised", "statement": "If the base model is normalised, the probabilistic symmetrisation ensembles over lattice symmetries and the probabilistic ensemble of several normalised models are normalised: the ensemble probability is the mean of the member probabilities.", "quantifier": "every normalised base model, every ensemble size", "why_tests_cant": "Sum over all configurations for all models.", "anchors": ["src/flowket/machines/ensemble.py: probabilistic_ensemble_op"]}
{"id": "C58", "title": "Symmetric RBM is translation invariant", "statement": "RBMSym assigns the same log-amplitude to a configuration and to all its translations.", "quantifier": "every weights, number of hidden units per site, lattice shape, configuration, translation", "why_tests_cant": "All weights and shapes.", "anchors": ["src/flowket/machines/rbm.py: RBMSym", "src/flowket/layers/complex/dense.py: TranslationInvariantComplexDense"]}
{"id": "C59", "title": "Checkpoints survive a crash", "statement": "If the process dies at any point, a restart that loads the checkpoint finds weights, optimizer state and epoch number that belong together, or no checkpoint at all.", "quantifier": "every crash point in every save, every history (false in the code: weights and optimizer state are written one after the other over the old files; a crash in between mixes them, and if the first save is cut the restart raises)", "why_tests_cant": "Quantifies over crash points.", "anchors": ["src/flowket/callbacks/checkpoint.py", "experiments/train.py: load_weights_if_exist"]}
{"id": "C60", "title": "Staged training resumes without skipping or repeating epochs", "statement": "For every saved epoch number the stage loop resumes in the right stage and runs exactly the remaining epochs, each once, with that stage's settings.", "quantifier": "every list of stage lengths, every saved epoch number", "why_tests_cant": "All schedules and resume points.", "anchors": ["experiments/train.py: train (stage loop)", "src/flowket/callbacks/checkpoint.py: on_train_end, on_epoch_begin"]}
{"id": "C61", "title": "The number type of the Ising field does not matter", "statement": "An Ising operator built with an integer field strength h gives the same connections and matrix elements as one built with the same number as a float.", "quantifier": "every lattice size, configuration, integer h and every coupling j (false in the code for couplings that are not integers: the diagonal elements are truncated towards zero because the element array takes the integer type of h)", "why_tests_cant": "Quantifies over couplings and configurations; the default arguments hide it.", "anchors": ["src/flowket/operators/ising.py: Ising.find_conn line 44-45"]}
{"id": "C62", "title": "Local energies evaluate the network on arrays of its input shape", "statement": "Computing the local energies of a batch hands the network only arrays whose configuration axes are those of the sampled configurations, for every operator and every batch.", "quantifier": "every lattice, boundary condition, batch and history of earlier operator calls (false in the code for the one-dimensional Heisenberg operator whenever at least 95 percent of the connections are used, for example for every staggered batch on a periodic chain of even length: the network then gets arrays of shape (n, 1))", "why_tests_cant": "The strategy is picked from the data of the batch, so only particular batches show it, and the shape in question is changed by earlier calls.", "anchors": ["src/flowket/observables/monte_carlo/operator.py: Observable.local_values", "src/flowket/operators/heisenberg.py: HeisenbergFindConn.__init__ lines 58-59"]}
{"id": "C63", "title": "Stochastic reconfiguration takes the same step whichever way products are computed", "statement": "Setting compute_jvp_instead_of_full_jacobian on ComplexValuesStochasticReconfiguration changes only how matrix-vector products are computed: the parameter update is the same as with the full Jacobian.", "quantifier": "every Jacobian, batch size, number of parameters, target vector and shift", "why_tests_cant": "Equality over all batches and models; a test on one square case can agree by accident.", "anchors": ["src/flowket/optimizers/stochastic_reconfiguration/optimizer.py: get_energy_grad, get_stochastic_reconfiguration_matrix_vector_product_via_jvp"]}
{"id": "C64", "title": "Every autoregressive machine can be sampled with the fast sampler", "statement": "FastAutoregressiveSampler can be constructed on each of the shipped autoregressive machines (1-D real, 1-D complex, 2-D, custom ordering), and each batch it returns has the product of the squared amplitudes of its configurations as probability, whatever topological order the graph library picks.", "quantifier": "every depth, number of channels, kernel size, dilation and skip setting, all weights, every lattice size, every ordering, every batch (false in the code for the machine with a custom ordering: building the dependency graph always raises, because the topology of Reshape does not accept the keyword argument that is passed)", "why_tests_cant": "Ranges over all networks, weights and topological orders and states an exact probability; a test samples one network.", "anchors": ["src/flowket/deepar/samplers/fast_autoregressive.py: FastAutoregressiveSampler", "src/flowket/deepar/graph_analysis/dependency_graph.py: DependencyGraph", "src/flowket/deepar/graph_analysis/reshape_topology.py: ReshapeTopology.get_spatial_dependency", "src/flowket/machines/simple_conv_net_autoregressive_1D.py", "src/flowket/machines/complex_values_simple_conv_net_autoregressive_1D.py", "src/flowket/machines/conv_net_autoregressive_2D.py", "src/flowket/machines/simple_custom_autoregressive_ordering.py"]}
{"id": "C65", "title": "Shipped autoregressive machines are normalised and plainly sampled exactly", "statement": "For each of the shipped autoregressive machines, the squared amplitudes given by its predictions add up to one over all spin configurations, and AutoregressiveSampler on its conditional log probabilities returns each batch with the product of the squared amplitudes as probability.", "quantifier": "every depth, number of channels, kernel size (odd in two dimensions), dilation and skip setting, all weights, every lattice size, every ordering of the sites, every batch of spin configurations", "why_tests_cant": "A test can sum over one small lattice for some weights; the claim is exact, for all sizes, settings and weights.", "anchors": ["src/flowket/machines/abstract_machine.py: AutoNormalizedAutoregressiveMachine", "src/flowket/machines/simple_conv_net_autoregressive_1D.py", "src/flowket/machines/complex_values_simple_conv_net_autoregressive_1D.py", "src/flowket/machines/conv_net_autoregressive_2D.py", "src/flowket/machines/simple_custom_autoregressive_ordering.py", "src/flowket/deepar/samplers/autoregressive.py: AutoregressiveSampler"]}
{"id": "C66", "title": "Metropolis discards the first part of every batch", "statement": "With discard_ratio=d, every next(sampler) first runs the sweeps of samples_per_chain//d samples and drops them, so the first returned row of a chain is not one sweep away from the old state of that chain.", "quantifier": "every sampler, batch size, number of chains, discard ratio, unused_sampels (false in the code: the warm up runs unused_sampels sweeps per discarded sample instead of unused_sampels+1, hence none at all with the default unused_sampels=0)", "why_tests_cant": "The sampled distribution looks plausible either way; the claim is about every run and every setting.", "anchors": ["src/flowket/samplers/metropolis_hastings.py:MetropolisHastingsSampler.warn_up", "src/flowket/samplers/metropolis_hastings.py:MetropolisHastingsSampler.__next__"]}
{"id": "C67", "title": "Effective sample size follows the cited estimator", "statement": "calc_r_hat_value returns the r-hat, the variance, the autocorrelation sum and the effective sample size of Bayesian Data Analysis (3rd edition, chapter 11.4-11.5): the autocorrelations are summed up to the first odd lag T for which the next two autocorrelations have a negative sum.", "quantifier": "every array of estimated values, every number of chains (at least two) and samples per chain (false in the code: the sum includes one autocorrelation more than the cited rule, the first member of the negative pair, and the last pair is not looked at)", "why_tests_cant": "The estimator differs in one term, which is small on typical data; equality with the formula is a claim about all arrays.", "anchors": ["src/flowket/samplers/metropolis_hastings.py:sum_correlations", "src/flowket/samplers/metropolis_hastings.py:MetropolisHastingsSampler.calc_r_hat_value"]}
{"id": "C68", "title": "Metropolis with a global proposal sampler has the right stationary distribution", "statement": "MetropolisHastingsGlobal, whose proposals come from another sampler, leaves |psi|^2 invariant.", "quantifier": "every wave function, every distribution of the proposal sampler (false in the code: the acceptance ratio ignores the proposal probabilities, so only uniform proposals are correct)", "why_tests_cant": "Convergence to a distribution is a statement about probabilities over all random numbers, and the error vanishes for the uniform proposals a test would use.", "anchors": ["src/flowket/samplers/metropolis_hastings.py:MetropolisHastingsGlobal", "src/flowket/samplers/metropolis_hastings.py:MetropolisHastingsSymmetricProposal._sweep"]}
{"id": "C69", "title": "Exact samplers draw from the squared amplitudes", "statement": "Every row returned by ExactSampler or WaveFunctionSampler is the configuration s with probability |psi(s)|^2 divided by the sum over all configurations, independently of the other rows.", "quantifier": "every wave function, every number of sites, every batch size", "why_tests_cant": "A statement about a probability distribution over exponentially many configurations; sampling can only reject gross errors.", "anchors": ["src/flowket/samplers/exact_sampler.py:ExactSampler", "src/flowket/samplers/exact_sampler.py:WaveFunctionSampler"]}
{"id": "C70", "title": "lncosh", "statement": "The exponential of lncosh(z) is cosh(z) for every complex z, the result is minus infinity exactly where cosh(z) is zero, and no intermediate exponential exceeds one in absolute value.", "quantifier": "every complex number", "why_tests_cant": "All complex numbers, including arbitrarily large ones where a naive formula overflows.", "anchors": ["src/flowket/layers/complex/tensorflow_ops.py: lncosh, complex_log, angle"]}
{"id": "C71", "title": "RBM amplitudes", "statement": "The exponential of the prediction of RBM is exp(sum_p a_p x_p) times the product over hidden units of cosh(b_h + sum_p x_p w_ph); for RBMSym the hidden units are all translations of alpha filters and the visible bias is uniform.", "quantifier": "every weights, lattice shape, number of hidden units, configuration", "why_tests_cant": "All weights and shapes; the kernel of the symmetric layer is built by stacking and reshaping.", "anchors": ["src/flowket/machines/rbm.py: RBM, RBMSym", "src/flowket/layers/complex/dense.py: ComplexDense, TranslationInvariantComplexDense"]}
{"id": "C72", "title": "One batch size for all stages", "statement": "A single batch size given to the training script is used for every stage; one batch size per stage is used as given; other numbers of values are rejected.", "quantifier": "every batch size, every list of stages, every resume point (false in the code for a single value: the list is repeated instead of its element and the training raises)", "why_tests_cant": "All stage lists and resume points.", "anchors": ["experiments/train.py: to_valid_stages_config, train lines 88-99"]}
{"id": "C73", "title": "A restart repeats no batch", "statement": "Whenever the training is interrupted and restarted from its checkpoint, the weights at the end of an epoch have received exactly one update per batch of all epochs so far.", "quantifier": "every history of batches, saves and restarts, every number of batches per epoch (false in the code: the saved batch number is ignored on restart)", "why_tests_cant": "Quantifies over histories and crash points.", "anchors": ["experiments/train.py: load_weights_if_exist", "src/flowket/callbacks/checkpoint.py: CheckpointByTime"]}
{"id": "C74", "title": "Evaluating a symmetrised model with samples of its base model gives the energy of the symmetrised model", "statement": "The evaluation stage symmetrises the trained autoregressive model over the rotations and reflections of a square lattice and over the global spin flip (probabilistic ensembles), but draws its samples from the base model. For the Ising and Heisenberg operators, the expected value of the reported mean local energy over batches of independent samples of the base model is the energy (Rayleigh quotient) of the symmetrised wave function.", "quantifier": "every lattice size, every coupling, both boundary conditions, every normalised base model with finite outputs, every batch size, every history of earlier operator calls", "why_tests_cant": "The claim is about the exact expected value over exponentially many configurations for every base network; a test sees one network and a statistical error that hides a small bias.", "anchors": ["experiments/train.py:train", "experiments/run_evaluation.py:run", "src/flowket/machines/ensemble.py:make_2d_obc_invariants", "src/flowket/machines/ensemble.py:make_up_down_invariant", "src/flowket/machines/ensemble.py:probabilistic_ensemble_op"]}
{"id": "C75", "title": "Per-example Jacobians are the true derivatives", "statement": "For every weight and bias of the supported dense and convolution layers, the array returned for an example is the derivative of the scalar output for that example with respect to that weight, in the order in which the weights are laid out; other layers are rejected.", "quantifier": "every batch size, layer size, kernel size, stride, padded input, every real and complex weight value, every upstream gradient (false in the code for complex layers fed with complex inputs and for dilated convolutions)", "why_tests_cant": "Tests compare a few small networks up to a tolerance; the claim is about every layer shape and every value.", "anchors": ["src/flowket/utils/jacobian.py: gradient_per_example, predictions_jacobian, DenseJacobian, ConvJacobian"]}
{"id": "C76", "title": "Vectors of real numbers become complex numbers one to one", "statement": "The layer that turns a real axis of length 2m into m complex numbers takes the first half as real and the second half as imaginary parts: every complex tensor is the image of exactly one real tensor; odd lengths are rejected.", "quantifier": "every tensor shape, axis and value (false in the code for negative axes other than the last)", "why_tests_cant": "All shapes, axes and values.", "anchors": ["src/flowket/layers/complex/casting.py: VectorToComplexNumber"]}
{"id": "C77", "title": "Dilation doubles from layer to layer up to the given maximum", "statement": "With dilation switched on, hidden layer i of the one-dimensional machines has dilation min(2^i, maximum), or 2^i if no maximum is given; with dilation switched off every layer has dilation one.", "quantifier": "every depth, maximum, weights and input (false in the code without a maximum, where nothing is dilated, and for a maximum that is not a power of two, which is exceeded)", "why_tests_cant": "All depths and maxima.", "anchors": ["src/flowket/machines/simple_conv_net_autoregressive_1D.py: SimpleConvNetAutoregressive1D", "src/flowket/machines/complex_values_simple_conv_net_autoregressive_1D.py"]}
{"id": "C78", "title": "Weight normalisation keeps directions and fixes lengths", "statement": "A weight-normalised layer computes, before any training step, the same as the wrapped layer; afterwards each output channel of its kernel has the length given by the trained scale (or its exponential), and rescaling the direction parameter changes nothing, provided the channel's direction has length at least 1e-6.", "quantifier": "every kernel shape and value, every scale, both parametrisations", "why_tests_cant": "All kernels and scales, including those near the numerical floor, where the condition is shown to be necessary.", "anchors": ["src/flowket/deepar/layers/wrappers.py: WeightNormalization"]}
{"id": "C79", "title": "Complex initialisers draw weights of the documented size", "statement": "A complex initialiser gives each weight the value modulus times exp(i phase) of a single draw, with E|w|^2 equal to 2/(fan_in+fan_out) for the Glorot criterion and 2/fan_in for the He criterion.", "quantifier": "every kernel shape, every sequence of random draws (false in the code: the scale is squared twice, E|w|^2 = 2/(fan_in+fan_out)^4 and 2/fan_in^4)", "why_tests_cant": "An exact statement about expected values for all shapes.", "anchors": ["src/flowket/layers/complex/initializers.py: ConjugateDecorator, StandartComplexValueInitializer", "src/flowket/layers/complex/base_layer.py: ComplexLayer.add_complex_weight"]}
{"id": "C80", "title": "Training with several workers is training on the union of their batches", "statement": "Workers that start with the same weights have the same weights after every step. These are the weights of a single process trained on the union of the workers' batches: the energy in the targets is the mean over all samples of all workers and the gradient is that of the union. The logged energy and variance are those of the union.", "quantifier": "every number of workers, equal batch sizes, every wrapped optimizer, accumulation frequency, gradient function and sequence of batches (false in the code for the logged variance)", "why_tests_cant": "Quantifies over the number of workers and whole training histories; a test runs a single process.", "anchors": ["src/flowket/optimization/horovod_variational_monte_carlo.py: HorovodVariationalMonteCarlo", "src/flowket/optimizers/accumulate_gradient_optimizer.py: convert_to_accumulate_gradient_optimizer", "experiments/train.py: train"]}
{"id": "C81", "title": "evaluate() reports the statistics of all its samples", "statement": "evaluate(generator, steps, callbacks) with the default callbacks returns the mean energy, the variance of the local energies, the relative error and the magnetisations of all samples of `steps` successive batches.", "quantifier": "every number of steps, batch and mini batch size, sampler, sequence of samples, both logging modes (false in the code for mini batches of at most half of the batch, and for the variance)", "why_tests_cant": "Quantifies over sizes and over sequences of random batches; a test that runs evaluate sees a plausible noisy number.", "anchors": ["src/flowket/evaluation/evaluate.py: evaluate, mean_logs", "src/flowket/callbacks/monte_carlo/__init__.py: default_wave_function_stats_callbacks_factory", "src/flowket/optimization/mini_batch_generator.py: MiniBatchGenerator"]}
{"id": "C82", "title": "The evaluations of the experiment scripts finish and report", "statement": "The evaluation at the end of experiments/train.py and the one of experiments/run_evaluation.py end without an exception and report energy and variance, whether or not the ground state energy is known and for every accepted mini batch size and number of samples.", "quantifier": "every mini batch size, number of samples, sequence of samples, known or unknown ground state energy (false in the code if the energy is unknown and for some sizes)", "why_tests_cant": "The failure comes after a complete training run, and depends on sizes and on an optional argument.", "anchors": ["experiments/train.py: train", "experiments/run_evaluation.py: run", "src/flowket/evaluation/evaluate.py: evaluate, mean_logs"]}
{"id": "C83", "title": "Validation statistics belong to the weights at the end of the epoch", "statement": "The validation values logged at the end of an epoch are those of new samples, drawn with the weights at the end of that epoch; they are the same samples for all values; they are logged in the epochs divisible by the period and in no others.", "quantifier": "every number of epochs, first epoch, period, batch size, sequence of weights and samples (false in the code for validation generators with mini batches of at most half of the batch)", "why_tests_cant": "Quantifies over whole training histories; stale statistics are plausible numbers.", "anchors": ["src/flowket/callbacks/monte_carlo/generator_iterator.py: GeneratorIterator", "src/flowket/callbacks/monte_carlo/local_energy_stats.py: LocalEnergyStats", "src/flowket/callbacks/monte_carlo/observable.py: ObservableStats", "src/flowket/optimization/mini_batch_generator.py: MiniBatchGenerator"]}
{"id": "C84", "title": "Training stops at the first bad eigenstate and at nothing else", "statement": "A run with BadEigenStateStopping ends after the first epoch, not before min_epoch, whose variance is below the tolerance while its energy exceeds the upper bound of the ground state energy by more than the given relative error; a run without such an epoch goes on to the end. The validation values are used if there are any, otherwise those of the training.", "quantifier": "every sequence of energies and variances, tolerance, bound, min_epoch and first epoch", "why_tests_cant": "Quantifies over all histories of reported values.", "anchors": ["src/flowket/callbacks/monte_carlo/bad_eigen_state_stopping.py: BadEigenStateStopping"]}
{"id": "C85", "title": "The magnetisations are those of the spins", "statement": "For spin configurations the logged sigma_z lies between minus one and one; its absolute value is at most abs_sigma_z, which is at most one; turning all spins changes the sign of sigma_z and leaves abs_sigma_z. Over independent samples the expected sigma_z is the quantum mechanical expectation of the magnetisation per site, and the expected abs_sigma_z the Born mean of its absolute value.", "quantifier": "every lattice, batch of spin configurations, batch size and wave function", "why_tests_cant": "Quantifies over all batches and wave functions and is a statement about an expectation.", "anchors": ["src/flowket/observables/monte_carlo/sigma_z.py: sigma_z, abs_sigma_z", "src/flowket/callbacks/monte_carlo/observable.py: ObservableStats"]}
{"id": "C86", "title": "exact_evaluate reports the exact values of the current network", "statement": "exact_evaluate returns, whatever was evaluated before and in both logging modes, the energy of the current network, the variance of its local energies, the relative error and the exact magnetisations. A callback for a further operator adds the expectation of that operator.", "quantifier": "every Hamiltonian given by its rows, at most 31 sites, accepted batch size, network, history of earlier networks, both logging modes (false in the code for further operators in the default mode)", "why_tests_cant": "Quantifies over networks, histories, operators and batch sizes.", "anchors": ["src/flowket/evaluation/evaluate.py: exact_evaluate", "src/flowket/callbacks/exact: ExactLocalEnergy, ExactSigmaZ, ExactObservableCallback", "src/flowket/optimization/exact_variational.py: ExactVariational, ExactObservable"]}
{"id": "C87", "title": "The Metropolis chains converge to the squared amplitudes", "statement": "For a fixed network the joint distribution of the Metropolis chains after n sweeps converges, as n grows, to independent draws from the normalised squared amplitudes: on all spin configurations for the local and uniform samplers and for the Hamiltonian sampler with the Ising model, and on the configurations with the magnetisation of the start for the exchange sampler and the Hamiltonian sampler with the Heisenberg model. The exchange sampler proposes exactly the swaps of the spins of two neighbouring sites (around the boundary, diagonals included) or of a site with itself.", "quantifier": "every wave function, lattice of any dimension and size (chains and grids for the Hamiltonian sampler, all couplings and boundaries), number of chains, start (false in the code for the local sampler if all squared amplitudes are equal: the chain is then periodic)", "why_tests_cant": "A statement about the limit of infinitely many sweeps, for every network and every start; a finite sample cannot tell slow mixing from missing irreducibility or periodicity.", "anchors": ["src/flowket/samplers/metropolis_hastings.py: MetropolisHastingsLocal, MetropolisHastingsExchange, MetropolisHastingsUniform, MetropolisHastingsHamiltonian, MetropolisHastingsSymmetricProposal._sweep"]}
{"id": "C88", "title": "On average the Monte Carlo gradient points downhill", "statement": "Averaged over independent batches of B samples from the normalised squared amplitudes, the derivative of the sum of the training losses of the batch along any change of the parameters is (B-1)/B times the derivative of the energy. So with two or more samples the average step is a gradient step, and a batch of one sample trains nothing (all its targets are 0). With the autoregressive sampler and every other sampler that draws independent samples (for machines that need not be autoregressive) the average is over the random numbers of the sampler. (Keras divides the sum by the number of samples it is given at once, a constant factor, see C90.)", "quantifier": "every batch size, Ising and Heisenberg model on chains and grids, every wave function differentiable in its parameters, every direction", "why_tests_cant": "A statement about the expectation over all batches; a finite set of batches only gives an estimate, for one network and one direction.", "anchors": ["src/flowket/optimization/variational_monte_carlo.py: VariationalMonteCarlo.loss_coefficients, VariationalMonteCarlo.next_batch", "src/flowket/optimization/loss.py: loss_for_energy_minimization", "src/flowket/deepar/samplers/autoregressive.py: AutoregressiveSampler", "src/flowket/operators: Ising, Heisenberg"]}
{"id": "C89", "title": "The reported energy is unbiased, with error variance over batch size", "statement": "Over independent batches of B samples from the normalised squared amplitudes the expected reported energy is the energy of the wave function, its mean squared error is the variance of the local energy divided by B, and the expected reported variance is (B-1)/B times the variance of the local energy. With the autoregressive sampler the average is over the random numbers of the sampler.", "quantifier": "every batch size, Ising and Heisenberg model on chains and grids, every wave function", "why_tests_cant": "Expected values over all batches for every wave function; any finite number of runs has statistical error.", "anchors": ["src/flowket/observables/monte_carlo/observable.py: BaseObservable.estimate", "src/flowket/observables/monte_carlo/operator.py: Observable", "src/flowket/optimization/variational_monte_carlo.py: VariationalMonteCarlo", "src/flowket/operators: Ising, Heisenberg"]}
{"id": "C90", "title": "The mini-batch size changes memory use, not the training", "statement": "Splitting the batch into mini-batches of any size that divides it leads to the same sequence of parameters as training on whole batches. (True for mean accumulation; with the default sum accumulation, which all shipped scripts use, every gradient is multiplied by the number of mini-batches per batch.)", "quantifier": "every batch size, mini-batch size dividing it, number of batches, optimizer, per-sample loss and sampler", "why_tests_cant": "A test can compare a few sizes and one optimizer for a few steps; the equality has to hold for all sizes, optimizers and histories.", "anchors": ["src/flowket/optimizers/accumulate_gradient_optimizer.py: convert_to_accumulate_gradient_optimizer.get_updates", "src/flowket/optimization/mini_batch_generator.py: MiniBatchGenerator", "src/flowket/optimization/loss.py: loss_for_energy_minimization", "experiments/train.py: train", "examples/ising.py"]}
{"id": "C91", "title": "In staged training every update uses one whole fresh batch", "statement": "When training goes through several stages with different batch sizes and mini-batch sizes, every update of the parameters uses all samples of exactly one newly drawn batch. (False for a stage that starts at a step number that is not a multiple of its number of mini-batches per batch, as the third stage of examples/ising.py.)", "quantifier": "every list of stages (batch size, mini-batch size, number of batches), optimizer, accumulation mode, sampler", "why_tests_cant": "The misalignment depends on the whole history of stages and its step counts; the shipped runners happen to be aligned.", "anchors": ["src/flowket/optimizers/accumulate_gradient_optimizer.py: convert_to_accumulate_gradient_optimizer", "experiments/train.py: train", "experiments/ising_runner.py", "experiments/heisenberg_runner.py", "examples/ising.py"]}
{"id": "C92", "title": "The Ising example trains with the tabulated mini-batch sizes and evaluates", "statement": "examples/ising.py uses for every depth the mini-batch size its table gives for the largest depth not above it, all stages are accepted by the generator, and the evaluation at the end runs. (False at every depth: the size is always 1 and the evaluation divides by zero.)", "quantifier": "every depth and every stage batch size", "why_tests_cant": "The failure of the evaluation shows only after days of training; a statement for every depth.", "anchors": ["examples/ising.py: depth_to_max_mini_batch, main script"]}
{"id": "C93", "title": "TensorBoard curves are written as often as asked", "statement": "With update_freq='epoch' the TensorBoard callback writes once at the end of every epoch with the epoch as the step. With an integer n (or 'batch', the same as 1) writes in the course of an epoch are at least n samples apart, there are never n or more samples after a batch since the last write, and the step is the number of samples seen. Every write contains all logs except the number and the size of the batch, nothing else.", "quantifier": "every update frequency and every history of batches of any sizes and ends of epochs", "why_tests_cant": "An invariant over all histories of batch sizes; with fixed-size batches many wrong conditions give the same writes.", "anchors": ["src/flowket/callbacks/tensorboard.py: TensorBoard.on_batch_end, TensorBoard.on_epoch_end, TensorBoard._write_logs"]}
{"id": "C94", "title": "Weight histograms see every sample of the current batch once", "statement": "In every epoch whose number is a multiple of histogram_freq the histograms are computed from the whole current batch of the generator, every sample once, in pieces of at most batch_size samples; in other epochs nothing is computed. (False for models with a learning phase, where an assertion fails, and for batch_size=0, where the loop never ends.)", "quantifier": "every histogram frequency, piece size, batch and epoch", "why_tests_cant": "Boundary behaviour of the last piece for all sizes, and termination.", "anchors": ["src/flowket/callbacks/tensorboard.py: TensorBoard.on_epoch_end", "src/flowket/callbacks/monte_carlo/tensorboard_with_generator_validation_data.py: TensorBoardWithGeneratorValidationData"]}
{"id": "C95", "title": "Time checkpoints have the documented names and times", "statement": "CheckpointByTime saves at the end of a batch exactly if the given number of minutes has passed since the last save, and at the end of training, under the path with its fields filled with the epoch and the logs as documented. (False for paths with {epoch}: the save fails; and for any field at the end of training.)", "quantifier": "every path pattern, save frequency, history of batches with any durations and logs", "why_tests_cant": "Depends on the clock and on all histories; the failing save happens first after the given minutes or at the very end of training.", "anchors": ["src/flowket/callbacks/checkpoint.py: CheckpointByTime"]}
{"id": "C96", "title": "Complex convolution layers compute complex convolutions", "statement": "ComplexConv1D, 2D and 3D compute, at every output position and filter, the sum over kernel taps and input channels of the complex products of input and weight, with zeros for the padding, plus the bias, then the activation; so without bias and activation they are complex linear, and on real inputs and weights they agree with the real convolution. complex_log is the principal logarithm and crelu clips the real and the imaginary part at 0.", "quantifier": "every number of dimensions, size, stride, dilation, padding, number of channels, kernel, bias, activation and input", "why_tests_cant": "An equality for all complex inputs and kernels and all geometries.", "anchors": ["src/flowket/layers/complex/tensorflow_ops.py: keras_conv_to_complex_conv, crelu, angle, complex_log", "src/flowket/layers/complex/conv.py: _ComplexConv.call"]}
{"id": "C97", "title": "The shortcut of conv2d_complex does not change its result", "statement": "conv2d_complex has the shape and the values of the two dimensional complex convolution, whether or not it takes the shortcut for images of the size of the kernel. (False for dilated convolutions.)", "quantifier": "every image and kernel size, stride, padding, dilation, number of channels, kernel and image", "why_tests_cant": "The shortcut is taken in a corner of the space of shapes and settings; an equality for all values.", "anchors": ["src/flowket/layers/complex/tensorflow_ops.py: conv2d_complex"]}
{"id": "C98", "title": "Exact training follows the exact energy gradient", "statement": "In training on all states with the accumulation frequency set to one full cycle, as in the shipped examples, every update of the optimizer uses a fixed multiple of the exact gradient of the energy of the current network: one over the batch size with summation, one over the number of states with averaging. Weights change only at the end of a cycle. The batch size enters through that multiple only.", "quantifier": "every network differentiable in its weights, optimizer, accepted batch size, both accumulation modes, number of steps, refresh callbacks in between; Hermitian operators given by rows, in particular Ising and Heisenberg on chains and grids of at most 31 sites", "why_tests_cant": "A statement about the gradient of every network at every step of training of any length; a test compares a few numbers for one network.", "anchors": ["src/flowket/optimization/exact_variational.py: ExactVariational.to_generator, machine_updated", "src/flowket/optimizers/accumulate_gradient_optimizer.py: convert_to_accumulate_gradient_optimizer", "src/flowket/optimization/loss.py: loss_for_energy_minimization", "examples/basic_autoregressive_exact_gradient.py"]}
{"id": "C99", "title": "Values logged in exact training belong to known weights", "statement": "In exact training the energies, variances, relative errors and magnetisations that the default callbacks log are the exact values for the weights the latest gradient was computed with; with a MachineUpdated callback before them, for the current weights; if it is told not to update the local energies, the energies still belong to the weights of the latest gradient and the magnetisations to the current ones. In batch mode every cycle is logged at least once, exactly once if the cycle length divides the steps per epoch. The callbacks never change the training.", "quantifier": "every network, optimizer, accepted batch size, number of steps per epoch, step, both logging modes, operators given by rows on at most 31 sites; for the last part every list of callbacks that does not fail", "why_tests_cant": "The values depend on the interleaving of generator, optimizer and callbacks over a training of any length.", "anchors": ["src/flowket/callbacks/exact: default_wave_function_callbacks_factory, ExactLocalEnergy, ExactSigmaZ, MachineUpdated", "src/flowket/optimization/exact_variational.py: ExactVariational.to_generator"]}
{"id": "C100", "title": "Markov chain statistics logged in training describe the chains of the batch in use", "statement": "In Monte Carlo training with a Metropolis-Hastings sampler, MCMCStats logs, after each step or at the end of each epoch as asked and never at the other moment, statistics of the batch in use: the accepted share of the moves proposed after the warm up while this batch was drawn with the weights of that time, and the convergence statistic, sum of correlations and effective sample size of the real local energies of the Hamiltonian, taken chain by chain in the order of the visits.", "quantifier": "every network, history of weights, number of chains, of sweeps between samples and of warm up sweeps, batch and mini-batch size that fit, kind of sweep, random numbers, starting configurations, number of steps, both logging modes; every operator whose rows represent a Hamiltonian", "why_tests_cant": "The logged numbers depend on all random moves and weights since the start of training and on how chains, sweeps and mini-batches interleave; a test sees one run.", "anchors": ["src/flowket/callbacks/monte_carlo/mcmc_stats.py: MCMCStats", "src/flowket/samplers/metropolis_hastings.py: MetropolisHastingsSampler.__next__, calc_r_hat_value", "src/flowket/optimization/variational_monte_carlo.py: VariationalMonteCarlo.next_batch", "src/flowket/optimization/mini_batch_generator.py: MiniBatchGenerator.next_mini_batch_size"]}
{"id": "C101", "title": "Exact results do not depend on the normalisation of the network", "statement": "Adding one constant to all logarithmic amplitudes of the network multiplies the wave function by a number and changes nothing physical. So in floating point arithmetic with its limited range, ExactVariational reports the same probabilities, energy and training targets for the network with and without the constant, and the energy it reports is finite and close to the energy of the state.", "quantifier": "every network, every constant, every number of states and Hermitian operator; every arithmetic with a largest and a smallest positive number", "why_tests_cant": "Logarithmic amplitudes grow with the number of spins and drift in training; a test on a small system with a fresh network stays in the middle of the range, where nothing overflows.", "anchors": ["src/flowket/optimization/exact_variational.py: ExactVariational._update_wave_function_arrays, ExactObservable.update_local_energy, ExactVariational.machine_updated", "src/flowket/exact/utils.py: complex_norm_log_fsum_exp"]}
{"id": "C102", "title": "A factor in front of the wave function does not change Monte Carlo training", "statement": "Two networks whose logarithmic amplitudes differ by a complex constant, which may depend on the weights in any way, describe the same quantum states. With the same starting configurations and random numbers, Metropolis-Hastings samplers return the same batches and acceptance ratios for both, estimated energies, variances and targets agree, and training on whole batches takes the same course: the same weights, batches, energies and logged Markov chain statistics after every step, with any optimizer that sees the network through the loss only.", "quantifier": "every network, every dependence of the constant on the weights, every kind of sweep with any random numbers, any number of chains, batch size, warm up, answers of the operator, optimizer with internal state, number of training steps", "why_tests_cant": "It compares two whole training histories for all networks and constants; the cancellation rests on stored amplitudes being refreshed before each batch and on targets that sum to zero exactly.", "anchors": ["src/flowket/samplers/metropolis_hastings.py: MetropolisHastingsSampler.__next__, machine_updated, _sweep", "src/flowket/observables/monte_carlo/operator.py: Observable.local_values", "src/flowket/optimization/variational_monte_carlo.py: VariationalMonteCarlo.next_batch, loss_coefficients", "src/flowket/optimization/loss.py: loss_for_energy_minimization", "src/flowket/optimization/mini_batch_generator.py: MiniBatchGenerator.next_mini_batch_size"]}
{"id": "C103", "title": "Symmetrised models survive the range of floating point numbers", "statement": "Ensembles of finite logarithmic amplitudes have the right finite logarithmic amplitude, in floating point arithmetic with its limited range: up to underflow of negligible members, the probabilistic ensemble is the root of the mean probability with the phase of the mean phase and the average ensemble is the mean amplitude, and adding a constant to all members adds it to the result. In particular symmetrising a normalised network works for every number of spins.", "quantifier": "every nonempty ensemble and values of its members, every constant, every arithmetic with a largest and a smallest positive number, every number of spins and family of symmetry maps", "why_tests_cant": "Amplitudes of normalised networks shrink exponentially with the number of spins; tests use small lattices, where no exponential leaves the range.", "anchors": ["src/flowket/machines/ensemble.py: probabilistic_ensemble_op, average_ensemble_op, build_ensemble, build_symmetrization_ensemble", "src/flowket/layers/complex/tensorflow_ops.py: complex_log"]}
{"id": "C104", "title": "Monte Carlo results survive the range of floating point numbers", "statement": "However large or small the amplitudes of a network are, the Metropolis-Hastings samplers take exactly the decisions of the exact rule (numbers that overflow to infinity or underflow to zero in between do not matter), a constant factor in front of the wave function has no effect on the local energies, and the local energies that Observable.estimate averages are finite and accurate whenever the exact ones are.", "quantifier": "all range limits of the number format, all networks, operators, batches, random numbers, sequences of next(sampler) with changing networks; for the probability statement all networks and batch sizes", "why_tests_cant": "Tests use small untrained networks whose amplitudes differ by a few orders of magnitude; overflow and underflow happen only for large systems or sharply peaked wave functions, and for random numbers that occur with probability 2^-53.", "anchors": ["src/flowket/samplers/metropolis_hastings.py:MetropolisHastingsSymmetricProposal._sweep", "src/flowket/samplers/metropolis_hastings.py:MetropolisHastingsHamiltonian._sweep", "src/flowket/observables/monte_carlo/operator.py:Observable.local_values", "src/flowket/operators/netket_operator.py:NetketOperatorWrapper.new_netket_find_conn"]}
{"id": "C105", "title": "What a layer means to the sampler does not depend on unrelated imports", "statement": "The dependency rule used for a layer of the package (also inside any number of Keras wrappers) is the same whatever modules are imported, in whatever order and how often, once the layer's own module is imported; a layer class of the user is supported exactly if the user registered it or it is its own rule; and the value the fast sampler writes at a site is the one the model's input encoding reads as the category that was drawn.", "quantifier": "every history of import statements and registrations for own classes, every layer class and nesting of wrappers, every category", "why_tests_cant": "The registry is one dictionary for the whole process: its content depends on the history of imports, while the tests run in one process with one fixed set of imports.", "anchors": ["src/flowket/deepar/graph_analysis/topology_manager.py:TopologyManager", "src/flowket/deepar/graph_analysis/sampling_topology.py:CategorialSamplingTopology, PlusMinusOneSamplingTopology", "src/flowket/samplers/fast_autoregressive/__init__.py", "src/flowket/deepar/layers/one_hot.py:to_one_hot, plus_minus_one_to_one_hot"]}
{"id": "C106", "title": "The fast sampler draws from models with any number of categories", "statement": "For a model with K categories per site whose dependency graph can be sorted, the batch returned by deepar's FastAutoregressiveSampler has exactly the probability that the model gives it: rows are independent, and the probability of a row is the product over the sites of the softmax of the network output on that row. For normalised conditionals this is the exponential of the log likelihood computed with ToOneHot and CombineAutoregressiveConditionals.", "quantifier": "every network graph of supported layers, lattice, number of categories, evaluation order, batch size and batch of configurations, every history of imports", "why_tests_cant": "It is a statement about a distribution over exponentially many configurations for every network; the tests compare empirical frequencies of two categories on tiny lattices.", "anchors": ["src/flowket/deepar/samplers/fast_autoregressive.py:FastAutoregressiveSampler", "src/flowket/deepar/graph_analysis/sampling_topology.py:CategorialSamplingTopology, PlusMinusOneSamplingTopology", "src/flowket/deepar/layers/autoregressive.py:combine_autoregressive_conditionals, normalize_in_log_space", "src/flowket/deepar/layers/one_hot.py:to_one_hot"]}
{"id": "C107", "title": "The J1-J2 operator is the J1-J2 Hamiltonian", "statement": "The operator that J1J2(shape, j2, pbc) returns acts on every wave function as the sum over all pairs of nearest neighbours of XX+YY+ZZ plus j2 times the same sum over all pairs of diagonal neighbours. Every call of find_conn with spin configurations succeeds, returns exactly the announced number of rows (four per site and one more), lists the sample first, and connects a sample only to itself and to configurations in which the opposite spins of two neighbouring sites are exchanged.", "quantifier": "all lattice sizes (periodic ones with at least three sites in both directions), all complex j2, both boundary conditions, all histories of calls, all batches of spin configurations, all wave functions", "why_tests_cant": "Tests compare a few matrices of small lattices; that the edge list, the bond matrices and the padding together give the Hamiltonian is a statement about every lattice, wave function and history of calls.", "anchors": ["src/flowket/operators/j1j2.py: j1j2_two_dim_netket_operator, j1j2_two_dim_operator, J1J2", "src/flowket/operators/netket_operator.py: NetketOperatorWrapper"]}
{"id": "C108", "title": "The total spin observable reports the total spin", "statement": "The observable total_spin that the exact J1-J2 example logs during training has the expectation value of the squared total spin of the wave function, up to a fixed affine normalisation.", "quantifier": "all numbers of sites, all probing states, all histories of calls, all batches", "why_tests_cant": "The logged number is plausible for some states; that it follows the total spin of every state is a statement about all wave functions.", "anchors": ["examples/j1j2_2d_exact_4.py: total_spin_netket_operator, total_spin", "src/flowket/operators/netket_operator.py: NetketOperatorWrapper"]}
{"id": "C109", "title": "Metropolis handles configurations of amplitude zero", "statement": "A Metropolis-Hastings sampler works for machines that give some configurations the amplitude zero: proposals of probability zero are rejected without an exception, a chain that starts at a configuration of probability zero leaves it, and batches only contain configurations of positive probability.", "quantifier": "all machines with any set of configurations of amplitude zero, all samplers and proposals, all random numbers, all sequences of sweeps and machine updates", "why_tests_cant": "Whether a zero amplitude is proposed depends on the drawn numbers and the state of the chains; tests run with networks that have no zeros.", "anchors": ["src/flowket/samplers/metropolis_hastings.py: MetropolisHastingsSymmetricProposal._sweep, MetropolisHastingsHamiltonian._sweep, machine_updated"]}
{"id": "C110", "title": "How far back the 1-D machines can see", "statement": "With dilation switched on and h hidden layers, the conditional of SimpleConvNetAutoregressive1D (and its complex-valued version) at a site can depend on the (kernel_size - 1)(2^h - 1) + 1 sites before it: never on a site further back, and for some weights on the farthest of them. With dilation switched off the same holds with (kernel_size - 1) h + 1 sites.", "quantifier": "every depth, kernel size, number of channels, maximal dilation, chain length, weights (for 'never') and input; false in the code with the default max_dilation_rate=None, where the window stays (kernel_size - 1) h + 1", "why_tests_cant": "'Never' ranges over all weights and inputs, and the window grows exponentially with the depth.", "anchors": ["src/flowket/machines/simple_conv_net_autoregressive_1D.py: causal_conv_1d, SimpleConvNetAutoregressive1D", "src/flowket/machines/complex_values_simple_conv_net_autoregressive_1D.py: causal_conv_1d, ComplexValuesSimpleConvNetAutoregressive1D"]}
{"id": "C111", "title": "The statistics of stochastic reconfiguration describe the solved system", "statement": "The numbers that the stochastic reconfiguration optimizer offers as metrics describe the linear system of the step just taken: with the iterative solver, the iteration count never exceeds the limit, the residual norm is that of the unsolved part of the system, and a run that ended before the limit meets the tolerance; with the direct solver and matrix statistics, the rank is the rank of the covariance matrix of the log-derivatives and the smallest eigenvalue is its smallest non-zero eigenvalue.", "quantifier": "every batch of complex derivatives, every number of parameters, right-hand side, shift, tolerance and iteration limit", "why_tests_cant": "A test can compare the numbers for a few matrices; that they describe the solved system for each batch, also where eigenvalues are small or vanish, is a statement over all matrices.", "anchors": ["src/flowket/optimizers/stochastic_reconfiguration/optimizer.py: ComplexValuesStochasticReconfiguration._update_s_matrix_stats, metrics, compute_wave_function_gradient_covariance_inverse_multiplication_with_iterative_solver", "src/flowket/optimizers/stochastic_reconfiguration/linear_equations.py: conjugate_gradient"]}
{"id": "C112", "title": "Layer normalisation is finite, normalised, bounded and local", "statement": "LayerNormalization with a positive epsilon returns finite numbers for every real input, also when all channels of a location are equal. A new layer returns at each location channels with mean zero and mean square s / (s + epsilon), s being the variance of the input channels. With trained weights each channel stays within |gamma| times the square root of the channel count from beta. Adding one number to all channels changes nothing, scaling them only rescales epsilon, and the result at a location depends on that location only.", "quantifier": "every real input tensor, number of channels, positive epsilon and weights", "why_tests_cant": "Unit tests feed a few random tensors, almost surely of large variance; constant channels, the bound and the invariances are statements over all inputs.", "anchors": ["src/flowket/deepar/layers/layer_normalization.py: LayerNormalization.call, build"]}
{"id": "C113", "title": "A restart continues gradient accumulation and weight averaging", "statement": "A training with gradient accumulation (and, if asked for, a moving average of the weights) that is stopped after some mini-batch and restarted from a checkpoint saved there continues exactly as if it had not been stopped: later weights, optimizer state and average are those of the uninterrupted training on the same mini-batches.", "quantifier": "every optimizer, update frequency, decay, sequence of mini-batches and moment of the checkpoint", "why_tests_cant": "A test restarts at one moment, usually after a full epoch, where nothing is accumulated; whether every moment is safe is a statement over all interruption points and histories.", "anchors": ["src/flowket/optimizers/accumulate_gradient_optimizer.py: convert_to_accumulate_gradient_optimizer", "src/flowket/callbacks/checkpoint.py: save_optimizer_weights, load_optimizer_weights, CheckpointByTime", "experiments/train.py: compile_model, load_weights_if_exist, train"]}
{"id": "C114", "title": "Layers and models can be rebuilt from their configuration", "statement": "For every layer of the package, however it was constructed, the layer that Keras rebuilds from its configuration - in memory (from_config(get_config())) or through a file written by model.save - has the same name and performs the same operation; so that CheckpointByTime, which saves whole models by default, can save every model of the package.", "quantifier": "every layer class of the package, all constructor arguments, all models and optimizers of the package", "why_tests_cant": "A test rebuilds one layer with one set of arguments; lost arguments show only for arguments other than the default and tuples only after a trip through a file.", "anchors": ["src/flowket/deepar/layers: get_config of all layers", "src/flowket/layers: get_config of all layers", "src/flowket/callbacks/checkpoint.py: CheckpointByTime._save", "src/flowket/optimizers/complex_values_optimizer.py: ComplexValuesOptimizer.get_config"]}
{"id": "C115", "title": "The reported relative error is the distance from the ground state", "statement": "When the true ground state energy is given to the energy callbacks, the relative error they log for a network is |E - E0| / |E0|, the distance of its energy from the ground energy in units of the ground energy. It is never negative, smaller for better states, and zero for ground states only. For sampled batches this holds on average.", "quantifier": "every operator with real symmetric rows on up to 31 sites, every network, every history of earlier evaluations, every accepted batch size and both logging modes; for samples every batch size", "why_tests_cant": "Tests use one model with a known negative energy. The claim depends on the sign of the lowest eigenvalue and on the variational principle for every network.", "anchors": ["src/flowket/callbacks/exact/local_energy.py: ExactLocalEnergy.add_energy_to_logs", "src/flowket/callbacks/monte_carlo/local_energy_stats.py: LocalEnergyStats.add_energy_stats_to_logs", "src/flowket/operators/ising.py: Ising", "src/flowket/operators/heisenberg.py: Heisenberg"]}
{"id": "C116", "title": "Logged run times add up, and no time is counted twice", "statement": "RuntimeStats writes durations that are not negative, whose parts (sampling or wave function update, local energies, gradients) add up to the logged total, and the total is the time since the work on the batch (or cycle) in use began. Over a run, the logged totals together are no longer than the run: no work is counted twice, nothing that is not training is counted as gradients, and work that is done is logged.", "quantifier": "every clock that does not run backwards, all batch and mini-batch sizes, numbers of batches per cycle, steps per epoch, lengths of training, both ways of logging, with and without a validation generator, every list of exact-training callbacks", "why_tests_cant": "The durations are real times that differ in every run, and double counting depends on the ratio of batch, mini-batch, cycle and epoch lengths; a test can check the presence of the keys for one combination, not that the sums are bounded for every clock and schedule.", "anchors": ["src/flowket/callbacks/monte_carlo/runtime_stats.py:RuntimeStats", "src/flowket/callbacks/exact/runtime_stats.py:RuntimeStats", "src/flowket/optimization/variational_monte_carlo.py:VariationalMonteCarlo.next_batch", "src/flowket/optimization/mini_batch_generator.py:MiniBatchGenerator.next_mini_batch_size", "src/flowket/optimization/exact_variational.py:ExactVariational.machine_updated", "src/flowket/callbacks/exact/machine_updated.py:MachineUpdated", "src/flowket/evaluation/evaluate.py:exact_evaluate"]}
{"id": "C117", "title": "Every training step uses a batch drawn with the current weights", "statement": "When the generators of the package are given to fit_generator, gradient step k is made on samples and coefficients computed with the weights after k steps (for exact training: with the weights at the beginning of the cycle, all slices of a cycle from one refresh), whatever the arguments workers and max_queue_size and however the threads are scheduled.", "quantifier": "every generator and network, every number of steps, every queue size, every schedule of the drawing thread and the training loop", "why_tests_cant": "With a second thread the outcome depends on the schedule; a test sees the schedules that happen on the test machine, and a stale batch leaves no trace in the result other than slower or wrong convergence.", "anchors": ["src/flowket/optimization/mini_batch_generator.py:MiniBatchGenerator.to_generator", "src/flowket/optimization/exact_variational.py:ExactVariational.to_generator", "src/flowket/main.py", "examples/ising.py"]}
{"id": "C118", "title": "The experiment scripts' reference energies belong to the system that is run, and every system can be run", "statement": "For every lattice shape, boundary condition and field given on the command line, the experiment scripts determine their reference energy without an error; a reference energy is used exactly when lattice, boundary and field are those it was computed for, and then it is (to the accuracy that can be proved) the ground energy of the very Hamiltonian whose rows the script's operator returns, in the same units and with the same sign.", "quantifier": "all lattice shapes, both boundary conditions, all fields; for the energies, all wave functions on the 12x12, 10x10 and 16x16 lattices (2^144, 2^100 and 2^256 configurations)", "why_tests_cant": "The ground energy of a system with 2^100 configurations cannot be computed by a test; that a reference belongs to the operator needs bounds over all wave functions, and the table lookup must succeed for every real field.", "anchors": ["experiments/ising_runner.py:main", "experiments/heisenberg_runner.py:main", "examples/ising.py:true_ground_state_energy_mapping", "examples/ising.py:run", "examples/ising.py:get_params"]}
{"id": "C119", "title": "Every run continues its own work only, and its files say which run it is", "statement": "Whatever runs of a script there have been in a directory - with any arguments, one after another or side by side, stopped anywhere - a run continues from the last checkpoint of runs with the same arguments, or starts afresh if there is none; no file of one run is overwritten by another run or by another kind of file; and the names of the files tell the arguments of the run.", "quantifier": "all argument values, all histories of runs in any order and interleaving, stopped at any point", "why_tests_cant": "That two names never coincide must hold for all pairs of argument values (all integers and floating point numbers) and all histories of runs; tests try a few names.", "anchors": ["examples/ising.py:run", "examples/ising.py:restore_run_state", "examples/ising.py:get_params", "experiments/train.py:train", "experiments/train.py:save_config", "src/flowket/callbacks/checkpoint.py:save_optimizer_weights", "src/flowket/callbacks/checkpoint.py:load_optimizer_weights"]}
{"id": "C120", "title": "An evaluation shows the numbers of the model it evaluates", "statement": "The scripts and examples that evaluate a symmetrised model at the end of a run (experiments/train.py, experiments/run_evaluation.py, examples/evaluate_with_2d_obc_invariant.py, examples/j1j2_2d_monte_carlo_4.py) report the mean local energy of the symmetrised wave function, its relative error and the magnetisations, over the samples of all the batches drawn for the evaluation.", "quantifier": "every symmetrised wave function and operator (local energies), every number of steps, every batch size and sampler outcome, and every content of the training generator before the evaluation", "why_tests_cant": "The wrong number is a plausible energy: the one of the last training batch. A test would have to compare with an independent evaluation of the symmetrised model for every network.", "anchors": ["examples/j1j2_2d_monte_carlo_4.py", "examples/evaluate_with_2d_obc_invariant.py", "experiments/train.py: train", "experiments/run_evaluation.py: run", "src/flowket/evaluation/evaluate.py: evaluate", "src/flowket/callbacks/monte_carlo/local_energy_stats.py: LocalEnergyStats"]}
{"id": "C121", "title": "Workers of a distributed training never wait for each other for ever", "statement": "A training with experiments/train.py --use_horovod finishes on all workers, from the beginning or restarted from a checkpoint: no worker waits for ever in an operation that needs all of them (average of energies, gradients and metrics, broadcast of the weights), in whatever order the workers get to run.", "quantifier": "every number of workers, every interleaving of their steps, every list of stages, batch and mini batch sizes, numbers of steps, validation periods, and every content of the checkpoint file that each worker finds", "why_tests_cant": "Whether workers meet depends on the interleaving and on which machine holds which files; a test on one machine sees one file system and a few schedules, and a hang is not distinguishable from slow progress.", "anchors": ["experiments/train.py: train, load_weights_if_exist", "src/flowket/optimization/horovod_variational_monte_carlo.py: HorovodVariationalMonteCarlo._update_batch_local_energy", "src/flowket/optimizers/accumulate_gradient_optimizer.py: _allreduce", "src/flowket/callbacks/monte_carlo/generator_iterator.py: GeneratorIterator", "src/flowket/optimization/mini_batch_generator.py: MiniBatchGenerator"]}
{"id": "C122", "title": "A state vector computed with NetKet keeps its meaning", "statement": "Converting a state vector that NetKet computed (for example the ground state from its exact diagonalisation) with netket_vector_to_exact_variational_vector changes only the numbering: a machine made from the result with vector_to_machine gives every spin configuration the amplitude NetKet's vector gives it, the norm is the same, and an eigenvector of NetKet's matrix of an operator becomes an eigenvector of that operator with the same eigenvalue.", "quantifier": "every lattice of up to 31 spins, every way NetKet may number the 2^N configurations of the unrestricted space, every vector, every operator given by its connected configurations and matrix elements, every spin configuration", "why_tests_cant": "a test compares one small lattice with one version of NetKet; the claim is for every numbering and every vector, and an error in the order of the spins leaves symmetric vectors unchanged", "anchors": ["src/flowket/exact/utils.py:netket_vector_to_exact_variational_vector", "src/flowket/exact/utils.py:vector_to_machine", "src/flowket/optimization/exact_variational.py:ExactVariational._build_wave_function_arrays"]}
{"id": "C123", "title": "The 2-D machine sees every earlier spin exactly when it is deep enough", "statement": "For ConvNetAutoregressive2D with odd kernel_size k, at least two channels and an increasing activation such as relu, on a lattice of at least two rows: there are weights for which the conditional probabilities of every site change with every single earlier spin in reading order (no blind spot) if and only if columns - 1 <= (depth - 1)(k - 1) and rows - 2 <= (2 depth - 1)(k - 1). For all weights, the conditionals at a site never depend on a spin further up or further to the right than these two bounds.", "quantifier": "all depths of at least 2, odd kernel sizes, channel numbers of at least 2, increasing activations, lattice sizes and pairs of sites; the bound for all weights, the coverage for some weights", "why_tests_cant": "A blind spot shows only at particular pairs of sites, lattice sizes and depths, and that no weights at all can see a spin ranges over a continuum.", "anchors": ["src/flowket/machines/conv_net_autoregressive_2D.py:ConvNetAutoregressive2D._causal_conv_2d", "src/flowket/machines/conv_net_autoregressive_2D.py:ConvNetAutoregressive2D._resiual_block", "src/flowket/machines/conv_net_autoregressive_2D.py:ConvNetAutoregressive2D._build_unnormalized_conditional_log_wave_function", "src/flowket/deepar/layers/masking.py:DownShiftLayer", "src/flowket/deepar/layers/masking.py:RightShiftLayer"]}
{"id": "C124", "title": "The checkpoint of the best model holds the best model", "statement": "If training runs with the default statistics callbacks and a ModelCheckpoint that saves only the best weights by energy, then after training the file holds the weights at the end of the first epoch with the lowest energy, and the recorded value is the energy of these weights. With EarlyStopping on the same value, training stops exactly after the chosen number of epochs without progress: not while the energy still improves, and not later.", "quantifier": "all training runs, numbers of epochs, optimizers, networks, batches, validation periods, patience and minimal improvement", "why_tests_cant": "Whether the right weights are in the file depends on the whole history of energies and on which weights each value belongs to; a test sees one history, usually one in which the energy falls all the time.", "anchors": ["examples/custom_keras_model.py", "src/flowket/callbacks/monte_carlo/__init__.py:default_wave_function_stats_callbacks_factory", "src/flowket/callbacks/monte_carlo/local_energy_stats.py:LocalEnergyStats", "src/flowket/callbacks/monte_carlo/generator_iterator.py:GeneratorIterator", "src/flowket/callbacks/exact/local_energy.py:ExactLocalEnergy", "src/flowket/callbacks/exact/machine_updated.py:MachineUpdated"]}
{"id": "C125", "title": "Networks with periodic padding are translation invariant", "statement": "A network of PeriodicPadding layers, each followed by a convolution that takes away as many cells as the padding adds and by an activation, with the sum over all outputs as the logarithm of the amplitude (as in the benchmark example), can be built and gives a configuration and all its translations the same amplitude.", "quantifier": "all numbers of dimensions, lattice sizes, kernel sizes, dilations, numbers of layers and channels, weights, biases, activations, configurations and translations", "why_tests_cant": "Weights and configurations form a continuum and an exponential set, and the padding of the deeper layers matters only for particular combinations of lattice and kernel size.", "anchors": ["src/flowket/deepar/layers/padding.py:PeriodicPadding", "src/flowket/layers/complex/conv.py:ComplexConv1D", "examples/benchmark.py:run_pyket", "tests/simple_models.py:complex_values_1d_model"]}
{"id": "C126", "title": "The reported variance measures the distance from an eigenstate", "statement": "The variance of the local energies that exact_evaluate reports is zero for eigenstates of the Hamiltonian and for no other state, and an exact energy level of the Hamiltonian lies within the square root of the reported variance of the reported energy. So a small variance certifies a good approximation without knowing the ground state.", "quantifier": "every operator with real symmetric rows on up to 31 sites, every network (false in the code for complex wave functions), every history of earlier evaluations, every accepted batch size and both logging modes", "why_tests_cant": "Quantifies over all wave functions and the whole spectrum of the Hamiltonian; a test can show only that the variance of one known eigenstate is small.", "anchors": ["src/flowket/optimization/exact_variational.py: ExactObservable.update_local_energy", "src/flowket/callbacks/exact/local_energy.py: ExactLocalEnergy.add_energy_to_logs", "src/flowket/evaluation/evaluate.py: exact_evaluate", "src/flowket/observables/monte_carlo/observable.py: BaseObservable.estimate"]}
{"id": "C127", "title": "A stochastic-reconfiguration step goes downhill", "statement": "With a positive diag_shift, the update that the ComplexValuesStochasticReconfiguration optimizer makes, by direct solution or by conjugate gradients stopped at any tolerance below one and after any positive number of iterations, has a negative product with the energy gradient of the batch. So when the batch is the exact distribution over all states, a small enough learning rate makes the exact variational energy strictly smaller, unless the energy is already stationary.", "quantifier": "every batch, Jacobian and local energies; every Hermitian operator whose states are enumerated, every holomorphic network and weights, every positive shift, tolerance below one and iteration limit (false in the code with compute_jvp_instead_of_full_jacobian)", "why_tests_cant": "Quantifies over all networks, weights and Hamiltonians, and over conjugate-gradient runs that were cut off before they converged; a test can check descent only for a handful of steps.", "anchors": ["src/flowket/optimizers/stochastic_reconfiguration/optimizer.py: ComplexValuesStochasticReconfiguration.get_updates, compute_wave_function_gradient_covariance_inverse_multiplication_directly", "src/flowket/optimizers/stochastic_reconfiguration/linear_equations.py: conjugate_gradient", "src/flowket/optimizers/complex_values_optimizer.py: ComplexValuesOptimizer.apply_complex_gradient", "src/flowket/optimization/exact_variational.py: ExactVariational"]}
{"id": "C128", "title": "Training through lncosh uses the right gradient", "statement": "Back-propagation through the lncosh activation multiplies the gradient with the conjugate of the derivative of the logarithm of cosh, that is of tanh, at every point where cosh is not zero, also where the real part is zero (the absolute value inside has no derivative) and where the phase jumps by two pi; and no exponential of a number with positive real part is needed for it. Where cosh is zero, the gradient is not a number.", "quantifier": "all complex arguments and all incoming gradients", "why_tests_cant": "The wrong cases would be a null set (real part zero, branch cut of the phase) that random numerical gradient checks never hit, and a continuum of arguments has to be covered.", "anchors": ["src/flowket/layers/complex/tensorflow_ops.py: lncosh, complex_log, angle"]}
{"id": "C129", "title": "The gradient with respect to complex weights is the true one", "statement": "For every model with complex weights and every differentiable real loss, the complex gradients reported for the weights come in the order and shapes of the weights, and the derivative of the loss along any change of the weights is the real part of the sum of gradient times change (with conjugate_gradients, of the conjugate gradient times change). For outputs that depend holomorphically on the weights the reported gradient is the complex derivative. A small enough step along minus the conjugated gradient lowers the loss unless the gradient is zero, and the product of the Jacobian with a vector that is computed by differentiation is the product with the Jacobian.", "quantifier": "every number and shape of complex weights, every differentiable loss, every direction, every vector", "why_tests_cant": "A test checks finite differences of some network at some weights; the identity has to hold for every network, every layout of the weights and every direction.", "anchors": ["src/flowket/optimizers/complex_values_optimizer.py: get_model_parameters_complex_value_gradients", "src/flowket/optimizers/complex_values_optimizer.py: get_predictions_jacobian_vector_product", "src/flowket/optimizers/complex_values_optimizer.py: to_complex_tensors", "src/flowket/optimizers/complex_values_optimizer.py: apply_complex_gradient", "src/flowket/layers/complex/base_layer.py: add_complex_weight", "src/flowket/optimizers/utils.py: forward_mode_gradients"]}
{"id": "C130", "title": "Stochastic reconfiguration takes the same step with use_energy_loss as without", "statement": "For every holomorphic network, weights, batch whose targets add up to zero, positive shift and learning rate, the stochastic reconfiguration optimizer updates the weights with use_energy_loss=True, where the energy gradient is the derivative of the loss, exactly as with use_energy_loss=False, where it is the product of the centred Jacobian and the targets; with the direct and with the iterative solver.", "quantifier": "every holomorphic network, model weights, batch size, Jacobian, centred targets, learning rate, shift, tolerance and iteration limit", "why_tests_cant": "A test compares the two options on one network and one batch; agreement has to hold for every network, batch and solver setting, and a constant factor between the two can be hidden by the learning rate.", "anchors": ["src/flowket/optimizers/stochastic_reconfiguration/optimizer.py: get_energy_grad", "src/flowket/optimizers/stochastic_reconfiguration/optimizer.py: get_updates", "src/flowket/optimization/loss.py: loss_for_energy_minimization"]}
{"id": "C131", "title": "The operators have the symmetries that the ensembles impose", "statement": "For the Ising, Heisenberg and J1-J2 operators, the answer of find_conn for a transformed configuration is the transformed answer: on every wave function both act alike. The transformations are the global spin flip, the mirror images, on squares the reflection at the diagonal (hence quarter turns), with periodic boundaries every translation, and everything composed of these. Hence, for a model that is invariant under such transformations (as the ensembles make it), replacing any samples of a batch by images of them changes neither the local energies nor their mean and variance.", "quantifier": "every lattice size (periodic J1-J2: at least three rows and columns), boundary condition, coupling, transformation composed of the generators, pair of batches, history of earlier calls, wave function, and invariant model", "why_tests_cant": "The claim ranges over all configurations, all lattice sizes and all products of symmetries; the exponentially many configurations of a lattice cannot be enumerated, and a wrong bond at one boundary shows only for some of them.", "anchors": ["src/flowket/operators/ising.py: Ising.find_conn", "src/flowket/operators/heisenberg.py: Heisenberg.find_conn", "src/flowket/operators/j1j2.py: j1j2_two_dim_operator", "src/flowket/machines/ensemble.py: make_2d_obc_invariants, make_pbc_invariants, make_up_down_invariant", "src/flowket/observables/monte_carlo/observable.py: BaseObservable.estimate"]}
{"id": "C132", "title": "Symmetrising a model does not raise its energy", "statement": "Wrapping a model with make_2d_obc_invariants, make_up_down_invariant or (periodic boundaries) make_pbc_invariants, in any nesting, gives a model whose energy for the operator is at most the energy of the wrapped model, so evaluating a trained model with imposed symmetries can only improve it; and for every wave function there is a base model whose symmetrised versions have at most its energy, so the lowest energy is not lost.", "quantifier": "every lattice size, boundary condition, coupling, field, base model and nesting of the symmetrising functions", "why_tests_cant": "An inequality between energies for every base model (a function on exponentially many configurations) and every lattice; tests see a few models, for which it may hold by luck.", "anchors": ["src/flowket/machines/ensemble.py: make_2d_obc_invariants, make_pbc_invariants, make_up_down_invariant, probabilistic_ensemble_op, average_ensemble_op", "src/flowket/operators/ising.py: Ising.find_conn", "src/flowket/operators/heisenberg.py: Heisenberg.find_conn", "experiments/train.py: run (evaluation model)", "examples/evaluate_with_2d_obc_invariant.py"]}
{"id": "C133", "title": "Training rests at eigenstates and only there", "statement": "If the wave function of the network is an eigenstate of the operator, the targets the variational Monte Carlo generator yields are zero for every batch of samples, and no number of stochastic-reconfiguration steps (direct or conjugate-gradient solver, any learning rate, shift, tolerance) changes a weight. If it is not an eigenstate, some batch gives a target different from zero. With exact sums over all configurations the targets vanish exactly for eigenstates.", "quantifier": "every operator (Ising and Heisenberg, chains and grids), lattice size, coupling, network, batch of samples, Jacobian, learning rate, diagonal shift, solver setting and number of steps", "why_tests_cant": "Concerns every network and every batch: a test would have to know an eigenstate as a network and sees only the batches it draws.", "anchors": ["src/flowket/optimization/variational_monte_carlo.py: VariationalMonteCarlo.next_batch, loss_coefficients", "src/flowket/optimization/exact_variational.py: ExactVariational.machine_updated, to_generator", "src/flowket/optimizers/stochastic_reconfiguration/optimizer.py: ComplexValuesStochasticReconfiguration.get_updates", "src/flowket/optimizers/complex_values_optimizer.py: ComplexValuesOptimizer.apply_complex_gradient"]}
{"id": "C134", "title": "The energy reported for Metropolis samples converges to the energy of the wave function", "statement": "When the energy is estimated from the states of Metropolis-Hastings chains, the mean of the reported energy converges, as the number of sweeps grows, to the energy of the wave function restricted to the configurations the sampler can reach: all configurations for single-spin, uniform and Ising Hamiltonian moves, the configurations of the starting magnetisation for exchange and Heisenberg Hamiltonian moves. In particular it does not converge below the ground energy.", "quantifier": "every lattice size, coupling, network, number of chains, starting configurations and earlier calls of the operator; limit over the number of sweeps", "why_tests_cant": "A statement about a limit of probabilities over arbitrarily many sweeps and about every network; a run of finite length shows statistical fluctuations only.", "anchors": ["src/flowket/samplers/metropolis_hastings.py: MetropolisHastingsLocal, MetropolisHastingsExchange, MetropolisHastingsUniform, MetropolisHastingsHamiltonian, MetropolisHastingsSymmetricProposal", "src/flowket/observables/monte_carlo/observable.py: Observable", "src/flowket/operators/ising.py: Ising.find_conn", "src/flowket/operators/heisenberg.py: Heisenberg.find_conn"]}
{"id": "C135", "title": "The fast sampler computes every activation at most once, after those it reads", "statement": "Drawing a batch of samples with the fast autoregressive sampler computes each activation of the network at most once, reads an activation only after it was computed, and so applies layers at no more places than a single evaluation of the network does, instead of evaluating the whole network once for every site. The recorded reads are all that a computed value depends on.", "quantifier": "every model of supported layers, every topological order of its dependency graph, all random draws; in particular every shipped convolutional machine, lattice size, kernel, depth, width and weights", "why_tests_cant": "A test can time one network; that no activation is ever computed twice or read before it is computed has to hold for every architecture, size and order the graph search returns.", "anchors": ["src/flowket/deepar/samplers/fast_autoregressive.py: FastAutoregressiveSampler._build_sampling_function", "src/flowket/deepar/graph_analysis/dependency_graph.py: DependencyGraph", "src/flowket/machines/simple_conv_net_autoregressive_1D.py: SimpleConvNetAutoregressive1D", "src/flowket/machines/conv_net_autoregressive_2D.py: ConvNetAutoregressive2D"]}
{"id": "C136", "title": "Monte Carlo training with large batches is exact training", "statement": "As the batch of independent samples grows, the probability tends to one that, all at once and within any given tolerance, the reported energy is the energy of the wave function, the reported variance is the variance of the local energy, and every partial derivative of the training loss is the partial derivative of the energy; that the relative frequency of every configuration is its probability; and that a step of stochastic reconfiguration leads to the weights that the step with the exact covariance matrix and the exact gradient leads to. The probability that the reported energy is off by a given amount is at most the variance of the local energy divided by the batch size and the square of that amount.", "quantifier": "every operator (Ising and Heisenberg, chains and grids, after any earlier calls), lattice size, coupling, network and number of parameters, learning rate, positive diagonal shift and tolerance; all batches weighted with their probability; limit over the batch size", "why_tests_cant": "A test compares one large batch with the exact numbers up to statistical noise; convergence in probability for every network and operator is a statement about all batches and arbitrarily large sizes.", "anchors": ["src/flowket/optimization/variational_monte_carlo.py: VariationalMonteCarlo.next_batch, loss_coefficients", "src/flowket/optimization/exact_variational.py: ExactVariational", "src/flowket/observables/monte_carlo/observable.py: Observable", "src/flowket/optimizers/stochastic_reconfiguration/optimizer.py: ComplexValuesStochasticReconfiguration.get_updates", "src/flowket/deepar/samplers/autoregressive.py: AutoregressiveSampler"]}
{"id": "C137", "title": "Sizes handed to complex convolutions are completed to tuples of integers or refused", "statement": "For kernel_size, strides and dilation_rate of a complex convolution of n dimensions, a single integer is repeated n times and an iterable of n integers is taken as it is; anything else raises ValueError. Padding is 'valid' or 'same' in any case of letters; other strings raise ValueError.", "quantifier": "every value of the modelled kinds (integers, booleans, floats, NumPy integers, strings, None, nested iterables) and every number of dimensions", "why_tests_cant": "The space of values a caller may pass is unbounded; tests try a few.", "anchors": ["src/flowket/layers/complex/conv.py: normalize_tuple, normalize_padding, ComplexConv1D, ComplexConv2D, ComplexConv3D"]}
{"id": "C138", "title": "The histogram layer leaves the amplitudes alone and shows log probabilities and phases", "statement": "The layer that writes histograms of log amplitudes to TensorBoard returns its input unchanged. The histogram 'magnitude' holds the logarithms of the unnormalised probabilities, 'phase' the phases and 'normalized_phase' the same phases brought to the interval from 0 to 2 pi, so that both represent the same amplitudes.", "quantifier": "every tensor of complex log amplitudes", "why_tests_cant": "Holds for all complex numbers, in particular phases many turns away from zero.", "anchors": ["src/flowket/layers/complex/histograms.py: LogSpaceComplexNumberHistograms"]}
{"id": "C139", "title": "Long Metropolis batches obey the law of large numbers", "statement": "With any fixed number of chains and any start, unused samples per sweep and discard ratio, as the batch size grows the averages over the batch that next(sampler) returns come with probability tending to one as close as desired to the averages over the squared amplitudes (of all configurations for uniform moves, local moves and the Hamiltonian moves of Ising models; of those with the magnetisation of the start for exchange moves and the Hamiltonian moves of Heisenberg models). The reported energy and variance, the gradient and the step of stochastic reconfiguration then come as close as desired to the exact ones of the wave function (C136), or of the wave function restricted to the magnetisation. The logged sigma_z and abs_sigma_z come as close as desired to the expectation of the magnetisation per site and the mean of its absolute value; for exchange moves and Heisenberg models they are those of the start.", "quantifier": "every lattice, wave function, start of the chains, number of chains, unused_sampels, discard_ratio, coupling, boundary and history of calls of the operator; all random numbers weighted with their probability; limit over the batch size (false for local moves if all amplitudes have the same modulus and every second sweep is used)", "why_tests_cant": "A test can look at one finite run; convergence in probability of time averages over correlated samples is a statement about all runs of unbounded length.", "anchors": ["src/flowket/samplers/metropolis_hastings.py: MetropolisHastingsSampler.__next__, warn_up, MetropolisHastingsLocal, MetropolisHastingsUniform, MetropolisHastingsExchange, MetropolisHastingsHamiltonian", "src/flowket/optimization/variational_monte_carlo.py: VariationalMonteCarlo.next_batch", "src/flowket/observables/monte_carlo/observable.py: Observable.estimate", "src/flowket/observables/monte_carlo/sigma_z.py: sigma_z, abs_sigma_z"]}
{"id": "C140", "title": "Rounding errors and finite random numbers distort autoregressive samples only a little", "statement": "If the up probabilities an autoregressive sampler works with are off by at most eps at every site, and its random numbers fall below any threshold with the right probability up to eta (eta = 2^-53 for numpy.random.rand), then the probability that it returns a batch from any given set differs from the exact one (products of squared amplitudes) by at most rows * sites * (eps + eta), and the mean of any quantity bounded by C is off by at most 2 * sites * (eps + eta) * C. The total of the squared computed amplitudes stays within exp(+-2 * sites * delta) of one if the log amplitude is off by at most sites * delta.", "quantifier": "every number of sites and rows, every ordering, every network and every computed approximation that respect the ordering, every distribution of the random numbers, every set of batches and every bounded quantity", "why_tests_cant": "A distribution over exponentially many batches cannot be compared with another by drawing samples, and a test runs one rounding pattern of one network.", "anchors": ["src/flowket/deepar/samplers/autoregressive.py:AutoregressiveSampler.__next__", "src/flowket/deepar/layers/autoregressive.py:CombineAutoregressiveConditionals"]}
{"id": "C141", "title": "Positive amplitudes suffice for Ising and rotated Heisenberg models", "statement": "For Ising(h >= 0) and for Heisenberg with the default unitary_rotation=True, replacing a wave function by its absolute value never raises its energy. For h > 0, and for Heisenberg in every sector of fixed magnetisation, there is a state of lowest energy, it is unique up to a factor, and up to a factor all its amplitudes are strictly positive; so models without phases can reach the lowest energy.", "quantifier": "every lattice shape and boundary, every coupling and non-negative (positive) field, every wave function, every magnetisation, every earlier use of the operator", "why_tests_cant": "It is about all wave functions and all lattice sizes; a test compares finitely many energies on small lattices.", "anchors": ["src/flowket/operators/ising.py:Ising.find_conn", "src/flowket/operators/heisenberg.py:Heisenberg.find_conn"]}
{"id": "C142", "title": "Nested symmetrisation keeps every symmetry", "statement": "When make_up_down_invariant, make_pbc_invariants and make_2d_obc_invariants are applied to a model one after the other, in any order, any number of times and with any mixture of probabilistic flags, the resulting model gives the same value to configurations related by a symmetry of any of the calls, early or late, and keeps the symmetries the base model had. Applying a call to a model that already has its symmetries changes no amplitude.", "quantifier": "every base model, every finite sequence of symmetrisation calls with their flags, every lattice size, every configuration and every symmetry", "why_tests_cant": "The sequences of calls are unbounded and a later averaging could break an earlier symmetry for some lattice size or configuration only; tests evaluate one nesting on a few random configurations.", "anchors": ["src/flowket/machines/ensemble.py:make_up_down_invariant", "src/flowket/machines/ensemble.py:make_pbc_invariants", "src/flowket/machines/ensemble.py:make_2d_obc_invariants", "experiments/run_evaluation.py"]}
{"id": "C143", "title": "Plain gradient descent on the exact energy goes downhill and comes to rest", "statement": "Train on all states with the exact generator, the accumulation frequency set to one full cycle, and plain gradient descent (SGD without momentum). If the gradient of the energy changes at most K times as much as the weights, and learning rate times gradient scale times K is below 2 (scale: one over the batch size with summation, one over the number of states with averaging), then the energy never rises from one training step to the next, each cycle lowers it strictly unless all partial derivatives are zero, the energy converges, and all partial derivatives of the energy tend to zero. With larger learning rates the energy can rise.", "quantifier": "every network differentiable in its weights with bounded change of the energy gradient, start weights, learning rate below the bound, accepted batch size, both accumulation modes, refresh callbacks in between, number of steps (unbounded, with limits); Ising and Heisenberg on chains and grids of at most 31 sites", "why_tests_cant": "The claim is about unbounded training runs and limits, and about every network and start; a test follows a few steps of one network.", "anchors": ["examples/basic_autoregressive_exact_gradient.py", "examples/benchmark.py: SGD", "src/flowket/optimization/exact_variational.py: ExactVariational.to_generator", "src/flowket/optimizers/accumulate_gradient_optimizer.py: convert_to_accumulate_gradient_optimizer", "src/flowket/optimization/loss.py: loss_for_energy_minimization"]}
{"id": "C144", "title": "The true ground state has the symmetries that the ensembles impose, and symmetrising it changes nothing", "statement": "For the Ising operator in a positive field, and for the Heisenberg operator with the default rotation and total spin zero, the state of lowest energy takes the same amplitude on a configuration, on its spin-flipped copy, and on every copy under a symmetry of the lattice (translations with periodic boundaries, the eight symmetries of a square). A network with positive amplitudes that represents this state is returned unchanged by make_up_down_invariant, make_pbc_invariants and make_2d_obc_invariants, in any nesting.", "quantifier": "every chain and grid size, positive field, coupling, boundary condition, previous calls of the operator, nesting of the symmetrisation functions, configuration", "why_tests_cant": "The ground state is unknown in closed form; tests can compare a few amplitudes of one small lattice, not prove the symmetry for all sizes.", "anchors": ["src/flowket/machines/ensemble.py: make_up_down_invariant, make_pbc_invariants, make_2d_obc_invariants", "src/flowket/operators/ising.py: Ising.find_conn", "src/flowket/operators/heisenberg.py: Heisenberg.find_conn"]}
{"id": "C145", "title": "Monte Carlo training with plain gradient descent makes progress on average", "statement": "Training a machine with VariationalMonteCarlo, a sampler that draws independent samples (AutoregressiveSampler, FastAutoregressiveSampler, WaveFunctionSampler, ExactSampler refreshed for every batch), the loss for energy minimisation and SGD (with or without gradient accumulation) lowers the energy on average: each batch changes the expected energy by at most minus the learning rate times (1 - 1/B) times the expected squared energy gradient, plus a noise term proportional to the square of the learning rate; the noise is bounded by the size of the Hamiltonian and of the derivatives of the log amplitudes, however wildly the local energies vary. Hence the squared energy gradients met during training are on average at most a term falling like one over the number of batches plus a term proportional to the learning rate. Expected values are over the random numbers of all batches; every batch is drawn with the weights of the moment.", "quantifier": "All Ising and Heisenberg chains and grids, both boundary conditions, all couplings, all batch sizes of at least two, all mini-batch sizes dividing it, both accumulation modes, all networks with differentiable log amplitudes, bounded log derivatives and Lipschitz energy gradient, all orderings, learning rates, starts and numbers of batches.", "why_tests_cant": "It is a statement about expected values over the random numbers of arbitrarily many dependent training steps, for every network; a test sees single noisy runs.", "anchors": ["src/flowket/optimization/variational_monte_carlo.py:next_batch", "src/flowket/optimization/mini_batch_generator.py", "src/flowket/optimization/loss.py", "src/flowket/optimizers/accumulate_gradient_optimizer.py", "src/flowket/deepar/samplers/autoregressive.py", "examples/benchmark.py", "examples/ising.py"]}
{"id": "C146", "title": "The autoregressive form excludes no wave function", "statement": "The product form that makes direct sampling possible costs nothing in principle: whatever the order in which the sites are sampled, every wave function without zeros is, up to its norm, the wave function of an autoregressive machine with a suitable causal network (a real one if the amplitudes are positive), and every other wave function is approached as closely as desired. So the energies that autoregressive machines can reach come as close as desired to the energy of any state under the Ising and Heisenberg operators, in particular to the ground state energy, and for the Ising operator in a positive field one machine has exactly the ground state energy. Exact zeros, by contrast, no autoregressive machine produces.", "quantifier": "all lattices, all orderings of the sites, all complex wave functions, all Ising fields and couplings, both boundary conditions, both Heisenberg sign conventions and every history of calls", "why_tests_cant": "A test trains one network on one lattice; that no target state is out of reach of the form is a statement about all wave functions and all orderings.", "anchors": ["src/flowket/machines/abstract_machine.py: AutoNormalizedAutoregressiveMachine", "src/flowket/deepar/layers/autoregressive.py: CombineAutoregressiveConditionals", "src/flowket/deepar/layers/autoregressive.py: NormalizeInLogSpace", "src/flowket/operators/ising.py: Ising.find_conn", "src/flowket/operators/heisenberg.py: Heisenberg.find_conn"]}
{"id": "C147", "title": "An energy close to the ground energy means a state close to the ground state", "statement": "Training looks at nothing but the energy. Where the ground state is unique (Ising operator in a positive field; Heisenberg operator with unitary_rotation=True in each sector of fixed magnetisation) that is enough: all states orthogonal to the ground state lie at least some gap above it, and a state whose energy exceeds the ground energy by e has squared overlap at least 1 - e/gap with the ground state, configuration probabilities that differ from those of the ground state by at most 2 sqrt(e/gap) in total, and averages of any quantity bounded by c that differ by at most 2 c sqrt(e/gap), also as measured, on average, on the samples that AutoregressiveSampler draws.", "quantifier": "every chain and grid, every coupling, both boundary conditions, every positive Ising field, every sector and history of calls of the Heisenberg operator, every wave function, every bounded quantity, every autoregressive network and batch size", "why_tests_cant": "Relates the reported energy to the exact ground state, which is unknown in any case of interest, for all wave functions at once.", "anchors": ["src/flowket/operators/ising.py: Ising.find_conn", "src/flowket/operators/heisenberg.py: Heisenberg.find_conn", "src/flowket/callbacks/exact/local_energy.py: ExactLocalEnergy.add_energy_to_logs", "src/flowket/callbacks/monte_carlo/local_energy_stats.py: LocalEnergyStats.add_energy_stats_to_logs", "src/flowket/deepar/samplers/autoregressive.py: AutoregressiveSampler"]}
{"id": "C148", "title": "Small errors of the network output change the energies only a little", "statement": "If the outputs (logarithms of the amplitudes) of two networks differ by at most ε on every configuration, as those of one network do before and after rounding to single precision, then: on every batch of samples each local energy that the Monte Carlo estimator returns changes by at most (exp(2ε) - 1) times the sum of the absolute values of its terms, and the reported mean by at most the batch mean of these bounds; the energy that exact evaluation reports changes by at most 2 M exp(2ε) (exp(2ε) - 1), where M is n(|h|+|J|) for Ising chains, nm(|h|+2|J|) for Ising grids, 3n for Heisenberg chains and 6nm for Heisenberg grids, whatever was evaluated before.", "quantifier": "every pair of networks and ε, every batch size and batch of samples, every lattice size (up to 31 spins for exact evaluation), field, coupling and boundary condition, every accepted batch size and history of exact evaluation, every history of operator calls", "why_tests_cant": "A test compares a few rounded outputs with a tolerance chosen by hand; it cannot show that no network and no configuration amplifies the error.", "anchors": ["src/flowket/observables/monte_carlo/operator.py: Observable.local_values", "src/flowket/optimization/exact_variational.py: ExactObservable.update_local_energy", "src/flowket/layers/complex/casting.py: ToComplex64", "src/flowket/operators/ising.py: Ising.find_conn", "src/flowket/operators/heisenberg.py: Heisenberg.find_conn"]}
{"id": "C149", "title": "Restricted Boltzmann machines exclude no wave function", "statement": "On a lattice with n sites and any number of axes, every wave function without zeros is, up to a constant factor, the wave function of an RBM with alpha = 2^(n+1) for suitable complex weights; every wave function without zeros that is the same on all translations of a configuration is that of an RBMSym with alpha = 2^(n+1). So for Ising and Heisenberg models on chains and grids RBMs come as close as desired to the energy of any wave function, RBMSyms to that of any translation invariant one, and with periodic boundaries and a positive field the ground state of an Ising model is exactly the wave function of an RBMSym.", "quantifier": "every lattice shape, every wave function without zeros (for the energies: every non-zero wave function and tolerance), every field, coupling and boundary condition, every history of operator calls", "why_tests_cant": "A test can train one machine on one system; what no choice of weights can represent, or that some choice can, is a statement about all weights and all wave functions.", "anchors": ["src/flowket/machines/rbm.py: RBM, RBMSym", "src/flowket/layers/complex/dense.py: ComplexDense, TranslationInvariantComplexDense", "src/flowket/layers/complex/tensorflow_ops.py: lncosh"]}
{"id": "C150", "title": "Metropolis chains that are never restarted follow the changing weights", "statement": "The Metropolis samplers carry their chains on from batch to batch while training changes the weights, depending on what was drawn. If the log amplitudes stay close enough to those of some wave function for long enough, the joint distribution of the chains is as close as desired to independent draws from its squared amplitudes, whatever the weights were before, whatever configurations the chains are in and however the changes depend on the samples; how long and how close does not depend on the history. If the weights converge in the course of the training, the chains converge to independent draws from the squared amplitudes of the trained network. For the uniform and exchange samplers, the Hamiltonian samplers of Ising and Heisenberg models on chains and grids, and the local sampler unless all squared amplitudes are equal (see C87); for exchange and Heisenberg on the configurations with the magnetisation of the start.", "quantifier": "all wave functions, all rules by which the weights depend on the configurations drawn so far, all numbers of chains, all starts, all lattices, boundary conditions and couplings", "why_tests_cant": "It concerns the distribution of infinitely long random histories in which the transition probabilities change with the samples themselves; any test sees a single finite history for one way of training.", "anchors": ["src/flowket/samplers/metropolis_hastings.py: MetropolisHastingsSampler.__next__, machine_updated, warn_up, MetropolisHastingsSymmetricProposal._sweep, MetropolisHastingsHamiltonian", "src/flowket/optimization/variational_monte_carlo.py: VariationalMonteCarlo.__next__"]}
{"id": "C151", "title": "Stochastic reconfiguration on exact energies goes downhill and comes to rest", "statement": "Training with the generator of an ExactVariational object that holds all states in one batch and ComplexValuesStochasticReconfiguration lowers the exact energy in every step, as long as the energy is not stationary, and never raises it. The energy converges and its derivatives with respect to the weights tend to zero. This holds with the direct solver and with the iterative solver however early its tolerance or its iteration limit stops it, if the learning rate is at most twice the diagonal shift over the curvature of the energy. For networks that are linear in their weights this bound is explicit.", "quantifier": "All Hermitian operators, all lattice sizes, all networks that are holomorphic in their complex weights with bounded derivatives and energies of bounded curvature (all networks linear in their weights among them), all initial weights, both solvers, all tolerances below one, all positive iteration limits, all positive shifts, all learning rates up to the bound, all steps.", "why_tests_cant": "A test runs finitely many steps from one start with one network; that no step ever raises the energy and that the derivatives tend to zero is a statement about infinite runs from all starts.", "anchors": ["src/flowket/optimizers/stochastic_reconfiguration/optimizer.py: ComplexValuesStochasticReconfiguration.get_updates", "src/flowket/optimizers/stochastic_reconfiguration/linear_equations.py: conjugate_gradient", "src/flowket/optimization/exact_variational.py: ExactVariational.__next__"]}
{"id": "C152", "title": "How many sweeps the uniform and global Metropolis samplers need", "statement": "Let d be the mean of the squared amplitudes of all configurations divided by the largest one. After n sweeps of the uniform Metropolis sampler the probability of finding a chain in any given set of configurations differs from the probability of that set under the squared amplitudes by at most (1 - d)^n, and log(1 / e) / d sweeps are enough for an error e. The bound is sharp: for a chain that starts in the configuration of largest amplitude the difference is (1 - d)^n times the difference at the start. The same holds for the global sampler, with the mean over its proposals, and the limit of C68.", "quantifier": "All numbers of sites and chains, all wave functions, all distributions of proposals that leave no configuration out, all starts, all sets of configurations, all numbers of sweeps.", "why_tests_cant": "A test sees finitely many random sweeps of one wave function; the distance of distributions after n sweeps is an average over all random numbers, and the number of sweeps needed can be exponential in the number of sites.", "anchors": ["src/flowket/samplers/metropolis_hastings.py: MetropolisHastingsUniform, MetropolisHastingsGlobal, MetropolisHastingsSymmetricProposal", "src/flowket/samplers/metropolis_hastings.py: MetropolisHastingsSampler.__next__"]}
{"id": "C153", "title": "Large errors of the reported energy are exponentially rare", "statement": "Let the real parts of the local energies lie between a and b. If the B configurations of a batch are independent draws from the squared amplitudes, the probability that the energy the observable reports for the batch differs from the energy of the wave function by e or more is at most 2 exp(-2 B e^2 / (b - a)^2), so that (b - a)^2 / (2 e^2) log(2 / d) configurations are enough for an error below e with probability 1 - d. The same bound holds for the random numbers from which the autoregressive sampler draws the batch.", "quantifier": "All wave functions and all autoregressive networks, all batch sizes, all errors, all bounds on the local energies, Ising and Heisenberg operators on chains and grids of all sizes with both boundary conditions, all couplings, all histories of earlier calls of the operator.", "why_tests_cant": "A test draws finitely many batches of one network; probabilities that are exponentially small in the batch size cannot be measured by drawing batches.", "anchors": ["src/flowket/observables/monte_carlo/observable.py: BaseObservable.estimate", "src/flowket/observables/monte_carlo/operator.py: Observable", "src/flowket/optimization/variational_monte_carlo.py: VariationalMonteCarlo", "src/flowket/operators: Ising, Heisenberg", "src/flowket/deepar/samplers/autoregressive.py: AutoregressiveSampler.__next__", "src/flowket/samplers/__init__.py"]}
{"id": "C154", "title": "Reports from samplers that draw independently estimate the right numbers with known errors", "statement": "AutoregressiveSampler, FastAutoregressiveSampler (on the three convolutional machines, in a program that imports flowket.samplers), ExactSampler and WaveFunctionSampler turn their random numbers into independent samples of the squared amplitudes. Whichever of them draws a batch of B samples: the logged energy is right on average, its mean squared error is the variance of the local energies over B, and an error of eps or more has at most the probability 2 exp(-2 B eps^2 / width^2) if the local energies lie in an interval of that width; the logged sigma_z and abs_sigma_z are right on average, with mean squared errors of at most 1/B and 1/(4B) and exponentially rare large errors, whatever the wave function.", "quantifier": "every wave function without zeros, batch size, lattice, field and coupling, both boundary conditions, rotated or not, every history of operator calls and of refreshes of the exact object (up to 31 sites there), every accuracy eps; for the fast sampler every depth, width, kernel size, weights and lattice size of the machines and every topological order", "why_tests_cant": "Probabilities of rare events over all random numbers; a test sees a few batches of one wave function.", "anchors": ["src/flowket/samplers/exact_sampler.py: ExactSampler, WaveFunctionSampler", "src/flowket/deepar/samplers/autoregressive.py: AutoregressiveSampler", "src/flowket/deepar/samplers/fast_autoregressive.py: FastAutoregressiveSampler", "src/flowket/observables/monte_carlo/observable.py: BaseObservable.estimate", "src/flowket/observables/monte_carlo/sigma_z.py: sigma_z, abs_sigma_z"]}
{"id": "C155", "title": "An evaluation with independent samples is right up to known errors", "statement": "evaluate(generator, steps, callbacks, keys_to_progress_bar_mapping) with the default callbacks, run on a generator whose sampler draws independent samples of the model (any of the direct samplers), returns without an exception and the logs it returns are right up to sampling errors of known size: 'energy/energy' has the exact energy of the model as its mean, its mean squared error is the variance of the local energies divided by steps times the batch size, and an error of more than eps has a probability of at most 2 exp(-2 steps batch eps^2 / (b-a)^2) when the local energies lie between a and b; 'energy/local_energy_variance' is on average (1 - 1/batch) times the variance of the local energies; 'energy/relative_error' is the relative error of the reported energy; 'observables/sigma_z' and 'observables/abs_sigma_z' have the exact values of the model as their means, with the same kind of error bounds.", "quantifier": "all models, Hamiltonians (Ising and Heisenberg on chains and grids, all fields, couplings and boundary conditions), samplers that draw independent samples, batch sizes, numbers of steps, histories of the generator and of the operator before the evaluation, with or without a progress bar mapping", "why_tests_cant": "a run gives one random number per quantity; that its mean is right, how its error falls with the number of samples and how rare large errors are is a statement about all runs, and holds for every model and Hamiltonian only by proof", "anchors": ["src/flowket/evaluation/evaluate.py:evaluate", "src/flowket/callbacks/monte_carlo/__init__.py:default_wave_function_stats_callbacks_factory", "src/flowket/callbacks/monte_carlo/local_energy_stats.py:LocalEnergyStats", "src/flowket/callbacks/monte_carlo/observable.py:ObservableStats", "src/flowket/optimization/variational_monte_carlo.py:VariationalMonteCarlo"]}
{"id": "C156", "title": "The scripts' final evaluation reports the numbers of the symmetrised model with errors that shrink with the number of samples", "statement": "The evaluation at the end of experiments/train.py and in experiments/run_evaluation.py (on a square lattice with the Ising or Heisenberg model) symmetrises the model and samples from the base model. Every number it prints is that of the symmetrised model up to sampling errors of known size: the energy has the right mean, mean squared error (variance of the local energies over the number of samples) and exponentially rare large errors; the local energy variance is right on average up to the factor 1 - 1/mini_batch_size; the relative error is that of the printed energy; sigma_z and abs_sigma_z are right up to errors that shrink with the number of samples.", "quantifier": "all normalised base models with finite outputs, all sizes of the square, fields, couplings, boundary conditions, mini batch sizes, numbers of samples, true energies other than zero, samplers that draw independent samples of the base model, histories of generator and operator", "why_tests_cant": "the samples come from another distribution than the one the numbers are reported for; that the reported averages nevertheless agree for every model and every symmetric Hamiltonian, and how fast the errors fall, is a statement over all models and all random histories", "anchors": ["experiments/train.py:train", "experiments/run_evaluation.py:run", "src/flowket/machines/ensemble.py:make_2d_obc_invariants", "src/flowket/machines/ensemble.py:make_up_down_invariant", "src/flowket/evaluation/evaluate.py:evaluate"]}
{"id": "C157", "title": "Monte Carlo and exact training and evaluation with the J1-J2 operator use the J1-J2 Hamiltonian", "statement": "With the J1-J2 operator (which answers through the wrapper around NetKet and pads its answers) the whole pipeline works as with the built-in operators: for every nonempty batch of spin configurations the energy observable returns, without an exception, the local energies of the J1-J2 Hamiltonian and their average; with any sampler of independent samples the reported energy is right on average, its mean squared error is the variance of the local energies over the batch size and large errors are exponentially rare; the gradient of the training loss is on average (1 - 1/batch size) times that of the energy; stochastic gradient descent makes the expected progress; the numbers of an evaluation have the errors of all its samples together; the energy of exact evaluation is the expected value of the Hamiltonian and real.", "quantifier": "all lattice sizes (periodic ones from 3x3; exact evaluation up to 31 sites), couplings j2, both boundary conditions, orders of NetKet's local states, histories of calls of the operator, batches, wave functions, machines differentiable in their weights, samplers of independent samples, batch and mini-batch sizes, random numbers", "why_tests_cant": "the rows of zeros that pad the answers and the unused flags meet the ratio of wave functions, the batching of the energy observable and the training loop; that they never change a number has to hold for every wave function, batch and history, and the averages are over all random numbers", "anchors": ["src/flowket/operators/j1j2.py:j1j2_two_dim_operator", "src/flowket/operators/netket_operator.py:NetketOperatorWrapper", "src/flowket/observables/monte_carlo/operator.py:Operator", "src/flowket/optimization/variational_monte_carlo.py:VariationalMonteCarlo", "src/flowket/optimization/exact_variational.py:ExactObservable", "src/flowket/evaluation/evaluate.py:evaluate"]}
{"id": "C158", "title": "Larger batches give better gradients and bring plain gradient descent closer to rest", "statement": "With any of the samplers that draw independent samples, the gradient that one batch of VariationalMonteCarlo contributes through loss_for_energy_minimization misses the true derivative of the energy by a mean square error of at most a constant (64 times the squared bound of the logarithmic derivatives of the model) times the spread of the local energies, divided by the batch size; for an eigenstate the spread is zero. Consequently, training with plain SGD at an effective learning rate of at most (1 - 1/B)/K, where K bounds the curvature of the energy, lowers the expected energy with every batch up to noise divided by the batch size B, and the average squared energy gradient met during training falls below any level above a plateau that is proportional to the learning rate and to 1/(B - 1): larger batches bring training closer to rest.", "quantifier": "for all built-in Hamiltonians (Ising and Heisenberg on chains and grids, J1-J2 on grids), lattice sizes, couplings, earlier calls of the operator, independent samplers and random numbers, batch and mini-batch sizes, differentiable models with bounded logarithmic derivatives, learning rates and numbers of training steps", "why_tests_cant": "it is about expected values over all random numbers of training runs of every length, for every model and batch size; a test sees single noisy runs and cannot tell a plateau that shrinks with the batch size from one that does not", "anchors": ["src/flowket/optimization/variational_monte_carlo.py: VariationalMonteCarlo.next_batch", "src/flowket/optimization/loss.py: loss_for_energy_minimization", "src/flowket/observables/monte_carlo/operator.py: Observable.local_values", "src/flowket/optimizers/accumulate_gradient_optimizer.py: convert_to_accumulate_gradient_optimizer", "src/flowket/optimization/mini_batch_generator.py: MiniBatchGenerator"]}
{"id": "C159", "title": "A symmetrised model can be evaluated and trained with samples of its base model", "statement": "The functions that symmetrise a model (make_up_down_invariant, make_pbc_invariants, make_2d_obc_invariants with the default probabilistic=True), applied in any order and number, give models that cannot be sampled directly. Sampling the base model instead is correct whenever the Hamiltonian has the imposed symmetries (translations: periodic boundaries): evaluate with the symmetrised model and a sampler of independent samples of the base model ends without an exception and reports the energy, local energy variance, relative error and mean absolute magnetisation of the symmetrised model, right on average and with the errors of that many independent samples; and the gradient of the training loss of a batch is on average (1 - 1/batch size) times the derivative of the energy of the symmetrised model, with a mean square error that shrinks in proportion to the batch size.", "quantifier": "all side lengths of the square lattice, nestings of the symmetrising functions, base models with finite outputs and normalised probabilities, samplers of independent samples of the base model, batch sizes, numbers of evaluation steps, random numbers, couplings and boundary conditions of Ising, Heisenberg and J1-J2 (periodic J1-J2 from 3x3), earlier calls of the operator, differentiable paths of parameters", "why_tests_cant": "the samples follow another distribution than the wave function whose energy is reported, and that this does not matter is an identity between averages over all configurations and all batches, for every model and every nesting; a test on random batches cannot tell a small bias from noise", "anchors": ["src/flowket/machines/ensemble.py: make_up_down_invariant, make_pbc_invariants, make_2d_obc_invariants, probabilistic_ensemble_op", "src/flowket/evaluation/evaluate.py: evaluate", "src/flowket/optimization/variational_monte_carlo.py: VariationalMonteCarlo", "experiments/run_evaluation.py: run"]}
{"id": "C160", "title": "Energies and training targets do not depend on how the lattice is laid out", "statement": "The same model on the same sites gives the same energy, variance, local energies and training targets, however the sites are arranged in the shape given to the operator: a chain of n sites may be described by the shape (n,), (n, 1) or (1, n), and a grid (n, m) by the turned shape (m, n), when the samples and the network are rearranged accordingly.", "quantifier": "all lattice sizes, couplings, fields, boundary conditions, signs of the exchange, batches of spin configurations, networks and earlier calls of the operators (Ising and Heisenberg; J1-J2 on grids, periodic ones from 3x3)", "why_tests_cant": "each arrangement takes other branches and array shapes of the operators; equality has to hold for every batch, network and history, and a test compares a few small lattices", "anchors": ["src/flowket/operators/ising.py: Ising.find_conn", "src/flowket/operators/heisenberg.py: Heisenberg.find_conn, HeisenbergFindConn", "src/flowket/operators/j1j2.py: j1j2_two_dim_operator", "src/flowket/observables/monte_carlo/operator.py: Observable"]}
{"id": "C161", "title": "The local energies of a batch cost one network call on little more than the needed configurations", "statement": "Computing the local values of an operator over a batch of B configurations calls the wave function exactly once, on one array. The array holds every sample of the batch and besides only configurations that find_conn connects with a sample; at least 95 percent of its rows are needed (have a nonzero matrix element or are a sample). For the Ising operator it has exactly B * (sites + 1) rows: the samples and the samples with one spin flipped. For the Heisenberg operator the needed rows are one for each sample and one for each bond of unequal spins in it, and every row is a sample or a sample with the two unequal spins of a bond exchanged. The generator's wave_function goes through the array in ceil(rows / wave_function_evaluation_batch_size) forward passes, none larger than that size; the local values are (H psi)(s) / psi(s) whatever this size is, and depend on the wave function at the rows of the array only.", "quantifier": "every lattice (chains, grids, periodic or open), couplings, batch of spin configurations, wave function, evaluation batch size, and history of earlier calls of the operator; the general part for every operator that keeps to the contract of find_conn", "why_tests_cant": "Which strategy is taken and how many rows are evaluated depends on the configurations of the batch; the bound must hold for all of them, and that the result does not depend on other values of the wave function is a statement about all pairs of wave functions.", "anchors": ["src/flowket/observables/monte_carlo/operator.py: get_flat_local_connections_log_values, Observable.local_values, Observable.local_values_optimized_for_unbalanced_local_connections, Observable.local_values_optimized_for_balanced_local_connections", "src/flowket/optimization/variational_monte_carlo.py: VariationalMonteCarlo.__init__ (wave_function, wave_function_evaluation_batch_size)", "src/flowket/operators/ising.py: Ising.find_conn", "src/flowket/operators/heisenberg.py: Heisenberg.find_conn"]}
{"id": "C162", "title": "Training a symmetrised model with samples of its base model makes progress", "statement": "Plain gradient descent (SGD behind gradient accumulation) on a symmetrised model, with batches that a sampler draws independently from the base model at the current weights, behaves like gradient descent with samples of the symmetrised model itself: with a small enough learning rate the mean energy of the symmetrised model falls with every batch up to a noise term, the squared gradients met on the way are on average at most 2 (E - m) / (rate (1 - 1/B) T) plus a plateau, and the plateau shrinks in proportion to the learning rate and to 1/(B - 1).", "quantifier": "all side lengths of the square lattice, nestings of the symmetrising functions with probabilistic=True, base models with any number of weights, finite outputs and normalised probabilities whose symmetrised wave function is differentiable with bounded logarithmic derivatives and bounded change of the energy gradient, samplers of independent samples of the base model, batch sizes from 2, mini-batch sizes that divide them, both accumulation modes, learning rates up to the bound, numbers of batches, random numbers, couplings and boundary conditions of Ising, Heisenberg and J1-J2 (periodic J1-J2 from 3x3), earlier calls of the operator", "why_tests_cant": "it is a statement about the mean over all random runs of unbounded length with samples of another distribution than the one whose energy is minimised; single runs that go down or up prove nothing", "anchors": ["src/flowket/machines/ensemble.py: make_up_down_invariant, make_pbc_invariants, make_2d_obc_invariants", "src/flowket/optimization/variational_monte_carlo.py: VariationalMonteCarlo", "src/flowket/optimization/mini_batch_generator.py: MiniBatchGenerator", "src/flowket/optimizers/accumulate_gradient_optimizer.py: convert_to_accumulate_gradient_optimizer"]}
{"id": "C163", "title": "Training in stages with falling learning rates or growing batches comes to rest", "statement": "Training in stages, each with its own batch size, mini-batch size, number of batches and learning rate, on one optimizer (plain SGD behind gradient accumulation) with independent samples at the current weights: with small enough learning rates, every batch of every stage lowers the mean energy in proportion to the mean squared gradient, up to a noise term in rate^2 / B; the squared gradients met in all stages are bounded together by 2 (E - m) plus the sum of the noise terms; and if the learning rates fall, or the batches grow, so that the sum of T rate (1 - 1/B) over the stages is unbounded while the sum of T rate^2 / B is of smaller order, the weighted mean of the squared gradients tends to zero: no plateau is left. The same holds for a symmetrised model whose batches are drawn from its base model, as in C162.", "quantifier": "all sequences of stages (batch sizes from 2, mini-batch sizes that divide them, numbers of batches, learning rates up to the bound, samplers of independent samples) in which every stage starts at a number of steps that is a multiple of its number of mini-batches per batch, both accumulation modes, numbers of stages and of batches of the last one, networks with any number of weights, bounded logarithmic derivatives and bounded change of the energy gradient, random numbers, lattices, couplings and boundary conditions of Ising (chains and square lattices), Heisenberg and J1-J2; nestings of the symmetrising functions with probabilistic=True on square lattices", "why_tests_cant": "it is a statement about the mean over all random runs through arbitrarily many stages and about a limit; single runs show neither the mean nor the limit", "anchors": ["experiments/train.py: train", "src/flowket/optimization/variational_monte_carlo.py: VariationalMonteCarlo", "src/flowket/optimization/mini_batch_generator.py: MiniBatchGenerator", "src/flowket/optimizers/accumulate_gradient_optimizer.py: convert_to_accumulate_gradient_optimizer", "src/flowket/machines/ensemble.py: make_up_down_invariant, make_pbc_invariants, make_2d_obc_invariants"]}
{"id": "C164", "title": "The order of the samples in a batch does not matter", "statement": "If the same samples arrive in another order, the reported energy and variance are the same, every local energy and every training target goes with its sample, a step of stochastic reconfiguration (either solver) is the same, and two training runs with any optimizer whose samplers return the same samples in different orders, which may change from batch to batch, have the same weights after every batch.", "quantifier": "all batch sizes, permutations, batches of spins, networks, derivatives, optimizers, both accumulation modes, mini-batch sizes that divide the batch size (otherwise the last samples are dropped, see C25), numbers of batches, random numbers, learning rates, shifts, tolerances, lattices, couplings and boundary conditions of Ising, Heisenberg and J1-J2 (periodic J1-J2 from 3x3), earlier calls of the operator", "why_tests_cant": "there are B! orders of a batch, and mini-batches split each of them differently; a test tries a few", "anchors": ["src/flowket/optimization/variational_monte_carlo.py: VariationalMonteCarlo", "src/flowket/optimization/mini_batch_generator.py: MiniBatchGenerator", "src/flowket/observables/monte_carlo/operator.py: Observable.local_values", "src/flowket/observables/monte_carlo/observable.py: BaseObservable.estimate", "src/flowket/optimizers/stochastic_reconfiguration/optimizer.py: ComplexValuesStochasticReconfiguration", "src/flowket/optimizers/accumulate_gradient_optimizer.py: convert_to_accumulate_gradient_optimizer"]}
{"id": "C165", "title": "Adam makes up for summed mini-batches and takes no long steps", "statement": "Training with Adam and accumulation that sums the gradients of the mini-batches, as in the training scripts, gives after every batch exactly the weights of training on whole batches with epsilon divided by the number of mini-batches per batch (plain gradient descent would multiply the learning rate instead). With equal decay rates beta_1 = beta_2, as in the training scripts, no training step moves any weight by more than the learning rate, and through any stages no weight ends further from where it started than the sum over the stages of the number of batches times the learning rate. With the decay rates 0.9 and 0.999 of the other scripts the bound on a single step fails.", "quantifier": "all learning rates, decay rates and epsilon, batch and mini-batch sizes, numbers of batches, samplers, loss gradients, modes of accumulation, lists of stages (aligned or not) and histories of the optimizer", "why_tests_cant": "The bound must hold for every sequence of gradients, however large or however long in coming, and every history of earlier updates with other learning rates; a run only shows the gradients that happened to come up.", "anchors": ["experiments/train.py: compile_model, run", "examples/ising.py", "src/flowket/optimizers/accumulate_gradient_optimizer.py: convert_to_accumulate_gradient_optimizer", "src/flowket/optimization/mini_batch_generator.py: MiniBatchGenerator"]}
{"id": "C166", "title": "Energies are linear in the couplings and the unit of energy does not matter", "statement": "For the same samples and wave function, the energy, the local energies and the training targets of Ising(h, j) (float h) are h times those of Ising(1, 0) plus j times those of Ising(0, 1), and those of the J1-J2 model are 1 - j2 times those for j2 = 0 plus j2 times those for j2 = 1. If both couplings of the Ising model are multiplied by the same positive factor, reported energies and local energies are multiplied by it and variances by its square; training gives exactly the same weights after every batch if the learning rate of plain gradient descent or of stochastic reconfiguration (direct solver) is divided by the factor, or if epsilon of Adam is multiplied by it.", "quantifier": "all couplings, positive factors, chain lengths and grid sizes, boundary conditions, wave functions and networks, batches of spin configurations, samplers, mini-batch sizes dividing the batch size, numbers of batches, and earlier calls of the operators", "why_tests_cant": "It relates whole training runs for infinitely many couplings, networks and sample sequences; float tests compare a few runs within tolerance.", "anchors": ["src/flowket/operators/ising.py: Ising.find_conn", "src/flowket/operators/j1j2.py: j1j2_two_dim_operator", "src/flowket/observables/monte_carlo/operator.py: Operator.local_values", "src/flowket/optimization/variational_monte_carlo.py: VariationalMonteCarlo", "src/flowket/optimization/loss.py: loss_for_energy_minimization", "src/flowket/optimizers/stochastic_reconfiguration/optimizer.py: ComplexValuesStochasticReconfiguration"]}
{"id": "C167", "title": "What a batch of samples costs", "statement": "AutoregressiveSampler evaluates the network exactly once per site, always on the whole batch, the k-th time on the values of the first k sites with zeros elsewhere. A Metropolis sampler (any proposal) evaluates it, on one configuration per chain each time, once for the chains, unused_sampels + 1 times per returned row of a chain, and unused_sampels times per discarded row (samples_per_chain // discard_ratio rows), and on nothing else: a network that agrees on these arrays gives the same batch. In particular, with the default settings nothing is spent on discarded rows.", "quantifier": "all networks, batch sizes, numbers of chains, unused samples, discard ratios, site orders, proposals, Hamiltonians, random numbers and states of the chains", "why_tests_cant": "Counting calls in a run covers one size and one network; that no other configuration is ever evaluated must hold for every network and every sequence of accepted and rejected moves.", "anchors": ["src/flowket/deepar/samplers/autoregressive.py: AutoregressiveSampler.__next__", "src/flowket/samplers/metropolis_hastings.py: MetropolisHastingsSampler.__next__, warn_up, MetropolisHastingsSymmetricProposal._sweep, MetropolisHastingsHamiltonian._sweep"]}
{"id": "C168", "title": "Stochastic reconfiguration does not depend on how the network is parametrised", "statement": "Take two complex models that compute the same wave functions up to an invertible linear change A of their weights, started with the same wave function. Trained by stochastic reconfiguration (direct solver) without diagonal shift, they have the same wave function after every step (their weights stay related by A), or meet a singular system at the same step; with any diagonal shift the same holds for unitary A, so in particular for another order of the weights and another split into tensors. With a diagonal shift and an A that is not unitary the steps differ.", "quantifier": "all numbers of weights and samples, invertible or unitary linear maps, differentiable networks, learning rates, shifts, numbers of steps, and samplers and targets that depend on the wave function in any way", "why_tests_cant": "The claim quantifies over all linear changes of the weights and over whole training runs; finite tests fix one network and one change and can only compare floats within tolerance.", "anchors": ["src/flowket/optimizers/stochastic_reconfiguration/optimizer.py: ComplexValuesStochasticReconfiguration.get_updates", "src/flowket/optimizers/complex_values_optimizer.py: ComplexValuesOptimizer.apply_complex_gradient", "src/flowket/optimization/variational_monte_carlo.py: VariationalMonteCarlo.next_batch"]}
{"id": "C169", "title": "The reported exact energy stays within the range that the couplings allow", "statement": "Whatever a network computes, whichever networks were evaluated before and whichever batch size is used, the exact energy reported for the Ising operator is a real number at most |h| per site plus |j| per bond away from zero, and that of the Heisenberg operator lies between -3 and 1 per bond, with and without unitary rotation. The bonds are n on a periodic chain of n sites, n - 1 on an open one, and the same for every row and column of a grid, where a direction with a single site has none. The J1-J2 operator allows minus three to one for every pair of nearest neighbours plus j2 times that for every diagonal pair. The upper bound of the Heisenberg model and the lower bound of the Ising model without coupling are the energies of the constant wave function.", "quantifier": "all networks, histories of evaluations, accepted batch sizes, couplings, periodic and open chains and grids of up to 31 sites (Heisenberg chains of at least two; J1-J2 grids, periodic ones from three by three on), with and without rotation", "why_tests_cant": "The bound holds for every wave function on exponentially many configurations; a test evaluates a few networks, none of which needs to come near the bound.", "anchors": ["src/flowket/optimization/exact_variational.py: ExactVariational", "src/flowket/operators/ising.py: Ising.find_conn", "src/flowket/operators/heisenberg.py: Heisenberg.find_conn", "src/flowket/operators/j1j2.py: j1j2_two_dim_operator"]}
{"id": "C170", "title": "The Heisenberg and J1-J2 operators conserve the total spin", "statement": "Without unitary rotation, applying the Heisenberg operator (its connections and matrix elements) to the wave function S^2 psi gives S^2 applied to what the operator makes of psi, where S^2 is the squared total spin; the J1-J2 operator does the same for every j2. Hence an eigenstate whose energy belongs to no other state has a definite total spin. The rotated Heisenberg operator does not conserve the total spin, already on an open chain of three sites.", "quantifier": "all wave functions, spin configurations, batches and earlier calls, chains and grids of every size, periodic or open (periodic J1-J2 grids from three by three on), all j2", "why_tests_cant": "Commutation is a statement about all wave functions on exponentially many configurations and about every lattice size; tests compare matrices of small lattices.", "anchors": ["src/flowket/operators/heisenberg.py: Heisenberg.find_conn", "src/flowket/operators/j1j2.py: j1j2_two_dim_operator", "examples/j1j2_2d_exact_4.py: total_spin_netket_operator"]}
{"id": "C171", "title": "The signs of the Ising couplings only redefine the wave function", "statement": "The Ising operator with field -h reports for a network whose amplitudes are multiplied by the product of all spins the same energy, variance, local energies and training targets as with field h for the original network and the same samples. On open lattices, and on periodic ones with an even number of sites along every axis, the operator with coupling -j reports for the network and the samples with the spins of one of the two sublattices reversed the same as with coupling j for the original ones. On a periodic chain of three sites no choice of spins to be reversed does this.", "quantifier": "all networks, batches of spin configurations, couplings, fields, chains and grids of every size", "why_tests_cant": "The claim relates the results for every network and batch on lattices of every size; a test compares floats for a few.", "anchors": ["src/flowket/operators/ising.py: Ising.find_conn", "src/flowket/observables/monte_carlo/operator.py: Observable", "src/flowket/optimization/variational_monte_carlo.py: VariationalMonteCarlo.next_batch"]}
{"id": "C172", "title": "Small changes of the couplings change the energies only a little", "statement": "For every network the exact energies reported with two Ising operators on the same lattice are real numbers that differ by at most |h - h'| per site plus |j - j'| per bond, whichever networks either object evaluated before and whichever batch sizes they use. The ground energies of the two Hamiltonians differ by no more, on lattices of every size. Two J1-J2 operators on the same grid report energies that differ by at most 3 |j2 - j2'| per diagonal pair.", "quantifier": "all networks, histories of evaluations, accepted batch sizes, couplings and fields, periodic and open chains and grids (of up to 31 sites for the reported energies, every size for the ground energies; J1-J2 grids of up to 31 sites, periodic ones from three by three on)", "why_tests_cant": "The bound holds for every wave function on exponentially many configurations and for a continuum of couplings; a test evaluates a few networks at a few couplings.", "anchors": ["src/flowket/optimization/exact_variational.py: ExactVariational", "src/flowket/operators/ising.py: Ising.find_conn", "src/flowket/operators/j1j2.py: j1j2_two_dim_operator"]}
