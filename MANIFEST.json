{
 "claims": [
  {
   "property": "C01",
   "status": "partial",
   "theorems": [
    "Verif.Exact.C01_number_roundtrip",
    "Verif.Exact.C01_spins_roundtrip",
    "Verif.Exact.C01_table_complete",
    "Verif.Exact.C01_array_decode",
    "Verif.Exact.C01_array_encode_partial",
    "Verif.Exact.C01_array_encode_wraps"
   ],
   "note": "Holds for the scalar functions and for arrays of up to 31 digits. The code violates it beyond: the int32 result array wraps from 32 digits on and every call fails from 64 digits on (C01_array_encode_wraps)."
  },
  {
   "property": "C02",
   "status": "partial",
   "theorems": [
    "Verif.Exact.C02_exact_vector",
    "Verif.Exact.C02_rejected",
    "Verif.Exact.C02_vector_machine_partial",
    "Verif.Exact.C02_vector_machine_wraps",
    "Verif.Exact.C02_vector_roundtrip_partial"
   ],
   "note": "Enumeration part proved in full; vector_to_machine proved up to 32 sites, violated by the code for 33 to 63 sites (int32 index wraps, C02_vector_machine_wraps)."
  },
  {
   "property": "C03",
   "status": "proved",
   "theorems": [
    "Verif.Ordering.C03_raster_complete",
    "Verif.Ordering.C03_raster_position"
   ],
   "note": ""
  },
  {
   "property": "C04",
   "status": "partial",
   "theorems": [
    "Verif.Ordering.C04_zigzag_partial",
    "Verif.Ordering.C04_rejects",
    "Verif.Ordering.C04_zigzag_small"
   ],
   "note": "Proved for n >= 2 and for rejection of non-squares; the code violates it for n <= 1 (C04_zigzag_small)."
  },
  {
   "property": "C05",
   "status": "proved",
   "theorems": [
    "Verif.Ordering.C05_gather_inverse"
   ],
   "note": ""
  },
  {
   "property": "C06",
   "status": "proved",
   "theorems": [
    "Verif.Operators.C06_ising_chain",
    "Verif.Operators.C06_ising_grid"
   ],
   "note": ""
  },
  {
   "property": "C07",
   "status": "proved",
   "theorems": [
    "Verif.Operators.C07_heisenberg_grid",
    "Verif.Operators.C07_heisenberg_chain"
   ],
   "note": ""
  },
  {
   "property": "C08",
   "status": "partial",
   "theorems": [
    "Verif.Operators.C08_rotation_partial",
    "Verif.Operators.C08_spectrum_partial",
    "Verif.Operators.C08_violated",
    "Verif.Operators.C08_rotation_chain_partial",
    "Verif.Operators.C08_spectrum_chain_partial",
    "Verif.Operators.C08_violated_chain"
   ],
   "note": "Proved on every lattice and chain whose bonds join two sublattices (open, or even lengths), for the action and for the eigenvalues. The code violates it on periodic lattices with an odd length (C08_violated, C08_violated_chain: the three-site ring has eigenvalue -5 only when rotated)."
  },
  {
   "property": "C09",
   "status": "proved",
   "theorems": [
    "Verif.Operators.C09_ising_chain",
    "Verif.Operators.C09_ising_grid",
    "Verif.Operators.C09_heisenberg_grid",
    "Verif.Operators.C09_heisenberg_chain"
   ],
   "note": ""
  },
  {
   "property": "C10",
   "status": "proved",
   "theorems": [
    "Verif.Operators.C10_heisenberg_grid",
    "Verif.Operators.C10_heisenberg_chain",
    "Verif.Operators.C10_ising_chain",
    "Verif.Operators.C10_ising_grid",
    "Verif.Operators.C10_heisenberg_chain_all"
   ],
   "note": ""
  },
  {
   "property": "C11",
   "status": "proved",
   "theorems": [
    "Verif.Operators.C11_ising_chain",
    "Verif.Operators.C11_ising_grid",
    "Verif.Operators.C11_heisenberg_grid",
    "Verif.Operators.C11_heisenberg_chain"
   ],
   "note": ""
  },
  {
   "property": "C12",
   "status": "partial",
   "theorems": [
    "Verif.Operators.C12_history_independent_grid",
    "Verif.Operators.C12_history_independent_chain",
    "Verif.Operators.C12_results_stay_partial",
    "Verif.Operators.C12_aliasing_violated"
   ],
   "note": "First half (values do not depend on history) proved in full. Second half proved as long as no later call has the same batch size; otherwise the code overwrites earlier results (C12_aliasing_violated)."
  },
  {
   "property": "C13",
   "status": "partial",
   "theorems": [
    "Verif.Operators.C13_shape_kept_partial",
    "Verif.Operators.C13_violated",
    "Verif.Operators.C13_sites_kept_partial"
   ],
   "note": "Proved for 2-D operators; violated for every 1-D Heisenberg operator (C13_violated)."
  },
  {
   "property": "C14",
   "status": "partial",
   "theorems": [
    "Verif.Operators.C14_sound",
    "Verif.Operators.C14_zero_sector_partial",
    "Verif.Operators.C14_violated"
   ],
   "note": "Everything returned is right (C14_sound), and the zero sector of even lattices succeeds; every other request raises (C14_violated)."
  },
  {
   "property": "C15",
   "status": "proved",
   "theorems": [
    "Verif.J1J2.C15_edges",
    "Verif.J1J2.C15_edges_in_lattice",
    "Verif.J1J2.C15_small_periodic"
   ],
   "note": "C15_small_periodic shows why periodic lattices below size three are excluded."
  },
  {
   "property": "C16",
   "status": "partial",
   "theorems": [
    "Verif.Netket.C16_padding_neutral",
    "Verif.Netket.C16_rows_monotone",
    "Verif.Netket.C16_old_interface_violated"
   ],
   "note": "Proved for the new NetKet interface. With the old interface every non-empty call raises (C16_old_interface_violated)."
  },
  {
   "property": "C17",
   "status": "proved",
   "theorems": [
    "Verif.Energy.C17_strategies_agree",
    "Verif.Energy.C17_needs_contract"
   ],
   "note": ""
  },
  {
   "property": "C18",
   "status": "proved",
   "theorems": [
    "Verif.Energy.C18_ising_chain",
    "Verif.Energy.C18_ising_grid",
    "Verif.Energy.C18_heisenberg_grid",
    "Verif.Energy.C18_heisenberg_chain"
   ],
   "note": ""
  },
  {
   "property": "C19",
   "status": "proved",
   "theorems": [
    "Verif.Energy.Exact.C19_probabilities"
   ],
   "note": ""
  },
  {
   "property": "C20",
   "status": "proved",
   "theorems": [
    "Verif.Energy.Exact.C20_exact_energy",
    "Verif.Energy.Exact.C20_ising_chain",
    "Verif.Energy.Exact.C20_ising_grid",
    "Verif.Energy.Exact.C20_heisenberg_grid",
    "Verif.Energy.Exact.C20_heisenberg_chain"
   ],
   "note": "General theorem for every Hermitian row-wise operator plus end-to-end instances for both Hamiltonians on chains and grids (up to 31 sites, where the int32 state numbers do not wrap)."
  },
  {
   "property": "C21",
   "status": "proved",
   "theorems": [
    "Verif.Energy.Exact.C21_gradient"
   ],
   "note": ""
  },
  {
   "property": "C22",
   "status": "proved",
   "theorems": [
    "Verif.Energy.Exact.C22_accepted",
    "Verif.Energy.Exact.C22_batch_independent"
   ],
   "note": ""
  },
  {
   "property": "C23",
   "status": "proved",
   "theorems": [
    "Verif.Energy.Exact.C23_generator",
    "Verif.Energy.Exact.C23_each_state_once"
   ],
   "note": ""
  },
  {
   "property": "C24",
   "status": "proved",
   "theorems": [
    "Verif.Energy.Exact.C24_monte_carlo",
    "Verif.Energy.Exact.C24_exact"
   ],
   "note": ""
  },
  {
   "property": "C25",
   "status": "partial",
   "theorems": [
    "Verif.Training.C25_sequence",
    "Verif.Training.C25_partition_partial",
    "Verif.Training.C25_tail_dropped"
   ],
   "note": "Every served index is in range and batches are disjoint consecutive slices (C25_sequence); they cover the whole batch when the mini batch size divides it (C25_partition_partial). The code drops the remainder otherwise (C25_tail_dropped)."
  },
  {
   "property": "C26",
   "status": "proved",
   "theorems": [
    "Verif.Training.C26_fresh_after_change",
    "Verif.Training.C26_history"
   ],
   "note": ""
  },
  {
   "property": "C27",
   "status": "proved",
   "theorems": [
    "Verif.Training.C27_accumulation_is_big_batch",
    "Verif.Training.C27_rejects"
   ],
   "note": ""
  },
  {
   "property": "C28",
   "status": "partial",
   "theorems": [
    "Verif.Training.C28_first_update_after_change",
    "Verif.Training.C28_change_partial",
    "Verif.Training.C28_violated"
   ],
   "note": "C28_first_update_after_change gives the exact behaviour for a change at any moment; the claim itself holds when the change happens right after an update and the step counter is a multiple of the new frequency (C28_change_partial). The code violates it at other moments (C28_violated)."
  },
  {
   "property": "C29",
   "status": "proved",
   "theorems": [
    "Verif.Training.C29_ema_is_average",
    "Verif.Training.C29_ema_idempotent",
    "Verif.Training.C29_ema_constant",
    "Verif.Training.C29_ema_before_update"
   ],
   "note": ""
  },
  {
   "property": "C30",
   "status": "proved",
   "theorems": [
    "Verif.Optimizers.C30_complex_update"
   ],
   "note": ""
  },
  {
   "property": "C31",
   "status": "proved",
   "theorems": [
    "Verif.Optimizers.C31_join_of_split",
    "Verif.Optimizers.C31_split_of_join",
    "Verif.Optimizers.C31_too_short_refused"
   ],
   "note": ""
  },
  {
   "property": "C32",
   "status": "proved",
   "theorems": [
    "Verif.Optimizers.SR.C32_positive_semidefinite",
    "Verif.Optimizers.SR.C32_is_covariance",
    "Verif.Optimizers.SR.C32_unique_solution",
    "Verif.Optimizers.SR.C32_product",
    "Verif.Optimizers.SR.C32_product_via_jvp",
    "Verif.Optimizers.SR.C32_iterative",
    "Verif.Optimizers.SR.C32_update",
    "Verif.Optimizers.SR.C32_update_iterative"
   ],
   "note": ""
  },
  {
   "property": "C33",
   "status": "proved",
   "theorems": [
    "Verif.Optimizers.CG.C33_result",
    "Verif.Optimizers.CG.C33_deterministic",
    "Verif.Optimizers.CG.C33_terminates",
    "Verif.Optimizers.CG.C33_exact"
   ],
   "note": ""
  },
  {
   "property": "C34",
   "status": "proved",
   "theorems": [
    "Verif.Autoregressive.C34_real",
    "Verif.Autoregressive.C34_complex"
   ],
   "note": ""
  },
  {
   "property": "C35",
   "status": "proved",
   "theorems": [
    "Verif.Autoregressive.C35_normalised",
    "Verif.Autoregressive.C35_needs_order"
   ],
   "note": ""
  },
  {
   "property": "C36",
   "status": "proved",
   "theorems": [
    "Verif.Autoregressive.C36_distribution",
    "Verif.Autoregressive.C36_spins"
   ],
   "note": ""
  },
  {
   "property": "C37",
   "status": "partial",
   "theorems": [
    "Verif.Autoregressive.C37_inverted",
    "Verif.Autoregressive.C37_violated",
    "Verif.Autoregressive.C37_symmetric_partial"
   ],
   "note": "Violated: C37_inverted gives the exact distribution with zero_base=True (value one drawn with the probability of category zero), C37_violated a witness. Holds only when both categories are equally likely (C37_symmetric_partial)."
  },
  {
   "property": "C38",
   "status": "proved",
   "theorems": [
    "Verif.Machines.C38_real",
    "Verif.Machines.C38_complex"
   ],
   "note": ""
  },
  {
   "property": "C39",
   "status": "proved",
   "theorems": [
    "Verif.Machines.C39_causal",
    "Verif.Machines.C39_even_rejected"
   ],
   "note": "Even kernel sizes are rejected by the constructor (C39_even_rejected), odd ones are autoregressive."
  },
  {
   "property": "C40",
   "status": "proved",
   "theorems": [
    "Verif.Machines.C40_causal"
   ],
   "note": ""
  },
  {
   "property": "C41",
   "status": "partial",
   "theorems": [
    "Verif.Net.C41_violated_periodic",
    "Verif.Net.C41_violated_oneHot",
    "Verif.Net.C41_violated_gather_channels",
    "Verif.Net.C41_violated_concat_channels",
    "Verif.Net.C41_single_partial"
   ],
   "note": "True for every layer configuration in Layer.Supported. Missing, because false in the code: PeriodicPadding longer than the axis, one-hot layers, gathering the channel axis and concatenating along the channel axis given as a positive number when values carry no spatial axes, as in the sampler (C41_violated_*)."
  },
  {
   "property": "C42",
   "status": "partial",
   "theorems": [
    "Verif.Net.C42_violated_gather",
    "Verif.Net.C42_violated_concat",
    "Verif.Net.C42_violated_concat_value",
    "Verif.Net.C42_violated_reshape",
    "Verif.Net.C42_violated_reshape_unknown",
    "Verif.Net.C42_gather_partial",
    "Verif.Net.C42_reshape_partial",
    "Verif.Net.C42_concat_partial"
   ],
   "note": "Proved for GatherLayer and Concatenate with axes counted from the front and for Reshape targets without an unknown size; targets whose unknown size comes first are covered by C41_single_partial. Missing, because false in the code: negative axes are resolved wrongly, the Reshape layer cannot be queried with the keyword the dependency graph uses, an unknown size that is not first gives a wrong location (C42_violated_*)."
  },
  {
   "property": "C43",
   "status": "proved",
   "theorems": [
    "Verif.Net.C43_consistent",
    "Verif.Net.C43_unique",
    "Verif.Net.C43_any_order",
    "Verif.Net.C43_plain",
    "Verif.Net.C43_plain_sampler"
   ],
   "note": "Every network whose layers are in the configurations of Layer.Supported with extra = 0 (the configurations for which C41 holds), every topological order, every draw function; equality with the plain sampler for every causal site order."
  },
  {
   "property": "C44",
   "status": "partial",
   "theorems": [
    "Verif.Net.C44_violated_assert",
    "Verif.Net.C44_accepted_causal",
    "Verif.Net.C44_cyclic_rejected",
    "Verif.Net.C44_fast_sampler_iff"
   ],
   "note": "The fast sampler can be built exactly for acyclic dependency graphs, and never for models with cyclic conditionals. assert_valid_probabilistic_model accepts cyclic models (C44_violated_assert), because the generator returned by networkx.topological_sort is never iterated."
  },
  {
   "property": "C45",
   "status": "partial",
   "theorems": [
    "Verif.Sizes.C45_mini_at_most_batch",
    "Verif.Sizes.C45_copy",
    "Verif.Sizes.C45_fast_iff",
    "Verif.Sizes.C45_violated_fast",
    "Verif.Sizes.C45_ensemble",
    "Verif.Sizes.C45_metropolis"
   ],
   "note": "False in the code for FastAutoregressiveSampler: C45_fast_iff shows that the number of rows is the batch size exactly if the mini-batch size divides it, C45_violated_fast gives 900 rows for 1000/300. Ensemble, Metropolis and copying are proved. The plain and exact samplers allocate arrays of batch_size rows (C36, C69)."
  },
  {
   "property": "C46",
   "status": "proved",
   "theorems": [
    "Verif.Metropolis.C46_next",
    "Verif.Metropolis.C46_succeeds",
    "Verif.Metropolis.C46_ratio",
    "Verif.Metropolis.C46_counts"
   ],
   "note": ""
  },
  {
   "property": "C47",
   "status": "proved",
   "theorems": [
    "Verif.Metropolis.C47_in_step",
    "Verif.Metropolis.C47_decision"
   ],
   "note": ""
  },
  {
   "property": "C48",
   "status": "proved",
   "theorems": [
    "Verif.Metropolis.C48_local",
    "Verif.Metropolis.C48_exchange",
    "Verif.Metropolis.C48_uniform"
   ],
   "note": ""
  },
  {
   "property": "C49",
   "status": "proved",
   "theorems": [
    "Verif.Metropolis.C49_symmetric",
    "Verif.Metropolis.C49_ising_chain",
    "Verif.Metropolis.C49_ising_grid",
    "Verif.Metropolis.C49_heisenberg_grid",
    "Verif.Metropolis.C49_heisenberg_chain"
   ],
   "note": ""
  },
  {
   "property": "C50",
   "status": "proved",
   "theorems": [
    "Verif.Metropolis.C50_local",
    "Verif.Metropolis.C50_exchange",
    "Verif.Metropolis.C50_uniform",
    "Verif.Metropolis.C50_start",
    "Verif.Metropolis.C50_ising",
    "Verif.Metropolis.C50_heisenberg_grid",
    "Verif.Metropolis.C50_heisenberg_chain"
   ],
   "note": ""
  },
  {
   "property": "C51",
   "status": "partial",
   "theorems": [
    "Verif.RHat.C51_violated",
    "Verif.RHat.C51_statistics_partial",
    "Verif.RHat.C51_single_partial"
   ],
   "note": "False in the code: C51_violated, with one chain (the default) line 75 divides by zero. C51_statistics_partial and C51_single_partial: with two or more chains the values are those of the cited book."
  },
  {
   "property": "C52",
   "status": "partial",
   "theorems": [
    "Verif.EqualUpDown.C52_violated",
    "Verif.EqualUpDown.C52_violated_samples",
    "Verif.EqualUpDown.C52_mask_partial",
    "Verif.EqualUpDown.C52_ideal_partial"
   ],
   "note": "False of the code: -1e300 becomes -inf in float32 and -inf*0 is NaN, so every unmasked conditional is NaN (C52_violated) and the sampler returns all spins down (C52_violated_samples). The mask pattern is right (C52_mask_partial) and with exact masking the state would be normalised on the balanced configurations (C52_ideal_partial)."
  },
  {
   "property": "C53",
   "status": "partial",
   "theorems": [
    "Verif.Wrapper.C53_violated",
    "Verif.Wrapper.C53_rejects_partial",
    "Verif.Wrapper.C53_networks_partial"
   ],
   "note": "False of the code: AutoregressiveWrapper.__init__ skips the initialiser that sets _conditional_log_wave_function, so every valid model raises AttributeError (C53_violated). Invalid models are rejected and the library's own networks construct correctly (C53_*_partial)."
  },
  {
   "property": "C54",
   "status": "proved",
   "theorems": [
    "Verif.Ensemble.C54_invariant",
    "Verif.Ensemble.C54_layers"
   ],
   "note": ""
  },
  {
   "property": "C55",
   "status": "proved",
   "theorems": [
    "Verif.Ensemble.C55_translations",
    "Verif.Ensemble.C55_with_rotations"
   ],
   "note": ""
  },
  {
   "property": "C56",
   "status": "proved",
   "theorems": [
    "Verif.Ensemble.C56_invariant"
   ],
   "note": ""
  },
  {
   "property": "C57",
   "status": "proved",
   "theorems": [
    "Verif.Ensemble.C57_dihedral",
    "Verif.Ensemble.C57_models",
    "Verif.Ensemble.C57_spin_flip",
    "Verif.Ensemble.C57_translations",
    "Verif.Ensemble.C57_with_rotations"
   ],
   "note": ""
  },
  {
   "property": "C58",
   "status": "proved",
   "theorems": [
    "Verif.RBM.C58_invariant"
   ],
   "note": ""
  },
  {
   "property": "C59",
   "status": "partial",
   "theorems": [
    "Verif.Checkpoint.C59_violated_mixed",
    "Verif.Checkpoint.C59_violated_raises",
    "Verif.Checkpoint.C59_between_partial"
   ],
   "note": "False of the code: a crash inside a save mixes weights and optimizer state (C59_violated_mixed) or leaves files on which the restart raises (C59_violated_raises). Histories without a crash inside a save are consistent (C59_between_partial)."
  },
  {
   "property": "C60",
   "status": "proved",
   "theorems": [
    "Verif.Stages.C60_resume",
    "Verif.Stages.C60_epochs"
   ],
   "note": ""
  },
  {
   "property": "C61",
   "status": "partial",
   "theorems": [
    "Verif.Operators.C61_integer_field_chain_partial",
    "Verif.Operators.C61_integer_field_truncates",
    "Verif.Operators.C61_integer_field_chain",
    "Verif.Operators.C61_integer_field_grid",
    "Verif.Operators.C61_integer_field_grid_partial",
    "Verif.Operators.C61_interaction_lost"
   ],
   "note": "What an integer field does is proved exactly for every coupling on chains and grids (C61_integer_field_chain/_grid: the diagonal element is the energy rounded towards zero, and the answers agree exactly when the energy is an integer). The claim itself holds for integer couplings (the _partial theorems) and is violated otherwise (C61_integer_field_truncates, C61_interaction_lost)."
  },
  {
   "property": "C62",
   "status": "partial",
   "theorems": [
    "Verif.Energy.C62_shape_grid_partial",
    "Verif.Energy.C62_violated",
    "Verif.Energy.C62_chain"
   ],
   "note": "Proved for 2-D Heisenberg operators; on Heisenberg chains C62_chain says for every batch and history which shape the network gets, and it is the wrong one if at least 95 percent of the connections are used (C62_violated). Ising operators have no state that could change, their connections and their shape agree by definition."
  },
  {
   "property": "C63",
   "status": "partial",
   "theorems": [
    "Verif.Optimizers.SR.C63_violated",
    "Verif.Optimizers.SR.C63_same_matrix_partial"
   ],
   "note": "Violated: without the Jacobian, get_energy_grad multiplies the targets by the Jacobian instead of its adjoint (C63_violated). Proved part: both routes use the same system matrix."
  },
  {
   "property": "C64",
   "status": "partial",
   "theorems": [
    "Verif.Machines.C64_real_partial",
    "Verif.Machines.C64_complex_partial",
    "Verif.Machines.C64_2D_partial",
    "Verif.Machines.C64_violated_custom"
   ],
   "note": "Proved for the 1-D real, 1-D complex and 2-D (odd kernel) machines for all settings, weights and sizes (C64_real_partial, C64_complex_partial, C64_2D_partial). Violated for the machine with a custom ordering: C64_violated_custom shows that the fast sampler can never be built on it."
  },
  {
   "property": "C65",
   "status": "proved",
   "theorems": [
    "Verif.Machines.C65_real",
    "Verif.Machines.C65_complex",
    "Verif.Machines.C65_2D",
    "Verif.Machines.C65_custom"
   ],
   "note": ""
  },
  {
   "property": "C66",
   "status": "partial",
   "theorems": [
    "Verif.Metropolis.C66_violated",
    "Verif.Metropolis.C66_warm_up_partial"
   ],
   "note": "False in the code. C66_violated: with the default unused_sampels=0 the warm up makes no sweep for any discard ratio. C66_warm_up_partial gives the number of sweeps that do happen (unused_sampels per discarded sample, not unused_sampels+1)."
  },
  {
   "property": "C67",
   "status": "partial",
   "theorems": [
    "Verif.RHat.C67_violated_one_more",
    "Verif.RHat.C67_violated_last_pair",
    "Verif.RHat.C67_no_cutoff_partial",
    "Verif.RHat.C67_violated"
   ],
   "note": "False in the code: C67_violated_one_more and C67_violated_last_pair say in general by how much the returned autocorrelation sum differs from the cited rule, C67_violated is a concrete array. C67_no_cutoff_partial: agreement if no pair of autocorrelations is negative."
  },
  {
   "property": "C68",
   "status": "partial",
   "theorems": [
    "Verif.Metropolis.C68_limit",
    "Verif.Metropolis.C68_converges_iff",
    "Verif.Metropolis.C68_iff",
    "Verif.Metropolis.C68_violated",
    "Verif.Metropolis.C68_uniform_partial"
   ],
   "note": "False in the code: the acceptance ratio ignores the proposal distribution q. C68_iff: with one chain detailed balance holds exactly for uniform q. C68_violated: for every non-uniform q the squared amplitudes of the constant wave function are not stationary. C68_uniform_partial: uniform q is correct for every wave function and number of chains. C68_limit: the chains converge to the squared amplitudes times q; C68_converges_iff: that is the claimed limit exactly for uniform q, whatever the wave function."
  },
  {
   "property": "C69",
   "status": "proved",
   "theorems": [
    "Verif.ExactSampler.C69_wave_function",
    "Verif.ExactSampler.C69_wave_function_rejects",
    "Verif.ExactSampler.C69_exact"
   ],
   "note": ""
  },
  {
   "property": "C70",
   "status": "proved",
   "theorems": [
    "Verif.RBM.C70_lncosh"
   ],
   "note": ""
  },
  {
   "property": "C71",
   "status": "proved",
   "theorems": [
    "Verif.RBM.C71_sym",
    "Verif.RBM.C71_rbm"
   ],
   "note": ""
  },
  {
   "property": "C72",
   "status": "partial",
   "theorems": [
    "Verif.Stages.C72_violated",
    "Verif.Stages.C72_per_stage_partial"
   ],
   "note": "False of the code for a single batch size: the list is repeated, not its element, and min(list, int) raises (C72_violated). One value per stage works with several stages (C72_per_stage_partial)."
  },
  {
   "property": "C73",
   "status": "partial",
   "theorems": [
    "Verif.Stages.C73_violated",
    "Verif.Stages.C73_at_end_partial"
   ],
   "note": "False of the code: the saved batch number is ignored, so a checkpoint saved inside an epoch leads to repeated updates (C73_violated). Exact if checkpoints are saved only at the end of training runs (C73_at_end_partial)."
  },
  {
   "property": "C74",
   "status": "proved",
   "theorems": [
    "Verif.Ensemble.C74_ising",
    "Verif.Ensemble.C74_heisenberg"
   ],
   "note": ""
  },
  {
   "property": "C75",
   "status": "partial",
   "theorems": [
    "Verif.Jacobian.C75_dense_partial",
    "Verif.Jacobian.C75_conv_partial",
    "Verif.Jacobian.C75_conv1d_partial",
    "Verif.Jacobian.C75_complex_dense_partial",
    "Verif.Jacobian.C75_complex_conv_partial",
    "Verif.Jacobian.C75_complex_bias_partial",
    "Verif.Jacobian.C75_bias_arrays",
    "Verif.Jacobian.C75_violated_complex_iff",
    "Verif.Jacobian.C75_violated_complex",
    "Verif.Jacobian.C75_violated_dilation_shape",
    "Verif.Jacobian.C75_violated_dilation",
    "Verif.Jacobian.C75_unsupported"
   ],
   "note": "Proved for real dense and convolution layers without dilation, for complex ones on real inputs, and for biases. The code violates it for complex layers with complex inputs (the layer input is not conjugated; the result is right exactly if the input is real) and for dilated convolutions (patches are cut with the dilation as rate where the kernel gradient needs it as stride, giving a wrong shape or wrong values). Trusted: the sign convention of TensorFlow complex gradients."
  },
  {
   "property": "C76",
   "status": "partial",
   "theorems": [
    "Verif.Machines.C76_bijection_partial",
    "Verif.Machines.C76_head",
    "Verif.Machines.C76_violated_negative_axis",
    "Verif.Machines.C76_odd"
   ],
   "note": "Proved for the last axis and all non-negative axes. The code violates it for other negative axes: the call raises unless the axis has size four, and with size four it pairs neighbouring entries."
  },
  {
   "property": "C77",
   "status": "partial",
   "theorems": [
    "Verif.Machines.C77_partial",
    "Verif.Machines.C77_off",
    "Verif.Machines.C77_violated_default",
    "Verif.Machines.C77_violated_maximum"
   ],
   "note": "Proved if dilation is off or the maximum is a power of two. The code violates it without a maximum (use_dilation=True is then without effect) and for other maxima (the next power of two is used)."
  },
  {
   "property": "C78",
   "status": "proved",
   "theorems": [
    "Verif.WeightNorm.C78_initial",
    "Verif.WeightNorm.C78_initial_exponential",
    "Verif.WeightNorm.C78_length",
    "Verif.WeightNorm.C78_scale",
    "Verif.WeightNorm.C78_violated_small"
   ],
   "note": "The length condition is part of the property; C78_violated_small shows that it is needed."
  },
  {
   "property": "C79",
   "status": "partial",
   "theorems": [
    "Verif.Initializers.C79_weight_partial",
    "Verif.Initializers.C79_single_use",
    "Verif.Initializers.C79_violated_glorot",
    "Verif.Initializers.C79_violated_he",
    "Verif.Initializers.C79_fans",
    "Verif.Initializers.C79_violated_differ"
   ],
   "note": "Proved that each weight is modulus times exp(i phase) of one draw and that an initialiser cannot be reused. The code violates the variances: the square root of the wanted variance is never taken and the scale is squared twice. The moduli are modelled as normal numbers, the phase as arbitrary."
  },
  {
   "property": "C80",
   "status": "partial",
   "theorems": [
    "Verif.Training.C80_weights",
    "Verif.Training.C80_targets",
    "Verif.Training.C80_violated_variance",
    "Verif.Training.C80_violated_witness"
   ],
   "note": "Weights, energy and gradient are proved. The code violates the variance: each worker logs its own, so that the average misses the variance of the workers' mean energies."
  },
  {
   "property": "C81",
   "status": "partial",
   "theorems": [
    "Verif.Callbacks.C81_values",
    "Verif.Callbacks.C81_partial",
    "Verif.Callbacks.C81_violated_repeats",
    "Verif.Callbacks.C81_violated_variance",
    "Verif.Callbacks.C81_no_steps"
   ],
   "note": "Energy and magnetisations are proved when the generator hands out whole batches. The code violates the rest: with mini batches of at most half of the batch every batch is counted once per mini batch, so that up to that many steps see one batch only; the returned variance is the mean of the batch variances and misses the variance of the batch energies."
  },
  {
   "property": "C82",
   "status": "partial",
   "theorems": [
    "Verif.Callbacks.C82_known_partial",
    "Verif.Callbacks.C82_violated_unknown",
    "Verif.Callbacks.C82_violated_sizes"
   ],
   "note": "Proved if the ground state energy is known and the sizes fit. The code violates the rest: with an unknown ground state energy (the default) both scripts raise KeyError 'energy/relative_error'; a mini batch size below 16 gives a ZeroDivisionError in train.py; fewer samples than the mini batch size give an IndexError in run_evaluation.py."
  },
  {
   "property": "C83",
   "status": "partial",
   "theorems": [
    "Verif.Callbacks.C83_partial",
    "Verif.Callbacks.C83_violated"
   ],
   "note": "Proved for validation generators that hand out whole batches. The code violates it for mini batches of at most half of the batch: the second epoch logs the statistics of samples of the earlier weights."
  },
  {
   "property": "C84",
   "status": "proved",
   "theorems": [
    "Verif.Callbacks.C84_stops",
    "Verif.Callbacks.C84_good"
   ],
   "note": ""
  },
  {
   "property": "C85",
   "status": "proved",
   "theorems": [
    "Verif.Callbacks.C85_range",
    "Verif.Callbacks.C85_flip",
    "Verif.Callbacks.C85_expected"
   ],
   "note": ""
  },
  {
   "property": "C86",
   "status": "partial",
   "theorems": [
    "Verif.Callbacks.C86_default",
    "Verif.Callbacks.C86_observable_partial",
    "Verif.Callbacks.C86_violated_observable"
   ],
   "note": "Proved for the default callbacks and for further operators with logging at the end of epochs. The code violates it for further operators in the default mode: ExactObservableCallback.on_batch_end reads self.generator, which does not exist, and raises an AttributeError. The times of RuntimeStats are not modelled."
  },
  {
   "property": "C87",
   "status": "partial",
   "theorems": [
    "Verif.Metropolis.C87_uniform",
    "Verif.Metropolis.C87_local_partial",
    "Verif.Metropolis.C87_violated_local",
    "Verif.Metropolis.C87_exchange_neighbours",
    "Verif.Metropolis.C87_exchange",
    "Verif.Metropolis.C87_ising_chain",
    "Verif.Metropolis.C87_ising_grid",
    "Verif.Metropolis.C87_heisenberg_grid",
    "Verif.Metropolis.C87_heisenberg_chain"
   ],
   "note": "Proved for uniform moves, exchange moves (on the sector of the start) and Hamiltonian moves of Ising (also with zero field) and Heisenberg (on the sector of the start), for every wave function and start; for local moves if the squared amplitude is not constant. The code violates it for local moves with constant squared amplitude (for instance a machine whose weights are zero): every flip is accepted, so the chain alternates between configurations with an even and an odd number of down spins and never converges. The global sampler is not covered (see C68)."
  },
  {
   "property": "C88",
   "status": "proved",
   "theorems": [
    "Verif.Energy.C88_ising_chain",
    "Verif.Energy.C88_ising_grid",
    "Verif.Energy.C88_heisenberg_grid",
    "Verif.Energy.C88_heisenberg_chain",
    "Verif.Energy.C88_single_sample",
    "Verif.Autoregressive.C88_autoregressive",
    "Verif.Training.C88_any_sampler"
   ],
   "note": ""
  },
  {
   "property": "C89",
   "status": "proved",
   "theorems": [
    "Verif.Energy.C89_ising_chain",
    "Verif.Energy.C89_ising_grid",
    "Verif.Energy.C89_heisenberg_grid",
    "Verif.Energy.C89_heisenberg_chain",
    "Verif.Autoregressive.C89_autoregressive"
   ],
   "note": ""
  },
  {
   "property": "C90",
   "status": "partial",
   "theorems": [
    "Verif.Training.C90_mean_partial",
    "Verif.Training.C90_sum_scales",
    "Verif.Training.C90_violated"
   ],
   "note": "Proved for mean accumulation and dividing sizes (C90_mean_partial). With the default sum accumulation, used by all shipped scripts, every gradient is multiplied by the number of mini-batches per batch (C90_sum_scales), so the parameters differ (C90_violated). Assumes that Keras averages the per-sample loss over the samples of one step."
  },
  {
   "property": "C91",
   "status": "partial",
   "theorems": [
    "Verif.Training.C91_aligned_partial",
    "Verif.Training.C91_runners_aligned",
    "Verif.Training.C91_first_update",
    "Verif.Training.C91_violated_shipped",
    "Verif.Training.C91_violated"
   ],
   "note": "Proved for stages that start at a multiple of their number of mini-batches per batch (C91_aligned_partial), which the shipped runners do (C91_runners_aligned). Otherwise the first update of a stage uses only the first part of a batch, because the counter of accumulated steps is not reset when the frequency changes (C91_first_update, C91_violated); this happens in the third stage of examples/ising.py (C91_violated_shipped)."
  },
  {
   "property": "C92",
   "status": "partial",
   "theorems": [
    "Verif.Training.C92_violated",
    "Verif.Training.C92_stages_run_partial"
   ],
   "note": "False at every depth: examples/ising.py starts its minimum at 1, so it always trains with mini-batches of one sample, and its evaluation asks for batches of 1 // 16 = 0 samples, which raises (C92_violated). The training stages do run (C92_stages_run_partial)."
  },
  {
   "property": "C93",
   "status": "proved",
   "theorems": [
    "Verif.TensorBoard.C93_epoch",
    "Verif.TensorBoard.C93_samples",
    "Verif.TensorBoard.C93_batch"
   ],
   "note": ""
  },
  {
   "property": "C94",
   "status": "partial",
   "theorems": [
    "Verif.TensorBoard.C94_histograms_partial",
    "Verif.TensorBoard.C94_violated_learning_phase",
    "Verif.TensorBoard.C94_violated_zero",
    "Verif.TensorBoard.C94_needs_data"
   ],
   "note": "Proved for models without learning phase and positive batch_size (C94_histograms_partial). With a learning phase the assertion on the number of tensors fails (C94_violated_learning_phase); with batch_size=0 the loop never ends (C94_violated_zero)."
  },
  {
   "property": "C95",
   "status": "partial",
   "theorems": [
    "Verif.CheckpointNames.C95_times",
    "Verif.CheckpointNames.C95_history",
    "Verif.CheckpointNames.C95_names_partial",
    "Verif.CheckpointNames.C95_violated_epoch",
    "Verif.CheckpointNames.C95_violated_end",
    "Verif.CheckpointNames.C95_none_fails",
    "Verif.CheckpointNames.C95_plain_partial"
   ],
   "note": "The times are proved (C95_times). The names are as documented for paths without the field epoch (C95_names_partial); a path with {epoch} raises KeyError at the first save (C95_violated_epoch) and any field raises at the end of training (C95_violated_end); None as the logs at the end raises (C95_none_fails). Paths without fields never fail (C95_plain_partial)."
  },
  {
   "property": "C96",
   "status": "proved",
   "theorems": [
    "Verif.ComplexConv.C96_convolution",
    "Verif.ComplexConv.C96_linear",
    "Verif.ComplexConv.C96_real",
    "Verif.ComplexConv.C96_log",
    "Verif.ComplexConv.C96_crelu"
   ],
   "note": ""
  },
  {
   "property": "C97",
   "status": "partial",
   "theorems": [
    "Verif.ComplexConv.C97_shortcut_partial",
    "Verif.ComplexConv.C97_violated",
    "Verif.ComplexConv.C97_nchw_partial",
    "Verif.ComplexConv.C97_violated_nchw"
   ],
   "note": "Without dilation the shortcut is right in NHWC for both paddings (C97_shortcut_partial). In NCHW results are right for images of more than one channel or more than one column (C97_nchw_partial). With dilation the shortcut ignores it (C97_violated). In NCHW the shortcut takes the channel axis for the rows, so for an image of one channel and one column it can add cells that the convolution does not meet, and it returns the filters along the last axis (C97_violated_nchw)."
  },
  {
   "property": "C98",
   "status": "proved",
   "theorems": [
    "Verif.Training.C98_descent",
    "Verif.Training.C98_ising_chain",
    "Verif.Training.C98_ising_grid",
    "Verif.Training.C98_heisenberg_grid",
    "Verif.Training.C98_heisenberg_chain"
   ],
   "note": ""
  },
  {
   "property": "C99",
   "status": "proved",
   "theorems": [
    "Verif.Callbacks.C99_waves",
    "Verif.Callbacks.C99_last_gradient",
    "Verif.Callbacks.C99_current",
    "Verif.Callbacks.C99_same_training",
    "Verif.Callbacks.C99_every_cycle"
   ],
   "note": ""
  },
  {
   "property": "C100",
   "status": "partial",
   "theorems": [
    "Verif.Callbacks.MCMC.C100_statistics_partial",
    "Verif.Callbacks.MCMC.C100_violated",
    "Verif.Callbacks.MCMC.C100_single_partial"
   ],
   "note": "False in the code with one chain, the default: C100_violated, every logging call raises a division by zero (C51). C100_statistics_partial: two or more chains of two or more samples; the sum of correlations and the effective sample size only when no pair of correlations is negative, because the code cuts the sum elsewhere than the definition (C67). C100_single_partial: with one sample per chain constants are logged."
  },
  {
   "property": "C101",
   "status": "partial",
   "theorems": [
    "Verif.Energy.Range.C101_probabilities_partial",
    "Verif.Energy.Range.C101_violated_overflow",
    "Verif.Energy.Range.C101_violated_underflow",
    "Verif.Energy.Range.C101_violated",
    "Verif.Energy.Range.C101_energy_partial",
    "Verif.Energy.Range.C101_targets_partial",
    "Verif.Energy.Range.C101_violated_silent",
    "Verif.Energy.Range.C101_violated_silent_field"
   ],
   "note": "Fails: lines 79-83 of exact_variational.py exponentiate the sums of two unnormalised logarithmic amplitudes and divide by the exponential of the logarithmic norm, although the normalised log_probs are at hand. For every network and operator a large enough constant makes the energy and all targets infinite or not a number (overflow), and so does a small enough one (division by zero after underflow). In between there is a range in which the squared amplitudes fit and the norm does not: then the energy is reported as exactly 0, without any warning value (n spins in a transverse field: true energy -n). Proved: the probabilities are always right up to underflow and do not depend on the constant; the energy is right up to an explicit bound when norm and products fit. Rounding inside the range is not modelled."
  },
  {
   "property": "C102",
   "status": "proved",
   "theorems": [
    "Verif.Training.Rescale.C102_sampling",
    "Verif.Training.Rescale.C102_estimates",
    "Verif.Training.Rescale.C102_runs",
    "Verif.Training.Rescale.C102_loss",
    "Verif.Training.Rescale.C102_minibatches",
    "Verif.Training.Rescale.C102_training"
   ],
   "note": "Exact arithmetic. For mini-batches smaller than the batch only the sum of the losses over the batch is independent of the factor (C102_minibatches), and with given weights the runs still agree (C102_runs)."
  },
  {
   "property": "C103",
   "status": "partial",
   "theorems": [
    "Verif.Ensemble.Range.C103_probabilistic_partial",
    "Verif.Ensemble.Range.C103_violated_overflow",
    "Verif.Ensemble.Range.C103_violated_underflow",
    "Verif.Ensemble.Range.C103_violated_normalised",
    "Verif.Ensemble.Range.C103_average_partial",
    "Verif.Ensemble.Range.C103_violated_uniform"
   ],
   "note": "Proved for probabilistic ensembles (the default), where logsumexp subtracts the largest exponent. Fails for averages (probabilistic=False): average_ensemble_op exponentiates the logarithmic amplitudes themselves. One member beyond the largest number makes the result infinite or not a number; if all members are below the smallest number the result is minus infinity. For every normalised network and family of m symmetry maps this happens at some configuration as soon as m is below 2^n times the square of the smallest number; for the uniform network in single precision from 300 spins on it happens at every configuration. Proved for averages: exact when amplitudes, their sum and mean fit."
  },
  {
   "property": "C104",
   "status": "partial",
   "theorems": [
    "Verif.Metropolis.Range.C104_decision",
    "Verif.Metropolis.Range.C104_runs",
    "Verif.Metropolis.Range.C104_energy_partial",
    "Verif.Metropolis.Range.C104_factor_partial",
    "Verif.Metropolis.Range.C104_violated_overflow",
    "Verif.Metropolis.Range.C104_ising_partial",
    "Verif.Metropolis.Range.C104_heisenberg_partial",
    "Verif.Metropolis.Range.C104_violated_sample",
    "Verif.Metropolis.Range.C104_violated_padding",
    "Verif.Metropolis.Range.C104_ising_grid_partial",
    "Verif.Metropolis.Range.C104_heisenberg_chain_partial"
   ],
   "note": "Sampling holds in full (C104_decision, C104_runs): runs coincide with the exact ones unless a uniform number is below the smallest positive number. Local energies are accurate as long as the sample is not less probable than a connection by more than the square of the representable range (C104_energy_partial), which samples of |psi|^2 violate with probability at most B(n+1)/M^2 (C104_ising_partial, C104_ising_grid_partial, C104_heisenberg_partial, C104_heisenberg_chain_partial), and do not depend on a constant factor. For a single unlikely sample the local energy is inf or nan (C104_violated_sample), and for NetKet operators the rows of zeros that pad the answer are evaluated by default and make the local energy nan whenever the network is large at the meaningless all-zero configuration (C104_violated_padding). Rounding is not modelled."
  },
  {
   "property": "C105",
   "status": "partial",
   "theorems": [
    "Verif.Net.Registry.C105_order",
    "Verif.Net.Registry.C105_stable_partial",
    "Verif.Net.Registry.C105_input",
    "Verif.Net.Registry.C105_wrapped",
    "Verif.Net.Registry.C105_own",
    "Verif.Net.Registry.C105_spins_partial",
    "Verif.Net.Registry.C105_categories_partial",
    "Verif.Net.Registry.C105_violated_categories",
    "Verif.Net.Registry.C105_violated_import",
    "Verif.Net.Registry.C105_violated_machines"
   ],
   "note": "Proved: lookups do not depend on the order or number of imports (C105_order), every layer but the input layer keeps its rule under later imports (C105_stable_partial), what the input layer gets (C105_input), wrappers (C105_wrapped), own classes (C105_own), and that drawn values are read back as the drawn category for spins if flowket.samplers was imported (C105_spins_partial) and for categories if it was not (C105_categories_partial). Violated: flowket.samplers re-registers the input layer for the whole process, so importing it anywhere makes deepar's fast sampler write 1 - 2k for models of categories, which ToOneHot never reads as category k (C105_violated_categories, C105_violated_import); without that import deepar's fast sampler writes 0 and 1 for spin machines, which read both as category zero (C105_violated_machines)."
  },
  {
   "property": "C106",
   "status": "partial",
   "theorems": [
    "Verif.Net.Categories.C106_categories_partial",
    "Verif.Net.Categories.C106_spins_partial",
    "Verif.Net.Categories.C106_violated_import",
    "Verif.Net.Categories.C106_likelihood",
    "Verif.Net.Categories.C106_normalised"
   ],
   "note": "Proved for programs that do not import flowket.samplers (C106_categories_partial), with values 1 - 2k in place of k for programs that do (C106_spins_partial, the right values for spin machines), together with the likelihood formula (C106_likelihood) and normalisation (C106_normalised). Violated for models of categories once flowket.samplers was imported: category zero is never returned (C106_violated_import)."
  },
  {
   "property": "C107",
   "status": "proved",
   "theorems": [
    "Verif.J1J2.Op.C107_hamiltonian",
    "Verif.J1J2.Op.C107_connections"
   ],
   "note": "What NetKet's GraphOperator.get_conn returns for a list of coloured edges and bond matrices is an assumption (graphConn), with the cutoff for tiny elements left out; it holds for either order of the two local states. Only NetKet's new interface (the old one raises, see C16). Periodic lattices with one or two sites in a direction list bonds twice or join a site with itself (C15_small_periodic)."
  },
  {
   "property": "C108",
   "status": "partial",
   "theorems": [
    "Verif.J1J2.Op.C108_reported_partial",
    "Verif.J1J2.Op.C108_basis_state",
    "Verif.J1J2.Op.C108_violated"
   ],
   "note": "Violated: total_spin_netket_operator only lists edges from a site to itself instead of all pairs of sites. Under the assumption graphConn about NetKet (and that NetKet accepts such edges) the answer is the number of sites for every sample and every wave function (C108_reported_partial), while the total spin differs between states (C108_basis_state, C108_violated)."
  },
  {
   "property": "C109",
   "status": "partial",
   "theorems": [
    "Verif.Metropolis.Zero.C109_in_step",
    "Verif.Metropolis.Zero.C109_hamiltonian",
    "Verif.Metropolis.Zero.C109_violated_stuck",
    "Verif.Metropolis.Zero.C109_symmetric_partial",
    "Verif.Metropolis.Zero.C109_positive",
    "Verif.Metropolis.Zero.C109_violated_local",
    "Verif.Metropolis.Zero.C109_violated_exchange"
   ],
   "note": "Violated. The samplers with symmetric proposals raise an exception as soon as any chain proposes a configuration of amplitude zero (C109_symmetric_partial), so for wave functions of fixed magnetisation two local sweeps in a row never succeed (C109_violated_local), and exchange sweeps raise unless every chain happens to start with that magnetisation (C109_violated_exchange). The Hamiltonian sampler has no such check and decides correctly (C109_hamiltonian), but a chain at a configuration of amplitude zero whose neighbours all have amplitude zero is stuck forever (C109_violated_stuck), because the difference of two infinities is not a number. What holds: chains of positive probability keep one (C109_positive) and the stored values stay in step (C109_in_step)."
  },
  {
   "property": "C110",
   "status": "partial",
   "theorems": [
    "Verif.Machines.C110_window",
    "Verif.Machines.C110_partial",
    "Verif.Machines.C110_undilated",
    "Verif.Machines.C110_violated_default"
   ],
   "note": "Disagrees with the code for the default arguments: with use_dilation=True and max_dilation_rate=None the dilation never grows (lines 58-60), so the conditional of a site depends on no more than (kernel_size - 1) h + 1 sites before it (C110_violated_default, for all weights). Proved as stated when a maximal dilation is given that the h layers do not pass early (C110_partial) and without dilation (C110_undilated); C110_window gives the window for every setting. 'For some weights' is proved for machines without skip connections and activations that fix 0 and 1 and send -1 to -1 or 0 (none, relu)."
  },
  {
   "property": "C111",
   "status": "partial",
   "theorems": [
    "Verif.Optimizers.SR.C111_solver",
    "Verif.Optimizers.SR.C111_rank_bound",
    "Verif.Optimizers.SR.C111_rank_partial",
    "Verif.Optimizers.SR.C111_min_eigval",
    "Verif.Optimizers.SR.C111_violated_rank",
    "Verif.Optimizers.SR.C111_violated_min_eigval"
   ],
   "note": "False of the code in two corners (C111_violated_rank, C111_violated_min_eigval): the tolerance of the rank uses K.epsilon() (1e-7) times the largest matrix entry instead of the machine precision times the largest singular value, so small but exactly representable eigenvalues are dropped and the rank is too low; when all samples have the same derivatives no eigenvalue is left and the smallest eigenvalue is reported as inf. Proved: the iterative solver's statistics, the rank as an upper bounded number, its exactness when no eigenvalue lies below the tolerance, and that a reported smallest eigenvalue is an eigenvalue above the tolerance. Not modelled: the order in which one session run updates the variables and reads the metrics, and the rounding of eigvalsh."
  },
  {
   "property": "C112",
   "status": "proved",
   "theorems": [
    "Verif.Net.LayerNorm.C112_finite",
    "Verif.Net.LayerNorm.C112_normalised",
    "Verif.Net.LayerNorm.C112_bounded",
    "Verif.Net.LayerNorm.C112_shift",
    "Verif.Net.LayerNorm.C112_scale",
    "Verif.Net.LayerNorm.C112_local"
   ],
   "note": ""
  },
  {
   "property": "C113",
   "status": "partial",
   "theorems": [
    "Verif.Training.C113_partial",
    "Verif.Training.C113_lost",
    "Verif.Training.C113_violated_accumulators",
    "Verif.Training.C113_ema_after_restart",
    "Verif.Training.C113_violated_ema"
   ],
   "note": "False of the code: the variables of the accumulation and of the moving average are not among the optimizer weights that a checkpoint saves. A checkpoint inside a group of mini-batches loses the gradients accumulated so far (C113_lost, C113_violated_accumulators, for every frequency of two or more), and after a restart the moving average covers only the updates since the restart, with division by zero before the first (C113_ema_after_restart, C113_violated_ema). Exact for weights and optimizer state when the checkpoint is saved between two updates (C113_partial). Modelled from TensorFlow's source: the optimizer's weights do not contain attributes set from outside."
  },
  {
   "property": "C114",
   "status": "partial",
   "theorems": [
    "Verif.Net.Config.C114_copy_partial",
    "Verif.Net.Config.C114_reload_partial",
    "Verif.Net.Config.C114_operations",
    "Verif.Net.Config.C114_violated_padding",
    "Verif.Net.Config.C114_violated_layer_normalization",
    "Verif.Net.Config.C114_violated_complex_and_lambda",
    "Verif.Net.Config.C114_violated_checkpoint"
   ],
   "note": "False of the code: complex layers and the subclasses of Lambda cannot be rebuilt (C114_violated_complex_and_lambda), LayerNormalization loses its epsilon (C114_violated_layer_normalization), PeriodicPadding with pairs of widths raises after a trip through a file (C114_violated_padding), so CheckpointByTime with its default arguments fails on every autoregressive machine and with complex optimizers (C114_violated_checkpoint). The other layers are rebuilt exactly in memory (C114_copy_partial) and with the same operation through a file (C114_reload_partial). The behaviour of Keras (default get_config, from_config, Lambda, JSON) is modelled from its source, for versions before 1.14 and for 1.14; WeightNormalization and LambdaWithOneToOneTopology, which hold an arbitrary layer or function, are not modelled."
  },
  {
   "property": "C115",
   "status": "partial",
   "theorems": [
    "Verif.Callbacks.C115_partial",
    "Verif.Callbacks.C115_ising_chain",
    "Verif.Callbacks.C115_ising_grid",
    "Verif.Callbacks.C115_heisenberg_grid",
    "Verif.Callbacks.C115_heisenberg_chain",
    "Verif.Callbacks.C115_monte_carlo_partial",
    "Verif.Callbacks.C115_violated_positive",
    "Verif.Callbacks.C115_violated"
   ],
   "note": "Proved for negative ground energies, with equality for ground states only; the Ising model (with a field or coupling) and the Heisenberg model are proved to have negative ground energies on all lattices but the periodic Ising chain of one site, so the claim holds for them without assumption; on average for sampled batches. The code violates it for positive ground energies: the error is divided by E0 and not by |E0|, so that it is reported with the wrong sign and the worst states have the smallest error. For a ground energy of zero the code divides by zero (infinity or nan; excluded from the model)."
  },
  {
   "property": "C116",
   "status": "partial",
   "theorems": [
    "Verif.Callbacks.Runtime.C116_monte_carlo",
    "Verif.Callbacks.Runtime.C116_monte_carlo_once_partial",
    "Verif.Callbacks.Runtime.C116_violated_mini_batches",
    "Verif.Callbacks.Runtime.C116_violated_validation",
    "Verif.Callbacks.Runtime.C116_exact",
    "Verif.Callbacks.Runtime.C116_exact_once_partial",
    "Verif.Callbacks.Runtime.C116_exact_complete",
    "Verif.Callbacks.Runtime.C116_violated_exact_short_epochs",
    "Verif.Callbacks.Runtime.C116_violated_exact_epochs",
    "Verif.Callbacks.Runtime.C116_violated_machine_updated",
    "Verif.Callbacks.Runtime.C116_violated_exact_evaluate",
    "Verif.Callbacks.C116_among_callbacks"
   ],
   "note": "That the parts are durations that add up to the total since the batch or cycle began is proved for all sizes, modes and callbacks. Counting once is proved for whole batches, for epoch logging where no batch reaches over two epoch ends, and for exact training in batch mode or with epochs of at least one cycle; with epochs of whole cycles every cycle's full time is logged. False otherwise: with several mini-batches per batch every step logs the sampling of the batch again; in epoch mode with a validation generator the validation sampling is logged as gradients; in exact training nothing is ever logged in batch mode when an epoch is shorter than a cycle, and in epoch mode such epochs count a refresh repeatedly; MachineUpdated before RuntimeStats makes the logged interval contain no training; exact_evaluate in batch mode returns no times unless a cycle is one batch."
  },
  {
   "property": "C117",
   "status": "partial",
   "theorems": [
    "Verif.Training.Queue.C117_main_thread",
    "Verif.Training.Queue.C117_queue_partial",
    "Verif.Training.Queue.C117_violated_queue",
    "Verif.Training.Queue.C117_violated_unbounded",
    "Verif.Training.Queue.C117_violated_minimum",
    "Verif.Training.Queue.C117_exact_main_thread",
    "Verif.Training.Queue.C117_violated_exact_views"
   ],
   "note": "Proved for workers=0, which all examples use, for Monte Carlo and exact generators. False with a second thread (main.py line 77 passes max_queue_size=0 without workers=0, which is an unbounded queue): the delays that occur are characterised exactly. For queue size m > 0 a batch is at most m + 1 steps old, and every order-preserving delay up to that bound occurs for some schedule; for size 0 a whole training may run on batches of the initial weights. The exact generator hands out views of arrays it overwrites, so with a queue the steps of one cycle can use coefficients of two refreshes. The thread and queue behaviour of Keras is modelled, not part of the repository."
  },
  {
   "property": "C118",
   "status": "partial",
   "theorems": [
    "Verif.Experiment.Reference.C118_ising_partial",
    "Verif.Experiment.Reference.C118_heisenberg_partial",
    "Verif.Experiment.Reference.C118_example_partial",
    "Verif.Experiment.Reference.C118_violated_field",
    "Verif.Experiment.Reference.C118_violated_example"
   ],
   "note": "Violated: ising_runner.py looks its reference up by field, so that on its default lattice (open 12x12) every field other than 2, 2.5, 3, 3.5, 4 ends in a KeyError (C118_violated_field), though the same fields work on every other lattice; examples/ising.py stops the same way when --gamma, which is not required, is left out (C118_violated_example). Proved: the lookup succeeds in all other cases, a reference is used exactly for the intended lattices, and it is the ground energy of the operator of the script up to a fifth (Ising) or three tenths (Heisenberg), by rigorous bounds over all wave functions: energies of single bonds and stars from below, aligned, polarised and Neel states from above. Missing: the digits of the references themselves (they come from Monte Carlo calculations)."
  },
  {
   "property": "C119",
   "status": "partial",
   "theorems": [
    "Verif.Experiment.RunNames.C119_example",
    "Verif.Experiment.RunNames.C119_violated_label",
    "Verif.Experiment.RunNames.C119_train_partial",
    "Verif.Experiment.RunNames.C119_violated_shared"
   ],
   "note": "Proved for examples/ising.py: file names determine arguments and kind of file, and every run behaves as if runs with other arguments did not exist (C119_example). Violated: the label weights_normalization in the name of the run shows no_weights_normalization, the opposite of what the run does (C119_violated_label); experiments/train.py does not compare its arguments with those of the checkpoint in output_path (it overwrites config.json) and continues from weights of a run with another field, lattice boundary or learning rate (C119_violated_shared), so that isolation holds only if all runs in an output directory have the same arguments (C119_train_partial)."
  },
  {
   "property": "C120",
   "status": "partial",
   "theorems": [
    "Verif.Callbacks.C120_partial",
    "Verif.Callbacks.C120_violated_stale",
    "Verif.Callbacks.C120_violated_j1j2"
   ],
   "note": "Proved for train.py, run_evaluation.py and evaluate_with_2d_obc_invariant.py. The code violates it in examples/j1j2_2d_monte_carlo_4.py: line 81 evaluates the generator of the symmetrised model with callbacks made for the training generator, so that every step reports the last training batch with the network that was trained (C120_violated_stale, C120_violated_j1j2)."
  },
  {
   "property": "C121",
   "status": "partial",
   "theorems": [
    "Verif.Workers.C121_partial",
    "Verif.Workers.C121_violated_epochs",
    "Verif.Workers.C121_violated_restart",
    "Verif.Workers.C121_mini_batch_size",
    "Verif.Workers.C121_rank_zero_alone"
   ],
   "note": "Proved if all workers find the same checkpoint file or none. The code violates it on machines with separate file systems: only rank 0 writes checkpoints and the epoch to resume from is not broadcast, so after a restart rank 0 resumes while the others start from epoch 0, and every execution gets stuck (C121_violated_restart, C121_violated_epochs). Collective operations run in one session call count as one; failures of workers are not modelled."
  },
  {
   "property": "C122",
   "status": "proved",
   "theorems": [
    "Verif.Exact.C122_amplitudes",
    "Verif.Exact.C122_eigenvector"
   ],
   "note": ""
  },
  {
   "property": "C123",
   "status": "proved",
   "theorems": [
    "Verif.Machines.C123_window"
   ],
   "note": ""
  },
  {
   "property": "C124",
   "status": "partial",
   "theorems": [
    "Verif.Callbacks.C124_partial",
    "Verif.Callbacks.C124_violated_default",
    "Verif.Callbacks.C124_stops_partial",
    "Verif.Callbacks.C124_exact",
    "Verif.Callbacks.C124_stale",
    "Verif.Callbacks.C124_violated_exact_default",
    "Verif.Callbacks.C124_violated_epoch_mode"
   ],
   "note": "Holds for a checkpoint and early stopping that watch the validation energy (whole batches; C124_partial, C124_stops_partial), and for exact training that logs at the end of epochs with MachineUpdated before the loggers (C124_exact). False of the code otherwise. With the default way of logging, which examples/custom_keras_model.py uses, the energies are only in the logs of batches, so the checkpoint of the best model is never written and early stopping never stops (C124_violated_default, C124_violated_exact_default). With logging at the end of epochs the recorded energy is that of the weights before the last step while the weights after it are saved (C124_stale), and in a concrete run the file holds worse weights than a later epoch (C124_violated_epoch_mode). ModelCheckpoint and EarlyStopping belong to Keras and are modelled from their documented behaviour."
  },
  {
   "property": "C125",
   "status": "partial",
   "theorems": [
    "Verif.Net.C125_partial",
    "Verif.Net.C125_benchmark",
    "Verif.Net.C125_violated_long_kernel",
    "Verif.Net.C125_violated_raises"
   ],
   "note": "Holds if no padding is longer than the lattice (C125_partial for any number of dimensions, C125_benchmark for the network of the example with at most n + 1 taps on n spins). False of the code for longer kernels: PeriodicPadding silently cuts off what exceeds the lattice, and with n + 1 < k <= 2n taps there are weights for which translations change the amplitude (C125_violated_long_kernel); with more than 2n + 1 taps the network cannot be built (C125_violated_raises)."
  },
  {
   "property": "C126",
   "status": "partial",
   "theorems": [
    "Verif.Callbacks.C126_reported",
    "Verif.Callbacks.C126_partial",
    "Verif.Callbacks.C126_ising_chain",
    "Verif.Callbacks.C126_ising_grid",
    "Verif.Callbacks.C126_heisenberg_grid",
    "Verif.Callbacks.C126_heisenberg_chain",
    "Verif.Callbacks.C126_violated",
    "Verif.Callbacks.C126_violated_near"
   ],
   "note": "Proved for wave functions that are real up to a common factor (zero variance exactly for eigenstates, Weinstein's bound on the distance to the spectrum), for all four operators; for every network eigenstates are reported with their eigenvalue and variance zero, and the reported variance is the true one less the weight of the imaginary parts of the local energies. The code violates it for complex wave functions, since it drops the imaginary parts of the local energies: for the Ising model without coupling a state that is no eigenstate is reported with energy 0 and variance 0, and for one site no energy level is near."
  },
  {
   "property": "C127",
   "status": "partial",
   "theorems": [
    "Verif.Optimizers.SR.C127_direction",
    "Verif.Optimizers.SR.C127_exact",
    "Verif.Optimizers.SR.C127_violated_jvp"
   ],
   "note": "C127_direction: both solvers give a direction with negative product with the batch gradient, for every tolerance below one and positive iteration limit. C127_exact: with all states in one batch of ExactVariational, a holomorphic network and every small enough learning rate, the exact energy strictly falls unless it is stationary. C127_violated_jvp: with compute_jvp_instead_of_full_jacobian the right-hand side is not the gradient (C63) and a step can lead uphill. The iterative solver with a single parameter fails (C32)."
  },
  {
   "property": "C128",
   "status": "proved",
   "theorems": [
    "Verif.Net.Backprop.C128_gradient",
    "Verif.Net.Backprop.C128_tanh",
    "Verif.Net.Backprop.C128_zero"
   ],
   "note": ""
  },
  {
   "property": "C129",
   "status": "proved",
   "theorems": [
    "Verif.Optimizers.Grad.C129_gradient",
    "Verif.Optimizers.Grad.C129_holomorphic",
    "Verif.Optimizers.Grad.C129_descent",
    "Verif.Optimizers.Grad.C129_product"
   ],
   "note": ""
  },
  {
   "property": "C130",
   "status": "partial",
   "theorems": [
    "Verif.Optimizers.SR.C130_gradient_partial",
    "Verif.Optimizers.SR.C130_step_partial",
    "Verif.Optimizers.SR.C130_violated",
    "Verif.Optimizers.SR.C130_jvp_partial"
   ],
   "note": "False of the code by a factor: Keras averages the loss over the batch, while the other branch sums over it, so with use_energy_loss=True the energy gradient and the step are those without divided by the number of samples (C130_violated: the updated weights differ for every batch of two samples or more unless the gradient is zero; optimizer.py marks the branch 'todo fix this branch!'). Proved instead: the gradient is exactly 1/B times the other (C130_gradient_partial), the updates agree for both solvers when the learning rate is multiplied with the batch size (C130_step_partial), and with products by differentiation the step goes downhill, unlike without use_energy_loss (C130_jvp_partial, compare C127_violated_jvp)."
  },
  {
   "property": "C131",
   "status": "proved",
   "theorems": [
    "Verif.Ensemble.C131_ising_chain",
    "Verif.Ensemble.C131_ising_grid",
    "Verif.Ensemble.C131_heisenberg_chain",
    "Verif.Ensemble.C131_heisenberg_grid",
    "Verif.Ensemble.C131_j1j2",
    "Verif.Ensemble.C131_energy_ising_chain",
    "Verif.Ensemble.C131_energy_ising_grid",
    "Verif.Ensemble.C131_energy_heisenberg_chain",
    "Verif.Ensemble.C131_energy_heisenberg_grid"
   ],
   "note": ""
  },
  {
   "property": "C132",
   "status": "partial",
   "theorems": [
    "Verif.Ensemble.C132_ising_chain_partial",
    "Verif.Ensemble.C132_ising_grid_partial",
    "Verif.Ensemble.C132_ising_square_partial",
    "Verif.Ensemble.C132_heisenberg_chain_partial",
    "Verif.Ensemble.C132_heisenberg_grid_partial",
    "Verif.Ensemble.C132_heisenberg_square_partial",
    "Verif.Ensemble.C132_no_loss_ising",
    "Verif.Ensemble.C132_no_loss_heisenberg",
    "Verif.Ensemble.C132_violated_phases",
    "Verif.Ensemble.C132_violated_without_rotation",
    "Verif.Ensemble.C132_violated_average"
   ],
   "note": "False in general, so the theorems need positive amplitudes (imaginary part of the logarithm zero), a field h >= 0 or unitary_rotation=True, and probabilistic=True. C132_violated_phases: with phases, make_up_down_invariant raises the energy of a two-site Ising model from 1 to 2, because probabilistic_ensemble_op averages phases. C132_violated_without_rotation: with unitary_rotation=False a positive model of the two-site Heisenberg chain goes from -1 to 1. C132_violated_average: with probabilistic=False a positive model of the two-site Ising chain goes from -1/3 to 0. Proved: for stoquastic operators and positive base models, any nesting does not raise the energy (C132_*_partial), and for every wave function there is a positive base model whose symmetrised versions have its norm and at most its energy (C132_no_loss_*)."
  },
  {
   "property": "C133",
   "status": "partial",
   "theorems": [
    "Verif.Optimizers.SR.C133_step",
    "Verif.Optimizers.SR.C133_ising_chain_partial",
    "Verif.Optimizers.SR.C133_ising_grid_partial",
    "Verif.Optimizers.SR.C133_heisenberg_grid_partial",
    "Verif.Optimizers.SR.C133_heisenberg_chain_partial",
    "Verif.Optimizers.SR.C133_violated_single_sample",
    "Verif.Optimizers.SR.C133_training",
    "Verif.Optimizers.SR.C133_rests",
    "Verif.Optimizers.SR.C133_exact"
   ],
   "note": "Proved for batches of two or more samples (the rest half for every batch size). With batch_size 1 the mean is subtracted from itself, so every target is zero for every network and training never moves, eigenstate or not (C133_violated_single_sample); nothing in the generator rejects that batch size."
  },
  {
   "property": "C134",
   "status": "partial",
   "theorems": [
    "Verif.Metropolis.C134_exchange_heisenberg_grid",
    "Verif.Metropolis.C134_exchange_heisenberg_chain",
    "Verif.Metropolis.C134_hamiltonian_heisenberg_grid",
    "Verif.Metropolis.C134_hamiltonian_heisenberg_chain",
    "Verif.Metropolis.C134_uniform",
    "Verif.Metropolis.C134_local_partial",
    "Verif.Metropolis.C134_hamiltonian_ising_chain",
    "Verif.Metropolis.C134_hamiltonian_ising_grid",
    "Verif.Metropolis.C134_estimators",
    "Verif.Metropolis.C134_violated_exchange_ising",
    "Verif.Metropolis.C134_violated_local"
   ],
   "note": "Proved for uniform and Hamiltonian moves, for exchange moves with the Heisenberg model, and for single-spin moves unless all amplitudes have the same modulus. Exchange moves with the Ising model are accepted although the operator connects the sector with others: the reported energy then converges to values below any bound, in particular below the ground energy (C134_violated_exchange_ising). Single-spin moves with amplitudes of the same modulus (a network with zero weights) alternate and the reported energy converges to no number (C134_violated_local). The batch is the states of the chains after a number of sweeps; longer batches are means of such."
  },
  {
   "property": "C135",
   "status": "proved",
   "theorems": [
    "Verif.Net.C135_reads",
    "Verif.Net.C135_work",
    "Verif.Machines.C135_real",
    "Verif.Machines.C135_complex",
    "Verif.Machines.C135_2D"
   ],
   "note": ""
  },
  {
   "property": "C136",
   "status": "proved",
   "theorems": [
    "Verif.Energy.C136_ising_chain",
    "Verif.Energy.C136_ising_grid",
    "Verif.Energy.C136_heisenberg_grid",
    "Verif.Energy.C136_heisenberg_chain",
    "Verif.Energy.C136_independent",
    "Verif.Energy.C136_frequencies",
    "Verif.Energy.C136_rate",
    "Verif.Autoregressive.C136_autoregressive"
   ],
   "note": ""
  },
  {
   "property": "C137",
   "status": "partial",
   "theorems": [
    "Verif.Net.Arguments.C137_partial",
    "Verif.Net.Arguments.C137_length",
    "Verif.Net.Arguments.C137_idempotent",
    "Verif.Net.Arguments.C137_violated",
    "Verif.Net.Arguments.C137_violated_numpy",
    "Verif.Net.Arguments.C137_padding"
   ],
   "note": "C137_partial proves the documented behaviour for integers, iterables of integers, NaN or non-literal strings, and all values that cannot be iterated apart from booleans; C137_violated: iterables with None raise TypeError and with infinities OverflowError instead of ValueError; floats, booleans and strings of digits are accepted and passed on unconverted; C137_violated_numpy: a single NumPy integer is refused."
  },
  {
   "property": "C138",
   "status": "proved",
   "theorems": [
    "Verif.Net.Histograms.C138_histograms"
   ],
   "note": ""
  },
  {
   "property": "C139",
   "status": "partial",
   "theorems": [
    "Verif.Metropolis.C139_batch",
    "Verif.Metropolis.C139_uniform",
    "Verif.Metropolis.C139_local_partial",
    "Verif.Metropolis.C139_exchange",
    "Verif.Metropolis.C139_ising_chain",
    "Verif.Metropolis.C139_ising_grid",
    "Verif.Metropolis.C139_heisenberg_grid",
    "Verif.Metropolis.C139_heisenberg_chain",
    "Verif.Metropolis.C139_energy_heisenberg_grid",
    "Verif.Metropolis.C139_energy_heisenberg_chain",
    "Verif.Metropolis.C139_training_heisenberg_grid",
    "Verif.Metropolis.C139_training_heisenberg_chain",
    "Verif.Metropolis.C139_violated_local",
    "Verif.Metropolis.C139_magnetisations",
    "Verif.Metropolis.C139_magnetisations_sector"
   ],
   "note": "Uniform moves, exchange moves and Hamiltonian moves: proved from every start. Local moves: proved if not all amplitudes have the same modulus (C139_local_partial); otherwise, with every second sweep used, half of the configurations never occur (C139_violated_local). Batches confined to one magnetisation train the restricted wave function exactly in the limit (C139_training_heisenberg_grid, C139_training_heisenberg_chain)."
  },
  {
   "property": "C140",
   "status": "proved",
   "theorems": [
    "Verif.Autoregressive.C140_batches",
    "Verif.Autoregressive.C140_numpy",
    "Verif.Autoregressive.C140_log_errors",
    "Verif.Autoregressive.C140_averages",
    "Verif.Autoregressive.C140_norm"
   ],
   "note": ""
  },
  {
   "property": "C141",
   "status": "proved",
   "theorems": [
    "Verif.Ensemble.C141_phases_ising_chain",
    "Verif.Ensemble.C141_phases_ising_grid",
    "Verif.Ensemble.C141_phases_heisenberg_chain",
    "Verif.Ensemble.C141_phases_heisenberg_grid",
    "Verif.Ensemble.C141_lowest_ising_chain",
    "Verif.Ensemble.C141_lowest_ising_grid",
    "Verif.Ensemble.C141_lowest_heisenberg_chain",
    "Verif.Ensemble.C141_lowest_heisenberg_grid",
    "Verif.Ensemble.C141_violated_without_rotation",
    "Verif.Ensemble.C141_needs_field"
   ],
   "note": "The unrotated Heisenberg operator and h = 0 are outside the statement; C141_violated_without_rotation and C141_needs_field show that both conditions are needed."
  },
  {
   "property": "C142",
   "status": "proved",
   "theorems": [
    "Verif.Ensemble.C142_square",
    "Verif.Ensemble.C142_base",
    "Verif.Ensemble.C142_lattice",
    "Verif.Ensemble.C142_repeat",
    "Verif.Ensemble.C142_idempotent"
   ],
   "note": ""
  },
  {
   "property": "C143",
   "status": "proved",
   "theorems": [
    "Verif.Training.C143_ising_chain",
    "Verif.Training.C143_ising_grid",
    "Verif.Training.C143_heisenberg_grid",
    "Verif.Training.C143_heisenberg_chain",
    "Verif.Training.C143_needs_small_rate"
   ],
   "note": ""
  },
  {
   "property": "C144",
   "status": "proved",
   "theorems": [
    "Verif.Ensemble.C144_ising_chain",
    "Verif.Ensemble.C144_ising_grid",
    "Verif.Ensemble.C144_heisenberg_chain",
    "Verif.Ensemble.C144_heisenberg_grid",
    "Verif.Ensemble.C144_symmetrised_ising",
    "Verif.Ensemble.C144_symmetrised_heisenberg"
   ],
   "note": ""
  },
  {
   "property": "C145",
   "status": "proved",
   "theorems": [
    "Verif.Training.C145_any_ising_chain",
    "Verif.Training.C145_any_ising_grid",
    "Verif.Training.C145_any_heisenberg_grid",
    "Verif.Training.C145_any_heisenberg_chain",
    "Verif.Training.C145_ising_chain",
    "Verif.Training.C145_ising_grid",
    "Verif.Training.C145_heisenberg_grid",
    "Verif.Training.C145_heisenberg_chain",
    "Verif.Training.C145_noise_bounded"
   ],
   "note": ""
  },
  {
   "property": "C146",
   "status": "proved",
   "theorems": [
    "Verif.Autoregressive.C146_every_wave",
    "Verif.Autoregressive.C146_no_zeros",
    "Verif.Autoregressive.C146_approach",
    "Verif.Autoregressive.C146_ising_chain",
    "Verif.Autoregressive.C146_ising_grid",
    "Verif.Autoregressive.C146_heisenberg_chain",
    "Verif.Autoregressive.C146_heisenberg_grid",
    "Verif.Autoregressive.C146_ground_ising_chain",
    "Verif.Autoregressive.C146_ground_ising_grid"
   ],
   "note": ""
  },
  {
   "property": "C147",
   "status": "proved",
   "theorems": [
    "Verif.Ensemble.C147_ising_chain",
    "Verif.Ensemble.C147_ising_grid",
    "Verif.Ensemble.C147_heisenberg_chain",
    "Verif.Ensemble.C147_heisenberg_grid",
    "Verif.Ensemble.C147_samples",
    "Verif.Ensemble.C147_needs_field"
   ],
   "note": ""
  },
  {
   "property": "C148",
   "status": "proved",
   "theorems": [
    "Verif.Energy.C148_ising_chain",
    "Verif.Energy.C148_ising_grid",
    "Verif.Energy.C148_heisenberg_grid",
    "Verif.Energy.C148_heisenberg_chain"
   ],
   "note": ""
  },
  {
   "property": "C149",
   "status": "proved",
   "theorems": [
    "Verif.RBM.C149_rbm",
    "Verif.RBM.C149_sym",
    "Verif.RBM.C149_energy_chain",
    "Verif.RBM.C149_energy_grid",
    "Verif.RBM.C149_ground"
   ],
   "note": ""
  },
  {
   "property": "C150",
   "status": "proved",
   "theorems": [
    "Verif.Metropolis.C150_uniform",
    "Verif.Metropolis.C150_local",
    "Verif.Metropolis.C150_exchange",
    "Verif.Metropolis.C150_ising_chain",
    "Verif.Metropolis.C150_ising_grid",
    "Verif.Metropolis.C150_heisenberg_grid",
    "Verif.Metropolis.C150_heisenberg_chain",
    "Verif.Metropolis.C150_weights"
   ],
   "note": ""
  },
  {
   "property": "C151",
   "status": "proved",
   "theorems": [
    "Verif.Optimizers.SR.C151_settles",
    "Verif.Optimizers.SR.C151_goes_on",
    "Verif.Optimizers.SR.C151_linear"
   ],
   "note": ""
  },
  {
   "property": "C152",
   "status": "proved",
   "theorems": [
    "Verif.Metropolis.C152_global",
    "Verif.Metropolis.C152_global_sharp",
    "Verif.Metropolis.C152_uniform",
    "Verif.Metropolis.C152_uniform_sharp",
    "Verif.Metropolis.C152_enough"
   ],
   "note": ""
  },
  {
   "property": "C153",
   "status": "proved",
   "theorems": [
    "Verif.Energy.C153_ising_chain",
    "Verif.Energy.C153_ising_grid",
    "Verif.Energy.C153_heisenberg_grid",
    "Verif.Energy.C153_heisenberg_chain",
    "Verif.Energy.C153_enough",
    "Verif.Autoregressive.C153_autoregressive"
   ],
   "note": ""
  },
  {
   "property": "C154",
   "status": "proved",
   "theorems": [
    "Verif.Energy.C154_autoregressive",
    "Verif.Energy.C154_wave_function",
    "Verif.Energy.C154_exact",
    "Verif.Energy.C154_magnetisations",
    "Verif.Energy.C154_ising_chain",
    "Verif.Energy.C154_ising_grid",
    "Verif.Energy.C154_heisenberg_grid",
    "Verif.Energy.C154_heisenberg_chain",
    "Verif.Net.Categories.C154_fast",
    "Verif.Machines.C154_fast_real",
    "Verif.Machines.C154_fast_complex",
    "Verif.Machines.C154_fast_2D"
   ],
   "note": ""
  },
  {
   "property": "C155",
   "status": "proved",
   "theorems": [
    "Verif.Callbacks.C155_ising_chain",
    "Verif.Callbacks.C155_ising_grid",
    "Verif.Callbacks.C155_heisenberg_grid",
    "Verif.Callbacks.C155_heisenberg_chain"
   ],
   "note": ""
  },
  {
   "property": "C156",
   "status": "partial",
   "theorems": [
    "Verif.Ensemble.C156_run_ising_partial",
    "Verif.Ensemble.C156_run_heisenberg_partial",
    "Verif.Ensemble.C156_train_ising_partial",
    "Verif.Ensemble.C156_train_heisenberg_partial",
    "Verif.Ensemble.C156_violated_sigma"
   ],
   "note": "Energy, relative error, local energy variance and abs_sigma_z are proved right for the symmetrised model (C156_*_partial). sigma_z is not: the samples come from the base model and sigma_z changes its sign under the spin flip, so the scripts print the magnetisation of the base model, while that of the symmetrised model is zero (C156_violated_sigma)."
  },
  {
   "property": "C157",
   "status": "proved",
   "theorems": [
    "Verif.J1J2.Op.C157_local_energies",
    "Verif.J1J2.Op.C157_unbiased_energy",
    "Verif.J1J2.Op.C157_rarely_far",
    "Verif.J1J2.Op.C157_any_sampler",
    "Verif.J1J2.Op.C157_unbiased_gradient",
    "Verif.J1J2.Op.C157_sgd_learns",
    "Verif.J1J2.Op.C157_evaluation",
    "Verif.J1J2.Op.C157_exact_tables",
    "Verif.J1J2.Op.C157_exact_energy"
   ],
   "note": ""
  },
  {
   "property": "C158",
   "status": "proved",
   "theorems": [
    "Verif.Training.C158_gradient_ising_chain",
    "Verif.Training.C158_gradient_ising_grid",
    "Verif.Training.C158_gradient_heisenberg_grid",
    "Verif.Training.C158_gradient_heisenberg_chain",
    "Verif.Training.C158_gradient_j1j2",
    "Verif.Training.C158_eigenstate",
    "Verif.Training.C158_sgd_ising_chain",
    "Verif.Training.C158_sgd_ising_grid",
    "Verif.Training.C158_sgd_heisenberg_grid",
    "Verif.Training.C158_sgd_heisenberg_chain",
    "Verif.Training.C158_sgd_j1j2"
   ],
   "note": ""
  },
  {
   "property": "C159",
   "status": "proved",
   "theorems": [
    "Verif.Ensemble.C159_evaluation_ising",
    "Verif.Ensemble.C159_evaluation_heisenberg",
    "Verif.Ensemble.C159_evaluation_j1j2",
    "Verif.Ensemble.C159_gradient_ising",
    "Verif.Ensemble.C159_gradient_heisenberg",
    "Verif.Ensemble.C159_gradient_j1j2"
   ],
   "note": ""
  },
  {
   "property": "C160",
   "status": "partial",
   "theorems": [
    "Verif.Ensemble.C160_ising_chain_partial",
    "Verif.Ensemble.C160_ising_grid",
    "Verif.Ensemble.C160_heisenberg_chain",
    "Verif.Ensemble.C160_heisenberg_grid",
    "Verif.Ensemble.C160_j1j2",
    "Verif.Ensemble.C160_violated_one_site"
   ],
   "note": "The Ising operator binds a single periodic site to itself when its shape is (1,), but not when it is (1, 1) (ising.py lines 28-38): the energies differ by J (C160_violated_one_site). Everything else is proved: Ising chains of at least two sites (C160_ising_chain_partial), all Ising grids, all Heisenberg chains and grids, J1-J2 grids."
  },
  {
   "property": "C161",
   "status": "proved",
   "theorems": [
    "Verif.Energy.C161_any_operator",
    "Verif.Energy.C161_ising_chain",
    "Verif.Energy.C161_ising_grid",
    "Verif.Energy.C161_heisenberg_grid",
    "Verif.Energy.C161_heisenberg_chain"
   ],
   "note": ""
  },
  {
   "property": "C162",
   "status": "proved",
   "theorems": [
    "Verif.Ensemble.C162_ising",
    "Verif.Ensemble.C162_heisenberg",
    "Verif.Ensemble.C162_j1j2"
   ],
   "note": ""
  },
  {
   "property": "C163",
   "status": "proved",
   "theorems": [
    "Verif.Ensemble.C163_symmetrised_ising",
    "Verif.Ensemble.C163_symmetrised_heisenberg",
    "Verif.Ensemble.C163_symmetrised_j1j2",
    "Verif.Training.C163_ising_chain",
    "Verif.Training.C163_ising_grid",
    "Verif.Training.C163_heisenberg_grid",
    "Verif.Training.C163_heisenberg_chain",
    "Verif.Training.C163_j1j2"
   ],
   "note": ""
  },
  {
   "property": "C164",
   "status": "proved",
   "theorems": [
    "Verif.Training.C164_ising_chain",
    "Verif.Training.C164_ising_grid",
    "Verif.Training.C164_heisenberg_grid",
    "Verif.Training.C164_heisenberg_chain",
    "Verif.Training.C164_j1j2"
   ],
   "note": ""
  },
  {
   "property": "C165",
   "status": "proved",
   "theorems": [
    "Verif.Training.C165_mini_batches",
    "Verif.Training.C165_steps",
    "Verif.Training.C165_stages",
    "Verif.Training.C165_unequal_rates"
   ],
   "note": ""
  },
  {
   "property": "C166",
   "status": "proved",
   "theorems": [
    "Verif.Training.C166_linear_ising_chain",
    "Verif.Training.C166_linear_ising_grid",
    "Verif.Training.C166_unit_ising_chain",
    "Verif.Training.C166_unit_ising_grid",
    "Verif.Training.C166_linear_j1j2"
   ],
   "note": ""
  },
  {
   "property": "C167",
   "status": "proved",
   "theorems": [
    "Verif.Metropolis.C167_symmetric_complete",
    "Verif.Metropolis.C167_hamiltonian_complete",
    "Verif.Metropolis.C167_metropolis",
    "Verif.Metropolis.C167_symmetric",
    "Verif.Metropolis.C167_hamiltonian",
    "Verif.Autoregressive.C167_autoregressive"
   ],
   "note": ""
  },
  {
   "property": "C168",
   "status": "proved",
   "theorems": [
    "Verif.Optimizers.SR.C168_same_training",
    "Verif.Optimizers.SR.C168_shift_matters"
   ],
   "note": ""
  },
  {
   "property": "C169",
   "status": "proved",
   "theorems": [
    "Verif.Experiment.C169_ising_chain",
    "Verif.Experiment.C169_ising_grid",
    "Verif.Experiment.C169_heisenberg_chain",
    "Verif.Experiment.C169_heisenberg_grid",
    "Verif.Experiment.C169_attained",
    "Verif.Experiment.C169_attained_ising",
    "Verif.Experiment.C169_j1j2"
   ],
   "note": ""
  },
  {
   "property": "C170",
   "status": "proved",
   "theorems": [
    "Verif.Symmetry.TotalSpin.C170_heisenberg_grid",
    "Verif.Symmetry.TotalSpin.C170_heisenberg_chain",
    "Verif.Symmetry.TotalSpin.C170_j1j2",
    "Verif.Symmetry.TotalSpin.C170_definite_heisenberg",
    "Verif.Symmetry.TotalSpin.C170_definite_j1j2",
    "Verif.Symmetry.TotalSpin.C170_rotated"
   ],
   "note": ""
  },
  {
   "property": "C171",
   "status": "proved",
   "theorems": [
    "Verif.Training.C171_field_chain",
    "Verif.Training.C171_field_grid",
    "Verif.Training.C171_coupling_chain",
    "Verif.Training.C171_coupling_grid",
    "Verif.Training.C171_odd"
   ],
   "note": ""
  },
  {
   "property": "C172",
   "status": "proved",
   "theorems": [
    "Verif.Experiment.C172_exact_chain",
    "Verif.Experiment.C172_exact_grid",
    "Verif.Experiment.C172_ground_chain",
    "Verif.Experiment.C172_ground_grid",
    "Verif.Experiment.C172_j1j2"
   ],
   "note": ""
  }
 ]
}
