{
 "claims": [
  {
   "property": "C01",
   "status": "proved",
   "theorems": [
    "Verif.Props.C01_name_values_roundtrip",
    "Verif.Props.C01_values_name_roundtrip"
   ],
   "note": ""
  },
  {
   "property": "C02",
   "status": "proved",
   "theorems": [
    "Verif.Props.C02_names_injective"
   ],
   "note": ""
  },
  {
   "property": "C03",
   "status": "proved",
   "theorems": [
    "Verif.Props.C03_index_is_radix",
    "Verif.Props.C03_at_index_valid",
    "Verif.Props.C03_index_of_valid",
    "Verif.Props.C03_name_index"
   ],
   "note": ""
  },
  {
   "property": "C04",
   "status": "partial",
   "theorems": [
    "Verif.Props.C04_name_lookup_history_independent",
    "Verif.Props.C04_values_lookup_history_independent_partial",
    "Verif.Props.C04_values_lookup_single_digit",
    "Verif.Props.C04_values_lookup_fails"
   ],
   "note": "Name lookup is history independent; values lookup only when all earlier name lookups had full width (multi-digit circuits violate it, witness proved)."
  },
  {
   "property": "C05",
   "status": "partial",
   "theorems": [
    "Verif.Props.C05_enumeration_order_partial",
    "Verif.Props.C05_enumeration_order_fails",
    "Verif.Props.C05_second_iteration_fails"
   ],
   "note": "Holds for the first iteration in a standard history; violated in general (witnesses proved)."
  },
  {
   "property": "C06",
   "status": "partial",
   "theorems": [
    "Verif.Props.C06_membership_partial",
    "Verif.Props.C06_membership_single_digit",
    "Verif.Props.C06_membership_fails"
   ],
   "note": "Complete for one digit per channel; for more digits a truncated name is accepted (witness proved)."
  },
  {
   "property": "C07",
   "status": "partial",
   "theorems": [
    "Verif.Props.C07_addressing_partial",
    "Verif.Props.C07_single_channel",
    "Verif.Props.C07_refusals",
    "Verif.Props.C07_addressing_fails"
   ],
   "note": "Violated for first channel >= 2 and second channel 0 (proved for all such pairs)."
  },
  {
   "property": "C08",
   "status": "proved",
   "theorems": [
    "Verif.Props.C08_photon_number"
   ],
   "note": ""
  },
  {
   "property": "C09",
   "status": "proved",
   "theorems": [
    "Verif.Props.C09_unitary"
   ],
   "note": ""
  },
  {
   "property": "C10",
   "status": "partial",
   "theorems": [
    "Verif.Props.C10_above_cutoff_partial"
   ],
   "note": "Missing only the misaddressed channel pairs of C07."
  },
  {
   "property": "C11",
   "status": "proved",
   "theorems": [
    "Verif.Props.C11_vacuum_and_single_photon",
    "Verif.Props.C11_two_channel_matrix"
   ],
   "note": ""
  },
  {
   "property": "C12",
   "status": "proved",
   "theorems": [
    "Verif.Props.C12_composition"
   ],
   "note": ""
  },
  {
   "property": "C13",
   "status": "partial",
   "theorems": [
    "Verif.Props.C13_spectators_partial",
    "Verif.Props.C13_misaddressed"
   ],
   "note": "Missing only the misaddressed channel pairs of C07, for which the wrong behaviour is proved."
  },
  {
   "property": "C14",
   "status": "proved",
   "theorems": [
    "Verif.Props.C14_full_or_reduced"
   ],
   "note": "For every list of optical nodes and every valid non-empty state; basis enumerated in standard order (C05)."
  },
  {
   "property": "C15",
   "status": "proved",
   "theorems": [
    "Verif.Props.C15_grouped_equals_sequential",
    "Verif.Props.C15_one_by_one_states"
   ],
   "note": ""
  },
  {
   "property": "C16",
   "status": "proved",
   "theorems": [
    "Verif.Props.C16_norm_preserved"
   ],
   "note": ""
  },
  {
   "property": "C22",
   "status": "partial",
   "theorems": [
    "Verif.Props.C22_to_vector",
    "Verif.Props.C22_from_vector",
    "Verif.Props.C22_roundtrip_partial",
    "Verif.Props.C22_roundtrip_fails"
   ],
   "note": "Complete for a positive threshold; with threshold 0 spurious zero components appear (witness proved)."
  },
  {
   "property": "C23",
   "status": "proved",
   "theorems": [
    "Verif.Props.C23_list_components",
    "Verif.Props.C23_order_irrelevant",
    "Verif.Props.C23_refused"
   ],
   "note": ""
  },
  {
   "property": "C24",
   "status": "proved",
   "theorems": [
    "Verif.Props.C24_inner_is_hermitian_product",
    "Verif.Props.C24_inner_symmetry",
    "Verif.Props.C24_inner_linear",
    "Verif.Props.C24_outer"
   ],
   "note": ""
  },
  {
   "property": "C17",
   "status": "proved",
   "theorems": [
    "Verif.Props.C17_wave_plate",
    "Verif.Props.C17_elements_unitary"
   ],
   "note": ""
  },
  {
   "property": "C18",
   "status": "partial",
   "theorems": [
    "Verif.Props.C18_swap_partial",
    "Verif.Props.C18_swap_state_partial",
    "Verif.Props.C18_swap_fails",
    "Verif.Props.C18_pbs"
   ],
   "note": "Holds for basis states below the cutoff; at or above the cutoff swap does nothing (violation proved for all such states)."
  },
  {
   "property": "C19",
   "status": "partial",
   "theorems": [
    "Verif.Props.C19_phase_shift_partial",
    "Verif.Props.C19_phase_state_partial",
    "Verif.Props.C19_phase_fails"
   ],
   "note": "Holds when the channel and its partner channel hold fewer than L photons together; otherwise no phase is applied (proved for all such states)."
  },
  {
   "property": "C20",
   "status": "partial",
   "theorems": [
    "Verif.Props.C20_equal_split_partial",
    "Verif.Props.C20_hong_ou_mandel_partial",
    "Verif.Props.C20_length_two",
    "Verif.Props.C20_single_photon_state_partial",
    "Verif.Props.C20_hong_ou_mandel_state_partial",
    "Verif.Props.C20_beamsplitter_partial"
   ],
   "note": "Missing only the misaddressed channel pairs of C07. For length 2 there is no bunching (proved)."
  },
  {
   "property": "C21",
   "status": "partial",
   "theorems": [
    "Verif.Props.C21_actual_probabilities",
    "Verif.Props.C21_reflection_partial",
    "Verif.Props.C21_reflection_fails",
    "Verif.Props.C21_refused",
    "Verif.Props.C21_beamsplitter_actual"
   ],
   "note": "The documented reflection percentage is violated (actual probability proved for all values)."
  },
  {
   "property": "C54",
   "status": "partial",
   "theorems": [
    "Verif.Props.C54_field_actual",
    "Verif.Props.C54_field_partial",
    "Verif.Props.C54_field_fails"
   ],
   "note": "The transposed matrix is applied; symmetric matrices (all built-in elements) are unaffected. Violation proved with a unitary rotation matrix."
  },
  {
   "property": "C55",
   "status": "proved",
   "theorems": [
    "Verif.Props.C55_tensor_state",
    "Verif.Props.C55_tensor_refused",
    "Verif.Props.C55_tensor_names"
   ],
   "note": ""
  },
  {
   "property": "C25",
   "status": "proved",
   "theorems": [
    "Verif.Props.C25_probability_conserved",
    "Verif.Props.C25_collection_probability",
    "Verif.Props.C25_rounding"
   ],
   "note": "Measurable requires total probability at most 1 (floats idealised); rounding fallback covered by C25_rounding."
  },
  {
   "property": "C26",
   "status": "proved",
   "theorems": [
    "Verif.Props.C26_outcomes",
    "Verif.Props.C26_success"
   ],
   "note": "An outcome of total probability zero makes the model refuse (NaN amplitudes in the code)."
  },
  {
   "property": "C27",
   "status": "proved",
   "theorems": [
    "Verif.Props.C27_written",
    "Verif.Props.C26_outcomes"
   ],
   "note": ""
  },
  {
   "property": "C28",
   "status": "proved",
   "theorems": [
    "Verif.Props.C28_repeat"
   ],
   "note": ""
  },
  {
   "property": "C29",
   "status": "proved",
   "theorems": [
    "Verif.Props.C29_no_state_lost",
    "Verif.Props.C29_identifiers"
   ],
   "note": ""
  },
  {
   "property": "C33",
   "status": "proved",
   "theorems": [
    "Verif.Props.C33_random_identifier",
    "Verif.Props.C33_explicit_identifier",
    "Verif.Props.C33_explicit_keys"
   ],
   "note": "For every stream of random numbers, including termination of the identifier search."
  },
  {
   "property": "C34",
   "status": "partial",
   "theorems": [
    "Verif.Props.C34_mixture_partial",
    "Verif.Props.C34_mixture_fails",
    "Verif.Props.C34_at_most_36"
   ],
   "note": "Violated: identifiers are compared with the old collection only. Holds when the drawn identifiers are pairwise different; on a collection without short identifiers at most 36 pairs can be stored (proved for all inputs)."
  },
  {
   "property": "C35",
   "status": "proved",
   "theorems": [
    "Verif.Props.C35_filter_label",
    "Verif.Props.C35_filter_identifier",
    "Verif.Props.C35_filter_classical",
    "Verif.Props.C35_copy",
    "Verif.Props.C35_delete",
    "Verif.Props.C35_get"
   ],
   "note": ""
  },
  {
   "property": "C36",
   "status": "proved",
   "theorems": [
    "Verif.Props.C36_default"
   ],
   "note": ""
  },
  {
   "property": "C37",
   "status": "proved",
   "theorems": [
    "Verif.Props.C37_entries",
    "Verif.Props.C37_density",
    "Verif.Props.C37_trace_one",
    "Verif.Props.C37_purity",
    "Verif.Props.C37_reported",
    "Verif.Props.C37_pure_one"
   ],
   "note": ""
  },
  {
   "property": "C38",
   "status": "proved",
   "theorems": [
    "Verif.Props.C38_states",
    "Verif.Props.C38_probability_conserved",
    "Verif.Props.C38_partial_trace",
    "Verif.Props.C38_success",
    "Verif.Props.C38_refused",
    "Verif.Props.C38_empty",
    "Verif.Props.C38_zero_refused"
   ],
   "note": "Entry-wise partial trace of the density matrix of every label. Findings: a single optical channel cannot be kept; an empty collection keeps its channel numbers; an all-zero component group raises ZeroDivisionError."
  },
  {
   "property": "C39",
   "status": "proved",
   "theorems": [
    "Verif.Props.C39_allLists",
    "Verif.Props.C39_states",
    "Verif.Props.C39_refused",
    "Verif.Props.C39_nothing",
    "Verif.Props.C39_tensor_product",
    "Verif.Props.C39_extend_reduce",
    "Verif.Props.C39_no_classical"
   ],
   "note": "Finding C39_no_classical: with zero original classical channels the reduction back keeps all of them (empty list means all)."
  },
  {
   "property": "C40",
   "status": "proved",
   "theorems": [
    "Verif.Props.C40_fits",
    "Verif.Props.C40_wraps",
    "Verif.Props.C40_zero",
    "Verif.Props.C40_loss"
   ],
   "note": "C40_loss: components that coincide after wrapping overwrite each other, so amplitude is lost."
  },
  {
   "property": "C41",
   "status": "proved",
   "theorems": [
    "Verif.Props.C41_merge",
    "Verif.Props.C41_total",
    "Verif.Props.C41_bound",
    "Verif.Props.C41_success",
    "Verif.Props.C41_rescale",
    "Verif.Props.C41_rescale_fails",
    "Verif.Props.C41_resembles_close",
    "Verif.Props.C41_resembles_asymmetric"
   ],
   "note": "Finding: resemblance is not symmetric; C41_resembles_close bounds the consequence."
  },
  {
   "property": "C31",
   "status": "partial",
   "theorems": [
    "Verif.Props.C31_split_partial",
    "Verif.Props.C31_in_order_partial",
    "Verif.Props.C31_optical_run",
    "Verif.Props.C31_optical_one_by_one",
    "Verif.Props.C31_refused",
    "Verif.Props.C31_nothing",
    "Verif.Props.C31_skipped",
    "Verif.Props.C31_fails"
   ],
   "note": "Violated for lists that are not increasing: C31_fails (nodes [1, 0]) and C31_skipped (everything after the largest index is skipped). Proved for all increasing lists; consecutive optical nodes are evaluated together, which equals one by one unless amplitudes are pruned on the way (C31_optical_one_by_one)."
  },
  {
   "property": "C46",
   "status": "proved",
   "theorems": [
    "Verif.Props.C46_composition"
   ],
   "note": "For every list of circuits without own bridges. That the given circuits are unchanged holds by construction of the value model (refresh copies node_list; read in the source)."
  },
  {
   "property": "C47",
   "status": "partial",
   "theorems": [
    "Verif.Props.C47_ignored",
    "Verif.Props.C47_fails"
   ],
   "note": "Violated: nodes after a bridge are never evaluated (for every circuit), so there is nothing weaker to prove."
  },
  {
   "property": "C42",
   "status": "proved",
   "theorems": [
    "Verif.Props.C42_matrix",
    "Verif.Props.C42_direct",
    "Verif.Props.C42_undo",
    "Verif.Props.C42_refused"
   ],
   "note": "shift drops components below the threshold, shift_direct does not. Finding: the argument checks of shift build an exception without raising it; refusals come from index errors."
  },
  {
   "property": "C43",
   "status": "partial",
   "theorems": [
    "Verif.Props.C43_partial",
    "Verif.Props.C43_reversed",
    "Verif.Props.C43_fails",
    "Verif.Props.C43_self_fails"
   ],
   "note": "Violated: c_shift applies the pairs in reverse order (C43_reversed, all lists), so the two constructions differ when a target controls a later pair (C43_fails). They agree when no control channel is a target."
  },
  {
   "property": "C56",
   "status": "partial",
   "theorems": [
    "Verif.Props.C56_fails",
    "Verif.Props.C56_single_pair_partial",
    "Verif.Props.C56_zero",
    "Verif.Props.C56_one"
   ],
   "note": "Violated for strengths strictly between 0 and 1: the matrix is not unitary. Proved for strengths 0 and 1 and all lists of pairs, and for single basis states and one pair. For targets that are empty see C141."
  },
  {
   "property": "C30",
   "status": "partial",
   "theorems": [
    "Verif.Props.C30_partial",
    "Verif.Props.C30_agrees_partial",
    "Verif.Props.C30_compound_partial",
    "Verif.Props.C30_compound_agrees_partial",
    "Verif.Props.C30_fails"
   ],
   "note": "Violated: the new history entry and the current classical values are one list object, so set_classical_channels after a measurement rewrites the recorded result (C30_fails). Proved for every node list in which a copying node lies between a measurement and a classical node that writes into its argument (a bridge is such a node), for single and compound circuits; generic functions are not in the object-level model."
  },
  {
   "property": "C32",
   "status": "partial",
   "theorems": [
    "Verif.Props.C32_partial",
    "Verif.Props.C32_compound_partial",
    "Verif.Props.C32_fails"
   ],
   "note": "Violated when the first evaluated node is a classical node (it works on the State objects of the input). Proved for all other node lists and compound circuits without generic functions, for the input and every other existing collection."
  },
  {
   "property": "C57",
   "status": "partial",
   "theorems": [
    "Verif.Props.C57_same_contents",
    "Verif.Props.C57_change_copy",
    "Verif.Props.C57_change_original_partial",
    "Verif.Props.C57_classical_node",
    "Verif.Props.C57_fails"
   ],
   "note": "Changing the copy never affects the original: proved for every heap. The converse is violated after a measurement (C57_fails) and proved when no history entry is the list of current classical values."
  },
  {
   "property": "C44",
   "status": "partial",
   "theorems": [
    "Verif.Props.C44_values_partial",
    "Verif.Props.C44_refused_partial",
    "Verif.Props.C44_fails"
   ],
   "note": "Violated for negative channel numbers, which pass the check (C44_fails: -1 writes the last channel, -2 of one channel raises at evaluation). Proved for all lists of non-negative channels, any length, with repetitions."
  },
  {
   "property": "C45",
   "status": "partial",
   "theorems": [
    "Verif.Props.C45_wave_plate",
    "Verif.Props.C45_phase_shift",
    "Verif.Props.C45_value",
    "Verif.Props.C45_refused_partial",
    "Verif.Props.C45_optical_refused",
    "Verif.Props.C45_fails"
   ],
   "note": "The per-state values are proved for all collections. The refusal of invalid classical channels is violated by an off-by-one: channel m of m channels (and negative ones) is accepted and fails at evaluation (C45_fails)."
  },
  {
   "property": "C48",
   "status": "partial",
   "theorems": [
    "Verif.Props.C48_bars",
    "Verif.Props.C48_outcomes_partial",
    "Verif.Props.C48_label_partial",
    "Verif.Props.C48_defined",
    "Verif.Props.C48_fails",
    "Verif.Props.C48_label_fails"
   ],
   "note": "Sums, labels for all initial states and heights per label are proved for every collection. 'Own bar' is violated for classical values outside 0..L-1 or not integers (reduced modulo L, C48_fails) and proved for natural numbers below L. With channel 0 on the right and several digits the label is reversed digit by digit (C48_label_fails)."
  },
  {
   "property": "C49",
   "status": "partial",
   "theorems": [
    "Verif.Props.C49_range",
    "Verif.Props.C49_defined",
    "Verif.Props.C49_value_partial",
    "Verif.Props.C49_reversed",
    "Verif.Props.C49_fails"
   ],
   "note": "The range is proved for every collection with non-negative cumulative probabilities. The value is violated with channel 0 on the right (C49_fails: the channels are counted from the other end, C49_reversed) and proved with channel 0 on the left for natural numbers below L."
  },
  {
   "property": "C52",
   "status": "proved",
   "theorems": [
    "Verif.Props.C52_basis",
    "Verif.Props.C52_elements",
    "Verif.Props.C52_defined",
    "Verif.Props.C52_creation",
    "Verif.Props.C52_annihilation",
    "Verif.Props.C52_adjoint",
    "Verif.Props.C52_commutator"
   ],
   "note": "Matrix elements of arbitrary Hamiltonians against ladder operators on formal combinations; the commutator is exact on the limited basis."
  },
  {
   "property": "C58",
   "status": "partial",
   "theorems": [
    "Verif.Props.C58_actual",
    "Verif.Props.C58_commuting_partial",
    "Verif.Props.C58_fails"
   ],
   "note": "Violated: the last Hamiltonian acts first (C58_actual, every list). Holds for pairwise commuting exponentials."
  },
  {
   "property": "C59",
   "status": "proved",
   "theorems": [
    "Verif.Props.C59_gate",
    "Verif.Props.C59_kept",
    "Verif.Props.C59_other_channels"
   ],
   "note": ""
  },
  {
   "property": "C60",
   "status": "proved",
   "theorems": [
    "Verif.Props.C60_hamiltonian",
    "Verif.Props.C60_transition",
    "Verif.Props.C60_gate"
   ],
   "note": ""
  },
  {
   "property": "C61",
   "status": "partial",
   "theorems": [
    "Verif.Props.C61_unitary_limit_partial",
    "Verif.Props.C61_error_partial",
    "Verif.Props.C61_fails"
   ],
   "note": "Violated for strong couplings: the Taylor expansion is cut after 25 terms (C61_fails: phase of 100 rad). The truncated exponentials converge to a unitary matrix."
  },
  {
   "property": "C53",
   "status": "partial",
   "theorems": [
    "Verif.Props.C53_split",
    "Verif.Props.C53_split_defined",
    "Verif.Props.C53_single_photons",
    "Verif.Props.C53_condense",
    "Verif.Props.C53_round_trip_partial",
    "Verif.Props.C53_fails"
   ],
   "note": "Violated for a state with a single component whose amplitude is not 1 (C53_fails: the phase is lost by condensing and copied to every photon by expanding). Proved for all other normalised states; splitting, expanding and condensing preserve the quantum state (a polynomial in creation operators) for all columns of unit components."
  },
  {
   "property": "C62",
   "status": "partial",
   "theorems": [
    "Verif.Props.C62_actual",
    "Verif.Props.C62_same_channels_partial",
    "Verif.Props.C62_fails"
   ],
   "note": "Violated: the operator channels of all Hamiltonians but the first are ignored."
  },
  {
   "property": "C51",
   "status": "partial",
   "theorems": [
    "Verif.Props.C51_labels_partial",
    "Verif.Props.C66_measure_partial",
    "Verif.Props.C51_fails"
   ],
   "note": "Violated from 10 photons per channel on: labels are concatenated decimal numbers (C51_fails: (1,11) and (11,1) become one outcome). Proved for photon numbers below 10."
  },
  {
   "property": "C63",
   "status": "proved",
   "theorems": [
    "Verif.Props.C63_pair",
    "Verif.Props.C63_outcome",
    "Verif.Props.C63_photons"
   ],
   "note": ""
  },
  {
   "property": "C64",
   "status": "partial",
   "theorems": [
    "Verif.Props.C64_identical",
    "Verif.Props.C64_born_partial"
   ],
   "note": "C64_identical: all columns. C64_born_partial: states without zero amplitudes, not a single component with amplitude other than 1 (see C53), at most 9 photons per channel (see C51)."
  },
  {
   "property": "C65",
   "status": "partial",
   "theorems": [
    "Verif.Props.C65_rescaled",
    "Verif.Props.C65_repeat_partial",
    "Verif.Props.C65_fails"
   ],
   "note": "Violated for partially overlapping photons (C65_fails): the rescaling ignores the interference between columns. Proved when the columns of the group have different photon numbers."
  },
  {
   "property": "C66",
   "status": "partial",
   "theorems": [
    "Verif.Props.C66_measure_partial",
    "Verif.Props.C66_collection_partial",
    "Verif.Props.C66_fails"
   ],
   "note": "Violated: one history entry per measured channel (C66_fails). Everything else is proved for photon numbers below 10."
  },
  {
   "property": "C50",
   "status": "proved",
   "theorems": [
    "Verif.Props.C50_symmetric",
    "Verif.Props.C50_range",
    "Verif.Props.C50_one_iff",
    "Verif.Props.C50_unknown",
    "Verif.Props.C50_shift",
    "Verif.Props.C50_quick"
   ],
   "note": ""
  },
  {
   "property": "C67",
   "status": "proved",
   "theorems": [
    "Verif.Props.C67_round_trip",
    "Verif.Props.C67_store",
    "Verif.Props.C67_fresh"
   ],
   "note": ""
  },
  {
   "property": "C68",
   "status": "proved",
   "theorems": [
    "Verif.Props.C68_delay",
    "Verif.Props.C68_add",
    "Verif.Props.C68_cancel",
    "Verif.Props.C68_zero",
    "Verif.Props.C68_common",
    "Verif.Props.C68_defined"
   ],
   "note": "C68_delay: the groups of the result are the single-photon groups of the input (C53) with the delays changed. Note: the node also sets the pulse width of every photon to its own argument pulse_width (part of DelayedState); C68_zero and C68_common assume the photons already have this width. An int instead of a list of channels raises a TypeError (not modelled)."
  },
  {
   "property": "C69",
   "status": "partial",
   "theorems": [
    "Verif.Props.C69_all",
    "Verif.Props.C69_some",
    "Verif.Props.C69_none",
    "Verif.Props.C69_fails"
   ],
   "note": "The widths are right (C69_all, C69_some). Violated: setting the width of all channels of a collection without photon information makes every later spectral node and every measurement raise a KeyError (C69_fails, every such collection)."
  },
  {
   "property": "C70",
   "status": "proved",
   "theorems": [
    "Verif.Props.C70_quick",
    "Verif.Props.C70_prob",
    "Verif.Props.C70_photons",
    "Verif.Props.C70_apart",
    "Verif.Props.C70_defined"
   ],
   "note": "The photons of the separated part overlap by 2^-20000, not 0 (C70_apart)."
  },
  {
   "property": "C71",
   "status": "partial",
   "theorems": [
    "Verif.Props.C71_gate_partial",
    "Verif.Props.C71_gate_fails"
   ],
   "note": "Proved for states whose components differ outside the channels of the pairs. Otherwise components collapse onto one name and are added: the states are not normalised and every later copy raises (C71_gate_fails, any pair gate on a superposition within its channels)."
  },
  {
   "property": "C72",
   "status": "proved",
   "theorems": [
    "Verif.Props.C72_product_outcomes",
    "Verif.Props.C72_local_optics"
   ],
   "note": "C72_local_optics needs K > 0 (zero raises, negative values are not modelled)."
  },
  {
   "property": "C73",
   "status": "partial",
   "theorems": [
    "Verif.Props.C73_total_probability_partial",
    "Verif.Props.C73_total_probability_fails"
   ],
   "note": "Proved for local optics. Violated if the two photons of a pair meet on beam splitters: total 2P (C73_total_probability_fails)."
  },
  {
   "property": "C74",
   "status": "proved",
   "theorems": [
    "Verif.Props.C74_marginal_first",
    "Verif.Props.C74_marginal_second",
    "Verif.Props.C74_no_signalling"
   ],
   "note": ""
  },
  {
   "property": "C75",
   "status": "partial",
   "theorems": [
    "Verif.Props.C75_regular_entanglement_partial",
    "Verif.Props.C75_regular_entanglement_fails"
   ],
   "note": "Proved if the optics of the first photon is real (linear polarizations). Violated for quarter-wave plates in both arms: probability 1/2 instead of 0 (C75_regular_entanglement_fails)."
  },
  {
   "property": "C76",
   "status": "proved",
   "theorems": [
    "Verif.Props.C76_measured_correlation",
    "Verif.Props.C76_quantum_bound",
    "Verif.Props.C76_algebraic_bound",
    "Verif.Props.C76_standard_settings",
    "Verif.Props.C76_beyond_quantum",
    "Verif.Props.C76_limit",
    "Verif.Props.C76_chsh_experiment"
   ],
   "note": ""
  },
  {
   "property": "C77",
   "status": "partial",
   "theorems": [
    "Verif.Props.C77_detected_partial",
    "Verif.Props.C77_products_accepted",
    "Verif.Props.C77_single_pair_never_rejected",
    "Verif.Props.C77_entanglement_fails"
   ],
   "note": "Products are accepted. Entanglement between pairs is detected if the recovered pair states are products; otherwise it can pass unnoticed (C77_entanglement_fails): line 313 reads `not a and b` where `not (a and b)` or `not a` was meant."
  },
  {
   "property": "C78",
   "status": "proved",
   "theorems": [
    "Verif.Props.C78_measurement",
    "Verif.Props.C78_cum",
    "Verif.Props.C78_collapsed",
    "Verif.Props.C78_total"
   ],
   "note": "Hypothesis: the classical channels of the node are distinct, and the outcome probabilities lie in [0,1] (proved for local optics, C78_total)."
  },
  {
   "property": "C79",
   "status": "partial",
   "theorems": [
    "Verif.Props.C79_argument_unchanged_fails"
   ],
   "note": "Violated for every non-empty collection (C79_argument_unchanged_fails): the first state of each set loses its correlation information, and measuring the collection again raises. Nothing of the claim is left to prove."
  },
  {
   "property": "C80",
   "status": "proved",
   "theorems": [
    "Verif.Props.C80_conserved",
    "Verif.Props.C80_exact"
   ],
   "note": "Generic function nodes are covered if the function itself conserves probability. Bridges: see C140."
  },
  {
   "property": "C81",
   "status": "partial",
   "theorems": [
    "Verif.Props.C81_evaluates_partial",
    "Verif.Props.C81_compound_partial",
    "Verif.Props.C81_fails"
   ],
   "note": "Proved for circuits with all kinds of nodes (generic functions if they raise no exception and keep norms), and for compound circuits whose circuits can take over each other's states, if the number of nodes times the loss per node (L^C times threshold) is below 1 and no component of the input has amplitude 0. Without the first bound the claim fails: C81_fails gives a circuit where the threshold removes all components of a state and the next optical node raises an exception."
  },
  {
   "property": "C82",
   "status": "proved",
   "theorems": [
    "Verif.Props.C82_matrix_is_evaluation",
    "Verif.Props.C82_available",
    "Verif.Props.C82_unitary",
    "Verif.Props.C82_all"
   ],
   "note": "Node numbers are natural numbers (negative indices not modelled)."
  },
  {
   "property": "C83",
   "status": "partial",
   "theorems": [
    "Verif.Props.C83_limit_partial",
    "Verif.Props.C83_error_partial",
    "Verif.Props.C83_cutoff",
    "Verif.Props.C83_fails"
   ],
   "note": "Below the cutoff the operator tends to the wave plate as the number of terms of the exponential series grows, with an explicit error bound for the 25 terms of the code (C83_error_partial). Violated at the cutoff (C83_fails: one photon in each channel, length 2, phi = 1): the wave plate leaves such states alone, the operator multiplies them by a phase."
  },
  {
   "property": "C84",
   "status": "partial",
   "theorems": [
    "Verif.Props.C84_linear_optics_partial"
   ],
   "note": "Limit of many terms, inputs below the cutoff; for the fixed number of terms see C61_fails, above the cutoff see C83_cutoff."
  },
  {
   "property": "C85",
   "status": "partial",
   "theorems": [
    "Verif.Props.C85_gate",
    "Verif.Props.C85_control",
    "Verif.Props.C85_wave_plate",
    "Verif.Props.C85_builder_fails"
   ],
   "note": "All but the last clause proved. Violated: the builder of the controlled wave plate accepts channel numbers one too large, the evaluation then raises (C85_builder_fails)."
  },
  {
   "property": "C86",
   "status": "proved",
   "theorems": [
    "Verif.Props.C86_experiment"
   ],
   "note": "Hypotheses (structure Experiment): positive threshold not above any non-zero squared amplitude at the end, K > 0, no channel pair (h,0) with h >= 2 (see C07)."
  },
  {
   "property": "C87",
   "status": "partial",
   "theorems": [
    "Verif.Props.C87_bridges_partial",
    "Verif.Props.C87_compound_partial",
    "Verif.Props.C87_threshold_fails"
   ],
   "note": "Proved for circuits with one naming convention and the default threshold that all or none have classical channels, for results with at least one state (so exceptions agree only up to empty results); generic functions are assumed to map the empty collection to itself. Violated for other thresholds (C87_threshold_fails: the states keep the threshold of the first circuit) and for different naming conventions (C88_names_fails)."
  },
  {
   "property": "C88",
   "status": "partial",
   "theorems": [
    "Verif.Props.C88_bridge_partial",
    "Verif.Props.C88_no_classical_fails",
    "Verif.Props.C88_names_fails"
   ],
   "note": "Proved for equal naming conventions, photon numbers the next circuit allows, probabilities not below the threshold when channels are added, and a next circuit with classical channels if the first one has any. Violated without the last (C88_no_classical_fails) and for different naming conventions (C88_names_fails: a photon in channel 1 arrives in channel 0)."
  },
  {
   "property": "C89",
   "status": "partial",
   "theorems": [
    "Verif.Props.C89_first_state_partial",
    "Verif.Props.C89_all_channels_partial",
    "Verif.Props.C89_fails"
   ],
   "note": "Only the first state matters (C89_first_state_partial); if the pairs use all channels its content does not matter (C89_all_channels_partial). Violated in general: photons in other channels, probability and label of the first state are kept (C89_fails)."
  },
  {
   "property": "C90",
   "status": "partial",
   "theorems": [
    "Verif.Props.C90_actual",
    "Verif.Props.C90_valid_states_partial",
    "Verif.Props.C90_fails"
   ],
   "note": "For dictionaries of valid states the identifiers are checked. Violated: invalid states are accepted, values that are no states dropped silently (C90_fails): `not a and b and c` instead of `not (a and b and c)`. C90_actual: what is checked."
  },
  {
   "property": "C91",
   "status": "partial",
   "theorems": [
    "Verif.Props.C91_accepted_partial",
    "Verif.Props.C91_default",
    "Verif.Props.C91_names_fails",
    "Verif.Props.C91_normalised_fails"
   ],
   "note": "Entries and defaults are right; only the ranges of probabilities and the number of classical values are checked, not component names (C91_names_fails), normalisation or consistency (C91_normalised_fails)."
  },
  {
   "property": "C92",
   "status": "proved",
   "theorems": [
    "Verif.Props.C92_photon_number",
    "Verif.Props.C92_compare"
   ],
   "note": ""
  },
  {
   "property": "C93",
   "status": "proved",
   "theorems": [
    "Verif.Props.C93_correlation"
   ],
   "note": "Total probability must not be 0 (otherwise division by zero)."
  },
  {
   "property": "C94",
   "status": "proved",
   "theorems": [
    "Verif.Props.C94_last_refresh",
    "Verif.Props.C94_created",
    "Verif.Props.C94_originals",
    "Verif.Props.C94_clear"
   ],
   "note": "The listed circuits have no bridges of their own (these would lead to the circuits themselves, not to copies)."
  },
  {
   "property": "C95",
   "status": "partial",
   "theorems": [
    "Verif.Props.C95_empty_partial",
    "Verif.Props.C95_fails"
   ],
   "note": "Violated: the default list is one object shared by all compound circuits created without arguments (C95_fails). Proved if nothing was ever appended to it."
  },
  {
   "property": "C96",
   "status": "partial",
   "theorems": [
    "Verif.Props.C96_default_partial",
    "Verif.Props.C96_columns",
    "Verif.Props.C96_fails"
   ],
   "note": "Proved if at least one node is evaluated. Violated for an empty circuit or an empty selection: the result is None (C96_fails)."
  },
  {
   "property": "C97",
   "status": "partial",
   "theorems": [
    "Verif.Props.C97_single_partial",
    "Verif.Props.C97_width",
    "Verif.Props.C97_one_component",
    "Verif.Props.C97_rest",
    "Verif.Props.C97_lost",
    "Verif.Props.C97_again",
    "Verif.Props.C97_fails"
   ],
   "note": "Proved if every state has one component (C97_single_partial), and for the pulse width of all or no channels (C97_width). Violated otherwise: every state of the given collection keeps only its last component (C97_one_component, C97_lost; the rest of the state is kept, C97_rest), and evaluating again gives one column instead of several (C97_again, C97_fails)."
  },
  {
   "property": "C98",
   "status": "partial",
   "theorems": [
    "Verif.Props.C98_identifier",
    "Verif.Props.C98_position",
    "Verif.Props.C98_iterate_partial",
    "Verif.Props.C98_strings",
    "Verif.Props.C98_stops",
    "Verif.Props.C98_fails"
   ],
   "note": "Proved for string identifiers (C98_strings) and integers outside the range of positions (C98_iterate_partial). Violated for integer identifiers: states are visited twice or in another order (C98_fails)."
  },
  {
   "property": "C99",
   "status": "partial",
   "theorems": [
    "Verif.Props.C99_bars",
    "Verif.Props.C99_settled",
    "Verif.Props.C99_measured",
    "Verif.Props.C99_defined",
    "Verif.Props.C99_unresolved",
    "Verif.Props.C99_again",
    "Verif.Props.C99_fails"
   ],
   "note": "Heights of the bars proved (C99_bars, C99_settled with C99_measured). Violated: the last sentence. Plotting removes all but the last component from states with several components, so a second plot of the same collection shows smaller probabilities (C99_again, C99_fails)."
  },
  {
   "property": "C100",
   "status": "partial",
   "theorems": [
    "Verif.Props.C100_optics_partial",
    "Verif.Props.C100_state_partial"
   ],
   "note": "Proved for all lists of two-channel elements, without the channel pairs that the code orders wrongly (C08) and for inputs with fewer photons than the cutoff (otherwise the Fock space is truncated)."
  },
  {
   "property": "C101",
   "status": "partial",
   "theorems": [
    "Verif.Props.C101_group_partial",
    "Verif.Props.C101_collection_partial"
   ],
   "note": "Proved for groups whose states are normalised, with photon numbers below min(cutoff, 10) and with consistent phases: the code ignores the amplitude of states with one component at measurement (C53_fails), which is harmless when this phase depends on the channel only."
  },
  {
   "property": "C102",
   "status": "partial",
   "theorems": [
    "Verif.Props.C102_collection_partial",
    "Verif.Props.C102_state_partial",
    "Verif.Props.C102_circuit_partial",
    "Verif.Props.C102_nodes_partial"
   ],
   "note": "Proved for input states with fewer photons than the cutoff (at most 10), when the threshold drops no amplitude (for circuits starting with a spectral element this is a condition on the transition probabilities of single photons, C102_circuit_partial), without the channel pairs that the code orders wrongly (C08), and when the first spectral element is a delay or a width for some but not all channels (otherwise the states get no photon information, C69)."
  },
  {
   "property": "C103",
   "status": "proved",
   "theorems": [
    "Verif.Props.C103_dip",
    "Verif.Props.C103_half"
   ],
   "note": "The transition probabilities of the element are zero or at least the threshold."
  },
  {
   "property": "C104",
   "status": "partial",
   "theorems": [
    "Verif.Props.C104_collection_partial",
    "Verif.Props.C104_state_partial",
    "Verif.Props.C104_fails"
   ],
   "note": "Under the conditions of C102 (fewer photons than the cutoff, nothing dropped by the threshold, C08 excluded). False when set_pulse_width is applied to some channels only: the total probability can be more than 1 (C104_fails); the overlap function is not an inner product for pulses of different widths."
  },
  {
   "property": "C105",
   "status": "partial",
   "theorems": [
    "Verif.Props.C105_partial",
    "Verif.Props.C105_first_partial"
   ],
   "note": "Under the conditions of C102 (fewer photons than the cutoff, nothing dropped by the threshold, C08 excluded); the widths in the circuit may differ per channel."
  },
  {
   "property": "C106",
   "status": "partial",
   "theorems": [
    "Verif.Props.C106_partial",
    "Verif.Props.C106_runs_partial"
   ],
   "note": "For input states without photon information with fewer photons than the cutoff, when the threshold drops no amplitude, channel pairs of C08 excluded, and when no basis state gets a bare phase before the quick delay or between the delay and the measurement (such a phase is lost, C53)."
  },
  {
   "property": "C107",
   "status": "partial",
   "theorems": [
    "Verif.Props.C107_coincidence_partial",
    "Verif.Props.C107_fails"
   ],
   "note": "True (difference below 2^-40000, for all delays and pulse widths) for the coincidences of two photons at a 50/50 beam splitter. False for one photon in a superposition of two channels: with a delay of one pulse width the probabilities are 0.85 (full) and 0.75 (quick) (C107_fails)."
  },
  {
   "property": "C108",
   "status": "partial",
   "theorems": [
    "Verif.Props.C108_calls_partial",
    "Verif.Props.C108_negative_full",
    "Verif.Props.C108_negative_quick",
    "Verif.Props.C108_full_fails",
    "Verif.Props.C108_width_fails",
    "Verif.Props.C108_bandwidth",
    "Verif.Props.C108_negative_fails"
   ],
   "note": "Proved for lists of channel numbers that are not negative, single channels in the quick delay, None in set_pulse_width, and the defaults of the pulse width (C108_calls_partial: C102 to C107 apply to circuits built by such calls). False otherwise: the full delay with a single channel or None and set_pulse_width with a single channel raise when the circuit is evaluated (C108_full_fails, C108_width_fails); channels that do not exist are not refused by the call, the full delay raises later and the quick delay ignores them; negative numbers count from the end in the full delay and are ignored in the quick delay (C108_negative_fails). pulse_width = None in time_delay_full and set_pulse_width is not modelled."
  },
  {
   "property": "C109",
   "status": "proved",
   "theorems": [
    "Verif.Props.C109_convention",
    "Verif.Props.C109_compound",
    "Verif.Props.C109_default",
    "Verif.Props.C109_density",
    "Verif.Props.C109_shift_direct"
   ],
   "note": "Proved with the settings as circuits, collections and states really hold them (Model/Compound), so it also holds when connected circuits use different conventions (all conventions are exchanged). Functions on collections given by the user must themselves respect the relation; the library's own ones do (C109_shift_direct). Photon resolution and superquantum information are not included."
  },
  {
   "property": "C110",
   "status": "partial",
   "theorems": [
    "Verif.Props.C110_itself",
    "Verif.Props.C110_partial",
    "Verif.Props.C110_copy",
    "Verif.Props.C110_shift",
    "Verif.Props.C110_shift_partial",
    "Verif.Props.C110_shift_lost",
    "Verif.Props.C110_fails"
   ],
   "note": "Proved for collections that have no component dictionary in common (C110_partial), in particular for copies in both directions (C110_copy); the object-level model agrees with the one of C41 (C110_itself). shift_direct and c_shift_direct give the result the dictionaries of the given collection, and clean_up overwrites small ones in place, so cleaning up the result sets small components of the given collection to zero (C110_fails; nothing else changes, C110_shift_lost; no effect without small components, C110_shift_partial)."
  },
  {
   "property": "C111",
   "status": "partial",
   "theorems": [
    "Verif.Props.C111_commute_partial",
    "Verif.Props.C111_collection_partial",
    "Verif.Props.C111_commute_fails"
   ],
   "note": "Proved for all channel pairs but those with first channel >= 2 and second channel 0, which the code addresses wrongly (C07): nodes given on 3,0 and on 1,2 do not commute (C111_commute_fails)."
  },
  {
   "property": "C112",
   "status": "partial",
   "theorems": [
    "Verif.Props.C112_statistics_partial",
    "Verif.Props.C112_exact_partial",
    "Verif.Props.C112_statistics_fails"
   ],
   "note": "The probability of an outcome can decrease by at most what the threshold removes from the state (at most threshold times number of basis states), and is exactly unchanged if nothing is removed. Missing: nodes with first channel >= 2 and second channel 0, which act on other channels than given (C112_statistics_fails)."
  },
  {
   "property": "C113",
   "status": "partial",
   "theorems": [
    "Verif.Props.C113_collection_partial",
    "Verif.Props.C113_circuits_partial",
    "Verif.Props.C113_small_thresholds"
   ],
   "note": "Proved for collections and for whole circuits, up to the order and the identifiers of the states, provided the threshold removes nothing - which holds for every collection if the threshold is small enough (C113_small_thresholds). Missing: nodes with first channel >= 2 and second channel 0 (C07)."
  },
  {
   "property": "C114",
   "status": "proved",
   "theorems": [
    "Verif.Props.C114_states",
    "Verif.Props.C114_together",
    "Verif.Props.C114_labels",
    "Verif.Props.C114_shifts",
    "Verif.Props.C114_compound",
    "Verif.Props.C114_compound_labels"
   ],
   "note": "For all node types; generic functions given by the user must treat every state on its own (the package's own shift nodes do: C114_shifts). Compound circuits: positive threshold. Random numbers: addState draws until the identifier is new, as in the code."
  },
  {
   "property": "C115",
   "status": "proved",
   "theorems": [
    "Verif.Props.C115_joint",
    "Verif.Props.C115_circuits"
   ],
   "note": "Exact real arithmetic; states with valid components, total probability at most 1 and cumulative probability in [0,1]."
  },
  {
   "property": "C116",
   "status": "proved",
   "theorems": [
    "Verif.Props.C116_order",
    "Verif.Props.C116_circuits"
   ],
   "note": "Up to the order of the states and the split of the joint probability over the two history entries."
  },
  {
   "property": "C117",
   "status": "partial",
   "theorems": [
    "Verif.Props.C117_born_partial",
    "Verif.Props.C117_close",
    "Verif.Props.C117_histogram_partial"
   ],
   "note": "Proved for inputs below the cutoff, without the channel pairs that the code addresses wrongly (C07)."
  },
  {
   "property": "C118",
   "status": "partial",
   "theorems": [
    "Verif.Props.C118_field_partial",
    "Verif.Props.C118_mach_zehnder_partial",
    "Verif.Props.C118_malus_partial"
   ],
   "note": "Probabilities below the threshold become 0. Missing only the channel pairs that the code addresses wrongly (C07)."
  },
  {
   "property": "C119",
   "status": "partial",
   "theorems": [
    "Verif.Props.C119_same_partial",
    "Verif.Props.C119_measured_partial",
    "Verif.Props.C119_identity_partial",
    "Verif.Props.C119_inverse",
    "Verif.Props.C119_cutoff_fails"
   ],
   "note": "Proved for inputs below the cutoff, without the channel pairs that the code addresses wrongly (C07). At the cutoff the property is violated: C119_cutoff_fails."
  },
  {
   "property": "C120",
   "status": "proved",
   "theorems": [
    "Verif.Props.C120_placeholder",
    "Verif.Props.C120_left_out",
    "Verif.Props.C120_last"
   ],
   "note": "Between two optical nodes it separates the two evaluations (C31_optical_one_by_one tells when this makes no difference)."
  },
  {
   "property": "C121",
   "status": "partial",
   "theorems": [
    "Verif.Props.C121_pair_partial",
    "Verif.Props.C121_entangled_partial",
    "Verif.Props.C121_correlation_partial",
    "Verif.Props.C121_chsh_partial"
   ],
   "note": "Proved from the creation-operator specification (C100, C117) without the channel pairs that the code addresses wrongly (C07) and, for the correlation, with channel 0 on the left of the names (C49)."
  },
  {
   "property": "C122",
   "status": "proved",
   "theorems": [
    "Verif.Props.C122_product",
    "Verif.Props.C122_wave_plates",
    "Verif.Props.C122_quarter",
    "Verif.Props.C122_retardation",
    "Verif.Props.C122_phases_add",
    "Verif.Props.C122_inverse",
    "Verif.Props.C122_twice"
   ],
   "note": ""
  },
  {
   "property": "C123",
   "status": "partial",
   "theorems": [
    "Verif.Props.C123_nothing_lost",
    "Verif.Props.C123_defined",
    "Verif.Props.C123_add_column",
    "Verif.Props.C123_new_column",
    "Verif.Props.C123_constructors",
    "Verif.Props.C123_assign",
    "Verif.Props.C123_join_partial",
    "Verif.Props.C123_own_identifier_partial",
    "Verif.Props.C123_list_of_columns",
    "Verif.Props.C123_next_identifier",
    "Verif.Props.C123_join_fails",
    "Verif.Props.C123_probability_fails",
    "Verif.Props.C123_carries_fails"
   ],
   "note": "Nothing is lost and identifiers are unique for every history. Violated: add_column with an unused identifier sets the key only, so the column keeps another identifier and group (C123_carries_fails) and a second state added with the same identifier gets a new column (C123_join_fails); columns of a list keep their own cumulative probability (C123_probability_fails). Proved when calls name no identifier that differs from the one the object has."
  },
  {
   "property": "C124",
   "status": "partial",
   "theorems": [
    "Verif.Props.C124_collapse_partial",
    "Verif.Props.C124_feed_forward_partial"
   ],
   "note": "Proved for inputs below the cutoff, channel pairs not affected by the ordering bug C07 and amplitudes not below the threshold (C04)."
  },
  {
   "property": "C125",
   "status": "partial",
   "theorems": [
    "Verif.Props.C125_teleport_partial",
    "Verif.Props.C125_success_partial"
   ],
   "note": "Same restrictions as C124. The probabilities are proved for a photon that is not entangled with others."
  },
  {
   "property": "C126",
   "status": "partial",
   "theorems": [
    "Verif.Props.C126_all_outcomes_partial",
    "Verif.Props.C126_projections_partial",
    "Verif.Props.C126_born_partial",
    "Verif.Props.C126_circuit_partial",
    "Verif.Props.C126_fresh_fails",
    "Verif.Props.C126_stale_fails"
   ],
   "note": "Proved when the components of the columns were generated after the last change. The function reads a stored name: without one it raises an exception (C126_fresh_fails), and when the column changed since it lists the old outcome with probability 0 (C126_stale_fails)."
  },
  {
   "property": "C127",
   "status": "proved",
   "theorems": [
    "Verif.Props.C127_all",
    "Verif.Props.C127_filter"
   ],
   "note": ""
  },
  {
   "property": "C128",
   "status": "partial",
   "theorems": [
    "Verif.Props.C128_projections_partial",
    "Verif.Props.C128_none",
    "Verif.Props.C128_complete",
    "Verif.Props.C128_beyond_cutoff"
   ],
   "note": "Proved for photon numbers below 10, where the labels of the results are unambiguous (C66)."
  },
  {
   "property": "C129",
   "status": "proved",
   "theorems": [
    "Verif.Props.C129_decoherence",
    "Verif.Props.C129_diagonal",
    "Verif.Props.C129_no_signalling"
   ],
   "note": ""
  },
  {
   "property": "C130",
   "status": "partial",
   "theorems": [
    "Verif.Props.C130_histogram_partial",
    "Verif.Props.C130_correlations_partial",
    "Verif.Props.C130_dict_partial",
    "Verif.Props.C130_empty_fails",
    "Verif.Props.C130_repeated_fails",
    "Verif.Props.C130_colors_fails"
   ],
   "note": "Proved but for the colours: with more outcomes than colours (ten by default) two outcomes have the same colour (C130_histogram_partial proves it for every such chart, C130_colors_fails: eleven results). A dictionary to be plotted with the same label twice gets bars that cover each other (C130_repeated_fails); one without entries raises (C130_empty_fails)."
  },
  {
   "property": "C131",
   "status": "proved",
   "theorems": [
    "Verif.Props.C131_superposition",
    "Verif.Props.C131_superposition_exact",
    "Verif.Props.C131_inner_product"
   ],
   "note": ""
  },
  {
   "property": "C132",
   "status": "proved",
   "theorems": [
    "Verif.Props.C132_optics",
    "Verif.Props.C132_measurement",
    "Verif.Props.C132_statistics",
    "Verif.Props.C132_circuit",
    "Verif.Props.mixtures_same"
   ],
   "note": "Assumption: the threshold removes no amplitude (C113_small_thresholds: met for small thresholds). mixtures_same: two different mixtures with the same density matrix."
  },
  {
   "property": "C133",
   "status": "proved",
   "theorems": [
    "Verif.Props.C133_evaluation",
    "Verif.Props.C133_compound",
    "Verif.Props.C133_shift_nodes",
    "Verif.Props.C133_operator_nodes",
    "Verif.Props.C133_histogram",
    "Verif.Props.C133_density_matrix"
   ],
   "note": "No assumption on the circuit or the states. Nodes with a function of the user (generic_function_on_collection) must not look at phases themselves; the shift and quantum operator nodes of the library, which are such nodes, are proved not to."
  },
  {
   "property": "C134",
   "status": "proved",
   "theorems": [
    "Verif.Props.C134_evaluation",
    "Verif.Props.C134_labels",
    "Verif.Props.C134_histories",
    "Verif.Props.C134_compound",
    "Verif.Props.C134_library_nodes"
   ],
   "note": "No assumption on the circuit or the states. Nodes with a function of the user (generic_function_on_collection) must not look at labels or results themselves; the nodes of the library that are built that way are proved not to. The in-place change of recorded results by a later classical node is a matter of the heap model (C30)."
  },
  {
   "property": "C135",
   "status": "partial",
   "theorems": [
    "Verif.Props.C135_reduced_state_partial",
    "Verif.Props.C135_statistics_partial",
    "Verif.Props.C135_free_choice_partial",
    "Verif.Props.C135_shifts",
    "Verif.Props.C135_direct_shifts"
   ],
   "note": "Missing: elements given on a first channel >= 2 and second channel 0, which the code applies to other channels (C07_addressing_fails, C112_statistics_fails). With a threshold the change is bounded by what the threshold removed, at most L^C * threshold per node."
  },
  {
   "property": "C136",
   "status": "partial",
   "theorems": [
    "Verif.Props.C136_parameters_partial",
    "Verif.Props.C136_others_partial",
    "Verif.Props.C136_assign",
    "Verif.Props.C136_copy",
    "Verif.Props.C136_add_state_partial",
    "Verif.Props.C136_constructor_partial",
    "Verif.Props.C136_set_information",
    "Verif.Props.C136_split",
    "Verif.Props.C136_single_photons",
    "Verif.Props.C136_condense",
    "Verif.Props.C136_condense_state",
    "Verif.Props.C136_single_photon_test",
    "Verif.Props.C136_tests_after",
    "Verif.Props.C136_shared_state_fails",
    "Verif.Props.C136_shared_list_fails",
    "Verif.Props.C136_guard_fails"
   ],
   "note": "Missing: State objects or lists given to two columns, for which the property is false of the code: the second column overwrites the parameters in the state (C136_shared_state_fails), and the constructor keeps the list it is given, so that a state added to one column appears in the other (C136_shared_list_fails). The documented exception of single_photon_states is never raised (C136_guard_fails)."
  },
  {
   "property": "C137",
   "status": "partial",
   "theorems": [
    "Verif.Props.C137_reduce",
    "Verif.Props.C137_extend",
    "Verif.Props.C137_adjust",
    "Verif.Props.C137_later_changes",
    "Verif.Props.C137_adjust_fails"
   ],
   "note": "Proved for every heap and collection, except that later changes of a collection whose length has been adjusted do change the State objects it had before: adjust_length_of_fock_state shares their lists of classical values (C137_adjust_fails)."
  },
  {
   "property": "C138",
   "status": "proved",
   "theorems": [
    "Verif.Props.C138_close",
    "Verif.Props.C138_outcomes",
    "Verif.Props.C138_limit"
   ],
   "note": "For every two divisions of the same nodes into calls, with any thresholds."
  },
  {
   "property": "C139",
   "status": "proved",
   "theorems": [
    "Verif.Props.C139_amplitudes",
    "Verif.Props.C139_events",
    "Verif.Props.C139_classical",
    "Verif.Props.C139_limit"
   ],
   "note": "Amplitudes over any set of records and names, probabilities of any event."
  },
  {
   "property": "C140",
   "status": "proved",
   "theorems": [
    "Verif.Props.C140_network",
    "Verif.Props.C140_compound",
    "Verif.Props.C140_compound_exact"
   ],
   "note": "Circuits use the same naming convention, allow the photon numbers of the circuit before and have a classical channel if it has one. Each circuit removes components with its own threshold (see C87)."
  },
  {
   "property": "C141",
   "status": "proved",
   "theorems": [
    "Verif.Props.C141_evaluates",
    "Verif.Props.C141_amplitudes",
    "Verif.Props.C141_conserved",
    "Verif.Props.C141_coherence",
    "Verif.Props.C141_extremes",
    "Verif.Props.C141_visibility"
   ],
   "note": "For targets that are not empty the node does not conserve probability: C56_fails. The coherences are stated for the case in which the threshold removed nothing (the carried probability stays the same), as for C135."
  },
  {
   "property": "C142",
   "status": "partial",
   "theorems": [
    "Verif.Props.C142_draws_partial",
    "Verif.Props.C142_order_partial",
    "Verif.Props.C142_apart_partial",
    "Verif.Props.C142_pages_partial",
    "Verif.Props.C142_fails"
   ],
   "note": "Proved for circuits in which every run of nodes of one combined gate (the two nodes of each non polarizing beam splitter) is at most twice as long as the number of positions on a page (10 by default). Longer runs raise an exception: C142_fails. The places of the nodes are modelled, the lines, markers and texts drawn there are not."
  },
  {
   "property": "C143",
   "status": "partial",
   "theorems": [
    "Verif.Props.C143_nodes",
    "Verif.Props.C143_mutual",
    "Verif.Props.C143_symbols",
    "Verif.Props.C143_fails"
   ],
   "note": "The circuits of the stations are proved to be right in full; the part that fails is the selection of the stations: a list given as station_to_draw is ignored and all stations are drawn (C143_fails). For circuits connected by bridges the theorems hold for each of the circuits (the symbols start again in each of them)."
  },
  {
   "property": "C144",
   "status": "partial",
   "theorems": [
    "Verif.Props.C144_labels_partial",
    "Verif.Props.C144_distinct",
    "Verif.Props.C144_user_partial",
    "Verif.Props.C144_fails"
   ],
   "note": "Proved without labels of the user and with labels for both kinds of channels. Labels given for the classical channels only are overwritten, in the list of the user itself: C144_fails."
  }
 ]
}