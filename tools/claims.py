c("C01","proved",["C01_name_values_roundtrip","C01_values_name_roundtrip"],"")
c("C02","proved",["C02_names_injective"],"")
c("C03","proved",["C03_index_is_radix","C03_at_index_valid","C03_index_of_valid","C03_name_index"],"")
c("C04","partial",["C04_name_lookup_history_independent","C04_values_lookup_history_independent_partial","C04_values_lookup_single_digit","C04_values_lookup_fails"],"Name lookup is history independent; values lookup only when all earlier name lookups had full width (multi-digit circuits violate it, witness proved).")
c("C05","partial",["C05_enumeration_order_partial","C05_enumeration_order_fails","C05_second_iteration_fails"],"Holds for the first iteration in a standard history; violated in general (witnesses proved).")
c("C06","partial",["C06_membership_partial","C06_membership_single_digit","C06_membership_fails"],"Complete for one digit per channel; for more digits a truncated name is accepted (witness proved).")
c("C07","partial",["C07_addressing_partial","C07_single_channel","C07_refusals","C07_addressing_fails"],"Violated for first channel >= 2 and second channel 0 (proved for all such pairs).")
c("C08","proved",["C08_photon_number"],"")
c("C09","proved",["C09_unitary"],"")
c("C10","partial",["C10_above_cutoff_partial"],"Missing only the misaddressed channel pairs of C07.")
c("C11","proved",["C11_vacuum_and_single_photon","C11_two_channel_matrix"],"")
c("C12","proved",["C12_composition"],"")
c("C13","partial",["C13_spectators_partial","C13_misaddressed"],"Missing only the misaddressed channel pairs of C07, for which the wrong behaviour is proved.")
c("C14","proved",["C14_full_or_reduced"],"For every list of optical nodes and every valid non-empty state; basis enumerated in standard order (C05).")
c("C15","proved",["C15_grouped_equals_sequential","C15_one_by_one_states"],"")
c("C16","proved",["C16_norm_preserved"],"")
c("C22","partial",["C22_to_vector","C22_from_vector","C22_roundtrip_partial","C22_roundtrip_fails"],"Complete for a positive threshold; with threshold 0 spurious zero components appear (witness proved).")
c("C23","proved",["C23_list_components","C23_order_irrelevant","C23_refused"],"")
c("C24","proved",["C24_inner_is_hermitian_product","C24_inner_symmetry","C24_inner_linear","C24_outer"],"")
c("C17","proved",["C17_wave_plate","C17_elements_unitary"],"")
c("C18","partial",["C18_swap_partial","C18_swap_state_partial","C18_swap_fails","C18_pbs"],"Holds for basis states below the cutoff; at or above the cutoff swap does nothing (violation proved for all such states).")
c("C19","partial",["C19_phase_shift_partial","C19_phase_state_partial","C19_phase_fails"],"Holds when the channel and its partner channel hold fewer than L photons together; otherwise no phase is applied (proved for all such states).")
c("C20","partial",["C20_equal_split_partial","C20_hong_ou_mandel_partial","C20_length_two","C20_single_photon_state_partial","C20_hong_ou_mandel_state_partial","C20_beamsplitter_partial"],"Missing only the misaddressed channel pairs of C07. For length 2 there is no bunching (proved).")
c("C21","partial",["C21_actual_probabilities","C21_reflection_partial","C21_reflection_fails","C21_refused","C21_beamsplitter_actual"],"The documented reflection percentage is violated (actual probability proved for all values).")
c("C54","partial",["C54_field_actual","C54_field_partial","C54_field_fails"],"The transposed matrix is applied; symmetric matrices (all built-in elements) are unaffected. Violation proved with a unitary rotation matrix.")
c("C55","proved",["C55_tensor_state","C55_tensor_refused","C55_tensor_names"],"")
c("C25","proved",["C25_probability_conserved","C25_collection_probability","C25_rounding"],"Measurable requires total probability at most 1 (floats idealised); rounding fallback covered by C25_rounding.")
c("C26","proved",["C26_outcomes","C26_success"],"An outcome of total probability zero makes the model refuse (NaN amplitudes in the code).")
c("C27","proved",["C27_written","C26_outcomes"],"")
c("C28","proved",["C28_repeat"],"")
c("C29","proved",["C29_no_state_lost","C29_identifiers"],"")
c("C33","proved",["C33_random_identifier","C33_explicit_identifier","C33_explicit_keys"],"For every stream of random numbers, including termination of the identifier search.")
c("C34","partial",["C34_mixture_partial","C34_mixture_fails","C34_at_most_36"],"Violated: identifiers are compared with the old collection only. Holds when the drawn identifiers are pairwise different; on a collection without short identifiers at most 36 pairs can be stored (proved for all inputs).")
c("C35","proved",["C35_filter_label","C35_filter_identifier","C35_filter_classical","C35_copy","C35_delete","C35_get"],"")
c("C36","proved",["C36_default"],"")
c("C37","proved",["C37_entries","C37_density","C37_trace_one","C37_purity","C37_reported","C37_pure_one"],"")
c("C38","proved",["C38_states","C38_probability_conserved","C38_partial_trace","C38_success","C38_refused","C38_empty","C38_zero_refused"],"Entry-wise partial trace of the density matrix of every label. Findings: a single optical channel cannot be kept; an empty collection keeps its channel numbers; an all-zero component group raises ZeroDivisionError.")
c("C39","proved",["C39_allLists","C39_states","C39_refused","C39_nothing","C39_tensor_product","C39_extend_reduce","C39_no_classical"],"Finding C39_no_classical: with zero original classical channels the reduction back keeps all of them (empty list means all).")
c("C40","proved",["C40_fits","C40_wraps","C40_zero","C40_loss"],"C40_loss: components that coincide after wrapping overwrite each other, so amplitude is lost.")
c("C41","proved",["C41_merge","C41_total","C41_bound","C41_success","C41_rescale","C41_rescale_fails","C41_resembles_close","C41_resembles_asymmetric"],"Finding: resemblance is not symmetric; C41_resembles_close bounds the consequence.")
c("C31","partial",["C31_split_partial","C31_in_order_partial","C31_optical_run","C31_optical_one_by_one","C31_refused","C31_nothing","C31_skipped","C31_fails"],"Violated for lists that are not increasing: C31_fails (nodes [1, 0]) and C31_skipped (everything after the largest index is skipped). Proved for all increasing lists; consecutive optical nodes are evaluated together, which equals one by one unless amplitudes are pruned on the way (C31_optical_one_by_one).")
c("C46","proved",["C46_composition"],"For every list of circuits without own bridges. That the given circuits are unchanged holds by construction of the value model (refresh copies node_list; read in the source).")
c("C47","partial",["C47_ignored","C47_fails"],"Violated: nodes after a bridge are never evaluated (for every circuit), so there is nothing weaker to prove.")
c("C42","proved",["C42_matrix","C42_direct","C42_undo","C42_refused"],"shift drops components below the threshold, shift_direct does not. Finding: the argument checks of shift build an exception without raising it; refusals come from index errors.")
c("C43","partial",["C43_partial","C43_reversed","C43_fails","C43_self_fails"],"Violated: c_shift applies the pairs in reverse order (C43_reversed, all lists), so the two constructions differ when a target controls a later pair (C43_fails). They agree when no control channel is a target.")
c("C56","partial",["C56_fails","C56_single_pair_partial","C56_zero","C56_one"],"Violated for strengths strictly between 0 and 1: the matrix is not unitary. Proved for strengths 0 and 1 and all lists of pairs, and for single basis states and one pair. For targets that are empty see C141.")
c("C30","partial",["C30_partial","C30_agrees_partial","C30_compound_partial","C30_compound_agrees_partial","C30_fails"],"Violated: the new history entry and the current classical values are one list object, so set_classical_channels after a measurement rewrites the recorded result (C30_fails). Proved for every node list in which a copying node lies between a measurement and a classical node that writes into its argument (a bridge is such a node), for single and compound circuits; generic functions are not in the object-level model.")
c("C32","partial",["C32_partial","C32_compound_partial","C32_fails"],"Violated when the first evaluated node is a classical node (it works on the State objects of the input). Proved for all other node lists and compound circuits without generic functions, for the input and every other existing collection.")
c("C57","partial",["C57_same_contents","C57_change_copy","C57_change_original_partial","C57_classical_node","C57_fails"],"Changing the copy never affects the original: proved for every heap. The converse is violated after a measurement (C57_fails) and proved when no history entry is the list of current classical values.")
c("C44","partial",["C44_values_partial","C44_refused_partial","C44_fails"],"Violated for negative channel numbers, which pass the check (C44_fails: -1 writes the last channel, -2 of one channel raises at evaluation). Proved for all lists of non-negative channels, any length, with repetitions.")
c("C45","partial",["C45_wave_plate","C45_phase_shift","C45_value","C45_refused_partial","C45_optical_refused","C45_fails"],"The per-state values are proved for all collections. The refusal of invalid classical channels is violated by an off-by-one: channel m of m channels (and negative ones) is accepted and fails at evaluation (C45_fails).")
c("C48","partial",["C48_bars","C48_outcomes_partial","C48_label_partial","C48_defined","C48_fails","C48_label_fails"],"Sums, labels for all initial states and heights per label are proved for every collection. 'Own bar' is violated for classical values outside 0..L-1 or not integers (reduced modulo L, C48_fails) and proved for natural numbers below L. With channel 0 on the right and several digits the label is reversed digit by digit (C48_label_fails).")
c("C49","partial",["C49_range","C49_defined","C49_value_partial","C49_reversed","C49_fails"],"The range is proved for every collection with non-negative cumulative probabilities. The value is violated with channel 0 on the right (C49_fails: the channels are counted from the other end, C49_reversed) and proved with channel 0 on the left for natural numbers below L.")

c("C52","proved",["C52_basis","C52_elements","C52_defined","C52_creation","C52_annihilation","C52_adjoint","C52_commutator"],"Matrix elements of arbitrary Hamiltonians against ladder operators on formal combinations; the commutator is exact on the limited basis.")
c("C58","partial",["C58_actual","C58_commuting_partial","C58_fails"],"Violated: the last Hamiltonian acts first (C58_actual, every list). Holds for pairwise commuting exponentials.")
c("C59","proved",["C59_gate","C59_kept","C59_other_channels"],"")
c("C60","proved",["C60_hamiltonian","C60_transition","C60_gate"],"")
c("C61","partial",["C61_unitary_limit_partial","C61_error_partial","C61_fails"],"Violated for strong couplings: the Taylor expansion is cut after 25 terms (C61_fails: phase of 100 rad). The truncated exponentials converge to a unitary matrix.")
c("C53","partial",["C53_split","C53_split_defined","C53_single_photons","C53_condense","C53_round_trip_partial","C53_fails"],"Violated for a state with a single component whose amplitude is not 1 (C53_fails: the phase is lost by condensing and copied to every photon by expanding). Proved for all other normalised states; splitting, expanding and condensing preserve the quantum state (a polynomial in creation operators) for all columns of unit components.")
c("C62","partial",["C62_actual","C62_same_channels_partial","C62_fails"],"Violated: the operator channels of all Hamiltonians but the first are ignored.")
c("C51","partial",["C51_labels_partial","C66_measure_partial","C51_fails"],"Violated from 10 photons per channel on: labels are concatenated decimal numbers (C51_fails: (1,11) and (11,1) become one outcome). Proved for photon numbers below 10.")
c("C63","proved",["C63_pair","C63_outcome","C63_photons"],"")
c("C64","partial",["C64_identical","C64_born_partial"],"C64_identical: all columns. C64_born_partial: states without zero amplitudes, not a single component with amplitude other than 1 (see C53), at most 9 photons per channel (see C51).")
c("C65","partial",["C65_rescaled","C65_repeat_partial","C65_fails"],"Violated for partially overlapping photons (C65_fails): the rescaling ignores the interference between columns. Proved when the columns of the group have different photon numbers.")
c("C66","partial",["C66_measure_partial","C66_collection_partial","C66_fails"],"Violated: one history entry per measured channel (C66_fails). Everything else is proved for photon numbers below 10.")

c("C50","proved",["C50_symmetric","C50_range","C50_one_iff","C50_unknown","C50_shift","C50_quick"],"")
c("C67","proved",["C67_round_trip","C67_store","C67_fresh"],"")
c("C68","proved",["C68_delay","C68_add","C68_cancel","C68_zero","C68_common","C68_defined"],"C68_delay: the groups of the result are the single-photon groups of the input (C53) with the delays changed. Note: the node also sets the pulse width of every photon to its own argument pulse_width (part of DelayedState); C68_zero and C68_common assume the photons already have this width. An int instead of a list of channels raises a TypeError (not modelled).")
c("C69","partial",["C69_all","C69_some","C69_none","C69_fails"],"The widths are right (C69_all, C69_some). Violated: setting the width of all channels of a collection without photon information makes every later spectral node and every measurement raise a KeyError (C69_fails, every such collection).")
c("C70","proved",["C70_quick","C70_prob","C70_photons","C70_apart","C70_defined"],"The photons of the separated part overlap by 2^-20000, not 0 (C70_apart).")

c("C71","partial",["C71_gate_partial","C71_gate_fails"],"Proved for states whose components differ outside the channels of the pairs. Otherwise components collapse onto one name and are added: the states are not normalised and every later copy raises (C71_gate_fails, any pair gate on a superposition within its channels).")
c("C72","proved",["C72_product_outcomes","C72_local_optics"],"C72_local_optics needs K > 0 (zero raises, negative values are not modelled).")
c("C73","partial",["C73_total_probability_partial","C73_total_probability_fails"],"Proved for local optics. Violated if the two photons of a pair meet on beam splitters: total 2P (C73_total_probability_fails).")
c("C74","proved",["C74_marginal_first","C74_marginal_second","C74_no_signalling"],"")
c("C75","partial",["C75_regular_entanglement_partial","C75_regular_entanglement_fails"],"Proved if the optics of the first photon is real (linear polarizations). Violated for quarter-wave plates in both arms: probability 1/2 instead of 0 (C75_regular_entanglement_fails).")
c("C76","proved",["C76_measured_correlation","C76_quantum_bound","C76_algebraic_bound","C76_standard_settings","C76_beyond_quantum","C76_limit","C76_chsh_experiment"],"")
c("C77","partial",["C77_detected_partial","C77_products_accepted","C77_single_pair_never_rejected","C77_entanglement_fails"],"Products are accepted. Entanglement between pairs is detected if the recovered pair states are products; otherwise it can pass unnoticed (C77_entanglement_fails): line 313 reads `not a and b` where `not (a and b)` or `not a` was meant.")
c("C78","proved",["C78_measurement","C78_cum","C78_collapsed","C78_total"],"Hypothesis: the classical channels of the node are distinct, and the outcome probabilities lie in [0,1] (proved for local optics, C78_total).")
c("C79","partial",["C79_argument_unchanged_fails"],"Violated for every non-empty collection (C79_argument_unchanged_fails): the first state of each set loses its correlation information, and measuring the collection again raises. Nothing of the claim is left to prove.")

c("C80","proved",["C80_conserved","C80_exact"],"Generic function nodes are covered if the function itself conserves probability. Bridges: see C140.")
c("C81","partial",["C81_evaluates_partial","C81_compound_partial","C81_fails"],"Proved for circuits with all kinds of nodes (generic functions if they raise no exception and keep norms), and for compound circuits whose circuits can take over each other's states, if the number of nodes times the loss per node (L^C times threshold) is below 1 and no component of the input has amplitude 0. Without the first bound the claim fails: C81_fails gives a circuit where the threshold removes all components of a state and the next optical node raises an exception.")
c("C82","proved",["C82_matrix_is_evaluation","C82_available","C82_unitary","C82_all"],"Node numbers are natural numbers (negative indices not modelled).")
c("C83","partial",["C83_limit_partial","C83_error_partial","C83_cutoff","C83_fails"],"Below the cutoff the operator tends to the wave plate as the number of terms of the exponential series grows, with an explicit error bound for the 25 terms of the code (C83_error_partial). Violated at the cutoff (C83_fails: one photon in each channel, length 2, phi = 1): the wave plate leaves such states alone, the operator multiplies them by a phase.")
c("C84","partial",["C84_linear_optics_partial"],"Limit of many terms, inputs below the cutoff; for the fixed number of terms see C61_fails, above the cutoff see C83_cutoff.")
c("C85","partial",["C85_gate","C85_control","C85_wave_plate","C85_builder_fails"],"All but the last clause proved. Violated: the builder of the controlled wave plate accepts channel numbers one too large, the evaluation then raises (C85_builder_fails).")
c("C86","proved",["C86_experiment"],"Hypotheses (structure Experiment): positive threshold not above any non-zero squared amplitude at the end, K > 0, no channel pair (h,0) with h >= 2 (see C07).")
c("C87","partial",["C87_bridges_partial","C87_compound_partial","C87_threshold_fails"],"Proved for circuits with one naming convention and the default threshold that all or none have classical channels, for results with at least one state (so exceptions agree only up to empty results); generic functions are assumed to map the empty collection to itself. Violated for other thresholds (C87_threshold_fails: the states keep the threshold of the first circuit) and for different naming conventions (C88_names_fails).")
c("C88","partial",["C88_bridge_partial","C88_no_classical_fails","C88_names_fails"],"Proved for equal naming conventions, photon numbers the next circuit allows, probabilities not below the threshold when channels are added, and a next circuit with classical channels if the first one has any. Violated without the last (C88_no_classical_fails) and for different naming conventions (C88_names_fails: a photon in channel 1 arrives in channel 0).")
c("C89","partial",["C89_first_state_partial","C89_all_channels_partial","C89_fails"],"Only the first state matters (C89_first_state_partial); if the pairs use all channels its content does not matter (C89_all_channels_partial). Violated in general: photons in other channels, probability and label of the first state are kept (C89_fails).")
c("C90","partial",["C90_actual","C90_valid_states_partial","C90_fails"],"For dictionaries of valid states the identifiers are checked. Violated: invalid states are accepted, values that are no states dropped silently (C90_fails): `not a and b and c` instead of `not (a and b and c)`. C90_actual: what is checked.")
c("C91","partial",["C91_accepted_partial","C91_default","C91_names_fails","C91_normalised_fails"],"Entries and defaults are right; only the ranges of probabilities and the number of classical values are checked, not component names (C91_names_fails), normalisation or consistency (C91_normalised_fails).")
c("C92","proved",["C92_photon_number","C92_compare"],"")
c("C93","proved",["C93_correlation"],"Total probability must not be 0 (otherwise division by zero).")
c("C94","proved",["C94_last_refresh","C94_created","C94_originals","C94_clear"],"The listed circuits have no bridges of their own (these would lead to the circuits themselves, not to copies).")
c("C95","partial",["C95_empty_partial","C95_fails"],"Violated: the default list is one object shared by all compound circuits created without arguments (C95_fails). Proved if nothing was ever appended to it.")
c("C96","partial",["C96_default_partial","C96_columns","C96_fails"],"Proved if at least one node is evaluated. Violated for an empty circuit or an empty selection: the result is None (C96_fails).")
c("C97","partial",["C97_single_partial","C97_width","C97_one_component","C97_rest","C97_lost","C97_again","C97_fails"],"Proved if every state has one component (C97_single_partial), and for the pulse width of all or no channels (C97_width). Violated otherwise: every state of the given collection keeps only its last component (C97_one_component, C97_lost; the rest of the state is kept, C97_rest), and evaluating again gives one column instead of several (C97_again, C97_fails).")
c("C98","partial",["C98_identifier","C98_position","C98_iterate_partial","C98_strings","C98_stops","C98_fails"],"Proved for string identifiers (C98_strings) and integers outside the range of positions (C98_iterate_partial). Violated for integer identifiers: states are visited twice or in another order (C98_fails).")
c("C99","partial",["C99_bars","C99_settled","C99_measured","C99_defined","C99_unresolved","C99_again","C99_fails"],"Heights of the bars proved (C99_bars, C99_settled with C99_measured). Violated: the last sentence. Plotting removes all but the last component from states with several components, so a second plot of the same collection shows smaller probabilities (C99_again, C99_fails).")
c("C100","partial",["C100_optics_partial","C100_state_partial"],"Proved for all lists of two-channel elements, without the channel pairs that the code orders wrongly (C08) and for inputs with fewer photons than the cutoff (otherwise the Fock space is truncated).")
c("C101","partial",["C101_group_partial","C101_collection_partial"],"Proved for groups whose states are normalised, with photon numbers below min(cutoff, 10) and with consistent phases: the code ignores the amplitude of states with one component at measurement (C53_fails), which is harmless when this phase depends on the channel only.")
c("C102","partial",["C102_collection_partial","C102_state_partial","C102_circuit_partial","C102_nodes_partial"],"Proved for input states with fewer photons than the cutoff (at most 10), when the threshold drops no amplitude (for circuits starting with a spectral element this is a condition on the transition probabilities of single photons, C102_circuit_partial), without the channel pairs that the code orders wrongly (C08), and when the first spectral element is a delay or a width for some but not all channels (otherwise the states get no photon information, C69).")
c("C103","proved",["C103_dip","C103_half"],"The transition probabilities of the element are zero or at least the threshold.")
c("C104","partial",["C104_collection_partial","C104_state_partial","C104_fails"],"Under the conditions of C102 (fewer photons than the cutoff, nothing dropped by the threshold, C08 excluded). False when set_pulse_width is applied to some channels only: the total probability can be more than 1 (C104_fails); the overlap function is not an inner product for pulses of different widths.")
c("C105","partial",["C105_partial","C105_first_partial"],"Under the conditions of C102 (fewer photons than the cutoff, nothing dropped by the threshold, C08 excluded); the widths in the circuit may differ per channel.")
c("C106","partial",["C106_partial","C106_runs_partial"],"For input states without photon information with fewer photons than the cutoff, when the threshold drops no amplitude, channel pairs of C08 excluded, and when no basis state gets a bare phase before the quick delay or between the delay and the measurement (such a phase is lost, C53).")
c("C107","partial",["C107_coincidence_partial","C107_fails"],"True (difference below 2^-40000, for all delays and pulse widths) for the coincidences of two photons at a 50/50 beam splitter. False for one photon in a superposition of two channels: with a delay of one pulse width the probabilities are 0.85 (full) and 0.75 (quick) (C107_fails).")
c("C108","partial",["C108_calls_partial","C108_negative_full","C108_negative_quick","C108_full_fails","C108_width_fails","C108_bandwidth","C108_negative_fails"],"Proved for lists of channel numbers that are not negative, single channels in the quick delay, None in set_pulse_width, and the defaults of the pulse width (C108_calls_partial: C102 to C107 apply to circuits built by such calls). False otherwise: the full delay with a single channel or None and set_pulse_width with a single channel raise when the circuit is evaluated (C108_full_fails, C108_width_fails); channels that do not exist are not refused by the call, the full delay raises later and the quick delay ignores them; negative numbers count from the end in the full delay and are ignored in the quick delay (C108_negative_fails). pulse_width = None in time_delay_full and set_pulse_width is not modelled.")
c("C109","proved",["C109_convention","C109_compound","C109_default","C109_density","C109_shift_direct"],"Proved with the settings as circuits, collections and states really hold them (Model/Compound), so it also holds when connected circuits use different conventions (all conventions are exchanged). Functions on collections given by the user must themselves respect the relation; the library's own ones do (C109_shift_direct). Photon resolution and superquantum information are not included.")
c("C110","partial",["C110_itself","C110_partial","C110_copy","C110_shift","C110_shift_partial","C110_shift_lost","C110_fails"],"Proved for collections that have no component dictionary in common (C110_partial), in particular for copies in both directions (C110_copy); the object-level model agrees with the one of C41 (C110_itself). shift_direct and c_shift_direct give the result the dictionaries of the given collection, and clean_up overwrites small ones in place, so cleaning up the result sets small components of the given collection to zero (C110_fails; nothing else changes, C110_shift_lost; no effect without small components, C110_shift_partial).")
c("C111","partial",["C111_commute_partial","C111_collection_partial","C111_commute_fails"],"Proved for all channel pairs but those with first channel >= 2 and second channel 0, which the code addresses wrongly (C07): nodes given on 3,0 and on 1,2 do not commute (C111_commute_fails).")
c("C112","partial",["C112_statistics_partial","C112_exact_partial","C112_statistics_fails"],"The probability of an outcome can decrease by at most what the threshold removes from the state (at most threshold times number of basis states), and is exactly unchanged if nothing is removed. Missing: nodes with first channel >= 2 and second channel 0, which act on other channels than given (C112_statistics_fails).")
c("C113","partial",["C113_collection_partial","C113_circuits_partial","C113_small_thresholds"],"Proved for collections and for whole circuits, up to the order and the identifiers of the states, provided the threshold removes nothing - which holds for every collection if the threshold is small enough (C113_small_thresholds). Missing: nodes with first channel >= 2 and second channel 0 (C07).")
c("C114","proved",["C114_states","C114_together","C114_labels","C114_shifts","C114_compound","C114_compound_labels"],"For all node types; generic functions given by the user must treat every state on its own (the package's own shift nodes do: C114_shifts). Compound circuits: positive threshold. Random numbers: addState draws until the identifier is new, as in the code.")
c("C115","proved",["C115_joint","C115_circuits"],"Exact real arithmetic; states with valid components, total probability at most 1 and cumulative probability in [0,1].")
c("C116","proved",["C116_order","C116_circuits"],"Up to the order of the states and the split of the joint probability over the two history entries.")
c("C117","partial",["C117_born_partial","C117_close","C117_histogram_partial"],"Proved for inputs below the cutoff, without the channel pairs that the code addresses wrongly (C07).")
c("C118","partial",["C118_field_partial","C118_mach_zehnder_partial","C118_malus_partial"],"Probabilities below the threshold become 0. Missing only the channel pairs that the code addresses wrongly (C07).")
c("C119","partial",["C119_same_partial","C119_measured_partial","C119_identity_partial","C119_inverse","C119_cutoff_fails"],"Proved for inputs below the cutoff, without the channel pairs that the code addresses wrongly (C07). At the cutoff the property is violated: C119_cutoff_fails.")
c("C120","proved",["C120_placeholder","C120_left_out","C120_last"],"Between two optical nodes it separates the two evaluations (C31_optical_one_by_one tells when this makes no difference).")
c("C121","partial",["C121_pair_partial","C121_entangled_partial","C121_correlation_partial","C121_chsh_partial"],"Proved from the creation-operator specification (C100, C117) without the channel pairs that the code addresses wrongly (C07) and, for the correlation, with channel 0 on the left of the names (C49).")
c("C122","proved",["C122_product","C122_wave_plates","C122_quarter","C122_retardation","C122_phases_add","C122_inverse","C122_twice"],"")
c("C123","partial",["C123_nothing_lost","C123_defined","C123_add_column","C123_new_column","C123_constructors","C123_assign","C123_join_partial","C123_own_identifier_partial","C123_list_of_columns","C123_next_identifier","C123_join_fails","C123_probability_fails","C123_carries_fails"],"Nothing is lost and identifiers are unique for every history. Violated: add_column with an unused identifier sets the key only, so the column keeps another identifier and group (C123_carries_fails) and a second state added with the same identifier gets a new column (C123_join_fails); columns of a list keep their own cumulative probability (C123_probability_fails). Proved when calls name no identifier that differs from the one the object has.")
c("C124","partial",["C124_collapse_partial","C124_feed_forward_partial"],"Proved for inputs below the cutoff, channel pairs not affected by the ordering bug C07 and amplitudes not below the threshold (C04).")
c("C125","partial",["C125_teleport_partial","C125_success_partial"],"Same restrictions as C124. The probabilities are proved for a photon that is not entangled with others.")
c("C126","partial",["C126_all_outcomes_partial","C126_projections_partial","C126_born_partial","C126_circuit_partial","C126_fresh_fails","C126_stale_fails"],"Proved when the components of the columns were generated after the last change. The function reads a stored name: without one it raises an exception (C126_fresh_fails), and when the column changed since it lists the old outcome with probability 0 (C126_stale_fails).")
c("C127","proved",["C127_all","C127_filter"],"")
c("C128","partial",["C128_projections_partial","C128_none","C128_complete","C128_beyond_cutoff"],"Proved for photon numbers below 10, where the labels of the results are unambiguous (C66).")
c("C129","proved",["C129_decoherence","C129_diagonal","C129_no_signalling"],"")
c("C130","partial",["C130_histogram_partial","C130_correlations_partial","C130_dict_partial","C130_empty_fails","C130_repeated_fails","C130_colors_fails"],"Proved but for the colours: with more outcomes than colours (ten by default) two outcomes have the same colour (C130_histogram_partial proves it for every such chart, C130_colors_fails: eleven results). A dictionary to be plotted with the same label twice gets bars that cover each other (C130_repeated_fails); one without entries raises (C130_empty_fails).")
c("C131","proved",["C131_superposition","C131_superposition_exact","C131_inner_product"],"")
c("C132","proved",["C132_optics","C132_measurement","C132_statistics","C132_circuit","mixtures_same"],"Assumption: the threshold removes no amplitude (C113_small_thresholds: met for small thresholds). mixtures_same: two different mixtures with the same density matrix.")
c("C133","proved",["C133_evaluation","C133_compound","C133_shift_nodes","C133_operator_nodes","C133_histogram","C133_density_matrix"],"No assumption on the circuit or the states. Nodes with a function of the user (generic_function_on_collection) must not look at phases themselves; the shift and quantum operator nodes of the library, which are such nodes, are proved not to.")
c("C134","proved",["C134_evaluation","C134_labels","C134_histories","C134_compound","C134_library_nodes"],"No assumption on the circuit or the states. Nodes with a function of the user (generic_function_on_collection) must not look at labels or results themselves; the nodes of the library that are built that way are proved not to. The in-place change of recorded results by a later classical node is a matter of the heap model (C30).")
c("C135","partial",["C135_reduced_state_partial","C135_statistics_partial","C135_free_choice_partial","C135_shifts","C135_direct_shifts"],"Missing: elements given on a first channel >= 2 and second channel 0, which the code applies to other channels (C07_addressing_fails, C112_statistics_fails). With a threshold the change is bounded by what the threshold removed, at most L^C * threshold per node.")
c("C136","partial",["C136_parameters_partial","C136_others_partial","C136_assign","C136_copy","C136_add_state_partial","C136_constructor_partial","C136_set_information","C136_split","C136_single_photons","C136_condense","C136_condense_state","C136_single_photon_test","C136_tests_after","C136_shared_state_fails","C136_shared_list_fails","C136_guard_fails"],"Missing: State objects or lists given to two columns, for which the property is false of the code: the second column overwrites the parameters in the state (C136_shared_state_fails), and the constructor keeps the list it is given, so that a state added to one column appears in the other (C136_shared_list_fails). The documented exception of single_photon_states is never raised (C136_guard_fails).")
c("C137","partial",["C137_reduce","C137_extend","C137_adjust","C137_later_changes","C137_adjust_fails"],"Proved for every heap and collection, except that later changes of a collection whose length has been adjusted do change the State objects it had before: adjust_length_of_fock_state shares their lists of classical values (C137_adjust_fails).")
c("C138","proved",["C138_close","C138_outcomes","C138_limit"],"For every two divisions of the same nodes into calls, with any thresholds.")
c("C139","proved",["C139_amplitudes","C139_events","C139_classical","C139_limit"],"Amplitudes over any set of records and names, probabilities of any event.")
c("C140","proved",["C140_network","C140_compound","C140_compound_exact"],"Circuits use the same naming convention, allow the photon numbers of the circuit before and have a classical channel if it has one. Each circuit removes components with its own threshold (see C87).")
c("C141","proved",["C141_evaluates","C141_amplitudes","C141_conserved","C141_coherence","C141_extremes","C141_visibility"],"For targets that are not empty the node does not conserve probability: C56_fails. The coherences are stated for the case in which the threshold removed nothing (the carried probability stays the same), as for C135.")
c("C142","partial",["C142_draws_partial","C142_order_partial","C142_apart_partial","C142_pages_partial","C142_fails"],"Proved for circuits in which every run of nodes of one combined gate (the two nodes of each non polarizing beam splitter) is at most twice as long as the number of positions on a page (10 by default). Longer runs raise an exception: C142_fails. The places of the nodes are modelled, the lines, markers and texts drawn there are not.")
c("C143","partial",["C143_nodes","C143_mutual","C143_symbols","C143_fails"],"The circuits of the stations are proved to be right in full; the part that fails is the selection of the stations: a list given as station_to_draw is ignored and all stations are drawn (C143_fails). For circuits connected by bridges the theorems hold for each of the circuits (the symbols start again in each of them).")
c("C144","partial",["C144_labels_partial","C144_distinct","C144_user_partial","C144_fails"],"Proved without labels of the user and with labels for both kinds of channels. Labels given for the classical channels only are overwritten, in the list of the user itself: C144_fails.")
