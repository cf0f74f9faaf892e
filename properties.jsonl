{"id": "C01", "title": "Component names and photon numbers translate back and forth without loss", "statement": "For every circuit, translating a valid list of photon numbers to its component name and that name back to photon numbers returns the original list, and every component name built that way translates back to itself.", "quantifier": "every length_of_fock_state >= 1 (any number of decimal digits per channel), every number of optical channels, both notations (channel 0 left or right), every list of photon numbers below the length", "why_tests_cant": "the number of digits per channel and the number of channels are unbounded; tests use one- or two-digit examples", "anchors": ["src/fock_state_circuit/nodes/nodelist/optical_values_component_names.py:ComponentNames.__getitem__", "src/fock_state_circuit/nodes/nodelist/optical_values_component_names.py:OpticalValues.__getitem__"]}
{"id": "C02", "title": "Different photon-number lists never share a component name", "statement": "Two different valid photon-number lists of the same circuit have different component names, and all names of a circuit have the same length (digits per channel times number of channels).", "quantifier": "every circuit configuration and every pair of valid photon-number lists", "why_tests_cant": "a collision would silently merge two amplitudes; absence of collisions is a statement about all pairs", "anchors": ["src/fock_state_circuit/nodes/nodelist/optical_values_component_names.py:OpticalValues.__getitem__", "src/fock_state_circuit/nodes/nodelist/optical_values_component_names.py:ComponentNames.at_index"]}
{"id": "C03", "title": "Basis index and photon numbers are in one-to-one correspondence", "statement": "index_of and at_index are inverse bijections between the valid photon-number lists and the integers 0 .. length**channels - 1, channel 0 being least significant, and the index of a state does not depend on the notation used for names.", "quantifier": "every configuration, every index below length**channels, every valid photon-number list", "why_tests_cant": "size of basis is unbounded", "anchors": ["src/fock_state_circuit/nodes/nodelist/optical_values_component_names.py:index_of", "src/fock_state_circuit/nodes/nodelist/optical_values_component_names.py:at_index", "src/fock_state_circuit/nodes/nodelist/optical_values_component_names.py:_values_from_index"]}
{"id": "C04", "title": "Name lookups do not depend on what was looked up before", "statement": "After any sequence of lookups, membership tests and enumerations on a circuit's name tables, asking for the photon numbers of a name gives the same answer as on a freshly created circuit; and asking for the name of a valid photon-number list gives its standard name, provided only full-width names were ever looked up. Without the proviso the second half fails (a short name such as '011' is remembered).", "quantifier": "every finite history of lookup, membership and enumeration operations, every configuration", "why_tests_cant": "the caches are shared mutable dictionaries; transparency is a statement about all histories", "anchors": ["src/fock_state_circuit/nodes/nodelist/optical_values_component_names.py:ComponentNames.__getitem__", "src/fock_state_circuit/nodes/nodelist/optical_values_component_names.py:OpticalValues.__getitem__", "src/fock_state_circuit/nodes/nodelist/optical_values_component_names.py:__iter__"]}
{"id": "C05", "title": "Enumerating the basis always gives the standard order", "statement": "Enumerating the valid component names or photon-number lists of a circuit gives all of them exactly once, in increasing index order, whatever was looked up before.", "quantifier": "every finite history of lookups before the enumeration, every configuration", "why_tests_cant": "depends on the unbounded history of lookups made on the shared caches", "anchors": ["src/fock_state_circuit/nodes/nodelist/optical_values_component_names.py:OpticalValues.__iter__", "src/fock_state_circuit/nodes/nodelist/optical_values_component_names.py:ComponentNames.__iter__", "src/fock_state_circuit/nodes/nodelist/optical_values_component_names.py:keys", "src/fock_state_circuit/circuit.py:__generate_single_node_fock_matrix_from_optical_matrix"]}
{"id": "C06", "title": "Membership test accepts exactly the standard names", "statement": "'name in names' is true exactly for the standard names of the valid photon-number lists of the circuit.", "quantifier": "every configuration and every string of decimal digits", "why_tests_cant": "strings are unbounded", "anchors": ["src/fock_state_circuit/nodes/nodelist/optical_values_component_names.py:ComponentNames.__contains__", "src/fock_state_circuit/nodes/nodelist/optical_values_component_names.py:OpticalValues.__contains__"]}
{"id": "C07", "title": "Two-channel gates act on the two channels they were given", "statement": "For two different channel numbers the tensor list built for a gate is a permutation of all channels whose first entry is the first given channel and whose second entry is the second given channel; equal channels are refused.", "quantifier": "every number of channels, every ordered pair of valid channel numbers", "why_tests_cant": "the number of channels and the pair are unbounded", "anchors": ["src/fock_state_circuit/nodes/nodelist/node_list.py:_translate_channels_numbers_to_tensor_list"]}
{"id": "C08", "title": "Optical gates conserve the photon number", "statement": "The Fock-state transition matrix of an optical gate has a zero entry between any two basis states with different total photon number.", "quantifier": "every 2x2 optical matrix (unitary or not), every length, number of channels and pair of channels, every pair of basis states", "why_tests_cant": "the matrix entries range over the complex numbers and the basis is unbounded", "anchors": ["src/fock_state_circuit/circuit.py:__generate_single_node_fock_matrix_from_optical_matrix"]}
{"id": "C09", "title": "A unitary optical matrix gives a unitary Fock-state matrix", "statement": "If the 2x2 optical matrix is unitary then the generated transition matrix on the complete Fock basis is unitary.", "quantifier": "every unitary 2x2 complex matrix, every length, every number of channels >= 2, every tensor list that is a permutation", "why_tests_cant": "tests check a handful of angles with rounding; unitarity is an identity over all matrices and cutoffs", "anchors": ["src/fock_state_circuit/circuit.py:__generate_single_node_fock_matrix_from_optical_matrix"]}
{"id": "C10", "title": "Photon numbers above the cutoff pass through unchanged", "statement": "If the two addressed channels together hold at least length_of_fock_state photons, the gate leaves that basis state exactly as it is and no other basis state leads to it.", "quantifier": "every optical matrix, length and basis state", "why_tests_cant": "all inputs above the cutoff", "anchors": ["src/fock_state_circuit/circuit.py:__generate_single_node_fock_matrix_from_optical_matrix"]}
{"id": "C11", "title": "Vacuum and single-photon action of a gate", "statement": "A gate maps the vacuum of its two channels to itself, and a single photon entering one of its two channels leaves with the amplitudes given by the corresponding row or column of the optical matrix.", "quantifier": "every 2x2 complex matrix, every length >= 2", "why_tests_cant": "all complex matrices", "anchors": ["src/fock_state_circuit/circuit.py:__generate_single_node_fock_matrix_from_optical_matrix"]}
{"id": "C12", "title": "Successive gates on the same channels compose like their optical matrices", "statement": "Applying two gates on the same two channels one after the other gives the same transition matrix as the single gate whose optical matrix is the product; the identity optical matrix gives the identity.", "quantifier": "every pair of 2x2 complex matrices, every length, number of channels and channel pair", "why_tests_cant": "a polynomial identity of unbounded degree (one per photon number)", "anchors": ["src/fock_state_circuit/circuit.py:__generate_single_node_fock_matrix_from_optical_matrix", "src/fock_state_circuit/circuit.py:__generate_fock_state_matrix"]}
{"id": "C13", "title": "Spectator channels are untouched by a gate", "statement": "A gate on two channels connects only basis states that agree on all other channels, and the transition amplitude depends only on the photon numbers in its two channels.", "quantifier": "every optical matrix, every number of channels, every pair of basis states", "why_tests_cant": "unbounded number of channels", "anchors": ["src/fock_state_circuit/circuit.py:__generate_single_node_fock_matrix_from_optical_matrix"]}
{"id": "C14", "title": "use_full_fock_matrix does not change results", "statement": "Evaluating optical nodes with the reduced Fock matrix (grouped by photon number) gives every state the same output vector as with the full Fock matrix.", "quantifier": "every list of optical nodes, every state vector consistent with its photon-number group", "why_tests_cant": "the reduction is an optimisation whose correctness is an equivalence over all states and circuits", "anchors": ["src/fock_state_circuit/circuit.py:__apply_node_or_nodes_to_collection", "src/fock_state_circuit/circuit.py:__generate_fock_state_matrix", "src/fock_state_circuit/collection_of_states.py:_group_states_together_by_photon_number", "src/fock_state_circuit/state.py:photon_number"]}
{"id": "C15", "title": "Evaluating optical nodes together equals evaluating them one by one", "statement": "The combined matrix of consecutive optical nodes applied to a state vector gives the same vector as applying each node's matrix in the listed order.", "quantifier": "every list of optical nodes of any length and every state vector", "why_tests_cant": "list length unbounded; order of the matrix products matters", "anchors": ["src/fock_state_circuit/circuit.py:__generate_fock_state_matrix", "src/fock_state_circuit/circuit.py:evaluate_circuit"]}
{"id": "C16", "title": "Optical gates preserve total probability of a state", "statement": "Applying gates with unitary optical matrices leaves the sum of squared amplitudes of a state unchanged (as long as no component is pruned by the threshold).", "quantifier": "every list of unitary gates, every state vector", "why_tests_cant": "all states and angles", "anchors": ["src/fock_state_circuit/circuit.py:__apply_node_or_nodes_to_collection", "src/fock_state_circuit/state.py:set_state_components_from_vector"]}
{"id": "C17", "title": "Wave-plate matrices are unitary and symmetric for every angle", "statement": "The optical matrix generated for rotation theta and phase phi is unitary and symmetric, is the identity for phi = 0, is its own inverse for phi = pi, and phases add up for equal theta.", "quantifier": "all real angles theta, phi", "why_tests_cant": "continuum of angles", "anchors": ["src/fock_state_circuit/nodes/optical_nodes.py:_generate_generic_optical_matrix"]}
{"id": "C18", "title": "Swap exchanges the photon numbers of two channels", "statement": "A swap gate maps each basis state to the basis state with the photon numbers of the two channels exchanged, with amplitude exactly 1.", "quantifier": "every length, number of channels, channel pair, basis state", "why_tests_cant": "all photon numbers, in particular those above the cutoff", "anchors": ["src/fock_state_circuit/nodes/optical_nodes.py:swap", "src/fock_state_circuit/nodes/optical_nodes.py:polarizing_beamsplitter"]}
{"id": "C19", "title": "Phase shift multiplies by exp(i n phi)", "statement": "phase_shift_single_channel multiplies the amplitude of a basis state with n photons in the channel by exp(i*n*phi) and changes nothing else, whatever the other channels hold.", "quantifier": "every angle, channel, and basis state", "why_tests_cant": "all basis states, in particular those where another channel is populated", "anchors": ["src/fock_state_circuit/nodes/optical_nodes.py:phase_shift_single_channel"]}
{"id": "C20", "title": "50/50 mixing: equal split and photon bunching", "statement": "mix_50_50 sends a single photon to either channel with probability exactly 1/2, and two photons entering in different channels never leave in different channels (Hong-Ou-Mandel).", "quantifier": "every length >= 2 (>= 3 for two photons), every channel pair", "why_tests_cant": "exact cancellation is not visible with rounding", "anchors": ["src/fock_state_circuit/nodes/optical_nodes.py:mix_50_50"]}
{"id": "C21", "title": "mix_generic_refl_transm realises the requested reflection", "statement": "With reflection r and transmission t = 1 - r, a single photon is reflected to the other channel with probability r and transmitted with probability t.", "quantifier": "every r between 0 and 1", "why_tests_cant": "continuum of coefficients", "anchors": ["src/fock_state_circuit/nodes/optical_nodes.py:mix_generic_refl_transm", "src/fock_state_circuit/nodes/optical_nodes.py:non_polarizing_beamsplitter"]}
{"id": "C22", "title": "State to vector and back is lossless", "statement": "Translating the optical components of a state to a vector in the standard basis and back gives the same amplitude for every component with non-zero amplitude at or above the pruning threshold, and nothing else.", "quantifier": "every state, every configuration, every threshold", "why_tests_cant": "all states", "anchors": ["src/fock_state_circuit/state.py:translate_state_components_to_vector", "src/fock_state_circuit/state.py:set_state_components_from_vector"]}
{"id": "C23", "title": "Duplicate components given as a list add up", "statement": "Setting optical_components from a list of (name, amplitude) pairs gives each name the sum of the amplitudes listed for it and its squared modulus as probability; the total amplitude does not depend on the order of the list.", "quantifier": "every list of pairs with valid names", "why_tests_cant": "lists are unbounded and duplicates may be anywhere", "anchors": ["src/fock_state_circuit/state.py:optical_components"]}
{"id": "C24", "title": "Inner product is the Hermitian inner product of the state vectors", "statement": "state.inner(other) equals the sum over the basis of conjugate(a)*b; swapping the arguments conjugates it, it is linear in the second argument, and the inner product of a state with itself is the sum of its probabilities.", "quantifier": "every pair of states", "why_tests_cant": "all states", "anchors": ["src/fock_state_circuit/state.py:inner", "src/fock_state_circuit/state.py:outer"]}
{"id": "C25", "title": "Measurement conserves probability", "statement": "The cumulative probabilities of the states produced by measuring a normalised state add up to the cumulative probability of that state.", "quantifier": "every state, every list of measured channels", "why_tests_cant": "all states and all channel selections", "anchors": ["src/fock_state_circuit/circuit.py:_perform_measurement"]}
{"id": "C26", "title": "Collapsed states are normalised and match the outcome", "statement": "Every state produced by a measurement is normalised, contains exactly the components of the input with the measured photon numbers equal to the outcome, and keeps their relative amplitudes; there is exactly one produced state per outcome that occurs in the input.", "quantifier": "every state without zero-probability outcomes, every list of measured channels", "why_tests_cant": "all states", "anchors": ["src/fock_state_circuit/circuit.py:_perform_measurement"]}
{"id": "C27", "title": "Measured values are written to the requested classical channels and nowhere else", "statement": "After a measurement classical channel classical_channels[i] holds the photon number of optical channel optical_channels[i] for distinct target channels, and all other classical channels keep their values.", "quantifier": "every state, every pair of channel lists", "why_tests_cant": "unbounded lists", "anchors": ["src/fock_state_circuit/circuit.py:_perform_measurement", "src/fock_state_circuit/nodes/measurement_nodes.py:measure_optical_to_classical"]}
{"id": "C28", "title": "Measuring again gives the same result with certainty", "statement": "Measuring the same channels of a collapsed state again yields exactly one state, with the same components, the same classical values and unchanged cumulative probability.", "quantifier": "every state and list of measured channels", "why_tests_cant": "all states", "anchors": ["src/fock_state_circuit/circuit.py:_perform_measurement"]}
{"id": "C29", "title": "No state is lost when measurement outcomes are collected", "statement": "The identifiers given to the outcomes of a measurement node are pairwise different, so the output collection has one entry per (state, outcome).", "quantifier": "every collection whose identifiers are pairwise different, any number of outcomes (beyond 26)", "why_tests_cant": "identifier generation runs over unbounded numbers of outcomes", "anchors": ["src/fock_state_circuit/circuit.py:__next_state_marker", "src/fock_state_circuit/circuit.py:__get_identifier_for_measurement", "src/fock_state_circuit/circuit.py:evaluate_circuit"]}
{"id": "C30", "title": "Recorded measurement results never change", "statement": "The measurement history stored in a state keeps the classical values as they were at the measurement, whatever nodes are evaluated later.", "quantifier": "every sequence of later operations", "why_tests_cant": "aliasing between the stored list and the live list depends on the history", "anchors": ["src/fock_state_circuit/circuit.py:_perform_measurement", "src/fock_state_circuit/nodes/classical_nodes.py:set_classical_channels", "src/fock_state_circuit/state.py:copy"]}
{"id": "C31", "title": "evaluate_circuit evaluates all listed nodes in the listed order", "statement": "evaluate_circuit(nodes_to_be_evaluated = list) gives the collection obtained by applying each listed node once, in the order of the list.", "quantifier": "every circuit without bridges and every list of valid node indices", "why_tests_cant": "lists are unbounded; repeated and unsorted lists behave differently", "anchors": ["src/fock_state_circuit/circuit.py:evaluate_circuit"]}
{"id": "C32", "title": "Evaluating a circuit does not modify the input collection", "statement": "The collection passed to evaluate_circuit still has the same states after the evaluation.", "quantifier": "every circuit and input collection", "why_tests_cant": "aliasing and in-place updates depend on node sequence", "anchors": ["src/fock_state_circuit/circuit.py:evaluate_circuit", "src/fock_state_circuit/collection_of_states.py:copy", "src/fock_state_circuit/state.py:copy"]}
{"id": "C33", "title": "add_state without identifier never overwrites a state", "statement": "Adding a state without an identifier enlarges the collection by exactly one and leaves all other entries unchanged, whatever the random generator returns; with an explicit identifier only that entry changes.", "quantifier": "every collection and every stream of random identifiers", "why_tests_cant": "collisions of random identifiers are too rare for tests", "anchors": ["src/fock_state_circuit/collection_of_states.py:add_state"]}
{"id": "C34", "title": "Statistical mixture keeps all states with the right weights", "statement": "set_collection_as_statistical_mixture stores every (state, probability) pair of the list, with the probability as cumulative probability.", "quantifier": "every list of pairs and every stream of random identifiers", "why_tests_cant": "random collisions", "anchors": ["src/fock_state_circuit/collection_of_states.py:set_collection_as_statistical_mixture"]}
{"id": "C35", "title": "Filters keep exactly the matching states", "statement": "filter_on_initial_state, filter_on_identifier and filter_on_classical_channel keep exactly the states that satisfy the criterion, with identifiers, order and content unchanged; filtering twice is the same as filtering once; delete_state removes exactly the named state.", "quantifier": "every collection and criterion", "why_tests_cant": "all collections", "anchors": ["src/fock_state_circuit/collection_of_states.py:filter_on_initial_state", "src/fock_state_circuit/collection_of_states.py:filter_on_identifier", "src/fock_state_circuit/collection_of_states.py:filter_on_classical_channel", "src/fock_state_circuit/collection_of_states.py:delete_state"]}
{"id": "C36", "title": "The default collection has one state per basis state", "statement": "A collection created without input has length**channels states with pairwise different identifiers, one for each basis state, each with amplitude 1, probability 1 and classical values 0.", "quantifier": "every configuration", "why_tests_cant": "basis size unbounded", "anchors": ["src/fock_state_circuit/collection_of_states.py:initialize_to_default"]}
{"id": "C37", "title": "Density matrices are Hermitian, positive, with trace equal to total probability", "statement": "For each initial state the density matrix of a collection is Hermitian and positive semidefinite, and its trace equals the sum of cumulative probabilities when states are normalised.", "quantifier": "every collection", "why_tests_cant": "all collections", "anchors": ["src/fock_state_circuit/collection_of_states.py:density_matrix", "src/fock_state_circuit/state.py:outer"]}
{"id": "C38", "title": "reduce is the partial trace", "statement": "Keeping a subset of the optical channels turns the density matrix of the collection into its partial trace over the dropped channels; total probability is conserved.", "quantifier": "every collection of normalised states, every list of kept channels", "why_tests_cant": "all collections and channel subsets", "anchors": ["src/fock_state_circuit/collection_of_states.py:reduce"]}
{"id": "C39", "title": "extend adds channels as a tensor product", "statement": "Extending a collection by optical channels with a statistical distribution multiplies amplitudes and probabilities; with the default (vacuum) extension, reducing again to the original channels restores each state.", "quantifier": "every collection and distribution", "why_tests_cant": "all collections", "anchors": ["src/fock_state_circuit/collection_of_states.py:extend", "src/fock_state_circuit/collection_of_states.py:reduce", "src/fock_state_circuit/state.py:tensor"]}
{"id": "C40", "title": "Adjusting the Fock length keeps all components that fit", "statement": "adjust_length_of_fock_state to a new length larger than every photon number present keeps all amplitudes; otherwise photon numbers wrap modulo the new length and amplitudes can be lost.", "quantifier": "every collection and new length", "why_tests_cant": "all lengths including digit-count changes", "anchors": ["src/fock_state_circuit/collection_of_states.py:adjust_length_of_fock_state"]}
{"id": "C41", "title": "clean_up conserves probability of the states it merges", "statement": "Removing duplicates from a collection leaves the total cumulative probability per distinct state unchanged, apart from states below the threshold.", "quantifier": "every collection and threshold", "why_tests_cant": "similarity is not symmetric in the code; only all-pairs reasoning shows what is merged", "anchors": ["src/fock_state_circuit/collection_of_states.py:clean_up", "src/fock_state_circuit/state.py:_identical_optical_components"]}
{"id": "C42", "title": "Shift nodes are permutations of the basis", "statement": "shift maps each basis state to the basis state where each target channel's photon number is increased by its shift modulo the length; the matrix is a permutation matrix, opposite shifts undo each other, and the two constructions offered (shift, shift_direct) agree.", "quantifier": "every length, channel list, shift list", "why_tests_cant": "all basis states", "anchors": ["src/fock_state_circuit/nodes/custom_nodes.py:shift", "src/fock_state_circuit/nodes/custom_nodes.py:shift_direct"]}
{"id": "C43", "title": "Controlled shifts: the two constructions agree", "statement": "c_shift and c_shift_direct produce the same transition matrix for the same channel lists, a permutation matrix that adds the control photon number to the target photon number modulo the length.", "quantifier": "every list of control and target channels", "why_tests_cant": "lists of pairs are unbounded and order matters", "anchors": ["src/fock_state_circuit/nodes/custom_nodes.py:c_shift", "src/fock_state_circuit/nodes/custom_nodes.py:c_shift_direct"]}
{"id": "C44", "title": "set_classical_channels writes exactly the given values", "statement": "After the node each listed classical channel holds the value listed for it (the last one if a channel is listed twice), all others are unchanged; invalid channel lists are refused when the node is built.", "quantifier": "every list of values and channels", "why_tests_cant": "unbounded lists", "anchors": ["src/fock_state_circuit/nodes/classical_nodes.py:set_classical_channels"]}
{"id": "C45", "title": "Controlled gates use each state's own classical values and reject invalid channels", "statement": "A classically controlled gate applies to each state the optical matrix given by that state's classical channel values; building it with a non-existing classical channel raises an exception.", "quantifier": "every collection and channel", "why_tests_cant": "off-by-one at the boundary channel", "anchors": ["src/fock_state_circuit/nodes/controlled_nodes.py:wave_plate_classical_control", "src/fock_state_circuit/nodes/controlled_nodes.py:phase_shift_single_channel_classical_control", "src/fock_state_circuit/circuit.py:evaluate_circuit"]}
{"id": "C46", "title": "A compound circuit is the composition of its circuits", "statement": "Evaluating a compound circuit gives the same as evaluating the circuits one after the other with reshaping in between, and building it leaves the given circuits unchanged.", "quantifier": "every list of circuits", "why_tests_cant": "lists unbounded", "anchors": ["src/fock_state_circuit/compound_circuit.py:refresh", "src/fock_state_circuit/compound_circuit.py:evaluate_circuit", "src/fock_state_circuit/circuit.py:evaluate_circuit"]}
{"id": "C47", "title": "Nodes after a bridge", "statement": "Nodes placed after a bridge node in the same circuit are evaluated too.", "quantifier": "every circuit with a bridge", "why_tests_cant": "depends on node position", "anchors": ["src/fock_state_circuit/circuit.py:evaluate_circuit"]}
{"id": "C48", "title": "Histogram bars add up to the total probability", "statement": "For each initial state the bars of the histogram of measurement outcomes add up to the summed cumulative probability of the states with that initial state, and every outcome (tuple of classical values) has its own bar with the summed probability of that outcome.", "quantifier": "every collection", "why_tests_cant": "all collections", "anchors": ["src/fock_state_circuit/visualization/plot.py:plot", "src/fock_state_circuit/visualization/plot.py:_create_state_name_from_list_of_photon_numbers"]}
{"id": "C49", "title": "Correlations lie between -1 and 1", "statement": "Each correlation computed from a collection lies in [-1, 1] and equals the probability that the two classical channels have equal values minus the probability that they differ.", "quantifier": "every collection", "why_tests_cant": "all collections", "anchors": ["src/fock_state_circuit/visualization/plot.py:_correlation_from_collection"]}
{"id": "C50", "title": "Photon overlap probability", "statement": "The interference probability of two photons is symmetric, lies in (0, 1], and equals 1 exactly when the delays coincide; photons without timing information overlap fully; shifting both photons in time changes nothing; the overlap probability used by the quick time delay is the squared overlap of two such photons.", "quantifier": "all real delays and positive widths", "why_tests_cant": "continuum", "anchors": ["src/fock_state_circuit/temporal_and_spectral_gate_functionality/temporal_functions.py:photon_probability_function", "src/fock_state_circuit/temporal_and_spectral_gate_functionality/temporal_functions.py:add_quick_time_delay_generic"]}
{"id": "C51", "title": "Photon-resolved measurement distinguishes all outcomes", "statement": "Two different tuples of measured photon numbers are reported as different outcomes by the photon-resolved measurement.", "quantifier": "every pair of outcome tuples of the same length", "why_tests_cant": "outcome labels are concatenated strings of unbounded length", "anchors": ["src/fock_state_circuit/temporal_and_spectral_gate_functionality/interference_group.py:measure_interference_group_alternative"]}
{"id": "C52", "title": "Quantum operators have the right matrix elements", "statement": "Creation and annihilation operators on the limited basis have the matrix elements sqrt(n+1) and sqrt(n); they are each other's adjoint.", "quantifier": "every basis state and channel", "why_tests_cant": "basis unbounded", "anchors": ["src/fock_state_circuit/quantum_operator_functionality/quantum_operators.py:_generate_limited_matrix", "src/fock_state_circuit/quantum_operator_functionality/quantum_operators.py:_generate_limited_basis"]}
{"id": "C53", "title": "Splitting and condensing photon columns is lossless", "statement": "Decomposing a photon-number component into single-photon states and condensing again restores the component and its amplitude (the bosonic factors cancel); splitting a column into components preserves each amplitude.", "quantifier": "every component", "why_tests_cant": "photon numbers unbounded", "anchors": ["src/fock_state_circuit/temporal_and_spectral_gate_functionality/column_of_states.py:single_photon_states", "src/fock_state_circuit/temporal_and_spectral_gate_functionality/column_of_states.py:condense_column_to_single_state", "src/fock_state_circuit/temporal_and_spectral_gate_functionality/interference_group.py:split_columns"]}
{"id": "C54", "title": "A custom optical matrix acts on the fields of its channels", "statement": "custom_optical_node applies its 2x2 matrix to the electric fields: a single photon with amplitudes (x, y) in the two channels leaves with amplitudes M (x, y); in particular a photon entering the first channel leaves through the second with amplitude M[1][0].", "quantifier": "every 2x2 matrix, length >= 2, channel pair and superposition", "why_tests_cant": "all matrices; the built-in elements are symmetric, so tests with them cannot see a transposition", "anchors": ["src/fock_state_circuit/nodes/custom_nodes.py:custom_optical_node", "src/fock_state_circuit/circuit.py:__generate_single_node_fock_matrix_from_optical_matrix", "src/fock_state_circuit/circuit.py:__apply_node_or_nodes_to_collection"]}
{"id": "C55", "title": "Tensor product of states", "statement": "state.tensor(other) gives, for every pair of components, the concatenated photon numbers with the product of the amplitudes; probabilities multiply; passing a state, a dictionary or a list of its components gives the same result.", "quantifier": "every pair of valid states (lengths and notations may differ)", "why_tests_cant": "all superpositions, lengths and notations", "anchors": ["src/fock_state_circuit/state.py:tensor"]}
{"id": "C56", "title": "Channel coupling conserves probability", "statement": "channel_coupling with a strength between 0 and 1 keeps the total probability of every state; with strength 0 it does nothing and with strength 1 it is the controlled shift c_shift.", "quantifier": "every strength in [0, 1], list of channel pairs and state", "why_tests_cant": "all superpositions; single basis states, which tests use, do not show the defect", "anchors": ["src/fock_state_circuit/nodes/custom_nodes.py:channel_coupling"]}
{"id": "C57", "title": "A copy of a collection is independent", "statement": "Copying a collection gives a collection with the same contents; changing the copy does not change the original (as the documentation promises), and changing the original does not change the copy.", "quantifier": "every collection, with any history and any sharing of list objects", "why_tests_cant": "depends on object identity after arbitrary histories", "anchors": ["src/fock_state_circuit/collection_of_states.py:copy", "src/fock_state_circuit/state.py:copy", "src/fock_state_circuit/circuit.py:_perform_measurement"]}
{"id": "C58", "title": "Hamiltonians of a quantum operator are applied in list order", "statement": "QuantumOperator([A, B, C]) applied to a state applies exp(A) first, then exp(B), then exp(C) (documented: index 0 first, the operator is CBA).", "quantifier": "every list of Hamiltonians and state", "why_tests_cant": "all non-commuting combinations; tests use commuting or symmetric ones", "anchors": ["src/fock_state_circuit/quantum_operator_functionality/quantum_operators.py:_combine_operators", "src/fock_state_circuit/quantum_operator_functionality/quantum_operators.py:apply_operator_to_state"]}
{"id": "C59", "title": "A quantum operator gate acts linearly on the given channels only", "statement": "Applying a quantum operator to channels ch maps every state linearly: the amplitude of an output component is the sum over the basis states of ch of matrix element times old amplitude; the photon numbers of the other channels do not change. (Matrix elements that round to a probability not above the threshold are dropped.)", "quantifier": "every matrix, state, list of distinct channels", "why_tests_cant": "all superpositions and matrices", "anchors": ["src/fock_state_circuit/quantum_operator_functionality/quantum_operators.py:apply_operator_to_state", "src/fock_state_circuit/nodes/quantum_operator_nodes.py:hamiltonian_operator_gate"]}
{"id": "C60", "title": "Photon-number conserving Hamiltonians conserve the photon number", "statement": "If every term of every Hamiltonian has as many creation as annihilation operators, every component of the output has the photon number of some component of the input.", "quantifier": "every list of such Hamiltonians, every truncation of the exponential, state and channels", "why_tests_cant": "all Hamiltonians and states", "anchors": ["src/fock_state_circuit/quantum_operator_functionality/quantum_operators.py:_generate_limited_matrix", "src/fock_state_circuit/quantum_operator_functionality/quantum_operators.py:_exponentiaze", "src/fock_state_circuit/quantum_operator_functionality/quantum_operators.py:apply_operator_to_state"]}
{"id": "C61", "title": "The quantum operator of an anti-Hermitian Hamiltonian is unitary", "statement": "QuantumOperator is the unitary transformation exp(H): for an anti-Hermitian H the matrix applied to the states is unitary.", "quantifier": "every anti-Hermitian Hamiltonian", "why_tests_cant": "all coupling strengths; tests use small ones", "anchors": ["src/fock_state_circuit/quantum_operator_functionality/quantum_operators.py:_exponentiaze", "src/fock_state_circuit/nodes/quantum_operator_nodes.py:hamiltonian_operator_gate"]}
{"id": "C62", "title": "Every Hamiltonian acts on its own operator channels", "statement": "In a QuantumOperator with several Hamiltonians each one acts on the operator channels it was created with.", "quantifier": "every list of Hamiltonians", "why_tests_cant": "all combinations of operator channels", "anchors": ["src/fock_state_circuit/quantum_operator_functionality/quantum_operators.py:__post_init__"]}
{"id": "C63", "title": "Photon-resolved detection probability", "statement": "The probability to detect given photon numbers in a photon-resolved measurement is the sum over all pairs of columns with these photon numbers of conj(a_ket) a_bra / (b_ket b_bra) times the permanent of the matrix of overlaps of their photons (0 in different channels).", "quantifier": "every list of columns, any number of photons with arbitrary delays and widths", "why_tests_cant": "number of photons and assignments unbounded", "anchors": ["src/fock_state_circuit/temporal_and_spectral_gate_functionality/interference_group.py:_calculate_probability_for_this_projection_for_these_state_columns", "src/fock_state_circuit/temporal_and_spectral_gate_functionality/interference_group.py:_valid_combinations"]}
{"id": "C64", "title": "Identical photons give Born probabilities", "statement": "If all photons overlap fully, the photon-resolved measurement has the outcomes and probabilities of the ordinary measurement.", "quantifier": "every normalised state and list of measured channels", "why_tests_cant": "all states; tests compare a few circuits", "anchors": ["src/fock_state_circuit/temporal_and_spectral_gate_functionality/interference_group.py:measure_interference_group_alternative", "src/fock_state_circuit/temporal_and_spectral_gate_functionality/interference_group.py:_probability_column_list"]}
{"id": "C65", "title": "Repeating a photon-resolved measurement confirms the outcome", "statement": "After a photon-resolved measurement, measuring the same channels again gives the same outcome with probability 1 in each group.", "quantifier": "every measurable group, channels", "why_tests_cant": "all states; tests do not repeat measurements on partially overlapping photons", "anchors": ["src/fock_state_circuit/temporal_and_spectral_gate_functionality/interference_group.py:rescale_column_amplitudes", "src/fock_state_circuit/temporal_and_spectral_gate_functionality/interference_group.py:rescale_boson_factors"]}
{"id": "C66", "title": "Photon-resolved measurement: one group per outcome, results recorded once", "statement": "A photon-resolved measurement of a group gives exactly one new group per outcome that occurs, containing the columns with this outcome; its probability is multiplied by the detection probability; the outcome is written to the classical channels, and one entry is added to the measurement history.", "quantifier": "every measurable group, list of channels", "why_tests_cant": "all groups and channel lists", "anchors": ["src/fock_state_circuit/temporal_and_spectral_gate_functionality/interference_group.py:measure_interference_group_alternative"]}
{"id": "C67", "title": "Interference groups survive storage in a collection", "statement": "Interference groups of columns written to a collection (with their identifiers in the auxiliary information of the states) are read back as exactly the same groups: same columns in the same order, same amplitudes, factors, probabilities and photon information. A state without photon information becomes a group of its own.", "quantifier": "every set of groups with distinct identifiers, any number of columns and states", "why_tests_cant": "all collections and histories of nodes", "anchors": ["src/fock_state_circuit/temporal_and_spectral_gate_functionality/collection_of_state_columns.py:__init__", "src/fock_state_circuit/temporal_and_spectral_gate_functionality/collection_of_state_columns.py:by_state", "src/fock_state_circuit/temporal_and_spectral_gate_functionality/interference_group.py:add_state"]}
{"id": "C68", "title": "The full time delay delays exactly the photons in the given channels, and delays add", "statement": "time_delay_full changes the timing of the photons in the given channels by the given delay (or the value of the classical channel) and nothing else; two delays act as one with the sum; opposite delays cancel; a delay common to all channels changes no detection probability.", "quantifier": "every collection, channel list and real delays", "why_tests_cant": "all collections, delays are real numbers", "anchors": ["src/fock_state_circuit/temporal_and_spectral_gate_functionality/temporal_functions.py:add_time_delay_generic", "src/fock_state_circuit/nodes/spectral_nodes.py:time_delay_full"]}
{"id": "C69", "title": "Setting the pulse width", "statement": "set_pulse_width sets the width of the photons in the given channels, keeps delays and other photons, and leaves a collection that later nodes can use.", "quantifier": "every collection, channel list and width", "why_tests_cant": "all collections", "anchors": ["src/fock_state_circuit/temporal_and_spectral_gate_functionality/temporal_functions.py:set_pulse_width", "src/fock_state_circuit/nodes/spectral_nodes.py:set_pulse_width"]}
{"id": "C70", "title": "The quick time delay splits every group into an overlapping and a separated part", "statement": "time_delay replaces every interference group by two groups: one with the overlap probability exp(-ln 2 (t/w)^2) and equal timing, one with the remaining probability in which every state is split into the delayed and the other photons; probabilities of the two add up to that of the group, photon numbers of the two parts of a state add up to those of the state, amplitudes, classical values and history are kept.", "quantifier": "every collection, channel list, delay and pulse width", "why_tests_cant": "all collections, delays are real numbers", "anchors": ["src/fock_state_circuit/temporal_and_spectral_gate_functionality/temporal_functions.py:add_quick_time_delay_generic", "src/fock_state_circuit/nodes/spectral_nodes.py:time_delay"]}
{"id": "C71", "title": "The Popescu-Rohrlich gate prepares every combination of polarizations", "statement": "For n photon pairs the gate replaces each state by 4^n valid normalised states with the same label: one for every combination of polarizations HH, HV, VH, VV of the pairs, each with probability (1/2)^n, photon numbers written into the channels of the pairs, all other channels, classical values and history as before.", "quantifier": "every collection, number of pairs, channels, quantumness", "why_tests_cant": "number of pairs and states unbounded", "anchors": ["src/fock_state_circuit/popescu_rohrlich_correlation_functionality/popescu_rohrlich_correlations.py:execute_popescu_rohrlich_gate", "src/fock_state_circuit/popescu_rohrlich_correlation_functionality/popescu_rohrlich_correlations.py:_create_collection_with_popescu_rohrlich_correlations", "src/fock_state_circuit/nodes/superquantum_nodes.py:popescu_rohrlich_correlation_gate"]}
{"id": "C72", "title": "Outcome probabilities of Popescu-Rohrlich pairs", "statement": "If both photons of each pair only go through their own polarization optics, the probability of an outcome is the probability of the original state times, for each pair, (1 + E)/4 with E = sign(x)|x|^(1/K), x = cosine of the angle between the polarizations (on the Poincare sphere) onto which the two photons are projected and K the quantumness.", "quantifier": "every number of pairs, unitary optics per photon, K > 0, any superposition in the other channels", "why_tests_cant": "all unitary optics and real K", "anchors": ["src/fock_state_circuit/popescu_rohrlich_correlation_functionality/popescu_rohrlich_correlations.py:_measure_collection_with_pr_correlation", "src/fock_state_circuit/popescu_rohrlich_correlation_functionality/popescu_rohrlich_correlations.py:_probability_from_stokes_vectors", "src/fock_state_circuit/popescu_rohrlich_correlation_functionality/popescu_rohrlich_photon_pair_amplitude_functionality.py:stokes_vector_from_amplitudes"]}
{"id": "C73", "title": "Outcome probabilities of Popescu-Rohrlich pairs add up to 1", "statement": "The probabilities of all outcomes of a measurement of a set of Popescu-Rohrlich states add up to the probability of the state the pairs were added to.", "quantifier": "every set of states made by the gate, every optics in between", "why_tests_cant": "all circuits", "anchors": ["src/fock_state_circuit/popescu_rohrlich_correlation_functionality/popescu_rohrlich_correlations.py:_measure_collection_with_pr_correlation"]}
{"id": "C74", "title": "Popescu-Rohrlich pairs do not signal", "statement": "The probabilities of the outcomes for the first photons do not depend on the optics the second photons went through, or on the quantumness, and vice versa.", "quantifier": "every number of pairs, unitary optics, K > 0", "why_tests_cant": "all unitary optics", "anchors": ["src/fock_state_circuit/popescu_rohrlich_correlation_functionality/popescu_rohrlich_correlations.py:_measure_collection_with_pr_correlation"]}
{"id": "C75", "title": "Quantumness 1 gives regular entanglement", "statement": "Pairs with quantumness indicator 1 give the outcome probabilities of regular entangled photons ('1010' + '0101')/sqrt 2 in the same circuit.", "quantifier": "all unitary polarization optics", "why_tests_cant": "all optics; tests use linear polarizers", "anchors": ["src/fock_state_circuit/popescu_rohrlich_correlation_functionality/popescu_rohrlich_correlations.py:_probability_from_stokes_vectors"]}
{"id": "C76", "title": "CHSH strength of Popescu-Rohrlich pairs", "statement": "The correlation read from the outcomes is E = sign(x)|x|^(1/K) with x = 2 overlap - 1. The CHSH combination never exceeds 4; for K = 1 it never exceeds 2 sqrt 2; for the standard settings it is 4 (1/sqrt 2)^(1/K), above 2 sqrt 2 exactly for K > 1 and tending to 4 for large K.", "quantifier": "all measurement settings, K > 0", "why_tests_cant": "real settings and K", "anchors": ["src/fock_state_circuit/popescu_rohrlich_correlation_functionality/popescu_rohrlich_correlations.py:_probability_from_stokes_vectors", "src/fock_state_circuit/popescu_rohrlich_correlation_functionality/popescu_rohrlich_correlations.py:correlations_from_measured_collection_with_NS_boxes"]}
{"id": "C77", "title": "Entanglement between Popescu-Rohrlich pairs is detected", "statement": "Measuring raises an error exactly if the optics entangled different pairs with each other; pairs that are only entangled internally are accepted.", "quantifier": "every number of pairs, every set of amplitudes", "why_tests_cant": "all circuits", "anchors": ["src/fock_state_circuit/popescu_rohrlich_correlation_functionality/popescu_rohrlich_correlations.py:_measure_collection_with_pr_correlation", "src/fock_state_circuit/popescu_rohrlich_correlation_functionality/popescu_rohrlich_photon_pair_amplitude_functionality.py:is_dict_factorable", "src/fock_state_circuit/popescu_rohrlich_correlation_functionality/popescu_rohrlich_photon_pair_amplitude_functionality.py:are_all_photon_pairs_factorable"]}
{"id": "C78", "title": "Result of a measurement with Popescu-Rohrlich pairs", "statement": "The measurement handles every set of states on its own and gives one state per outcome: the outcome with amplitude 1, the listed probability, the label of the original state, photon numbers copied to the classical channels, one history entry added, and no correlation information left.", "quantifier": "every collection with such states, channel lists", "why_tests_cant": "all collections", "anchors": ["src/fock_state_circuit/popescu_rohrlich_correlation_functionality/popescu_rohrlich_correlations.py:perform_measurement_popescu_rohrlich_correlation", "src/fock_state_circuit/nodes/superquantum_nodes.py:perform_measurement_pr_correlation"]}
{"id": "C79", "title": "Measuring Popescu-Rohrlich pairs leaves the argument unchanged", "statement": "perform_measurement_popescu_rohrlich_correlation does not change the collection it is given, so it can be measured again.", "quantifier": "every collection", "why_tests_cant": "aliasing; tests use the returned collection only", "anchors": ["src/fock_state_circuit/popescu_rohrlich_correlation_functionality/popescu_rohrlich_correlations.py:perform_measurement_popescu_rohrlich_correlation"]}
{"id": "C80", "title": "Evaluating a circuit conserves probability", "statement": "For every initial state, the probability carried by the states started from it (cumulative probability times squared norm) does not grow during the evaluation of a circuit of unitary optical nodes, unitary Fock matrices, classical functions, controlled wave plates and measurements, and falls by at most (length of the photon number basis)^(number of optical channels) times the threshold per node and state; with threshold 0 it is exactly conserved. The result consists of valid states with different identifiers.", "quantifier": "every circuit without bridges, every node list, every collection of valid states", "why_tests_cant": "all circuits, all collections, all thresholds", "anchors": ["src/fock_state_circuit/circuit.py:evaluate_circuit", "src/fock_state_circuit/circuit.py:_perform_measurement", "src/fock_state_circuit/nodes/measurement_nodes.py", "src/fock_state_circuit/nodes/controlled_nodes.py"]}
{"id": "C81", "title": "Circuits whose nodes fit evaluate without exceptions", "statement": "A circuit in which every node refers to existing channels, Fock matrices have the right size and classical functions return one value per classical channel evaluates without an exception on every collection of valid normalised states.", "quantifier": "every circuit, every collection", "why_tests_cant": "all circuits, all collections: an intermediate state may lose all its components", "anchors": ["src/fock_state_circuit/circuit.py:evaluate_circuit", "src/fock_state_circuit/state.py:outcomes", "src/fock_state_circuit/collection_of_states.py:add_state"]}
{"id": "C82", "title": "The Fock matrix shown for a circuit is the one its evaluation applies", "statement": "get_fock_state_matrix for a selection of nodes returns the matrix by which evaluating these nodes multiplies the amplitudes of every state (amplitudes below the threshold left out, everything else unchanged), in any order and with repetitions; it is unitary if the optical matrices are, and every selection that is not a single custom matrix or a non-empty list of optical nodes is refused.", "quantifier": "every circuit, every list of nodes or 'all', every collection of valid normalised states", "why_tests_cant": "all circuits, all node lists, all amplitudes", "anchors": ["src/fock_state_circuit/circuit.py:get_fock_state_matrix", "src/fock_state_circuit/circuit.py:__generate_fock_state_matrix", "src/fock_state_circuit/circuit.py:evaluate_circuit"]}
{"id": "C83", "title": "A wave plate from Hamiltonians equals the optical wave plate", "statement": "wave_plate_from_hamiltonian(theta, phi) has the same effect as wave_plate(theta, phi) on every state (the comment in the code: identical outcome, for consistency in the package).", "quantifier": "every theta, phi, length of the photon number basis and photon numbers", "why_tests_cant": "real angles; tests use single photons and a few angles", "anchors": ["src/fock_state_circuit/nodes/quantum_operator_nodes.py:wave_plate_from_hamiltonian", "src/fock_state_circuit/nodes/optical_nodes.py:wave_plate", "src/fock_state_circuit/quantum_operator_functionality/quantum_operators.py:QuantumOperator"]}
{"id": "C84", "title": "Hamiltonians quadratic in the ladder operators are linear optics", "statement": "A quantum operator gate for the Hamiltonian sum X_ab a_a^+ a_b on two channels acts like the optical node whose matrix is the transpose of exp(X); a beam splitter can be built this way.", "quantifier": "every 2x2 matrix of coefficients, every photon numbers", "why_tests_cant": "all complex coefficients, all photon numbers", "anchors": ["src/fock_state_circuit/quantum_operator_functionality/quantum_operators.py:QuantumOperator", "src/fock_state_circuit/nodes/quantum_operator_nodes.py:hamiltonian_operator_gate"]}
{"id": "C85", "title": "Operator nodes treat every state of the collection on its own", "statement": "An operator node on existing different channels evaluates without an exception, keeps number and order of the states, their labels, classical values, measurement results and probabilities, and gives them different identifiers; the classically controlled wave plate uses the angles in the classical channels of each state; channels that do not exist are refused when the node is added.", "quantifier": "every collection, operator and choice of channels", "why_tests_cant": "all collections", "anchors": ["src/fock_state_circuit/nodes/quantum_operator_nodes.py:hamiltonian_operator_gate", "src/fock_state_circuit/nodes/quantum_operator_nodes.py:wave_plate_from_hamiltonian_classical_control", "src/fock_state_circuit/quantum_operator_functionality/quantum_operators.py:apply_operator_to_collection"]}
{"id": "C86", "title": "A whole experiment with Popescu-Rohrlich pairs", "statement": "Adding pairs to a state, sending the photons of the pairs through any optical elements (and other elements acting on the other channels) and measuring never raises, and lists every outcome with the probability of the original state times the squared amplitude of the other channels times (1 + correlation)/4 for every pair, the correlation being that of the polarizations the elements select; the probabilities of the resulting states add up to the probability of the original state.", "quantifier": "every number of pairs, every list of unitary elements each on one photon or outside the pairs, every normalised state whose components differ outside the pairs", "why_tests_cant": "all circuits, all matrices", "anchors": ["src/fock_state_circuit/popescu_rohrlich_correlation_functionality/popescu_rohrlich_correlations.py:execute_popescu_rohrlich_gate", "src/fock_state_circuit/popescu_rohrlich_correlation_functionality/popescu_rohrlich_correlations.py:perform_measurement_popescu_rohrlich_correlation", "src/fock_state_circuit/circuit.py:evaluate_circuit"]}
{"id": "C87", "title": "Every circuit of a compound circuit works with its own settings", "statement": "In circuits connected by bridges (a compound circuit) every circuit works with its own naming convention, number of classical channels, length of the photon number basis and threshold: the result is that of the circuits evaluated one after the other, each with its own settings, with the reshaping for the bridge in between.", "quantifier": "every list of circuits, every collection", "why_tests_cant": "all circuits and settings; settings are kept three times (circuit, collection, states)", "anchors": ["src/fock_state_circuit/circuit.py:evaluate_circuit", "src/fock_state_circuit/compound_circuit.py:evaluate_circuit", "src/fock_state_circuit/collection_of_states.py:copy", "src/fock_state_circuit/collection_of_states.py:adjust_length_of_fock_state"]}
{"id": "C88", "title": "A bridge hands over the states", "statement": "A bridge keeps photon numbers and classical values of the channels both circuits have, empties new channels, and splits a state according to the photon numbers of the channels the next circuit does not have: for every choice of these with non-zero probability exactly the corresponding part arrives, normalised, with the probability multiplied in; the probability per initial state is conserved.", "quantifier": "every pair of circuits, every collection of valid normalised states", "why_tests_cant": "all circuits, all states", "anchors": ["src/fock_state_circuit/circuit.py:evaluate_circuit", "src/fock_state_circuit/collection_of_states.py:reduce", "src/fock_state_circuit/collection_of_states.py:extend", "src/fock_state_circuit/collection_of_states.py:adjust_length_of_fock_state"]}
{"id": "C89", "title": "create_no_signalling_boxes ignores what was before it", "statement": "The (deprecated) node create_no_signalling_boxes creates states with photon pairs regardless of the collection it receives (documentation: any node before it has no effect) under the initial label 'no_signalling_boxes'.", "quantifier": "every collection, number of pairs, channels", "why_tests_cant": "all collections", "anchors": ["src/fock_state_circuit/nodes/superquantum_nodes.py:create_no_signalling_boxes"]}
{"id": "C90", "title": "A collection checks its states", "statement": "bool(collection) and the constructor accept exactly the dictionaries whose identifiers are strings and whose values are valid states; anything else is reported as invalid.", "quantifier": "every dictionary, any keys and values", "why_tests_cant": "all dictionaries; boolean combination of three conditions", "anchors": ["src/fock_state_circuit/collection_of_states.py:__check_valid_dictionary", "src/fock_state_circuit/collection_of_states.py:__bool__", "src/fock_state_circuit/collection_of_states.py:collection_from_dict", "src/fock_state_circuit/collection_of_states.py:__init__"]}
{"id": "C91", "title": "Creating a state from a dictionary", "statement": "State(...) takes the given entries and the vacuum defaults for the others, and accepts exactly dictionaries that describe a state of the circuit: known component names, probabilities matching the amplitudes, normalised, one value per classical channel.", "quantifier": "every dictionary, every circuit size", "why_tests_cant": "all dictionaries", "anchors": ["src/fock_state_circuit/state.py:__init__", "src/fock_state_circuit/state.py:_check_valid_state", "src/fock_state_circuit/state.py:create_initialized_state"]}
{"id": "C92", "title": "Photon number of a state", "statement": "photon_number() gives the largest number of photons among the components and whether all have it; int(state) and comparisons with numbers and states use the first.", "quantifier": "every state with at least one component", "why_tests_cant": "all states", "anchors": ["src/fock_state_circuit/state.py:photon_number", "src/fock_state_circuit/state.py:__eq__", "src/fock_state_circuit/state.py:__int__"]}
{"id": "C93", "title": "Correlations from outcomes of no-signalling boxes", "statement": "For every pair of channels the correlation is P(equal) - P(different) divided by the total probability, so it lies between -1 and 1.", "quantifier": "every list of outcomes, every pair of channels", "why_tests_cant": "all outcome lists", "anchors": ["src/fock_state_circuit/popescu_rohrlich_correlation_functionality/popescu_rohrlich_correlations.py:correlations_from_measured_collection_with_NS_boxes"]}
{"id": "C94", "title": "A compound circuit evaluates what it listed at the last refresh", "statement": "A compound circuit evaluates exactly the circuits in its list, with the nodes they had, at the moment of its creation or last refresh, connected by bridges; later changes of circuits, lists or other compound circuits do not matter until the next refresh. Creating, refreshing, clearing and evaluating change no circuit and no list. After clear, and for an empty list, the evaluation raises.", "quantifier": "every history of creating and changing circuits, lists and compound circuits", "why_tests_cant": "unbounded histories, shared lists and circuits", "anchors": ["src/fock_state_circuit/compound_circuit.py:CompoundFockStateCircuit.refresh", "src/fock_state_circuit/compound_circuit.py:CompoundFockStateCircuit.__init__", "src/fock_state_circuit/compound_circuit.py:CompoundFockStateCircuit.evaluate_circuit", "src/fock_state_circuit/compound_circuit.py:CompoundFockStateCircuit.clear"]}
{"id": "C95", "title": "A compound circuit without arguments is empty", "statement": "CompoundFockStateCircuit() starts with an empty list of circuits of its own, whatever was done with other compound circuits.", "quantifier": "every history", "why_tests_cant": "mutable default argument; depends on history", "anchors": ["src/fock_state_circuit/compound_circuit.py:CompoundFockStateCircuit.__init__"]}
{"id": "C96", "title": "Evaluation without an input collection", "statement": "evaluate_circuit() without a collection evaluates the collection of all basis states; for optical nodes the resulting states list the columns of get_fock_state_matrix under the name of the basis state.", "quantifier": "every circuit, every node list", "why_tests_cant": "all circuits", "anchors": ["src/fock_state_circuit/circuit.py:evaluate_circuit", "src/fock_state_circuit/collection_of_states.py:initialize_to_default"]}
{"id": "C97", "title": "Spectral nodes leave the given collection unchanged", "statement": "Evaluating a circuit that starts with a time delay, a pulse width or a photon-resolved measurement does not change the states of the collection it is given, so evaluating it again gives the same result.", "quantifier": "every collection, every number of components", "why_tests_cant": "aliasing; tests use the returned collection only", "anchors": ["src/fock_state_circuit/temporal_and_spectral_gate_functionality/collection_of_state_columns.py:CollectionOfStateColumns.__init__", "src/fock_state_circuit/temporal_and_spectral_gate_functionality/column_of_states.py:split", "src/fock_state_circuit/temporal_and_spectral_gate_functionality/temporal_functions.py:add_time_delay_generic", "src/fock_state_circuit/temporal_and_spectral_gate_functionality/temporal_functions.py:set_pulse_width"]}
{"id": "C98", "title": "Indexing and iterating a collection", "statement": "collection[i] gives the state with identifier i, for an integer that is no identifier the state at that position (negative: from the end, IndexError outside); iterating over a collection gives every state once, in the order of the collection.", "quantifier": "every collection, every identifier or number", "why_tests_cant": "iteration is by repeated indexing, which looks at the identifiers first", "anchors": ["src/fock_state_circuit/collection_of_states.py:__getitem__", "src/fock_state_circuit/collection_of_states.py:__len__"]}
{"id": "C99", "title": "Histogram of a photon-resolved collection", "statement": "The histogram of a photon-resolved collection shows, for every initial state and outcome, the summed probability of the interference groups with that outcome (of their columns, weighted by the squared column amplitude); after a photon-resolved measurement this is the probability of the measured groups. Plotting does not change the collection.", "quantifier": "every photon-resolved collection of normalised states, every choice of channels and initial states", "why_tests_cant": "all collections; splitting and aliasing", "anchors": ["src/fock_state_circuit/visualization/plot.py:plot", "src/fock_state_circuit/visualization/plot.py:_pre_plot", "src/fock_state_circuit/temporal_and_spectral_gate_functionality/column_of_states.py:generate_single_state_from_column", "src/fock_state_circuit/collection_of_states.py:is_photon_resolved"]}
{"id": "C100", "title": "Optical elements replace creation operators", "statement": "A sequence of two-channel optical elements maps the creation operator of each of its channels to the linear combination given by the element's matrix: the amplitude of every Fock state after the circuit is the amplitude obtained by substituting these combinations, one element after the other, in the polynomial of creation operators that makes the input state.", "quantifier": "every number of channels, every list of optical elements with arbitrary 2x2 matrices on arbitrary channels, every input state with fewer photons than the cutoff", "why_tests_cant": "all matrices, circuits and states", "anchors": ["src/fock_state_circuit/circuit.py:evaluate_circuit", "src/fock_state_circuit/circuit.py:__apply_node_or_nodes", "src/fock_state_circuit/circuit.py:__generate_fock_state_matrix", "src/fock_state_circuit/nodes/optical_nodes.py:half_wave_plate"]}
{"id": "C101", "title": "Born rule for photons that overlap partly", "statement": "A photon-resolved measurement of an interference group finds every outcome (photon numbers in the measured channels) with the probability of the Born rule: the squared norm of the part of the state with these photon numbers, in the Fock space where photons in different channels are orthogonal and the inner product of two photons in one channel is the overlap of their pulses. Outcomes that are not reported have probability 0.", "quantifier": "every interference group with any number of columns, photons, pulse shapes and channels", "why_tests_cant": "all amplitudes, arrival times, widths and photon numbers", "anchors": ["src/fock_state_circuit/temporal_and_spectral_gate_functionality/interference_group.py:measure_interference_group", "src/fock_state_circuit/temporal_and_spectral_gate_functionality/collection_of_state_columns.py:perform_measurement", "src/fock_state_circuit/temporal_and_spectral_gate_functionality/column_of_states.py:split", "src/fock_state_circuit/temporal_and_spectral_gate_functionality/column_of_states.py:single_photon_states"]}
{"id": "C102", "title": "Circuits of optics and time delays follow the Born rule", "statement": "evaluate_circuit of a circuit made of lossless two-channel optical elements, time delays (fixed or from a classical channel) and pulse-width settings in any order, followed by a measurement, returns for every input state one interference group per outcome; the outcome is in the classical channels and the probability of the group is the probability of the input state times the Born probability of the outcome for the state that the elements make of the input state, each element being a substitution of creation operators (optics mix channels, delays and widths relabel the photons of a channel). Outcomes that are not returned have probability 0.", "quantifier": "every circuit of this form of any length, every collection of normalised input states, every number of channels and photons below the cutoff", "why_tests_cant": "all circuits, matrices, delays, widths and states", "anchors": ["src/fock_state_circuit/circuit.py:evaluate_circuit", "src/fock_state_circuit/temporal_and_spectral_gate_functionality/temporal_functions.py:add_time_delay_generic", "src/fock_state_circuit/temporal_and_spectral_gate_functionality/temporal_functions.py:set_pulse_width", "src/fock_state_circuit/temporal_and_spectral_gate_functionality/collection_of_state_columns.py:perform_measurement", "src/fock_state_circuit/temporal_and_spectral_gate_functionality/interference_group.py:measure_interference_group"]}
{"id": "C103", "title": "Hong-Ou-Mandel dip", "statement": "One photon in each of two channels, one of them delayed by t with pulse width w, a lossless beam splitter with transmission T and reflection R, measurement of both channels: the recorded probability of a coincidence is T^2 + R^2 - 2 T R exp(-ln 2 (t/w)^2), whatever the phases of the beam splitter; for mix_50_50 it is (1 - exp(-ln 2 (t/w)^2))/2: zero without delay, one quarter when the delay is the pulse width.", "quantifier": "every delay, every pulse width other than zero, every unitary two-channel element on any two channels (that are not ordered wrongly, C08) of a circuit with any number of channels, any phase and probability of the input state", "why_tests_cant": "all real delays and widths, all unitary matrices", "anchors": ["src/fock_state_circuit/nodes/spectral_nodes.py:time_delay_full", "src/fock_state_circuit/circuit.py:evaluate_circuit", "src/fock_state_circuit/nodes/optical_nodes.py:mix_50_50", "src/fock_state_circuit/temporal_and_spectral_gate_functionality/interference_group.py:measure_interference_group", "src/fock_state_circuit/temporal_and_spectral_gate_functionality/temporal_functions.py:photon_probability_function"]}
{"id": "C104", "title": "Delays and optics conserve the total probability", "statement": "When a circuit of lossless two-channel optical elements and time delays (with pulse widths that are always set for all channels) is followed by a photon-resolved measurement of any set of channels, the probabilities of the groups that come from one input state are non-negative and add up to exactly the probability of that input state, however far the photons are delayed with respect to each other.", "quantifier": "every circuit of this form of any length, every collection of normalised input states, any delays and widths, any measured channels", "why_tests_cant": "all circuits, delays, widths and states; the sum runs over all outcomes", "anchors": ["src/fock_state_circuit/circuit.py:evaluate_circuit", "src/fock_state_circuit/temporal_and_spectral_gate_functionality/temporal_functions.py:add_time_delay_generic", "src/fock_state_circuit/temporal_and_spectral_gate_functionality/temporal_functions.py:photon_probability_function", "src/fock_state_circuit/temporal_and_spectral_gate_functionality/interference_group.py:perform_measurement", "src/fock_state_circuit/temporal_and_spectral_gate_functionality/collection_of_state_columns.py:perform_measurement"]}
{"id": "C105", "title": "Only relative delays matter", "statement": "In a circuit of optical elements, pulse widths and time delays that ends with a photon-resolved measurement, the amount of a delay of some channels cannot be seen in the recorded outcome probabilities unless a later optical element mixes a delayed channel with one that is not delayed. In particular a delay of all channels is invisible.", "quantifier": "every circuit of this form, every position and amount (number or classical channel) of the delay, every input state and set of measured channels", "why_tests_cant": "relates two runs with different delays, for all circuits around the delay", "anchors": ["src/fock_state_circuit/circuit.py:evaluate_circuit", "src/fock_state_circuit/temporal_and_spectral_gate_functionality/temporal_functions.py:add_time_delay_generic", "src/fock_state_circuit/temporal_and_spectral_gate_functionality/temporal_functions.py:photon_probability_function", "src/fock_state_circuit/temporal_and_spectral_gate_functionality/interference_group.py:perform_measurement"]}
{"id": "C106", "title": "The quick time delay is a mixture of full overlap and full separation", "statement": "In a circuit of optical elements, one quick time delay, optical elements and a measurement, the probability of every outcome is o * p0 + (1 - o) * p200, where p0 and p200 are the probabilities recorded by the same circuit with the full time delay for the delays 0 and 200 (pulse width 1) and o = exp(-ln 2 (t/w)^2) is the overlap for the delay t and the pulse width w.", "quantifier": "every such circuit, delay (number or classical channel), pulse width, input state and set of measured channels", "why_tests_cant": "relates three runs, for all circuits and delays", "anchors": ["src/fock_state_circuit/temporal_and_spectral_gate_functionality/temporal_functions.py:add_quick_time_delay_generic", "src/fock_state_circuit/temporal_and_spectral_gate_functionality/temporal_functions.py:add_quick_time_delay_to_collection", "src/fock_state_circuit/circuit.py:evaluate_circuit", "src/fock_state_circuit/temporal_and_spectral_gate_functionality/interference_group.py:perform_measurement"]}
{"id": "C107", "title": "The quick time delay gives the probabilities of the full time delay", "statement": "A circuit with the quick time delay gives (up to a negligible difference) the same outcome probabilities as the same circuit with the full time delay.", "quantifier": "every circuit with one delay, every delay, pulse width and input state", "why_tests_cant": "relates two implementations of the same effect, for all circuits, delays and states", "anchors": ["src/fock_state_circuit/temporal_and_spectral_gate_functionality/temporal_functions.py:add_quick_time_delay_generic", "src/fock_state_circuit/temporal_and_spectral_gate_functionality/temporal_functions.py:add_time_delay_generic", "src/fock_state_circuit/circuit.py:evaluate_circuit"]}
{"id": "C108", "title": "Channel, delay and pulse width arguments of the spectral nodes mean what they say", "statement": "The channel argument of the spectral nodes may be a list of channels, a single channel or (where it is documented) None for all channels; the full and the quick delay delay the same channels for the same argument; channels that do not exist are refused; the pulse width of the quick delay is pulse_width, otherwise 1/bandwidth, otherwise 1.", "quantifier": "every circuit built by such calls, every collection of states, every list of (possibly negative) channel numbers", "why_tests_cant": "arguments range over all lists and integers and the effect over all collections; errors show up when a circuit is evaluated, not when it is built", "anchors": ["src/fock_state_circuit/nodes/spectral_nodes.py:time_delay_full", "src/fock_state_circuit/nodes/spectral_nodes.py:time_delay", "src/fock_state_circuit/nodes/spectral_nodes.py:time_delay_classical_control", "src/fock_state_circuit/nodes/spectral_nodes.py:set_pulse_width", "src/fock_state_circuit/temporal_and_spectral_gate_functionality/temporal_functions.py:add_time_delay_generic", "src/fock_state_circuit/temporal_and_spectral_gate_functionality/temporal_functions.py:add_quick_time_delay_generic", "src/fock_state_circuit/temporal_and_spectral_gate_functionality/temporal_functions.py:set_pulse_width", "src/fock_state_circuit/nodes/custom_nodes.py:generic_function_on_collection"]}
{"id": "C109", "title": "The naming convention affects only the strings", "statement": "channel_0_left_in_state_name only changes how states are written. Evaluating the same circuits on the same states under the other convention gives the same identifiers, photon numbers, amplitudes, probabilities, classical values, measurement results and density matrices, or fails in both cases.", "quantifier": "every circuit and compound circuit with every kind of node, every way of connecting circuits by bridges, every list of nodes to evaluate and every collection of states", "why_tests_cant": "a relation between two evaluations, for all circuits and all states; tests compare single names under one convention", "anchors": ["src/fock_state_circuit/circuit.py:FockStateCircuit.__init__", "src/fock_state_circuit/circuit.py:FockStateCircuit.evaluate_circuit", "src/fock_state_circuit/nodes/nodelist/optical_values_component_names.py:ComponentNames", "src/fock_state_circuit/nodes/nodelist/optical_values_component_names.py:OpticalValues", "src/fock_state_circuit/state.py:State.translate_state_components_to_vector", "src/fock_state_circuit/state.py:State.set_state_components_from_vector", "src/fock_state_circuit/collection_of_states.py:CollectionOfStates.reduce", "src/fock_state_circuit/collection_of_states.py:CollectionOfStates.extend", "src/fock_state_circuit/collection_of_states.py:CollectionOfStates.adjust_length_of_fock_state", "src/fock_state_circuit/collection_of_states.py:CollectionOfStates.initialize_to_default", "src/fock_state_circuit/collection_of_states.py:CollectionOfStates.density_matrix", "src/fock_state_circuit/nodes/custom_nodes.py:shift_direct", "src/fock_state_circuit/nodes/custom_nodes.py:c_shift_direct"]}
{"id": "C110", "title": "clean_up changes only the collection it is called on", "statement": "Cleaning up a collection leaves all other collections as they are: not only copies, but also the collection from which it was obtained by evaluating a circuit.", "quantifier": "every heap of State objects and component dictionaries, every collection, every list of labels", "why_tests_cant": "aliasing; tests look at the cleaned collection only", "anchors": ["src/fock_state_circuit/collection_of_states.py:CollectionOfStates.clean_up", "src/fock_state_circuit/collection_of_states.py:CollectionOfStates.copy", "src/fock_state_circuit/state.py:State._rescale_optical_components", "src/fock_state_circuit/state.py:State.copy", "src/fock_state_circuit/state.py:State.optical_components", "src/fock_state_circuit/nodes/custom_nodes.py:shift_direct", "src/fock_state_circuit/nodes/custom_nodes.py:c_shift_direct"]}
{"id": "C111", "title": "Optical nodes on disjoint channels commute", "statement": "Exchanging two neighbouring optical nodes that were given on disjoint channels, anywhere in a run of optical nodes, does not change the result.", "quantifier": "every cutoff, number of channels, optical matrices (also non-unitary), channel pairs, surrounding nodes, state or collection, threshold, both settings of use_full_fock_matrix", "why_tests_cant": "all pairs of channels and all states", "anchors": ["src/fock_state_circuit/circuit.py:FockStateCircuit.evaluate_circuit", "src/fock_state_circuit/circuit.py:FockStateCircuit._FockStateCircuit__generate_fock_state_matrix", "src/fock_state_circuit/nodes/optical_nodes.py"]}
{"id": "C112", "title": "Optical nodes do not change the statistics of other channels", "statement": "Unitary optical nodes do not change the probability of any outcome of a measurement of channels on which they were not given.", "quantifier": "every cutoff, number of channels, list of unitary nodes, list of measured channels, valid state, outcome, threshold", "why_tests_cant": "all states and gates", "anchors": ["src/fock_state_circuit/circuit.py:FockStateCircuit.evaluate_circuit", "src/fock_state_circuit/circuit.py:FockStateCircuit._perform_measurement", "src/fock_state_circuit/nodes/optical_nodes.py"]}
{"id": "C113", "title": "Measurement commutes with optical nodes on other channels", "statement": "Measuring some channels and then applying unitary optical nodes on other channels gives the same states - components, classical values, probabilities and history - as applying the nodes first and measuring afterwards.", "quantifier": "every cutoff, number of channels, list of unitary nodes, measured and classical channels, collection of valid states; two circuits that differ in this order only", "why_tests_cant": "all states and gates; needs a general argument on amplitudes and on the order of outcomes", "anchors": ["src/fock_state_circuit/circuit.py:FockStateCircuit.evaluate_circuit", "src/fock_state_circuit/circuit.py:FockStateCircuit._perform_measurement", "src/fock_state_circuit/nodes/optical_nodes.py"]}
{"id": "C114", "title": "The states of a collection do not influence each other", "statement": "Evaluating a circuit or compound circuit replaces every state of a collection by states that depend on this state only: evaluating two collections together gives the results of evaluating them separately, results for one label are those of the states with this label alone, no result is lost by a clash of identifiers, and neither identifiers nor random numbers matter.", "quantifier": "every circuit and selection of nodes (any order, repetitions; all node types, generic functions that treat states separately such as the shift nodes), every compound circuit, every collection with distinct identifiers, all random numbers", "why_tests_cant": "all collections and circuits; identifiers are made from strings and random numbers that could clash", "anchors": ["src/fock_state_circuit/circuit.py:FockStateCircuit.evaluate_circuit", "src/fock_state_circuit/compound_circuit.py:CompoundCircuit.evaluate_circuit", "src/fock_state_circuit/collection_of_states.py:CollectionOfStates.add_state"]}
{"id": "C115", "title": "Two measurements one after the other are one joint measurement", "statement": "Measuring some channels and then others gives, up to the order of the states, the same components, classical values and cumulative probabilities as measuring all of them at once; the probabilities of the two recorded results multiply to the joint probability, and one way fails exactly if the other does.", "quantifier": "every cutoff, number of channels, two lists of measured channels (also overlapping) with their classical channels, collection of valid states, threshold", "why_tests_cant": "all states and channel lists; the order of outcomes and the normalisation in between differ", "anchors": ["src/fock_state_circuit/circuit.py:FockStateCircuit._perform_measurement", "src/fock_state_circuit/circuit.py:FockStateCircuit.evaluate_circuit"]}
{"id": "C116", "title": "The order of measurements does not matter", "statement": "Two measurements that write to different classical channels can be exchanged: same states up to order, same classical values and cumulative probabilities.", "quantifier": "every cutoff, number of channels, two lists of measured channels (also overlapping), disjoint lists of classical channels, collection of valid states, threshold", "why_tests_cant": "all states and channel lists", "anchors": ["src/fock_state_circuit/circuit.py:FockStateCircuit._perform_measurement", "src/fock_state_circuit/circuit.py:FockStateCircuit.evaluate_circuit"]}
{"id": "C117", "title": "A circuit of optical elements and a measurement shows Born probabilities", "statement": "Evaluating optical elements followed by a measurement, the summed cumulative probability of the resulting states with given measured values - the height of the bar in the histogram - is the probability that the Born rule of linear optics gives: input probability times the squared amplitudes of the input state with its creation operators replaced by those of the elements (up to amplitudes below the threshold).", "quantifier": "every cutoff, number of channels, list of lossless optical elements, measured channels, collection of input states (superpositions, several photons, several labels)", "why_tests_cant": "all circuits and states: goes through Fock matrices, evaluation, collapse, bookkeeping of states and plotting", "anchors": ["src/fock_state_circuit/circuit.py:FockStateCircuit.evaluate_circuit", "src/fock_state_circuit/circuit.py:FockStateCircuit._perform_measurement", "src/fock_state_circuit/visualization/plot.py:plot"]}
{"id": "C118", "title": "A single photon is found like a classical field is distributed", "statement": "Sending a single photon (in one channel or in superposition) through optical elements, it is found in a channel with the squared modulus of the amplitude a classical field would have there. In particular: cos^2(phi/2) and sin^2(phi/2) at the outputs of a Mach-Zehnder interferometer with phase phi, cos^2(2 theta) and sin^2(2 theta) after a half-wave plate at angle theta.", "quantifier": "every cutoff from 2, number of channels, list of lossless elements, measured channels, phase, angle", "why_tests_cant": "all phases, angles and channels", "anchors": ["src/fock_state_circuit/circuit.py:FockStateCircuit.evaluate_circuit", "src/fock_state_circuit/circuit.py:FockStateCircuit._perform_measurement", "src/fock_state_circuit/nodes/optical_nodes.py:phase_shift_single_channel", "src/fock_state_circuit/nodes/optical_nodes.py:mix_50_50", "src/fock_state_circuit/nodes/optical_nodes.py:half_wave_plate"]}
{"id": "C119", "title": "Only the overall transformation of the fields matters", "statement": "Two circuits of optical elements whose effect on every classical field is the same give exactly the same result (amplitudes, probabilities, classical values, measurement results, order of the states) for every collection of states, with or without a measurement at the end, also for several photons and superpositions. An element followed by its inverse leaves every state as it is.", "quantifier": "every cutoff, number of channels, pair of lists of elements with equal action on fields (of different length, on different channels), collection of input states", "why_tests_cant": "all circuits, all decompositions and all states", "anchors": ["src/fock_state_circuit/circuit.py:FockStateCircuit.evaluate_circuit", "src/fock_state_circuit/circuit.py:FockStateCircuit.__generate_fock_state_matrix", "src/fock_state_circuit/nodes/optical_nodes.py:wave_plate"]}
{"id": "C120", "title": "nonlinear_optical_node has no effect", "statement": "nonlinear_optical_node is documented as a placeholder: evaluating nodes with it in between is evaluating the nodes before it and then the nodes after it; it can be left out unless it separates two optical nodes, and at the end of a circuit it never matters.", "quantifier": "every circuit without bridges, position of the placeholder, increasing list of nodes, collection", "why_tests_cant": "all circuits and positions", "anchors": ["src/fock_state_circuit/nodes/nonlinear_optical_nodes.py:NonlinearOpticalNodes.nonlinear_optical_node", "src/fock_state_circuit/circuit.py:FockStateCircuit.evaluate_circuit"]}
{"id": "C121", "title": "Photon pairs: two-photon interference, entanglement and the Bell inequality", "statement": "Two photons with an arbitrary two-photon wave function, sent through optical elements and measured, are found in two channels with the squared modulus of the amplitude in which both photons go through the elements like classical fields and both assignments of the photons to the channels interfere. For a polarization entangled pair and half wave plates at angles \u03b8 and \u03b7 the joint probabilities are cos\u00b2(2(\u03b8-\u03b7))/2 and sin\u00b2(2(\u03b8-\u03b7))/2, the correlation computed by the package is cos(4(\u03b8-\u03b7)), and the standard four settings give the CHSH value 2\u221a2.", "quantifier": "every cutoff of at least 3, number of channels, choice of channels, list of elements, two-photon wave function, angle and threshold", "why_tests_cant": "all channel layouts, all angles, all two-photon states", "anchors": ["src/fock_state_circuit/circuit.py:FockStateCircuit.evaluate_circuit", "src/fock_state_circuit/circuit.py:FockStateCircuit._perform_measurement", "src/fock_state_circuit/nodes/optical_nodes.py:half_wave_plate", "src/fock_state_circuit/visualization/plot.py:_correlation_from_collection"]}
{"id": "C122", "title": "Consecutive elements on the same channels combine as their parameters say", "statement": "Anywhere in a circuit of optical elements, two consecutive elements on the same two channels can be replaced by the one with the product of their matrices without changing any result: retardations of wave plates at one angle add, two quarter wave plates are a half wave plate, phase shifts of one channel add, and a half wave plate, 50/50 mixer or swap followed by itself (or any element followed by its inverse) can be left out. This holds exactly, for any number of photons (also at the cutoff), all channel pairs and all collections of states.", "quantifier": "every cutoff, number of channels, channel pair, angle, phase, elements before and after, collection of input states, setting of use_full_fock_matrix", "why_tests_cant": "all circuits and all states", "anchors": ["src/fock_state_circuit/circuit.py:FockStateCircuit.evaluate_circuit", "src/fock_state_circuit/circuit.py:FockStateCircuit.__generate_fock_state_matrix", "src/fock_state_circuit/nodes/optical_nodes.py:wave_plate", "src/fock_state_circuit/nodes/optical_nodes.py:quarter_wave_plate", "src/fock_state_circuit/nodes/optical_nodes.py:phase_shift_single_channel"]}
{"id": "C123", "title": "Building up an interference group loses nothing and keeps its identifiers", "statement": "After any sequence of add_column, add_state and assignments of interference_group_identifier and group_cumulative_probability, an InterferenceGroup contains every state and column it was given exactly once, no column is overwritten or changes its place, and identifiers are unique. A state goes to the column whose identifier it (or the call) names, otherwise to a new one; every column carries the identifier under which the group returns it and the identifier and cumulative probability of the group.", "quantifier": "every group, every sequence of calls, every choice of identifiers", "why_tests_cant": "unbounded histories and all combinations of explicit, own and missing identifiers", "anchors": ["src/fock_state_circuit/temporal_and_spectral_gate_functionality/interference_group.py:InterferenceGroup.__init__", "src/fock_state_circuit/temporal_and_spectral_gate_functionality/interference_group.py:InterferenceGroup.add_column", "src/fock_state_circuit/temporal_and_spectral_gate_functionality/interference_group.py:InterferenceGroup.add_state", "src/fock_state_circuit/temporal_and_spectral_gate_functionality/column_of_states.py:add_state"]}
{"id": "C124", "title": "A measurement leaves the right state and its result can steer later elements", "statement": "For a circuit of lossless two-channel elements followed by a measurement there is exactly one output state for each input state and each result that can be found in it; it consists of the terms with the photon numbers found, rescaled, has the probability of the Born rule, the label of the input and the result in the classical channels. A wave plate behind it whose angles are computed from the classical channels by a function acts on each of these states with the angles belonging to its own result.", "quantifier": "every list of lossless elements, every collection of input states, every choice of measured and classical channels, every function of the classical channels", "why_tests_cant": "real-valued amplitudes and angles, any number of channels, elements, states and results", "anchors": ["src/fock_state_circuit/circuit.py:FockStateCircuit.evaluate_circuit", "src/fock_state_circuit/nodes/measurement_nodes.py:measure_optical_to_classical", "src/fock_state_circuit/nodes/controlled_nodes.py:wave_plate_classical_control", "src/fock_state_circuit/nodes/classical_nodes.py:classical_channel_function"]}
{"id": "C125", "title": "Quantum teleportation works", "statement": "In the teleportation circuit of the documentation (photon to be sent, entangled pair, two 50/50 mixers, measurement of four channels, classical rule, controlled wave plate) Bob's photon ends in the state of the photon that was sent whenever two photons are found in one of four pairs of channels. This includes entanglement of the photon with others. Each of the four results has probability 1/8, so teleportation succeeds with probability 1/2.", "quantifier": "all amplitudes of the photon, all channel numbers, any number of channels and any state of other photons", "why_tests_cant": "continuum of input states, all channel assignments", "anchors": ["src/fock_state_circuit/circuit.py:FockStateCircuit.evaluate_circuit", "src/fock_state_circuit/nodes/optical_nodes.py:mix_50_50", "src/fock_state_circuit/nodes/controlled_nodes.py:wave_plate_classical_control"]}
{"id": "C126", "title": "The table of all outcomes of an interference group is complete and correct", "statement": "total_probability_for_group_all_outcomes lists every list of photon numbers that a column of the group can give, once, with the probability of the Born rule for the light of the group; outcomes that are not listed have probability 0, the values add up to 1 for a lossless circuit and normalised input, and a projection that no column matches gets probability 0.", "quantifier": "every interference group, every list of projections, every photon-resolved circuit of lossless elements", "why_tests_cant": "real-valued delays, widths and amplitudes, any number of columns, photons and channels", "anchors": ["src/fock_state_circuit/temporal_and_spectral_gate_functionality/interference_group.py:total_probability_for_group_all_outcomes", "src/fock_state_circuit/temporal_and_spectral_gate_functionality/column_of_states.py:generate_optical_component_corresponding_to_column"]}
{"id": "C127", "title": "Photon information is set for exactly the states of the filter", "statement": "set_photon_information gives the information to all states of the column, or to the states whose (first) component has photon numbers in the filter; the other states get the default, or stay unchanged when there is none. Photon numbers, amplitudes, order of the states and parameters of the column do not change.", "quantifier": "every column, every information, filter and default", "why_tests_cant": "unbounded lists of states and filters, real-valued information", "anchors": ["src/fock_state_circuit/temporal_and_spectral_gate_functionality/column_of_states.py:set_photon_information"]}
{"id": "C128", "title": "A list of projections restricts a photon-resolved measurement to these outcomes", "statement": "measure_interference_group with list_of_projections gives one new group for each measurement result that the listed photon numbers can give; it has the probability (Born rule) of the listed photon numbers with that result, times the probability of the group. Without a list, or with a list that contains all photon numbers of the group, it is the ordinary measurement.", "quantifier": "every interference group, every list of projections, every choice of measured and classical channels", "why_tests_cant": "real-valued delays, widths and amplitudes, any number of columns, photons and channels", "anchors": ["src/fock_state_circuit/temporal_and_spectral_gate_functionality/interference_group.py:measure_interference_group", "src/fock_state_circuit/temporal_and_spectral_gate_functionality/interference_group.py:measure_interference_group_alternative"]}
{"id": "C129", "title": "A measurement removes coherence between results and nothing else", "statement": "The density matrix of a collection after a measurement (for each initial state) is the one before the measurement with all entries between basis states that differ in the measured channels set to 0. So the probabilities of all photon numbers stay the same when the result is not looked at, and the reduced density matrix of channels that are not measured does not change (no signalling).", "quantifier": "every collection of measurable states, every choice of measured channels, every initial state, every pair of basis states", "why_tests_cant": "complex amplitudes, any number of states, channels and photons", "anchors": ["src/fock_state_circuit/circuit.py:evaluate_circuit", "src/fock_state_circuit/collection_of_states.py:density_matrix", "src/fock_state_circuit/nodes/measurement_nodes.py:measure_optical_to_classical"]}
{"id": "C130", "title": "Bar charts show the histogram", "statement": "The chart drawn by plot, plot_correlations and plot_correlations_from_dict has one tick per initial state and, in front of the grey background, one bar for every outcome (or channel combination) of every initial state, with the right height, at most 0.4 from its tick, in the colour which the legend has for the outcome. No two bars cover each other, the legend lists every outcome once, and every colour stands for one outcome.", "quantifier": "every collection, every choice of classical channels, initial states and channel combinations, every dictionary to be plotted, every number of colours", "why_tests_cant": "any number of initial states and outcomes", "anchors": ["src/fock_state_circuit/visualization/plot.py:plot", "src/fock_state_circuit/visualization/plot.py:plot_correlations", "src/fock_state_circuit/visualization/plot.py:plot_correlations_from_dict", "src/fock_state_circuit/popescu_rohrlich_correlation_functionality/popescu_rohrlich_correlations.py:plot_correlations_for_NS_boxes"]}
{"id": "C131", "title": "Optical circuits are linear and keep inner products", "statement": "If the amplitudes of a state are a times those of a first plus b times those of a second state, then so are the amplitudes after evaluating the same optical nodes for all three, up to the amplitudes removed by the threshold (error at most (1+|a|+|b|) times its square root); lossless nodes that remove no amplitude keep the superposition exact and keep every inner product, so orthogonal states stay orthogonal.", "quantifier": "every list of optical nodes, every triple of states, all factors a and b, both settings of use_full_fock_matrix", "why_tests_cant": "all states and all circuits", "anchors": ["src/fock_state_circuit/circuit.py:evaluate_circuit", "src/fock_state_circuit/state.py:inner_product"]}
{"id": "C132", "title": "Only the density matrix matters", "statement": "Two collections with the same density matrix for an initial state, for example different mixtures of states, cannot be told apart: after the same lossless optical nodes (that remove no amplitude) and measurements they have the same density matrix again, and every measured value has the same probability.", "quantifier": "every pair of collections with equal density matrices, all lossless optical nodes, all measurement nodes, circuits made of optical nodes followed by a measurement", "why_tests_cant": "all mixtures, all circuits", "anchors": ["src/fock_state_circuit/collection_of_states.py:density_matrix", "src/fock_state_circuit/circuit.py:evaluate_circuit"]}
{"id": "C133", "title": "Phase factors of states have no observable effect", "statement": "If the states of two collections are equal but for a phase factor (any factor of modulus 1, another one for each state), then evaluating the same circuit, with all kinds of nodes and with bridges to further circuits, gives collections with the same identifiers, initial labels, probabilities, classical values and measurement results, whose components again differ by phase factors only; it raises for both or for neither. Histograms, correlations and density matrices are the same.", "quantifier": "all circuits and compound circuits, all lists of nodes to be evaluated, all pairs of collections that differ by phase factors, all random numbers", "why_tests_cant": "all circuits, all phases", "anchors": ["src/fock_state_circuit/circuit.py:evaluate_circuit", "src/fock_state_circuit/compound_circuit.py:evaluate_circuit", "src/fock_state_circuit/visualization/plot.py:plot", "src/fock_state_circuit/collection_of_states.py:density_matrix"]}
{"id": "C134", "title": "Labels and earlier measurement results are only carried along", "statement": "If two collections differ only in the initial labels of their states and in the measurement results recorded earlier, then evaluating the same circuit, with all kinds of nodes and with bridges to further circuits, gives collections with the same identifiers, probabilities, components and classical values; the labels are those of the states they come from and the same new measurement results follow the earlier ones; it raises for both or for neither. Changing labels before the evaluation is the same as changing them afterwards.", "quantifier": "all circuits and compound circuits, all lists of nodes to be evaluated, all changes of labels and earlier results, all random numbers", "why_tests_cant": "all circuits, all labels, all histories", "anchors": ["src/fock_state_circuit/circuit.py:evaluate_circuit", "src/fock_state_circuit/compound_circuit.py:evaluate_circuit", "src/fock_state_circuit/state.py:State"]}
{"id": "C135", "title": "What is done with some channels does not show in the other channels", "statement": "When a circuit leaves some channels alone (its optical elements and controlled wave plates are given on other channels, its custom nodes (shifts and controlled shifts, for example) act on other channels only, it measures other channels, its classical nodes are arbitrary), the reduced density matrix of these channels, and with it the probability of finding any photon numbers in them, is the same after the evaluation as before, apart from what the threshold removes; so two such circuits, chosen freely or depending on earlier results, cannot be told apart from these channels.", "quantifier": "all circuits and lists of nodes with optical, custom (Fock matrix or function), classical, measurement and controlled nodes away from the channels, all collections, all initial labels, all photon numbers", "why_tests_cant": "all circuits, all states, all sets of channels", "anchors": ["src/fock_state_circuit/circuit.py:evaluate_circuit", "src/fock_state_circuit/circuit.py:_perform_measurement", "src/fock_state_circuit/collection_of_states.py:density_matrix"]}
{"id": "C136", "title": "A column and its states agree on the column parameters", "statement": "In every program that makes columns from states, lists of states or other columns, adds states, assigns parameters, copies, splits, makes single photon states, condenses and sets photon information, handing every State object and list to one column only: every state of a column carries the five parameters of the column, no operation on one column changes what another column shows, assigning, copying, adding and the constructor do exactly what they are documented to do, and splitting, single photon states and condensing act on the objects as on plain values.", "quantifier": "all programs (sequences of operations of any length) on State, list and ColumnOfStates objects, all states, all parameters", "why_tests_cant": "all histories of operations on objects that refer to each other", "anchors": ["src/fock_state_circuit/temporal_and_spectral_gate_functionality/column_of_states.py:ColumnOfStates", "src/fock_state_circuit/temporal_and_spectral_gate_functionality/column_of_states.py:add_state", "src/fock_state_circuit/temporal_and_spectral_gate_functionality/column_of_states.py:copy", "src/fock_state_circuit/temporal_and_spectral_gate_functionality/column_of_states.py:split", "src/fock_state_circuit/temporal_and_spectral_gate_functionality/column_of_states.py:single_photon_states", "src/fock_state_circuit/temporal_and_spectral_gate_functionality/column_of_states.py:condense_column_to_single_state"]}
{"id": "C137", "title": "Changing the shape of a collection leaves State objects taken from it as they were", "statement": "reduce, extend and adjust_length_of_fock_state change the collection in place and give exactly the states (and raise in exactly the cases) that the same operation gives on plain values; every State object or collection that existed before shows the same contents afterwards; and after reduce or extend, changing the collection later (classical nodes) does not change those either.", "quantifier": "all heaps of State and list objects with closed references, all collections, all channel lists, numbers of extra channels, distributions and lengths", "why_tests_cant": "sharing of objects between collections, for every heap", "anchors": ["src/fock_state_circuit/temporal_and_spectral_gate_functionality/column_of_states.py:reduce", "src/fock_state_circuit/temporal_and_spectral_gate_functionality/column_of_states.py:extend", "src/fock_state_circuit/temporal_and_spectral_gate_functionality/column_of_states.py:adjust_length_of_fock_state"]}
{"id": "C138", "title": "The threshold is a small perturbation", "statement": "Evaluating the same nodes from the same collection with different thresholds, with or without use_full_fock_matrix, and divided over calls of evaluate_circuit in different ways gives states in the same order with the same histories and classical values; their amplitudes differ in the Euclidean norm by at most the sum over all calls of the number of nodes times the root of L^C * threshold, outcome probabilities by at most twice that, and there are amplitudes to which all results converge when the threshold goes to 0.", "quantifier": "all circuits of unitary optical nodes, unitary Fock matrices, classical functions and wave plates controlled by classical channels, all thresholds, all divisions into calls, all collections of valid states, all random numbers; measurements and functions on the collection excluded", "why_tests_cant": "errors of many nodes and calls add up; sampling cannot bound them", "anchors": ["src/fock_state_circuit/circuit.py:evaluate_circuit", "src/fock_state_circuit/circuit.py:__apply_node_or_nodes_to_collection"]}
{"id": "C139", "title": "The threshold hardly changes the statistics of measurements", "statement": "Evaluating the same nodes, now including measurements into different classical channels, with different thresholds, with or without use_full_fock_matrix, and divided over calls of evaluate_circuit in different ways changes the probability of no event by more than twice the sum over all calls of the number of nodes times the root of L^C * threshold (for a label whose cumulative probabilities add up to 1). An event is any relation between the values recorded by the measurements and the component found afterwards. States with the same label and record have the same classical values, and the statistics converge when the threshold goes to 0.", "quantifier": "all circuits of unitary optical nodes, unitary Fock matrices, classical functions, wave plates controlled by classical channels and measurements into different classical channels, all thresholds, all divisions into calls, all collections of valid states that differ in label or record, all random numbers, all events", "why_tests_cant": "the number of records grows exponentially with the number of measurements, and branches may disappear with one threshold and not with another", "anchors": ["src/fock_state_circuit/circuit.py:_perform_measurement", "src/fock_state_circuit/circuit.py:evaluate_circuit"]}
{"id": "C140", "title": "Circuits connected by bridges conserve probability", "statement": "Bridging lossless circuits (unitary nodes, measurements, controlled wave plates, classical functions, and functions on the collection that conserve probability themselves), in any way and also in cycles, creates no probability for any initial state, and the states at the end are valid for one of the circuits. With threshold 0 probability is exactly conserved. For a compound circuit in which no circuit has channels that the one before does not have, the loss per initial state is at most the sum over all nodes of all circuits of L^C * threshold, relative to the summed cumulative probability: handing states over loses nothing.", "quantifier": "all numbers of circuits and of nodes, all sizes in which each circuit allows the photon numbers of the one before it and has a classical channel if the one before has one, all thresholds, all collections of valid states, all measurement outcomes", "why_tests_cant": "the number of circuits, nodes and outcome branches has no bound, and reducing, extending and renaming states in a bridge is checked on single examples only", "anchors": ["src/fock_state_circuit/circuit.py:evaluate_circuit", "src/fock_state_circuit/compound_circuit.py:evaluate_circuit", "src/fock_state_circuit/collection_of_states.py:reduce", "src/fock_state_circuit/collection_of_states.py:extend", "src/fock_state_circuit/collection_of_states.py:adjust_length"]}
{"id": "C141", "title": "Coupling to an empty environment", "statement": "When channel_coupling couples control channels to target channels that are empty (each target used once, no channel both control and target), with a strength between 0 and 1, the evaluation of the node raises no exception and conserves probability up to L^C * threshold per state. Each target ends up with a copy of the photon number of its control with probability 'strength' and empty with probability '1 - strength', independently. Seen from the other channels the node is decoherence: every entry of their reduced density matrix between photon numbers u and v is multiplied, for every coupled control channel, by 1 if u and v have the same number there, by the root of 1 - strength if one of the numbers is 0, and by 1 - strength if they are different numbers above 0. So the photon number statistics is not disturbed, strength 0 changes nothing, strength 1 removes all coherence between numbers that differ in a control channel, and the visibility of the interference between one path and another is 1 - strength.", "quantifier": "all sizes, all strengths in [0,1], all lists of control and target channels, all superpositions, all collections of valid states with empty targets, all thresholds (the coherences: when the threshold removed nothing)", "why_tests_cant": "the matrix is checked for single examples only; the effect on all reduced density matrices for all sizes and superpositions is not", "anchors": ["src/fock_state_circuit/nodes/custom_nodes.py:channel_coupling", "src/fock_state_circuit/collection_of_states.py:density_matrix", "src/fock_state_circuit/collection_of_states.py:reduce"]}
{"id": "C142", "title": "The drawing shows the nodes in the order of the evaluation", "statement": "Drawing a circuit, or circuits connected by bridges, gives every node a place, on one of the pages that are prepared beforehand. Of two nodes whose symbols have a line of the drawing in common (a symbol reaches from the first to the last line the node acts on, or down to the lowest line if there is a connection to another station) the one that is evaluated first is drawn further to the left or on an earlier page; a bridge is drawn right of all nodes before it and left of all nodes after it. Two nodes drawn at the same place have at least one free line between them, so that symbols never overlap.", "quantifier": "all numbers of optical and classical channels, all lengths of a page, all sequences of circuits, all nodes on any channels, single or part of a combined gate, with or without connections to other stations", "why_tests_cant": "a drawing is checked by eye for single circuits; that no sequence of nodes leads to a drawing with a wrong order or with overlapping symbols is not tested", "anchors": ["src/fock_state_circuit/visualization/draw.py:draw", "src/fock_state_circuit/visualization/draw.py:_determine_settings_for_drawing_compound_circuit"]}
{"id": "C143", "title": "A circuit drawn by station", "statement": "draw_station draws, for the stations asked for, the circuit as the station sees it: in the order of the circuit exactly the bridges and the nodes that have a channel at the station, each on the right ones of the station's channels (numbered in the order of the station's list). A node names exactly the other stations it is shared with (a measurement: those with which a pair of measured and written channel is divided). Connections are mutual: if a node at one station names another one, it is drawn at that one, names the first one there, and carries the same symbol; different nodes of a circuit carry different symbols.", "quantifier": "all stations with any lists of channels (also overlapping or incomplete ones), all circuits, all nodes", "why_tests_cant": "only the existence of a picture is tested, for two stations", "anchors": ["src/fock_state_circuit/visualization/draw.py:draw_station", "src/fock_state_circuit/visualization/draw.py:_filter_on_station"]}
{"id": "C144", "title": "Labels of the channels in the drawings of the stations", "statement": "Without labels in the settings every channel of a station is labelled with the name of the station and its number there, in the drawing of the station and in the drawing of the total circuit; channels of no station keep the default label; different stations or numbers have different labels. Labels of the user are not changed: each channel of a station has the label the user gave it.", "quantifier": "all numbers of channels, all stations without common channels, all lists of labels", "why_tests_cant": "the settings are not tested at all; that no choice of stations mixes up labels is not", "anchors": ["src/fock_state_circuit/visualization/draw.py:create_settings_for_drawing_stations", "src/fock_state_circuit/visualization/draw.py:draw_station"]}
