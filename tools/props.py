import json
P=[]
def p(title, statement, quant, why, *anchors):
    P.append(dict(id="C%02d"%(len(P)+1), title=title, statement=statement, quantifier=quant, why_tests_cant=why, anchors=list(anchors)))
N="src/fock_state_circuit/nodes/nodelist/optical_values_component_names.py"
NL="src/fock_state_circuit/nodes/nodelist/node_list.py"
CI="src/fock_state_circuit/circuit.py"
ST="src/fock_state_circuit/state.py"
CO="src/fock_state_circuit/collection_of_states.py"
OP="src/fock_state_circuit/nodes/optical_nodes.py"
CU="src/fock_state_circuit/nodes/custom_nodes.py"
CL="src/fock_state_circuit/nodes/classical_nodes.py"
ME="src/fock_state_circuit/nodes/measurement_nodes.py"
CT="src/fock_state_circuit/nodes/controlled_nodes.py"
CP="src/fock_state_circuit/compound_circuit.py"
QO="src/fock_state_circuit/quantum_operator_functionality/quantum_operators.py"
QN="src/fock_state_circuit/nodes/quantum_operator_nodes.py"
PL="src/fock_state_circuit/visualization/plot.py"
DR="src/fock_state_circuit/visualization/draw.py"
TF="src/fock_state_circuit/temporal_and_spectral_gate_functionality/temporal_functions.py"
CS="src/fock_state_circuit/temporal_and_spectral_gate_functionality/column_of_states.py"
IG="src/fock_state_circuit/temporal_and_spectral_gate_functionality/interference_group.py"
CC="src/fock_state_circuit/temporal_and_spectral_gate_functionality/collection_of_state_columns.py"

p("Component names and photon numbers translate back and forth without loss",
  "For every circuit, translating a valid list of photon numbers to its component name and that name back to photon numbers returns the original list, and every component name built that way translates back to itself.",
  "every length_of_fock_state >= 1 (any number of decimal digits per channel), every number of optical channels, both notations (channel 0 left or right), every list of photon numbers below the length",
  "the number of digits per channel and the number of channels are unbounded; tests use one- or two-digit examples",
  N+":ComponentNames.__getitem__", N+":OpticalValues.__getitem__")
p("Different photon-number lists never share a component name",
  "Two different valid photon-number lists of the same circuit have different component names, and all names of a circuit have the same length (digits per channel times number of channels).",
  "every circuit configuration and every pair of valid photon-number lists",
  "a collision would silently merge two amplitudes; absence of collisions is a statement about all pairs",
  N+":OpticalValues.__getitem__", N+":ComponentNames.at_index")
p("Basis index and photon numbers are in one-to-one correspondence",
  "index_of and at_index are inverse bijections between the valid photon-number lists and the integers 0 .. length**channels - 1, channel 0 being least significant, and the index of a state does not depend on the notation used for names.",
  "every configuration, every index below length**channels, every valid photon-number list",
  "size of basis is unbounded", N+":index_of", N+":at_index", N+":_values_from_index")
p("Name lookups do not depend on what was looked up before",
  "After any sequence of lookups, membership tests and enumerations on a circuit's name tables, asking for the photon numbers of a name gives the same answer as on a freshly created circuit; and asking for the name of a valid photon-number list gives its standard name, provided only full-width names were ever looked up. Without the proviso the second half fails (a short name such as '011' is remembered).",
  "every finite history of lookup, membership and enumeration operations, every configuration",
  "the caches are shared mutable dictionaries; transparency is a statement about all histories",
  N+":ComponentNames.__getitem__", N+":OpticalValues.__getitem__", N+":__iter__")
p("Enumerating the basis always gives the standard order",
  "Enumerating the valid component names or photon-number lists of a circuit gives all of them exactly once, in increasing index order, whatever was looked up before.",
  "every finite history of lookups before the enumeration, every configuration",
  "depends on the unbounded history of lookups made on the shared caches",
  N+":OpticalValues.__iter__", N+":ComponentNames.__iter__", N+":keys", CI+":__generate_single_node_fock_matrix_from_optical_matrix")
p("Membership test accepts exactly the standard names",
  "'name in names' is true exactly for the standard names of the valid photon-number lists of the circuit.",
  "every configuration and every string of decimal digits",
  "strings are unbounded", N+":ComponentNames.__contains__", N+":OpticalValues.__contains__")
p("Two-channel gates act on the two channels they were given",
  "For two different channel numbers the tensor list built for a gate is a permutation of all channels whose first entry is the first given channel and whose second entry is the second given channel; equal channels are refused.",
  "every number of channels, every ordered pair of valid channel numbers",
  "the number of channels and the pair are unbounded", NL+":_translate_channels_numbers_to_tensor_list")
p("Optical gates conserve the photon number",
  "The Fock-state transition matrix of an optical gate has a zero entry between any two basis states with different total photon number.",
  "every 2x2 optical matrix (unitary or not), every length, number of channels and pair of channels, every pair of basis states",
  "the matrix entries range over the complex numbers and the basis is unbounded",
  CI+":__generate_single_node_fock_matrix_from_optical_matrix")
p("A unitary optical matrix gives a unitary Fock-state matrix",
  "If the 2x2 optical matrix is unitary then the generated transition matrix on the complete Fock basis is unitary.",
  "every unitary 2x2 complex matrix, every length, every number of channels >= 2, every tensor list that is a permutation",
  "tests check a handful of angles with rounding; unitarity is an identity over all matrices and cutoffs",
  CI+":__generate_single_node_fock_matrix_from_optical_matrix")
p("Photon numbers above the cutoff pass through unchanged",
  "If the two addressed channels together hold at least length_of_fock_state photons, the gate leaves that basis state exactly as it is and no other basis state leads to it.",
  "every optical matrix, length and basis state",
  "all inputs above the cutoff", CI+":__generate_single_node_fock_matrix_from_optical_matrix")
p("Vacuum and single-photon action of a gate",
  "A gate maps the vacuum of its two channels to itself, and a single photon entering one of its two channels leaves with the amplitudes given by the corresponding row or column of the optical matrix.",
  "every 2x2 complex matrix, every length >= 2",
  "all complex matrices", CI+":__generate_single_node_fock_matrix_from_optical_matrix")
p("Successive gates on the same channels compose like their optical matrices",
  "Applying two gates on the same two channels one after the other gives the same transition matrix as the single gate whose optical matrix is the product; the identity optical matrix gives the identity.",
  "every pair of 2x2 complex matrices, every length, number of channels and channel pair",
  "a polynomial identity of unbounded degree (one per photon number)", CI+":__generate_single_node_fock_matrix_from_optical_matrix", CI+":__generate_fock_state_matrix")
p("Spectator channels are untouched by a gate",
  "A gate on two channels connects only basis states that agree on all other channels, and the transition amplitude depends only on the photon numbers in its two channels.",
  "every optical matrix, every number of channels, every pair of basis states",
  "unbounded number of channels", CI+":__generate_single_node_fock_matrix_from_optical_matrix")
p("use_full_fock_matrix does not change results",
  "Evaluating optical nodes with the reduced Fock matrix (grouped by photon number) gives every state the same output vector as with the full Fock matrix.",
  "every list of optical nodes, every state vector consistent with its photon-number group",
  "the reduction is an optimisation whose correctness is an equivalence over all states and circuits",
  CI+":__apply_node_or_nodes_to_collection", CI+":__generate_fock_state_matrix", CO+":_group_states_together_by_photon_number", ST+":photon_number")
p("Evaluating optical nodes together equals evaluating them one by one",
  "The combined matrix of consecutive optical nodes applied to a state vector gives the same vector as applying each node's matrix in the listed order.",
  "every list of optical nodes of any length and every state vector",
  "list length unbounded; order of the matrix products matters", CI+":__generate_fock_state_matrix", CI+":evaluate_circuit")
p("Optical gates preserve total probability of a state",
  "Applying gates with unitary optical matrices leaves the sum of squared amplitudes of a state unchanged (as long as no component is pruned by the threshold).",
  "every list of unitary gates, every state vector",
  "all states and angles", CI+":__apply_node_or_nodes_to_collection", ST+":set_state_components_from_vector")
p("Wave-plate matrices are unitary and symmetric for every angle",
  "The optical matrix generated for rotation theta and phase phi is unitary and symmetric, is the identity for phi = 0, is its own inverse for phi = pi, and phases add up for equal theta.",
  "all real angles theta, phi", "continuum of angles", OP+":_generate_generic_optical_matrix")
p("Swap exchanges the photon numbers of two channels",
  "A swap gate maps each basis state to the basis state with the photon numbers of the two channels exchanged, with amplitude exactly 1.",
  "every length, number of channels, channel pair, basis state",
  "all photon numbers, in particular those above the cutoff", OP+":swap", OP+":polarizing_beamsplitter")
p("Phase shift multiplies by exp(i n phi)",
  "phase_shift_single_channel multiplies the amplitude of a basis state with n photons in the channel by exp(i*n*phi) and changes nothing else, whatever the other channels hold.",
  "every angle, channel, and basis state",
  "all basis states, in particular those where another channel is populated", OP+":phase_shift_single_channel")
p("50/50 mixing: equal split and photon bunching",
  "mix_50_50 sends a single photon to either channel with probability exactly 1/2, and two photons entering in different channels never leave in different channels (Hong-Ou-Mandel).",
  "every length >= 2 (>= 3 for two photons), every channel pair",
  "exact cancellation is not visible with rounding", OP+":mix_50_50")
p("mix_generic_refl_transm realises the requested reflection",
  "With reflection r and transmission t = 1 - r, a single photon is reflected to the other channel with probability r and transmitted with probability t.",
  "every r between 0 and 1",
  "continuum of coefficients", OP+":mix_generic_refl_transm", OP+":non_polarizing_beamsplitter")
p("State to vector and back is lossless",
  "Translating the optical components of a state to a vector in the standard basis and back gives the same amplitude for every component with non-zero amplitude at or above the pruning threshold, and nothing else.",
  "every state, every configuration, every threshold",
  "all states", ST+":translate_state_components_to_vector", ST+":set_state_components_from_vector")
p("Duplicate components given as a list add up",
  "Setting optical_components from a list of (name, amplitude) pairs gives each name the sum of the amplitudes listed for it and its squared modulus as probability; the total amplitude does not depend on the order of the list.",
  "every list of pairs with valid names", "lists are unbounded and duplicates may be anywhere", ST+":optical_components")
p("Inner product is the Hermitian inner product of the state vectors",
  "state.inner(other) equals the sum over the basis of conjugate(a)*b; swapping the arguments conjugates it, it is linear in the second argument, and the inner product of a state with itself is the sum of its probabilities.",
  "every pair of states", "all states", ST+":inner", ST+":outer")
p("Measurement conserves probability",
  "The cumulative probabilities of the states produced by measuring a normalised state add up to the cumulative probability of that state.",
  "every state, every list of measured channels",
  "all states and all channel selections", CI+":_perform_measurement")
p("Collapsed states are normalised and match the outcome",
  "Every state produced by a measurement is normalised, contains exactly the components of the input with the measured photon numbers equal to the outcome, and keeps their relative amplitudes; there is exactly one produced state per outcome that occurs in the input.",
  "every state without zero-probability outcomes, every list of measured channels", "all states", CI+":_perform_measurement")
p("Measured values are written to the requested classical channels and nowhere else",
  "After a measurement classical channel classical_channels[i] holds the photon number of optical channel optical_channels[i] for distinct target channels, and all other classical channels keep their values.",
  "every state, every pair of channel lists", "unbounded lists", CI+":_perform_measurement", ME+":measure_optical_to_classical")
p("Measuring again gives the same result with certainty",
  "Measuring the same channels of a collapsed state again yields exactly one state, with the same components, the same classical values and unchanged cumulative probability.",
  "every state and list of measured channels", "all states", CI+":_perform_measurement")
p("No state is lost when measurement outcomes are collected",
  "The identifiers given to the outcomes of a measurement node are pairwise different, so the output collection has one entry per (state, outcome).",
  "every collection whose identifiers are pairwise different, any number of outcomes (beyond 26)",
  "identifier generation runs over unbounded numbers of outcomes", CI+":__next_state_marker", CI+":__get_identifier_for_measurement", CI+":evaluate_circuit")
p("Recorded measurement results never change",
  "The measurement history stored in a state keeps the classical values as they were at the measurement, whatever nodes are evaluated later.",
  "every sequence of later operations", "aliasing between the stored list and the live list depends on the history", CI+":_perform_measurement", CL+":set_classical_channels", ST+":copy")
p("evaluate_circuit evaluates all listed nodes in the listed order",
  "evaluate_circuit(nodes_to_be_evaluated = list) gives the collection obtained by applying each listed node once, in the order of the list.",
  "every circuit without bridges and every list of valid node indices",
  "lists are unbounded; repeated and unsorted lists behave differently", CI+":evaluate_circuit")
p("Evaluating a circuit does not modify the input collection",
  "The collection passed to evaluate_circuit still has the same states after the evaluation.",
  "every circuit and input collection", "aliasing and in-place updates depend on node sequence", CI+":evaluate_circuit", CO+":copy", ST+":copy")
p("add_state without identifier never overwrites a state",
  "Adding a state without an identifier enlarges the collection by exactly one and leaves all other entries unchanged, whatever the random generator returns; with an explicit identifier only that entry changes.",
  "every collection and every stream of random identifiers", "collisions of random identifiers are too rare for tests", CO+":add_state")
p("Statistical mixture keeps all states with the right weights",
  "set_collection_as_statistical_mixture stores every (state, probability) pair of the list, with the probability as cumulative probability.",
  "every list of pairs and every stream of random identifiers", "random collisions", CO+":set_collection_as_statistical_mixture")
p("Filters keep exactly the matching states",
  "filter_on_initial_state, filter_on_identifier and filter_on_classical_channel keep exactly the states that satisfy the criterion, with identifiers, order and content unchanged; filtering twice is the same as filtering once; delete_state removes exactly the named state.",
  "every collection and criterion", "all collections", CO+":filter_on_initial_state", CO+":filter_on_identifier", CO+":filter_on_classical_channel", CO+":delete_state")
p("The default collection has one state per basis state",
  "A collection created without input has length**channels states with pairwise different identifiers, one for each basis state, each with amplitude 1, probability 1 and classical values 0.",
  "every configuration", "basis size unbounded", CO+":initialize_to_default")
p("Density matrices are Hermitian, positive, with trace equal to total probability",
  "For each initial state the density matrix of a collection is Hermitian and positive semidefinite, and its trace equals the sum of cumulative probabilities when states are normalised.",
  "every collection", "all collections", CO+":density_matrix", ST+":outer")
p("reduce is the partial trace",
  "Keeping a subset of the optical channels turns the density matrix of the collection into its partial trace over the dropped channels; total probability is conserved.",
  "every collection of normalised states, every list of kept channels", "all collections and channel subsets", CO+":reduce")
p("extend adds channels as a tensor product",
  "Extending a collection by optical channels with a statistical distribution multiplies amplitudes and probabilities; with the default (vacuum) extension, reducing again to the original channels restores each state.",
  "every collection and distribution", "all collections", CO+":extend", CO+":reduce", ST+":tensor")
p("Adjusting the Fock length keeps all components that fit",
  "adjust_length_of_fock_state to a new length larger than every photon number present keeps all amplitudes; otherwise photon numbers wrap modulo the new length and amplitudes can be lost.",
  "every collection and new length", "all lengths including digit-count changes", CO+":adjust_length_of_fock_state")
p("clean_up conserves probability of the states it merges",
  "Removing duplicates from a collection leaves the total cumulative probability per distinct state unchanged, apart from states below the threshold.",
  "every collection and threshold", "similarity is not symmetric in the code; only all-pairs reasoning shows what is merged", CO+":clean_up", ST+":_identical_optical_components")
p("Shift nodes are permutations of the basis",
  "shift maps each basis state to the basis state where each target channel's photon number is increased by its shift modulo the length; the matrix is a permutation matrix, opposite shifts undo each other, and the two constructions offered (shift, shift_direct) agree.",
  "every length, channel list, shift list", "all basis states", CU+":shift", CU+":shift_direct")
p("Controlled shifts: the two constructions agree",
  "c_shift and c_shift_direct produce the same transition matrix for the same channel lists, a permutation matrix that adds the control photon number to the target photon number modulo the length.",
  "every list of control and target channels", "lists of pairs are unbounded and order matters", CU+":c_shift", CU+":c_shift_direct")
p("set_classical_channels writes exactly the given values",
  "After the node each listed classical channel holds the value listed for it (the last one if a channel is listed twice), all others are unchanged; invalid channel lists are refused when the node is built.",
  "every list of values and channels", "unbounded lists", CL+":set_classical_channels")
p("Controlled gates use each state's own classical values and reject invalid channels",
  "A classically controlled gate applies to each state the optical matrix given by that state's classical channel values; building it with a non-existing classical channel raises an exception.",
  "every collection and channel", "off-by-one at the boundary channel", CT+":wave_plate_classical_control", CT+":phase_shift_single_channel_classical_control", CI+":evaluate_circuit")
p("A compound circuit is the composition of its circuits",
  "Evaluating a compound circuit gives the same as evaluating the circuits one after the other with reshaping in between, and building it leaves the given circuits unchanged.",
  "every list of circuits", "lists unbounded", CP+":refresh", CP+":evaluate_circuit", CI+":evaluate_circuit")
p("Nodes after a bridge",
  "Nodes placed after a bridge node in the same circuit are evaluated too.",
  "every circuit with a bridge", "depends on node position", CI+":evaluate_circuit")
p("Histogram bars add up to the total probability",
  "For each initial state the bars of the histogram of measurement outcomes add up to the summed cumulative probability of the states with that initial state, and every outcome (tuple of classical values) has its own bar with the summed probability of that outcome.",
  "every collection", "all collections", PL+":plot", PL+":_create_state_name_from_list_of_photon_numbers")
p("Correlations lie between -1 and 1",
  "Each correlation computed from a collection lies in [-1, 1] and equals the probability that the two classical channels have equal values minus the probability that they differ.",
  "every collection", "all collections", PL+":_correlation_from_collection")
p("Photon overlap probability",
  "The interference probability of two photons is symmetric, lies in (0, 1], and equals 1 exactly when the delays coincide; photons without timing information overlap fully; shifting both photons in time changes nothing; the overlap probability used by the quick time delay is the squared overlap of two such photons.",
  "all real delays and positive widths", "continuum", TF+":photon_probability_function", TF+":add_quick_time_delay_generic")
p("Photon-resolved measurement distinguishes all outcomes",
  "Two different tuples of measured photon numbers are reported as different outcomes by the photon-resolved measurement.",
  "every pair of outcome tuples of the same length", "outcome labels are concatenated strings of unbounded length", IG+":measure_interference_group_alternative")
p("Quantum operators have the right matrix elements",
  "Creation and annihilation operators on the limited basis have the matrix elements sqrt(n+1) and sqrt(n); they are each other's adjoint.",
  "every basis state and channel", "basis unbounded", QO+":_generate_limited_matrix", QO+":_generate_limited_basis")
p("Splitting and condensing photon columns is lossless",
  "Decomposing a photon-number component into single-photon states and condensing again restores the component and its amplitude (the bosonic factors cancel); splitting a column into components preserves each amplitude.",
  "every component", "photon numbers unbounded", CS+":single_photon_states", CS+":condense_column_to_single_state", IG+":split_columns")
p("A custom optical matrix acts on the fields of its channels",
  "custom_optical_node applies its 2x2 matrix to the electric fields: a single photon with amplitudes (x, y) in the two channels leaves with amplitudes M (x, y); in particular a photon entering the first channel leaves through the second with amplitude M[1][0].",
  "every 2x2 matrix, length >= 2, channel pair and superposition", "all matrices; the built-in elements are symmetric, so tests with them cannot see a transposition", "src/fock_state_circuit/nodes/custom_nodes.py:custom_optical_node", "src/fock_state_circuit/circuit.py:__generate_single_node_fock_matrix_from_optical_matrix", "src/fock_state_circuit/circuit.py:__apply_node_or_nodes_to_collection")
p("Tensor product of states",
  "state.tensor(other) gives, for every pair of components, the concatenated photon numbers with the product of the amplitudes; probabilities multiply; passing a state, a dictionary or a list of its components gives the same result.",
  "every pair of valid states (lengths and notations may differ)", "all superpositions, lengths and notations", "src/fock_state_circuit/state.py:tensor")
p("Channel coupling conserves probability",
  "channel_coupling with a strength between 0 and 1 keeps the total probability of every state; with strength 0 it does nothing and with strength 1 it is the controlled shift c_shift.",
  "every strength in [0, 1], list of channel pairs and state", "all superpositions; single basis states, which tests use, do not show the defect", CU+":channel_coupling")
p("A copy of a collection is independent",
  "Copying a collection gives a collection with the same contents; changing the copy does not change the original (as the documentation promises), and changing the original does not change the copy.",
  "every collection, with any history and any sharing of list objects", "depends on object identity after arbitrary histories", CO+":copy", ST+":copy", CI+":_perform_measurement")
QN="src/fock_state_circuit/nodes/quantum_operator_nodes.py"
p("Hamiltonians of a quantum operator are applied in list order",
  "QuantumOperator([A, B, C]) applied to a state applies exp(A) first, then exp(B), then exp(C) (documented: index 0 first, the operator is CBA).",
  "every list of Hamiltonians and state", "all non-commuting combinations; tests use commuting or symmetric ones", QO+":_combine_operators", QO+":apply_operator_to_state")
p("A quantum operator gate acts linearly on the given channels only",
  "Applying a quantum operator to channels ch maps every state linearly: the amplitude of an output component is the sum over the basis states of ch of matrix element times old amplitude; the photon numbers of the other channels do not change. (Matrix elements that round to a probability not above the threshold are dropped.)",
  "every matrix, state, list of distinct channels", "all superpositions and matrices", QO+":apply_operator_to_state", QN+":hamiltonian_operator_gate")
p("Photon-number conserving Hamiltonians conserve the photon number",
  "If every term of every Hamiltonian has as many creation as annihilation operators, every component of the output has the photon number of some component of the input.",
  "every list of such Hamiltonians, every truncation of the exponential, state and channels", "all Hamiltonians and states", QO+":_generate_limited_matrix", QO+":_exponentiaze", QO+":apply_operator_to_state")
p("The quantum operator of an anti-Hermitian Hamiltonian is unitary",
  "QuantumOperator is the unitary transformation exp(H): for an anti-Hermitian H the matrix applied to the states is unitary.",
  "every anti-Hermitian Hamiltonian", "all coupling strengths; tests use small ones", QO+":_exponentiaze", QN+":hamiltonian_operator_gate")
p("Every Hamiltonian acts on its own operator channels",
  "In a QuantumOperator with several Hamiltonians each one acts on the operator channels it was created with.",
  "every list of Hamiltonians", "all combinations of operator channels", QO+":__post_init__")
p("Photon-resolved detection probability",
  "The probability to detect given photon numbers in a photon-resolved measurement is the sum over all pairs of columns with these photon numbers of conj(a_ket) a_bra / (b_ket b_bra) times the permanent of the matrix of overlaps of their photons (0 in different channels).",
  "every list of columns, any number of photons with arbitrary delays and widths", "number of photons and assignments unbounded", IG+":_calculate_probability_for_this_projection_for_these_state_columns", IG+":_valid_combinations")
p("Identical photons give Born probabilities",
  "If all photons overlap fully, the photon-resolved measurement has the outcomes and probabilities of the ordinary measurement.",
  "every normalised state and list of measured channels", "all states; tests compare a few circuits", IG+":measure_interference_group_alternative", IG+":_probability_column_list")
p("Repeating a photon-resolved measurement confirms the outcome",
  "After a photon-resolved measurement, measuring the same channels again gives the same outcome with probability 1 in each group.",
  "every measurable group, channels", "all states; tests do not repeat measurements on partially overlapping photons", IG+":rescale_column_amplitudes", IG+":rescale_boson_factors")
p("Photon-resolved measurement: one group per outcome, results recorded once",
  "A photon-resolved measurement of a group gives exactly one new group per outcome that occurs, containing the columns with this outcome; its probability is multiplied by the detection probability; the outcome is written to the classical channels, and one entry is added to the measurement history.",
  "every measurable group, list of channels", "all groups and channel lists", IG+":measure_interference_group_alternative")
SN="src/fock_state_circuit/nodes/spectral_nodes.py"
CC2="src/fock_state_circuit/temporal_and_spectral_gate_functionality/collection_of_state_columns.py"
p("Interference groups survive storage in a collection",
  "Interference groups of columns written to a collection (with their identifiers in the auxiliary information of the states) are read back as exactly the same groups: same columns in the same order, same amplitudes, factors, probabilities and photon information. A state without photon information becomes a group of its own.",
  "every set of groups with distinct identifiers, any number of columns and states", "all collections and histories of nodes", CC2+":__init__", CC2+":by_state", IG+":add_state")
p("The full time delay delays exactly the photons in the given channels, and delays add",
  "time_delay_full changes the timing of the photons in the given channels by the given delay (or the value of the classical channel) and nothing else; two delays act as one with the sum; opposite delays cancel; a delay common to all channels changes no detection probability.",
  "every collection, channel list and real delays", "all collections, delays are real numbers", TF+":add_time_delay_generic", SN+":time_delay_full")
p("Setting the pulse width",
  "set_pulse_width sets the width of the photons in the given channels, keeps delays and other photons, and leaves a collection that later nodes can use.",
  "every collection, channel list and width", "all collections", TF+":set_pulse_width", SN+":set_pulse_width")
p("The quick time delay splits every group into an overlapping and a separated part",
  "time_delay replaces every interference group by two groups: one with the overlap probability exp(-ln 2 (t/w)^2) and equal timing, one with the remaining probability in which every state is split into the delayed and the other photons; probabilities of the two add up to that of the group, photon numbers of the two parts of a state add up to those of the state, amplitudes, classical values and history are kept.",
  "every collection, channel list, delay and pulse width", "all collections, delays are real numbers", TF+":add_quick_time_delay_generic", SN+":time_delay")
PRC="src/fock_state_circuit/popescu_rohrlich_correlation_functionality/popescu_rohrlich_correlations.py"
PPA="src/fock_state_circuit/popescu_rohrlich_correlation_functionality/popescu_rohrlich_photon_pair_amplitude_functionality.py"
SQ="src/fock_state_circuit/nodes/superquantum_nodes.py"
p("The Popescu-Rohrlich gate prepares every combination of polarizations",
  "For n photon pairs the gate replaces each state by 4^n valid normalised states with the same label: one for every combination of polarizations HH, HV, VH, VV of the pairs, each with probability (1/2)^n, photon numbers written into the channels of the pairs, all other channels, classical values and history as before.",
  "every collection, number of pairs, channels, quantumness", "number of pairs and states unbounded", PRC+":execute_popescu_rohrlich_gate", PRC+":_create_collection_with_popescu_rohrlich_correlations", SQ+":popescu_rohrlich_correlation_gate")
p("Outcome probabilities of Popescu-Rohrlich pairs",
  "If both photons of each pair only go through their own polarization optics, the probability of an outcome is the probability of the original state times, for each pair, (1 + E)/4 with E = sign(x)|x|^(1/K), x = cosine of the angle between the polarizations (on the Poincare sphere) onto which the two photons are projected and K the quantumness.",
  "every number of pairs, unitary optics per photon, K > 0, any superposition in the other channels", "all unitary optics and real K", PRC+":_measure_collection_with_pr_correlation", PRC+":_probability_from_stokes_vectors", PPA+":stokes_vector_from_amplitudes")
p("Outcome probabilities of Popescu-Rohrlich pairs add up to 1",
  "The probabilities of all outcomes of a measurement of a set of Popescu-Rohrlich states add up to the probability of the state the pairs were added to.",
  "every set of states made by the gate, every optics in between", "all circuits", PRC+":_measure_collection_with_pr_correlation")
p("Popescu-Rohrlich pairs do not signal",
  "The probabilities of the outcomes for the first photons do not depend on the optics the second photons went through, or on the quantumness, and vice versa.",
  "every number of pairs, unitary optics, K > 0", "all unitary optics", PRC+":_measure_collection_with_pr_correlation")
p("Quantumness 1 gives regular entanglement",
  "Pairs with quantumness indicator 1 give the outcome probabilities of regular entangled photons ('1010' + '0101')/sqrt 2 in the same circuit.",
  "all unitary polarization optics", "all optics; tests use linear polarizers", PRC+":_probability_from_stokes_vectors")
p("CHSH strength of Popescu-Rohrlich pairs",
  "The correlation read from the outcomes is E = sign(x)|x|^(1/K) with x = 2 overlap - 1. The CHSH combination never exceeds 4; for K = 1 it never exceeds 2 sqrt 2; for the standard settings it is 4 (1/sqrt 2)^(1/K), above 2 sqrt 2 exactly for K > 1 and tending to 4 for large K.",
  "all measurement settings, K > 0", "real settings and K", PRC+":_probability_from_stokes_vectors", PRC+":correlations_from_measured_collection_with_NS_boxes")
p("Entanglement between Popescu-Rohrlich pairs is detected",
  "Measuring raises an error exactly if the optics entangled different pairs with each other; pairs that are only entangled internally are accepted.",
  "every number of pairs, every set of amplitudes", "all circuits", PRC+":_measure_collection_with_pr_correlation", PPA+":is_dict_factorable", PPA+":are_all_photon_pairs_factorable")
p("Result of a measurement with Popescu-Rohrlich pairs",
  "The measurement handles every set of states on its own and gives one state per outcome: the outcome with amplitude 1, the listed probability, the label of the original state, photon numbers copied to the classical channels, one history entry added, and no correlation information left.",
  "every collection with such states, channel lists", "all collections", PRC+":perform_measurement_popescu_rohrlich_correlation", SQ+":perform_measurement_pr_correlation")
p("Measuring Popescu-Rohrlich pairs leaves the argument unchanged",
  "perform_measurement_popescu_rohrlich_correlation does not change the collection it is given, so it can be measured again.",
  "every collection", "aliasing; tests use the returned collection only", PRC+":perform_measurement_popescu_rohrlich_correlation")
p("Evaluating a circuit conserves probability",
  "For every initial state, the probability carried by the states started from it (cumulative probability times squared norm) does not grow during the evaluation of a circuit of unitary optical nodes, unitary Fock matrices, classical functions, controlled wave plates and measurements, and falls by at most (length of the photon number basis)^(number of optical channels) times the threshold per node and state; with threshold 0 it is exactly conserved. The result consists of valid states with different identifiers.",
  "every circuit without bridges, every node list, every collection of valid states", "all circuits, all collections, all thresholds", CI+":evaluate_circuit", CI+":_perform_measurement", ME, CT)
p("Circuits whose nodes fit evaluate without exceptions",
  "A circuit in which every node refers to existing channels, Fock matrices have the right size and classical functions return one value per classical channel evaluates without an exception on every collection of valid normalised states.",
  "every circuit, every collection", "all circuits, all collections: an intermediate state may lose all its components", CI+":evaluate_circuit", ST+":outcomes", CO+":add_state")
p("The Fock matrix shown for a circuit is the one its evaluation applies",
  "get_fock_state_matrix for a selection of nodes returns the matrix by which evaluating these nodes multiplies the amplitudes of every state (amplitudes below the threshold left out, everything else unchanged), in any order and with repetitions; it is unitary if the optical matrices are, and every selection that is not a single custom matrix or a non-empty list of optical nodes is refused.",
  "every circuit, every list of nodes or 'all', every collection of valid normalised states", "all circuits, all node lists, all amplitudes", CI+":get_fock_state_matrix", CI+":__generate_fock_state_matrix", CI+":evaluate_circuit")
p("A wave plate from Hamiltonians equals the optical wave plate",
  "wave_plate_from_hamiltonian(theta, phi) has the same effect as wave_plate(theta, phi) on every state (the comment in the code: identical outcome, for consistency in the package).",
  "every theta, phi, length of the photon number basis and photon numbers", "real angles; tests use single photons and a few angles", QN+":wave_plate_from_hamiltonian", OP+":wave_plate", QO+":QuantumOperator")
p("Hamiltonians quadratic in the ladder operators are linear optics",
  "A quantum operator gate for the Hamiltonian sum X_ab a_a^+ a_b on two channels acts like the optical node whose matrix is the transpose of exp(X); a beam splitter can be built this way.",
  "every 2x2 matrix of coefficients, every photon numbers", "all complex coefficients, all photon numbers", QO+":QuantumOperator", QN+":hamiltonian_operator_gate")
p("Operator nodes treat every state of the collection on its own",
  "An operator node on existing different channels evaluates without an exception, keeps number and order of the states, their labels, classical values, measurement results and probabilities, and gives them different identifiers; the classically controlled wave plate uses the angles in the classical channels of each state; channels that do not exist are refused when the node is added.",
  "every collection, operator and choice of channels", "all collections", QN+":hamiltonian_operator_gate", QN+":wave_plate_from_hamiltonian_classical_control", QO+":apply_operator_to_collection")
p("A whole experiment with Popescu-Rohrlich pairs",
  "Adding pairs to a state, sending the photons of the pairs through any optical elements (and other elements acting on the other channels) and measuring never raises, and lists every outcome with the probability of the original state times the squared amplitude of the other channels times (1 + correlation)/4 for every pair, the correlation being that of the polarizations the elements select; the probabilities of the resulting states add up to the probability of the original state.",
  "every number of pairs, every list of unitary elements each on one photon or outside the pairs, every normalised state whose components differ outside the pairs", "all circuits, all matrices", PRC+":execute_popescu_rohrlich_gate", PRC+":perform_measurement_popescu_rohrlich_correlation", CI+":evaluate_circuit")
p("Every circuit of a compound circuit works with its own settings",
  "In circuits connected by bridges (a compound circuit) every circuit works with its own naming convention, number of classical channels, length of the photon number basis and threshold: the result is that of the circuits evaluated one after the other, each with its own settings, with the reshaping for the bridge in between.",
  "every list of circuits, every collection", "all circuits and settings; settings are kept three times (circuit, collection, states)", CI+":evaluate_circuit", CP+":evaluate_circuit", CO+":copy", CO+":adjust_length_of_fock_state")
p("A bridge hands over the states",
  "A bridge keeps photon numbers and classical values of the channels both circuits have, empties new channels, and splits a state according to the photon numbers of the channels the next circuit does not have: for every choice of these with non-zero probability exactly the corresponding part arrives, normalised, with the probability multiplied in; the probability per initial state is conserved.",
  "every pair of circuits, every collection of valid normalised states", "all circuits, all states", CI+":evaluate_circuit", CO+":reduce", CO+":extend", CO+":adjust_length_of_fock_state")
p("create_no_signalling_boxes ignores what was before it",
  "The (deprecated) node create_no_signalling_boxes creates states with photon pairs regardless of the collection it receives (documentation: any node before it has no effect) under the initial label 'no_signalling_boxes'.",
  "every collection, number of pairs, channels", "all collections", SQ+":create_no_signalling_boxes")
p("A collection checks its states",
  "bool(collection) and the constructor accept exactly the dictionaries whose identifiers are strings and whose values are valid states; anything else is reported as invalid.",
  "every dictionary, any keys and values", "all dictionaries; boolean combination of three conditions", CO+":__check_valid_dictionary", CO+":__bool__", CO+":collection_from_dict", CO+":__init__")
p("Creating a state from a dictionary",
  "State(...) takes the given entries and the vacuum defaults for the others, and accepts exactly dictionaries that describe a state of the circuit: known component names, probabilities matching the amplitudes, normalised, one value per classical channel.",
  "every dictionary, every circuit size", "all dictionaries", ST+":__init__", ST+":_check_valid_state", ST+":create_initialized_state")
p("Photon number of a state",
  "photon_number() gives the largest number of photons among the components and whether all have it; int(state) and comparisons with numbers and states use the first.",
  "every state with at least one component", "all states", ST+":photon_number", ST+":__eq__", ST+":__int__")
p("Correlations from outcomes of no-signalling boxes",
  "For every pair of channels the correlation is P(equal) - P(different) divided by the total probability, so it lies between -1 and 1.",
  "every list of outcomes, every pair of channels", "all outcome lists", PRC+":correlations_from_measured_collection_with_NS_boxes")
p("A compound circuit evaluates what it listed at the last refresh",
  "A compound circuit evaluates exactly the circuits in its list, with the nodes they had, at the moment of its creation or last refresh, connected by bridges; later changes of circuits, lists or other compound circuits do not matter until the next refresh. Creating, refreshing, clearing and evaluating change no circuit and no list. After clear, and for an empty list, the evaluation raises.",
  "every history of creating and changing circuits, lists and compound circuits", "unbounded histories, shared lists and circuits", CP+":CompoundFockStateCircuit.refresh", CP+":CompoundFockStateCircuit.__init__", CP+":CompoundFockStateCircuit.evaluate_circuit", CP+":CompoundFockStateCircuit.clear")
p("A compound circuit without arguments is empty",
  "CompoundFockStateCircuit() starts with an empty list of circuits of its own, whatever was done with other compound circuits.",
  "every history", "mutable default argument; depends on history", CP+":CompoundFockStateCircuit.__init__")
p("Evaluation without an input collection",
  "evaluate_circuit() without a collection evaluates the collection of all basis states; for optical nodes the resulting states list the columns of get_fock_state_matrix under the name of the basis state.",
  "every circuit, every node list", "all circuits", CI+":evaluate_circuit", CO+":initialize_to_default")
p("Spectral nodes leave the given collection unchanged",
  "Evaluating a circuit that starts with a time delay, a pulse width or a photon-resolved measurement does not change the states of the collection it is given, so evaluating it again gives the same result.",
  "every collection, every number of components", "aliasing; tests use the returned collection only", CC2+":CollectionOfStateColumns.__init__", CS+":split", TF+":add_time_delay_generic", TF+":set_pulse_width")
p("Indexing and iterating a collection",
  "collection[i] gives the state with identifier i, for an integer that is no identifier the state at that position (negative: from the end, IndexError outside); iterating over a collection gives every state once, in the order of the collection.",
  "every collection, every identifier or number", "iteration is by repeated indexing, which looks at the identifiers first", CO+":__getitem__", CO+":__len__")
p("Histogram of a photon-resolved collection",
  "The histogram of a photon-resolved collection shows, for every initial state and outcome, the summed probability of the interference groups with that outcome (of their columns, weighted by the squared column amplitude); after a photon-resolved measurement this is the probability of the measured groups. Plotting does not change the collection.",
  "every photon-resolved collection of normalised states, every choice of channels and initial states", "all collections; splitting and aliasing", PL+":plot", PL+":_pre_plot", CS+":generate_single_state_from_column", CO+":is_photon_resolved")
p("Optical elements replace creation operators",
  "A sequence of two-channel optical elements maps the creation operator of each of its channels to the linear combination given by the element's matrix: the amplitude of every Fock state after the circuit is the amplitude obtained by substituting these combinations, one element after the other, in the polynomial of creation operators that makes the input state.",
  "every number of channels, every list of optical elements with arbitrary 2x2 matrices on arbitrary channels, every input state with fewer photons than the cutoff", "all matrices, circuits and states", CI+":evaluate_circuit", CI+":__apply_node_or_nodes", CI+":__generate_fock_state_matrix", OP+":half_wave_plate")
p("Born rule for photons that overlap partly",
  "A photon-resolved measurement of an interference group finds every outcome (photon numbers in the measured channels) with the probability of the Born rule: the squared norm of the part of the state with these photon numbers, in the Fock space where photons in different channels are orthogonal and the inner product of two photons in one channel is the overlap of their pulses. Outcomes that are not reported have probability 0.",
  "every interference group with any number of columns, photons, pulse shapes and channels", "all amplitudes, arrival times, widths and photon numbers", IG+":measure_interference_group", CC2+":perform_measurement", CS+":split", CS+":single_photon_states")
p("Circuits of optics and time delays follow the Born rule",
  "evaluate_circuit of a circuit made of lossless two-channel optical elements, time delays (fixed or from a classical channel) and pulse-width settings in any order, followed by a measurement, returns for every input state one interference group per outcome; the outcome is in the classical channels and the probability of the group is the probability of the input state times the Born probability of the outcome for the state that the elements make of the input state, each element being a substitution of creation operators (optics mix channels, delays and widths relabel the photons of a channel). Outcomes that are not returned have probability 0.",
  "every circuit of this form of any length, every collection of normalised input states, every number of channels and photons below the cutoff", "all circuits, matrices, delays, widths and states", CI+":evaluate_circuit", TF+":add_time_delay_generic", TF+":set_pulse_width", CC2+":perform_measurement", IG+":measure_interference_group")
p("Hong-Ou-Mandel dip",
  "One photon in each of two channels, one of them delayed by t with pulse width w, a lossless beam splitter with transmission T and reflection R, measurement of both channels: the recorded probability of a coincidence is T^2 + R^2 - 2 T R exp(-ln 2 (t/w)^2), whatever the phases of the beam splitter; for mix_50_50 it is (1 - exp(-ln 2 (t/w)^2))/2: zero without delay, one quarter when the delay is the pulse width.",
  "every delay, every pulse width other than zero, every unitary two-channel element on any two channels (that are not ordered wrongly, C08) of a circuit with any number of channels, any phase and probability of the input state", "all real delays and widths, all unitary matrices", SN+":time_delay_full", CI+":evaluate_circuit", OP+":mix_50_50", IG+":measure_interference_group", TF+":photon_probability_function")
p("Delays and optics conserve the total probability",
  "When a circuit of lossless two-channel optical elements and time delays (with pulse widths that are always set for all channels) is followed by a photon-resolved measurement of any set of channels, the probabilities of the groups that come from one input state are non-negative and add up to exactly the probability of that input state, however far the photons are delayed with respect to each other.",
  "every circuit of this form of any length, every collection of normalised input states, any delays and widths, any measured channels", "all circuits, delays, widths and states; the sum runs over all outcomes", CI+":evaluate_circuit", TF+":add_time_delay_generic", TF+":photon_probability_function", IG+":perform_measurement", CC2+":perform_measurement")
p("Only relative delays matter",
  "In a circuit of optical elements, pulse widths and time delays that ends with a photon-resolved measurement, the amount of a delay of some channels cannot be seen in the recorded outcome probabilities unless a later optical element mixes a delayed channel with one that is not delayed. In particular a delay of all channels is invisible.",
  "every circuit of this form, every position and amount (number or classical channel) of the delay, every input state and set of measured channels", "relates two runs with different delays, for all circuits around the delay", CI+":evaluate_circuit", TF+":add_time_delay_generic", TF+":photon_probability_function", IG+":perform_measurement")
p("The quick time delay is a mixture of full overlap and full separation",
  "In a circuit of optical elements, one quick time delay, optical elements and a measurement, the probability of every outcome is o * p0 + (1 - o) * p200, where p0 and p200 are the probabilities recorded by the same circuit with the full time delay for the delays 0 and 200 (pulse width 1) and o = exp(-ln 2 (t/w)^2) is the overlap for the delay t and the pulse width w.",
  "every such circuit, delay (number or classical channel), pulse width, input state and set of measured channels", "relates three runs, for all circuits and delays", TF+":add_quick_time_delay_generic", TF+":add_quick_time_delay_to_collection", CI+":evaluate_circuit", IG+":perform_measurement")
p("The quick time delay gives the probabilities of the full time delay",
  "A circuit with the quick time delay gives (up to a negligible difference) the same outcome probabilities as the same circuit with the full time delay.",
  "every circuit with one delay, every delay, pulse width and input state", "relates two implementations of the same effect, for all circuits, delays and states", TF+":add_quick_time_delay_generic", TF+":add_time_delay_generic", CI+":evaluate_circuit")
p("Channel, delay and pulse width arguments of the spectral nodes mean what they say",
  "The channel argument of the spectral nodes may be a list of channels, a single channel or (where it is documented) None for all channels; the full and the quick delay delay the same channels for the same argument; channels that do not exist are refused; the pulse width of the quick delay is pulse_width, otherwise 1/bandwidth, otherwise 1.",
  "every circuit built by such calls, every collection of states, every list of (possibly negative) channel numbers", "arguments range over all lists and integers and the effect over all collections; errors show up when a circuit is evaluated, not when it is built", SN+":time_delay_full", SN+":time_delay", SN+":time_delay_classical_control", SN+":set_pulse_width", TF+":add_time_delay_generic", TF+":add_quick_time_delay_generic", TF+":set_pulse_width", CU+":generic_function_on_collection")
p("The naming convention affects only the strings",
  "channel_0_left_in_state_name only changes how states are written. Evaluating the same circuits on the same states under the other convention gives the same identifiers, photon numbers, amplitudes, probabilities, classical values, measurement results and density matrices, or fails in both cases.",
  "every circuit and compound circuit with every kind of node, every way of connecting circuits by bridges, every list of nodes to evaluate and every collection of states", "a relation between two evaluations, for all circuits and all states; tests compare single names under one convention", CI+":FockStateCircuit.__init__", CI+":FockStateCircuit.evaluate_circuit", N+":ComponentNames", N+":OpticalValues", ST+":State.translate_state_components_to_vector", ST+":State.set_state_components_from_vector", CO+":CollectionOfStates.reduce", CO+":CollectionOfStates.extend", CO+":CollectionOfStates.adjust_length_of_fock_state", CO+":CollectionOfStates.initialize_to_default", CO+":CollectionOfStates.density_matrix", CU+":shift_direct", CU+":c_shift_direct")
p("clean_up changes only the collection it is called on",
  "Cleaning up a collection leaves all other collections as they are: not only copies, but also the collection from which it was obtained by evaluating a circuit.",
  "every heap of State objects and component dictionaries, every collection, every list of labels", "aliasing; tests look at the cleaned collection only", CO+":CollectionOfStates.clean_up", CO+":CollectionOfStates.copy", ST+":State._rescale_optical_components", ST+":State.copy", ST+":State.optical_components", CU+":shift_direct", CU+":c_shift_direct")
p("Optical nodes on disjoint channels commute",
  "Exchanging two neighbouring optical nodes that were given on disjoint channels, anywhere in a run of optical nodes, does not change the result.",
  "every cutoff, number of channels, optical matrices (also non-unitary), channel pairs, surrounding nodes, state or collection, threshold, both settings of use_full_fock_matrix", "all pairs of channels and all states", CI+":FockStateCircuit.evaluate_circuit", CI+":FockStateCircuit._FockStateCircuit__generate_fock_state_matrix", OP)
p("Optical nodes do not change the statistics of other channels",
  "Unitary optical nodes do not change the probability of any outcome of a measurement of channels on which they were not given.",
  "every cutoff, number of channels, list of unitary nodes, list of measured channels, valid state, outcome, threshold", "all states and gates", CI+":FockStateCircuit.evaluate_circuit", CI+":FockStateCircuit._perform_measurement", OP)
p("Measurement commutes with optical nodes on other channels",
  "Measuring some channels and then applying unitary optical nodes on other channels gives the same states - components, classical values, probabilities and history - as applying the nodes first and measuring afterwards.",
  "every cutoff, number of channels, list of unitary nodes, measured and classical channels, collection of valid states; two circuits that differ in this order only", "all states and gates; needs a general argument on amplitudes and on the order of outcomes", CI+":FockStateCircuit.evaluate_circuit", CI+":FockStateCircuit._perform_measurement", OP)
p("The states of a collection do not influence each other",
  "Evaluating a circuit or compound circuit replaces every state of a collection by states that depend on this state only: evaluating two collections together gives the results of evaluating them separately, results for one label are those of the states with this label alone, no result is lost by a clash of identifiers, and neither identifiers nor random numbers matter.",
  "every circuit and selection of nodes (any order, repetitions; all node types, generic functions that treat states separately such as the shift nodes), every compound circuit, every collection with distinct identifiers, all random numbers", "all collections and circuits; identifiers are made from strings and random numbers that could clash", CI+":FockStateCircuit.evaluate_circuit", CP+":CompoundCircuit.evaluate_circuit", CO+":CollectionOfStates.add_state")
p("Two measurements one after the other are one joint measurement",
  "Measuring some channels and then others gives, up to the order of the states, the same components, classical values and cumulative probabilities as measuring all of them at once; the probabilities of the two recorded results multiply to the joint probability, and one way fails exactly if the other does.",
  "every cutoff, number of channels, two lists of measured channels (also overlapping) with their classical channels, collection of valid states, threshold", "all states and channel lists; the order of outcomes and the normalisation in between differ", CI+":FockStateCircuit._perform_measurement", CI+":FockStateCircuit.evaluate_circuit")
p("The order of measurements does not matter",
  "Two measurements that write to different classical channels can be exchanged: same states up to order, same classical values and cumulative probabilities.",
  "every cutoff, number of channels, two lists of measured channels (also overlapping), disjoint lists of classical channels, collection of valid states, threshold", "all states and channel lists", CI+":FockStateCircuit._perform_measurement", CI+":FockStateCircuit.evaluate_circuit")
p("A circuit of optical elements and a measurement shows Born probabilities",
  "Evaluating optical elements followed by a measurement, the summed cumulative probability of the resulting states with given measured values - the height of the bar in the histogram - is the probability that the Born rule of linear optics gives: input probability times the squared amplitudes of the input state with its creation operators replaced by those of the elements (up to amplitudes below the threshold).",
  "every cutoff, number of channels, list of lossless optical elements, measured channels, collection of input states (superpositions, several photons, several labels)", "all circuits and states: goes through Fock matrices, evaluation, collapse, bookkeeping of states and plotting", CI+":FockStateCircuit.evaluate_circuit", CI+":FockStateCircuit._perform_measurement", PL+":plot")
p("A single photon is found like a classical field is distributed",
  "Sending a single photon (in one channel or in superposition) through optical elements, it is found in a channel with the squared modulus of the amplitude a classical field would have there. In particular: cos^2(phi/2) and sin^2(phi/2) at the outputs of a Mach-Zehnder interferometer with phase phi, cos^2(2 theta) and sin^2(2 theta) after a half-wave plate at angle theta.",
  "every cutoff from 2, number of channels, list of lossless elements, measured channels, phase, angle", "all phases, angles and channels", CI+":FockStateCircuit.evaluate_circuit", CI+":FockStateCircuit._perform_measurement", OP+":phase_shift_single_channel", OP+":mix_50_50", OP+":half_wave_plate")
p("Only the overall transformation of the fields matters",
  "Two circuits of optical elements whose effect on every classical field is the same give exactly the same result (amplitudes, probabilities, classical values, measurement results, order of the states) for every collection of states, with or without a measurement at the end, also for several photons and superpositions. An element followed by its inverse leaves every state as it is.",
  "every cutoff, number of channels, pair of lists of elements with equal action on fields (of different length, on different channels), collection of input states", "all circuits, all decompositions and all states", CI+":FockStateCircuit.evaluate_circuit", CI+":FockStateCircuit.__generate_fock_state_matrix", OP+":wave_plate")
p("nonlinear_optical_node has no effect",
  "nonlinear_optical_node is documented as a placeholder: evaluating nodes with it in between is evaluating the nodes before it and then the nodes after it; it can be left out unless it separates two optical nodes, and at the end of a circuit it never matters.",
  "every circuit without bridges, position of the placeholder, increasing list of nodes, collection", "all circuits and positions", "src/fock_state_circuit/nodes/nonlinear_optical_nodes.py:NonlinearOpticalNodes.nonlinear_optical_node", CI+":FockStateCircuit.evaluate_circuit")
p("Photon pairs: two-photon interference, entanglement and the Bell inequality",
  "Two photons with an arbitrary two-photon wave function, sent through optical elements and measured, are found in two channels with the squared modulus of the amplitude in which both photons go through the elements like classical fields and both assignments of the photons to the channels interfere. For a polarization entangled pair and half wave plates at angles θ and η the joint probabilities are cos²(2(θ-η))/2 and sin²(2(θ-η))/2, the correlation computed by the package is cos(4(θ-η)), and the standard four settings give the CHSH value 2√2.",
  "every cutoff of at least 3, number of channels, choice of channels, list of elements, two-photon wave function, angle and threshold", "all channel layouts, all angles, all two-photon states", CI+":FockStateCircuit.evaluate_circuit", CI+":FockStateCircuit._perform_measurement", OP+":half_wave_plate", PL+":_correlation_from_collection")
p("Consecutive elements on the same channels combine as their parameters say",
  "Anywhere in a circuit of optical elements, two consecutive elements on the same two channels can be replaced by the one with the product of their matrices without changing any result: retardations of wave plates at one angle add, two quarter wave plates are a half wave plate, phase shifts of one channel add, and a half wave plate, 50/50 mixer or swap followed by itself (or any element followed by its inverse) can be left out. This holds exactly, for any number of photons (also at the cutoff), all channel pairs and all collections of states.",
  "every cutoff, number of channels, channel pair, angle, phase, elements before and after, collection of input states, setting of use_full_fock_matrix", "all circuits and all states", CI+":FockStateCircuit.evaluate_circuit", CI+":FockStateCircuit.__generate_fock_state_matrix", OP+":wave_plate", OP+":quarter_wave_plate", OP+":phase_shift_single_channel")
p("Building up an interference group loses nothing and keeps its identifiers",
  "After any sequence of add_column, add_state and assignments of interference_group_identifier and group_cumulative_probability, an InterferenceGroup contains every state and column it was given exactly once, no column is overwritten or changes its place, and identifiers are unique. A state goes to the column whose identifier it (or the call) names, otherwise to a new one; every column carries the identifier under which the group returns it and the identifier and cumulative probability of the group.",
  "every group, every sequence of calls, every choice of identifiers", "unbounded histories and all combinations of explicit, own and missing identifiers", IG+":InterferenceGroup.__init__", IG+":InterferenceGroup.add_column", IG+":InterferenceGroup.add_state", CS+":add_state")
p("A measurement leaves the right state and its result can steer later elements",
  "For a circuit of lossless two-channel elements followed by a measurement there is exactly one output state for each input state and each result that can be found in it; it consists of the terms with the photon numbers found, rescaled, has the probability of the Born rule, the label of the input and the result in the classical channels. A wave plate behind it whose angles are computed from the classical channels by a function acts on each of these states with the angles belonging to its own result.",
  "every list of lossless elements, every collection of input states, every choice of measured and classical channels, every function of the classical channels", "real-valued amplitudes and angles, any number of channels, elements, states and results", CI+":FockStateCircuit.evaluate_circuit", ME+":measure_optical_to_classical", CT+":wave_plate_classical_control", CL+":classical_channel_function")
p("Quantum teleportation works",
  "In the teleportation circuit of the documentation (photon to be sent, entangled pair, two 50/50 mixers, measurement of four channels, classical rule, controlled wave plate) Bob's photon ends in the state of the photon that was sent whenever two photons are found in one of four pairs of channels. This includes entanglement of the photon with others. Each of the four results has probability 1/8, so teleportation succeeds with probability 1/2.",
  "all amplitudes of the photon, all channel numbers, any number of channels and any state of other photons", "continuum of input states, all channel assignments", CI+":FockStateCircuit.evaluate_circuit", OP+":mix_50_50", CT+":wave_plate_classical_control")
p("The table of all outcomes of an interference group is complete and correct",
  "total_probability_for_group_all_outcomes lists every list of photon numbers that a column of the group can give, once, with the probability of the Born rule for the light of the group; outcomes that are not listed have probability 0, the values add up to 1 for a lossless circuit and normalised input, and a projection that no column matches gets probability 0.",
  "every interference group, every list of projections, every photon-resolved circuit of lossless elements", "real-valued delays, widths and amplitudes, any number of columns, photons and channels", IG+":total_probability_for_group_all_outcomes", CS+":generate_optical_component_corresponding_to_column")
p("Photon information is set for exactly the states of the filter",
  "set_photon_information gives the information to all states of the column, or to the states whose (first) component has photon numbers in the filter; the other states get the default, or stay unchanged when there is none. Photon numbers, amplitudes, order of the states and parameters of the column do not change.",
  "every column, every information, filter and default", "unbounded lists of states and filters, real-valued information", CS+":set_photon_information")
p("A list of projections restricts a photon-resolved measurement to these outcomes",
  "measure_interference_group with list_of_projections gives one new group for each measurement result that the listed photon numbers can give; it has the probability (Born rule) of the listed photon numbers with that result, times the probability of the group. Without a list, or with a list that contains all photon numbers of the group, it is the ordinary measurement.",
  "every interference group, every list of projections, every choice of measured and classical channels", "real-valued delays, widths and amplitudes, any number of columns, photons and channels", IG+":measure_interference_group", IG+":measure_interference_group_alternative")
p("A measurement removes coherence between results and nothing else",
  "The density matrix of a collection after a measurement (for each initial state) is the one before the measurement with all entries between basis states that differ in the measured channels set to 0. So the probabilities of all photon numbers stay the same when the result is not looked at, and the reduced density matrix of channels that are not measured does not change (no signalling).",
  "every collection of measurable states, every choice of measured channels, every initial state, every pair of basis states", "complex amplitudes, any number of states, channels and photons", CI+":evaluate_circuit", CO+":density_matrix", ME+":measure_optical_to_classical")
p("Bar charts show the histogram",
  "The chart drawn by plot, plot_correlations and plot_correlations_from_dict has one tick per initial state and, in front of the grey background, one bar for every outcome (or channel combination) of every initial state, with the right height, at most 0.4 from its tick, in the colour which the legend has for the outcome. No two bars cover each other, the legend lists every outcome once, and every colour stands for one outcome.",
  "every collection, every choice of classical channels, initial states and channel combinations, every dictionary to be plotted, every number of colours", "any number of initial states and outcomes", PL+":plot", PL+":plot_correlations", PL+":plot_correlations_from_dict", PRC+":plot_correlations_for_NS_boxes")
p("Optical circuits are linear and keep inner products",
  "If the amplitudes of a state are a times those of a first plus b times those of a second state, then so are the amplitudes after evaluating the same optical nodes for all three, up to the amplitudes removed by the threshold (error at most (1+|a|+|b|) times its square root); lossless nodes that remove no amplitude keep the superposition exact and keep every inner product, so orthogonal states stay orthogonal.",
  "every list of optical nodes, every triple of states, all factors a and b, both settings of use_full_fock_matrix", "all states and all circuits", CI+":evaluate_circuit", ST+":inner_product")
p("Only the density matrix matters",
  "Two collections with the same density matrix for an initial state, for example different mixtures of states, cannot be told apart: after the same lossless optical nodes (that remove no amplitude) and measurements they have the same density matrix again, and every measured value has the same probability.",
  "every pair of collections with equal density matrices, all lossless optical nodes, all measurement nodes, circuits made of optical nodes followed by a measurement", "all mixtures, all circuits", CO+":density_matrix", CI+":evaluate_circuit")
p("Phase factors of states have no observable effect",
  "If the states of two collections are equal but for a phase factor (any factor of modulus 1, another one for each state), then evaluating the same circuit, with all kinds of nodes and with bridges to further circuits, gives collections with the same identifiers, initial labels, probabilities, classical values and measurement results, whose components again differ by phase factors only; it raises for both or for neither. Histograms, correlations and density matrices are the same.",
  "all circuits and compound circuits, all lists of nodes to be evaluated, all pairs of collections that differ by phase factors, all random numbers", "all circuits, all phases", CI+":evaluate_circuit", CP+":evaluate_circuit", PL+":plot", CO+":density_matrix")
p("Labels and earlier measurement results are only carried along",
  "If two collections differ only in the initial labels of their states and in the measurement results recorded earlier, then evaluating the same circuit, with all kinds of nodes and with bridges to further circuits, gives collections with the same identifiers, probabilities, components and classical values; the labels are those of the states they come from and the same new measurement results follow the earlier ones; it raises for both or for neither. Changing labels before the evaluation is the same as changing them afterwards.",
  "all circuits and compound circuits, all lists of nodes to be evaluated, all changes of labels and earlier results, all random numbers", "all circuits, all labels, all histories", CI+":evaluate_circuit", CP+":evaluate_circuit", ST+":State")
p("What is done with some channels does not show in the other channels",
  "When a circuit leaves some channels alone (its optical elements and controlled wave plates are given on other channels, its custom nodes (shifts and controlled shifts, for example) act on other channels only, it measures other channels, its classical nodes are arbitrary), the reduced density matrix of these channels, and with it the probability of finding any photon numbers in them, is the same after the evaluation as before, apart from what the threshold removes; so two such circuits, chosen freely or depending on earlier results, cannot be told apart from these channels.",
  "all circuits and lists of nodes with optical, custom (Fock matrix or function), classical, measurement and controlled nodes away from the channels, all collections, all initial labels, all photon numbers", "all circuits, all states, all sets of channels", CI+":evaluate_circuit", CI+":_perform_measurement", CO+":density_matrix")
p("A column and its states agree on the column parameters",
  "In every program that makes columns from states, lists of states or other columns, adds states, assigns parameters, copies, splits, makes single photon states, condenses and sets photon information, handing every State object and list to one column only: every state of a column carries the five parameters of the column, no operation on one column changes what another column shows, assigning, copying, adding and the constructor do exactly what they are documented to do, and splitting, single photon states and condensing act on the objects as on plain values.",
  "all programs (sequences of operations of any length) on State, list and ColumnOfStates objects, all states, all parameters", "all histories of operations on objects that refer to each other", CS+":ColumnOfStates", CS+":add_state", CS+":copy", CS+":split", CS+":single_photon_states", CS+":condense_column_to_single_state")
p("Changing the shape of a collection leaves State objects taken from it as they were",
  "reduce, extend and adjust_length_of_fock_state change the collection in place and give exactly the states (and raise in exactly the cases) that the same operation gives on plain values; every State object or collection that existed before shows the same contents afterwards; and after reduce or extend, changing the collection later (classical nodes) does not change those either.",
  "all heaps of State and list objects with closed references, all collections, all channel lists, numbers of extra channels, distributions and lengths", "sharing of objects between collections, for every heap", CS+":reduce", CS+":extend", CS+":adjust_length_of_fock_state")
p("The threshold is a small perturbation",
  "Evaluating the same nodes from the same collection with different thresholds, with or without use_full_fock_matrix, and divided over calls of evaluate_circuit in different ways gives states in the same order with the same histories and classical values; their amplitudes differ in the Euclidean norm by at most the sum over all calls of the number of nodes times the root of L^C * threshold, outcome probabilities by at most twice that, and there are amplitudes to which all results converge when the threshold goes to 0.",
  "all circuits of unitary optical nodes, unitary Fock matrices, classical functions and wave plates controlled by classical channels, all thresholds, all divisions into calls, all collections of valid states, all random numbers; measurements and functions on the collection excluded", "errors of many nodes and calls add up; sampling cannot bound them", CI+":evaluate_circuit", CI+":__apply_node_or_nodes_to_collection")
p("The threshold hardly changes the statistics of measurements",
  "Evaluating the same nodes, now including measurements into different classical channels, with different thresholds, with or without use_full_fock_matrix, and divided over calls of evaluate_circuit in different ways changes the probability of no event by more than twice the sum over all calls of the number of nodes times the root of L^C * threshold (for a label whose cumulative probabilities add up to 1). An event is any relation between the values recorded by the measurements and the component found afterwards. States with the same label and record have the same classical values, and the statistics converge when the threshold goes to 0.",
  "all circuits of unitary optical nodes, unitary Fock matrices, classical functions, wave plates controlled by classical channels and measurements into different classical channels, all thresholds, all divisions into calls, all collections of valid states that differ in label or record, all random numbers, all events", "the number of records grows exponentially with the number of measurements, and branches may disappear with one threshold and not with another", CI+":_perform_measurement", CI+":evaluate_circuit")
p("Circuits connected by bridges conserve probability",
  "Bridging lossless circuits (unitary nodes, measurements, controlled wave plates, classical functions, and functions on the collection that conserve probability themselves), in any way and also in cycles, creates no probability for any initial state, and the states at the end are valid for one of the circuits. With threshold 0 probability is exactly conserved. For a compound circuit in which no circuit has channels that the one before does not have, the loss per initial state is at most the sum over all nodes of all circuits of L^C * threshold, relative to the summed cumulative probability: handing states over loses nothing.",
  "all numbers of circuits and of nodes, all sizes in which each circuit allows the photon numbers of the one before it and has a classical channel if the one before has one, all thresholds, all collections of valid states, all measurement outcomes", "the number of circuits, nodes and outcome branches has no bound, and reducing, extending and renaming states in a bridge is checked on single examples only", CI+":evaluate_circuit", CP+":evaluate_circuit", CO+":reduce", CO+":extend", CO+":adjust_length")
p("Coupling to an empty environment",
  "When channel_coupling couples control channels to target channels that are empty (each target used once, no channel both control and target), with a strength between 0 and 1, the evaluation of the node raises no exception and conserves probability up to L^C * threshold per state. Each target ends up with a copy of the photon number of its control with probability 'strength' and empty with probability '1 - strength', independently. Seen from the other channels the node is decoherence: every entry of their reduced density matrix between photon numbers u and v is multiplied, for every coupled control channel, by 1 if u and v have the same number there, by the root of 1 - strength if one of the numbers is 0, and by 1 - strength if they are different numbers above 0. So the photon number statistics is not disturbed, strength 0 changes nothing, strength 1 removes all coherence between numbers that differ in a control channel, and the visibility of the interference between one path and another is 1 - strength.",
  "all sizes, all strengths in [0,1], all lists of control and target channels, all superpositions, all collections of valid states with empty targets, all thresholds (the coherences: when the threshold removed nothing)", "the matrix is checked for single examples only; the effect on all reduced density matrices for all sizes and superpositions is not", CU+":channel_coupling", CO+":density_matrix", CO+":reduce")
p("The drawing shows the nodes in the order of the evaluation",
  "Drawing a circuit, or circuits connected by bridges, gives every node a place, on one of the pages that are prepared beforehand. Of two nodes whose symbols have a line of the drawing in common (a symbol reaches from the first to the last line the node acts on, or down to the lowest line if there is a connection to another station) the one that is evaluated first is drawn further to the left or on an earlier page; a bridge is drawn right of all nodes before it and left of all nodes after it. Two nodes drawn at the same place have at least one free line between them, so that symbols never overlap.",
  "all numbers of optical and classical channels, all lengths of a page, all sequences of circuits, all nodes on any channels, single or part of a combined gate, with or without connections to other stations", "a drawing is checked by eye for single circuits; that no sequence of nodes leads to a drawing with a wrong order or with overlapping symbols is not tested", DR+":draw", DR+":_determine_settings_for_drawing_compound_circuit")
p("A circuit drawn by station",
  "draw_station draws, for the stations asked for, the circuit as the station sees it: in the order of the circuit exactly the bridges and the nodes that have a channel at the station, each on the right ones of the station's channels (numbered in the order of the station's list). A node names exactly the other stations it is shared with (a measurement: those with which a pair of measured and written channel is divided). Connections are mutual: if a node at one station names another one, it is drawn at that one, names the first one there, and carries the same symbol; different nodes of a circuit carry different symbols.",
  "all stations with any lists of channels (also overlapping or incomplete ones), all circuits, all nodes", "only the existence of a picture is tested, for two stations", DR+":draw_station", DR+":_filter_on_station")
p("Labels of the channels in the drawings of the stations",
  "Without labels in the settings every channel of a station is labelled with the name of the station and its number there, in the drawing of the station and in the drawing of the total circuit; channels of no station keep the default label; different stations or numbers have different labels. Labels of the user are not changed: each channel of a station has the label the user gave it.",
  "all numbers of channels, all stations without common channels, all lists of labels", "the settings are not tested at all; that no choice of stations mixes up labels is not", DR+":create_settings_for_drawing_stations", DR+":draw_station")
with open('/verif/properties.jsonl','w') as f:
    for x in P: f.write(json.dumps(x)+"\n")
print(len(P))
