# Formal model of FockStateCircuit in Lean 4

## Trusted base

* Lean 4.33.0 kernel. Every theorem depends at most on `propext`, `Classical.choice` and `Quot.sound`
  (the three axioms of Lean/Mathlib). No axioms are added, nothing is left unproved, no compiled evaluation is used.
* The hand-written correspondence between `/repo/src/fock_state_circuit` and the definitions under
  `lean/Verif/Model`. Each definition cites file and lines. It was made by reading; the code was not run.
* Idealisations (apply everywhere):
  * floating point numbers are real/complex numbers (`ℝ`, `ℂ`); rounding and overflow are not modelled;
  * Python `dict` is an insertion-ordered association list (`Verif.Dict`);
  * exceptions are values (`Except`/`Option`);
  * random identifiers are read from an arbitrary stream given as argument;
  * photon numbers are natural numbers; `int(chunk)` is modelled on strings of ASCII decimal digits only.

## Layout

* `lean/Verif/Model/*.lean`  – the model, function by function.
* `lean/Verif/Spec/*.lean`   – small independent specifications (what the English says).
* `lean/Verif/Lemmas/*.lean` – helper lemmas.
* `lean/Verif/Props/*.lean`  – the property theorems, each with a non-vacuity `example`.

If the code violates the property, the violation is proved with a concrete witness
(`..._fails` theorems) and the part that does hold is proved as `..._partial`.

## Plan per property

| id | model | proof idea |
|----|-------|------------|
| C01–C03 | name formatting / parsing on character lists; mixed-radix index | induction over digits and channels |
| C04–C06 | the two table objects with their shared dictionaries as a heap; operations as a small language, histories as lists | invariant over all dictionary cells by induction on the history; violation witnesses by computation |
| C07 | tensor list by list updates | case split, swap lemmas; violation for (h,0), h>=2 |
| C08–C13 | two-channel Fock matrix as double sum with accumulation; Kronecker extension; reordering | generating-function argument: row (n,m) = coefficients of (aX+cY)^n (bX+dY)^m, adjoint by binomial identity |
| C14–C16 | selection of indices by photon number, reduced matrix-vector product | block structure from photon-number conservation |
| C17–C21 | generic optical matrix, node builders | trigonometric identities; violations for swap above cutoff, phase shift with populated partner channel, generic reflection |
| C22–C24 | state components as ordered dictionary keyed by name | dictionary lemmas + C03 |
| C25–C28 | `_perform_measurement` branch by branch | grouping lemma (`setdefault`/append partitions the list) |
| C29 | marker generator as a state machine | bijective base-26 counter invariant |
| C30, C32 | heap of lists with references (`classical_channel_values`, history entries) | frame lemmas; violation witness |
| C31, C46, C47 | evaluator over circuits (nested inductive) | induction on the list of node indices; violation witnesses |
| C33–C36 | collections as ordered dictionaries; random stream | freshness invariant |
| C37–C41 | density matrix, reduce, extend, adjust_length, clean_up | finite sums over dictionaries |
| C42–C43 | shift matrices as index-selected matrices | modular arithmetic; violation for chained control pairs |
| C44–C45 | node builders with validation + node semantics | list update lemmas; off-by-one witness |
| C48–C49 | histogram and correlation accumulation | induction over collection |
| C50, C51, C53 | temporal functions, outcome labels, bosonic factors | real analysis; string witness; factorial identities |
| C52 | creation/annihilation matrices | direct |
| C54 | `custom_optical_node` through the Fock matrix of C08–C13 | single-photon entries of the gate: the transposed matrix acts |
| C55 | `tensor` on dictionaries | concatenation of names is injective; product of finite sums |
| C56 | coupling matrices as index-selected matrices | products of shift matrices at strength 0 and 1; witness at 1/2 |
| C57 | heap of state objects, value lists and history lists | frame lemmas; witness of the shared list |
| C58–C62 | ladder operators on the limited basis, truncated exponential, product of matrices, gate on components | formal combinations of ladder words; `NormedSpace.exp` for the limit; witnesses |
| C63–C66 | columns of states, list of photons, valid photon pairs, projection probability, measurement of groups | bijection of the enumerated photon pairs with permutations (permanent); multiset arguments for condensing |
| C67–C70 | reading/writing of groups, delays, pulse widths, quick delay | induction over the states of a collection; witnesses |
| C71 | gate of the PR pairs: enumeration of 4^n configurations, writing of photon numbers | base-4 digits; injectivity of the written values |
| C72–C76 | recovery of product vectors, Stokes vectors, signed power | rank-one recovery lemma, algebra of Stokes vectors, real analysis of sign(x)·abs(x)^(1/K) |
| C77–C79 | factorability tests, measurement of sets of states, shared states | rank-one recovery in both directions; witnesses |
| C80–C81 | whole evaluation loop, all node types (bridges: compound circuits, with C140) | per-node conservation and progress lemmas, induction over the evaluation |
| C82 | `get_fock_state_matrix` (`MatrixApi`) | from the one-by-one form of a run of optical nodes |
| C83 | `wave_plate_from_hamiltonian` (`OperatorNodes`: the four Hamiltonians, `platesHam`) | a differentiable one-parameter group of matrices is the exponential of its derivative (`OneParam`); the gate matrix of C09 is multiplicative, its derivative at the identity is the quadratic Hamiltonian (`Quadratic`); below the cutoff truncation does not matter because photon number is conserved |
| C84 | the same for any 2x2 coefficient matrix | as C83 with the curve exp(tX) |
| C85 | `hamiltonian_operator_gate`, `wave_plate_from_hamiltonian_classical_control` on collections | induction over the collection, C59 per state |
| C86 | gate, run of optical nodes and measurement of PR pairs composed (`PRExperiment`) | the gate on a vector is a sum over the photon numbers of its two channels, so local elements keep the product form of the amplitudes; induction over the elements, then C72 and C78 |
| C87 | evaluation with the settings stored in circuit, collection and states told apart (`Compound`: `evalHeld`) | simulation of `evalNodes` by induction over the evaluation, the bridge being the only node that changes settings; witness for different thresholds |
| C88 | `reshape` of `Evaluate` (extend / reduce / adjust length) for one bridge | states as value lists (`Lemmas/Bridge`): every step maps lists to lists; sum over the lost photon numbers; witnesses for naming convention and missing classical channels |
| C89, C93 | `create_no_signalling_boxes` (`NoSignalling`), correlations of `PR` | C71's specification of the gate applied to the first state; fold over outcomes |
| C90–C92 | constructors and checks of `State` and collections on arbitrary dictionaries (`Validity`) | case analysis of the check; witnesses |
| C94–C95 | circuits, Python lists and compound circuits as numbered objects (`Session`: `World`, `Op`) | the evaluation does not depend on the numbers of circuits; invariants of the private copies along every history |
| C96 | `evaluate_circuit` with optional arguments (`Session`: `evalOptional`) | C36 for the default collection, C82 for the matrix |
| C97 | what splitting leaves in the State objects of the given collection (`Spoiled`) | invariants of `split_columns`; the first columns of the result hold the given objects |
| C98 | `__getitem__` and the iteration Python builds from it (`Iterate`) | induction on the number of calls |
| C99 | `plot` for photon-resolved collections (`PlotResolved`) | the probability of columns with a property is an invariant of splitting; C48 for the rest |
| C100 | `Fock`, `Evaluate`: `applyOptical` against substitution in `MvPolynomial` (Spec/Creation) | the Fock matrix of an element is the coefficient of the substituted monomial (C07); induction over the elements |
| C101 | `Columns`, `Resolved`, `Spectral` against the inner product of polynomials (permanents, Spec/Interference) | splitting keeps the polynomial (C53); the cross terms of the columns are the terms of the norm |
| C102 | `Pipeline` (stages of `evaluate_circuit` on photon-resolved collections) against substitutions in `MvPolynomial` (Spec/Pipeline) | invariant of the evaluation: every group is, up to a phase, the polynomial of its input state after the elements, and its states are columns of one unitary matrix (so phases depend on the channel only); then C101 |
| C103 | the circuit delay - beam splitter - measurement of C102 | two terms of the polynomial have one photon per channel; their inner product is the squared overlap |
| C104 | C102 and the Born rule; the inner product of polynomials by annihilation operators (derivations) | substitutions that keep all overlaps keep the inner product; unitary elements and delays do; the overlaps of pulses of one width form a positive matrix (power series of the Gaussian), so Born probabilities need no absolute value and add up to the norm |
| C105 | C102 and the Born rule | a delay of channels commutes with elements that do not mix these channels with others; shifting all photons of the outcome channels by amounts that depend on the channel only keeps the overlaps |
| C106 | `timeDelayQuick` as a stage of the pipeline | the columns of the two parts stay interfering groups under optical elements; polynomials of the two parts are renamings of that of the state; Born rule per part |
| C107 | C103 and C106 | the probabilities of both circuits in closed form; witness for one photon |
| C108 | the calls that build spectral nodes with the arguments as Python receives them (`SpectralArgs`) | the calls reduce to the nodes of C102 to C107, step by step; the exceptional arguments by case analysis |
| C109 | evaluation with held settings (`Compound`), `ShiftColl` | the two evaluations are related step by step (relational lemmas for dictionaries with corresponding keys and for every node and bridge) |
| C110 | heap of component dictionaries and State objects (`CompHeap`): copy, direct shifts, `clean_up` | what `clean_up` writes, by induction over states, groups and labels (frame); simulation of the value-level `clean_up`; witness by computation |
| C111 | `applyOptical`, `opticalColl` | entries of the product of two node matrices on disjoint channels: one intermediate basis state contributes; symmetric in the two nodes |
| C112 | `applyOptical`, Born probabilities (`outcomeProb`) | node matrices commute with the projection on an outcome of other channels and preserve the norm |
| C113 | `opticalColl`, `measureColl`, `evalAll` for optical nodes before or after a measurement | the components of an outcome after the nodes are the nodes applied to the components of that outcome, both listed in index order; outcomes agree because probabilities do |
| C114 | `evalNodes`, `evalCompound`, `reshape`, `shiftDirectNode`, `cShiftDirectNode` | every node is shown to map states independently with distinct identifiers; closed under composition |
| C115 | `measure`, `measureColl`, `evalAll` with measurement nodes | components of a joint outcome are the components of the second outcome among those of the first; conditional probabilities multiply; outcome lists are permutations of each other |
| C116 | as C115 | both orders correspond to the same joint measurement; writes to different classical channels commute |
| C117 | `evalAll` with optical nodes and a measurement, `histogram` | C100 for the amplitudes, C26 and C29 for the measurement, C48 for the bars; the pruned vector is compared entry by entry |
| C118 | as C117 | substitution in a polynomial of degree one is the classical field transformation; trigonometric identities |
| C119 | `evalAll` with optical nodes (and a measurement) | both substitutions are algebra homomorphisms that agree on the variables (C100), so they agree on the polynomial of the state; counterexample at the cutoff |
| C120 | `nonlinearNode` as generic node in `evalNodes` | splitting of increasing lists of nodes (C31) |
| C121 | `evalAll` with optical nodes and a measurement, `correlations` | the polynomial of two photons is a quadratic form; both factors are transformed like fields (C118), the amplitudes are read off; the correlation from C49 |
| C122 | `evalAll` with optical nodes, builders of `OpticalNodes` | the Fock matrix is multiplicative for a fixed tensor list, also at the cutoff (C12); the products of the 2x2 matrices (C17) |
| C123 | `GroupBook` (the group as a dictionary, constructor, add_column, add_state, setters) | effect of one call as a relation, induction over histories; witnesses for the violated parts; agreement with the list of columns of `Spectral` |
| C124 | `Evaluate`, `Measurement`, `Classical`: whole circuit with measurement, classical function and controlled plate | C100 for the elements, C26/C29 for the measurement; terms of the polynomial with given exponents |
| C125 | as C124, with the nodes of the notebook "Quantum Teleportation" | substitution of creation operators by the two mixers, C124, sign of the plate with phase π |
| C126 | `OutcomeTable`: stored component names, table of probabilities | C63 for each entry, fold invariant for the table, C101/C104 for the Born rule and the total |
| C127 | `OutcomeTable`: `setInfoState`, `Column.setPhotonInformation` | induction over the states |
| C128 | `Projections`: filter of the columns before the measurement | C66 on the columns that are kept, C101 for the Born rule |
| C129 | `Measurement`, `Collection` (`measureColl`, `densityMatrix`) | C26 for every outcome, sum over the outcomes, C37 for the entries of the density matrix |
| C130 | `Drawing` (calls of `ax.bar`, legend, ticks) | geometry of the bars, index of a key in a dictionary, on top of C48 and C49 |
| C131 | `applyOptical`, `inner` | kernel of a list of nodes, polarisation identity |
| C132 | `densityMatrix`, `opticalColl`, `measureColl`, `evalAll` | conjugation with the kernel of the nodes; C129 and C26 for the measurement |
| C133 | `evalNodes`, `evalCompound`, `histogram`, `correlations`, `densityMatrix` | relational simulation (two runs) through every node type, relation on dictionaries and options |
| C134 | `evalNodes`, `evalCompound`, `moveColl`, `operatorColl` | relational simulation (two runs) through every node type, with arbitrary relations of labels and of earlier results |
| C135 | `evalNodes` | invariant over the nodes: entries of the density matrix reduced to the kept channels; composition of C112 (elements), a custom Fock matrix that commutes with reading and with changing the photon numbers of the kept channels, C129 (measurement) and C80 (loss by the threshold) |
| C136 | `ColHeap` (Model/ColumnObjects): State, list and ColumnOfStates objects with references | invariant (each list in one column, each state in one list, states carry the parameters) over all programs; simulation of the plain values of Model/Columns, which justifies that the parameters are stored once there |
| C137 | `hReduce`, `hExtend`, `hAdjust` (Model/HeapBridge): reshaping on the heap of State and list objects | simulation of the value level, frame lemmas; violation witness. The same model of bridges extends C30 and C32 to compound circuits |
| C138 | `inCalls`, `CloseStates`, `cutError` (Spec/Perturb): one call after another; distance of amplitudes over any set of names | every evaluation stays close to an evaluation without threshold (unitary nodes keep the distance, each removal of small amplitudes adds at most the root of `L^C * threshold`) |
| C139 | `weightedAmp`, `eventProb` (Spec/PerturbMeasured): amplitudes weighted with the root of the cumulative probability, by record; probability of an event | branches of an evaluation without threshold as a function of the record; nodes keep the distance summed over all branches, measurements split a branch into orthogonal parts, removals cost the root of the cumulative probability |
| C140 | `LosslessNetwork`, `LosslessChain`, `lossBound` (Spec/Network): circuits with bridges, what a compound circuit may lose | each of reduce, adjust_length, extend hands over the probability carried per label; induction over the evaluation and over the circuits |
| C141 | `Environment`, `EmptyIn`, `spread`, `coherence`, `remainingCoherence` (Spec/Environment): an empty environment, and what it leaves of the coherence | the matrix on vectors that are empty in the target, one pair at a time; sums over the environment channel; induction over the pairs |
| C142 | `OnLine`, `Covers`, `GatesFit` (Spec/Draw): the lines covered by a symbol | the bits of the occupied lines are the lines covered (induction over the bits); invariant: the positions occupied so far record all covered lines and places, kept by each way of placing a node; pages: the positions taken are at most a third more than the nodes placed |
| C143 | `Has`, `Shared`, `SeenAs` (Spec/Station): which nodes a station has, and with whom it shares them | membership in the three lists of connections, through the loop over the stations and the merging of the lists; induction over the nodes; arithmetic for the symbols |
| C144 | the statement itself (names and numbers of the stations) | the assignments are to different places (channels in no two stations), so each label read is the one written; digits are read back from the end of a label |


## What is modelled, file by file (`/repo/src/fock_state_circuit`)

| file | modelled (module under `lean/Verif/Model`) | not modelled |
|------|------|------|
| `nodes/nodelist/optical_values_component_names.py` | `Names` (pure functions), `Tables` (the two dictionaries as shared mutable objects) | `__str__` |
| `nodes/nodelist/node_list.py` | `TensorList`, configuration `Cfg` | attributes used for drawing only |
| `circuit.py` | `Fock` (matrix of a node, product of nodes, reduction by photon number), `Measurement` (`_perform_measurement`, identifiers), `Evaluate` (`evaluate_circuit`), `Heap` (the same on objects with sharing) | `about`, `__str__`, progress printing; bridges and generic functions in the object-level model |
| `compound_circuit.py` | `Evaluate` (`evalCompound`), `Compound` (the same with settings kept per circuit, collection and state), `Session` (objects and histories) | `draw*` |
| `nodes/optical_nodes.py` | `OpticalNodes`, all builders | `node_info` (drawing) |
| `nodes/custom_nodes.py` | `Shift`, `Evaluate` (custom Fock matrix, generic function) | `node_info` |
| `nodes/classical_nodes.py`, `nodes/controlled_nodes.py`, `nodes/measurement_nodes.py`, `nodes/bridge_nodes.py` | `Classical`, `Evaluate`, `Heap` | `node_info` |
| `nodes/quantum_operator_nodes.py`, `quantum_operator_functionality/` | `Operators`, `OperatorNodes` | drawing info |
| `nodes/nonlinear_optical_nodes.py` | `OperatorNodes.nonlinearNode` | a dummy in the code: the node returns its argument (C120 states what that means for the user) |
| `nodes/spectral_nodes.py`, `temporal_and_spectral_gate_functionality/` | `Columns`, `Resolved`, `Spectral`, `SpectralArgs` (arguments), `Spoiled` (effect on the argument), `GroupBook` (groups as objects), `OutcomeTable`, `Projections` | `__str__` |
| `nodes/superquantum_nodes.py`, `popescu_rohrlich_correlation_functionality/` | `PR`, `PRExperiment`, `NoSignalling` | the deprecated aliases (plotting: `Drawing`) |
| `state.py` | `State`, `Measurement`, `Heap`, `CompHeap`, `Validity` | `__str__`, printing; complex rounding of `csingle` |
| `collection_of_states.py` | `Collection`, `Reshape`, `Heap`, `CompHeap`, `Validity`, `Iterate` | `__str__`, `__repr__` |
| `visualization/plot.py` | `Plot` (histogram and correlation data), `PlotResolved`, `Drawing` (bars, legend, ticks) | titles, sizes, what matplotlib does |
| `visualization/draw.py` | `Draw` (places of the nodes), `Station` (circuit as seen by a station), `StationLabels` | lines, markers, other texts and settings; what matplotlib does |

Simplifications that matter for reading the theorems:

* Exceptions and wrong types are one value `none`; theorems about refusals say `= none`.
* A generic function on a collection is an arbitrary function of the model type; nothing is assumed about it.
* `numpy` rounding (`round(x, n)`) is round-half-even on reals; `csingle` storage is exact.
* Dictionaries keep insertion order; sharing of list and dictionary objects is modelled only where a property
  depends on it (`Tables`, `Heap`, `CompHeap`, `PR.markFirst`).
* Channel arguments are natural numbers in optical builders; Python's negative indices are modelled where the code's own
  checks admit them (`Classical`, `Plot`).
* Two photons of pulse width zero make the code divide by zero; Lean's division gives 0 there. Theorems about overlaps and
  measured probabilities therefore require pulse widths other than zero (`RealWidth`, `RealWidths`, `ElementStage`).

## Findings

Each is a theorem (name in parentheses) about the model of the code as it is.

* Name tables: the answer to a lookup of photon numbers depends on earlier lookups (`C04_values_lookup_fails`), enumeration
  order depends on history and a second iteration returns other objects (`C05_*_fails`), membership accepts non-standard
  names (`C06_membership_fails`).
* Two-channel gates on (h, 0) with h ≥ 2 act on other channels (`C07_addressing_fails`).
* `swap` adds phases above the cutoff (`C18_swap_fails`), `phase_shift_single_channel` depends on the partner channel
  (`C19_phase_fails`), `mix_generic_refl_transm` reflects with another probability (`C21_reflection_fails`),
  `custom_optical_node` applies the transposed matrix (`C54_field_fails`).
* Amplitudes below the threshold vanish (`C22_roundtrip_fails`).
* Measurement history is overwritten by later classical nodes (`C30_fails`); classical nodes change the input collection
  (`C32_fails`); copies share history entries (`C57_fails`).
* A node evaluated twice / out of order is skipped (`C31_fails`); nodes after a bridge are ignored (`C47_fails`).
* Bridges: the threshold of the first circuit is kept (`C87_threshold_fails`), a reversed naming convention exchanges channels
  (`C88_names_fails`), a next circuit without classical channels gets all of them (`C88_no_classical_fails`).
* A statistical mixture can lose states (`C34_mixture_fails`); `clean_up` changes normalisation (`C41_rescale_fails`).
* `c_shift` applies its pairs in reverse order (`C43_fails`, `C43_self_fails`); coupling is not unitary (`C56_fails`).
* Negative and off-by-one channels are accepted (`C44_fails`, `C45_fails`).
* Histogram and correlation labels (`C48_fails`, `C48_label_fails`, `C49_fails`); photon-resolved labels (`C51_fails`).
* Quantum operators: order (`C58_fails`), truncated exponential (`C61_fails`), channels of later Hamiltonians (`C62_fails`),
  the wave plate at the cutoff (`C83_fails`), off-by-one check of the controlled one (`C85_builder_fails`).
* Columns: phase lost/copied (`C53_fails`), repeated measurement (`C65_fails`), repeated history entries (`C66_fails`),
  pulse width without photon information (`C69_fails`).
* PR pairs: superpositions within the channels (`C71_gate_fails`), total probability (`C73_total_probability_fails`),
  quarter-wave plates (`C75_regular_entanglement_fails`), operator precedence in the entanglement test
  (`C77_entanglement_fails`), the measurement changes its argument (`C79_argument_unchanged_fails`).
* Checks: a collection accepts invalid states (`C90_fails`), a state accepts unknown names and wrong normalisation (`C91_*_fails`);
  the threshold can remove all components and the next node raises (`C81_fails`); `create_no_signalling_boxes` depends on
  what was before it (`C89_fails`).
* Compound circuits created without arguments share one list (`C95_fails`); an empty circuit evaluated without input gives
  None (`C96_fails`).
* A spectral node or photon-resolved measurement removes all but one component from every state of the collection it is given
  (`C97_fails`); iterating a collection with integer identifiers repeats or reorders states (`C98_fails`).
* Plotting a photon-resolved collection changes it, the next plot shows smaller probabilities (`C99_fails`).
* Setting the pulse width for some channels only makes the outcome probabilities add up to more than 1 (`C104_fails`).
* The quick delay reduces the visibility of one-photon interference more than the full delay (`C107_fails`).
* The full delay raises for a single channel (`C108_full_fails`); negative channel numbers mean different things in the full and the quick delay
  (`C108_negative_fails`).
* Cleaning up the result of `shift_direct` or `c_shift_direct` sets small components to zero in the collection that was shifted (`C110_fails`).
* Nodes given on channels 3, 0 and on 1, 2 do not commute, and a node given on 3, 0 changes the statistics of channel 1 (`C111_commute_fails`, `C112_statistics_fails`; same cause as C07).
* `InterferenceGroup.add_column(column, column_identifier=n)` with an unused `n` stores the column under the key `n` but does not write `n` into the column, contrary to its
  documentation; two calls `add_state(state, column_identifier=n)` therefore create two columns. A group made from a list of columns does not give its cumulative probability to them.
* C126: `total_probability_for_group_all_outcomes` relies on component names stored by an earlier call; it raises an exception for fresh columns and gives wrong outcomes for columns changed since.
* C130: with more than ten outcomes the legend of `plot` is ambiguous (plot.py 130, 151: colours are reused); `plot_correlations` without channel combinations and `plot_correlations_from_dict` without entries divide by zero (plot.py 295, 363), `plot` does not (line 127).
* C136: `ColumnOfStates(list_of_states=l)` keeps the list `l` itself, so two columns made from it share later additions; a State given to two columns loses the parameters of the first. The check in `single_photon_states` (column_of_states.py 527) tests the method object, which is always true, so the documented exception is never raised and components are dropped silently.
* C137: `adjust_length_of_fock_state` (collection_of_states.py 889) makes new State objects that share the list of classical values with the old ones; setting classical channels of the adjusted collection changes State objects taken from it before. `reduce` and `extend` make new lists.
* A circuit with a run of more than `2 * w + 1` nodes of one combined gate (`w` positions per page, 10 by default), for instance eleven `non_polarizing_50_50_beamsplitter`s in a row, cannot be drawn: `draw` raises an exception (`C142_fails`).
* `draw_station` with a list as `station_to_draw` draws all stations and not those of the list, contrary to its documentation (`C143_fails`).
* `create_settings_for_drawing_stations` (used by `draw_station`) keeps labels of the user only if there are labels for the optical channels: labels given for the classical channels only are overwritten, in the list of the user itself (`C144_fails`).
