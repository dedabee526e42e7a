{"id": "C01", "title": "Splitting the spin systems over workers loses, repeats and reorders nothing", "statement": "Simulator.run hands the spin systems to n_jobs workers in consecutive chunks. For every list and every positive n_jobs (and every negative n_jobs that resolves to at least one worker) there are exactly n_jobs chunks, their concatenation is the input list in order, and no two chunk sizes differ by more than one. An n_jobs value that resolves to zero workers is an error, and a value that resolves to a negative number of workers gives no chunk at all.", "quantifier": "every list of spin systems, every integer n_jobs, every CPU count", "why_tests_cant": "the number of (length, n_jobs) pairs is unbounded and the interesting boundaries (remainder, more workers than items, negative n_jobs) move with both.", "anchors": ["src/mrsimulator/simulator/__init__.py:get_chunks", "src/mrsimulator/simulator/__init__.py:Simulator.run"]}
{"id": "C02", "title": "The spectrum of a mixture is the sum of the spectra of its members, whatever the number of workers", "statement": "With decompose_spectrum='none', the data produced by Simulator.run is the sum over spin systems of the spectrum each one would give simulated alone, so it depends neither on n_jobs nor on the order of the spin systems.", "quantifier": "every list of spin systems, every order, every n_jobs >= 1", "why_tests_cant": "the result depends on state carried from one spin system to the next inside a worker; only a statement over all histories can rule the carry-over out (or exhibit it).", "anchors": ["src/c_lib/base/base_model.pyx:one_d_spectrum", "src/mrsimulator/simulator/__init__.py:Simulator.run"]}
{"id": "C03", "title": "Decomposed output has one entry per spin system, in order, whatever the number of workers", "statement": "With decompose_spectrum='spin_system', Simulator.run yields exactly one entry per spin system, entry i belonging to spin system i, for every n_jobs >= 1; an entry is empty exactly when that spin system has no site of the observed isotope.", "quantifier": "every list of spin systems, every n_jobs >= 1", "why_tests_cant": "chunk boundaries interact with the packing of per-chunk results; sampled n_jobs values miss the case of more workers than spin systems.", "anchors": ["src/mrsimulator/simulator/__init__.py:Simulator.run", "src/c_lib/base/base_model.pyx:one_d_spectrum", "src/mrsimulator/simulator/__init__.py:Simulator._as_csdm_object"]}
{"id": "C04", "title": "Decomposed spectra carry the metadata of their own spin system", "statement": "In a decomposed simulation the name, description, component label and application metadata of each dependent variable come from the spin system it belongs to, and never from another spin system.", "quantifier": "every list of spin systems with arbitrary (possibly missing) names, labels and descriptions, and every pattern of empty entries", "why_tests_cant": "a leak from one entry to the next needs a particular sequence of present and missing fields; tests use uniform lists.", "anchors": ["src/mrsimulator/simulator/__init__.py:Simulator._as_csdm_object", "src/mrsimulator/simulator/__init__.py:Simulator._update_name_description_application"]}
{"id": "C05", "title": "Simulator.sites lists every distinct site exactly once, in order of first appearance", "statement": "The list returned by Simulator.sites contains a site iff some spin system contains an equal site, contains no two equal sites, and orders sites by first appearance.", "quantifier": "every list of spin systems", "why_tests_cant": "needs all duplication patterns.", "anchors": ["src/mrsimulator/simulator/__init__.py:Simulator.sites", "src/mrsimulator/simulator/__init__.py:Sites"]}
{"id": "C06", "title": "Isotope queries return each matching isotope exactly once, sorted", "statement": "Simulator.get_isotopes(spin_I) returns, without duplicates and in sorted order, exactly the isotopes that occur in some spin system and whose spin equals spin_I (all of them when spin_I is None); SpinSystem.get_isotopes(spin_I) keeps one entry per matching site in site order.", "quantifier": "every list of spin systems and every spin query that is a multiple of 1/2 (the documented domain)", "why_tests_cant": "needs all multiset patterns of isotopes.", "anchors": ["src/mrsimulator/simulator/__init__.py:Simulator.get_isotopes", "src/mrsimulator/spin_system/__init__.py:SpinSystem.get_isotopes", "src/mrsimulator/spin_system/__init__.py:allowed_isotopes"]}
{"id": "C07", "title": "Zeeman states enumerate every combination of magnetic quantum numbers exactly once", "statement": "For a spin system with sites of spin I_1..I_n, SpinSystem.zeeman_energy_states lists every tuple (m_1..m_n) with m_k in {-I_k, -I_k+1, ..., I_k} exactly once, in lexicographic order, prod(2 I_k + 1) of them in total.", "quantifier": "every number of sites and every assignment of spins", "why_tests_cant": "the number of sites is unbounded; the ordering is produced by nested Kronecker products.", "anchors": ["src/c_lib/base/base_model.pyx:get_zeeman_states", "src/mrsimulator/spin_system/__init__.py:SpinSystem.zeeman_energy_states"]}
{"id": "C08", "title": "all_transitions enumerates every ordered pair of energy states exactly once", "statement": "SpinSystem.all_transitions returns every (initial, final) pair of Zeeman states exactly once, ordered by initial state and then final state: s*s transitions for s states.", "quantifier": "every spin system", "why_tests_cant": "quadratic in an exponential number of states; only small systems can be enumerated by a test.", "anchors": ["src/mrsimulator/spin_system/__init__.py:SpinSystem._all_transitions", "src/mrsimulator/spin_system/__init__.py:SpinSystem.all_transitions"]}
{"id": "C09", "title": "A single-channel transition query selects exactly the transitions it describes", "statement": "For a method with one channel whose isotope occurs in the spin system, an event selects a transition iff, for some P entry of the query, the changes of quantum number on the channel's sites are a rearrangement of that entry padded with zeros and the change on every other site is zero, and (when the query has D) the same holds for the changes of the squared quantum numbers with some D entry. Every selected transition appears once and in the order of all_transitions.", "quantifier": "every spin system, every channel, every query", "why_tests_cant": "permutations, padding and set intersection over an unbounded number of sites.", "anchors": ["src/mrsimulator/method/utils.py:query_permutations", "src/mrsimulator/method/utils.py:get_symmetry_indexes", "src/mrsimulator/method/__init__.py:Method._get_transition_pathways"]}
{"id": "C10", "title": "Absent channel: no pathway; query longer than the number of sites: error", "statement": "If the isotope of a channel is absent from the spin system, the event selects no transition (hence the method has no pathway). If a query entry is longer than the number of sites of that channel isotope, a ValueError is raised. In every other single-channel case there is no error.", "quantifier": "every spin system, every channel list, every query", "why_tests_cant": "decision logic over unbounded inputs, including the order of the two checks.", "anchors": ["src/mrsimulator/method/utils.py:query_permutations"]}
{"id": "C11", "title": "Transition pathways are exactly the combinations of the per-event selections", "statement": "Method.get_transition_pathways returns every sequence that takes one selected transition for each event (in the order of dimensions, then events), each exactly once, in lexicographic order; the number of pathways is the product of the per-event counts and is zero as soon as one event selects nothing.", "quantifier": "every method (any number of dimensions and events) and spin system", "why_tests_cant": "unbounded number of events.", "anchors": ["src/mrsimulator/method/__init__.py:Method._get_transition_pathways_np", "src/mrsimulator/method/utils.py:cartesian_product"]}
{"id": "C12", "title": "A multi-channel query combines the channels independently", "statement": "For a method with several channels an event selects a transition iff every channel's sites match some entry of that channel's query (up to rearrangement and zero padding) and all remaining sites are unchanged; the result does not depend on any hidden iteration order and never fails when every channel isotope is present in sufficient number.", "quantifier": "every number of channels, every query, every spin system", "why_tests_cant": "the combination logic over several channels depends on numpy broadcasting and set iteration order.", "anchors": ["src/mrsimulator/method/utils.py:query_permutations"]}
{"id": "C13", "title": "Coherence order, P and D of a transition and the transition filter agree with their definitions", "statement": "For every transition p is the sum over sites of (final - initial), P the list of those differences and D the list of differences of squares; reversing a transition negates all three; TransitionList.filter(P, D) with one search entry per site keeps, in order, exactly the members that satisfy every given criterion.", "quantifier": "every transition and transition list", "why_tests_cant": "arbitrary lengths.", "anchors": ["src/mrsimulator/transition/base.py:Transition", "src/mrsimulator/transition/pathway.py:TransitionList.filter"]}
{"id": "C14", "title": "The central-transition Bloch decay method observes the central transition and nothing else", "statement": "For a single-site spin system of any spin I, the query of BlochDecayCTSpectrum selects exactly the transition +1/2 -> -1/2 when I is half-integer and nothing when I is integer; the query of BlochDecaySpectrum selects exactly the 2I transitions m -> m-1.", "quantifier": "every spin quantum number I", "why_tests_cant": "I is unbounded in the claim; tests check one or two isotopes.", "anchors": ["src/mrsimulator/methods/__init__.py", "src/mrsimulator/methods/methods_data.json", "src/mrsimulator/method/utils.py"]}
{"id": "C15", "title": "Multiple-quantum VAS methods select exactly the advertised symmetric transition", "statement": "For ThreeQ/FiveQ/SevenQ_VAS on a nucleus of half-integer spin I >= n/2, the first dimension selects exactly one single-site transition, the symmetric n-quantum transition (-n/2 -> +n/2, or +n/2 -> -n/2 when I = n/2), and the second dimension exactly +1/2 -> -1/2.", "quantifier": "every half-integer spin and every n", "why_tests_cant": "range over all spins.", "anchors": ["src/mrsimulator/methods/mqvas.py:MQ_VAS.update"]}
{"id": "C16", "title": "Satellite-transition VAS methods select exactly the pair of satellite transitions", "statement": "For ST1_VAS and ST2_VAS on a nucleus of half-integer spin I >= 3/2 (5/2) the first dimension selects exactly the two transitions +st -> st-1 and -(st-1) -> -st, st = 3/2 (5/2), and the second exactly +1/2 -> -1/2.", "quantifier": "every half-integer spin", "why_tests_cant": "range over all spins.", "anchors": ["src/mrsimulator/methods/stvas.py:ST_VAS.update"]}
{"id": "C17", "title": "The built-in shear removes the fourth-rank broadening", "statement": "For every (spin, order) pair supported by the MQ_VAS and ST_VAS classes, in the affine combination applied to the first dimension the second-order quadrupolar contribution of rank four of the selected first-dimension transition cancels against that of the central transition, and the two weights add to one.", "quantifier": "every entry of the built-in tables, in exact arithmetic", "why_tests_cant": "a numerical test only compares spectra within a tolerance; a wrong table entry broadens a spectrum silently.", "anchors": ["src/mrsimulator/methods/mqvas.py", "src/mrsimulator/methods/stvas.py", "src/c_lib/include/frequency/spin_transition_functions.h:STF_cL"]}
{"id": "C18", "title": "Event parameters: the most specific value wins", "statement": "When a method is parsed, an event parameter given on the event keeps its value and otherwise takes the method-level value; the method-level values disappear from the top level; nothing else changes. When a generic named method is constructed, the value on the event wins over the keyword argument, which wins over the template's global value and the template event's own value.", "quantifier": "every method dictionary and every subset of given parameters", "why_tests_cant": "all combinations of present and missing keys over unboundedly many events.", "anchors": ["src/mrsimulator/method/utils.py:expand_spectral_dimension_object", "src/mrsimulator/methods/utils.py:_gen_event", "src/mrsimulator/methods/utils.py:generate_method_from_template"]}
{"id": "C19", "title": "Constructing a method does not change the caller's arguments", "statement": "Constructing a method from a list of spectral-dimension dictionaries leaves the list and its dictionaries unchanged, so that constructing twice from the same arguments gives equal methods.", "quantifier": "every argument list", "why_tests_cant": "an aliasing property over all inputs and call histories.", "anchors": ["src/mrsimulator/methods/utils.py:generate_method_from_template"]}
{"id": "C20", "title": "Named methods reject inconsistent dimensions and forbidden keys", "statement": "A named method accepts a list of spectral dimensions iff it has exactly the method's number of dimensions and no event sets a forbidden attribute; every other input is rejected with an error and no object is created.", "quantifier": "every spectral-dimension argument", "why_tests_cant": "decision logic over unbounded lists.", "anchors": ["src/mrsimulator/methods/base.py:BaseNamedMethod", "src/mrsimulator/methods/utils.py:prepare_method_structure", "src/mrsimulator/methods/utils.py:_check_rotor_frequency"]}
{"id": "C21", "title": "Serialising a method and reading it back gives the same events", "statement": "For every method, reading back the dictionary produced by Method.json gives the same spectral dimensions with the same number of events and the same value of magnetic flux density, rotor frequency, rotor angle, fraction and (for non-named methods) transition query in every event.", "quantifier": "every method", "why_tests_cant": "the serialiser drops values equal to the first event's and empty events; all equality patterns matter.", "anchors": ["src/mrsimulator/method/__init__.py:Method.json", "src/mrsimulator/method/__init__.py:Method.parse_dict_with_units", "src/mrsimulator/method/utils.py:expand_spectral_dimension_object", "src/mrsimulator/method/event.py:Event.json"]}
{"id": "C22", "title": "Updating the dimensions from an experiment assigns each dimension its own data", "statement": "After Method.update_spectral_dimension_attributes_from_experiment, each spectral dimension has the count, width and offset of the matching dimension of the experiment; in particular, for an experiment with the layout that the simulator itself produces for the method, the method is unchanged.", "quantifier": "every number of dimensions", "why_tests_cant": "ordering conventions between two objects; single-dimension tests cannot see them.", "anchors": ["src/mrsimulator/method/__init__.py:Method.update_spectral_dimension_attributes_from_experiment", "src/mrsimulator/simulator/__init__.py:Simulator._as_csdm_object", "src/mrsimulator/utils/__init__.py:get_spectral_dimensions"]}
{"id": "C23", "title": "Quantities with units survive serialisation", "statement": "For every Parseable object, parsing the dictionary produced by .json() gives back the same value for every unit-bearing attribute, and parsing rejects a value whose unit has the wrong dimension.", "quantifier": "every attribute table, every unit assignment and every value", "why_tests_cant": "all combinations of attributes and alternative units.", "anchors": ["src/mrsimulator/utils/parseable.py:Parseable.parse_dict_with_units", "src/mrsimulator/utils/parseable.py:Parseable.json", "src/mrsimulator/utils/parseable.py:enforce_units"]}
{"id": "C24", "title": "Parsing does not change the caller's dictionary", "statement": "parse_dict_with_units of Site, Coupling, SpinSystem and Method leaves the dictionary it is given unchanged, so parsing the same dictionary twice gives the same result.", "quantifier": "every dictionary", "why_tests_cant": "an aliasing property over all inputs.", "anchors": ["src/mrsimulator/spin_system/site.py:Site.parse_dict_with_units", "src/mrsimulator/spin_system/coupling.py:Coupling.parse_dict_with_units", "src/mrsimulator/spin_system/__init__.py:SpinSystem.parse_dict_with_units", "src/mrsimulator/utils/parseable.py:Parseable.parse_dict_with_units"]}
{"id": "C25", "title": "A serialised coupling can be read back", "statement": "For every Coupling object, Coupling.parse_dict_with_units accepts the dictionary produced by Coupling.json and gives back an equal coupling.", "quantifier": "every combination of present and missing tensors", "why_tests_cant": "failure needs particular field combinations.", "anchors": ["src/mrsimulator/spin_system/coupling.py:Coupling", "src/mrsimulator/spin_system/tensors.py"]}
{"id": "C26", "title": "reduced_dict removes exactly the missing and the excluded entries", "statement": "The reduced dictionary of any nested object contains, at every depth, exactly the entries whose value is not None and whose key is not excluded, with isotopes and channels replaced by their symbols, and with all other values unchanged.", "quantifier": "every nested dictionary and every exclusion list", "why_tests_cant": "unbounded nesting depth.", "anchors": ["src/mrsimulator/utils/extra.py:_reduce_dict"]}
{"id": "C27", "title": "Flattening a nested dictionary loses no entry", "statement": "flatten_dict maps distinct leaves of a nested dictionary to distinct keys and keeps every leaf value.", "quantifier": "every nested dictionary", "why_tests_cant": "collisions appear only at depth three or more.", "anchors": ["src/mrsimulator/utils/__init__.py:flatten_dict", "src/mrsimulator/simulator/__init__.py:Sites.to_pd"]}
{"id": "C28", "title": "Fit-parameter names address the attribute they were made from", "statement": "For every fit parameter created by make_LMFIT_params from a simulator, decoding its name gives the path of the attribute it was created from, distinct attributes have distinct names, and writing through the name changes that attribute and nothing else.", "quantifier": "every simulator (any number of spin systems, sites, couplings) and every supported attribute", "why_tests_cant": "string rewriting over unboundedly many indices.", "anchors": ["src/mrsimulator/utils/spectral_fitting.py:_str_encode", "src/mrsimulator/utils/spectral_fitting.py:_str_decode", "src/mrsimulator/utils/spectral_fitting.py:_traverse_dictionaries", "src/mrsimulator/utils/spectral_fitting.py:make_LMFIT_params"]}
{"id": "C29", "title": "Exactly one abundance is the dependent one and abundances add to 100", "statement": "make_LMFIT_params rescales the abundances so that they add to 100, and for two or more spin systems exactly one abundance parameter - that of the last spin system - is given by an expression, namely 100 minus all the others; so whatever values a fit assigns to the free ones, the total is 100.", "quantifier": "every number of spin systems and every list of abundances with non-zero total", "why_tests_cant": "a substring test on decimal numerals must be right for every number of spin systems.", "anchors": ["src/mrsimulator/utils/spectral_fitting.py:make_LMFIT_params"]}
{"id": "C30", "title": "Bounds are put on asymmetry parameters and abundances only", "statement": "make_LMFIT_params bounds a parameter to [0, 1] iff it is an asymmetry (eta) attribute and to [0, 100] iff it is an abundance.", "quantifier": "every parameter name the package can generate", "why_tests_cant": "substring tests on generated names.", "anchors": ["src/mrsimulator/utils/spectral_fitting.py:make_LMFIT_params"]}
{"id": "C31", "title": "Bulk single-site generation keeps entries aligned and drops only negligible ones", "statement": "single_site_system_generator returns, in order, one spin system for each index whose abundance exceeds rtol times the largest abundance, built from the entries of all lists at that same index (scalars being repeated); lists of different lengths are rejected.", "quantifier": "every set of input lists and scalars", "why_tests_cant": "alignment across many optional lists.", "anchors": ["src/mrsimulator/utils/collection.py:single_site_system_generator"]}
{"id": "C32", "title": "Dimension coordinates are the centred grid, and survive export and re-import", "statement": "For every spectral dimension with count n, coordinates_Hz has n equally spaced entries with spacing spectral_width/n, equals the reference offset at index n//2, and lies inside a window of width spectral_width; exporting to CSDM and re-importing with get_spectral_dimensions gives back count, spectral_width and reference_offset.", "quantifier": "every count, width and offset", "why_tests_cant": "parity of the count and sign conventions.", "anchors": ["src/mrsimulator/method/spectral_dimension.py:SpectralDimension", "src/mrsimulator/utils/__init__.py:get_spectral_dimensions"]}
{"id": "C33", "title": "A line is recorded at its own frequency", "statement": "A single sharp line of frequency f inside the spectral window is recorded in the bin whose reported coordinate (coordinates_Hz) is nearest to f.", "quantifier": "every count, width, offset and frequency, both signs of the gyromagnetic ratio", "why_tests_cant": "the parity of count and the boundary of bins.", "anchors": ["src/c_lib/base/base_model.pyx:one_d_spectrum", "src/c_lib/lib/method.c:create_plans_for_events_in_dimension", "src/c_lib/lib/interpolation.c:delta_fn_interpolation", "src/mrsimulator/method/spectral_dimension.py:SpectralDimension.coordinates_Hz"]}
{"id": "C34", "title": "The affine transformation applied is the one requested", "statement": "For every accepted 2x2 affine matrix (first element non-zero), the in-place scaling and shearing performed during a 2D simulation maps each pair of frequencies (in Hz) to the product of the matrix with the pair, for any pair of increments; matrices of the wrong size or with a zero first element are rejected.", "quantifier": "every accepted matrix, increments and frequencies", "why_tests_cant": "continuous quantifiers; sequential in-place updates.", "anchors": ["src/mrsimulator/method/__init__.py:Method.validate_affine_matrix", "src/c_lib/base/base_model.pyx:one_d_spectrum", "src/c_lib/lib/frequency_averaging.c:two_dimensional_averaging"]}
{"id": "C35", "title": "Binning a triangle puts in every bin exactly the area that lies over it", "statement": "For every three vertex frequencies and amplitude, triangle binning adds to bin k exactly the area of the amplitude-normalised triangle between k and k+1 for every bin of the spectrum; when all frequencies lie inside the spectrum the total added is the amplitude; other bins are unchanged; with non-negative amplitude no bin decreases.", "quantifier": "every real frequency triple, amplitude and number of points", "why_tests_cant": "continuous inputs, clipping on both sides; tests check a handful of triangles with tolerances.", "anchors": ["src/c_lib/lib/interpolation.c:__triangle_interpolation", "src/c_lib/lib/interpolation.c:left_triangle_interpolate", "src/c_lib/lib/interpolation.c:right_triangle_interpolate"]}
{"id": "C36", "title": "Binning never touches memory outside the spectrum", "statement": "For every input, the binning routines read and write only spec[0 .. points-1].", "quantifier": "every frequency triple (or frequency) and number of points", "why_tests_cant": "an out-of-bounds touch that adds 0.0 changes no result and passes every numerical test.", "anchors": ["src/c_lib/lib/interpolation.c"]}
{"id": "C37", "title": "A sharp line deposits its amplitude, non-negatively, in the nearest bins", "statement": "delta_fn_interpolation distributes the amplitude over at most two adjacent bins with non-negative weights that add to one when the line is at least half a bin inside the spectrum, puts nothing outside, and never makes a bin negative when the amplitude is non-negative.", "quantifier": "every real frequency, amplitude and number of points", "why_tests_cant": "continuous inputs; the failing interval is half a bin wide at the edge.", "anchors": ["src/c_lib/lib/interpolation.c:delta_fn_interpolation", "src/c_lib/lib/frequency_averaging.c:__1D_averaging"]}
{"id": "C38", "title": "Powder averaging visits every triangle of the octant exactly once", "statement": "For every integration density n >= 1 the averaging loop visits each of the n^2 triangles of the octant grid exactly once, never uses a vertex index outside the (n+1)(n+2)/2 grid points, and terminates.", "quantifier": "every integration density", "why_tests_cant": "a pointer-stepping loop for unbounded n.", "anchors": ["src/c_lib/lib/interpolation.c:octahedronInterpolation", "src/c_lib/lib/octahedron.c:get_total_amplitude", "src/c_lib/lib/interpolation.c:octahedronDeltaInterpolation"]}
{"id": "C39", "title": "Orientation grid: unit directions, right count, no division by zero", "statement": "For every integration density n >= 1 exactly (n+1)(n+2)/2 directions are generated per octant, in the order assumed by the averaging loop, each with squared direction cosines adding to one and a positive weight; the number of orientations reported by the configuration equals the number simulated.", "quantifier": "every integration density and volume", "why_tests_cant": "unbounded n.", "anchors": ["src/c_lib/lib/octahedron.c:octahedronGetDirectionCosineSquareAndWeightsOverOctant", "src/c_lib/lib/schemes.c:MRS_create_averaging_scheme", "src/mrsimulator/simulator/config.py:ConfigSimulator.get_orientations_count"]}
{"id": "C40", "title": "Sideband orders follow the FFT order", "statement": "For every number of sidebands n the list of sideband frequencies has n entries, entry i being the representative of i modulo n in [-n/2, n/2) times the rotor frequency.", "quantifier": "every n and rotor frequency", "why_tests_cant": "parity; unbounded n.", "anchors": ["src/c_lib/include/vm_common.h:__get_frequency_in_FFT_order"]}
{"id": "C41", "title": "Frequency-contribution switches act on every site of the event they belong to", "statement": "Each of the six frequency contributions of an event is included for every site whose quantum number changes iff it is enabled for that event.", "quantifier": "every spin system, transition and flag array", "why_tests_cant": "a pointer that is advanced per site; needs at least two active sites and non-default flags.", "anchors": ["src/c_lib/lib/mrsimulator.c:MRS_rotate_single_site_interaction_components", "src/mrsimulator/method/event.py:Event._freq_contrib_flags", "src/c_lib/lib/simulation.c:__mrsimulator_core"]}
{"id": "C42", "title": "Every event is simulated with its own rotor frequency and angle", "statement": "After the dimensions are created, each event of each dimension refers to a plan computed for that event's rotor frequency and rotor angle.", "quantifier": "every list of events", "why_tests_cant": "needs two events differing in both parameters; undefined behaviour rather than a wrong number.", "anchors": ["src/c_lib/lib/method.c:MRS_set_event", "src/c_lib/lib/method.c:create_plans_for_events_in_dimension"]}
{"id": "C43", "title": "Mixing static and spinning events is always rejected", "statement": "A method that contains both an event with zero rotor frequency and one with non-zero rotor frequency is rejected with an error, whatever the order of the events; a method with only one kind is accepted and uses one sideband when static and the configured number when spinning.", "quantifier": "every sequence of events", "why_tests_cant": "order-dependent state in a loop.", "anchors": ["src/c_lib/base/base_model.pyx:one_d_spectrum"]}
{"id": "C44", "title": "Powder averaging restores its shared phase buffer", "statement": "The phase buffer shared by all simulations of a run, which is stepped by a quarter turn for each octant, has its original content after every averaging pass, and octant j uses exactly the azimuthal angles shifted by j quarter turns.", "quantifier": "every buffer content and any number of passes", "why_tests_cant": "shared mutable state; drift would appear only after many passes.", "anchors": ["src/c_lib/lib/angular_momentum.c:__batch_wigner_rotation"]}
{"id": "C45", "title": "Spin transition functions obey their symmetries", "statement": "The spin transition functions change sign when initial and final states are exchanged; the first-order quadrupolar one vanishes for symmetric transitions and is odd under inversion of both states; the second-order ones vanish for spin 1/2 and are even under (m_f, m_i) -> (-m_i, -m_f). Each function agrees with the documented operator expression (with exact square roots) to within 2e-10 relative to the terms it sums.", "quantifier": "every spin and every pair of quantum numbers", "why_tests_cant": "continuous/unbounded arguments.", "anchors": ["src/c_lib/include/frequency/spin_transition_functions.h"]}
{"id": "C46", "title": "Tensor orientations depend on the sign of the Euler angle", "statement": "The cosine/sine pair used to build rotation matrices is even/odd in the angle: rotating by -beta undoes rotating by beta.", "quantifier": "every angle", "why_tests_cant": "table lookup with sign handling; tests use positive angles.", "anchors": ["src/c_lib/include/vm.h:get_cos_sin_from_table", "src/c_lib/lib/angular_momentum.c:wigner_d_matrices", "src/c_lib/lib/angular_momentum.c:single_wigner_rotation"]}
{"id": "C47", "title": "Collapsing a powder pattern to a line happens only for a line", "statement": "The averaging replaces the powder pattern of a sideband by a sharp line only if all orientations have the same frequency.", "quantifier": "every frequency array over the orientation grid", "why_tests_cant": "needs a tensor oriented so that the three grid corners coincide.", "anchors": ["src/c_lib/lib/frequency_averaging.c:__1D_averaging"]}
{"id": "C48", "title": "Random Czjzek tensors are symmetric and traceless", "statement": "Every tensor sampled by CzjzekDistribution is symmetric and traceless, whatever the random draw.", "quantifier": "every draw of the random numbers and every sigma", "why_tests_cant": "continuous random inputs.", "anchors": ["src/mrsimulator/models/czjzek.py"]}
{"id": "C49", "title": "Haeberlen parameters are in range and determine the tensor", "statement": "For every traceless symmetric tensor with eigenvalues ordered by magnitude, the zeta and eta returned satisfy 0 <= eta <= 1 and give the eigenvalues back through get_principal_components; a zero tensor is the only exception.", "quantifier": "every traceless triple of eigenvalues", "why_tests_cant": "continuous inputs.", "anchors": ["src/mrsimulator/models/utils.py:get_Haeberlen_components", "src/mrsimulator/models/utils.py:get_principal_components"]}
{"id": "C50", "title": "The polar grid used for distributions is invertible", "statement": "Converting (zeta, eta) with 0 <= eta <= 1 to (x, y) by x_y_from_zeta_eta and back by x_y_to_zeta_eta gives the original pair.", "quantifier": "every zeta and every eta in [0, 1]", "why_tests_cant": "continuous inputs, branch at the diagonal.", "anchors": ["src/mrsimulator/models/utils.py:x_y_from_zeta_eta", "src/mrsimulator/models/utils.py:x_y_to_zeta_eta"]}
{"id": "C51", "title": "The extended Czjzek model uses the given dominant tensor", "statement": "For every non-zero dominant tensor the samples of ExtCzjzekDistribution are the dominant tensor plus the scaled random perturbation.", "quantifier": "every zeta, eta, eps and draw", "why_tests_cant": "one boundary value (eta = 0, the most common one) is special.", "anchors": ["src/mrsimulator/models/czjzek.py:ExtCzjzekDistribution.rvs"]}
{"id": "C52", "title": "Signal processing applies the operations in order and keeps the input", "statement": "SignalProcessor.apply_operations returns the result of applying the listed operations one after another, each to the dependent variables it names, and leaves the data it is given unchanged.", "quantifier": "every list of operations and every data set", "why_tests_cant": "composition over unbounded lists; aliasing.", "anchors": ["src/mrsimulator/signal_processing/__init__.py:SignalProcessor.apply_operations", "src/mrsimulator/signal_processing/_base.py"]}
{"id": "C53", "title": "Apodisation preserves area, composes, and is the identity at zero width", "statement": "Exponential and Gaussian apodisation multiply the zero-time point by one (hence preserve the integral of the spectrum), never amplify any point, are even in time, exponential widths add under composition, and a zero width leaves the data unchanged.", "quantifier": "every width and time grid", "why_tests_cant": "continuous inputs.", "anchors": ["src/mrsimulator/signal_processing/apodization.py"]}
{"id": "C54", "title": "Object invariants survive every sequence of assignments", "statement": "After any sequence of successful constructions and attribute assignments, a spin system has its abundance in [0, 100], every tensor its asymmetry in [0, 1], every coupling two distinct site indices, and no site of spin below 1 carries a quadrupolar tensor.", "quantifier": "every history of constructions and assignments", "why_tests_cant": "a history property; validators run only for the assigned field.", "anchors": ["src/mrsimulator/spin_system/site.py", "src/mrsimulator/spin_system/tensors.py", "src/mrsimulator/spin_system/coupling.py", "src/mrsimulator/spin_system/__init__.py"]}
{"id": "C55", "title": "Couplings only refer to sites of their spin system", "statement": "Whenever a spin system with couplings is simulated, every coupling's site indices are valid site indices of that system, so that no quantum number outside the transition is read.", "quantifier": "every spin system that can be constructed", "why_tests_cant": "an out-of-range index reads unrelated memory; tests use valid indices.", "anchors": ["src/mrsimulator/spin_system/coupling.py:Coupling.validate_site_index", "src/c_lib/lib/mrsimulator.c:MRS_rotate_coupled_site_interaction_components"]}
{"id": "C56", "title": "Typed lists hold only objects of their type", "statement": "Whatever sequence of list operations is applied, a TransitionList contains only Transition objects, a TransitionPathway likewise and a Sites list only Site objects.", "quantifier": "every sequence of operations", "why_tests_cant": "invariant over all histories.", "anchors": ["src/mrsimulator/transition/pathway.py", "src/mrsimulator/utils/abstract_list.py", "src/mrsimulator/simulator/__init__.py:Sites"]}
{"id": "C57", "title": "Isotope symbols are normalised once and for all", "statement": "Formatting an isotope string either raises an error or returns a known symbol, is idempotent, and accepts every known symbol unchanged.", "quantifier": "every string", "why_tests_cant": "unbounded strings.", "anchors": ["src/mrsimulator/spin_system/isotope.py:format_isotope_string"]}
{"id": "C58", "title": "Two-dimensional binning conserves amplitude", "statement": "For a triangle all of whose frequencies lie inside the two-dimensional window, two-dimensional binning adds exactly the amplitude in total, and its sum over the second dimension equals the one-dimensional binning of the first frequencies.", "quantifier": "every triple of frequency pairs, amplitude and grid size", "why_tests_cant": "continuous inputs with many branches.", "anchors": ["src/c_lib/lib/interpolation.c:triangle_interpolation2D"]}
{"id": "C59", "title": "Negative gyromagnetic ratio mirrors the spectrum and nothing else", "statement": "For a nucleus with negative gyromagnetic ratio the recorded data are the mirror image (index k to -k modulo n) of the accumulated data: the same multiset of values, the same total.", "quantifier": "every data array and size", "why_tests_cant": "the mirror is computed by two Fourier transforms.", "anchors": ["src/c_lib/base/base_model.pyx:one_d_spectrum"]}
{"id": "C60", "title": "The total intensity of a spectrum does not depend on the number of sidebands", "statement": "For every spinning simulation the sideband amplitudes of each orientation add up to one after normalisation, in one and in two dimensions.", "quantifier": "every number of sidebands and every phase trajectory", "why_tests_cant": "Parseval's identity for arbitrary n; tests use one n.", "anchors": ["src/c_lib/lib/mrsimulator.c:MRS_get_amplitudes_from_plan", "src/c_lib/lib/mrsimulator.c:MRS_create_plan", "src/c_lib/lib/frequency_averaging.c"]}
{"id": "C61", "title": "A spin system without selected pathway contributes nothing", "statement": "If the method selects no transition pathway from a spin system (no site of the observed isotope, or no transition of the requested symmetry), adding that spin system to the list leaves the simulated data unchanged.", "quantifier": "every list of spin systems and every place in it", "why_tests_cant": "needs all combinations of isotopes and queries; tests simulate systems that respond.", "anchors": ["src/c_lib/base/base_model.pyx:one_d_spectrum", "src/mrsimulator/simulator/__init__.py:Simulator.run"]}
{"id": "C62", "title": "Patterns that reach into the window are recorded", "statement": "In a one-dimensional simulation every sideband whose frequencies fall inside the spectral window contributes its full amplitude to the spectrum.", "quantifier": "every frequency array, offset, number of sidebands and octants", "why_tests_cant": "the filter looks at one number per sideband; tests centre the window on the line.", "anchors": ["src/c_lib/lib/frequency_averaging.c:__1D_averaging"]}
{"id": "C63", "title": "The total intensity of a powder does not depend on the integration density", "statement": "The orientation weights of one octant, as they enter the spectrum, add up to the same total for every integration density.", "quantifier": "every integration density", "why_tests_cant": "tests compare normalised spectra.", "anchors": ["src/c_lib/lib/octahedron.c", "src/c_lib/lib/interpolation.c:octahedronInterpolation", "src/c_lib/lib/mrsimulator.c:MRS_create_plan"]}
{"id": "C64", "title": "Every dimension is offset by its own magnetic flux density", "statement": "The origin offset recorded for each dimension is computed from the flux density of that dimension's own events.", "quantifier": "every method with any number of dimensions", "why_tests_cant": "matters only when events have different flux densities.", "anchors": ["src/c_lib/base/base_model.pyx:one_d_spectrum"]}
{"id": "C65", "title": "Spectral dimensions taken from a measured dataset have its coordinates", "statement": "get_spectral_dimensions gives, for every linear dimension of a CSDM dataset (either sign of the increment, with or without complex_fft), a spectral dimension whose coordinates_Hz are the coordinates of the dataset in ascending order.", "quantifier": "every count, increment, offset, and complex_fft flag", "why_tests_cant": "tests use datasets exported by the simulator itself.", "anchors": ["src/mrsimulator/utils/__init__.py:get_spectral_dimensions", "src/mrsimulator/method/spectral_dimension.py:SpectralDimension.coordinates_Hz"]}
{"id": "C66", "title": "A quantity means the same in every accepted unit", "statement": "A quantity given in any unit that parse_dict_with_units accepts enters the simulation as that physical quantity, whichever accepted unit was used.", "quantifier": "every attribute, every accepted unit and every value", "why_tests_cant": "needs every attribute in every accepted unit carried through to the simulation; tests parse default units.", "anchors": ["src/mrsimulator/utils/parseable.py:Parseable.parse_dict_with_units", "src/mrsimulator/spin_system/tensors.py:SymmetricTensor", "src/mrsimulator/method/spectral_dimension.py:SpectralDimension", "src/c_lib/base/base_model.pyx:one_d_spectrum"]}
{"id": "C67", "title": "Two-dimensional binning splits a triangle by area", "statement": "Each row of the map receives from a triangle the share of its amplitude that corresponds to the part of its area in that row, so that a triangle and its mirror image in the second dimension are binned to mirror images.", "quantifier": "every triangle and every window", "why_tests_cant": "needs triangles across every edge of the window; tests compare whole spectra with reference files.", "anchors": ["src/c_lib/lib/interpolation.c:triangle_interpolation2D"]}
{"id": "C68", "title": "Two-dimensional binning is defined for every triangle", "statement": "Binning a triangle into a two-dimensional map never uses a value that was not computed.", "quantifier": "every triangle and every window", "why_tests_cant": "an uninitialised variable holds whatever was on the stack, often something harmless.", "anchors": ["src/c_lib/lib/interpolation.c:triangle_interpolation2D"]}
{"id": "C69", "title": "Two-dimensional averaging stays inside its arrays", "statement": "Averaging a two-dimensional spectrum reads only inside the amplitude arrays, and the result depends only on what is inside them.", "quantifier": "every number of octants, sidebands and orientations", "why_tests_cant": "reads behind the end of an array usually succeed silently.", "anchors": ["src/c_lib/lib/frequency_averaging.c:two_dimensional_averaging"]}
{"id": "C70", "title": "The rotation matrices are Wigner's", "statement": "Every element of the rank 2 and rank 4 matrices that the library evaluates from tabulated polynomials, in the full form, in the half form used for the powder orientations and in the column used for the rotor angle, equals Wigner's formula for the reduced rotation matrix element to the precision of the tabulated constants.", "quantifier": "every angle and every pair of indices", "why_tests_cant": "tests compare the matrices at a handful of angles with reference numbers.", "anchors": ["src/c_lib/lib/angular_momentum.c:wigner_d_matrices", "src/c_lib/lib/angular_momentum.c:wigner_d_matrices_from_exp_I_beta", "src/c_lib/lib/angular_momentum.c:wigner_dm0_vector"]}
{"id": "C71", "title": "Euler angles rotate tensors", "statement": "Rotating the components of an interaction tensor by Euler angles gives the components of the tensor in the rotated frame; real tensors stay real; skipping the rotation for zero angles changes nothing; and the half-sized rotation used for the powder gives what the full rotation gives.", "quantifier": "every tensor and all Euler angles", "why_tests_cant": "tests check a few rotated line shapes against reference files.", "anchors": ["src/c_lib/lib/angular_momentum.c:single_wigner_rotation", "src/c_lib/lib/angular_momentum.c:__wigner_rotation_2", "src/c_lib/include/vm.h:get_cos_sin_from_table"]}
{"id": "C72", "title": "Every interaction shifts a crystallite as its tensor says", "statement": "The contribution of a shielding, of the first order of a quadrupole coupling, of a J-coupling and of a dipolar coupling to the frequency of a transition is the spin factor of the transition times the value of the interaction's Cartesian tensor (given by zeta, eta and Euler angles) along the direction of the field, its anisotropic part being scaled by (3cos^2 - 1)/2 of the rotor angle.", "quantifier": "all tensor parameters, Euler angles, field directions, rotor angles and transitions", "why_tests_cant": "tests compare a few powder line shapes with reference files from other programs.", "anchors": ["src/c_lib/include/frequency/spatial_orientation_tensor_components.h", "src/c_lib/include/frequency/frequency_tensor_components.h", "src/c_lib/lib/mrsimulator.c:MRS_get_normalized_frequencies_from_plan"]}
{"id": "C73", "title": "The frequency of a transition is the difference of two energies", "statement": "For any spin system the frequency that the library computes for a transition of a static crystallite is the energy of the final state less the energy of the initial state, the energies being those of perturbation theory: first order in all interactions and second order in the quadrupole couplings.", "quantifier": "any number of sites of any spin, any couplings, any field strength and direction, any pair of states", "why_tests_cant": "frequencies of coupled multi-site systems have no closed reference; tests use one or two sites.", "anchors": ["src/c_lib/lib/mrsimulator.c:MRS_rotate_single_site_interaction_components", "src/c_lib/lib/mrsimulator.c:MRS_rotate_coupled_site_interaction_components", "src/c_lib/lib/mrsimulator.c:MRS_rotate_components_from_PAS_to_common_frame"]}
{"id": "C74", "title": "The second-order quadrupole frequency is that of perturbation theory", "statement": "The second-order quadrupole contribution to the frequency of a transition, which the library assembles from components of ranks 0, 2 and 4 with tabulated constants, equals the Rayleigh-Schroedinger sum over intermediate states of the quadrupole Hamiltonian for the spin matrices of the nucleus.", "quantifier": "every spin, every pair of states, every field gradient tensor and orientation", "why_tests_cant": "tests compare powder line shapes of selected spins.", "anchors": ["src/c_lib/include/frequency/spatial_orientation_tensor_components.h:sSOT_2nd_order_electric_quadrupole_tensor_components", "src/c_lib/include/frequency/frequency_tensor_components.h:FCF_2nd_order_electric_quadrupole_tensor_components", "src/c_lib/include/frequency/spin_transition_functions.h:STF_cL"]}
{"id": "C75", "title": "A spinning sample gives the average frequency and the phase gathered over the rotor period", "statement": "For a sample rotating about an axis, the frequency the library places a crystallite at is the average over a rotor period of the momentary energy difference between the two states, and the phases it exponentiates before the Fourier transform are 2 pi times the integral of the momentary frequency minus that average, at the N sampling times of the period.", "quantifier": "every spin system, pair of states, crystallite orientation, rotor axis, positive rotor frequency and number of samples", "why_tests_cant": "tests compare spinning spectra of a few spin systems with stored ones; the momentary frequency is never computed by the library.", "anchors": ["src/c_lib/lib/mrsimulator.c:MRS_get_normalized_frequencies_from_plan", "src/c_lib/lib/mrsimulator.c:MRS_get_amplitudes_from_plan", "src/c_lib/lib/angular_momentum.c:wigner_dm0_vector"]}
{"id": "C76", "title": "Sideband intensities converge to the Fourier coefficients of the signal", "statement": "The intensity given to the m-th spinning sideband of a crystallite is, up to an error that decreases as one over the number of sidebands, the squared modulus of the m-th Fourier coefficient of the signal exp(i phase) of the rotating crystallite.", "quantifier": "every spin system, pair of states, orientation, rotor axis and frequency, order m and number of sidebands", "why_tests_cant": "a convergence statement; tests compare with stored spectra of a fixed number of sidebands.", "anchors": ["src/c_lib/lib/mrsimulator.c:MRS_get_amplitudes_from_plan", "src/c_lib/lib/simulation.c:__mrsimulator_core"]}
{"id": "C77", "title": "Integration volume hemisphere samples the directions of the whole sphere", "statement": "With integration_volume 'octant' the frequency stored for a grid point is that of a crystallite seen along the grid point; with 'hemisphere' the frequencies of octants one to four are those along the grid points turned by quarter turns, which together with inversion symmetry are all the directions of the octahedral grid on the sphere. The in-place phase changes leave no trace for the next transition or spin system.", "quantifier": "every grid density, spin system, pair of states, list of transitions handled with one scheme, and direction with integer coordinates |x|+|y|+|z| equal to the density", "why_tests_cant": "for all directions, densities and histories of the scheme; tests compare stored spectra of one density.", "anchors": ["src/c_lib/lib/angular_momentum.c:__batch_wigner_rotation", "src/c_lib/lib/schemes.c:averaging_scheme_setup", "src/c_lib/lib/mrsimulator.c:MRS_get_normalized_frequencies_from_plan"]}
{"id": "C78", "title": "The cheap octant average equals the hemisphere average for aligned systems", "statement": "When all Euler angles of all tensors are zero, a simulation with integration_volume 'octant' and one with 'hemisphere' add the same intensity to every bin of the spectrum, with and without sample spinning.", "quantifier": "every grid density, number of sidebands, rotor frequency and angle, window, field, list of sites and couplings with zero Euler angles, transition, and content of uninitialised phase rows", "why_tests_cant": "the equality is exact only because the interpolation is symmetric under reflection of the triangulation and reversal of time; tests compare a few spectra to a tolerance of some percent.", "anchors": ["src/c_lib/lib/frequency_averaging.c:one_dimensional_averaging", "src/c_lib/lib/angular_momentum.c:__batch_wigner_rotation", "src/c_lib/lib/interpolation.c:octahedronInterpolation", "src/c_lib/lib/mrsimulator.c:MRS_get_amplitudes_from_plan"]}
{"id": "C79", "title": "Sideband intensities over the orientations of a powder", "statement": "When a spin system is simulated at a spinning rate with N sidebands, the entry of the amplitude array for sideband m and a crystallite orientation of the grid (one octant or four) is the weight of that orientation, divided by the number of octants, times the squared modulus of the m-th Fourier coefficient of the signal of a crystallite so oriented in the spinning rotor, up to an error that decreases as 1/N. This includes the orientation at the pole.", "quantifier": "all spin systems with upright tensors, transitions, rotor angles and frequencies, grid sizes, numbers of sidebands, octants and orientations", "why_tests_cant": "A numerical test sees the powder average, in which one orientation in thousands with the smallest weight changes nothing visible; a test of the amplitudes orientation by orientation would need an independent reference and says nothing about other systems.", "anchors": ["src/c_lib/lib/octahedron.c:octahedronGetComplexExpOfPolarAngleOverOctant", "src/c_lib/lib/mrsimulator.c:MRS_create_plan", "src/c_lib/lib/mrsimulator.c:MRS_get_amplitudes_from_plan"]}
{"id": "C80", "title": "The frequency of a transition does not depend on the order of the channels", "statement": "In a simulation the frequency of every selected transition is the difference of the energies of its two states, in which the quadrupole couplings of all sites count to second order, whichever isotope the first channel of the method names.", "quantifier": "all methods with any first channel, all spin systems with upright tensors, all transitions, fields and orientations", "why_tests_cant": "Tests simulate methods with one channel, where the observed nucleus is the one whose couplings matter.", "anchors": ["src/c_lib/base/base_model.pyx:one_d_spectrum", "src/c_lib/lib/mrsimulator.c:MRS_rotate_components_from_PAS_to_common_frame"]}
{"id": "C81", "title": "Tabulated sines and cosines are those of the angle", "statement": "The cosine and the sine that the simulation takes from its lookup table are those of the angle up to the interpolation error of the table's step (1.25e-9), for angles of any sign and of many turns, no entry outside the table is read, and sideband intensities differ from those of exact exponentials by no more than twice that relative error.", "quantifier": "all real angles up to a thousand million turns; all phase trajectories and numbers of sidebands", "why_tests_cant": "Tests compare a few spectra with reference spectra to a few digits; the faulty interval is one part in 62832 of a turn.", "anchors": ["src/c_lib/include/vm.h:get_cos_sin_from_table", "src/c_lib/include/vm.h:vm_double_complex_exp_imag_only", "src/c_lib/include/tables/trig.h:generate_table"]}
{"id": "C82", "title": "A signal processor survives saving and loading", "statement": "Reading back the dictionary that SignalProcessor.json() produces gives the processor that was written: the same operations in the same order with the same attributes and units; in the session that wrote it and in a new one.", "quantifier": "every list of operations of any of the classes, every choice of attributes, every session", "why_tests_cant": "Tests round-trip a few processors in a session in which all modules happen to be imported.", "anchors": ["src/mrsimulator/signal_processing/__init__.py:SignalProcessor.parse_dict_with_units", "src/mrsimulator/signal_processing/_base.py:ModuleOperation.json", "src/mrsimulator/signal_processing/apodization.py:Gaussian", "src/mrsimulator/signal_processing/affine.py:Shear", "src/mrsimulator/utils/parseable.py:Parseable.parse_dict_with_units"]}
{"id": "C83", "title": "A step of a fit sets exactly the parameters that are varied", "statement": "When the minimiser proposes values for any selection of the parameters of the simulator and of the signal processor, the residual is computed from a simulator and a processor in which each of those attributes has its proposed value and all others are as before; without a processor the unprocessed simulation is used.", "quantifier": "every simulator with supported attributes, every list of operations, every selection and order of parameters, all values, any simulation and processing", "why_tests_cant": "Every name is built and taken apart as a string, with indices of any number of digits; tests use two or three spin systems and always give a processor.", "anchors": ["src/mrsimulator/utils/spectral_fitting.py:_post_sim_LMFIT_params", "src/mrsimulator/utils/spectral_fitting.py:_update_post_sim_from_LMFIT_params", "src/mrsimulator/utils/spectral_fitting.py:LMFIT_min_function"]}
{"id": "C84", "title": "One-pulse and correlation methods observe the transitions they are named for, in spin systems of any size", "statement": "In a spin system with any number of sites of any isotopes, BlochDecaySpectrum observes exactly the transitions in which one site of its isotope goes from m to m-1 and all other sites keep their states; BlochDecayCTSpectrum those from 1/2 to -1/2; Cosy all pairs of such single-quantum transitions; Inadequate all pairs of a transition of two sites together, each from m to m-1, and a single-quantum transition. A spin system without such transitions contributes nothing.", "quantifier": "every spin system and isotope", "why_tests_cant": "the number of sites, spins and the number of pathways are unbounded; tests list the pathways of one pair of spins 1/2.", "anchors": ["src/mrsimulator/methods/correlation.py:Cosy.update", "src/mrsimulator/methods/correlation.py:Inadequate.update", "src/mrsimulator/methods/methods_data.json", "src/mrsimulator/method/utils.py:query_permutations"]}
{"id": "C85", "title": "Isotropic-anisotropic correlation methods correlate every site with itself", "statement": "In every pathway that ThreeQ_VAS, FiveQ_VAS, SevenQ_VAS, ST1_VAS, ST2_VAS and SSB2D select, the transitions of both dimensions are transitions of the same site (the symmetric multiple-quantum, satellite or central transition, then the central transition), and all other sites are in one and the same state throughout, so that the two frequencies belong to the same nucleus in the same surroundings.", "quantifier": "every spin system, isotope and spin", "why_tests_cant": "tests use spin systems of a single site.", "anchors": ["src/mrsimulator/methods/mqvas.py:MQ_VAS.update", "src/mrsimulator/methods/stvas.py:ST_VAS.update", "src/mrsimulator/methods/ssb2d.py:SSB2D.update", "src/mrsimulator/method/__init__.py:Method._get_transition_pathways_np"]}
{"id": "C86", "title": "The residual of a fit does not depend on the decomposition of the spectrum", "statement": "LMFIT_min_function returns the same residual whether config.decompose_spectrum is \"none\" or \"spin_system\": the sum of the processed sub-spectra of the spin systems is the processed total spectrum, and one evaluation fails exactly when the other does.", "quantifier": "every list of spin systems, method, list of signal operations and experiment", "why_tests_cant": "tests evaluate the residual with one setting and one list of operations only.", "anchors": ["src/mrsimulator/utils/spectral_fitting.py:LMFIT_min_function", "src/mrsimulator/simulator/__init__.py:Simulator._as_csdm_object", "src/mrsimulator/signal_processing/__init__.py:SignalProcessor.apply_operations"]}
{"id": "C87", "title": "A saved simulator is loaded as it was", "statement": "For every simulator, Simulator.load of the file that Simulator.save made gives a simulator equal to the saved one: same names, configuration, spin systems and methods in the same order, each method with the same transition queries, affine matrix, label and description, whatever its name; saving with or without units succeeds.", "quantifier": "every simulator with any spin systems, and any methods of the library or of the user's making, under any name", "why_tests_cant": "tests round-trip a handful of library methods in their default form; queries are removed on saving by name and put back by whichever class has that name.", "anchors": ["src/mrsimulator/simulator/__init__.py:Simulator.json", "src/mrsimulator/simulator/__init__.py:Simulator.parse_dict_with_units", "src/mrsimulator/simulator/__init__.py:Simulator.save", "src/mrsimulator/method/__init__.py:Method.json", "src/mrsimulator/methods/base.py", "src/mrsimulator/methods/utils.py", "src/mrsimulator/method/named_methods.json"]}
{"id": "C88", "title": "As the integration density grows the spectrum converges to the powder pattern", "statement": "The simulated spectrum of a powder converges, bin by bin, as Simulator.config.integration_density grows: bin k tends to a constant times the share of all orientations of the sphere whose transition frequency (the difference of the energies of the two states) is in that bin; under spinning, with more and more sidebands, to the corresponding sum over the sidebands, each orientation weighted by the intensity of the sideband. The same holds for one octant if the principal axes of all interactions are the axes of the crystal frame.", "quantifier": "every spin system, transition, field, window and bin, static or spinning at any angle and frequency", "why_tests_cant": "tests compare a few spectra at one density with stored data of other programs within a tolerance; that the values converge, and to what, is a statement about infinitely many densities.", "anchors": ["src/c_lib/lib/interpolation.c:octahedronInterpolation", "src/c_lib/lib/interpolation.c:__triangle_interpolation", "src/c_lib/lib/frequency_averaging.c:one_dimensional_averaging", "src/c_lib/lib/octahedron.c:octahedronGetDirectionCosineSquareAndWeightsOverOctant", "src/c_lib/lib/simulation.c:mrsimulator_core"]}
{"id": "C89", "title": "A spectral dimension records the fraction-weighted frequencies of its own events", "statement": "For every transition pathway of a spin system, every spectral dimension and every orientation of the averaging grid, the frequency along the dimension is the sum, over the events of that dimension, of the event's fraction times the frequency of the transition that the pathway has for this event, in the magnetic flux density of the event and averaged over the turn of the event's rotor. It depends neither on the other dimensions, nor on the pathways handled before, nor on what memory held.", "quantifier": "any number of dimensions and events, any pathways, spin systems, fields, rotor angles and frequencies, fractions, all orientations of any grid", "why_tests_cant": "which transition belongs to which event, the accumulation with the refresh flag, and the state carried from pathway to pathway in the same C structures show only in combinations of several events, dimensions and pathways; tests run a few methods with equal events.", "anchors": ["src/c_lib/lib/simulation.c:__mrsimulator_core", "src/c_lib/lib/mrsimulator.c:MRS_get_normalized_frequencies_from_plan", "src/c_lib/base/base_model.pyx:one_d_spectrum", "src/mrsimulator/method/spectral_dimension.py:SpectralDimension.events"]}
{"id": "C90", "title": "Multiple-quantum methods give an isotropic first dimension at the magic angle", "statement": "ThreeQ_VAS, FiveQ_VAS and SevenQ_VAS with their own affine matrix, on the magic angle: for every site and every spin that the method supports, all orientations have one and the same frequency along the first dimension, the weighted sum of the isotropic frequencies of the two transitions. So the two-dimensional spectrum is a ridge: all rows are multiples of one shape, only rows within one bin of that frequency are occupied, and their weights add up to one with their centre at that frequency.", "quantifier": "all methods of the family, spins, sites (tensor parameters, orientations), fields, windows, increments of both dimensions, grids, numbers of sidebands", "why_tests_cant": "it needs the cancellation of a fourth-rank tensor for all orientations at once, through the scaling of the matrix with the increments and the in-place shear; tests compare one or two spectra with stored data.", "anchors": ["src/mrsimulator/methods/mqvas.py:MQ_VAS", "src/mrsimulator/methods/utils.py", "src/c_lib/lib/frequency_averaging.c:two_dimensional_averaging", "src/c_lib/lib/interpolation.c:triangle_interpolation2D", "src/c_lib/include/frequency/spin_transition_functions.h:STF_cL", "src/c_lib/base/base_model.pyx:one_d_spectrum"]}
{"id": "C91", "title": "A simulator saved without units is loaded as it was", "statement": "Simulator.save(filename, with_units=False) writes a file from which Simulator.load(filename, parse_units=False) makes the same simulator: the same spin systems, methods (with their simulations and experiments), configuration and names, with every number as it was. Only the units in which values are displayed return to the defaults.", "quantifier": "all simulators: any spin systems, tensors, couplings, methods, events, queries, data sets, configurations, with any attributes missing", "why_tests_cant": "the file is the nested dictionary of the object with all None removed, read back field by field with a default for every missing key: a wrong result needs a field whose default is not None, or a value that the reduction or the JSON writer cannot handle; tests save one simulator.", "anchors": ["src/mrsimulator/simulator/__init__.py:Simulator.save", "src/mrsimulator/simulator/__init__.py:Simulator.load", "src/mrsimulator/simulator/__init__.py:Simulator.reduced_dict", "src/mrsimulator/utils/extra.py:_reduce_dict", "src/mrsimulator/method/__init__.py:Method.dict", "src/mrsimulator/method/transition_query.py:TransitionQuery"]}
{"id": "C92", "title": "A shear displaces every cross-section by factor times coordinate and keeps its area", "statement": "The operations IFFT(dim_index=d), any Shear(factor=a, dim_index=d, parallel=p), FFT(dim_index=d) give a data set with the same dimensions. Every cross-section along d is displaced by the sum of a times the coordinate along p, by interpolation; where that is a whole number of steps, it is moved by that many points. The sum over each cross-section and the sum of squares are unchanged, shears add up, and the opposite shear undoes a shear. Only the dependent variables that dv_index names are sheared.", "quantifier": "any number of dimensions and points, coordinates with any offset, data sets, factors, lists of shears along different parallel dimensions, choices of dependent variables, either direction of the transform", "why_tests_cant": "sign, which dimension carries which coordinate in the broadcast product, and the offset of the coordinates all show up as the wrong displacement of the wrong section; tests shear one small data set by one factor.", "anchors": ["src/mrsimulator/signal_processing/affine.py:Shear.operate", "src/mrsimulator/signal_processing/utils.py:_get_broadcast_shape", "src/mrsimulator/signal_processing/__init__.py:IFFT.operate", "src/mrsimulator/signal_processing/__init__.py:SignalProcessor.apply_operations", "src/mrsimulator/signal_processing/_base.py:AbstractOperation._get_dv_indexes"]}
{"id": "C93", "title": "The amplitudes of a distribution are next to the coordinates of its variates and add up to one", "statement": "On two ascending grids with equal steps, pdf returns at row j and column i the coordinates pos[0][i] and pos[1][j] and, as amplitude, the share of the variates inside the grid that are nearest to these coordinates. Every variate at most half a step outside the coordinates is counted, once; the averages over the amplitudes are those of the variates to within half a step. On any grid the amplitudes that are numbers are non-negative and add up to one. No variate is lost for its asymmetry parameter when the second grid goes from 0 to 1.", "quantifier": "any grids of at least two coordinates, any list of random variates", "why_tests_cant": "the variates are random, so a test can only check shapes and rough moments; a transposed array, an edge off by half a step or a lost outer bin give a plausible map that is displaced.", "anchors": ["src/mrsimulator/models/czjzek.py:AbstractDistribution.pdf", "src/mrsimulator/models/czjzek.py:CzjzekDistribution.rvs", "src/mrsimulator/models/utils.py:get_Haeberlen_components"]}
{"id": "C94", "title": "The table of sites shows every site in its own row", "statement": "sites.to_pd() has one row per site, in order, and one column for every attribute (name, label, description, isotope, isotropic chemical shift, symmetric shielding, quadrupolar) that is set in at least one site, in this order. The cell is the value of that attribute of that site with its unit, or empty where the site does not have it; a value of zero is shown.", "quantifier": "any list of sites with any combination of attributes and tensors", "why_tests_cant": "columns are filled independently and removed while looping; one missing append shifts all later rows of one column, which only shows for particular combinations of missing attributes in a list.", "anchors": ["src/mrsimulator/simulator/__init__.py:Sites.to_pd", "src/mrsimulator/utils/__init__.py:flatten_dict", "src/mrsimulator/utils/parseable.py:Parseable.json"]}
{"id": "C95", "title": "run computes the methods asked for and leaves the others alone", "statement": "After run(method_index), the methods denoted by method_index (all if None; negative indexes count from the end) have as simulation the spectrum computed from their own attributes, and all their dimensions the Larmor frequency of their first channel as origin offset; every other method is exactly as before. Order and repetition of indexes make no difference, and running again changes nothing. When a method fails or an index is out of range, run raises there: the methods before are computed, all others keep their simulation.", "quantifier": "any list of methods and any argument method_index", "why_tests_cant": "interference between methods only shows for particular subsets, orders and earlier states; the state left after an exception is never tested.", "anchors": ["src/mrsimulator/simulator/__init__.py:Simulator.run", "src/c_lib/base/base_model.pyx:one_d_spectrum"]}
{"id": "C96", "title": "The spectrum of a powder after one pulse is the abundance-weighted powder pattern of the transitions that are observed", "statement": "After run() with a BlochDecaySpectrum or BlochDecayCTSpectrum, each point of the spectrum is, for dense grids, the sum over the spin systems that contain the channel's isotope of the abundance, over the transitions in which one nucleus of that isotope goes one state down (from 1/2 for the CT method) and every other spin keeps its state, of the share of directions over the sphere whose recorded frequency lies in the bin of the point, over the width of the bin and in the fixed unit 3 pi; for a sample that is spun the share is replaced by the mean intensity of each sideband over the directions for which it lies in the bin, and lines that do not depend on the direction are shared linearly between two points; with the decimals of the source the value is between those for slightly narrower and slightly broader bins.", "quantifier": "any list of spin systems of any number of sites and couplings, any isotopes and sign of the gyromagnetic ratio, any axis with an even number of points and any number of jobs; static or spun at any angle; lines broader than 1e-6 bins along the three axes and with their mean inside of the axis, or sharp", "why_tests_cant": "this composes all stages, from the choice of transitions to the powder average, the sign conventions and the normalisation; tests compare a few spectra with other programs to a tolerance.", "anchors": ["src/mrsimulator/simulator/__init__.py:Simulator.run", "src/c_lib/base/base_model.pyx:one_d_spectrum", "src/c_lib/lib/simulation.c:mrsimulator_core", "src/mrsimulator/methods/base.py"]}
{"id": "C97", "title": "SSB2D separates the sidebands of spin-1/2 transitions by their isotropic frequencies", "statement": "The map of SSB2D, on the magic angle, of a transition in which only nuclei of spin 1/2 take part is, for dense grids and many sidebands, a set of peaks, one for each sideband of the slow rotor frequency: the peak of order m is at m times the slow rotor frequency in the first dimension, with no trace of the shift, and at the isotropic frequency in the second. Its weight is the mean over all directions of the intensity of sideband m times that of the centre band of the fast rotor, and the latter tends to one as the fast rotor frequency grows. A site of spin 1/2 has exactly one pathway, its transition in either dimension.", "quantifier": "any spin system (sites, couplings, orientations), any field, rotor frequencies, increments, offsets and numbers of points; the fast rotor frequency beyond the width of the second axis", "why_tests_cant": "the shift has to cancel exactly between two dimensions of different increments, offsets and sidebands, and the intensities are integrals over all directions; the test compares the sum along one axis of three spectra with one-dimensional spectra.", "anchors": ["src/mrsimulator/methods/ssb2d.py:SSB2D", "src/c_lib/lib/frequency_averaging.c:two_dimensional_averaging", "src/c_lib/lib/simulation.c:__mrsimulator_core", "src/c_lib/lib/interpolation.c:triangle_interpolation2D"]}
{"id": "C98", "title": "Satellite-transition methods give an isotropic first dimension at the magic angle", "statement": "ST1_VAS and ST2_VAS with their own affine matrix, on the magic angle: for every site and every spin that the method accepts, both pathways (the two satellites, each correlated with the central transition) give ridges at one and the same frequency of the first dimension, the weighted sum of the isotropic frequencies of the satellite and of the central transition; no orientation is anywhere else.", "quantifier": "both methods, all spins they accept, all sites (tensor parameters, orientations), fields, rotor frequencies, windows, increments, grids, numbers of sidebands", "why_tests_cant": "the weights come from a table with one entry per spin; a wrong entry gives a plausible but broadened map, and only the cancellation for all orientations at once distinguishes it; tests compare the matrix with the same table.", "anchors": ["src/mrsimulator/methods/stvas.py:ST_VAS", "src/mrsimulator/methods/stvas.py:shear_factor_ST_MAS", "src/c_lib/lib/frequency_averaging.c:two_dimensional_averaging", "src/c_lib/include/frequency/spin_transition_functions.h:STF_cL"]}
{"id": "C99", "title": "Signal processors that compare equal do the same", "statement": "p == q is an equivalence, and holds exactly when p and q have as many operations and each has the class and the parameters of its counterpart; then p.apply_operations and q.apply_operations give the same result on every data set.", "quantifier": "any two lists of operations of any classes and parameters, any data set", "why_tests_cant": "comparison is inherited and looks at the fields only; tests compare objects that were saved and loaded, so that a class lost or exchanged on the way would go unnoticed.", "anchors": ["src/mrsimulator/signal_processing/__init__.py:SignalProcessor", "src/mrsimulator/signal_processing/_base.py:AbstractOperation", "src/mrsimulator/signal_processing/apodization.py", "src/mrsimulator/utils/parseable.py:Parseable"]}
{"id": "C100", "title": "Simulator.run with a multiple-quantum or satellite method records a map of isotropic peaks", "statement": "Simulator.run with ThreeQ_VAS, FiveQ_VAS, SevenQ_VAS, ST1_VAS or ST2_VAS on the magic angle returns one map per method. Its entry at two points of the axes is the sum over the spin systems, weighted by their abundances, and over their pathways, of a share of the frequency a0 nu(first transition) + a1 nu(central transition) in the first dimension times a non-negative pattern of the central transition in the second; the pattern is zero away from the frequencies of the transition and has the full weight if these are on the axis. Systems without the isotope of the channel change nothing, and so does the number of jobs.", "quantifier": "all lists of spin systems of one site of the isotope or without it, all sites, abundances, fields, spectral widths, even counts, offsets, signs of the gyromagnetic ratio, integration densities, numbers of sidebands and of jobs, rotor frequencies for which the sidebands are off the axes", "why_tests_cant": "the position on the axes depends on the offsets, the mirror for negative gyromagnetic ratios, the matrix and the sorting of the triangles together; tests compare single maps with stored ones of the same program.", "anchors": ["src/mrsimulator/simulator/__init__.py:Simulator.run", "src/mrsimulator/methods/mqvas.py:MQ_VAS", "src/mrsimulator/methods/stvas.py:ST_VAS", "src/c_lib/lib/simulation.c:__mrsimulator_core", "src/c_lib/lib/frequency_averaging.c:two_dimensional_averaging", "src/c_lib/base/base_model.pyx:one_d_spectrum"]}
{"id": "C101", "title": "The choice of the crystal frame does not change the spectrum of a powder", "statement": "If all tensors of a spin system (shielding, quadrupole, J, dipole) are turned together by any rotation, possibly another one for each spin system, the spectrum that Simulator.run computes for a Bloch decay converges with the integration density to the same intensities, at rest and (with the number of sidebands) under spinning at any angle. For spin systems of a single site with a single tensor its Euler angles have no effect at all and may be left out.", "quantifier": "all lists of spin systems, all rotations, abundances, fields, spectral widths, even counts, offsets, rotor frequencies and angles, contents of the allocated memory, numbers of jobs", "why_tests_cant": "every rotation gives other frequencies at every orientation of the grid, the agreement is that of two limits of sums over infinitely refined grids; a test compares one rotation at one density.", "anchors": ["src/mrsimulator/simulator/__init__.py:Simulator.run", "src/mrsimulator/spin_system/tensors.py:SymmetricTensor", "src/c_lib/lib/angular_momentum.c:single_wigner_rotation", "src/c_lib/lib/frequency_averaging.c:one_dimensional_averaging", "src/c_lib/lib/schemes.c:MRS_create_averaging_scheme"]}
{"id": "C102", "title": "Only the distance between chemical shifts and reference offset matters", "statement": "If delta ppm are added to the isotropic chemical shifts of all sites of the observed isotope and the corresponding frequency delta B0 |gamma| to the reference offset of the spectral dimension, Simulator.run computes for a Bloch decay the same intensities, point by point.", "quantifier": "all lists of spin systems that list their isotopes in one order, all couplings, fields, rotor frequencies and angles, widths, counts, offsets, signs of the gyromagnetic ratio, integration densities, octants, numbers of sidebands and of jobs, contents of the allocated memory; any shift delta", "why_tests_cant": "shift and offset enter in different languages, with different signs for positive and negative gyromagnetic ratio; tests fix an offset of zero or compare one spectrum.", "anchors": ["src/mrsimulator/simulator/__init__.py:Simulator.run", "src/c_lib/base/base_model.pyx:one_d_spectrum", "src/c_lib/lib/simulation.c:__mrsimulator_core", "src/c_lib/include/frequency/spatial_orientation_tensor_components.h:sSOT_1st_order_nuclear_shielding_tensor_components"]}
{"id": "C103", "title": "The signs of quadrupole couplings and of spin-spin couplings cannot be seen", "statement": "If the quadrupole coupling constants of any sites are reversed, and the couplings between any pairs of sites (J, its anisotropy and the dipolar coupling of the pair together), Simulator.run computes for a Bloch decay (also of the central transition) the same intensities, point by point.", "quantifier": "all lists of spin systems without transition pathways of their own, decomposed or not, failing runs included, any choice of the sites and pairs, all parameters, fields, rotor frequencies and angles, axes, integration densities, octants, numbers of sidebands and of jobs, contents of the allocated memory", "why_tests_cant": "every single line changes; the agreement is between the sets of all transitions, by a symmetry that reverses the other spins or both states of the observed one.", "anchors": ["src/mrsimulator/simulator/__init__.py:Simulator.run", "src/c_lib/include/frequency/spin_transition_functions.h:STF_d", "src/c_lib/include/frequency/spin_transition_functions.h:STF_dIS", "src/c_lib/include/frequency/frequency_tensor_components.h", "src/mrsimulator/method/transition_query.py:TransitionQuery"]}
{"id": "C104", "title": "The unit of frequency does not matter", "statement": "If the magnetic field, the quadrupole, J and dipolar couplings, the rotor frequency and the width and offset of the spectral dimension are multiplied by the same positive number, Simulator.run computes for a Bloch decay a spectrum of the same shape, point by point, with the intensities, which are per Hz, divided by that number; for a method of two dimensions with one event each (any queries and affine matrix), a map with the intensities divided by its square.", "quantifier": "all lists of spin systems, with user-given pathways or not, decomposed or not, failing runs included, all parameters, any positive factor, provided that the rotor is counted as static (below 1 mHz) in both runs or in none", "why_tests_cant": "first- and second-order terms depend differently on field and coupling; a wrong power only shows when all of them are changed together, which no test does.", "anchors": ["src/mrsimulator/simulator/__init__.py:Simulator.run", "src/c_lib/include/frequency/spatial_orientation_tensor_components.h:sSOT_2nd_order_quadrupole_tensor_components", "src/c_lib/lib/simulation.c:__mrsimulator_core", "src/c_lib/base/base_model.pyx:one_d_spectrum"]}
{"id": "C105", "title": "The order of sites and couplings does not matter", "statement": "If the sites of each spin system are listed in another order, the couplings renumbered accordingly, their order and the two sites of any of them exchanged, Simulator.run computes for a Bloch decay the same intensities, point by point.", "quantifier": "all lists of spin systems, another order for each of them, all parameters, axes, integration densities, numbers of sidebands and of jobs", "why_tests_cant": "indices of sites address arrays of states, isotopes and couplings in three languages; tests list a system in one order.", "anchors": ["src/mrsimulator/simulator/__init__.py:Simulator.run", "src/mrsimulator/spin_system/__init__.py:SpinSystem", "src/mrsimulator/spin_system/coupling.py:Coupling", "src/mrsimulator/method/utils.py", "src/c_lib/include/frequency/frequency_tensor_components.h"]}
{"id": "C106", "title": "Sites that are not coupled contribute independently", "statement": "If a spin system consists of parts without couplings between them, Simulator.run computes for a Bloch decay the same intensities as for a list in which the parts are spin systems of their own with the same abundance; a part without the isotope of the channel changes nothing.", "quantifier": "all lists of spin systems that list their isotopes in one order, any number of sites and couplings in either part, all parameters, axes, integration densities, numbers of sidebands and of jobs", "why_tests_cant": "the agreement is between sums over different numbers of transitions; tests of systems of several sites compare the positions of lines, or spectra normalised to their maximum.", "anchors": ["src/mrsimulator/simulator/__init__.py:Simulator.run", "src/c_lib/base/base_model.pyx:one_d_spectrum", "src/mrsimulator/spin_system/__init__.py:SpinSystem", "src/c_lib/include/frequency/spin_transition_functions.h:STF_dIS"]}
{"id": "C107", "title": "The projection of a two-dimensional map on its first axis is the one-dimensional spectrum of that dimension", "statement": "For a method of two dimensions on one channel without affine transformation (Cosy, and the like for central transitions) the sum of the simulated map over the points of its second dimension, times the increment, is, at every point of the first axis, the spectrum that the one-pulse method with the settings of the first dimension simulates for the same spin systems, times the number of transitions of the second dimension.", "quantifier": "all lists of spin systems with any sites and couplings, all axes, fields, rotor frequencies and angles, integration densities, volumes and numbers of sidebands", "why_tests_cant": "the statement connects two different binning routines through triangles cut along both axes; tests compare a map with a stored map and never with a one-dimensional spectrum.", "anchors": ["src/c_lib/lib/frequency_averaging.c:two_dimensional_averaging", "src/c_lib/lib/interpolation.c:octahedronInterpolation2D", "src/c_lib/lib/interpolation.c:triangle_interpolation2D", "src/mrsimulator/simulator/__init__.py:Simulator.run"]}
{"id": "C108", "title": "Molecules in a liquid give single lines at the frequencies of shifts and weak couplings", "statement": "If all shift anisotropies, quadrupole couplings of observed sites, J anisotropies and dipolar couplings are zero, Simulator.run computes for a Bloch decay a spectrum that is, point by point, the sum of single lines: each at the difference of the energies of isotropic shifts and J couplings of its two states, shared linearly between the two nearest points, weighted with the abundance per increment; the factor common to all lines depends on the integration density only. Spinning, sidebands and the integration volume change nothing.", "quantifier": "all lists of spin systems without anisotropy, any number of sites and J couplings, all fields, axes, rotor frequencies and angles, numbers of sidebands, integration densities, volumes and jobs", "why_tests_cant": "lines coincide or split depending on all shifts and couplings together; tests look at a few spin systems, and compare shapes normalised to their maximum.", "anchors": ["src/mrsimulator/simulator/__init__.py:Simulator.run", "src/c_lib/lib/frequency_averaging.c:one_dimensional_averaging", "src/c_lib/lib/interpolation.c:octahedronDeltaInterpolation", "src/c_lib/include/frequency/frequency_tensor_components.h", "src/c_lib/lib/simulation.c:__mrsimulator_core"]}
{"id": "C109", "title": "Intensities are not negative", "statement": "With abundances that are not negative, no point of a spectrum that Simulator.run computes for a Bloch decay, or of a map for a method of two dimensions with one event each, is negative.", "quantifier": "all lists of spin systems with any sites, couplings and user-given pathways, decomposed or not, all parameters, axes, integration densities, volumes, numbers of sidebands and of jobs", "why_tests_cant": "contributions are sums over thousands of cut triangles and sidebands; a negative one is usually covered by the others, and shows only for lines at the edge of the axis.", "anchors": ["src/mrsimulator/simulator/__init__.py:Simulator.run", "src/c_lib/lib/interpolation.c:delta_fn_interpolation", "src/c_lib/lib/interpolation.c:triangle_interpolation", "src/c_lib/lib/frequency_averaging.c:one_dimensional_averaging", "src/c_lib/lib/interpolation.c:triangle_interpolation2D", "src/c_lib/lib/frequency_averaging.c:two_dimensional_averaging"]}
{"id": "C110", "title": "Abundances are weights", "statement": "If the abundances of all spin systems are multiplied by a number, Simulator.run computes the same intensities multiplied by that number, in the sum and in every decomposed spectrum, and fails with the same error where it fails. A spin system given twice in a row, in two abundances, gives the same sum, on one process, as the spin system given once in the sum of the two abundances.", "quantifier": "all methods, all lists of spin systems, all numbers as factors, all numbers of jobs for the first part", "why_tests_cant": "the statement relates runs of different inputs for every list and every state of the pathway cache; tests use one abundance, mostly 100.", "anchors": ["src/mrsimulator/simulator/__init__.py:Simulator.run", "src/c_lib/base/base_model.pyx:one_d_spectrum", "src/mrsimulator/spin_system/__init__.py:SpinSystem"]}
{"id": "C111", "title": "Methods that compare equal simulate the same", "statement": "Two Method objects for which == is True have the same channels, spectral dimensions and affine matrix as the simulation reads it, and a method compares equal to a copy of itself. The comparison of affine matrices goes through numpy's broadcasting of arrays of different shapes, while the simulation reads them flattened.", "quantifier": "all pairs of methods, affine matrices of any shape that the validator accepts", "why_tests_cant": "broadcasting compares entries according to both shapes; tests compare matrices of one shape only.", "anchors": ["src/mrsimulator/method/__init__.py:Method.__eq__", "src/mrsimulator/method/__init__.py:Method.validate_affine_matrix", "src/c_lib/base/base_model.pyx:one_d_spectrum"]}
{"id": "C112", "title": "Every event evolves under its own transition", "statement": "The transition pathways of a spin system, selected by the method or given by the user, are handed to the C code as one array of numbers; event k of pathway i is simulated with the initial and final quantum numbers of the transition k of pathway i, or the pathways are rejected.", "quantifier": "all spin systems, methods with any number of dimensions and events, all user-given pathways", "why_tests_cant": "which numbers are read follows from offsets into an array without bounds checks, for every number of sites, events and pathways; tests give pathways that fit.", "anchors": ["src/c_lib/base/base_model.pyx:one_d_spectrum", "src/c_lib/lib/simulation.c:__mrsimulator_core", "src/c_lib/lib/mrsimulator.c:MRS_rotate_single_site_interaction_components", "src/mrsimulator/transition/base.py:Transition.tolist", "src/mrsimulator/spin_system/__init__.py:SpinSystem.transition_pathways_must_include_transition"]}
{"id": "C113", "title": "SSB2D correlates a finite with an infinite rotor speed", "statement": "SSB2D gives a method exactly if it is given two dimensions without events and a positive rotor frequency; the first dimension then spins at that speed and the second infinitely fast, both with the given field and angle; every other call fails with an error.", "quantifier": "all rotor frequencies, lists of dimensions as dictionaries or objects, and keyword arguments", "why_tests_cant": "which dictionary supplies a key is decided by a chain of pops, updates and assignments, for every combination of keys; tests use a few calls.", "anchors": ["src/mrsimulator/methods/ssb2d.py:SSB2D.__new__", "src/mrsimulator/methods/base.py:Method2D", "src/mrsimulator/methods/base.py:check_for_spectral_dimensions"]}
{"id": "C114", "title": "The centre of gravity of a powder spectrum is at the isotropic frequencies", "statement": "The sum of the points of a Bloch decay spectrum, static or spinning, is a constant times the abundance per increment times the number of observed transitions, and its centre of gravity is, to half an increment, the weighted mean of the isotropic frequencies: chemical shift, second-order quadrupole-induced shift and J coupling; of a spinning sample only the sidebands beyond the axis are missing.", "quantifier": "all lists of spin systems with lines inside the axis, all speeds and angles of the rotor, all tensors, fields, spins, couplings and axes with an even number of points", "why_tests_cant": "a statement about an integral over all orientations and about every tensor; tests compare single spectra with stored files.", "anchors": ["src/c_lib/lib/simulation.c:__mrsimulator_core", "src/c_lib/lib/mrsimulator.c:MRS_get_normalized_frequencies_from_plan", "src/c_lib/include/frequency/spatial_orientation_tensor_components.h:sSOT_2nd_order_electric_quadrupole_tensor_components", "src/c_lib/include/frequency/spin_transition_functions.h:STF_cL", "src/c_lib/lib/interpolation.c:octahedronInterpolation"]}
{"id": "C115", "title": "A simulation gives back the memory it took", "statement": "Running a method releases every block of memory once, uses none after its release and none that was never allocated, touches no memory of others, and leaves nothing allocated when it is done.", "quantifier": "every number of dimensions, events, pathways, sidebands and orientations, and every state of the memory before", "why_tests_cant": "lost memory changes no result, and a released block usually still holds what was in it.", "anchors": ["src/c_lib/lib/method.c", "src/c_lib/lib/mrsimulator.c", "src/c_lib/lib/schemes.c", "src/c_lib/lib/simulation.c", "src/c_lib/lib/frequency_averaging.c", "src/c_lib/include/frequency/frequency_tensor_components.h", "src/c_lib/base/base_model.pyx"]}
{"id": "C116", "title": "Spinning leaves the moments of a powder's spectrum as they are", "statement": "The spinning sidebands of every crystallite add up to its intensity and have their centre of gravity at its average frequency; averaged over the powder, the sum, the centre of gravity and the second moment of all sidebands are those of the static spectrum, at every speed and every angle of the rotor. For one site of spin 1/2 the second moment about the isotropic shift is the textbook value, the square of the anisotropy times one plus a third of the square of the asymmetry, over five.", "quantifier": "every spin system, transition, field, orientation, rotor speed and rotor angle, and every number k up to 2", "why_tests_cant": "it is a statement about infinitely many sidebands, orientations, speeds and angles at once.", "anchors": ["src/c_lib/lib/simulation.c", "src/c_lib/lib/frequency_averaging.c", "src/c_lib/lib/schemes.c", "src/c_lib/include/frequency/frequency_tensor_components.h"]}
{"id": "C117", "title": "The sidebands that are computed have their own intensities", "statement": "With any number of sidebands, the intensity of each of them is that of the sideband of the physical spectrum. (It is not: the sidebands beyond those that are computed are folded back onto them, and the intensities are right only if there are no sidebands at all.)", "quantifier": "every spin system, transition, field, orientation, rotor speed, rotor angle and number of sidebands", "why_tests_cant": "tests compare spectra with so many sidebands that those left out are weak; that the others are folded back, and exactly how, cannot be seen from any number of spectra.", "anchors": ["src/c_lib/lib/simulation.c", "src/c_lib/lib/frequency_averaging.c", "src/c_lib/lib/schemes.c", "src/mrsimulator/simulator/config.py"]}
{"id": "C118", "title": "Spinning slowly gives the static spectrum, spinning fast the average frequencies", "statement": "As the rotor slows down, the spectrum of a spinning powder becomes that of the static powder, at any angle of the rotor, and the sidebands of one crystallite are distributed as the frequencies it passes through in a turn; as it speeds up, only the average frequency of each crystallite is left, with an error of the order of the inverse square of the speed.", "quantifier": "every spin system, transition, field, orientation and rotor angle, and every bounded and continuous function of the frequency", "why_tests_cant": "it is a limit, of more and more sidebands each weaker than the last, and no test reaches it.", "anchors": ["src/c_lib/lib/simulation.c", "src/c_lib/lib/frequency_averaging.c", "src/c_lib/lib/schemes.c", "src/c_lib/include/frequency/frequency_tensor_components.h"]}
{"id": "C119", "title": "A site is found at its chemical shift on the ppm axis", "statement": "After a run, SpectralDimension.coordinates_ppm gives an axis on which the line of a site lies at its isotropic chemical shift, whatever the isotope, the flux density and the window; for a powder, the centre of gravity of the spectrum on that axis is the mean of the isotropic chemical shifts, weighted by the abundances.", "quantifier": "every isotope (of either sign of the gyromagnetic ratio), flux density, window, reference offset and chemical shift; for powders every list of spin systems of one spin-1/2 site", "why_tests_cant": "the axis is put together from an origin offset assigned by one module, a reference offset from another and bins filled by a third; tests fix the reference offset at zero or compare the axis with its own formula.", "anchors": ["src/mrsimulator/method/spectral_dimension.py", "src/mrsimulator/simulator/__init__.py", "src/c_lib/base/base_model.pyx"]}
{"id": "C120", "title": "Exported spin systems are loaded as they were", "statement": "Simulator.export_spin_systems writes a file from which Simulator.load_spin_systems gives any simulator the same spin systems in the same order (attributes, sites, couplings, transition pathways), leaving the rest of the simulator and all other files alone; when the export fails, the file that was there before can still be loaded.", "quantifier": "every list of spin systems, with any attributes, sites, couplings and pathways; any file and simulator", "why_tests_cant": "tests export one list of plain sites; failure needs an attribute that the JSON writer or the reader cannot handle, and the loss of the earlier file needs an earlier file.", "anchors": ["src/mrsimulator/simulator/__init__.py:Simulator.export_spin_systems", "src/mrsimulator/simulator/__init__.py:Simulator.load_spin_systems", "src/mrsimulator/spin_system/__init__.py", "src/mrsimulator/utils/parseable.py:get_list"]}
{"id": "C121", "title": "Pathways given to a spin system are the ones that are simulated", "statement": "Setting SpinSystem.transition_pathways to method.get_transition_pathways(spin_system), for any of the spin systems, leaves the result of Simulator.run with that method as it is; any other pathways given to a spin system replace those that the method selects for it, and for no other spin system.", "quantifier": "every list of spin systems, method, assignment of pathways, number of workers, decomposed or not", "why_tests_cant": "tests do not set pathways at all; whether they are used depends on the spin systems before in the list and on how the list is divided over the workers.", "anchors": ["src/mrsimulator/spin_system/__init__.py:SpinSystem.transition_pathways", "src/mrsimulator/method/__init__.py:Method.get_transition_pathways", "src/c_lib/base/base_model.pyx:one_d_spectrum", "src/mrsimulator/simulator/__init__.py:Simulator.run"]}
{"id": "C122", "title": "Apodisation broadens every line to the given width", "statement": "Between IFFT and FFT along a dimension, Exponential(FWHM=w) turns every point of the chosen dependent variables into a Lorentzian line of full width at half maximum w and of the same area, and Gaussian(FWHM=w) into a Gaussian line; the weights are positive, so that a spectrum without negative values keeps none, and other dependent variables stay as they are.", "quantifier": "every spectrum, number of points, spacing, position of the axis, width, unit, dimension, choice of dependent variables", "why_tests_cant": "tests compare with numpy formulas of the factors for one data set; that the factors are those of a line of this width for every grid, and how far from it, is a statement about sums over all times.", "anchors": ["src/mrsimulator/signal_processing/apodization.py:Exponential.fn", "src/mrsimulator/signal_processing/apodization.py:Gaussian.fn", "src/mrsimulator/signal_processing/apodization.py:AbstractApodization.operate", "src/mrsimulator/signal_processing/__init__.py:SignalProcessor.apply_operations"]}
{"id": "C123", "title": "The Czjzek distribution has no preferred direction and the size asked for", "statement": "The random tensors of the Czjzek model have the same distribution seen from every frame, opposite tensors are equally likely, sigma is a scale, the mean is zero and the mean square of the norm is 30 sigma squared; samples of the extended model lie around the dominant tensor with eps as the relative root mean square deviation, and the distribution of zeta and eta does not depend on the frame in which the dominant tensor is written.", "quantifier": "every sigma, rotation or reflection, dominant tensor, eps", "why_tests_cant": "a test draws a finite sample from one seed and can only compare histograms; equality of distributions for all rotations is a statement about measures.", "anchors": ["src/mrsimulator/models/czjzek.py:_czjzek_random_distribution_tensors", "src/mrsimulator/models/czjzek.py:ExtCzjzekDistribution.rvs", "src/mrsimulator/models/czjzek.py:CzjzekDistribution.rvs"]}
{"id": "C124", "title": "Sites and couplings keep the units of their tensors", "statement": "Whatever else is made from a tensor object, the tensors of a site or coupling keep the units in which the simulation reads them: json() writes zeta of a shielding tensor in ppm, zeta of a J tensor, Cq and D in Hz and angles in rad, and the site or coupling can be read back.", "quantifier": "every program that makes tensors, changes their values and gives them (also those that a site or coupling holds) to any number of sites and couplings", "why_tests_cant": "the validators change a dictionary that shallow copies of a tensor share; tests make a new tensor for every site.", "anchors": ["src/mrsimulator/spin_system/site.py:Site.spin_must_be_at_least_one", "src/mrsimulator/spin_system/site.py:Site.shielding_symmetric_must_not_contain_Cq_and_D", "src/mrsimulator/spin_system/coupling.py:Coupling.j_symmetric_must_not_contain_Cq_and_D", "src/mrsimulator/spin_system/coupling.py:Coupling.dipolar_must_not_contain_Cq_and_zeta", "src/mrsimulator/utils/parseable.py:Parseable.json"]}
{"id": "C125", "title": "Fit parameters of different spin systems are independent", "statement": "Each parameter that a fit makes for a spin system, site, coupling or tensor stands for a number of its own: after a step each has the value proposed for it, whatever is proposed for the others, and numbers that are not parameters are as before.", "quantifier": "every program that makes sites and couplings with tensors and from them spin systems of a simulator, every choice of parameters and proposed values", "why_tests_cant": "the objects of a simulator can share parts, and which do follows from how they were made; tests fit one spin system.", "anchors": ["src/mrsimulator/utils/spectral_fitting.py:LMFIT_min_function", "src/mrsimulator/utils/spectral_fitting.py:_set_simulator_object_value", "src/mrsimulator/utils/spectral_fitting.py:_get_simulator_object_value", "src/mrsimulator/spin_system/__init__.py:SpinSystem"]}
{"id": "C126", "title": "Simulators that compare equal simulate the same", "statement": "Two Simulator objects can always be compared with ==, and it is True exactly if they have the same name, label, description, spin systems, configuration and methods with their data; a run then reads the same from both.", "quantifier": "all pairs of simulators, with methods that are or are not the same objects, before and after runs with and without pack_as_csdm", "why_tests_cant": "the outcome depends on which methods are the same objects and on the kind of data that runs left in them; tests compare simulators before a run.", "anchors": ["src/mrsimulator/simulator/__init__.py:Simulator.__eq__", "src/mrsimulator/simulator/__init__.py:Simulator.run", "src/mrsimulator/method/__init__.py:Method.__eq__"]}
{"id": "C127", "title": "A spectrum shows no more than there is", "statement": "The intensities of a spectrum after one pulse add up to no more than the sum over spin systems of abundance times number of observed transitions, over the increment, times the weight of the orientations, which depends on the density only; those of a two-dimensional map to no more than the same with pathways and both increments, times the square of the number of sidebands (C60); whatever lies outside of the window is not folded into it.", "quantifier": "all lists of spin systems with abundances that are not negative, all interactions, frames, rotors, numbers of sidebands, dimensions, densities, octants and worker counts", "why_tests_cant": "a double count or a fold shows only for tensors, spinning speeds and windows that put lines or sidebands on an edge; tests compare chosen spectra after normalization.", "anchors": ["src/c_lib/lib/interpolation.c:__triangle_interpolation", "src/c_lib/lib/interpolation.c:delta_fn_interpolation", "src/c_lib/lib/interpolation.c:triangle_interpolation2D", "src/c_lib/lib/frequency_averaging.c:__1D_averaging", "src/c_lib/lib/frequency_averaging.c:two_dimensional_averaging", "src/c_lib/lib/simulation.c:__mrsimulator_core"]}
