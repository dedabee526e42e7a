"""Source of /verif/properties.jsonl: run `python3 tools/props.py` to regenerate it."""
import json, os
P = []
def prop(id, title, statement, quantifier, why, anchors):
    P.append(dict(id=id, title=title, statement=statement, quantifier=quantifier,
                  why_tests_cant=why, anchors=anchors))
S = "src/mrsimulator/"
C = "src/c_lib/"
prop("C01", "Splitting the spin systems over workers loses, repeats and reorders nothing",
 "Simulator.run hands the spin systems to n_jobs workers in consecutive chunks. For every list and every positive n_jobs (and every negative n_jobs that resolves to at least one worker) there are exactly n_jobs chunks, their concatenation is the input list in order, and no two chunk sizes differ by more than one. An n_jobs value that resolves to zero workers is an error, and a value that resolves to a negative number of workers gives no chunk at all.",
 "every list of spin systems, every integer n_jobs, every CPU count",
 "the number of (length, n_jobs) pairs is unbounded and the interesting boundaries (remainder, more workers than items, negative n_jobs) move with both.",
 [S+"simulator/__init__.py:get_chunks", S+"simulator/__init__.py:Simulator.run"])
prop("C02", "The spectrum of a mixture is the sum of the spectra of its members, whatever the number of workers",
 "With decompose_spectrum='none', the data produced by Simulator.run is the sum over spin systems of the spectrum each one would give simulated alone, so it depends neither on n_jobs nor on the order of the spin systems.",
 "every list of spin systems, every order, every n_jobs >= 1",
 "the result depends on state carried from one spin system to the next inside a worker; only a statement over all histories can rule the carry-over out (or exhibit it).",
 [C+"base/base_model.pyx:one_d_spectrum", S+"simulator/__init__.py:Simulator.run"])
prop("C03", "Decomposed output has one entry per spin system, in order, whatever the number of workers",
 "With decompose_spectrum='spin_system', Simulator.run yields exactly one entry per spin system, entry i belonging to spin system i, for every n_jobs >= 1; an entry is empty exactly when that spin system has no site of the observed isotope.",
 "every list of spin systems, every n_jobs >= 1",
 "chunk boundaries interact with the packing of per-chunk results; sampled n_jobs values miss the case of more workers than spin systems.",
 [S+"simulator/__init__.py:Simulator.run", C+"base/base_model.pyx:one_d_spectrum", S+"simulator/__init__.py:Simulator._as_csdm_object"])
prop("C04", "Decomposed spectra carry the metadata of their own spin system",
 "In a decomposed simulation the name, description, component label and application metadata of each dependent variable come from the spin system it belongs to, and never from another spin system.",
 "every list of spin systems with arbitrary (possibly missing) names, labels and descriptions, and every pattern of empty entries",
 "a leak from one entry to the next needs a particular sequence of present and missing fields; tests use uniform lists.",
 [S+"simulator/__init__.py:Simulator._as_csdm_object", S+"simulator/__init__.py:Simulator._update_name_description_application"])
prop("C05", "Simulator.sites lists every distinct site exactly once, in order of first appearance",
 "The list returned by Simulator.sites contains a site iff some spin system contains an equal site, contains no two equal sites, and orders sites by first appearance.",
 "every list of spin systems",
 "needs all duplication patterns.",
 [S+"simulator/__init__.py:Simulator.sites", S+"simulator/__init__.py:Sites"])
prop("C06", "Isotope queries return each matching isotope exactly once, sorted",
 "Simulator.get_isotopes(spin_I) returns, without duplicates and in sorted order, exactly the isotopes that occur in some spin system and whose spin equals spin_I (all of them when spin_I is None); SpinSystem.get_isotopes(spin_I) keeps one entry per matching site in site order.",
 "every list of spin systems and every spin query that is a multiple of 1/2 (the documented domain)",
 "needs all multiset patterns of isotopes.",
 [S+"simulator/__init__.py:Simulator.get_isotopes", S+"spin_system/__init__.py:SpinSystem.get_isotopes", S+"spin_system/__init__.py:allowed_isotopes"])
prop("C07", "Zeeman states enumerate every combination of magnetic quantum numbers exactly once",
 "For a spin system with sites of spin I_1..I_n, SpinSystem.zeeman_energy_states lists every tuple (m_1..m_n) with m_k in {-I_k, -I_k+1, ..., I_k} exactly once, in lexicographic order, prod(2 I_k + 1) of them in total.",
 "every number of sites and every assignment of spins",
 "the number of sites is unbounded; the ordering is produced by nested Kronecker products.",
 [C+"base/base_model.pyx:get_zeeman_states", S+"spin_system/__init__.py:SpinSystem.zeeman_energy_states"])
prop("C08", "all_transitions enumerates every ordered pair of energy states exactly once",
 "SpinSystem.all_transitions returns every (initial, final) pair of Zeeman states exactly once, ordered by initial state and then final state: s*s transitions for s states.",
 "every spin system",
 "quadratic in an exponential number of states; only small systems can be enumerated by a test.",
 [S+"spin_system/__init__.py:SpinSystem._all_transitions", S+"spin_system/__init__.py:SpinSystem.all_transitions"])
prop("C09", "A single-channel transition query selects exactly the transitions it describes",
 "For a method with one channel whose isotope occurs in the spin system, an event selects a transition iff, for some P entry of the query, the changes of quantum number on the channel's sites are a rearrangement of that entry padded with zeros and the change on every other site is zero, and (when the query has D) the same holds for the changes of the squared quantum numbers with some D entry. Every selected transition appears once and in the order of all_transitions.",
 "every spin system, every channel, every query",
 "permutations, padding and set intersection over an unbounded number of sites.",
 [S+"method/utils.py:query_permutations", S+"method/utils.py:get_symmetry_indexes", S+"method/__init__.py:Method._get_transition_pathways"])
prop("C10", "Absent channel: no pathway; query longer than the number of sites: error",
 "If the isotope of a channel is absent from the spin system, the event selects no transition (hence the method has no pathway). If a query entry is longer than the number of sites of that channel isotope, a ValueError is raised. In every other single-channel case there is no error.",
 "every spin system, every channel list, every query",
 "decision logic over unbounded inputs, including the order of the two checks.",
 [S+"method/utils.py:query_permutations"])
prop("C11", "Transition pathways are exactly the combinations of the per-event selections",
 "Method.get_transition_pathways returns every sequence that takes one selected transition for each event (in the order of dimensions, then events), each exactly once, in lexicographic order; the number of pathways is the product of the per-event counts and is zero as soon as one event selects nothing.",
 "every method (any number of dimensions and events) and spin system",
 "unbounded number of events.",
 [S+"method/__init__.py:Method._get_transition_pathways_np", S+"method/utils.py:cartesian_product"])
prop("C12", "A multi-channel query combines the channels independently",
 "For a method with several channels an event selects a transition iff every channel's sites match some entry of that channel's query (up to rearrangement and zero padding) and all remaining sites are unchanged; the result does not depend on any hidden iteration order and never fails when every channel isotope is present in sufficient number.",
 "every number of channels, every query, every spin system",
 "the combination logic over several channels depends on numpy broadcasting and set iteration order.",
 [S+"method/utils.py:query_permutations"])
prop("C13", "Coherence order, P and D of a transition and the transition filter agree with their definitions",
 "For every transition p is the sum over sites of (final - initial), P the list of those differences and D the list of differences of squares; reversing a transition negates all three; TransitionList.filter(P, D) with one search entry per site keeps, in order, exactly the members that satisfy every given criterion.",
 "every transition and transition list",
 "arbitrary lengths.",
 [S+"transition/base.py:Transition", S+"transition/pathway.py:TransitionList.filter"])
prop("C14", "The central-transition Bloch decay method observes the central transition and nothing else",
 "For a single-site spin system of any spin I, the query of BlochDecayCTSpectrum selects exactly the transition +1/2 -> -1/2 when I is half-integer and nothing when I is integer; the query of BlochDecaySpectrum selects exactly the 2I transitions m -> m-1.",
 "every spin quantum number I",
 "I is unbounded in the claim; tests check one or two isotopes.",
 [S+"methods/__init__.py", S+"methods/methods_data.json", S+"method/utils.py"])
prop("C15", "Multiple-quantum VAS methods select exactly the advertised symmetric transition",
 "For ThreeQ/FiveQ/SevenQ_VAS on a nucleus of half-integer spin I >= n/2, the first dimension selects exactly one single-site transition, the symmetric n-quantum transition (-n/2 -> +n/2, or +n/2 -> -n/2 when I = n/2), and the second dimension exactly +1/2 -> -1/2.",
 "every half-integer spin and every n",
 "range over all spins.",
 [S+"methods/mqvas.py:MQ_VAS.update"])
prop("C16", "Satellite-transition VAS methods select exactly the pair of satellite transitions",
 "For ST1_VAS and ST2_VAS on a nucleus of half-integer spin I >= 3/2 (5/2) the first dimension selects exactly the two transitions +st -> st-1 and -(st-1) -> -st, st = 3/2 (5/2), and the second exactly +1/2 -> -1/2.",
 "every half-integer spin",
 "range over all spins.",
 [S+"methods/stvas.py:ST_VAS.update"])
prop("C17", "The built-in shear removes the fourth-rank broadening",
 "For every (spin, order) pair supported by the MQ_VAS and ST_VAS classes, in the affine combination applied to the first dimension the second-order quadrupolar contribution of rank four of the selected first-dimension transition cancels against that of the central transition, and the two weights add to one.",
 "every entry of the built-in tables, in exact arithmetic",
 "a numerical test only compares spectra within a tolerance; a wrong table entry broadens a spectrum silently.",
 [S+"methods/mqvas.py", S+"methods/stvas.py", C+"include/frequency/spin_transition_functions.h:STF_cL"])
prop("C18", "Event parameters: the most specific value wins",
 "When a method is parsed, an event parameter given on the event keeps its value and otherwise takes the method-level value; the method-level values disappear from the top level; nothing else changes. When a generic named method is constructed, the value on the event wins over the keyword argument, which wins over the template's global value and the template event's own value.",
 "every method dictionary and every subset of given parameters",
 "all combinations of present and missing keys over unboundedly many events.",
 [S+"method/utils.py:expand_spectral_dimension_object", S+"methods/utils.py:_gen_event", S+"methods/utils.py:generate_method_from_template"])
prop("C19", "Constructing a method does not change the caller's arguments",
 "Constructing a method from a list of spectral-dimension dictionaries leaves the list and its dictionaries unchanged, so that constructing twice from the same arguments gives equal methods.",
 "every argument list",
 "an aliasing property over all inputs and call histories.",
 [S+"methods/utils.py:generate_method_from_template"])
prop("C20", "Named methods reject inconsistent dimensions and forbidden keys",
 "A named method accepts a list of spectral dimensions iff it has exactly the method's number of dimensions and no event sets a forbidden attribute; every other input is rejected with an error and no object is created.",
 "every spectral-dimension argument",
 "decision logic over unbounded lists.",
 [S+"methods/base.py:BaseNamedMethod", S+"methods/utils.py:prepare_method_structure", S+"methods/utils.py:_check_rotor_frequency"])
prop("C21", "Serialising a method and reading it back gives the same events",
 "For every method, reading back the dictionary produced by Method.json gives the same spectral dimensions with the same number of events and the same value of magnetic flux density, rotor frequency, rotor angle, fraction and (for non-named methods) transition query in every event.",
 "every method",
 "the serialiser drops values equal to the first event's and empty events; all equality patterns matter.",
 [S+"method/__init__.py:Method.json", S+"method/__init__.py:Method.parse_dict_with_units", S+"method/utils.py:expand_spectral_dimension_object", S+"method/event.py:Event.json"])
prop("C22", "Updating the dimensions from an experiment assigns each dimension its own data",
 "After Method.update_spectral_dimension_attributes_from_experiment, each spectral dimension has the count, width and offset of the matching dimension of the experiment; in particular, for an experiment with the layout that the simulator itself produces for the method, the method is unchanged.",
 "every number of dimensions",
 "ordering conventions between two objects; single-dimension tests cannot see them.",
 [S+"method/__init__.py:Method.update_spectral_dimension_attributes_from_experiment", S+"simulator/__init__.py:Simulator._as_csdm_object", S+"utils/__init__.py:get_spectral_dimensions"])
prop("C23", "Quantities with units survive serialisation",
 "For every Parseable object, parsing the dictionary produced by .json() gives back the same value for every unit-bearing attribute, and parsing rejects a value whose unit has the wrong dimension.",
 "every attribute table, every unit assignment and every value",
 "all combinations of attributes and alternative units.",
 [S+"utils/parseable.py:Parseable.parse_dict_with_units", S+"utils/parseable.py:Parseable.json", S+"utils/parseable.py:enforce_units"])
prop("C24", "Parsing does not change the caller's dictionary",
 "parse_dict_with_units of Site, Coupling, SpinSystem and Method leaves the dictionary it is given unchanged, so parsing the same dictionary twice gives the same result.",
 "every dictionary",
 "an aliasing property over all inputs.",
 [S+"spin_system/site.py:Site.parse_dict_with_units", S+"spin_system/coupling.py:Coupling.parse_dict_with_units", S+"spin_system/__init__.py:SpinSystem.parse_dict_with_units", S+"utils/parseable.py:Parseable.parse_dict_with_units"])
prop("C25", "A serialised coupling can be read back",
 "For every Coupling object, Coupling.parse_dict_with_units accepts the dictionary produced by Coupling.json and gives back an equal coupling.",
 "every combination of present and missing tensors",
 "failure needs particular field combinations.",
 [S+"spin_system/coupling.py:Coupling", S+"spin_system/tensors.py"])
prop("C26", "reduced_dict removes exactly the missing and the excluded entries",
 "The reduced dictionary of any nested object contains, at every depth, exactly the entries whose value is not None and whose key is not excluded, with isotopes and channels replaced by their symbols, and with all other values unchanged.",
 "every nested dictionary and every exclusion list",
 "unbounded nesting depth.",
 [S+"utils/extra.py:_reduce_dict"])
prop("C27", "Flattening a nested dictionary loses no entry",
 "flatten_dict maps distinct leaves of a nested dictionary to distinct keys and keeps every leaf value.",
 "every nested dictionary",
 "collisions appear only at depth three or more.",
 [S+"utils/__init__.py:flatten_dict", S+"simulator/__init__.py:Sites.to_pd"])
prop("C28", "Fit-parameter names address the attribute they were made from",
 "For every fit parameter created by make_LMFIT_params from a simulator, decoding its name gives the path of the attribute it was created from, distinct attributes have distinct names, and writing through the name changes that attribute and nothing else.",
 "every simulator (any number of spin systems, sites, couplings) and every supported attribute",
 "string rewriting over unboundedly many indices.",
 [S+"utils/spectral_fitting.py:_str_encode", S+"utils/spectral_fitting.py:_str_decode", S+"utils/spectral_fitting.py:_traverse_dictionaries", S+"utils/spectral_fitting.py:make_LMFIT_params"])
prop("C29", "Exactly one abundance is the dependent one and abundances add to 100",
 "make_LMFIT_params rescales the abundances so that they add to 100, and for two or more spin systems exactly one abundance parameter - that of the last spin system - is given by an expression, namely 100 minus all the others; so whatever values a fit assigns to the free ones, the total is 100.",
 "every number of spin systems and every list of abundances with non-zero total",
 "a substring test on decimal numerals must be right for every number of spin systems.",
 [S+"utils/spectral_fitting.py:make_LMFIT_params"])
prop("C30", "Bounds are put on asymmetry parameters and abundances only",
 "make_LMFIT_params bounds a parameter to [0, 1] iff it is an asymmetry (eta) attribute and to [0, 100] iff it is an abundance.",
 "every parameter name the package can generate",
 "substring tests on generated names.",
 [S+"utils/spectral_fitting.py:make_LMFIT_params"])
prop("C31", "Bulk single-site generation keeps entries aligned and drops only negligible ones",
 "single_site_system_generator returns, in order, one spin system for each index whose abundance exceeds rtol times the largest abundance, built from the entries of all lists at that same index (scalars being repeated); lists of different lengths are rejected.",
 "every set of input lists and scalars",
 "alignment across many optional lists.",
 [S+"utils/collection.py:single_site_system_generator"])
prop("C32", "Dimension coordinates are the centred grid, and survive export and re-import",
 "For every spectral dimension with count n, coordinates_Hz has n equally spaced entries with spacing spectral_width/n, equals the reference offset at index n//2, and lies inside a window of width spectral_width; exporting to CSDM and re-importing with get_spectral_dimensions gives back count, spectral_width and reference_offset.",
 "every count, width and offset",
 "parity of the count and sign conventions.",
 [S+"method/spectral_dimension.py:SpectralDimension", S+"utils/__init__.py:get_spectral_dimensions"])
prop("C33", "A line is recorded at its own frequency",
 "A single sharp line of frequency f inside the spectral window is recorded in the bin whose reported coordinate (coordinates_Hz) is nearest to f.",
 "every count, width, offset and frequency, both signs of the gyromagnetic ratio",
 "the parity of count and the boundary of bins.",
 [C+"base/base_model.pyx:one_d_spectrum", C+"lib/method.c:create_plans_for_events_in_dimension", C+"lib/interpolation.c:delta_fn_interpolation", S+"method/spectral_dimension.py:SpectralDimension.coordinates_Hz"])
prop("C34", "The affine transformation applied is the one requested",
 "For every accepted 2x2 affine matrix (first element non-zero), the in-place scaling and shearing performed during a 2D simulation maps each pair of frequencies (in Hz) to the product of the matrix with the pair, for any pair of increments; matrices of the wrong size or with a zero first element are rejected.",
 "every accepted matrix, increments and frequencies",
 "continuous quantifiers; sequential in-place updates.",
 [S+"method/__init__.py:Method.validate_affine_matrix", C+"base/base_model.pyx:one_d_spectrum", C+"lib/frequency_averaging.c:two_dimensional_averaging"])
prop("C35", "Binning a triangle puts in every bin exactly the area that lies over it",
 "For every three vertex frequencies and amplitude, triangle binning adds to bin k exactly the area of the amplitude-normalised triangle between k and k+1 for every bin of the spectrum; when all frequencies lie inside the spectrum the total added is the amplitude; other bins are unchanged; with non-negative amplitude no bin decreases.",
 "every real frequency triple, amplitude and number of points",
 "continuous inputs, clipping on both sides; tests check a handful of triangles with tolerances.",
 [C+"lib/interpolation.c:__triangle_interpolation", C+"lib/interpolation.c:left_triangle_interpolate", C+"lib/interpolation.c:right_triangle_interpolate"])
prop("C36", "Binning never touches memory outside the spectrum",
 "For every input, the binning routines read and write only spec[0 .. points-1].",
 "every frequency triple (or frequency) and number of points",
 "an out-of-bounds touch that adds 0.0 changes no result and passes every numerical test.",
 [C+"lib/interpolation.c"])
prop("C37", "A sharp line deposits its amplitude, non-negatively, in the nearest bins",
 "delta_fn_interpolation distributes the amplitude over at most two adjacent bins with non-negative weights that add to one when the line is at least half a bin inside the spectrum, puts nothing outside, and never makes a bin negative when the amplitude is non-negative.",
 "every real frequency, amplitude and number of points",
 "continuous inputs; the failing interval is half a bin wide at the edge.",
 [C+"lib/interpolation.c:delta_fn_interpolation", C+"lib/frequency_averaging.c:__1D_averaging"])
prop("C38", "Powder averaging visits every triangle of the octant exactly once",
 "For every integration density n >= 1 the averaging loop visits each of the n^2 triangles of the octant grid exactly once, never uses a vertex index outside the (n+1)(n+2)/2 grid points, and terminates.",
 "every integration density",
 "a pointer-stepping loop for unbounded n.",
 [C+"lib/interpolation.c:octahedronInterpolation", C+"lib/octahedron.c:get_total_amplitude", C+"lib/interpolation.c:octahedronDeltaInterpolation"])
prop("C39", "Orientation grid: unit directions, right count, no division by zero",
 "For every integration density n >= 1 exactly (n+1)(n+2)/2 directions are generated per octant, in the order assumed by the averaging loop, each with squared direction cosines adding to one and a positive weight; the number of orientations reported by the configuration equals the number simulated.",
 "every integration density and volume",
 "unbounded n.",
 [C+"lib/octahedron.c:octahedronGetDirectionCosineSquareAndWeightsOverOctant", C+"lib/schemes.c:MRS_create_averaging_scheme", S+"simulator/config.py:ConfigSimulator.get_orientations_count"])
prop("C40", "Sideband orders follow the FFT order",
 "For every number of sidebands n the list of sideband frequencies has n entries, entry i being the representative of i modulo n in [-n/2, n/2) times the rotor frequency.",
 "every n and rotor frequency",
 "parity; unbounded n.",
 [C+"include/vm_common.h:__get_frequency_in_FFT_order"])
prop("C41", "Frequency-contribution switches act on every site of the event they belong to",
 "Each of the six frequency contributions of an event is included for every site whose quantum number changes iff it is enabled for that event.",
 "every spin system, transition and flag array",
 "a pointer that is advanced per site; needs at least two active sites and non-default flags.",
 [C+"lib/mrsimulator.c:MRS_rotate_single_site_interaction_components", S+"method/event.py:Event._freq_contrib_flags", C+"lib/simulation.c:__mrsimulator_core"])
prop("C42", "Every event is simulated with its own rotor frequency and angle",
 "After the dimensions are created, each event of each dimension refers to a plan computed for that event's rotor frequency and rotor angle.",
 "every list of events",
 "needs two events differing in both parameters; undefined behaviour rather than a wrong number.",
 [C+"lib/method.c:MRS_set_event", C+"lib/method.c:create_plans_for_events_in_dimension"])
prop("C43", "Mixing static and spinning events is always rejected",
 "A method that contains both an event with zero rotor frequency and one with non-zero rotor frequency is rejected with an error, whatever the order of the events; a method with only one kind is accepted and uses one sideband when static and the configured number when spinning.",
 "every sequence of events",
 "order-dependent state in a loop.",
 [C+"base/base_model.pyx:one_d_spectrum"])
prop("C44", "Powder averaging restores its shared phase buffer",
 "The phase buffer shared by all simulations of a run, which is stepped by a quarter turn for each octant, has its original content after every averaging pass, and octant j uses exactly the azimuthal angles shifted by j quarter turns.",
 "every buffer content and any number of passes",
 "shared mutable state; drift would appear only after many passes.",
 [C+"lib/angular_momentum.c:__batch_wigner_rotation"])
prop("C45", "Spin transition functions obey their symmetries",
 "The spin transition functions change sign when initial and final states are exchanged; the first-order quadrupolar one vanishes for symmetric transitions and is odd under inversion of both states; the second-order ones vanish for spin 1/2 and are even under (m_f, m_i) -> (-m_i, -m_f). Each function agrees with the documented operator expression (with exact square roots) to within 2e-10 relative to the terms it sums.",
 "every spin and every pair of quantum numbers",
 "continuous/unbounded arguments.",
 [C+"include/frequency/spin_transition_functions.h"])
prop("C46", "Tensor orientations depend on the sign of the Euler angle",
 "The cosine/sine pair used to build rotation matrices is even/odd in the angle: rotating by -beta undoes rotating by beta.",
 "every angle",
 "table lookup with sign handling; tests use positive angles.",
 [C+"include/vm.h:get_cos_sin_from_table", C+"lib/angular_momentum.c:wigner_d_matrices", C+"lib/angular_momentum.c:single_wigner_rotation"])
prop("C47", "Collapsing a powder pattern to a line happens only for a line",
 "The averaging replaces the powder pattern of a sideband by a sharp line only if all orientations have the same frequency.",
 "every frequency array over the orientation grid",
 "needs a tensor oriented so that the three grid corners coincide.",
 [C+"lib/frequency_averaging.c:__1D_averaging"])
prop("C48", "Random Czjzek tensors are symmetric and traceless",
 "Every tensor sampled by CzjzekDistribution is symmetric and traceless, whatever the random draw.",
 "every draw of the random numbers and every sigma",
 "continuous random inputs.",
 [S+"models/czjzek.py"])
prop("C49", "Haeberlen parameters are in range and determine the tensor",
 "For every traceless symmetric tensor with eigenvalues ordered by magnitude, the zeta and eta returned satisfy 0 <= eta <= 1 and give the eigenvalues back through get_principal_components; a zero tensor is the only exception.",
 "every traceless triple of eigenvalues",
 "continuous inputs.",
 [S+"models/utils.py:get_Haeberlen_components", S+"models/utils.py:get_principal_components"])
prop("C50", "The polar grid used for distributions is invertible",
 "Converting (zeta, eta) with 0 <= eta <= 1 to (x, y) by x_y_from_zeta_eta and back by x_y_to_zeta_eta gives the original pair.",
 "every zeta and every eta in [0, 1]",
 "continuous inputs, branch at the diagonal.",
 [S+"models/utils.py:x_y_from_zeta_eta", S+"models/utils.py:x_y_to_zeta_eta"])
prop("C51", "The extended Czjzek model uses the given dominant tensor",
 "For every non-zero dominant tensor the samples of ExtCzjzekDistribution are the dominant tensor plus the scaled random perturbation.",
 "every zeta, eta, eps and draw",
 "one boundary value (eta = 0, the most common one) is special.",
 [S+"models/czjzek.py:ExtCzjzekDistribution.rvs"])
prop("C52", "Signal processing applies the operations in order and keeps the input",
 "SignalProcessor.apply_operations returns the result of applying the listed operations one after another, each to the dependent variables it names, and leaves the data it is given unchanged.",
 "every list of operations and every data set",
 "composition over unbounded lists; aliasing.",
 [S+"signal_processing/__init__.py:SignalProcessor.apply_operations", S+"signal_processing/_base.py"])
prop("C53", "Apodisation preserves area, composes, and is the identity at zero width",
 "Exponential and Gaussian apodisation multiply the zero-time point by one (hence preserve the integral of the spectrum), never amplify any point, are even in time, exponential widths add under composition, and a zero width leaves the data unchanged.",
 "every width and time grid",
 "continuous inputs.",
 [S+"signal_processing/apodization.py"])
prop("C54", "Object invariants survive every sequence of assignments",
 "After any sequence of successful constructions and attribute assignments, a spin system has its abundance in [0, 100], every tensor its asymmetry in [0, 1], every coupling two distinct site indices, and no site of spin below 1 carries a quadrupolar tensor.",
 "every history of constructions and assignments",
 "a history property; validators run only for the assigned field.",
 [S+"spin_system/site.py", S+"spin_system/tensors.py", S+"spin_system/coupling.py", S+"spin_system/__init__.py"])
prop("C55", "Couplings only refer to sites of their spin system",
 "Whenever a spin system with couplings is simulated, every coupling's site indices are valid site indices of that system, so that no quantum number outside the transition is read.",
 "every spin system that can be constructed",
 "an out-of-range index reads unrelated memory; tests use valid indices.",
 [S+"spin_system/coupling.py:Coupling.validate_site_index", C+"lib/mrsimulator.c:MRS_rotate_coupled_site_interaction_components"])
prop("C56", "Typed lists hold only objects of their type",
 "Whatever sequence of list operations is applied, a TransitionList contains only Transition objects, a TransitionPathway likewise and a Sites list only Site objects.",
 "every sequence of operations",
 "invariant over all histories.",
 [S+"transition/pathway.py", S+"utils/abstract_list.py", S+"simulator/__init__.py:Sites"])
prop("C57", "Isotope symbols are normalised once and for all",
 "Formatting an isotope string either raises an error or returns a known symbol, is idempotent, and accepts every known symbol unchanged.",
 "every string",
 "unbounded strings.",
 [S+"spin_system/isotope.py:format_isotope_string"])
prop("C58", "Two-dimensional binning conserves amplitude",
 "For a triangle all of whose frequencies lie inside the two-dimensional window, two-dimensional binning adds exactly the amplitude in total, and its sum over the second dimension equals the one-dimensional binning of the first frequencies.",
 "every triple of frequency pairs, amplitude and grid size",
 "continuous inputs with many branches.",
 [C+"lib/interpolation.c:triangle_interpolation2D"])
prop("C59", "Negative gyromagnetic ratio mirrors the spectrum and nothing else",
 "For a nucleus with negative gyromagnetic ratio the recorded data are the mirror image (index k to -k modulo n) of the accumulated data: the same multiset of values, the same total.",
 "every data array and size",
 "the mirror is computed by two Fourier transforms.",
 [C+"base/base_model.pyx:one_d_spectrum"])
prop("C60", "The total intensity of a spectrum does not depend on the number of sidebands",
 "For every spinning simulation the sideband amplitudes of each orientation add up to one after normalisation, in one and in two dimensions.",
 "every number of sidebands and every phase trajectory",
 "Parseval's identity for arbitrary n; tests use one n.",
 [C+"lib/mrsimulator.c:MRS_get_amplitudes_from_plan", C+"lib/mrsimulator.c:MRS_create_plan", C+"lib/frequency_averaging.c"])
prop("C61", "A spin system without selected pathway contributes nothing",
 "If the method selects no transition pathway from a spin system (no site of the observed isotope, or no transition of the requested symmetry), adding that spin system to the list leaves the simulated data unchanged.",
 "every list of spin systems and every place in it",
 "needs all combinations of isotopes and queries; tests simulate systems that respond.",
 [C+"base/base_model.pyx:one_d_spectrum", S+"simulator/__init__.py:Simulator.run"])
prop("C62", "Patterns that reach into the window are recorded",
 "In a one-dimensional simulation every sideband whose frequencies fall inside the spectral window contributes its full amplitude to the spectrum.",
 "every frequency array, offset, number of sidebands and octants",
 "the filter looks at one number per sideband; tests centre the window on the line.",
 [C+"lib/frequency_averaging.c:__1D_averaging"])
prop("C63", "The total intensity of a powder does not depend on the integration density",
 "The orientation weights of one octant, as they enter the spectrum, add up to the same total for every integration density.",
 "every integration density",
 "tests compare normalised spectra.",
 [C+"lib/octahedron.c", C+"lib/interpolation.c:octahedronInterpolation", C+"lib/mrsimulator.c:MRS_create_plan"])
prop("C64", "Every dimension is offset by its own magnetic flux density",
 "The origin offset recorded for each dimension is computed from the flux density of that dimension's own events.",
 "every method with any number of dimensions",
 "matters only when events have different flux densities.",
 [C+"base/base_model.pyx:one_d_spectrum"])
prop("C65", "Spectral dimensions taken from a measured dataset have its coordinates",
 "get_spectral_dimensions gives, for every linear dimension of a CSDM dataset (either sign of the increment, with or without complex_fft), a spectral dimension whose coordinates_Hz are the coordinates of the dataset in ascending order.",
 "every count, increment, offset, and complex_fft flag",
 "tests use datasets exported by the simulator itself.",
 [S+"utils/__init__.py:get_spectral_dimensions", S+"method/spectral_dimension.py:SpectralDimension.coordinates_Hz"])
prop("C66", "A quantity means the same in every accepted unit",
 "A quantity given in any unit that parse_dict_with_units accepts enters the simulation as that physical quantity, whichever accepted unit was used.",
 "every attribute, every accepted unit and every value",
 "needs every attribute in every accepted unit carried through to the simulation; tests parse default units.",
 [S+"utils/parseable.py:Parseable.parse_dict_with_units", S+"spin_system/tensors.py:SymmetricTensor", S+"method/spectral_dimension.py:SpectralDimension", C+"base/base_model.pyx:one_d_spectrum"])
prop("C67", "Two-dimensional binning splits a triangle by area",
 "Each row of the map receives from a triangle the share of its amplitude that corresponds to the part of its area in that row, so that a triangle and its mirror image in the second dimension are binned to mirror images.",
 "every triangle and every window",
 "needs triangles across every edge of the window; tests compare whole spectra with reference files.",
 [C+"lib/interpolation.c:triangle_interpolation2D"])
prop("C68", "Two-dimensional binning is defined for every triangle",
 "Binning a triangle into a two-dimensional map never uses a value that was not computed.",
 "every triangle and every window",
 "an uninitialised variable holds whatever was on the stack, often something harmless.",
 [C+"lib/interpolation.c:triangle_interpolation2D"])
prop("C69", "Two-dimensional averaging stays inside its arrays",
 "Averaging a two-dimensional spectrum reads only inside the amplitude arrays, and the result depends only on what is inside them.",
 "every number of octants, sidebands and orientations",
 "reads behind the end of an array usually succeed silently.",
 [C+"lib/frequency_averaging.c:two_dimensional_averaging"])
prop("C70", "The rotation matrices are Wigner's",
 "Every element of the rank 2 and rank 4 matrices that the library evaluates from tabulated polynomials, in the full form, in the half form used for the powder orientations and in the column used for the rotor angle, equals Wigner's formula for the reduced rotation matrix element to the precision of the tabulated constants.",
 "every angle and every pair of indices",
 "tests compare the matrices at a handful of angles with reference numbers.",
 [C+"lib/angular_momentum.c:wigner_d_matrices", C+"lib/angular_momentum.c:wigner_d_matrices_from_exp_I_beta", C+"lib/angular_momentum.c:wigner_dm0_vector"])
prop("C71", "Euler angles rotate tensors",
 "Rotating the components of an interaction tensor by Euler angles gives the components of the tensor in the rotated frame; real tensors stay real; skipping the rotation for zero angles changes nothing; and the half-sized rotation used for the powder gives what the full rotation gives.",
 "every tensor and all Euler angles",
 "tests check a few rotated line shapes against reference files.",
 [C+"lib/angular_momentum.c:single_wigner_rotation", C+"lib/angular_momentum.c:__wigner_rotation_2", C+"include/vm.h:get_cos_sin_from_table"])
prop("C72", "Every interaction shifts a crystallite as its tensor says",
 "The contribution of a shielding, of the first order of a quadrupole coupling, of a J-coupling and of a dipolar coupling to the frequency of a transition is the spin factor of the transition times the value of the interaction's Cartesian tensor (given by zeta, eta and Euler angles) along the direction of the field, its anisotropic part being scaled by (3cos^2 - 1)/2 of the rotor angle.",
 "all tensor parameters, Euler angles, field directions, rotor angles and transitions",
 "tests compare a few powder line shapes with reference files from other programs.",
 [C+"include/frequency/spatial_orientation_tensor_components.h", C+"include/frequency/frequency_tensor_components.h", C+"lib/mrsimulator.c:MRS_get_normalized_frequencies_from_plan"])
prop("C73", "The frequency of a transition is the difference of two energies",
 "For any spin system the frequency that the library computes for a transition of a static crystallite is the energy of the final state less the energy of the initial state, the energies being those of perturbation theory: first order in all interactions and second order in the quadrupole couplings.",
 "any number of sites of any spin, any couplings, any field strength and direction, any pair of states",
 "frequencies of coupled multi-site systems have no closed reference; tests use one or two sites.",
 [C+"lib/mrsimulator.c:MRS_rotate_single_site_interaction_components", C+"lib/mrsimulator.c:MRS_rotate_coupled_site_interaction_components", C+"lib/mrsimulator.c:MRS_rotate_components_from_PAS_to_common_frame"])
prop("C74", "The second-order quadrupole frequency is that of perturbation theory",
 "The second-order quadrupole contribution to the frequency of a transition, which the library assembles from components of ranks 0, 2 and 4 with tabulated constants, equals the Rayleigh-Schroedinger sum over intermediate states of the quadrupole Hamiltonian for the spin matrices of the nucleus.",
 "every spin, every pair of states, every field gradient tensor and orientation",
 "tests compare powder line shapes of selected spins.",
 [C+"include/frequency/spatial_orientation_tensor_components.h:sSOT_2nd_order_electric_quadrupole_tensor_components", C+"include/frequency/frequency_tensor_components.h:FCF_2nd_order_electric_quadrupole_tensor_components", C+"include/frequency/spin_transition_functions.h:STF_cL"])
prop("C75", "A spinning sample gives the average frequency and the phase gathered over the rotor period",
 "For a sample rotating about an axis, the frequency the library places a crystallite at is the average over a rotor period of the momentary energy difference between the two states, and the phases it exponentiates before the Fourier transform are 2 pi times the integral of the momentary frequency minus that average, at the N sampling times of the period.",
 "every spin system, pair of states, crystallite orientation, rotor axis, positive rotor frequency and number of samples",
 "tests compare spinning spectra of a few spin systems with stored ones; the momentary frequency is never computed by the library.",
 [C+"lib/mrsimulator.c:MRS_get_normalized_frequencies_from_plan", C+"lib/mrsimulator.c:MRS_get_amplitudes_from_plan", C+"lib/angular_momentum.c:wigner_dm0_vector"])
prop("C76", "Sideband intensities converge to the Fourier coefficients of the signal",
 "The intensity given to the m-th spinning sideband of a crystallite is, up to an error that decreases as one over the number of sidebands, the squared modulus of the m-th Fourier coefficient of the signal exp(i phase) of the rotating crystallite.",
 "every spin system, pair of states, orientation, rotor axis and frequency, order m and number of sidebands",
 "a convergence statement; tests compare with stored spectra of a fixed number of sidebands.",
 [C+"lib/mrsimulator.c:MRS_get_amplitudes_from_plan", C+"lib/simulation.c:__mrsimulator_core"])
prop("C77", "Integration volume hemisphere samples the directions of the whole sphere",
 "With integration_volume 'octant' the frequency stored for a grid point is that of a crystallite seen along the grid point; with 'hemisphere' the frequencies of octants one to four are those along the grid points turned by quarter turns, which together with inversion symmetry are all the directions of the octahedral grid on the sphere. The in-place phase changes leave no trace for the next transition or spin system.",
 "every grid density, spin system, pair of states, list of transitions handled with one scheme, and direction with integer coordinates |x|+|y|+|z| equal to the density",
 "for all directions, densities and histories of the scheme; tests compare stored spectra of one density.",
 [C+"lib/angular_momentum.c:__batch_wigner_rotation", C+"lib/schemes.c:averaging_scheme_setup", C+"lib/mrsimulator.c:MRS_get_normalized_frequencies_from_plan"])
prop("C78", "The cheap octant average equals the hemisphere average for aligned systems",
 "When all Euler angles of all tensors are zero, a simulation with integration_volume 'octant' and one with 'hemisphere' add the same intensity to every bin of the spectrum, with and without sample spinning.",
 "every grid density, number of sidebands, rotor frequency and angle, window, field, list of sites and couplings with zero Euler angles, transition, and content of uninitialised phase rows",
 "the equality is exact only because the interpolation is symmetric under reflection of the triangulation and reversal of time; tests compare a few spectra to a tolerance of some percent.",
 [C+"lib/frequency_averaging.c:one_dimensional_averaging", C+"lib/angular_momentum.c:__batch_wigner_rotation", C+"lib/interpolation.c:octahedronInterpolation", C+"lib/mrsimulator.c:MRS_get_amplitudes_from_plan"])
prop("C79", "Sideband intensities over the orientations of a powder",
 "When a spin system is simulated at a spinning rate with N sidebands, the entry of the amplitude array for sideband m and a crystallite orientation of the grid (one octant or four) is the weight of that orientation, divided by the number of octants, times the squared modulus of the m-th Fourier coefficient of the signal of a crystallite so oriented in the spinning rotor, up to an error that decreases as 1/N. This includes the orientation at the pole.",
 "all spin systems with upright tensors, transitions, rotor angles and frequencies, grid sizes, numbers of sidebands, octants and orientations",
 "A numerical test sees the powder average, in which one orientation in thousands with the smallest weight changes nothing visible; a test of the amplitudes orientation by orientation would need an independent reference and says nothing about other systems.",
 [C+"lib/octahedron.c:octahedronGetComplexExpOfPolarAngleOverOctant", C+"lib/mrsimulator.c:MRS_create_plan", C+"lib/mrsimulator.c:MRS_get_amplitudes_from_plan"])

prop("C80", "The frequency of a transition does not depend on the order of the channels",
 "In a simulation the frequency of every selected transition is the difference of the energies of its two states, in which the quadrupole couplings of all sites count to second order, whichever isotope the first channel of the method names.",
 "all methods with any first channel, all spin systems with upright tensors, all transitions, fields and orientations",
 "Tests simulate methods with one channel, where the observed nucleus is the one whose couplings matter.",
 [C+"base/base_model.pyx:one_d_spectrum", C+"lib/mrsimulator.c:MRS_rotate_components_from_PAS_to_common_frame"])

prop("C81", "Tabulated sines and cosines are those of the angle",
 "The cosine and the sine that the simulation takes from its lookup table are those of the angle up to the interpolation error of the table's step (1.25e-9), for angles of any sign and of many turns, no entry outside the table is read, and sideband intensities differ from those of exact exponentials by no more than twice that relative error.",
 "all real angles up to a thousand million turns; all phase trajectories and numbers of sidebands",
 "Tests compare a few spectra with reference spectra to a few digits; the faulty interval is one part in 62832 of a turn.",
 [C+"include/vm.h:get_cos_sin_from_table", C+"include/vm.h:vm_double_complex_exp_imag_only", C+"include/tables/trig.h:generate_table"])

prop("C82", "A signal processor survives saving and loading",
 "Reading back the dictionary that SignalProcessor.json() produces gives the processor that was written: the same operations in the same order with the same attributes and units; in the session that wrote it and in a new one.",
 "every list of operations of any of the classes, every choice of attributes, every session",
 "Tests round-trip a few processors in a session in which all modules happen to be imported.",
 [S+"signal_processing/__init__.py:SignalProcessor.parse_dict_with_units", S+"signal_processing/_base.py:ModuleOperation.json", S+"signal_processing/apodization.py:Gaussian", S+"signal_processing/affine.py:Shear", S+"utils/parseable.py:Parseable.parse_dict_with_units"])

prop("C83", "A step of a fit sets exactly the parameters that are varied",
 "When the minimiser proposes values for any selection of the parameters of the simulator and of the signal processor, the residual is computed from a simulator and a processor in which each of those attributes has its proposed value and all others are as before; without a processor the unprocessed simulation is used.",
 "every simulator with supported attributes, every list of operations, every selection and order of parameters, all values, any simulation and processing",
 "Every name is built and taken apart as a string, with indices of any number of digits; tests use two or three spin systems and always give a processor.",
 [S+"utils/spectral_fitting.py:_post_sim_LMFIT_params", S+"utils/spectral_fitting.py:_update_post_sim_from_LMFIT_params", S+"utils/spectral_fitting.py:LMFIT_min_function"])

prop("C84", "One-pulse and correlation methods observe the transitions they are named for, in spin systems of any size",
 "In a spin system with any number of sites of any isotopes, BlochDecaySpectrum observes exactly the transitions in which one site of its isotope goes from m to m-1 and all other sites keep their states; BlochDecayCTSpectrum those from 1/2 to -1/2; Cosy all pairs of such single-quantum transitions; Inadequate all pairs of a transition of two sites together, each from m to m-1, and a single-quantum transition. A spin system without such transitions contributes nothing.",
 "every spin system and isotope",
 "the number of sites, spins and the number of pathways are unbounded; tests list the pathways of one pair of spins 1/2.",
 [S+"methods/correlation.py:Cosy.update", S+"methods/correlation.py:Inadequate.update", S+"methods/methods_data.json", S+"method/utils.py:query_permutations"])

prop("C85", "Isotropic-anisotropic correlation methods correlate every site with itself",
 "In every pathway that ThreeQ_VAS, FiveQ_VAS, SevenQ_VAS, ST1_VAS, ST2_VAS and SSB2D select, the transitions of both dimensions are transitions of the same site (the symmetric multiple-quantum, satellite or central transition, then the central transition), and all other sites are in one and the same state throughout, so that the two frequencies belong to the same nucleus in the same surroundings.",
 "every spin system, isotope and spin",
 "tests use spin systems of a single site.",
 [S+"methods/mqvas.py:MQ_VAS.update", S+"methods/stvas.py:ST_VAS.update", S+"methods/ssb2d.py:SSB2D.update", S+"method/__init__.py:Method._get_transition_pathways_np"])

prop("C86", "The residual of a fit does not depend on the decomposition of the spectrum",
 "LMFIT_min_function returns the same residual whether config.decompose_spectrum is \"none\" or \"spin_system\": the sum of the processed sub-spectra of the spin systems is the processed total spectrum, and one evaluation fails exactly when the other does.",
 "every list of spin systems, method, list of signal operations and experiment",
 "tests evaluate the residual with one setting and one list of operations only.",
 [S+"utils/spectral_fitting.py:LMFIT_min_function", S+"simulator/__init__.py:Simulator._as_csdm_object", S+"signal_processing/__init__.py:SignalProcessor.apply_operations"])

prop("C87", "A saved simulator is loaded as it was",
 "For every simulator, Simulator.load of the file that Simulator.save made gives a simulator equal to the saved one: same names, configuration, spin systems and methods in the same order, each method with the same transition queries, affine matrix, label and description, whatever its name; saving with or without units succeeds.",
 "every simulator with any spin systems, and any methods of the library or of the user's making, under any name",
 "tests round-trip a handful of library methods in their default form; queries are removed on saving by name and put back by whichever class has that name.",
 [S+"simulator/__init__.py:Simulator.json", S+"simulator/__init__.py:Simulator.parse_dict_with_units", S+"simulator/__init__.py:Simulator.save", S+"method/__init__.py:Method.json", S+"methods/base.py", S+"methods/utils.py", S+"method/named_methods.json"])

prop("C88", "As the integration density grows the spectrum converges to the powder pattern",
 "The simulated spectrum of a powder converges, bin by bin, as Simulator.config.integration_density grows: bin k tends to a constant times the share of all orientations of the sphere whose transition frequency (the difference of the energies of the two states) is in that bin; under spinning, with more and more sidebands, to the corresponding sum over the sidebands, each orientation weighted by the intensity of the sideband. The same holds for one octant if the principal axes of all interactions are the axes of the crystal frame.",
 "every spin system, transition, field, window and bin, static or spinning at any angle and frequency",
 "tests compare a few spectra at one density with stored data of other programs within a tolerance; that the values converge, and to what, is a statement about infinitely many densities.",
 [C+"lib/interpolation.c:octahedronInterpolation", C+"lib/interpolation.c:__triangle_interpolation", C+"lib/frequency_averaging.c:one_dimensional_averaging", C+"lib/octahedron.c:octahedronGetDirectionCosineSquareAndWeightsOverOctant", C+"lib/simulation.c:mrsimulator_core"])

prop("C89", "A spectral dimension records the fraction-weighted frequencies of its own events",
 "For every transition pathway of a spin system, every spectral dimension and every orientation of the averaging grid, the frequency along the dimension is the sum, over the events of that dimension, of the event's fraction times the frequency of the transition that the pathway has for this event, in the magnetic flux density of the event and averaged over the turn of the event's rotor. It depends neither on the other dimensions, nor on the pathways handled before, nor on what memory held.",
 "any number of dimensions and events, any pathways, spin systems, fields, rotor angles and frequencies, fractions, all orientations of any grid",
 "which transition belongs to which event, the accumulation with the refresh flag, and the state carried from pathway to pathway in the same C structures show only in combinations of several events, dimensions and pathways; tests run a few methods with equal events.",
 [C+"lib/simulation.c:__mrsimulator_core", C+"lib/mrsimulator.c:MRS_get_normalized_frequencies_from_plan", C+"base/base_model.pyx:one_d_spectrum", S+"method/spectral_dimension.py:SpectralDimension.events"])

prop("C90", "Multiple-quantum methods give an isotropic first dimension at the magic angle",
 "ThreeQ_VAS, FiveQ_VAS and SevenQ_VAS with their own affine matrix, on the magic angle: for every site and every spin that the method supports, all orientations have one and the same frequency along the first dimension, the weighted sum of the isotropic frequencies of the two transitions. So the two-dimensional spectrum is a ridge: all rows are multiples of one shape, only rows within one bin of that frequency are occupied, and their weights add up to one with their centre at that frequency.",
 "all methods of the family, spins, sites (tensor parameters, orientations), fields, windows, increments of both dimensions, grids, numbers of sidebands",
 "it needs the cancellation of a fourth-rank tensor for all orientations at once, through the scaling of the matrix with the increments and the in-place shear; tests compare one or two spectra with stored data.",
 [S+"methods/mqvas.py:MQ_VAS", S+"methods/utils.py", C+"lib/frequency_averaging.c:two_dimensional_averaging", C+"lib/interpolation.c:triangle_interpolation2D", C+"include/frequency/spin_transition_functions.h:STF_cL", C+"base/base_model.pyx:one_d_spectrum"])

prop("C91", "A simulator saved without units is loaded as it was",
 "Simulator.save(filename, with_units=False) writes a file from which Simulator.load(filename, parse_units=False) makes the same simulator: the same spin systems, methods (with their simulations and experiments), configuration and names, with every number as it was. Only the units in which values are displayed return to the defaults.",
 "all simulators: any spin systems, tensors, couplings, methods, events, queries, data sets, configurations, with any attributes missing",
 "the file is the nested dictionary of the object with all None removed, read back field by field with a default for every missing key: a wrong result needs a field whose default is not None, or a value that the reduction or the JSON writer cannot handle; tests save one simulator.",
 [S+"simulator/__init__.py:Simulator.save", S+"simulator/__init__.py:Simulator.load", S+"simulator/__init__.py:Simulator.reduced_dict", S+"utils/extra.py:_reduce_dict", S+"method/__init__.py:Method.dict", S+"method/transition_query.py:TransitionQuery"])

prop("C92", "A shear displaces every cross-section by factor times coordinate and keeps its area",
 "The operations IFFT(dim_index=d), any Shear(factor=a, dim_index=d, parallel=p), FFT(dim_index=d) give a data set with the same dimensions. Every cross-section along d is displaced by the sum of a times the coordinate along p, by interpolation; where that is a whole number of steps, it is moved by that many points. The sum over each cross-section and the sum of squares are unchanged, shears add up, and the opposite shear undoes a shear. Only the dependent variables that dv_index names are sheared.",
 "any number of dimensions and points, coordinates with any offset, data sets, factors, lists of shears along different parallel dimensions, choices of dependent variables, either direction of the transform",
 "sign, which dimension carries which coordinate in the broadcast product, and the offset of the coordinates all show up as the wrong displacement of the wrong section; tests shear one small data set by one factor.",
 [S+"signal_processing/affine.py:Shear.operate", S+"signal_processing/utils.py:_get_broadcast_shape", S+"signal_processing/__init__.py:IFFT.operate", S+"signal_processing/__init__.py:SignalProcessor.apply_operations", S+"signal_processing/_base.py:AbstractOperation._get_dv_indexes"])

prop("C93", "The amplitudes of a distribution are next to the coordinates of its variates and add up to one",
 "On two ascending grids with equal steps, pdf returns at row j and column i the coordinates pos[0][i] and pos[1][j] and, as amplitude, the share of the variates inside the grid that are nearest to these coordinates. Every variate at most half a step outside the coordinates is counted, once; the averages over the amplitudes are those of the variates to within half a step. On any grid the amplitudes that are numbers are non-negative and add up to one. No variate is lost for its asymmetry parameter when the second grid goes from 0 to 1.",
 "any grids of at least two coordinates, any list of random variates",
 "the variates are random, so a test can only check shapes and rough moments; a transposed array, an edge off by half a step or a lost outer bin give a plausible map that is displaced.",
 [S+"models/czjzek.py:AbstractDistribution.pdf", S+"models/czjzek.py:CzjzekDistribution.rvs", S+"models/utils.py:get_Haeberlen_components"])

prop("C94", "The table of sites shows every site in its own row",
 "sites.to_pd() has one row per site, in order, and one column for every attribute (name, label, description, isotope, isotropic chemical shift, symmetric shielding, quadrupolar) that is set in at least one site, in this order. The cell is the value of that attribute of that site with its unit, or empty where the site does not have it; a value of zero is shown.",
 "any list of sites with any combination of attributes and tensors",
 "columns are filled independently and removed while looping; one missing append shifts all later rows of one column, which only shows for particular combinations of missing attributes in a list.",
 [S+"simulator/__init__.py:Sites.to_pd", S+"utils/__init__.py:flatten_dict", S+"utils/parseable.py:Parseable.json"])

prop("C95", "run computes the methods asked for and leaves the others alone",
 "After run(method_index), the methods denoted by method_index (all if None; negative indexes count from the end) have as simulation the spectrum computed from their own attributes, and all their dimensions the Larmor frequency of their first channel as origin offset; every other method is exactly as before. Order and repetition of indexes make no difference, and running again changes nothing. When a method fails or an index is out of range, run raises there: the methods before are computed, all others keep their simulation.",
 "any list of methods and any argument method_index",
 "interference between methods only shows for particular subsets, orders and earlier states; the state left after an exception is never tested.",
 [S+"simulator/__init__.py:Simulator.run", C+"base/base_model.pyx:one_d_spectrum"])

prop("C96", "The spectrum of a powder after one pulse is the abundance-weighted powder pattern of the transitions that are observed",
 "After run() with a BlochDecaySpectrum or BlochDecayCTSpectrum, each point of the spectrum is, for dense grids, the sum over the spin systems that contain the channel's isotope of the abundance, over the transitions in which one nucleus of that isotope goes one state down (from 1/2 for the CT method) and every other spin keeps its state, of the share of directions over the sphere whose recorded frequency lies in the bin of the point, over the width of the bin and in the fixed unit 3 pi; for a sample that is spun the share is replaced by the mean intensity of each sideband over the directions for which it lies in the bin, and lines that do not depend on the direction are shared linearly between two points; with the decimals of the source the value is between those for slightly narrower and slightly broader bins.",
 "any list of spin systems of any number of sites and couplings, any isotopes and sign of the gyromagnetic ratio, any axis with an even number of points and any number of jobs; static or spun at any angle; lines broader than 1e-6 bins along the three axes and with their mean inside of the axis, or sharp",
 "this composes all stages, from the choice of transitions to the powder average, the sign conventions and the normalisation; tests compare a few spectra with other programs to a tolerance.",
 [S+"simulator/__init__.py:Simulator.run", C+"base/base_model.pyx:one_d_spectrum", C+"lib/simulation.c:mrsimulator_core", S+"methods/base.py"])

prop("C97", "SSB2D separates the sidebands of spin-1/2 transitions by their isotropic frequencies",
 "The map of SSB2D, on the magic angle, of a transition in which only nuclei of spin 1/2 take part is, for dense grids and many sidebands, a set of peaks, one for each sideband of the slow rotor frequency: the peak of order m is at m times the slow rotor frequency in the first dimension, with no trace of the shift, and at the isotropic frequency in the second. Its weight is the mean over all directions of the intensity of sideband m times that of the centre band of the fast rotor, and the latter tends to one as the fast rotor frequency grows. A site of spin 1/2 has exactly one pathway, its transition in either dimension.",
 "any spin system (sites, couplings, orientations), any field, rotor frequencies, increments, offsets and numbers of points; the fast rotor frequency beyond the width of the second axis",
 "the shift has to cancel exactly between two dimensions of different increments, offsets and sidebands, and the intensities are integrals over all directions; the test compares the sum along one axis of three spectra with one-dimensional spectra.",
 [S+"methods/ssb2d.py:SSB2D", C+"lib/frequency_averaging.c:two_dimensional_averaging", C+"lib/simulation.c:__mrsimulator_core", C+"lib/interpolation.c:triangle_interpolation2D"])

prop("C98", "Satellite-transition methods give an isotropic first dimension at the magic angle",
 "ST1_VAS and ST2_VAS with their own affine matrix, on the magic angle: for every site and every spin that the method accepts, both pathways (the two satellites, each correlated with the central transition) give ridges at one and the same frequency of the first dimension, the weighted sum of the isotropic frequencies of the satellite and of the central transition; no orientation is anywhere else.",
 "both methods, all spins they accept, all sites (tensor parameters, orientations), fields, rotor frequencies, windows, increments, grids, numbers of sidebands",
 "the weights come from a table with one entry per spin; a wrong entry gives a plausible but broadened map, and only the cancellation for all orientations at once distinguishes it; tests compare the matrix with the same table.",
 [S+"methods/stvas.py:ST_VAS", S+"methods/stvas.py:shear_factor_ST_MAS", C+"lib/frequency_averaging.c:two_dimensional_averaging", C+"include/frequency/spin_transition_functions.h:STF_cL"])

prop("C99", "Signal processors that compare equal do the same",
 "p == q is an equivalence, and holds exactly when p and q have as many operations and each has the class and the parameters of its counterpart; then p.apply_operations and q.apply_operations give the same result on every data set.",
 "any two lists of operations of any classes and parameters, any data set",
 "comparison is inherited and looks at the fields only; tests compare objects that were saved and loaded, so that a class lost or exchanged on the way would go unnoticed.",
 [S+"signal_processing/__init__.py:SignalProcessor", S+"signal_processing/_base.py:AbstractOperation", S+"signal_processing/apodization.py", S+"utils/parseable.py:Parseable"])

prop("C100", "Simulator.run with a multiple-quantum or satellite method records a map of isotropic peaks",
 "Simulator.run with ThreeQ_VAS, FiveQ_VAS, SevenQ_VAS, ST1_VAS or ST2_VAS on the magic angle returns one map per method. Its entry at two points of the axes is the sum over the spin systems, weighted by their abundances, and over their pathways, of a share of the frequency a0 nu(first transition) + a1 nu(central transition) in the first dimension times a non-negative pattern of the central transition in the second; the pattern is zero away from the frequencies of the transition and has the full weight if these are on the axis. Systems without the isotope of the channel change nothing, and so does the number of jobs.",
 "all lists of spin systems of one site of the isotope or without it, all sites, abundances, fields, spectral widths, even counts, offsets, signs of the gyromagnetic ratio, integration densities, numbers of sidebands and of jobs, rotor frequencies for which the sidebands are off the axes",
 "the position on the axes depends on the offsets, the mirror for negative gyromagnetic ratios, the matrix and the sorting of the triangles together; tests compare single maps with stored ones of the same program.",
 [S+"simulator/__init__.py:Simulator.run", S+"methods/mqvas.py:MQ_VAS", S+"methods/stvas.py:ST_VAS", C+"lib/simulation.c:__mrsimulator_core", C+"lib/frequency_averaging.c:two_dimensional_averaging", C+"base/base_model.pyx:one_d_spectrum"])

prop("C101", "The choice of the crystal frame does not change the spectrum of a powder",
 "If all tensors of a spin system (shielding, quadrupole, J, dipole) are turned together by any rotation, possibly another one for each spin system, the spectrum that Simulator.run computes for a Bloch decay converges with the integration density to the same intensities, at rest and (with the number of sidebands) under spinning at any angle. For spin systems of a single site with a single tensor its Euler angles have no effect at all and may be left out.",
 "all lists of spin systems, all rotations, abundances, fields, spectral widths, even counts, offsets, rotor frequencies and angles, contents of the allocated memory, numbers of jobs",
 "every rotation gives other frequencies at every orientation of the grid, the agreement is that of two limits of sums over infinitely refined grids; a test compares one rotation at one density.",
 [S+"simulator/__init__.py:Simulator.run", S+"spin_system/tensors.py:SymmetricTensor", C+"lib/angular_momentum.c:single_wigner_rotation", C+"lib/frequency_averaging.c:one_dimensional_averaging", C+"lib/schemes.c:MRS_create_averaging_scheme"])

prop("C102", "Only the distance between chemical shifts and reference offset matters",
 "If delta ppm are added to the isotropic chemical shifts of all sites of the observed isotope and the corresponding frequency delta B0 |gamma| to the reference offset of the spectral dimension, Simulator.run computes for a Bloch decay the same intensities, point by point.",
 "all lists of spin systems that list their isotopes in one order, all couplings, fields, rotor frequencies and angles, widths, counts, offsets, signs of the gyromagnetic ratio, integration densities, octants, numbers of sidebands and of jobs, contents of the allocated memory; any shift delta",
 "shift and offset enter in different languages, with different signs for positive and negative gyromagnetic ratio; tests fix an offset of zero or compare one spectrum.",
 [S+"simulator/__init__.py:Simulator.run", C+"base/base_model.pyx:one_d_spectrum", C+"lib/simulation.c:__mrsimulator_core", C+"include/frequency/spatial_orientation_tensor_components.h:sSOT_1st_order_nuclear_shielding_tensor_components"])

prop("C103", "The signs of quadrupole couplings and of spin-spin couplings cannot be seen",
 "If the quadrupole coupling constants of any sites are reversed, and the couplings between any pairs of sites (J, its anisotropy and the dipolar coupling of the pair together), Simulator.run computes for a Bloch decay (also of the central transition) the same intensities, point by point.",
 "all lists of spin systems without transition pathways of their own, decomposed or not, failing runs included, any choice of the sites and pairs, all parameters, fields, rotor frequencies and angles, axes, integration densities, octants, numbers of sidebands and of jobs, contents of the allocated memory",
 "every single line changes; the agreement is between the sets of all transitions, by a symmetry that reverses the other spins or both states of the observed one.",
 [S+"simulator/__init__.py:Simulator.run", C+"include/frequency/spin_transition_functions.h:STF_d", C+"include/frequency/spin_transition_functions.h:STF_dIS", C+"include/frequency/frequency_tensor_components.h", S+"method/transition_query.py:TransitionQuery"])

prop("C104", "The unit of frequency does not matter",
 "If the magnetic field, the quadrupole, J and dipolar couplings, the rotor frequency and the width and offset of the spectral dimension are multiplied by the same positive number, Simulator.run computes for a Bloch decay a spectrum of the same shape, point by point, with the intensities, which are per Hz, divided by that number; for a method of two dimensions with one event each (any queries and affine matrix), a map with the intensities divided by its square.",
 "all lists of spin systems, with user-given pathways or not, decomposed or not, failing runs included, all parameters, any positive factor, provided that the rotor is counted as static (below 1 mHz) in both runs or in none",
 "first- and second-order terms depend differently on field and coupling; a wrong power only shows when all of them are changed together, which no test does.",
 [S+"simulator/__init__.py:Simulator.run", C+"include/frequency/spatial_orientation_tensor_components.h:sSOT_2nd_order_quadrupole_tensor_components", C+"lib/simulation.c:__mrsimulator_core", C+"base/base_model.pyx:one_d_spectrum"])

prop("C105", "The order of sites and couplings does not matter",
 "If the sites of each spin system are listed in another order, the couplings renumbered accordingly, their order and the two sites of any of them exchanged, Simulator.run computes for a Bloch decay the same intensities, point by point.",
 "all lists of spin systems, another order for each of them, all parameters, axes, integration densities, numbers of sidebands and of jobs",
 "indices of sites address arrays of states, isotopes and couplings in three languages; tests list a system in one order.",
 [S+"simulator/__init__.py:Simulator.run", S+"spin_system/__init__.py:SpinSystem", S+"spin_system/coupling.py:Coupling", S+"method/utils.py", C+"include/frequency/frequency_tensor_components.h"])

prop("C106", "Sites that are not coupled contribute independently",
 "If a spin system consists of parts without couplings between them, Simulator.run computes for a Bloch decay the same intensities as for a list in which the parts are spin systems of their own with the same abundance; a part without the isotope of the channel changes nothing.",
 "all lists of spin systems that list their isotopes in one order, any number of sites and couplings in either part, all parameters, axes, integration densities, numbers of sidebands and of jobs",
 "the agreement is between sums over different numbers of transitions; tests of systems of several sites compare the positions of lines, or spectra normalised to their maximum.",
 [S+"simulator/__init__.py:Simulator.run", C+"base/base_model.pyx:one_d_spectrum", S+"spin_system/__init__.py:SpinSystem", C+"include/frequency/spin_transition_functions.h:STF_dIS"])

prop("C107", "The projection of a two-dimensional map on its first axis is the one-dimensional spectrum of that dimension",
 "For a method of two dimensions on one channel without affine transformation (Cosy, and the like for central transitions) the sum of the simulated map over the points of its second dimension, times the increment, is, at every point of the first axis, the spectrum that the one-pulse method with the settings of the first dimension simulates for the same spin systems, times the number of transitions of the second dimension.",
 "all lists of spin systems with any sites and couplings, all axes, fields, rotor frequencies and angles, integration densities, volumes and numbers of sidebands",
 "the statement connects two different binning routines through triangles cut along both axes; tests compare a map with a stored map and never with a one-dimensional spectrum.",
 [C+"lib/frequency_averaging.c:two_dimensional_averaging", C+"lib/interpolation.c:octahedronInterpolation2D", C+"lib/interpolation.c:triangle_interpolation2D", S+"simulator/__init__.py:Simulator.run"])

prop("C108", "Molecules in a liquid give single lines at the frequencies of shifts and weak couplings",
 "If all shift anisotropies, quadrupole couplings of observed sites, J anisotropies and dipolar couplings are zero, Simulator.run computes for a Bloch decay a spectrum that is, point by point, the sum of single lines: each at the difference of the energies of isotropic shifts and J couplings of its two states, shared linearly between the two nearest points, weighted with the abundance per increment; the factor common to all lines depends on the integration density only. Spinning, sidebands and the integration volume change nothing.",
 "all lists of spin systems without anisotropy, any number of sites and J couplings, all fields, axes, rotor frequencies and angles, numbers of sidebands, integration densities, volumes and jobs",
 "lines coincide or split depending on all shifts and couplings together; tests look at a few spin systems, and compare shapes normalised to their maximum.",
 [S+"simulator/__init__.py:Simulator.run", C+"lib/frequency_averaging.c:one_dimensional_averaging", C+"lib/interpolation.c:octahedronDeltaInterpolation", C+"include/frequency/frequency_tensor_components.h", C+"lib/simulation.c:__mrsimulator_core"])

prop("C109", "Intensities are not negative",
 "With abundances that are not negative, no point of a spectrum that Simulator.run computes for a Bloch decay, or of a map for a method of two dimensions with one event each, is negative.",
 "all lists of spin systems with any sites, couplings and user-given pathways, decomposed or not, all parameters, axes, integration densities, volumes, numbers of sidebands and of jobs",
 "contributions are sums over thousands of cut triangles and sidebands; a negative one is usually covered by the others, and shows only for lines at the edge of the axis.",
 [S+"simulator/__init__.py:Simulator.run", C+"lib/interpolation.c:delta_fn_interpolation", C+"lib/interpolation.c:triangle_interpolation", C+"lib/frequency_averaging.c:one_dimensional_averaging", C+"lib/interpolation.c:triangle_interpolation2D", C+"lib/frequency_averaging.c:two_dimensional_averaging"])

prop("C110", "Abundances are weights",
 "If the abundances of all spin systems are multiplied by a number, Simulator.run computes the same intensities multiplied by that number, in the sum and in every decomposed spectrum, and fails with the same error where it fails. A spin system given twice in a row, in two abundances, gives the same sum, on one process, as the spin system given once in the sum of the two abundances.",
 "all methods, all lists of spin systems, all numbers as factors, all numbers of jobs for the first part",
 "the statement relates runs of different inputs for every list and every state of the pathway cache; tests use one abundance, mostly 100.",
 [S+"simulator/__init__.py:Simulator.run", C+"base/base_model.pyx:one_d_spectrum", S+"spin_system/__init__.py:SpinSystem"])

prop("C111", "Methods that compare equal simulate the same",
 "Two Method objects for which == is True have the same channels, spectral dimensions and affine matrix as the simulation reads it, and a method compares equal to a copy of itself. The comparison of affine matrices goes through numpy's broadcasting of arrays of different shapes, while the simulation reads them flattened.",
 "all pairs of methods, affine matrices of any shape that the validator accepts",
 "broadcasting compares entries according to both shapes; tests compare matrices of one shape only.",
 [S+"method/__init__.py:Method.__eq__", S+"method/__init__.py:Method.validate_affine_matrix", C+"base/base_model.pyx:one_d_spectrum"])

prop("C112", "Every event evolves under its own transition",
 "The transition pathways of a spin system, selected by the method or given by the user, are handed to the C code as one array of numbers; event k of pathway i is simulated with the initial and final quantum numbers of the transition k of pathway i, or the pathways are rejected.",
 "all spin systems, methods with any number of dimensions and events, all user-given pathways",
 "which numbers are read follows from offsets into an array without bounds checks, for every number of sites, events and pathways; tests give pathways that fit.",
 [C+"base/base_model.pyx:one_d_spectrum", C+"lib/simulation.c:__mrsimulator_core", C+"lib/mrsimulator.c:MRS_rotate_single_site_interaction_components", S+"transition/base.py:Transition.tolist", S+"spin_system/__init__.py:SpinSystem.transition_pathways_must_include_transition"])

prop("C113", "SSB2D correlates a finite with an infinite rotor speed",
 "SSB2D gives a method exactly if it is given two dimensions without events and a positive rotor frequency; the first dimension then spins at that speed and the second infinitely fast, both with the given field and angle; every other call fails with an error.",
 "all rotor frequencies, lists of dimensions as dictionaries or objects, and keyword arguments",
 "which dictionary supplies a key is decided by a chain of pops, updates and assignments, for every combination of keys; tests use a few calls.",
 [S+"methods/ssb2d.py:SSB2D.__new__", S+"methods/base.py:Method2D", S+"methods/base.py:check_for_spectral_dimensions"])

prop("C114", "The centre of gravity of a powder spectrum is at the isotropic frequencies",
 "The sum of the points of a Bloch decay spectrum, static or spinning, is a constant times the abundance per increment times the number of observed transitions, and its centre of gravity is, to half an increment, the weighted mean of the isotropic frequencies: chemical shift, second-order quadrupole-induced shift and J coupling; of a spinning sample only the sidebands beyond the axis are missing.",
 "all lists of spin systems with lines inside the axis, all speeds and angles of the rotor, all tensors, fields, spins, couplings and axes with an even number of points",
 "a statement about an integral over all orientations and about every tensor; tests compare single spectra with stored files.",
 [C+"lib/simulation.c:__mrsimulator_core", C+"lib/mrsimulator.c:MRS_get_normalized_frequencies_from_plan", C+"include/frequency/spatial_orientation_tensor_components.h:sSOT_2nd_order_electric_quadrupole_tensor_components", C+"include/frequency/spin_transition_functions.h:STF_cL", C+"lib/interpolation.c:octahedronInterpolation"])

prop("C115", "A simulation gives back the memory it took",
  "Running a method releases every block of memory once, uses none after its release and none that was never allocated, touches no memory of others, and leaves nothing allocated when it is done.",
  "every number of dimensions, events, pathways, sidebands and orientations, and every state of the memory before",
  "lost memory changes no result, and a released block usually still holds what was in it.",
  [C + "lib/method.c", C + "lib/mrsimulator.c", C + "lib/schemes.c", C + "lib/simulation.c", C + "lib/frequency_averaging.c", C + "include/frequency/frequency_tensor_components.h", C + "base/base_model.pyx"])

prop("C116", "Spinning leaves the moments of a powder's spectrum as they are",
  "The spinning sidebands of every crystallite add up to its intensity and have their centre of gravity at its average frequency; averaged over the powder, the sum, the centre of gravity and the second moment of all sidebands are those of the static spectrum, at every speed and every angle of the rotor. For one site of spin 1/2 the second moment about the isotropic shift is the textbook value, the square of the anisotropy times one plus a third of the square of the asymmetry, over five.",
  "every spin system, transition, field, orientation, rotor speed and rotor angle, and every number k up to 2",
  "it is a statement about infinitely many sidebands, orientations, speeds and angles at once.",
  [C + "lib/simulation.c", C + "lib/frequency_averaging.c", C + "lib/schemes.c", C + "include/frequency/frequency_tensor_components.h"])

prop("C117", "The sidebands that are computed have their own intensities",
  "With any number of sidebands, the intensity of each of them is that of the sideband of the physical spectrum. (It is not: the sidebands beyond those that are computed are folded back onto them, and the intensities are right only if there are no sidebands at all.)",
  "every spin system, transition, field, orientation, rotor speed, rotor angle and number of sidebands",
  "tests compare spectra with so many sidebands that those left out are weak; that the others are folded back, and exactly how, cannot be seen from any number of spectra.",
  [C + "lib/simulation.c", C + "lib/frequency_averaging.c", C + "lib/schemes.c", S + "simulator/config.py"])

prop("C118", "Spinning slowly gives the static spectrum, spinning fast the average frequencies",
  "As the rotor slows down, the spectrum of a spinning powder becomes that of the static powder, at any angle of the rotor, and the sidebands of one crystallite are distributed as the frequencies it passes through in a turn; as it speeds up, only the average frequency of each crystallite is left, with an error of the order of the inverse square of the speed.",
  "every spin system, transition, field, orientation and rotor angle, and every bounded and continuous function of the frequency",
  "it is a limit, of more and more sidebands each weaker than the last, and no test reaches it.",
  [C + "lib/simulation.c", C + "lib/frequency_averaging.c", C + "lib/schemes.c", C + "include/frequency/frequency_tensor_components.h"])

prop("C119", "A site is found at its chemical shift on the ppm axis",
  "After a run, SpectralDimension.coordinates_ppm gives an axis on which the line of a site lies at its isotropic chemical shift, whatever the isotope, the flux density and the window; for a powder, the centre of gravity of the spectrum on that axis is the mean of the isotropic chemical shifts, weighted by the abundances.",
  "every isotope (of either sign of the gyromagnetic ratio), flux density, window, reference offset and chemical shift; for powders every list of spin systems of one spin-1/2 site",
  "the axis is put together from an origin offset assigned by one module, a reference offset from another and bins filled by a third; tests fix the reference offset at zero or compare the axis with its own formula.",
  [S + "method/spectral_dimension.py", S + "simulator/__init__.py", C + "base/base_model.pyx"])

prop("C120", "Exported spin systems are loaded as they were",
  "Simulator.export_spin_systems writes a file from which Simulator.load_spin_systems gives any simulator the same spin systems in the same order (attributes, sites, couplings, transition pathways), leaving the rest of the simulator and all other files alone; when the export fails, the file that was there before can still be loaded.",
  "every list of spin systems, with any attributes, sites, couplings and pathways; any file and simulator",
  "tests export one list of plain sites; failure needs an attribute that the JSON writer or the reader cannot handle, and the loss of the earlier file needs an earlier file.",
  [S + "simulator/__init__.py:Simulator.export_spin_systems", S + "simulator/__init__.py:Simulator.load_spin_systems", S + "spin_system/__init__.py", S + "utils/parseable.py:get_list"])

prop("C121", "Pathways given to a spin system are the ones that are simulated",
  "Setting SpinSystem.transition_pathways to method.get_transition_pathways(spin_system), for any of the spin systems, leaves the result of Simulator.run with that method as it is; any other pathways given to a spin system replace those that the method selects for it, and for no other spin system.",
  "every list of spin systems, method, assignment of pathways, number of workers, decomposed or not",
  "tests do not set pathways at all; whether they are used depends on the spin systems before in the list and on how the list is divided over the workers.",
  [S + "spin_system/__init__.py:SpinSystem.transition_pathways", S + "method/__init__.py:Method.get_transition_pathways", C + "base/base_model.pyx:one_d_spectrum", S + "simulator/__init__.py:Simulator.run"])

prop("C122", "Apodisation broadens every line to the given width",
  "Between IFFT and FFT along a dimension, Exponential(FWHM=w) turns every point of the chosen dependent variables into a Lorentzian line of full width at half maximum w and of the same area, and Gaussian(FWHM=w) into a Gaussian line; the weights are positive, so that a spectrum without negative values keeps none, and other dependent variables stay as they are.",
  "every spectrum, number of points, spacing, position of the axis, width, unit, dimension, choice of dependent variables",
  "tests compare with numpy formulas of the factors for one data set; that the factors are those of a line of this width for every grid, and how far from it, is a statement about sums over all times.",
  [S + "signal_processing/apodization.py:Exponential.fn", S + "signal_processing/apodization.py:Gaussian.fn", S + "signal_processing/apodization.py:AbstractApodization.operate", S + "signal_processing/__init__.py:SignalProcessor.apply_operations"])

prop("C123", "The Czjzek distribution has no preferred direction and the size asked for",
  "The random tensors of the Czjzek model have the same distribution seen from every frame, opposite tensors are equally likely, sigma is a scale, the mean is zero and the mean square of the norm is 30 sigma squared; samples of the extended model lie around the dominant tensor with eps as the relative root mean square deviation, and the distribution of zeta and eta does not depend on the frame in which the dominant tensor is written.",
  "every sigma, rotation or reflection, dominant tensor, eps",
  "a test draws a finite sample from one seed and can only compare histograms; equality of distributions for all rotations is a statement about measures.",
  [S + "models/czjzek.py:_czjzek_random_distribution_tensors", S + "models/czjzek.py:ExtCzjzekDistribution.rvs", S + "models/czjzek.py:CzjzekDistribution.rvs"])

prop("C124", "Sites and couplings keep the units of their tensors",
  "Whatever else is made from a tensor object, the tensors of a site or coupling keep the units in which the simulation reads them: json() writes zeta of a shielding tensor in ppm, zeta of a J tensor, Cq and D in Hz and angles in rad, and the site or coupling can be read back.",
  "every program that makes tensors, changes their values and gives them (also those that a site or coupling holds) to any number of sites and couplings",
  "the validators change a dictionary that shallow copies of a tensor share; tests make a new tensor for every site.",
  [S + "spin_system/site.py:Site.spin_must_be_at_least_one", S + "spin_system/site.py:Site.shielding_symmetric_must_not_contain_Cq_and_D", S + "spin_system/coupling.py:Coupling.j_symmetric_must_not_contain_Cq_and_D", S + "spin_system/coupling.py:Coupling.dipolar_must_not_contain_Cq_and_zeta", S + "utils/parseable.py:Parseable.json"])

prop("C125", "Fit parameters of different spin systems are independent",
  "Each parameter that a fit makes for a spin system, site, coupling or tensor stands for a number of its own: after a step each has the value proposed for it, whatever is proposed for the others, and numbers that are not parameters are as before.",
  "every program that makes sites and couplings with tensors and from them spin systems of a simulator, every choice of parameters and proposed values",
  "the objects of a simulator can share parts, and which do follows from how they were made; tests fit one spin system.",
  [S + "utils/spectral_fitting.py:LMFIT_min_function", S + "utils/spectral_fitting.py:_set_simulator_object_value", S + "utils/spectral_fitting.py:_get_simulator_object_value", S + "spin_system/__init__.py:SpinSystem"])

prop("C126", "Simulators that compare equal simulate the same",
  "Two Simulator objects can always be compared with ==, and it is True exactly if they have the same name, label, description, spin systems, configuration and methods with their data; a run then reads the same from both.",
  "all pairs of simulators, with methods that are or are not the same objects, before and after runs with and without pack_as_csdm",
  "the outcome depends on which methods are the same objects and on the kind of data that runs left in them; tests compare simulators before a run.",
  [S + "simulator/__init__.py:Simulator.__eq__", S + "simulator/__init__.py:Simulator.run", S + "method/__init__.py:Method.__eq__"])

prop("C127", "A spectrum shows no more than there is",
  "The intensities of a spectrum after one pulse add up to no more than the sum over spin systems of abundance times number of observed transitions, over the increment, times the weight of the orientations, which depends on the density only; those of a two-dimensional map to no more than the same with pathways and both increments, times the square of the number of sidebands (C60); whatever lies outside of the window is not folded into it.",
  "all lists of spin systems with abundances that are not negative, all interactions, frames, rotors, numbers of sidebands, dimensions, densities, octants and worker counts",
  "a double count or a fold shows only for tensors, spinning speeds and windows that put lines or sidebands on an edge; tests compare chosen spectra after normalization.",
  [C + "lib/interpolation.c:__triangle_interpolation", C + "lib/interpolation.c:delta_fn_interpolation", C + "lib/interpolation.c:triangle_interpolation2D", C + "lib/frequency_averaging.c:__1D_averaging", C + "lib/frequency_averaging.c:two_dimensional_averaging", C + "lib/simulation.c:__mrsimulator_core"])

with open(os.path.join(os.path.dirname(__file__), "..", "properties.jsonl"), "w") as f:
    for p in P:
        f.write(json.dumps(p) + "\n")
