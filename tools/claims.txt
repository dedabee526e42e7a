C01 proved
MRS.Chunks.C01_chunks_partition
MRS.Chunks.C01_zero_workers
MRS.Chunks.C01_negative_workers

C07 proved
MRS.Trans.C07_zeeman_states

C08 proved
MRS.Trans.C08_all_transitions

C09 proved
MRS.Trans.C09_single_channel_selection

C10 proved
MRS.Trans.C10_absent_channel
MRS.Trans.C10_absent_single
MRS.Trans.C10_too_long
MRS.Trans.C09_single_channel_selection
# The last theorem gives the absence of errors in every other single-channel case.

C11 proved
MRS.Trans.C11_pathways
MRS.Trans.C11_no_event

C12 partial
MRS.Trans.C12_multi_channel_partial
MRS.Trans.C12_sound
MRS.Trans.C12_counterexample_paired
MRS.Trans.C12_counterexample_error
# The code pairs the rearrangements of the channels instead of combining them, so the
# property is false in general (two counterexamples). Proved: whatever is selected
# matches, and the selection is exact when at most one channel has several
# rearrangements.

C13 proved
MRS.Trans.C13_attributes
MRS.Trans.C13_reverse
MRS.Trans.C13_filter
MRS.Trans.C13_counterexample_inputs
# The last theorem records what happens outside the documented inputs.

C14 proved
MRS.Trans.C14_central_transition
MRS.Trans.C14_bloch_decay

C15 proved
MRS.Trans.C15_mq_vas
MRS.Trans.C15_mq_domain

C16 proved
MRS.Trans.C16_st_vas
MRS.Trans.C16_st_domain

C17 partial
MRS.Trans.C17_mq_shear
MRS.Trans.C17_st_shear_partial
MRS.Trans.C17_counterexample_st1
MRS.Trans.C17_given
# True for all MQ_VAS entries. For ST_VAS the cancellation holds exactly for ST1 on spin
# 3/2 and ST2 on spin 5/2 and 7/2; the other table entries have the wrong sign.

C02 partial
MRS.Run.C02_mixture_partial
MRS.Run.C02_workers_partial
MRS.Run.C02_order_partial
MRS.Run.C02_failure_partial
MRS.Run.C02_counterexample
# The pathways of one spin system are reused for the next one with equally many sites
# (base_model.pyx:439), so the property is false in general. Proved for lists in which
# equal site count implies equal isotopes and equal user-given pathways.

C03 partial
MRS.Run.C03_decomposed_partial
MRS.Run.C03_entry
MRS.Run.C03_counterexample_workers
MRS.Run.C03_counterexample_empty
MRS.Run.C03_counterexample_negative
# False for more workers than spin systems, for no spin systems, and for an observed
# isotope of negative gyromagnetic ratio missing from a spin system.

C04 partial
MRS.Run.C04_metadata_partial
MRS.Run.C04_uniform_partial
MRS.Run.C04_counterexample
# Labels and descriptions leak to later spin systems that have none.

C05 proved
MRS.Run.C05_sites

C06 proved
MRS.Run.C06_simulator
MRS.Run.C06_spin_system
MRS.Run.C06_not_half_integer

C61 partial
MRS.Run.C61_no_pathway_partial
MRS.Run.C61_counterexample
# An empty selection raises a ValueError when the system has the observed isotope.

C35 partial
MRS.Bin.C35_bins_partial
MRS.Bin.C35_total
MRS.Bin.C35_nonneg
MRS.Bin.C35_no_more
MRS.Bin.C35_counterexample
# Exact area per bin for every bin k >= 1 and for bin 0 under a stated condition; total and non-negativity for all inputs, and never more than the amplitude. The code folds the area over (-1,0) into bin 0 (counterexample).

C36 partial
MRS.Bin.C36_triangle_partial
MRS.Bin.C36_delta
MRS.Bin.C36_counterexample
MRS.Bin.C36_plane_partial
MRS.Bin.C36_plane_counterexample
# Triangle binning touches spec[points] with += 0.0 when the middle frequency is at or beyond the end; everything else proved in bounds, also for the 2D routine (C36_plane_partial), except where it reads an unset variable (C68).

C37 partial
MRS.Bin.C37_inside
MRS.Bin.C37_nonneg_partial
MRS.Bin.C37_outside
MRS.Bin.C37_no_more
MRS.Bin.C37_counterexample
# A line in (-1,-1/2) makes bin 0 negative (truncation towards zero).
C38 proved
MRS.Bin.C38_triangles
MRS.Bin.C38_total_amplitude
MRS.Bin.C38_intensity
MRS.Bin.C38_delta
C39 partial
MRS.Bin.C39_grid
MRS.Bin.C39_angles_partial
MRS.Bin.C39_counterexample
MRS.Bin.C39_count
# The phase exp(i alpha) stored for the pole is 0, not a unit number, so that all components with m != 0 are dropped there; everywhere else the angles are right.
C40 proved
MRS.Bin.C40_fft_order
C47 partial
MRS.Bin.C47_aligned_partial
MRS.Bin.C47_line
MRS.Bin.C47_counterexample
# The code violates the property: only the three corners of the first octant are compared. A tensor with zero diagonal in the frame of the grid is collapsed to a line. The property holds for tensors aligned with the grid.
C62 partial
MRS.Bin.C62_intensity_partial
MRS.Bin.C62_counterexample
# The code violates the property: a sideband is dropped as soon as its isotropic position, truncated, is outside [0, count], although its orientations may lie inside the window. Proved when every isotropic position is inside.
C41 partial
MRS.Sim.C41_single_partial
MRS.Sim.C41_counterexample
# The code violates the property: the flag pointer is not reset between sites, so the second active site reads other flags (and finally memory outside the array). Proved for at most one active site.
C42 partial
MRS.Sim.C42_plans_partial
MRS.Sim.C42_counterexample
# The code violates the property: if rotor frequency and rotor angle both differ from the first event of the dimension, the plan pointer is never set. Proved otherwise.
C43 partial
MRS.Sim.C43_uniform
MRS.Sim.C43_mixed_partial
MRS.Sim.C43_counterexample
# The code violates the property: after a static first event every spinning event is accepted and simulated with one sideband. Proved for a spinning first event and for uniform methods.
C44 proved
MRS.Sim.C44_restored
MRS.Sim.C44_angles
C45 proved
MRS.Sim.C45_reversal
MRS.Sim.C45_first_order
MRS.Sim.C45_second_order
MRS.Sim.C45_central
MRS.Sim.C45_coupling
MRS.Sim.C45_constants
MRS.Sim.C45_accuracy
C46 partial
MRS.Sim.C46_phase
MRS.Sim.C46_cosine_partial
MRS.Sim.C46_counterexample
# The code violates the property: the sine used for rotation matrices is even in the angle. The cosine, and the exponential used for sideband phases, are right.
C64 partial
MRS.Sim.C64_uniform_partial
MRS.Sim.C64_counterexample
# The code violates the property: every dimension uses the flux density of the very first event. Proved for uniform flux density.
C59 proved
MRS.Sim.C59_mirror1
MRS.Sim.C59_mirror2
MRS.Sim.C59_rearrangement
C60 partial
MRS.Sim.C60_one_dim_partial
MRS.Sim.C60_counterexample_2d
MRS.Sim.C60_counterexample_events
# The code violates the property for two dimensions and for several events: products of sideband amplitudes are normalised only once. Proved for one dimension with one event.
C63 partial
MRS.Bin.C63_bounds_partial
MRS.Bin.C63_counterexample
MRS.Bin.C63_limit_partial
# The code violates the property: density 1 gives 3, density 2 more than 7. Proved: the total lies between 3 and 9*sqrt 3 for every density, and tends to 3 pi as the density grows.
C18 proved
MRS.Meth.C18_expand
MRS.Meth.C18_precedence
C19 partial
MRS.Meth.C19_unchanged_partial
MRS.Meth.C19_default
MRS.Meth.C19_counterexample
MRS.Meth.C19_counterexample_shared
# The code violates the property: "events" is removed from the caller's dictionaries. Proved for dictionaries without events, and that the shared default argument stays empty over every call history.
C20 partial
MRS.Meth.C20_dicts
MRS.Meth.C20_constructor_partial
MRS.Meth.C20_counterexample_objects
MRS.Meth.C20_counterexample_reserved
# The code violates the property if the first dimension is an object (nothing is checked), and accepts reserved keywords beside the rotor frequency string. Proved for dictionaries.
C22 partial
MRS.Meth.C22_one_dim_partial
MRS.Meth.C22_reversed
MRS.Meth.C22_counterexample
# The code violates the property for two dimensions: the attributes are assigned in reversed order. Proved for one dimension.
C32 proved
MRS.Meth.C32_grid
MRS.Meth.C32_round_trip
C33 partial
MRS.Meth.C33_line_partial
MRS.Meth.C33_counterexample_odd
MRS.Meth.C33_counterexample_negative
# The code violates the property for odd counts (half a bin off) and for the first bin with a negative gyromagnetic ratio. Proved for even counts. Chemical-shift line of a single p = -1 transition.
C34 partial
MRS.Meth.C34_affine
MRS.Bin.C34_sidebands
MRS.Meth.C34_counterexample_1d
# Proved in full for two dimensions. A 1x1 matrix on a one-dimensional method is accepted and then read beyond its end.
C65 partial
MRS.Meth.C65_import_partial
MRS.Meth.C65_counterexample_odd
MRS.Meth.C65_counterexample_negative
# The code violates the property for odd counts without complex_fft and for negative increments with it. Proved for the other cases.
C21 partial
MRS.Meth.C21_round_trip_partial
MRS.Meth.C21_counterexample_count
MRS.Meth.C21_counterexample_query
MRS.Meth.C21_counterexample_empty
# The code violates the property: equal events of named methods are merged, a missing P becomes the default, empty event lists gain an event. Proved otherwise. Float printing and reading is trusted.
C23 partial
MRS.Parse.C23_round_trip
MRS.Parse.C23_rejects
MRS.Parse.C23_tables
MRS.Parse.C23_site
MRS.Parse.C23_spin_system
MRS.Parse.C23_counterexample
# Proved for every object whose attributes have accepted units; the code violates the property for tensors with attributes that do not belong to them (the validators forget the unit only). Float printing and reading and the unit library are trusted.
C24 partial
MRS.Parse.C24_spin_system
MRS.Parse.C24_site_partial
MRS.Parse.C24_counterexample
MRS.Parse.C24_counterexample_shared
# The code violates the property for sites and couplings. Proved in full for spin systems; methods take the same deep copy.
C25 partial
MRS.Parse.C25_round_trip_partial
MRS.Parse.C25_antisymmetric_never
MRS.Parse.C25_counterexample
# The code violates the property for every coupling with an antisymmetric J tensor and for symmetric J tensors without zeta. Proved for the others.
C66 partial
MRS.Parse.C66_stored_partial
MRS.Parse.C66_counterexample
# The code violates the property: zeta in Hz is simulated as ppm, spectral widths in ppm as Hz. Proved: value and recorded unit together denote the quantity given.
C26 partial
MRS.Util.C26_reduced_partial
MRS.Util.C26_counterexample
# The code violates the property for exclusions nested below lists of lists. Proved for plain nested dictionaries whose lists are flat.
C27 partial
MRS.Util.C27_flatten_partial
MRS.Util.C27_counterexample
# The code violates the property: below the second level keys collide. Proved for dictionaries of depth two with distinct keys.
C28 partial
MRS.Fit.C28_names_partial
MRS.Fit.C28_counterexample
# The code violates the property for J coupling tensors. Proved for the other attributes.
C29 proved
MRS.Fit.C29_abundances
MRS.Fit.C29_zero_total
# For simulators without the tensors of C28_counterexample. When all abundances are zero the code divides by zero, shown by C29_zero_total.
C30 proved
MRS.Fit.C30_bounds
# For simulators without the tensors of C28_counterexample (for those no parameters are made).
C31 partial
MRS.Coll.C31_aligned
MRS.Coll.C31_rejects
MRS.Coll.C31_scalars
# Proved for arguments with at least one list. The code violates the property when all arguments are scalars (IndexError).
C48 proved
MRS.Dist.C48_symmetric_traceless
# The random generator is a parameter.
C49 proved
MRS.Dist.C49_haeberlen
MRS.Dist.C49_zero
MRS.Dist.C49_round_trip
# Over the reals; the eigenvalue routine is a parameter (any order of the eigenvalues).
C50 partial
MRS.Dist.C50_round_trip_partial
MRS.Dist.C50_counterexample
# The code violates the property at eta = 1 (sign of zeta flips) and zeta = 0. Proved for the rest up to the stated error of 4e-12, over the reals.
C51 partial
MRS.Dist.C51_sample_partial
MRS.Dist.C51_symmetric_traceless
MRS.Dist.C51_counterexample
# The code violates the property for eta = 0: the dominant tensor is dropped. Proved for eta not zero.
C52 partial
MRS.Signal.C52_result
MRS.Signal.C52_input_partial
MRS.Signal.C52_counterexample
MRS.Signal.C52_rejects
# The code violates the property: unless the first operation is a Fourier transform the data given are changed in place. The result itself is proved for every list of operations.
C53 partial
MRS.Signal.C53_exponential_partial
MRS.Signal.C53_area
MRS.Signal.C53_exponential_area
MRS.Signal.C53_counterexample_unit
MRS.Signal.C53_counterexample_gaussian_area
MRS.Signal.C53_counterexample_gaussian_zero
MRS.Signal.C53_gaussian_even_partial
MRS.Signal.C53_counterexample_gaussian_odd
# Proved for the exponential with a unit. The code violates the property for widths without unit and for the Gaussian (factor at zero time, zero width, odd counts).
C54 partial
MRS.Obj.C54_invariants_partial
MRS.Obj.C54_abundance
MRS.Obj.C54_counterexample
# The code violates the property for three kinds of assignment (asymmetry, isotope, item of site_index).
C55 partial
MRS.Obj.C55_reads_partial
MRS.Obj.C55_counterexample
# The code violates the property: any two different integers are accepted as site indices.
C56 partial
MRS.Obj.C56_typed_partial
MRS.Obj.C56_counterexample
# The code violates the property: insert, slice assignment and, for sites, append, extend and construction are unchecked.
C57 proved
MRS.Obj.C57_format
MRS.Obj.C57_forgiving
# The classes of \d, \s and \w beyond ASCII are a parameter.
C58 partial
MRS.Bin.C58_rows_partial
MRS.Bin.C58_total_partial
MRS.Bin.C58_octant_partial
MRS.Bin.C58_map_partial
MRS.Bin.C58_no_more
MRS.Bin.C58_counterexample
# Proved for everything half a bin inside the window; elsewhere the additions together are at most the amplitude (C58_no_more). The code violates the property for sharp lines nearer to an edge.
C67 partial
MRS.Bin.C67_pieces_partial
MRS.Bin.C67_counterexample
# The code violates the property for triangles with two vertices left of the window.
C68 partial
MRS.Bin.C68_unset
MRS.Bin.C68_counterexample
# Exact condition proved; the code violates the property for triangles across the left edge.
C69 partial
MRS.Bin.C69_one_octant_partial
MRS.Bin.C69_result
MRS.Bin.C69_counterexample
# Reads are inside the arrays with one octant only; the result does not depend on the stray reads.

C70 proved
MRS.Freq.C70_rank2
MRS.Freq.C70_rank4
MRS.Freq.C70_reduced
MRS.Freq.C70_table
# Real arithmetic. C70_table is for the cosine and sine that the code takes from its table for the Euler angles (without the sign of the angle, C46); the others are for the exact cosine and sine, as for the orientations of the powder and the rotor.

C71 partial
MRS.Freq.C71_cartesian_partial
MRS.Freq.C71_forms_partial
MRS.Freq.C71_real
MRS.Freq.C71_half
MRS.Freq.C71_zero
MRS.Freq.C71_decimals_partial
MRS.Freq.C71_counterexample
# Negative polar angles rotate the wrong way (counterexample). Cartesian and form statements have the exact square roots in place of their ten-digit decimals, and exact cosines and sines in place of the table; C71_decimals_partial bounds the difference for rank 2.

C72 partial
MRS.Freq.C72_shielding_partial
MRS.Freq.C72_quadrupole_partial
MRS.Freq.C72_j_partial
MRS.Freq.C72_dipolar_partial
MRS.Freq.C72_shielding_decimals_partial
MRS.Freq.C72_quadrupole_decimals_partial
MRS.Freq.C72_j_decimals_partial
MRS.Freq.C72_dipolar_decimals_partial
# The first four have the exact square roots in place of their decimals and nonnegative polar angles. The others have the decimals of the
# source (right to a part in 10^7 of the strength of the interaction) and any angle: the frequency is that of the interaction without
# the sign of its tilt, which the code drops (C73_counterexample). Rounding is not modelled.

C73 partial
MRS.Freq.C73_energies_partial
MRS.Freq.C73_decimals_partial
MRS.Freq.C73_absolute_partial
MRS.Freq.C73_counterexample
# C73_energies_partial takes the exact square roots in place of their decimals; C73_decimals_partial bounds what the decimals of the source change (a few parts in 10^7 of each interaction). Negative polar angles give another frequency (counterexample), namely that of the system with their absolute values (C73_absolute_partial). Rounding of floating-point operations is not modelled.

C74 partial
MRS.Freq.C74_second_order_partial
MRS.Freq.C74_decimals_partial
# The first has the exact square roots in place of their decimals and nonnegative polar angles. C74_decimals_partial has the decimals of
# the source (two parts in 10^7 of the scale of the shift) and any angle, whose sign the code drops (C73). Rounding is not modelled.

C75 partial
MRS.Freq.C75_average_partial
MRS.Freq.C75_phase_partial
MRS.Freq.C75_decimals_partial
# Exact with the square roots in place of their decimals and for nonnegative polar angles. C75_decimals_partial has the decimals of the
# source and tilts of any sign: the average is right to about six digits of every interaction, the phase to as many in units of the rotor
# frequency, for the system without the signs of the tilts, which the code drops (C73). Rounding is not modelled.

C76 partial
MRS.Freq.C76_sidebands_partial
MRS.Freq.C76_limit_partial
MRS.Freq.C76_source_partial
# Exact square roots and nonnegative polar angles in the first two. C76_source_partial has the decimals of the source, its table of
# exponentials and tilts of any sign, with an explicit error, for the system without the signs of the tilts, which the code drops (C73).
# Rounding is not modelled.

C77 partial
MRS.Freq.C77_octants_partial
MRS.Freq.C77_sphere_partial
MRS.Freq.C77_decimals_partial
MRS.Freq.C77_sphere_decimals_partial
# The first two have the exact square roots in place of their decimals and nonnegative polar angles. The others have the decimals of the
# source (about six digits of every interaction) and any angles, whose signs the code drops (C73). Eight octants, which the
# configuration does not offer, are not modelled.

C78 proved
MRS.Freq.C78_octant
# For one event and one transition pathway, in exact arithmetic; with the decimals of the source as well as with the exact constants.

C79 partial
MRS.Freq.C79_sidebands_partial
MRS.Freq.C79_decimals_partial
MRS.Freq.C79_pole
MRS.Freq.C79_counterexample
# The code violates the property at the pole: exp(i alpha) is stored as 0 there (x = y = 0), so every component of order m > 0 of the
# rotated tensors is lost and the crystallite has all its intensity in the centre band (C79_pole, for all inputs);
# C79_counterexample gives a site whose crystallite at the pole has a second sideband of positive intensity. Every other
# orientation of every octant is proved, with an explicit error bound in 1/N; C79_decimals_partial has the decimals of the source and
# tilts of any sign, for the system without the signs of the tilts, which the code drops (C73). Missing: several spectral events.

C80 partial
MRS.Freq.C80_channels_partial
MRS.Freq.C80_counterexample
# The code violates the property when the first channel is a spin 1/2 and the transition is one of a quadrupolar nucleus (possible with two
# channels): the quadrupole couplings are then dropped, whereas they are used if the channels are given in the other order. Proved for first
# channels of higher spin and for transitions in which the quadrupolar nuclei keep their states. With the exact square roots in place of their decimals.

C81 partial
MRS.Sim.C81_index
MRS.Sim.C81_accuracy_partial
MRS.Sim.C81_everywhere_partial
MRS.Sim.C81_sidebands
MRS.Sim.C81_counterexample
# The code violates the property in the last interval of the table: the entry for a whole turn stands at the angle 6.2832 > 2 pi, so within
# 1e-4 below a whole number of turns the sine is off by up to 1.25e-5 (C81_counterexample, at 6.28318). Proved elsewhere to the full accuracy,
# and everywhere with the larger bound, which also bounds the sideband intensities. Real arithmetic; libm is taken as exact.

C82 partial
MRS.Signal.C82_round_trip_partial
MRS.Signal.C82_fresh_session
MRS.Signal.C82_counterexample
# The code violates the property twice: a new session has not imported the modules apodization and affine, in which the classes are looked up
# (C82_fresh_session, AttributeError for every processor with such an operation); and widths given as plain numbers are accepted,
# read back different and cannot be applied (C82_counterexample). Proved for all other operations when the modules are loaded. The unit library is a parameter.

C83 partial
MRS.Fit.C83_parameters
MRS.Fit.C83_step
MRS.Fit.C83_counterexample
# The code violates the last clause: without a processor, the documented default, every evaluation ends in an AttributeError (C83_counterexample).
# With a processor the property is proved in full for simulators whose objects share no parts (those that do: C125). The simulation, the processing and the minimiser are parameters; validation on assignment is not modelled.

C84 partial
MRS.Trans.C84_bloch_decay
MRS.Trans.C84_central_transition
MRS.Trans.C84_cosy
MRS.Trans.C84_inadequate_partial
MRS.Trans.C84_counterexample
# The code violates the last clause for Inadequate: a spin system with exactly one site of the isotope is refused with a ValueError instead of
# contributing nothing (C84_counterexample, for all such systems). Everything else is proved for all spin systems.

C85 partial
MRS.Trans.C85_mq_vas
MRS.Trans.C85_st_vas
MRS.Trans.C85_ssb2d
MRS.Trans.C85_one_site_partial
MRS.Trans.C85_counterexample
# The pathways are characterised for all spin systems (first three theorems). The code violates the property when there is more than one site:
# pathways combine transitions of different sites, or of different states of the other sites (C85_counterexample). Proved for spin systems of one site.

C86 partial
MRS.Residual.C86_processing_partial
MRS.Residual.C86_residual_partial
MRS.Residual.C86_counterexample_index
MRS.Residual.C86_counterexample_negative
MRS.Residual.C86_counterexample_empty
# The code violates the property for operations with a dv_index (applied to one sub-spectrum only), for decomposed spectra with a negative gyromagnetic
# ratio and a spin system without the isotope, and without spin systems. Proved for all operations that act on every dependent variable, failures included.

C87 partial
MRS.Saved.C87_method_partial
MRS.Saved.C87_simulator_partial
MRS.Saved.C87_data_partial
MRS.Saved.C87_array
MRS.Saved.C87_counterexample_unnamed
MRS.Saved.C87_counterexample_methods
MRS.Saved.C87_counterexample_reduced
# The code violates the property; C87_method_partial is an equivalence that says exactly which methods survive, and C87_simulator_partial lifts it to simulators.
# Counterexamples: unnamed methods, Inadequate, the full central-transition name, changed descriptions and shears, Method2D with finite spinning, saving without units, simulations that are arrays (C87_array).
# C87_data_partial: simulations that are data sets are loaded with the methods, as csdmpy reads what it wrote (a parameter).
# The parameters of events and dimensions (C21) and spin systems (C23, C25) are parameters that are assumed to round-trip; merging of equal events (C21) is not repeated here.

C88 partial
MRS.Freq.C88_static_partial
MRS.Freq.C88_spinning_partial
MRS.Freq.C88_tilted_partial
MRS.Freq.C88_tilted_spinning_partial
MRS.Freq.C88_decimals_spinning_partial
MRS.Freq.C88_counterexample
# The code violates the property where the frequencies along the three axes agree although the others do not: it then draws a single line (C88_counterexample: an axial tensor along the diagonal).
# Proved with the limit 3 pi times the share of the directions, under hypotheses about the spec only: that the axes differ, that the isotropic frequency is in the window (C62), nothing in (-1, 0) for bin 0.
# For tilts of any sign (C88_tilted_partial, C88_tilted_spinning_partial) the pattern is that of the spin system without the signs, which the code drops (C73).
# With the decimals of the source: C88_decimals_spinning_partial bounds the limit from both sides for every finite number of sidebands (C96_decimals_partial does it for static samples).
# Missing: bin 0 under spinning; with the decimals, sidebands whose isotropic position is within the tolerance of the border of the window.

C89 partial
MRS.Freq.C89_core_partial
MRS.Freq.C89_decimals_partial
MRS.Freq.C89_counterexample
# The code violates the property for a dimension without events (events may be an empty list): its frequencies are then whatever the memory held (C89_counterexample).
# Proved for all dimensions with one event or more, any pathways one after the other, whatever is done to the dimensions in between.
# C89_decimals_partial: the same within a tolerance of about six digits with the constants of the source and tilts of any sign.
# Missing: the signs of tilts (C73: the code uses absolute values), the flags of freq_contrib (C41) and the choice of the plans (C42), which are other properties.

C90 partial
MRS.Freq.C90_orientations_partial
MRS.Freq.C90_ridge_partial
MRS.Freq.C90_rows
MRS.Freq.C90_mq_partial
MRS.Freq.C90_tilt_partial
MRS.Freq.C90_bounded
MRS.Freq.C90_default_angle
MRS.Freq.C90_near_partial
MRS.Freq.C90_mq_near_partial
# End to end: query -> pathway (C15) -> packed quantum numbers -> frequencies (C89) -> affine matrix (C34) -> interpolation of the map.
# C90_ridge_partial is for any spin system and any two transitions whose fourth-rank parts cancel, C90_mq_partial for the methods of the library.
# Those are for the exact magic angle; C90_tilt_partial gives what is left of the anisotropy at any angle, C90_default_angle that it is below 1e-9 for the default angle, C90_near_partial and C90_mq_near_partial that with the decimals of the source, any rotor angle and tilts of any sign the map is zero away from the isotropic rows.
# Missing: lines on the edge of the window, where rows wrap; the signs of tilts (C73: the code uses absolute values).

C91 partial
MRS.Plain.C91_round_trip_partial
MRS.Plain.C91_affine
MRS.Plain.C91_pathways
MRS.Plain.C91_array
MRS.Plain.C91_counterexample
# The code violates the property: no simulator with an affine matrix, with pathways set by hand or with an array as simulation can be saved (proved for all such simulators), nor one with a spectrum decomposed by spin systems; a query with P = None is loaded with P = -1 (C91_counterexample).
# Proved for all other simulators: the file exists and loads as the same simulator with default units.
# Missing: numbers are exact, pydantic's conversions of strings to numbers and the parsing of data sets by csdmpy are not modelled.

C92 partial
MRS.Signal.C92_displacement_partial
MRS.Signal.C92_steps
MRS.Signal.C92_conserved
MRS.Signal.C92_compose
# The result of the operations as an interpolated displacement, for any list of shears; steps, conservation and composition of the interpolation.
# Missing: csdmpy's fft is assumed to be the Fourier transform between the two coordinates (up to a factor per point that it undoes); the conversion of the units of the factor is not modelled.

C93 proved
MRS.Dist.C93_cells
MRS.Dist.C93_partition
MRS.Dist.C93_total
MRS.Dist.C93_averages
MRS.Dist.C93_eta
MRS.Dist.C93_counterexample
# For every list of variates and every pair of regular grids. The histogram and the mesh of numpy are modelled after its reference; floats are exact.
# C93_counterexample: what happens outside the statement: unequal steps record a variate at the wrong coordinates, descending grids and grids of one coordinate are errors, an empty grid gives "not a number".

C94 proved
MRS.Util.C94_table
MRS.Util.C94_sites
MRS.Util.C94_counterexample
# Equality with the specified table for every list of sites, through the model of json (C23) and of flatten_dict (C27).
# C94_counterexample: antisymmetric shielding has no column, so different sites can have equal rows. The data frame of pandas is taken as its dictionary of columns.

C95 proved
MRS.Select.C95_selected
MRS.Select.C95_failure
MRS.Select.C95_again
# Invariant of the loop over the indexes, for every list of methods. The spectrum of one method is a parameter that depends on the attributes run does not change (its content: C01–C03); two entries of the list that are the same Python object are outside the model.

C96 partial
MRS.Freq.C96_static_partial
MRS.Freq.C96_decimals_partial
MRS.Freq.C96_spinning_partial
MRS.Freq.C96_magic_partial
MRS.Freq.C96_tilted_partial
MRS.Freq.C96_tilted_spinning_partial
MRS.Freq.C96_decimals_spinning_partial
# Composes the models of run, of the transitions, of the frequencies, of the average and of the axis; lines may be sharp or broad, the sample static or spun (any angle, limit of many sidebands; the magic angle without any condition on the lines). Negative tilts: the spectrum of the systems without the signs (C96_tilted_partial), as the code drops them (C77).
# Missing: lines that vary by less than 1e-6 bins along the axes but are not sharp (drawn as a single line), point 0 (which also collects what is up to one bin below the axis), odd numbers of points (C33). The decimals of the source: C96_decimals_partial, and C96_decimals_spinning_partial for a given number of sidebands and tilts of any sign.

C97 partial
MRS.Freq.C97_peaks_partial
MRS.Freq.C97_pathway
MRS.Freq.C97_fast
MRS.Freq.C97_fast_mean
MRS.Freq.C97_tilted_partial
# From the model of two_dimensional_averaging with the matrix and the pathways of the method. The factor is the square of the number of sidebands (C60).
# Tilts of any sign in C97_tilted_partial, with the spin system without the signs, which the code drops (C73).
# Missing: the tabulated decimals, a decimal approximation of the magic angle, row and column 0, a single octant (C78). Spin systems of several sites of the isotope have cross pathways (C85_counterexample).

C98 partial
MRS.Freq.C98_st_partial
MRS.Freq.C98_near_partial
MRS.Freq.C98_counterexample
# The code violates the property: for ST1_VAS on spin 5/2, 7/2, 9/2 and ST2_VAS on spin 9/2 the table of stvas.py has the wrong sign (C17), and the first dimension depends on the orientation for every axial site (C98_counterexample).
# Proved end to end for ST1_VAS on spin 3/2 and ST2_VAS on 5/2 and 7/2, any site: both maps are ridges at one frequency; with the decimals of the source and any rotor angle, zero away from it (C98_near_partial).
# Missing: lines on the edge of the window; the signs of tilts (C73).

C99 partial
MRS.Signal.C99_compared
MRS.Signal.C99_same_partial
MRS.Signal.C99_equivalence
MRS.Signal.C99_counterexample
# The code violates the property: the inherited comparison ignores the class, so Gaussian and Exponential of the same width compare equal although they do different things (C99_counterexample); IFFT and FFT compare equal and do the same.
# Proved: exactly what is compared, that it is an equivalence, and that equal processors without such an exchange do the same.
# Trusted: the comparison of pydantic 1 (by dict()); units are compared by their printed form.

C100 partial
MRS.Freq.C100_map_partial
MRS.Freq.C100_near_partial
MRS.Freq.C100_mq_partial
MRS.Freq.C100_st_partial
MRS.Freq.C100_fast
# From Simulator.run to the entries of the map: the loop over spin systems and pathways, selection, packing, frequencies, two_dimensional_averaging with the matrix of the method, offsets and mirror image. C100_fast: fast enough spinning meets the condition on the sidebands.
# With the constants of the source and any rotor angle: nothing more than one point and a computed bound away from the isotropic frequencies (C100_near_partial).
# Missing: row and column 0, odd counts, sidebands on the axes; ST methods for the spins where their table is wrong (C98); systems of several sites of the isotope only through C100_map_partial, with the pathways given. Tilts by negative angles are computed as positive ones (C73), which the statement says through Spec.upright.

C101 partial
MRS.Freq.C101_static_partial
MRS.Freq.C101_spinning_partial
MRS.Freq.C101_lone_partial
MRS.Freq.C101_lone_spinning_partial
MRS.Freq.C101_counterexample
# The code violates the property: an axial tensor along a diagonal of the frame is drawn as a sharp line for every density (C101_counterexample), negative tilts lose their sign (C77), a single octant is not enough for turned tensors (C78).
# Proved for spectra with four octants, no negative tilts (of any sign if there is one tensor) and lines that are sharp or vary along the axes by more than 1e-6 bins in both frames.

C102 partial
MRS.Freq.C102_translation_partial
# Exact equality of the two spectra at every density, not a limit; with the constants of the source or exact ones.
# Missing: lists of spin systems with equally many sites and another order of isotopes, where the code uses the wrong transitions (C02).

C103 proved
MRS.Freq.C103_signs
MRS.Freq.C103_signs_partial
# Exact equality of the two results at every density, not a limit; with the constants of the source or exact ones; for every list of spin systems without pathways of their own, decomposed or not, failures included.
# C103_signs_partial adds that the two runs may differ in the number of workers and the order of sets, for lists with one order of isotopes.
# Reversing J and dipolar coupling of one pair separately is another spectrum.

C104 proved
MRS.Freq.C104_scaling
MRS.Freq.C104_scaling_map
MRS.Freq.C104_scaling_partial
# Exact equality up to the factor at every density, for every list of spin systems, decomposed or not, failures included; the threshold of 1 mHz (C15) enters as a hypothesis in one dimension. In two dimensions the replacement of slow rotors is not modelled.
# C104_scaling_partial adds that the two runs may differ in the number of workers and the order of sets, for lists with one order of isotopes.

C105 partial
MRS.Freq.C105_order_partial
# Exact equality of the two spectra at every density. The code violates the property if only some of the spin systems of one run are reordered: the transitions of the first of equally many sites are used (C02_counterexample).
# Missing: such lists.

C106 partial
MRS.Freq.C106_parts_partial
MRS.Freq.C106_uncoupled_partial
MRS.Freq.C106_spectators_partial
MRS.Freq.C106_counterexample
# The code violates the property: intensities are not divided by the number of states, so a proton without couplings doubles the intensities of a nitrogen spectrum (C106_counterexample).
# Proved, exactly at every density: the spectrum is that of the parts with the abundance multiplied by the number of states of the other part; the same for all sites of a system without couplings.

C107 partial
MRS.Freq.C107_projection_partial
MRS.Bin.C107_counterexample_narrow
MRS.Bin.C107_counterexample_edge
MRS.Sim.C60_counterexample_2d
# The code violates the property: the map is too strong by the square of the number of sidebands (C60_counterexample_2d), triangles of equal frequencies are drawn with another shape (C107_counterexample_narrow), and triangles across the edge of the axis with memory that is not set (C107_counterexample_edge).
# Proved, exactly at every density, with the square of the number of sidebands as a further factor, for first frequencies that are sharp or differ in every triangle and stay clear of the lower edge, and second frequencies on the axis.

C108 partial
MRS.Freq.C108_liquid_partial
# Exact at every density, with the decimals of the source; the common factor tends to 3 pi.
# Missing: odd numbers of points (C33) and the end point of the axis (C37, C109_counterexample); lists in which the same number of sites stands for different isotopes (C02_counterexample).

C109 partial
MRS.Freq.C109_positive_partial
MRS.Freq.C109_map_partial
MRS.Freq.C109_counterexample
MRS.Freq.C109_edge
# The code violates the property in the first row and column of maps as at the end point of spectra, C109_edge for one triangle: a sharp line between a half and one point below the axis is counted negatively at the end point (delta_fn_interpolation truncates towards zero), C109_counterexample is such a run.
# Proved for all other points, for every list of spin systems and pathways, decomposed or not.

C110 proved
MRS.Run.C110_scaling
MRS.Run.C110_split

C111 partial
MRS.Meth.C111_equal_partial
MRS.Meth.C111_decides_partial
MRS.Meth.C111_counterexample
MRS.Meth.C111_unpacked
# The code violates the property: an affine matrix may be given in any shape with the right number of entries, and two of them that broadcast against each other compare equal although the simulation reads them differently (C111_counterexample); a method whose simulation is an array of several entries cannot be compared with a copy of itself (C111_unpacked, for every such method).
# Proved for affine matrices given as n by n or as a flat list; as an equivalence (C111_decides_partial) for simulations that are CSDM objects or absent.
# numpy as in requirements.txt (below 1.20): arrays whose shapes do not fit compare as False.

C112 partial
MRS.Trans.C112_selected
MRS.Trans.C112_given_partial
MRS.Trans.C112_counterexample
MRS.Trans.C112_counterexample_sites
# Proved in full for pathways that the method selects.
# The code violates the property for pathways given by the user: with fewer transitions than the method has events, an event reads the transition of the next pathway or memory behind the array (C112_counterexample), and with quantum numbers of another number of sites, numbers of other sites (C112_counterexample_sites). Proved for all others.

C113 partial
MRS.Meth.C113_rotor_partial
MRS.Meth.C113_counterexample
# The code violates the property: with objects as dimensions a rotor frequency is not asked for, not checked and ignored (C113_counterexample).
# Proved for dictionaries, with one channel and without a transition query of the caller.

C114 partial
MRS.Freq.C114_gravity_partial
MRS.Freq.C114_spinning_partial
# Proved in the limit of a dense integration, with the exact constants, under the hypotheses of C96. For static samples exactly; for spinning samples, in the limit of many sidebands, up to the sidebands beyond the window, which C114_spinning_partial bounds by the variance of the static pattern over the square of the distance from the line to the ends of the window.

C115 partial
MRS.Mem.C115_memory_partial
MRS.Mem.C115_repeated
MRS.Mem.C115_counterexample
# The code violates the property: structures, plans with their tables, arrays of events and of dimensions, and a buffer for every site of second order are never released; C115_repeated gives the number of bytes after any number of simulations. An event whose rotor frequency and angle both differ from those of the first has no plan, and the simulation follows a pointer that was never set (C115_counterexample, compare C42).
# Proved for all other inputs: no block is released twice, none is used after its release, and the memory of others is left alone.

C116 partial
MRS.Freq.C116_crystallite_partial
MRS.Freq.C116_powder_partial
MRS.Freq.C116_anisotropy_partial
MRS.Freq.C116_tilted_partial
# In the limit of many sidebands (for a finite number the code folds the higher ones back), with the numbers that the decimals of the tables stand for. Second Euler angles are non-negative in the first two; C116_tilted_partial is for any, with the static spectrum of the system without their signs, which the code drops (C73).
# The mean over the powder is the mean over the sphere, to which the averaging scheme of the code converges (C77).

C117 partial
MRS.Freq.C117_folding_partial
MRS.Freq.C117_exact_partial
MRS.Freq.C117_tilted_partial
MRS.Freq.C117_decimals_partial
MRS.Freq.C117_counterexample
# The code violates it. What it computes for sideband m is the intensity of the sum of the amplitudes of all sidebands m + k N (C117_folding_partial), exactly and for every N; this is right if and only if the frequency does not depend on the angle of the rotor (C117_exact_partial).
# These have the numbers that the decimals of the tables stand for, and non-negative second Euler angles (C71); C117_tilted_partial is for any angles, whose signs the code drops (C73), and C117_decimals_partial bounds what the decimals of the source change. As N grows, the intensities become right (C76).

C118 partial
MRS.Freq.C118_crystallite_partial
MRS.Freq.C118_powder_partial
MRS.Freq.C118_fast_partial
MRS.Freq.C118_tilted_partial
# In the limit of many sidebands, whose number has to grow as the rotor slows (for a finite number the others are folded back, C117), with the numbers that the decimals of the tables stand for. Second Euler angles are non-negative except in C118_tilted_partial, which is for any, with the static spectrum of the system without their signs, which the code drops (C73).
# The mean over the powder is the mean over the sphere, to which the averaging scheme of the code converges (C77).

C119 partial
MRS.Meth.C119_axis_partial
MRS.Meth.C119_shift_partial
MRS.Meth.C119_counterexample
MRS.Freq.C119_powder_partial
# True for the reference offset zero only: with a reference offset x0 the line of a site is at shift * v0 / (x0 + v0), v0 being the Larmor frequency, and never at its shift if it is on resonance.
# A line in windows as in C33; powders as in C114 (static, in the limit of the integration density).

C120 partial
MRS.Parse.C120_round_trip_partial
MRS.Parse.C120_pathways
MRS.Parse.C120_antisymmetric
# The code violates the property: a spin system with pathways makes the export fail after the old file is gone, and one with an antisymmetric J tensor is exported but cannot be loaded (both proved for all such systems). Proved for all others with units as in C23 and C25.

C121 partial
MRS.Run.C121_preset
MRS.Trans.C121_layout
MRS.Run.C121_override_partial
MRS.Run.C121_counterexample
# The first half is proved for all lists, methods and workers, including the array that the C code reads. The second is violated: pathways of the previous spin system are kept if it has as many sites (C121_counterexample); proved for lists in which spin systems with equally many sites have the same isotopes and pathways.

C122 partial
MRS.Signal.C122_exponential_partial
MRS.Signal.C122_gaussian_partial
MRS.Signal.C122_counterexample_gaussian
# Exponential: proved for all grids, the weights being the Lorentzian (wrapped around the axis) up to the relative error exp(-pi w / (2 spacing)) that the finite time makes, positive and of sum one. Gaussian is violated: width (n - 1)/n of the one asked for, area not one (C122_counterexample_gaussian, C53); what the weights are is proved for even numbers of points. The transform of csdmpy is assumed.

C123 partial
MRS.Dist.C123_isotropic
MRS.Dist.C123_size
MRS.Dist.C123_frame
MRS.Dist.C123_extended_partial
# numpy's generator is taken as ideal independent normal variables. Everything is proved for all sigma and frames; centre and size of the extended model for dominant tensors with zeta and eta not zero, since the code drops the dominant tensor otherwise (C51_counterexample).

C124 partial
MRS.Parse.C124_units_partial
MRS.Parse.C124_saved_partial
MRS.Parse.C124_counterexample
# The code violates the property: the validators change the dictionary of units of the tensor they are given, which copies share (C124_counterexample: a site that cannot be read back because its tensor was given to another site later).
# C124_units_partial is an equivalence: all units are right exactly if no two tensors with the same dictionary are for different things. C124_saved_partial adds that such sites and couplings (as in C25) survive writing and reading.
# The shallow copy of a model by pydantic before version 2 is trusted. Not modelled: constructions that fail, tensors read with units, tensors of the other class.

C125 partial
MRS.Fit.C125_independent_partial
MRS.Fit.C125_counterexample
# The code violates the property: spin systems made from one Site object share its tensors, so that of two parameters the later value counts for both (C125_counterexample).
# C125_independent_partial is an equivalence: the property holds for a program exactly if it uses no site or coupling with a tensor in two places.
# The shallow copy of a model by pydantic before version 2 is trusted. Names of parameters lead to paths as in C28. Not modelled: a spin system that is appended twice, changes to objects after they are made, validation on assignment.

C126 partial
MRS.Meth.C126_equal_partial
MRS.Meth.C126_decides_partial
MRS.Meth.C126_counterexample
# The code violates the property: after run(pack_as_csdm=False) the simulation is an array, and comparing the simulator with a copy is a ValueError (C126_counterexample, for every such simulator); affine matrices in odd shapes as in C111.
# Proved, as an equivalence, for simulations that are CSDM objects or absent and affine matrices given as n by n or as a flat list.
# numpy as in requirements.txt (below 1.20). The comparison of spin systems, configurations, spectral dimensions and CSDM objects is that of their values.

C127 partial
MRS.Freq.C127_bounded_partial
MRS.Freq.C127_map_partial
MRS.Freq.C127_each_partial
# Missing: lists in which systems with the same number of nuclei have different isotopes; the code gives the later ones the pathways of the first (C02); for maps also two events or more in one dimension.
# Maps are bounded by the same with the number of pathways, times the square of the number of sidebands, by which the code magnifies them (C60).
# Floats are real numbers.
