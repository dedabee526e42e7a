# Formal model of mrsimulator — design

Properties: `properties.jsonl` (source: `tools/props.py`). Claims: `MANIFEST.json`.
Lean project: `lean/` (Lean 4.33.0, Mathlib). Build: `cd lean && lake build`.

## Trusted base

* Lean's kernel, and the axioms `propext`, `Classical.choice`, `Quot.sound`
  (printed per theorem by `tools/axioms.sh`). No own axioms, no `sorry`,
  no `native_decide`, no `bv_decide`.
* The reading of the Python / Cython / C source by hand: each definition of the
  model cites file and lines, and says what it simplifies. Nothing was run.
* The semantics given to Python, NumPy, pydantic v1 and C constructs (see
  "Conventions").

## Conventions

* Python exceptions are values (`Except`), mutation is explicit state passing.
* Python `dict` is an association list with unique keys in insertion order.
* Floating point is replaced by exact arithmetic: `ℚ` in everything that must
  compute, `ℝ`/`ℂ` where a square root, trigonometric function or exponential
  occurs. Rounding, overflow and NaN are outside the model everywhere.
* C memory is a function or list with an explicit record of the indices touched,
  so that "out of bounds" is a fact of the model and not assumed away.
* NumPy broadcasting, `union1d`, `where`, `ix_`, `reshape` are modelled by list
  functions with the same value, errors included where the code can reach them.
* pydantic copies a model that is given for a field, and the copy shares the objects it holds
  (`copy_on_model_validation` is "shallow" in pydantic v1 but for 1.9.1). Models are trees without
  sharing except in `Parse/Shared` (C124) and `Util/FitShared` (C125), which have a heap.
* Not modelled: joblib process management (only that results come back in
  order), FFTW (assumed to compute the DFT), BLAS, csdmpy, lmfit, pandas,
  the random generator of NumPy (assumed to draw independent normal values).

## Layout

One directory per area under `lean/Verif/`. Inside a file: the model (every definition cites
the lines of `/repo` it renders), then `Spec.*` definitions (the specification, independent
of the model's helpers), then lemmas, then the theorems `Cnn_...` with an `example` beside
each. Files that only hold lemmas say so in their first lines.

| directory | code | properties |
|-----------|------|------------|
| `Py`, `Dict`, `Val` | Python integers, slices, dictionaries, JSON-like values | — |
| `Run` | simulator/\_\_init\_\_.py (chunks, run, decomposition, sites, isotopes), base_model.pyx (loop over spin systems) | C01–C06, C61, C95, C110, C121 |
| `Trans` | spin_system (states, transitions), transition/, method/utils.py, transition_query.py, methods/ (Bloch decay, MQ_VAS, ST_VAS tables) | C07–C17, C112 |
| `Meth` | method/\_\_init\_\_.py, methods/base.py, methods/utils.py, event.py, spectral_dimension.py, affine matrix | C18–C22, C32–C34, C65, C87, C91, C111, C113, C119, C126 |
| `Parse` | utils/parseable.py, site.py, coupling.py, tensors.py | C23–C25, C66, C120, C124 |
| `Util` | utils/\_\_init\_\_.py, spectral_fitting.py, collection.py, `Sites.to_pd` | C26–C31, C83, C86, C94, C125 |
| `Dist` | models/czjzek.py, models/utils.py | C48–C51, C93, C123 |
| `Signal` | signal_processing/ | C52, C53, C82, C92, C122 |
| `Obj` | validation on construction and assignment, isotope.py, abstract_list.py | C54–C57 |
| `Bin` | interpolation.c, octahedron.c, frequency_averaging.c, schemes.c (counts) | C35–C40, C47, C58, C62, C63, C67–C69 |
| `Sim` | method.c, simulation.c (events, flags, plans), base_model.pyx (events, offsets, mirror image), spin_transition_functions.h, trigonometric tables, Fourier transforms | C41–C46, C59, C60, C64, C115 |
| `Freq` | angular_momentum.c, spatial_orientation_tensor_components.h, frequency_tensor_components.h, mrsimulator.c (components, frequencies, amplitudes, spinning), schemes.c | C70– |

Not modelled at all: benchmark.py, \_\_main\_\_.py, utils/importer.py, sandbox/, plotting and
pandas helpers of the simulator, the arithmetic of `vm.h`/BLAS calls beyond their meaning,
progress bars. `csdmpy` objects are records of the fields that are used.

### Simplifications that matter

* Floats are exact (`ℚ`, `ℝ`); where decimals of the source stand for irrational constants
  the model has a record of constants (`WC`, `TC`) with two instances, `src` (the decimals)
  and `exact`; theorems about physics are for `exact`, and `Freq/WignerNear`, `Freq/TrigNear`, `Freq/Near`,
  `Freq/SourceSpin`, `Freq/SourcePowder`, `Freq/SourceSpinRun`, `Freq/Decimals`, `Sim/StfExact` bound the difference to `src`.
* The record `WC` also holds the cosine and sine of the Euler rotations: `src` has the table of
  `trig.h` with the interpolation of `vm.h` (`Sim/Trig`), `exact` the functions themselves (of the absolute
  value of the angle, C46). Tolerances therefore grow within 1e-4 of a full turn, where the table ends (`Spec.edge`).
  The exponentials of the sidebands are exact in `Freq` except where `sidebandAmpsTable` is named (C76).
* Most of `Freq` looks at one event per dimension (fraction and increment 1); `Freq/Core`
  composes any number of events, dimensions and pathways, and `Sim/Events` holds the
  bookkeeping around them.
* Iteration order of Python sets is a parameter of the model wherever it is observable.

## Plan per property

| id | model | proof |
|----|-------|-------|
| C01 | `get_chunks` on lists, Int `n_jobs`, CPU count as a parameter | prefix sums; concatenation by induction; error branches |
| C02 | the spin-system loop of `one_d_spectrum` with its cache `(n_sites, isotopes, pathways)`; spectrum of a system as an arbitrary function into an additive commutative monoid | negation with a witness (line 439 uses `and`); `_partial` for lists in which equal site count implies equal isotopes |
| C03 | `run` for decomposition; empty chunk returns an array, not a list | negation for `n_jobs >` number of systems; partial for `1 ≤ n_jobs ≤` number |
| C04 | shared dict updated in a loop | negation (label leaks) ; partial for name and application, and for all-present fields |
| C05, C06 | list loops | membership / `Nodup` / order invariants of the loop |
| C07, C08 | Kronecker construction of states, pair construction | induction on sites; `Nodup`, sortedness, count |
| C09–C12 | `query_permutations`, `get_symmetry_indexes`, `_get_transition_pathways`, `cartesian_product` | exact membership characterisation; C12 negation (zip instead of product) and partial |
| C13 | `Transition` and `TransitionList.filter` | list algebra |
| C14–C16 | C09 applied to single-site systems | arithmetic over all half-integers |
| C17 | tables of `mqvas.py`, `stvas.py`, `STF_cL` up to its common irrational factor | exhaustive over the finite tables |
| C18–C22 | dictionary rewriting of method construction and serialisation | case analysis, induction on dimensions and events; negations for aliasing and reversed order |
| C23–C27 | `Parseable`, `_reduce_dict`, `flatten_dict` | induction on nesting; negations where the code fails |
| C28–C30 | string rewriting and path lookup | lists of characters; decimal numerals |
| C31 | generator pipeline | zip alignment |
| C32–C34, C37, C59 | exact rational arithmetic of grids, bins, affine update | `field_simp`, floor lemmas; negation for odd counts |
| C35, C36, C58 | line-by-line model of the binning kernels over ℚ with touched indices | induction over the bin loop against the cumulative area of the tent |
| C38, C39 | pointer-stepping loops | loop invariant by rows |
| C40, C44, C45 | small kernels | parity cases, algebra |
| C41–C43 | flag pointer, plan assignment, static/spinning flag | state machines; negations with witnesses, partials |
| C46, C47 | table lookup sign logic, corner test | negation plus partial |
| C48–C51 | tensor algebra over ℝ | algebra |
| C52, C53 | operation lists, apodisation kernels | induction, real analysis |
| C54–C57 | validation state machines, typed lists, isotope strings | invariants; negations for holes |
| C60 | DFT over ℂ | Parseval |
| C61 | selection loop of `Run` | negation for an empty selection |
| C62, C63 | window test and weights of the averaging loop | sums over grid; bounds; negations |
| C64, C65, C66 | dimension offsets, import of measured dimensions, units | case analysis; negations |
| C67–C69 | line-by-line 2D binning; reads of the averaging loop | area identities, totality, index bounds; negations |
| C70 | half matrices of `angular_momentum.c` against Wigner's sum formula | polynomial identities in cos β, sin β for all angles; orthogonality |
| C71 | `single_wigner_rotation` against rotation of symmetric 3×3 matrices (rank 2) and of fourth powers of linear forms (rank 4) | algebra; negation for β < 0 |
| C72 | each interaction alone: shielding, quadrupole first order, J, dipolar | quadratic form along the field |
| C73, C74 | whole spin system: sum of interactions = difference of energies, second order by perturbation theory on spin matrices `Spec.quadH` | induction over sites and couplings; matrix elements of spin operators for every spin |
| C75, C76 | phases of the rotor period | integrals over the rotor period; Riemann sums of the Fourier coefficients with explicit error; the decimals and the table of the source by a probe that evaluates the phase as a linear functional of the components (SourceSpin.lean) |
| C77 | phases changed in place from octant to octant | loop invariant `exp(i m (α - jπ/2))`, cover of the octahedral grid |
| C78 | octant against hemisphere, from the components to the bins | symmetry of the triangulation, time reversal of the signal |
| C79 | sideband amplitudes over the grid of one octant or four | C76 at the angles of the grid; separate computation at the pole |
| C80 | what of the sites is handed to the C code, and the fourth-rank switch | equality of components; C73 |
| C81 | the sine/cosine table and its two lookups, over ℝ | Taylor bound for linear interpolation on the circle; bounds of π |
| C82 | SignalProcessor.json and parse_dict_with_units, with the modules a session has loaded | round trip by cases of the classes; induction on the list |
| C83 | the loop of LMFIT_min_function with the names of operations | invariant of the loop (values at all attribute paths, updated operations) |
| C84 | queries of the one-pulse and correlation methods, any number of sites | C09, C11; counting of entries on the channel |
| C85 | queries of MQ-VAS, ST-VAS and SSB2D, any number of sites | C09, C11; a change confined to one site |
| C86 | residual of a fit, decomposed or not | additive operations commute with the sum of the sub-spectra; failures compared |
| C87 | `Simulator.save`/`load`, `Method.json`, the class of a name | equivalence per name, lifted to lists of methods |
| C88 | limit of the spectrum for dense grids | interpolation of each triangle = integral over it (Riemann sums over the simplex), change of variables simplex → octant, opposite directions alike (also under spinning), analyticity for null level sets, dominated convergence for many sidebands; two-sided bounds with the decimals of the source from those of C70 and C117 |
| C89 | loop over dimensions and events, refresh, state between pathways | induction over events, dimensions and pathways with the phases of the scheme and the pointer into the pathway threaded; C75 and C77 for each event; with the decimals of the source the bound of C75 adds up over the events (CoreNear.lean) |
| C90 | two-dimensional isotropic spectra | linearity of the fourth rank in the transition function over sites and couplings, d2(magic angle) = 0, C17 for the weights; interpolation of triangles that are sharp in the first dimension; near the magic angle a band of rows that no triangle leaves, the anisotropy left being (3 cos² θ - 1)/2 of that at rest, Taylor bound for the default angle |
| C91 | save and load without units | one round-trip lemma per class (reduce then read), composed through lists and optional parts; the reduction of C26 entry by entry |
| C92 | shear by Fourier transform | orthogonality of the characters on both grids; induction over the shears in the model of C52 |
| C93 | `pdf` on a grid | counting an initial segment gives the bin; every variate in one cell; induction over the variates for the averages |
| C94 | `Sites.to_pd` | the loops as one list of columns (dictionaries with equal keys and entries are equal); C27 for the lookups, C23 for the dictionaries of sites |
| C95 | `Simulator.run` over methods | invariant of the loop: the methods at the indexes passed are computed, the others untouched |
| C96 | a one-pulse experiment from `run` to the spectrum, static or spun | the theorems about the stages composed: transitions selected = those observed, limit of each line from C88, signs from C22 and C59, bounds for the decimals from C70 |
| C97 | the map of `SSB2D` for spin-1/2 transitions: peaks at multiples of the slow rotor frequency and at the isotropic frequency | rank-4 part zero and rank-2 part gone on the magic angle, so every orientation falls on the same bins; amplitudes by C76, averages over octants by C78 and C88; dominated convergence |
| C98 | satellite-transition methods from the query to the map | C16, C17 and C90 composed; the mirror image of a transition has the same isotropic part; at the pole the fourth rank is read off directly (counterexample) |
| C99 | signal processors that compare equal do the same | Python's equality of the dictionaries of fields characterised key by key; case analysis over the pairs of classes |
| C100 | the map of a whole simulation with a multiple-quantum or satellite method | C07/C88 style sum over the systems and pathways, C90 for one pathway; sidebands are excluded because their positions leave the window of one of the two dimensions; support and total of the second dimension from the cumulative form of the triangles (C35, C37) |
| C101 | a rotation of all tensors of a system leaves the spectrum of the powder as it is | the energies depend on the direction of the field in the crystal only; the mean over the sphere is invariant under rotations (volume of the ball, polar coordinates); under spinning the rotor phase shifts, which does not change the sidebands; both limits from C96 |
| C102 | shifts and reference offset moved together | the recorded position of every line is unchanged; two runs compared loop by loop, with a sum over the transitions observed (C96) as common normal form; independent of the allocated memory |
| C103 | couplings reversed | a bijection of the transitions: the observed nucleus goes from -m+1 to -m instead of m to m-1 if its quadrupole coupling is reversed, the partner of a reversed coupling has -m instead of m; the pathways that a run keeps for other spin systems (C02) are closed under it too |
| C104 | all frequencies multiplied by one factor | every component of every tensor is multiplied by the factor, the increments of the axis and of the rotor too; the two runs take the same decisions, step by step (`Run/Image.lean`), so nothing is asked of the list |
| C105 | sites and couplings in another order | a bijection of the transitions and renumbered couplings; the coupling terms are symmetric in the two sites |
| C106 | parts of a spin system without couplings between them | the transitions of the whole are pairs of a transition of one part and a state of the other; the sum of equal contributions gives the number of states as a factor; induction over the sites |
| C107 | projection of a map on its first axis | rows of every binned triangle add up to its one-dimensional picture (C58); amplitudes of all sidebands of the second dimension add up to the number of sidebands squared; pathways of two dimensions are pairs of transitions; a linear map between runs commutes with sums, weights and the mirror image |
| C108 | spectra without anisotropy | all components of rank two and four vanish, so every grid point has one frequency and the averaging takes the shortcut for sharp lines; its writes are the linear shares of two points; amplitudes of sidebands of a constant signal are zero but for the centre |
| C109 | intensities are not negative | what is kept by sums, scaling with abundances and the mirror, and holds of every contribution, holds of every result of a run (`Run/Cone.lean`); amplitudes are squares times weights, triangles write shares (C35); in two dimensions all amounts handed to the rows of a triangle are products of factors that are not negative, degenerate triangles included (`Bin/Positive2D.lean`) |
| C110 | abundances as weights | two runs that take the same decisions (`Run/Image.lean`); the pathway cache after a spin system does not change for the same spin system |
| C111 | methods that compare equal | numpy broadcasting of shapes (`Meth/Equal.lean`): for equal shapes, and for n by n against flat, comparison of all entries is equality of what the simulation reads; the list of outcomes is joined by `and` as numpy joins objects |
| C112 | layout of the pathways for the C code | the pointer of the C code as an offset into the array (`Trans/Layout.lean`): in general event k of pathway i reads the transition t i + k of all transitions in a row; selected pathways have one transition per event (C11) |
| C113 | `SSB2D.__new__` | pops, updates and assignments on dictionaries (`Meth/SSB.lean`) followed by the model of the 2D named methods (C21): value of every key in both events |
| C114 | area and first moment of spectra | `Freq/Gravity.lean`: the isotropic part of the sum of the components is the textbook formula, by induction on the sites and couplings; every frequency belongs to one point of the axis; limits of C96. `Freq/GravitySpin.lean`: spinning samples; the sidebands beyond the window hold at most the share variance / D² (the variance is that of the static line, C116) |
| C115 | memory of a simulation | triples over a heap: every function of the C library that allocates, with what it owns and what it leaves; the bytes left by a simulation in closed form |
| C116 | moments of sideband patterns | Parseval's theorem for the signal of a crystallite and its derivative; invariance of the mean over all rotations under turning on the left and on the right and under inversion; integrals over the sphere |
| C117 | folding of sidebands | Fourier series of the signal, absolutely convergent because its derivative is square-integrable; sums of roots of unity; a sum of finitely many harmonics of modulus one is a single harmonic |
| C118 | slow and fast spinning | the characteristic function of the sidebands is an average of the phase gathered in a fixed time; Lévy's continuity theorem; dominated convergence over the powder |
| C119 | the ppm axis | the axis is that in Hz divided by one number (`Meth/Ppm.lean`), so that C33 and C114 carry over; a site on resonance with any reference offset other than zero as the counterexample |
| C120 | `export_spin_systems`, `load_spin_systems` | files as a map from names to whole or torn texts; induction over the spin systems with C23 and C25 |
| C121 | pathways that are given to a spin system | every step of the loop does the same before and after; C02 for pathways of the user; C112 for the array |
| C122 | IFFT, apodisation, FFT on the model of C52 and the transform of C92 | two geometric series; the partial fractions of the cotangent give the wrapped Lorentzian; orthogonality for the Gaussian |
| C123 | the law of the draws as a product of normal laws, mapped by the tensor of C48 | the draws are a standard normal vector up to a scale; turning a tensor is an isometry of that vector |
| C124 | a heap of tensor objects and their dictionaries of units | invariant: a dictionary is the default of the class, changed by the validators of exactly those that hold it, in order |
| C125 | a heap of objects that refer to each other | refinement: a path leads to one place, setting numbers changes no path, and places are distinct exactly if no tensor is shared |
| C126 | the comparison of simulators, with Python list comparison by identity first | structural induction over the lists of methods, from C111 |
| C127 | one-pulse runs; maps with one event in each dimension | telescoping of the cumulative areas of a triangle, the first bin by cases of clipping; shares of a sharp line; the sidebands of an orientation share its weight (C60); the amounts of the rows of a triangle in a map are those of its one-dimensional picture (C58); decomposed spectra are those of the systems alone (C03) |

## Where the code disagrees with a property

For each the manifest names a theorem with a concrete witness (`_counterexample`) and what
remains true (`_partial`).

| id | disagreement |
|----|--------------|
| C02 | pathways of the previous system are reused (base_model.pyx 439); two systems with the same isotopes in another order share them |
| C03 | more workers than systems, no systems, or a negative gyromagnetic ratio change the number of decomposed entries |
| C04 | label and description of one spin system leak into the next one that has none |
| C12 | rearrangements of several channels are paired by position instead of combined |
| C13 | a search list of one entry is repeated over all sites (undocumented input) |
| C17, C98 | the matrix of ST1_VAS on spin 5/2, 7/2, 9/2 and of ST2_VAS on 9/2 has the wrong sign: broadening is left in the first dimension |
| C99 | `Gaussian` and `Exponential` of the same width compare equal, and so do processors that differ in this only |
| C19 | `events` is popped from the caller's dictionary; one dictionary given twice is shared |
| C20 | checks are skipped for objects; some reserved keywords are accepted |
| C21 | equal events of named methods are merged; `P: None` and empty event lists come back different |
| C22 | two dimensions are updated from the experiment in reversed order |
| C23, C25 | some units are forgotten when written; antisymmetric J never read back, symmetric J not without zeta |
| C24 | reading a site changes the caller's nested dictionaries |
| C26, C27 | exclusion stops below the top level; flattening at depth three drops keys |
| C28 | names made from `j_symmetric`, `shielding_antisymmetric` do not decode |
| C29 | a total abundance of zero divides by zero |
| C31 | all-scalar input is an IndexError |
| C33 | odd counts are half a bin off; negative gyromagnetic ratio shifts the first bin |
| C34 | a 1×1 affine matrix is read out of bounds |
| C35 | the part of a triangle less than one bin left of the window is folded into the first bin |
| C36 | `spec[points]` can be touched, in two dimensions `spec[m0 * m1]` |
| C37 | a line just outside the left edge deposits a negative intensity |
| C39 | the phase at the pole is zero (harmless for the frequencies by C77: its sine is zero too; not for the sidebands, see C79) |
| C41 | the pointer to the flags advances with every site, so the second site reads other flags |
| C42, C43 | the plan of an event is never set when rotor frequency and angle both differ from the first event's; after a static first event spinning ones are accepted |
| C46, C71, C73 | the sine of a negative angle is that of its absolute value, so negative β rotates the wrong way |
| C47 | the corner test takes some patterns for a line |
| C50, C51 | `0.7853981634 > π/4` flips the sign at eta 1; eta 0 drops the dominant tensor |
| C52 | the input data set is changed unless the first operation is a Fourier transform |
| C53 | widths without unit fail; Gaussian at zero time, at zero width and on odd grids |
| C54–C56 | asymmetry unchecked on tensors, isotope reassignment keeps the quadrupole tensor, couplings to missing sites, `insert` and slices unchecked |
| C58, C67, C68 | sharp lines near edges; a clipped triangle is split unequally; an unset local is read |
| C60 | two-dimensional and multi-event totals are not normalised |
| C61 | if the method selects no pathway of a system that has the isotope, the simulation fails |
| C62, C63 | the window filter drops patterns by their isotropic position; totals depend on density |
| C64 | every dimension is offset by the first flux density |
| C65, C66 | odd counts and negative increments on import; "100 Hz" of anisotropy is taken for 100 ppm, "50 ppm" of width for 50 Hz |
| C69 | two-dimensional averaging over several octants reads past the buffer |
| C79 | the crystallite at the pole of each octant has no sidebands |
| C80 | quadrupole couplings are dropped for all nuclei when the first channel is a spin 1/2 |
| C81 | the last table entry holds the value of a whole turn at the angle 6.2832: sines are off by 1e-5 just below a whole turn |
| C82 | a new session cannot load a processor with apodization or affine operations; plain-number widths are accepted but neither applied nor restored |
| C83 | LMFIT_min_function fails without a processor, its documented default |
| C84 | Inadequate refuses spin systems with one site of the isotope instead of ignoring them |
| C85 | MQ-VAS, ST-VAS and SSB2D correlate different sites of a spin system with each other |
| C86 | operations with a `dv_index` act on one sub-spectrum only; with γ < 0 a spin system without the isotope makes the decomposed simulation fail; so does an empty list of spin systems |
| C87 | methods without a name make the file unreadable; Inadequate loses its query, BlochDecayCentralTransitionSpectrum its selection; descriptions of 2D library methods are replaced; Method2D with finite spinning is not loaded; saving without units fails with an affine matrix; saving fails after `run(pack_as_csdm=False)` |
| C88 | if the frequencies along the three axes agree to 1e-6 bins, a single line is drawn for all densities (e.g. an axial tensor along a diagonal); the limit is 3π times a share, not the share (C63); bin 0 also collects what is in (-1, 0) |
| C101 | the same axial tensor along an axis and along a diagonal of the frame: a broad pattern and a sharp line |
| C106 | intensities are summed over the states of all other sites without a weight (base_model.pyx 467-483): an uncoupled proton doubles the spectrum, an uncoupled spin 5/2 multiplies it by six |
| C107 | two_dimensional_averaging normalises once for two products of amplitudes (factor: number of sidebands squared, C60); a triangle of equal frequencies is divided between two bins in two dimensions and put in one bin in one dimension; triangles across the lower edge read memory that is not set (C68) |
| C109 | delta_fn_interpolation takes the integer part towards zero, so a line between -1 and 0 is placed in the first bin, with the share 1/2 + f, which is negative below -1/2: spectra with a sharp line just below the axis have a negative end point, maps a negative first row or column (interpolation.c:169-197 repeats it) |
| C111 | Method.__eq__ broadcasts affine matrices, which are kept in the shape in which they are given: [[[1],[2]],[[1],[2]]] and [[[1,1],[2,2]]] compare equal for two dimensions, but flatten to 1,2,1,2 and 1,1,2,2; a simulation that is an array makes the comparison with a copy a ValueError |
| C112 | user-given pathways are not compared with the method or the sites: with fewer transitions than events the C code reads the next pathway, or behind the array; with quantum numbers of more sites it takes initial states for final states |
| C113 | `SSB2D` checks the rotor frequency only for dictionaries: with `SpectralDimension` objects it may be missing, zero, or different, and is ignored; one given inside an event leads to a `KeyError` |
| C89 | a dimension with an empty list of events shows the content of freshly allocated memory |
| C91 | without units, a simulator cannot be saved when a method has an affine matrix or an array as simulation, when a spin system has pathways set by hand, or when the spectrum was decomposed by spin systems (the file is truncated before the failure); a query with P = None is loaded with P = −1 |
| C93 | on a grid with unequal steps `pdf` uses bins of equal width, so amplitudes are next to the wrong coordinates, silently |
| C94 | the table of sites has no column for antisymmetric shielding |
| C115 | MRS_free_plan and MRS_free_event test their pointers the wrong way round, so that no plan is ever released, and MRS_free_averaging_scheme, MRS_free_fftw_scheme and MRS_free_dimension do not release the structures and arrays themselves; every simulation leaves memory behind. (Turning the tests round alone would release shared plans more than once.) |
| C117 | the sidebands beyond `number_of_sidebands` are not left out but folded back onto those that are computed, whose intensities are therefore not the physical ones unless there are no sidebands at all; nothing warns if the number is too small |
| C119 | `coordinates_ppm` divides by the sum of the reference offset and the Larmor frequency, although the simulation takes shifts as fractions of the Larmor frequency alone: with a reference offset x0 the line of a site of shift δ is at δ·ν₀/(x₀+ν₀) on the ppm axis (`C119_counterexample`); 1 ppm of a shift per 1000 ppm of offset |
| C120 | `get_list` hands the `TransitionPathway` objects of a spin system to `json.dump`, which raises TypeError after `open(filename, "w")` has emptied the file: exporting (or saving) spin systems with pathways destroys the file; the fitting examples recommend to set them |
| C121 | pathways given to a spin system are ignored when the system before has as many sites or the same isotopes, and used for the next one that has (base_model.pyx 439) |
| C122 | Gaussian line broadening is narrower than asked for, by (n - 1)/n (apodization.py 112 divides by `x[-1] - x[0]`, not by n times the step) |
| C124 | the validators of `Site` and `Coupling` remove entries of `property_units`, or set zeta to Hz, in a dictionary that is shared by all copies of the tensor they are given: a tensor used as shielding here and as quadrupolar, J or dipolar tensor there loses the units of both, and the sites cannot be saved and loaded |
| C125 | spin systems that are made from one `Site` or `Coupling` object share its tensor objects (shallow copies): `LMFIT_min_function` writes the values of different parameters to one place, and the last counts for all |
| C126 | `Simulator.__eq__` and `Method.__eq__` put the comparison of simulations, which is an array when these are arrays (`run(pack_as_csdm=False)`), into `np.all`: comparing with a copy raises a ValueError |

## Testing the theorems

`seeded/LOG.jsonl` records edits of model definitions in a scratch copy: what was changed,
which claim becomes false, which theorems failed to build, and which were tightened because
they still built.
