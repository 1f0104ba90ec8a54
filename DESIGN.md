# Formal model of Hazma: design

This document says what is modelled, how each property in `properties.jsonl`
is to be proved, and what is trusted.  It was written before the proofs; the
section "Status and findings" is updated as the model grows.

## Trusted base

* Lean 4.33.0's kernel and the Mathlib definitions used in the statements.
* Axioms: only `propext`, `Classical.choice` and `Quot.sound` (Mathlib's real
  numbers and integrals need them).  No `sorry`, no `native_decide`, no
  `bv_decide`, no added axioms.
* The correspondence between the Lean definitions and `/repo`.  Every
  definition in a `Model` module cites the file and lines it models.

### Modelling conventions

* `float64`/`f64` is modelled by `ℝ`.  Rounding, overflow and underflow are out
  of scope; `mul_add(a,b,c)` is `a*b+c`.  Where NaN or infinity is part of the
  contract (square root of a negative number, division by zero, `np.inf`
  limits) the value type is `Option ℝ` or `EReal`, and the model says which.
* Python dictionaries are association lists in insertion order; `dict[k] = v`
  overwrites in place or appends, as CPython does.
* Exceptions are values (`Except`/`Option`).  Asserts are exceptions.
* Loops are structural recursion or folds; mutation is state passing.
* NumPy arrays are lists; aliasing is modelled with an explicit heap only in
  the modules that are about aliasing.
* Calls out of the modelled code (SciPy quadrature and splines, random
  numbers, Bessel functions, tables read from disk) are parameters.
* Physical constants are parameters with the sign/ordering facts that are
  needed (for example `0 < me < mmu`), or the rational literals of the code
  when the literal matters.

### Not modelled

Floating-point error; the interpreter, CPython/NumPy/PyO3 glue except argument
classification; plotting, file formats and numeric tables shipped as data;
`hazma.experimental`; build scripts; the accuracy of SciPy's quadrature.

## Plan per property

Modules: `Verif/Model/*.lean` hold definitions of the code, `Verif/Lemmas/*.lean`
hold helper lemmas and `Verif/Props/*.lean` hold the independent specifications and
the property theorems with an `example` beside each.  The table is the plan for the
first properties; the status of all of them is in the last section.

| id | model | proof idea |
|----|-------|------------|
| C01, C02 | `Kinematics`: `two_body_momentum` with `sqrt : ℝ → Option ℝ` | factorisation of the Källén polynomial; sign analysis of each radicand |
| C03-C08 | `Theory`: dictionaries as association lists, closures as a heap cell read at call time | induction over the dictionary; C08 is violated by late binding: prove the negation with a witness and the positive part for one channel |
| C09-C12 | `Limits`: bins as lists, limits in `EReal`/`Option` | order theory of finite minima; C10 is violated unless observed fluxes are 0: witness + partial |
| C13, C14 | `Boost` | interval integral of a box; algebra of Lorentz factors |
| C15, C16 | `Interp` | loop invariant of the binary search; convexity |
| C17 | `PairwiseSum` | strong induction on length |
| C18-C20 | `BoostTable` | validation by cases; FTC for the tails; C20 violated: witness |
| C21-C24 | `Rambo` | vector algebra; convexity of sqrt; Newton on a convex function; C24 violated: witness |
| C25, C26 | `Distributions` | finite sums; Minkowski inequality |
| C27 | `ThreeBody` | quadratic in the invariant mass, discriminant = product of Källén functions |
| C28-C32 | `Spectra*` | FTC / explicit antiderivatives; C30 violated |
| C33, C34 | `AltarelliParisi` | monotonicity of log |
| C35-C37 | `ScalarModel`, `VectorModel` | state machine over setter histories; positivity |
| C38, C39 | `FSR` | log inequalities via artanh series; algebra of conjugate roots; scalar half of C39 violated by a factor 2 |
| C40, C41 | `CrossSections` | field identities; positivity |
| C42-C44 | `RelicDensity` | derivatives; C44 violated for bosons |
| C45-C47 | `Aliasing`, `SingleChannel` | explicit heap; witnesses for violations |
| C48 | `NBody` | multiset counting; violated when multiplicities differ |
| C49 | `Constrain` | nested loop over grid; violated parts recorded |
| C50-C52 | `Quad` | invariant over the bisection loop for an arbitrary integrand |
| C53 | `Dispatch` | case analysis, list lemmas |
| C54 | `CKM` | complex matrix algebra |
| C55 | `Cmb` | algebra over channel lists |
| C56-C59 | `MediatorDecay` | box integrals; cache as state machine; wiring |
| C60 | `TwoBodyEnergies` | algebra |
| C61 | `ScalarConstraints` | exp bounds |

Properties about floating-point conditioning (for example the Sterbenz remark in
`two_body_momentum`) are not expressible in a model over `ℝ`.

## What is modelled
One row per module under `lean/Verif/Model`, with what its header says about the code covered and the
simplifications made.  Code not named here is not modelled.

* `Aliasing` — Objects that share mutable state with their caller. Models `hazma/flux_measurement.py` and `hazma/limits/_abstract.py` with an explicit heap: a reference is a number, an array a list of reals.  Arrays are floating point and of equal lengths.
* `AltarelliParisi` — Altarelli-Parisi final-state radiation. Models `hazma/spectra/altarelli_parisi.py` and the deprecated pair versions of `hazma/utils.py`. Arrays are treated element by element; `alpha` is `parameters.alpha_em`.
* `Boost` — Boosting lines and spectra. Model of `hazma/spectra/boost.py` and the scalar part of `rust/src/boost.rs`.
* `BoostFn` — Boosting functions and averaging over energies. Model of `make_boost_function`, `dnde_boost` (`hazma/spectra/boost.py:233-409`) and of `make_marginal_fn`, `marginalize` (`hazma/spectra/convolve.py:17-124`). Not modelled: rounding, and the error of `scipy.integrate.quad`, which is the exact integral here.
* `BoostTable` — Boost integral of a tabulated spectrum. Model of `boost_integrate_linear_interp`, `rust/src/boost.rs:254-375`, for a real (not NaN) photon energy.  A failed `expect`, a `usize` underflow or an out-of-range slice is `panic`.
* `Ckm` — The CKM matrix. Model of `_ckm_wolfenstein` (`hazma/parameters.py:246-268`).  `none` stands for a matrix with NaN or infinite entries: a root of a negative number, or a vanishing denominator of `s13d`.
* `Cmb` — CMB limits (`hazma/theory/_theory_cmb.py`, `hazma/cmb.py`, `hazma/limits/_cmb.py`). `quad` is the exact integral.  The efficiency tables are interpolators that raise outside their range; the integration nodes lie between the end points, so an integral raises unless both end points are in range.
* `Constrain` — Scans of parameter space. Model of `hazma/theory/_theory_constrain.py` (`custom_constrain`, `constrain`, `constrain_binned_gamma` and its helper).  The attributes of the theory are an abstract state.  `_img_to_ls`, which nothing calls, is not modelled.
* `CrossSections` — Dark-matter cross sections of the scalar and vector mediator models. Models the kernels of `rust/src/kernels/scalar_xs.rs` and `vector_xs.rs` and the Python methods that call them.  Fused multiply-adds are exact.  A division by zero in a kernel that returns a plain `f64` (infinity or NaN in the code) is Lean's zero and is excluded by the theorems; the two complex-valued kernels raise there, which is modelled.
* `CythonKernels` — Compiled kernels and tables behind the mediator decays. The mediators' decay spectra do not call the Rust kernels of `hazma.spectra`; they `cimport` older twins written in Cython.  Models these twins (`hazma/spectra/_photon/_muon.pyx`, `_photon/_pion.pyx`, `hazma/spectra/_positron/_muon.pyx`, `_positron/_pion.pyx`, `hazma/_utils/boost.pyx:60-113`) and the interpolation tables that the four mediator modules build from them.  Arithmetic is over the reals: the single-precision variables of the neutral pion are not rounded, `quad` is the exact integral, SciPy's `spence` its defining integral, and `abs` the real absolute value.  NaN arguments are not modelled.  `eng_gam_max`, `boost_jac`, `boost_eng` and `boost_integrate_linear_interp` have no caller and are not modelled.
* `Detector` — Convolution of a spectrum with a detector response. Model of `hazma/parameters.py:354-541`: unit conversion of `<sigma v>`, the energy resolution callback, the Gaussian response, the grid of true energies and `convolved_spectrum_fn`. Simplifications: arithmetic is exact over `ℝ`; `np.geomspace` is the exact geometric progression; the continuum `spec_fn` is a function of one energy applied elementwise and does not raise.  The returned SciPy spline of degree 1 is represented by its knots and values.
* `Dict` — Python dictionaries as association lists. Insertion-ordered, string-keyed dictionaries, as used throughout `hazma/theory/__init__.py`.
* `Dispatch` — Argument dispatch of the compiled entry points (`rust/src/dispatch.rs`). A Python object is described by what the dispatcher can observe of it: whether it is a `float`, whether it is an ndarray (rank, dtype kind, whether the dtype is `float64`, the elements as numbers), whether it has `__len__` and what `np.asarray` makes of it, and what `float(obj)` gives.  `np.asarray` itself may raise (for example on a ragged list); that outcome is a field.  The text after the quantity name in a message is part of the error.  Floats are reals.
* `ElasticXs` — Elastic scattering off pions, photons and mediators in the scalar model. Models the remaining elastic kernels of `rust/src/kernels/scalar_xs.rs` and the Python methods `_scalar_mediator_cross_sections.py:273-423, 483-491` that call them.  Fused multiply-adds are exact.  `none` stands for a division by zero (infinity or NaN in the code).
* `EndToEnd` — The photon and positron spectra of the mediator models, put together. `spectra` of a `ScalarMediator` and of a `VectorMediator` with every part filled in: the compiled cross sections in the branching fractions, the compiled particle spectra, the radiation formulas, the partial widths and the decays of moving mediators.  Each part is the definition of its own module; this one only connects them as the Python code does. Simplifications: the widths are those of an object that was created without an error, so they are passed as a dictionary.  An exception inside a radiation formula is given the value zero; by the theorems of `Fsr` there is none for photon energies above zero.
* `FinalStates` — `list_annihilation_final_states`. 
* `Fisher` — Background models and Fisher forecasts. Model of the background models of `hazma/background_model.py:9-70` and `hazma/gamma_ray_parameters.py:1003-1329`, and of `fisher`, `FisherResults.limit` and `fisher_limit` (`hazma/theory/_theory_gamma_ray_limits.py:173-376, 603-674`). Simplifications: arithmetic is exact over `ℝ`; the energy grid is the default one, spanning the range of the effective area, with splines of degree 1, whose integral is the trapezoidal rule; the convolved spectrum `dnde` is a parameter (`Verif.Model.Detector`); `norm.ppf(norm.cdf(sigma))` is `sigma`.
* `FourPion` — Four-pion vector form factors. Models `hazma/form_factors/vector/_pi_pi_pi_pi.py` and `ldot`, `lnorm_sqr` of `hazma/utils.py`. Arrays of shape `(4, n)` hold one four-vector per event; every operation on them is event by event, so the model is written for one event and lifted by `List.map`.  Rounding is not modelled.
* `Fsr` — Final-state radiation of the mediator models. Models `hazma/scalar_mediator/_scalar_mediator_fsr.py`, `hazma/vector_mediator/_vector_mediator_fsr.py` and the rest-frame radiation functions of the two `*_decay_spectrum.pyx` files.  The Python code works with complex roots and logarithms and keeps the real part; on the branches where they are evaluated all arguments are real and in the domain, so real functions are used.
* `FsrGenerator` — Photon spectra from a radiative squared matrix element. Model of `hazma/spectra/_fsr.py`.  External: `scipy.integrate.quad`, the three-body integrator, the RAMBO generator and integrator, all collected in `Env`; the spawned random streams are named by their index.  A squared matrix element is a function of the list of momenta with real values (NaN is not modelled, so `np.nanmean` is the mean and `np.nanstd` the standard deviation).
* `GevCache` — The width cache of the GeV vector mediator. Model of `hazma/vector_mediator/_gev/model.py`, lines 35-62 (the caching decorator), 104-210 (construction and cache control), 217-331 (attribute setters), 634-913 (partial widths) and 1083-1297 (the two restricted models). The hadronic widths come from the form factor objects; they enter as one function `FF` of the channel name, the mediator mass, the three quark couplings stored in `_couplings`, and the number of integration points.  (The four-pion widths are Monte-Carlo estimates in the code; the model takes one value per argument.)  A keyword argument dictionary is `{}` or `{"npts": n}`: `Option ℕ`.
* `GevRegistry` — Tables of final states of the GeV vector mediator. Models `annihilation_cross_section_funcs` (`hazma/vector_mediator/_gev/cross_sections.py:517-546`), `list_annihilation_final_states` and the keys of `partial_widths` (`model.py:879-954`), the dictionaries `dnde_photon_spectrum_fns`, `dnde_positron_spectrum_fns` and `dnde_neutrino_spectrum_fns` (`spectra.py:847-897`, `positron.py:947-993`, `neutrino.py:1049-1095`) and `_dnde_photon_v_v_rest_frame` (`spectra.py:756-815`).  The functions behind the names are parameters, labelled by the Python function.
* `GevSpectra` — Spectra of the GeV vector mediator. Models `hazma/vector_mediator/_gev/spectra.py`, `positron.py` and `neutrino.py`, and the line energies and neutrino methods of `_gev/model.py`.  Everything is stated at one product energy (NumPy works element by element).  The spectra of the decaying particles (`hazma.spectra.dnde_*`), the Altarelli-Parisi functions, the form factors' distributions and the boost of a table are parameters.  For neutrinos one flavour is fixed.
* `GevXs` — Cross sections of the GeV vector mediator and the two-meson currents. Models `hazma/vector_mediator/_gev/cross_sections.py`, `hazma/form_factors/vector/_base.py:133-206` and `hazma/form_factors/vector/_two_body.py`.  The form factors themselves (fits of resonance parameters) enter as functions.  The mediator width `wv`, read from the object by `width_v()`, is an argument.
* `Interp` — Table lookup and linear interpolation. Model of `rust/src/interp.rs`.  Every slice access is checked: an out-of-bounds read, an `usize` underflow or a failed `assert!` makes the result `none` (a panic).
* `Kinematics` — Two-body kinematics (`hazma/utils.py`). 
* `Kronrod` — The Gauss–Kronrod rules (`rust/src/quad.rs:243-475`). Real arithmetic; the machine constants `EPMACH`, `UFLOW`, `OFLOW` are parameters, so that nothing depends on their numerical values.  The integrand may be any function; the list of points at which it was evaluated is part of what a rule returns, which is how evaluation counts are made observable.  The two loops over the tabulated nodes are folds over the tables; the tables pair each abscissa with its weights.
* `LeptonTables` — Tabulated positron and neutrino spectra of mesons. Model of `hazma/spectra/_positron/_utils.py` and `hazma/spectra/_neutrino/_utils.py`, through which every meson function of `hazma/spectra/_positron/__init__.py:101-361` and `hazma/spectra/_neutrino/__init__.py:132-466` goes.  The CSV files are parameters (rows of numbers); the names of their columns and the last two rows of one of them are transcribed. Not modelled: rounding, and the construction of the quadratic spline of the neutrino tables, which is an arbitrary function here.
* `Limits` — Gamma-ray limits. Model of `hazma/theory/_theory_gamma_ray_limits.py`.  The convolved spectrum and the splines built from it (SciPy) enter only through their integrals over an energy window, which are parameters. Limits live in `WithTop ℝ`, with `⊤` for `np.inf`.
* `LimitsApi` — The limit classes of `hazma.limits` and the units of binned scans. Models `hazma/limits/_abstract.py`, `hazma/limits/_existing_telescope.py`, the rate that `_constrain_binned_gamma_helper` (`theory/_theory_constrain.py:117-126`) compares with data and the unit conversion of `hazma/parameters.py:15-31`.  Warnings are not modelled.  A model is what the limit classes see of it.
* `MediatorDecay` — Spectra from decaying mediators. Models `hazma/scalar_mediator/scalar_mediator_decay_spectrum.pyx`, `hazma/vector_mediator/vector_mediator_decay_spectrum.pyx`, the two `*_positron_spec.pyx` files and the Python functions that call them.  `quad` is the exact integral.  The rest-frame radiation and decay spectra (modelled elsewhere) and the interpolation through tables are parameters.  A mediator exactly at rest, for which the code divides by its velocity, is modelled in `Model/MediatorRest.lean`; theorems about the functions here assume `m < E`.
* `MediatorLines` — Monochromatic photons and positrons of the mediator models. `gamma_ray_lines` and `positron_lines` of `ScalarMediator` and `VectorMediator`.  The cross sections of the channels are a parameter `σ`, by the name of the final state.
* `MediatorRest` — Mediators at rest. The four functions of `Model/MediatorDecay.lean` with their division by the velocity in floating-point semantics (`cdivision(True)`: a division by zero gives an infinity or NaN and no exception), so that a mediator at rest is included.
* `MediatorSpectra` — Photon spectra of the mediator models by channel. Models the functions `dnde_*` and `spectrum_funcs` of `hazma/scalar_mediator/_scalar_mediator_spectra.py` and `hazma/vector_mediator/_vector_mediator_spectra.py`, and `TheoryAnn.spectra` and `total_spectrum` (`hazma/theory/__init__.py:152-209`) on them: which kinds of argument they accept, which exceptions they raise and how the parts are put together.  The spectra of single particles, the radiation and the decay of the mediator are functions of one energy given by the caller; that the compiled ones act element by element is the subject of `Dispatch`.  Assertions inside the radiation formulas (`Fsr`) are not modelled here.  Lists and arrays hold floats; integers are not modelled.
* `MesonFF` — Two-meson vector form factors. Models the classes in `hazma/form_factors/vector/_pi_pi.py`, `_k_k.py`, `_eta_gamma.py`, `_pi_gamma.py`, `_pi_omega.py`, `_pi_phi.py`, `_eta_omega.py` and `_eta_phi.py`, together with `_alpha.py`.  Fit parameters are data.  NumPy arrays of energies are lists; the inner method of each class maps the list of energies above threshold, in GeV, to a list of complex numbers.  Half-integer powers are real powers of quantities that are positive above the threshold of the channel.
* `MesonThree` — Form factors of three mesons. Models `hazma/form_factors/vector/_pi_pi_pi0.py`, `_pi_pi_eta.py`, `_pi_pi_etap.py`, `_pi_pi_omega.py` and `_pi_k_k.py`, and the container of the results of `_three_body.py`.  Energies are in MeV and are converted to GeV as in the code.  `none` is a result that is not a number: a division by zero, a square root or a power `1.5` of a negative number (the masses of the fit are elements of numpy arrays, so no complex number appears there); infinite intermediate results are counted with it.  Scalars, except in the section on arrays, where only shapes and the sum over an axis are modelled.
* `NBody` — Spectra of n-body final states (`hazma/spectra/_nbody.py`). Everything is stated at one product energy (NumPy works element by element).  The spectra of the decaying particles, `np.interp` and the phase-space distributions are parameters.
* `Num` — Numeric values. Shared conventions for modelling `float64` values over `ℝ`.  Rounding is out of scope, but NaN and the infinities are part of several documented contracts, so they are kept as explicit values here.
* `PairwiseSum` — NumPy's pairwise summation. Model of `pairwise_sum`, `rust/src/boost.rs:419-449`, over any type with `+` and `0`, so that the order of additions is kept.
* `Pbh` — Primordial black holes (`hazma/pbh.py`). `PBH` is a `TheoryDec` with one channel `"all"`, whose spectrum is a column of a table.  A file is its header (mantissa and exponent of every mass in grams, `pbh.py:66-72`, `80-83`) and its rows (photon energy in GeV and one rate per mass, `pbh.py:74-76`, `84-86`).  Setters raise by returning an error next to the object they leave behind.
* `PhaseApi` — Arguments of the phase-space integrators and of the n-body spectra. Models the choice of a method in `hazma/phase_space/_three_body.py`, the two-body integrator with a matrix element of the momenta (`hazma/phase_space/_two_body.py`), `expect(…, method='quad')` of `hazma/phase_space/_dist.py`, and how `hazma/spectra/_nbody.py` hands its arguments to them.  The Monte-Carlo generator is a parameter; SciPy's `quad` and `dblquad` are exact integrals.
* `PhaseSpace` — Phase-space limits and binned distributions. Models `hazma/phase_space/_utils.py` and `hazma/phase_space/_dist.py`.
* `PhotonTables` — Tabulated photon spectra of kaons, η, η′, ω and φ. Model of `rust/src/kernels/photon_tables.rs` and of the entry points of `rust/src/photon.rs` that use it, for a real photon energy different from zero.  The CSV files are parameters: a table is the list of its data rows, already split into numbers; the names of their columns are transcribed.  The fused multiply-add of the line terms is exact here.
* `Quad` — Adaptive quadrature (`rust/src/quad.rs:95-114`, `489-1622`). Vectors are buffers with a length; reading or writing outside the length is a panic (`none`), as is taking a natural number below zero.  Everything runs in `Option`, so a result of the form `some …` says that no index was out of range.  Loops are recursions over the number of turns left.  Arithmetic is exact; integrands return reals (no NaN).
* `QuadPoints` — Adaptive quadrature with break points and the driver (`rust/src/quad.rs:1096-1628`). Same conventions as `Verif.Model.Quad`: `none` is a panic, arithmetic is exact.  `qagpe` shares the bisection, the sorting of the errors and the ε-algorithm with `qagse` line by line (`quad.rs:1265-1354` against `817-904`), so those definitions are reused; what differs is modelled here: the initial partition, the `level` of a panel in place of its width, and the conditions at the extrapolation.
* `Rambo` — RAMBO phase-space generator. Models `hazma/phase_space/_rambo.py`.  The arrays of shape `(4, n, batch)` are lists of events, an event being the list of its `n` four-momenta.  Random numbers are an argument.  Rounding is not modelled.
* `RamboEstimate` — Monte-Carlo estimates of the RAMBO generator. Models `Rambo.integrate`, `decay_width`, `cross_section`, `energy_distributions` and `invariant_mass_distributions` (`hazma/phase_space/_rambo.py:423-675`).  The weights of one batch are a list of `Option ℝ`, `none` being NaN.  The random numbers enter through the function that hands out batches: `batch k b` is the `k`-th batch of size `b`.  Rounding is not modelled.
* `RelicDensity` — Relic density. Models `hazma/relic_density`.  The splines of the Standard Model degrees of freedom, the root finder and the ODE solver are parameters; `scipy.special.kn` and `k1` are the modified Bessel functions, defined by their integral representation; `scipy.integrate.quad` is the exact integral.  Array arguments act elementwise and are modelled by their scalar case.
* `RelicLimit` — Relic-density limits and shallow copies. Models `hazma/limits/_relic_density.py`: the cross section at the value of one attribute for which the model has the observed relic density, found on `copy(model)`.  `scipy.optimize.root_scalar` is an arbitrary adaptive procedure: it asks for values of the residual one after the other and then returns a root or raises `ValueError`. `copy.copy` of a `VectorMediatorGeV` copies the attribute dictionary, so that the copy holds the *same* `_width_cache` dictionary (`vector_mediator/_gev/model.py:178-182`); the quark couplings object is replaced, never written, by the setters (`model.py:290-306`).
* `Resonance` — Resonance functions of the vector form factors. Models `hazma/form_factors/vector/_utils.py` and the parts of `_pi_pi.py` and `_k_k.py` that turn fitted magnitudes into couplings.  Everything is elementwise; the `reshape` variants compute the same expressions on a grid and are modelled by the same functions (their only difference, the missing case `s = 0` of `h`, is noted there). `scipy.special.gamma` is `Real.Gamma`; at the poles it returns an infinity and the quotients by it used here are zero, as in `ℝ`.
* `RhNeutrino` — The right-handed-neutrino model (`hazma/rh_neutrino`). Models `_proto.py`, `_utils.py`, `_configure.py`, `_widths.py`, `_spectra.py` and `_model.py`. Parameters of the model (`Env`): the pion form factor, the two CKM elements, the loader of spectra (`hazma.spectra.dnde_*`).  `scipy.integrate.quad` is replaced by the exact integral.  Quadrature keyword arguments and the keyword arguments `nbins`, `three_body_integrator` do not appear. Energies are taken one at a time; what remains of the array handling is the shape of the result.
* `ScalarConstraints` — Laboratory constraints on the scalar mediator. Model of `hazma/scalar_mediator/_scalar_mediator_constraints.py` and the windows in `hazma/constraint_parameters.py`.  A value `none` stands for NaN (or the `ZeroDivisionError` raised when the division by a zero width happens between Python floats).  Products of constants (CKM elements, quark masses, `GF`) in the production widths are collected in one non-negative parameter per decay.
* `ScalarModel` — Scalar-mediator models: state and partial widths. Models the constructors, setters and partial widths of `hazma/scalar_mediator`.  Physical constants are a parameter.  The code computes with complex roots and keeps the real part; `Real.sqrt` and real powers are these real parts (both are zero for a negative base and exponent 3/2).
* `SingleChannel` — Single-channel models (`hazma/single_channel.py`). A final state such as `"mu mu"` is represented by its words; `key` joins them, and `fs.split(" ")` undoes that for words without blanks.  A setter that raises leaves the object as it was at that point, so setters return the new object together with the outcome.
* `SmMasses` — The table of particle masses (`hazma/parameters.py:43-135`). 
* `SoftComplex` — Complex division and power of the cross-section kernels. Model of `rust/src/kernels/soft_complex.rs`: the pieces of C complex arithmetic the cross-section kernels reproduce. Not modelled: rounding, overflow and underflow of the arithmetic, and the sign of a zero (which only decides between values that are discarded).
* `SolidAngle` — `solid_angle_cone`. 
* `Special` — Special functions. Model of `spence` and `bessel_kn`, `rust/src/special.rs`.  Arithmetic is exact: the fused multiply-adds are products and sums of real numbers and `ln` is the logarithm.  The cephes routines `bessel_k0` and `bessel_k1` of `spec_math` are parameters.
* `Spectra` — Spectrum kernels. Models the muon, pion and rho decay kernels under `rust/src/kernels/` (the compiled code behind `hazma.spectra`).  Arithmetic is over the reals: `mul_add` is a product and a sum, the single precision roundings of the neutral-pion kernel are dropped.  `quad` is the exact integral and `spence` its defining integral.  NaN arguments are not modelled.
* `Theory` — Channel aggregation (`hazma/theory/__init__.py`). A model is given by its dictionary of per-channel functions.  Arrays of energies are handled element by element by NumPy, so everything is stated at one energy. Spectrum functions may raise, which is how "is never evaluated" is observable.
* `ThermalTotal` — The cross section behind the relic density and the reported total. `thermal_cross_section` averages a sum of channels written inside the compiled kernels (`sigma_xx_to_all`, `scalar_xs.rs:851-871` and `vector_xs.rs:379-401`).  What the user sees is the `"total"` entry of `annihilation_cross_sections`, a sum over the dictionary returned by `annihilation_cross_section_funcs`.  Both are modelled here on top of the same channel kernels. Sums are exact, so their order does not matter.
* `ThreeBody` — Two- and three-body phase space. Models `hazma/phase_space/_three_body.py`, `hazma/phase_space/_two_body.py` and `two_body_phase_space_prefactor` of `hazma/phase_space/_utils.py`.  SciPy's `quad`/`dblquad` are replaced by the exact integral.  `np.sqrt` of a negative number (NaN) is outside the stated hypotheses of every theorem; the definitions use the real square root.
* `VectorModel` — Vector-mediator models: state and partial widths. Models the constructors, setters and partial widths of `hazma/vector_mediator` (`__init__.py` and `_vector_mediator_widths.py`).  Conventions as in `Verif.Model.ScalarModel`.
* `VectorPi0PiPi` — Annihilation into three pions through a vector mediator. Models `dsigma_ds_xx_to_v_to_pi0pipi` and `sigma_xx_to_v_to_pi0pipi` (`hazma/vector_mediator/_vector_mediator_cross_sections.py:262-337`).  Rounding is not modelled; a quotient by zero, which the code turns into an infinity or NaN, is zero in the model and excluded by hypotheses.  `scipy.integrate.quad` is represented by the points of its first pass and an arbitrary estimate.
* `VectorThree` — Three-meson currents of the vector mediator. Models `hazma/form_factors/vector/_three_body.py`.  The form factor enters through its absolute value, an arbitrary function.  `scipy.integrate.quad` is the exact integral, scalars only: the broadcasting of `squared_lorentz_structure` is not modelled, nor the Monte-Carlo method.

## Status and findings

318 properties: 162 proved as stated, 156 partial.  "Partial" has two meanings.  Most often the
property is false of the code: the theorems then give a counterexample, the exact behaviour, and what remains
true.  In the few other cases a hypothesis or a remaining case is named in the note.  `MANIFEST.json` lists the
theorems of each property; every one depends on no axioms beyond the three named above (`#print axioms`).

| id | property | status | modules |
|----|----------|--------|---------|
| C01 | Two-body momentum is the physical momentum above threshold | proved | Kinematics |
| C02 | Two-body momentum is NaN everywhere below threshold | proved | Kinematics |
| C03 | Annihilation cross sections: the total is the sum, branching fractions are a probability distribution | proved | Theory, Details |
| C04 | Annihilation spectra are branching-fraction weighted sums | proved | Theory |
| C05 | A channel without continuum photons does not break the annihilation spectrum | partial | Theory |
| C06 | Decay widths and branching fractions | proved | Theory |
| C07 | Decay gamma-ray spectra: each channel uses its own function | proved | Theory |
| C08 | Decay positron spectra: each channel uses its own function | partial | Theory |
| C09 | One-bin limit is the largest allowed rate | proved | Limits |
| C10 | Chi-squared limit saturates the chi-squared | partial | Limits |
| C11 | Unbinned limit uses the best energy window | proved | Limits |
| C12 | Flux prefactor conventions | proved | Limits |
| C13 | Boosted line is a normalised box of physical energies | proved | Boost |
| C14 | Boost kinematics | proved | Boost |
| C15 | Interpolation search returns the bracketing cell | proved | Interp |
| C16 | Interpolation is clamped, exact at nodes and between neighbouring table values | proved | Interp |
| C17 | Pairwise summation sums every element exactly once | proved | PairwiseSum |
| C18 | Boost integral of a table: argument validation | proved | BoostTable |
| C19 | Boost integral of a table: soft tail is the exact 1/E extrapolation | proved | BoostTable |
| C20 | Boost integral of a table equals the boost integral of its interpolant | partial | BoostTable |
| C21 | RAMBO events are on shell with zero total momentum | proved | Rambo |
| C22 | RAMBO massless boost conserves four-momentum | proved | Rambo |
| C23 | RAMBO Newton iteration stays on the safe side | proved | Rambo |
| C24 | Changing RAMBO's masses or energy behaves like a fresh generator | partial | Rambo |
| C25 | Normalised distributions integrate to one | proved | PhaseSpace |
| C26 | Energy limits contain every physical configuration | proved | PhaseSpace |
| C27 | Three-body integration bounds are the physical region | proved | ThreeBody |
| C28 | Neutral-pion photon box has two photons and half the pion energy each | proved | Spectra |
| C29 | Positron spectrum from muon decay in flight is the boost of the rest-frame spectrum | proved | Spectra |
| C30 | Positron spectrum from muon decay is normalised | partial | Spectra |
| C31 | Neutrino spectra from muon decay in flight are boosts of the rest-frame spectra | proved | Spectra |
| C32 | Photon kernels vanish outside the kinematic range and below threshold | proved | Spectra |
| C33 | Altarelli-Parisi spectra are non-negative with the right support | proved | AltarelliParisi |
| C34 | Deprecated pair AP spectrum is twice the single-particle one | proved | AltarelliParisi |
| C35 | Model setters leave no stale state (scalar mediator) | partial | ScalarModel |
| C36 | Model setters leave no stale state (vector mediator) | proved | VectorModel |
| C37 | Mediator partial widths are non-negative, close below threshold, and sum to total | proved | ScalarModel, VectorModel |
| C38 | Final-state-radiation spectra are non-negative | proved | Fsr |
| C39 | Python and Cython FSR formulas agree | partial | Fsr |
| C40 | Detailed balance of the scalar-mediator cross sections | proved | Xs |
| C41 | Annihilation cross sections are non-negative and vanish below threshold | proved | Xs |
| C42 | Boltzmann right-hand side and Jacobian | proved | Relic |
| C43 | Semi-analytic relic abundance | proved | Relic |
| C44 | Equilibrium density derivative is the derivative | partial | Relic |
| C45 | Building a flux measurement does not modify the caller's data | partial | Aliasing |
| C46 | Independent constrainers stay independent | partial | Aliasing |
| C47 | Single-channel models follow their final state | partial | SingleChannel |
| C48 | Radiation from every charged final-state particle | partial | NBody |
| C49 | Scan image indexing | proved | Constrain |
| C50 | Adaptive quadrature invariants | partial | Quad |
| C51 | Quadrature panel ordering | partial | Quad |
| C52 | Kronrod rules are exact for linear integrands on every interval | proved | Quad |
| C53 | Argument dispatch of array entry points | proved | Dispatch |
| C54 | CKM matrix is unitary | proved | Ckm |
| C55 | CMB limit scaling | proved | Cmb, SingleChannel |
| C56 | Mediator-decay photon line normalisation | partial | Mediator |
| C57 | Mediator-decay positron line normalisation | partial | Mediator |
| C58 | Spectrum cache never serves stale tables | proved | Mediator |
| C59 | Positron spectrum functions return positron spectra | partial | Mediator |
| C60 | Two-body final-state energies conserve energy | proved | Mediator, NBody |
| C61 | Experimental constraint functions are bounded by the measured bound | partial | ScalarConstraints |
| C62 | Lines carry their channel's branching fraction | proved | Theory |
| C63 | Double boost of a line | partial | Boost, BoostLorentz |
| C64 | Boosting a sampled spectrum | partial | Boost |
| C65 | RAMBO weights are the phase-space volume element | proved | Rambo |
| C66 | Batched RAMBO generation yields the requested number of points | partial | Rambo |
| C67 | Expectation of one under a phase-space distribution | partial | PhaseSpace |
| C68 | Momenta reconstructed from invariant masses are physical | proved | ThreeBody |
| C69 | Bounds on t are the physical region | partial | ThreeBody |
| C70 | Energy and mass distributions integrate to the phase-space integral | proved | ThreeBody |
| C71 | ThreeBody setters take effect | partial | ThreeBody |
| C72 | Integration methods agree for the default matrix element | partial | ThreeBody |
| C73 | Two-body phase space has one value | proved | ThreeBody |
| C74 | Distributions have the requested number of bins | partial | ThreeBody |
| C75 | Photon spectrum from muon decay in flight is the boost of the rest-frame spectrum | partial | Spectra |
| C76 | Positron spectrum of a charged pion is continuous at rest | partial | Spectra |
| C77 | Photon spectra of rho mesons are boosts of the pions' spectra | partial | Spectra |
| C78 | Neutrino rows of a charged pion | partial | Spectra |
| C79 | Boosting conserves particle number and scales energy | proved | Spectra |
| C80 | One electron and one muon neutrino per muon | proved | Spectra |
| C81 | Positron and neutrino spectra of muons are non-negative | proved | Spectra |
| C82 | All kernels agree on the energy of the muon from a pion | partial | Spectra |
| C83 | Photon spectrum of a muon is non-negative | partial | Spectra |
| C84 | Positron spectrum of a moving charged pion | proved | Spectra |
| C85 | Photon spectrum of a charged pion | proved | Spectra |
| C86 | All Minkowski products agree | proved | Kinematics |
| C87 | Soft-photon limit is universal | proved | Fsr |
| C88 | Annihilation factorises into production and decay | partial | Xs |
| C89 | Annihilation cross sections have the units of a cross section | proved | Xs |
| C90 | Self-interaction cross sections have the units of a cross section | partial | Xs |
| C91 | Elastic scattering off leptons has a non-negative cross section | partial | Xs |
| C92 | The elastic cross section has the units of a cross section | partial | Xs |
| C93 | Equilibrium density approximates the ideal quantum gas | proved | Relic |
| C94 | Derivatives of the equilibrium abundance | proved | Relic |
| C95 | Freeze-out matching | partial | Relic |
| C96 | delta is ignored by the semi-analytic relic density | partial | Relic |
| C97 | Default range of the Boltzmann solution | partial | Relic |
| C98 | Generic thermal average is positive for annihilating models | partial | Relic |
| C99 | Mediator thermal averages at low temperature | proved | Relic |
| C100 | Line energies of single-channel models can be used | partial | SingleChannel |
| C101 | Single-channel models with photons have gamma-ray lines | partial | SingleChannel |
| C102 | Closed single channels do not occur | partial | SingleChannel |
| C103 | Positrons of a charged pair are counted once | partial | NBody |
| C104 | Photons in the final state appear in the photon spectrum | partial | NBody |
| C105 | Neutrino flavours are kept apart | partial | NBody |
| C106 | Outcome of an n-body spectrum call | proved | NBody |
| C107 | Photon from a vector decaying to a neutral pion and a photon has the two-body energy | partial | Mediator |
| C108 | Mediator decay spectra conserve particle number and add up over modes | partial | Mediator |
| C109 | Scan images are indexed as documented | partial | Constrain |
| C110 | Effects of a scan on the theory | proved | Constrain |
| C111 | Custom scans accept any grid shape | partial | Constrain |
| C112 | Scans of binned measurements agree with the one-bin limit | proved | Constrain |
| C113 | Rare-decay constraints are numbers for every scalar mass | partial | ScalarConstraints |
| C114 | Beam-dump constraint is bounded | partial | ScalarConstraints |
| C115 | Higgs to invisible constraint can be evaluated on every scalar model | partial | ScalarConstraints |
| C116 | Rare-decay constraints count the right decays | proved | ScalarConstraints |
| C117 | CKM matrix has the Wolfenstein parameters it was built from | proved | Ckm |
| C118 | Deposited energy fraction averages over channels | proved | Cmb |
| C119 | CMBLimit agrees with cmb_limit | partial | Cmb, Details |
| C120 | Quadrature rules never touch the end points | proved | Quad |
| C121 | A successful quadrature met its tolerance | proved | Quad |
| C122 | Quadrature evaluates the integrand neval times, strictly inside the range | proved | Quad |
| C123 | Panels never straddle a break point | partial | Quad |
| C124 | Break points are never evaluated | proved | Quad |
| C125 | Success with break points means the tolerance was met | partial | Quad |
| C126 | The quadrature driver orders limits and cleans points | proved | Quad |
| C127 | RH-neutrino widths are sound and branching fractions are a distribution | proved | RhNeutrino |
| C128 | Open RH-neutrino channels have positive width | partial | RhNeutrino |
| C129 | Assigning a parameter is constructing with it | partial | RhNeutrino |
| C130 | RH-neutrino lines are two-body lines of existing channels | partial | RhNeutrino |
| C131 | Charge conjugates are counted once | partial | RhNeutrino |
| C132 | RH-neutrino spectra use the particles named by the channel | partial | RhNeutrino |
| C133 | decay_width accepts a name or a sequence of names | partial | RhNeutrino |
| C134 | RH-neutrino positron spectra use each channel's own spectrum | partial | RhNeutrino |
| C135 | Three-body RH-neutrino widths are integrals of their matrix elements | partial | RhNeutrino |
| C136 | Two-body RH-neutrino widths have the tree-level mass dependence | partial | RhNeutrino |
| C137 | Squared matrix elements of RH-neutrino decays are nonnegative | partial | RhNeutrino |
| C138 | GeV mediator widths follow the attributes | partial | GevCache |
| C139 | Restricted GeV models follow their one coupling | partial | GevCache |
| C140 | GeV cross sections are widths times one channel-independent factor | proved | GevXs |
| C141 | GeV cross sections vanish below threshold | partial | GevXs |
| C142 | Annihilation into two mediators agrees between MeV and GeV models | partial | GevXs, GevFeynman |
| C143 | Annihilation into two mediators does not depend on the number type | partial | GevXs |
| C144 | Two-meson currents are contracted with the mediator's polarisation sum | partial | GevXs |
| C145 | Three-meson currents are contracted with the mediator's polarisation sum | partial | VectorThree |
| C146 | One-dimensional form-factor integrals are phase-space integrals | proved | VectorThree |
| C147 | Energy distributions of P P V agree with the three-body code | proved | VectorThree |
| C148 | Invariant-mass distributions of P P V are normalised | partial | VectorThree |
| C149 | Resonance propagators have the documented pole and width | proved | Resonance |
| C150 | Couplings of the resonance towers follow the dual-QCD formula | proved | Resonance |
| C151 | find_beta inverts the lowest coupling | partial | Resonance |
| C152 | Form factors treat arrays of energies elementwise | partial | MesonFF |
| C153 | Scalar and array calls of form factors agree | partial | MesonFF |
| C154 | Quark couplings enter form factors linearly and by flavour | proved | MesonFF |
| C155 | The electromagnetic coupling runs | partial | MesonFF |
| C156 | Two-body spectra use the right particles and energies | partial | GevSpectra |
| C157 | Line energies follow from recoil kinematics | proved | GevSpectra |
| C158 | Three- and four-meson spectra use each particle's own energy distribution | partial | GevSpectra |
| C159 | Every unstable particle of a multi-meson final state contributes | partial | GevSpectra, Details |
| C160 | Radiation counts each charged meson once | partial | GevSpectra |
| C161 | Two-pion-photon final state has an omega's decay products with weight one | partial | GevSpectra |
| C162 | Two-mediator spectra are weighted by branching fractions | partial | GevSpectra |
| C163 | The total neutrino spectrum is a spectrum | partial | GevSpectra |
| C164 | Energy-resolution callbacks of every documented kind are understood | proved | Detector |
| C165 | The detector response is a normalised Gaussian in the reconstructed energy | proved | Detector |
| C166 | The grid of true energies resolves the response | proved | Detector |
| C167 | Smearing conserves photons and energy | proved | Detector |
| C168 | Smearing is linear and keeps the sign | proved | Detector |
| C169 | convert_sigmav understands the units it documents | partial | Detector |
| C170 | The Fisher matrix is an information matrix | proved | Fisher |
| C171 | Forecast limits scale as statistics demands and ignore the normalisation of nuisance parameters | proved | Fisher |
| C172 | FisherResults.limit gives the error of every parameter | partial | Fisher |
| C173 | Nuisance parameters never strengthen a limit | proved | Fisher |
| C174 | fisher_limit and unbinned_limit agree in normalisation | proved | Fisher |
| C175 | Background derivatives match the flux: galactic centre | proved | Fisher |
| C176 | params reports the model's parameters | partial | Fisher |
| C177 | Background derivatives match the flux: GECCO | partial | Fisher |
| C178 | Background models return NaN outside their range | partial | Fisher |
| C179 | RelicDensityLimit returns the cross section on the relic-density curve | proved | RelicLimit |
| C180 | A copy of a model is independent of the original | partial | RelicLimit |
| C181 | RelicDensityLimit does not change the caller's model | partial | RelicLimit |
| C182 | Relic-density limits of the GeV mediator describe one model | partial | RelicLimit |
| C183 | PBH objects hold the tabulated spectrum of their mass | proved | Pbh |
| C184 | PBH spectra do not depend on the fraction | proved | Pbh |
| C185 | The spectrum of a PBH is that of its mass | partial | Pbh |
| C186 | PBH implements the interface of a decaying model | partial | Pbh |
| C187 | The level of a panel counts its bisections | proved | Quad |
| C188 | Leptonic widths of the right-handed neutrino respect lepton flavour | partial | RhNeutrino |
| C189 | Tabulated photon spectra: boosted table plus one box per line | proved | PhotonTables |
| C190 | Tabulated photon spectra are non-negative | partial | PhotonTables |
| C191 | Photon lines lie at the two-body energy | partial | PhotonTables |
| C192 | Photon lines carry the photons of their mode | partial | PhotonTables |
| C193 | No monochromatic photon is lost | partial | PhotonTables |
| C194 | spence is the dilogarithm on the whole half line | proved | Special |
| C195 | bessel_kn is the modified Bessel function of every integer order | proved | Special |
| C196 | Boosting a spectrum conserves the number of particles | proved | BoostFn, Details |
| C197 | Unphysical velocities give zeros | partial | BoostFn |
| C198 | A boost at rest is the spectrum itself | partial | BoostFn |
| C199 | Marginalising over the centre-of-mass energy is an average | partial | BoostFn |
| C200 | Cross-section kernels divide correctly and raise exactly when they must | proved | SoftComplex |
| C201 | The three-halves power is t*sqrt(t) | proved | SoftComplex |
| C202 | In-flight spectra of tabulated meson decays are the isotropic boost of the table | proved | LeptonTables |
| C203 | Tabulated positron spectra at rest reproduce the table and vanish outside it | partial | LeptonTables |
| C204 | Asking a tabulated meson for a neutrino flavour selects a row and keeps the shape of the energies | partial | LeptonTables |
| C205 | Every tabulated decay mode conserves the charge of its parent | partial | LeptonTables |
| C206 | The FSR generator refuses exactly the arguments it cannot treat | proved | FsrGen |
| C207 | FSR spectra vanish outside the kinematic range of the photon | proved | FsrGen |
| C208 | Constant factors common to the matrix elements cancel in FSR spectra | proved | FsrGen |
| C209 | The FSR generator evaluates matrix elements on physical events only | proved | FsrGen |
| C210 | The FSR spectrum is the photon's energy distribution in three-body phase space | proved | FsrGen |
| C211 | Elastic cross sections of the scalar model are continuous at e = 2 mx | partial | Xs |
| C212 | Elastic scattering off pions and photons has a non-negative cross section | proved | Xs |
| C213 | Elastic scattering off mediators has a non-negative cross section | partial | Xs |
| C214 | Elastic cross sections follow from annihilation by crossing | partial | Xs |
| C215 | The four-pion current is conserved and its square is never negative | proved | FourPion |
| C216 | The four-charged-pion current has the symmetries of identical bosons and charge conjugation | proved | FourPion |
| C217 | The pi+ pi- pi0 pi0 current has the symmetries of identical bosons and charge conjugation | partial | FourPion |
| C218 | The propagators of the four-pion current are finite and absorptive only above threshold | partial | FourPion |
| C219 | The four-pion current is a Lorentz vector | proved | FourPion |
| C220 | form_factor of the four-pion classes returns the hadronic current | partial | FourPion, Details |
| C221 | Every constructor argument of the four-pion classes is used | partial | FourPion |
| C222 | Widths and cross sections into four pions | proved | FourPion |
| C223 | Fit parameters of the four-pion current act only through their own resonance | proved | FourPion |
| C224 | The three-pion form factor is a number exactly on the kinematically allowed region | proved | MesonThree |
| C225 | The three-pion form factor respects charge conjugation | proved | MesonThree |
| C226 | Three-meson form factors are linear in the quark couplings and respect isospin selection rules | proved | MesonThree |
| C227 | The eta form factors depend on ratios of amplitudes and differ by the mixing factor | proved | MesonThree |
| C228 | The eta form factors are numbers exactly for physical pion pairs | proved | MesonThree |
| C229 | The form factors of two pions and an eta or eta' vanish below threshold | partial | MesonThree |
| C230 | The pi pi omega form factor of an array of energies is the array of form factors | partial | MesonThree |
| C231 | Integrated pi pi omega form factors are phase-space integrals with a factor for identical pions | proved | MesonThree |
| C232 | The form factors of a neutral pion and two kaons are symmetric in the kaons | partial | MesonThree |
| C233 | Charge symmetry and isospin of the pion-kaon-kaon form factors | proved | MesonThree |
| C234 | Integrated three-meson form factors do not depend on the numeric type of the energy | partial | MesonThree |
| C235 | Splitting a Monte-Carlo integration into batches does not change what is averaged | partial | RamboEstimate |
| C236 | The reported Monte-Carlo error is the standard error of the mean | partial | RamboEstimate |
| C237 | Massless phase space is integrated exactly | proved | RamboEstimate, Resonances |
| C238 | Monte-Carlo estimates are linear in the matrix element, bounded by the weights, and carry the flux factor | proved | RamboEstimate, Resonances |
| C239 | Distributions can be accumulated in batches | partial | RamboEstimate |
| C240 | Generated distributions are normalised histograms | proved | RamboEstimate |
| C241 | Every generated event enters the distributions | partial | RamboEstimate |
| C242 | Each pair's invariant-mass distribution is its own | proved | RamboEstimate |
| C243 | Annihilation into three pions through a vector mediator is a number at every open energy | partial | VectorPi0PiPi |
| C244 | Three-pion channel: thresholds and couplings | proved | VectorPi0PiPi |
| C245 | Spectra of the mediator models are evaluated energy by energy | partial | MediatorSpectra |
| C246 | A single photon energy is accepted | partial | MediatorSpectra |
| C247 | Lists of photon energies are treated as arrays | partial | MediatorSpectra |
| C248 | Parts of a channel's spectrum are selected by name | partial | MediatorSpectra |
| C249 | Forbidden three-body processes have no phase space | partial | PhaseApi |
| C250 | Every documented integration method of ThreeBody is available | partial | PhaseApi |
| C251 | three_body_integrator selects the integration rule | partial | PhaseApi |
| C252 | The spectrum does not depend on the variables of the matrix element | partial | PhaseApi |
| C253 | Two-body integrals accept matrix elements of the momenta | partial | PhaseApi |
| C254 | Expectation values do not depend on the quadrature | partial | PhaseApi |
| C255 | Kernels inside mediator decays agree with hazma.spectra | proved | CythonKernels |
| C256 | Photon tables of mediator decays reproduce the spectra | proved | CythonKernels |
| C257 | Mediator decays emit no photon beyond the kinematic limit | proved | CythonKernels |
| C258 | Scalar mediator decays use hazma.spectra for their products | proved | CythonKernels |
| C259 | Vector mediators decaying to a neutral pion and a photon show the pion's photons | partial | CythonKernels |
| C260 | Positron tables of mediator decays reproduce the spectra | proved | CythonKernels |
| C261 | Mediator decays emit positrons only in the physical range | proved | CythonKernels |
| C262 | The relic density and the reported total count the same channels | proved | ThermalTotal |
| C263 | Models without lepton couplings average exactly the reported total | proved | ThermalTotal |
| C264 | The relic density averages the reported total | partial | ThermalTotal |
| C265 | The relic density and the reported total agree to one part in ten million | proved | ThermalTotal |
| C266 | Limit classes return one value per model, in order | proved | LimitsApi |
| C267 | Limit classes accept an iterator over models | partial | LimitsApi |
| C268 | Telescope limits evaluate the model's own binned limit | proved | LimitsApi |
| C269 | Telescope limits and binned_limit agree by default | partial | LimitsApi |
| C270 | A composite constrainer reports every limit it holds | partial | LimitsApi |
| C271 | Binned scans compare rates in the units of the limit | partial | LimitsApi |
| C272 | No photon carries more than half of the energy | partial | EndToEnd |
| C273 | Spectra do not depend on the dark coupling below the mediator threshold | proved | EndToEnd |
| C274 | Photon spectra of annihilation are never negative | partial | EndToEnd |
| C275 | Positron spectra of the scalar mediator are non-negative and bounded in energy | proved | EndToEnd |
| C276 | Resonances of the four-pion form factor have running widths and unit normalisation | proved | Resonances |
| C277 | Resonances of the three-meson form factors peak where they should | proved | Resonances |
| C278 | The K* in a charged-kaon pair is the neutral one | partial | Resonances |
| C279 | Self-scattering uses the amplitude of the Lagrangian | proved | SelfScattering |
| C280 | Annihilation into pairs of mediators is the tree-level cross section | proved | FeynmanRules |
| C281 | Annihilation into leptons is the tree-level cross section | proved | FeynmanRules, Details |
| C282 | Fermionic widths are the tree-level widths | proved | FeynmanRules |
| C283 | Final-state radiation is tree-level QED | proved | Radiation |
| C284 | RH-neutrino matrix elements are those of the weak interaction | partial | WeakDecays |
| C285 | RH-neutrino widths into one meson are those of the weak interaction | partial | WeakDecays |
| C286 | Muon-decay spectra are those of the weak interaction | proved | MuonDecay |
| C287 | Self-scattering cross sections carry the flux and phase-space factors | partial | SelfSigma |
| C288 | Python and compiled code use the same constants | partial | Constants |
| C289 | Elastic scattering off leptons is the tree-level cross section | partial | ElasticFeynman |
| C290 | Scattering off the scalar mediator is the tree-level cross section | partial | Compton |
| C291 | Hadronic channels of the vector mediator follow from its couplings to quarks | partial | Anomaly |
| C292 | Photon and pion channels of the scalar mediator follow from its Lagrangian | proved | ScalarFeynman |
| C293 | Two-body channels of the GeV vector mediator follow from the Feynman rules | proved | GevFeynman |
| C294 | Photons of radiative pion decay are those of the weak amplitude | proved | PionRadiative |
| C295 | The thermal average of the relic density is an average over collisions | partial | ThermalAverage |
| C296 | The Altarelli-Parisi spectra are the collinear limit of the exact radiation spectra | proved | Collinear |
| C297 | RAMBO events average to the phase-space integral | partial | RamboUnbiased |
| C298 | TwoBody and ThreeBody integrate over Lorentz-invariant phase space | proved | PhaseSpaceMeasure |
| C299 | Monte Carlo and quadrature integrate the same three-body phase space | partial | PhaseSpaceMeasure, RamboStatistics, RamboConvergence |
| C300 | Value and error of a Monte Carlo phase-space integral are unbiased | proved | RamboStatistics |
| C301 | A Monte Carlo phase-space integral converges and its error is a standard deviation | proved | RamboConvergence |
| C302 | Energy and invariant-mass distributions are densities of Lorentz-invariant phase space | proved | PhaseSpaceDensity |
| C303 | Decay products of the mediators are weighted with their branching fractions | proved | MediatorWeights |
| C304 | The GeV model gives every final state its own spectrum and branching fraction | proved | GevRegistry |
| C305 | list_annihilation_final_states lists exactly the possible final states | partial | FinalStates, GevRegistry |
| C306 | Boosted spectra are Lorentz transformations of isotropic decays | proved | BoostLorentz |
| C307 | solid_angle_cone is the area of a cap of the sky | proved | SolidAngle |
| C308 | Pion spectra are those of the decay chain | proved | BoostLorentz |
| C309 | Photon spectra of muons, pions and rho mesons are those of their decay chains | proved | BoostLorentz |
| C310 | Five Newton steps place RAMBO events on the mass shell to better than double precision | proved | Rambo |
| C311 | Averages over generated massive events are phase-space integrals to the accuracy of the Newton iteration | proved | RamboUnbiased |
| C312 | Rambo.integrate converges for massive particles to the phase-space integral within the Newton accuracy | proved | RamboConvergence |
| C313 | Fisher matrix entries are information integrals up to the step of the energy grid | partial | Fisher |
| C314 | A mediator at rest has the spectrum of its rest frame | partial | Mediator |
| C315 | Lines of the mediator models follow two-body kinematics and branching fractions | partial | MediatorLines |
| C316 | Unbinned limits without signal or background | proved | Limits |
| C317 | Form factors of three mesons do not depend on the unit of energy | proved | MesonThree |
| C318 | Form factors of two mesons do not depend on the unit of energy | proved | MesonFF |

### Properties the code does not have, or that are only partly proved

* **C05** A channel without continuum photons does not break the annihilation spectrum. The claim is false of the base class: an open channel without a _spectrum_funcs entry raises KeyError. The negation is proved; spectra_ann_weighted is the part that holds (every open channel has an entry).
* **C08** Decay positron spectra: each channel uses its own function. The claim is false of the code: the closures share the loop variables. Exact behaviour, a counterexample and the single-channel case are proved.
* **C10** Chi-squared limit saturates the chi-squared. False for non-zero observed fluxes (two counterexamples proved); proved when every observed flux is zero.
* **C20** Boost integral of a table equals the boost integral of its interpolant. False: the result is off by exactly one whole cell unless exactly one node lies in the window. The exact value is proved for every table and every window whose bounds are resolved by the 1e-6 tolerance.
* **C24** Changing RAMBO's masses or energy behaves like a fresh generator. False: the setters do not refresh the starting scale. Proved that everything else is fresh after any history, and a concrete event with the wrong total energy.
* **C30** Positron spectrum from muon decay is normalised. False: R_FACTOR is the inverse of the normalisation, so the spectrum holds 0.99963 positrons. Proved: the exact total for every muon energy, and its distance from one.
* **C35** Model setters leave no stale state (scalar mediator). Proved for the generic model (every assignment that returns normally) and for the subclasses without assignments to lam. False for HiggsPortal and HeavyQuark: the inherited lam setter is not hidden, and after assigning it the width differs from that of a fresh object with the same visible parameters.
* **C39** Python and Cython FSR formulas agree. True for the vector mediator; false for the scalar mediator, whose compiled decay code uses exactly half of the annihilation spectrum.
* **C44** Equilibrium density derivative is the derivative. True for fermions and massless particles; false for massive bosons (sign of the Bessel sum).
* **C45** Building a flux measurement does not modify the caller's data. False: the caller's flux array is overwritten, and a second measurement divides again. True for the four other arrays and for measurements read from a file.
* **C46** Independent constrainers stay independent. False: default-constructed constrainers share one list. True for explicit different lists and after a reset.
* **C47** Single-channel models follow their final state. True for SingleChannelAnn; false for SingleChannelDec, whose setter leaves the stored particles and masses.
* **C48** Radiation from every charged final-state particle. False for three or more particles: each particle's radiation is divided by the number of particles with its name. True for pairwise different charged particles and in two-body states.
* **C50** Adaptive quadrature invariants. Tiling, sums, counts and panel workspace for every limit; absence of any panic for limits up to 51 (the default is 50). Beyond that the epsilon table can be asked for a 51st element, which is out of range (table_overflow); not shown reachable from an integrand.
* **C51** Quadrature panel ordering. The order over the maintained range holds always. That the bisected panel is the nrmax-th largest holds while the list is complete or nrmax <= limit+1-last, in particular outside extrapolation; third_not_third_largest refutes the rest.
* **C56** Mediator-decay photon line normalisation. Violated: the box has height BF/(E beta) on an interval of length E beta, one photon per decay instead of two. The shape is right.
* **C57** Mediator-decay positron line normalisation. Violated twice: the box integrates to v*BF with v the electron velocity, and it is added to the pi pi and mu mu spectra as well. The shape is right.
* **C59** Positron spectrum functions return positron spectra. Violated: the vector function calls the photon spectrum of the muon. Holds for the scalar mediator.
* **C61** Experimental constraint functions are bounded by the measured bound. Holds for every scalar that decays at all and, for K_L -> pi0 e e, is lighter than mkl - mpi0. Otherwise the value is NaN (kl_ee_not_a_number, stable_not_a_number). Constant factors of the production widths are non-negative parameters.
* **C63** Double boost of a line. Exact value proved for all masses; it equals the specification only for massless products (the code divides by the line energy instead of the momentum).
* **C64** Boosting a sampled spectrum. Negative velocities return the input unchanged, contrary to the documentation.
* **C66** Batched RAMBO generation yields the requested number of points. False unless the batch size divides n: the number is rounded up to whole batches (proved).
* **C67** Expectation of one under a phase-space distribution. False: the trapezoid over bin centres misses half of the first and last bin; the exact value is proved for every histogram.
* **C69** Bounds on t are the physical region. False: the bounds use lambda(s,m1^2,m2^2) where lambda(s,q^2,m1^2) is needed. Proved: the midpoint is right, the true width, and a physical configuration outside the bounds.
* **C71** ThreeBody setters take effect. False for objects built with a matrix element of momenta: assigning msqrd is silently undone.
* **C72** Integration methods agree for the default matrix element. False: the default matrix element is 1 for scalars and 0 for arrays, so the Monte-Carlo integral is exactly 0.
* **C74** Distributions have the requested number of bins. False for the quadrature method, which returns nbins-1 bins.
* **C75** Photon spectrum from muon decay in flight is the boost of the rest-frame spectrum. False: the rest-frame kernel stops at y=1-r, the in-flight one at y=1-r^2. Proved: the in-flight kernel is exactly the boost of the uncut spectrum, the rest kernel exactly its cut, and the two differ.
* **C76** Positron spectrum of a charged pion is continuous at rest. False: at rest the kernel is identically zero although a moving pion always carries more than 0.999 positrons.
* **C77** Photon spectra of rho mesons are boosts of the pions' spectra. True for moving mesons, false at rest: the integrand (spectrum divided by energy) is returned.
* **C78** Neutrino rows of a charged pion. False: the electron line is added twice. Proved: the exact content of all three rows and the totals.
* **C82** All kernels agree on the energy of the muon from a pion. False: the photon kernel's literal differs by 4.7e-5 MeV from the value used by the other kernels.
* **C83** Photon spectrum of a muon is non-negative. True at rest, false in flight: negative just below the endpoint for every muon energy.
* **C88** Annihilation factorises into production and decay. Holds with equal constants; false as shipped because the kernels and parameters.py use different masses (pion_threshold_mismatch) and because the vector pi0-gamma kernel is 1/9 of the width-based value (pi0g_not_factorised).
* **C90** Self-interaction cross sections have the units of a cross section. False: both self-interaction kernels scale as 1/l; the missing factor is 1/e.
* **C91** Elastic scattering off leptons has a non-negative cross section. True for e > 2 mx; false between mx + ml and 2 mx, where the kernel integrates over positive momentum transfers.
* **C92** The elastic cross section has the units of a cross section. False: the kernel is dimensionless, a factor 1/vh^2 is missing.
* **C95** Freeze-out matching. The evolution starts from Yeq, not (1+delta) Yeq.
* **C96** delta is ignored by the semi-analytic relic density. False: delta is ignored exactly when semi_analytic is False; otherwise different values never share a freeze-out point.
* **C97** Default range of the Boltzmann solution. False by default (e^7 > 1096 times); true for a given xf.
* **C98** Generic thermal average is positive for annihilating models. False: zero from x = 25 on because the integral ends at 50/x.
* **C100** Line energies of single-channel models can be used. False: the entry is a nested dictionary and the sum over lines raises TypeError. The nested number is the correct energy.
* **C101** Single-channel models with photons have gamma-ray lines. False: the code tests for the name g, which the mass table does not contain; no constructible model has a line.
* **C102** Closed single channels do not occur. True for annihilation, false for decay.
* **C103** Positrons of a charged pair are counted once. False: exactly twice in two-body states, and both members of 'e e' are counted as positrons in larger states.
* **C104** Photons in the final state appear in the photon spectrum. False: AssertionError for every state of three or more particles with a photon; nothing in two-body states.
* **C105** Neutrino flavours are kept apart. False: direct neutrinos are added to all three rows.
* **C107** Photon from a vector decaying to a neutral pion and a photon has the two-body energy. Violated: the line is boosted from mV/2. One photon per decay holds.
* **C108** Mediator decay spectra conserve particle number and add up over modes. Proved for photons of both mediators. For positrons the exclusive spectra count the e e line three times (positron_numbers gives the exact excess). A mediator exactly at rest: C314.
* **C109** Scan images are indexed as documented. Violated: the images are transposed with respect to the docstring. scan_image gives the exact indexing.
* **C111** Custom scans accept any grid shape. Violated: images are made r x r; more columns than rows raise IndexError, fewer leave columns of zeros. Square grids are right.
* **C113** Rare-decay constraints are numbers for every scalar mass. False: the window of K_L -> pi0 e e reaches past the kinematic limit, and a stable scalar inside a window divides by its zero width. window_kinematic is the part that holds for the other five windows.
* **C114** Beam-dump constraint is bounded. Bounds proved up to the beam energy; above it the function raises instead of returning the bound.
* **C115** Higgs to invisible constraint can be evaluated on every scalar model. True for HiggsPortal with |stheta| < 1; false for the base class and HeavyQuark, where evaluating the entry raises AttributeError.
* **C119** CMBLimit agrees with cmb_limit. False: the class passes x_kd where the model is expected and always raises; its centre-of-mass energy squares the velocity twice.
* **C123** Panels never straddle a break point. Invariants for every limit; absence of panics for limits up to 51 plus the number of points (the default limit is 50). Beyond that the epsilon table may overflow, see C50.
* **C125** Success with break points means the tolerance was met. False for a limit of one when points are given but none lies inside the range: the loop is empty and success is reported with any error (points_false_success). Proved in all other cases.
* **C128** Open RH-neutrino channels have positive width. Proved for all final states without two pions. False for 'l pi pi0': between its threshold and m_l + 2 m_pi the width is zero. Above that, and for 'nu pi pi', the widths are positive for every form factor that is continuous and does not vanish above the two-pion threshold (the form factor is a parameter); positive_iff_open_partial is the exact list.
* **C129** Assigning a parameter is constructing with it. mx and theta proved. False for flavor: assigning 'tau' produces a muon-flavoured model labelled tau, assigning 'mu' changes the neutrino label to 'vmu'.
* **C130** RH-neutrino lines are two-body lines of existing channels. False: the photon and positron line keys are not final states, so gamma_ray_lines and positron_lines raise KeyError; the eta line overwrites the pi0 line. Energies proved otherwise.
* **C131** Charge conjugates are counted once. False: flavour-changing three-lepton channels enter the total width twice, and photon spectra of channels that are not self-conjugate are doubled on top of branching fractions that already count both charges.
* **C132** RH-neutrino spectra use the particles named by the channel. False for 'nu eta' (pion spectra) and 'l rho' (kaon spectra), and below threshold the neutrino product has the wrong shape; proved for all other entries.
* **C133** decay_width accepts a name or a sequence of names. Sequences proved; a string, which the signature and docstring allow, always raises KeyError on its first character.
* **C134** RH-neutrino positron spectra use each channel's own spectrum. False: the loop variables are captured by reference, so every channel gets the spectrum of the three-neutrino entry, which is zero. See also C08.
* **C135** Three-body RH-neutrino widths are integrals of their matrix elements. Proved for two pions (any form factor), three different leptons and a lepton pair; on the small-mass branch, where the logarithm is replaced by a series, the width is right to 13 digits (v_l_l_small_mass). False for three neutrinos: the matrix element is linear in the mixing and six times too large. 'l pi pi0' with one pion mass.
* **C136** Two-body RH-neutrino widths have the tree-level mass dependence. Proved for nu P, l V, nu V. False for l P (charged pion or kaon): the code uses the vector-meson polynomial and overestimates the width; in the limit of a massless lepton by 1 + 2 x^2.
* **C137** Squared matrix elements of RH-neutrino decays are nonnegative. False for flavour-changing channels with the heavier lepton listed last (momenta passed in the other order than the matrix element is written for) and for three neutrinos at negative mixing. Proved otherwise.
* **C138** GeV mediator widths follow the attributes. True for every hadronic channel after any history, and for all channels right after mv is assigned. False for the fermion channels: the setters store what the cached method returns, so the width keeps the coupling (and dark matter mass) of the first evaluation since mv or a quark coupling was last assigned. The exact value is proved for every history. width_v_to_pi0_pi0 always raises AssertionError. The hadronic form factor widths are one deterministic function in the model.
* **C139** Restricted GeV models follow their one coupling. False: assigning eps always raises AttributeError after storing the new eps, with all couplings unchanged; assigning g changes the attributes but the hadronic widths keep the g of construction for ever. Proved: the exact behaviour for every history, and that the Standard Model widths of a KineticMixingGeV are those of a new object with the eps of construction.
* **C141** GeV cross sections vanish below threshold. True for the leptons, pi0 pi0 gamma, v v, and for closed final states. False for the hadronic channels between the final-state threshold and 2 mx: the result is NaN, and at 2 mx an infinity.
* **C142** Annihilation into two mediators agrees between MeV and GeV models. False: the GeV result is exactly twice the MeV result for all arguments. For a massless mediator it is the integral over the full sphere without the factor one half for identical particles; the MeV result is the right one. Energies exactly at a threshold are excluded in vv_twice_mev.
* **C143** Annihilation into two mediators does not depend on the number type. False: an int energy makes the result array an integer array, so the answer is rounded down; for every integer energy above threshold there is a coupling with a positive answer that becomes zero.
* **C144** Two-meson currents are contracted with the mediator's polarisation sum. Exact for photons and vectors and for two pseudoscalars of equal mass, the only ones used. For unequal masses the two-pseudoscalar structure lacks a term in the mass difference, given exactly.
* **C145** Three-meson currents are contracted with the mediator's polarisation sum. True for three pseudoscalars. For two pseudoscalars and a vector the public method treats the particle listed last as the vector while every class lists it first, so it returns the structure of the wrong particle (ppv_wrong_particle); the integrals use the right one.
* **C148** Invariant-mass distributions of P P V are normalised. False for every input: the bins run from the largest to the smallest mass, the normalisation sees a negative area and is skipped, and the heights integrate to one half.
* **C151** find_beta inverts the lowest coupling. False: the bisection decides with the value at the previous midpoint and returns the next one; a target just above c_0(7.5) gives 8.75, just below 6.25, exactly that value a RuntimeError. Proved: the outcome is determined; a returned value is only returned after some tested point met the tolerance; a target met at the first midpoint is returned; targets at or below zero raise.
* **C152** Form factors treat arrays of energies elementwise. True for nine of the ten two-meson classes. False for K0 K0: the correction of the phi coupling multiplies the row of the first open energy instead of the first resonance, so values depend on the position in the array; the exact result is proved for every array. Fit data are arbitrary parameters.
* **C153** Scalar and array calls of form factors agree. True for pi pi, pi0 pi0, K K, K0 K0, eta gamma. False for pi0 gamma, pi0 omega, pi0 phi, eta omega, eta phi: a scalar is returned before the conversion from GeV, so form_factor is 1000 times and integrated_form_factor 10^6 times the value in an array. Widths agree in both forms.
* **C155** The electromagnetic coupling runs. False: the mask that selects small scales is reversed, so from 1e-6 GeV^2 on the value is alpha(0) for every s, and zero and spacelike s give NaN.
* **C156** Two-body spectra use the right particles and energies. True for photons in all ten final states and for positrons and neutrinos in nine. False for two charged kaons: only one of them decays in the positron and neutrino spectra. Decay spectra and Altarelli-Parisi functions are parameters; electrons and photons do not decay.
* **C158** Three- and four-meson spectra use each particle's own energy distribution. True only for the photons of pi pi pi0 pi0. False elsewhere: seven final states pair the distributions with the particles in another order than the form factor, pi k k0 is treated as pi0 k k, and pions of four-pion states are treated as kaons. What is computed is proved for every input.
* **C159** Every unstable particle of a multi-meson final state contributes. False: up to 1415 (eta), 1984 (omega) and 2407 MeV (eta prime) the heavy meson contributes nothing, since its table is read at pion energies below its mass; up to 1125 MeV two of four charged pions are lost and up to 1115 MeV pi pi pi0 pi0 gives no positrons or neutrinos. Decay spectra are assumed to vanish below the parent's mass, as the tables do.
* **C160** Radiation counts each charged meson once. True for pi pi pi0 pi0. False for pi pi pi0 (pair of a charged and a neutral pion), for four charged pions (three of four radiate) and for the other charged final states (no radiation).
* **C161** Two-pion-photon final state has an omega's decay products with weight one. False: the omega's decay products are multiplied by the branching fraction 0.0834; the exact spectrum is proved.
* **C162** Two-mediator spectra are weighted by branching fractions. False: the photon lines have no branching fractions (four photons for every mediator above the eta mass) and the pion line uses the charged pion's mass; positron and neutrino spectra use the inverse Lorentz factor and vanish above threshold.
* **C163** The total neutrino spectrum is a spectrum. False as to the value returned: it is the dictionary of all spectra; its entry total is the sum.
* **C169** convert_sigmav understands the units it documents. False for the documented name cm^3/s, which gives None for every input; true for cm^3 / s (with spaces) and MeV^-2.
* **C172** FisherResults.limit gives the error of every parameter. False for background parameters: their errors are too large by the factor dOmega, because the derivatives lack the solid angle; the limit on the rate is exact.
* **C176** params reports the model's parameters. False: the exponential index is reported as the cutoff energy; right exactly when the two coincide.
* **C177** Background derivatives match the flux: GECCO. False for the power-law index, whose derivative has the wrong sign except at 1 MeV or for zero amplitude; no forecast limit depends on that sign.
* **C178** Background models return NaN outside their range. False: outside the range the function value is returned with a warning, never NaN.
* **C180** A copy of a model is independent of the original. False: copy.copy of a VectorMediatorGeV shares the width cache, so the original answers with the copy's widths. True for attributes, and for widths once the original's mv is assigned again.
* **C181** RelicDensityLimit does not change the caller's model. True for attributes. False for VectorMediatorGeV as to widths: after a limit found by varying gvuu the caller's model returns the two-pion width of the value that was found.
* **C182** Relic-density limits of the GeV mediator describe one model. False for VectorMediatorGeV and gvxx: the search uses the total width of the first value tried throughout; a new model with the value found has another relic density whenever the relic density depends on the width.
* **C185** The spectrum of a PBH is that of its mass. True as long as no mass outside the table is assigned. False otherwise: the assignment raises IndexError but stores the mass, and the spectrum stays that of the former mass.
* **C186** PBH implements the interface of a decaying model. False: list_decay_final_states returns None (the override is misspelt) and positron_spectra and positron_lines raise AttributeError for every object; widths, spectra and photon lines are consistent.
* **C188** Leptonic widths of the right-handed neutrino respect lepton flavour. True for neutrinos of another generation than the right-handed one. False for the same generation: the second lepton is ignored, so the forbidden v_e e mu has the width of v_e e e, and v_e mu e that of v_e mu mu.
* **C190** Tabulated photon spectra are non-negative. True at every positive photon energy. False at negative energies, which are not rejected: the value is the negative number y0*x0/E.
* **C191** Photon lines lie at the two-body energy. True for kaons, eta, eta' and omega. False for the phi: its lines are at the energy of the recoiling meson, so a phi in flight emits photons above the kinematic endpoint.
* **C192** Photon lines carry the photons of their mode. False for the eta': its two-photon line carries one photon per decay.
* **C193** No monochromatic photon is lost. True in flight for kaons, eta and omega. False: eta' -> rho gamma, eta' -> omega gamma and phi -> pi0 gamma have no line, and at rest all lines are left out.
* **C197** Unphysical velocities give zeros. True above the speed of light. False for negative velocities: the test for small velocities comes first and returns the rest-frame spectrum.
* **C198** A boost at rest is the spectrum itself. True for spectra without extra arguments. False with extra arguments: at rest the spectrum is called without them and raises TypeError.
* **C199** Marginalising over the centre-of-mass energy is an average. True with vectorized=False. False with the defaults of marginalize: vectorized=True makes np.vectorize collect whole rows, which raises ValueError for two or more product energies; the documented method name 'trapezoid' raises AssertionError.
* **C203** Tabulated positron spectra at rest reproduce the table and vanish outside it. False in the code outside the table for a parent at rest (`_positron/_utils.py:44`, `_positron/_utils.py:71`): the spline extrapolates, so the spectrum is negative above the end point of every table that ends in a zero (charged kaon, eta, phi, rho, short kaon), and an array of energies gives NaN below the electron mass where a single energy gives 0. A Python integer as energy raises AssertionError. Proved: tabulated values, non-negativity inside the table, zero beyond the boosted end point in flight.
* **C204** Asking a tabulated meson for a neutrino flavour selects a row and keeps the shape of the energies. False in the code for single energies (`_neutrino/_utils.py:97`, `_neutrino/_utils.py:109`): asking for a flavour returns a one-element array although the overloads promise a float, and an unknown flavour name silently gives zeros instead of a ValueError as for muons and charged pions. Proved for arrays.
* **C205** Every tabulated decay mode conserves the charge of its parent. False in the data: the neutrino tables of the charged and neutral rho are interchanged (`charged_rho_neutrino_*.csv` is the mode pi pi with twice the yield, `neutral_rho_neutrino_*.csv` the mode pi pi0), so the neutral rho gives half and the charged rho twice the neutrinos. The headers are what is modelled; the numbers are not.
* **C211** Elastic cross sections of the scalar model are continuous at e = 2 mx. True for photons (`scalar_xs.rs:736`: the zero returned at e = 2 mx is the limit, so the guard is right) and for mediators (`scalar_xs.rs:789`). False for leptons and pions (`scalar_xs.rs:397`, `scalar_xs.rs:586`): at e = 2 mx the kernels divide zero by zero although the limit is finite and positive. Exact arithmetic.
* **C213** Elastic scattering off mediators has a non-negative cross section. False: sigma_xs_to_xs is negative for mx = 1, ms = 3 at e = 4.5 (`scalar_xs.rs:784`), where the range of momentum transfers contains the pole of the crossed channel. True at every energy for mediators with 2 ms^2 < 3 mx^2 (xs_light_nonneg_partial): the range then has no pole and the kernel is the mean of the squared amplitude, a sum of squares. False for every mediator heavier than 2 mx just above sqrt(2 ms^2 + mx^2) (xs_heavy_negative). Masses in between remain open.
* **C214** Elastic cross sections follow from annihilation by crossing. False: the elastic kernels integrate over the momentum transfers of annihilation kinematics, 4 mx^2 - s to 0 (`scalar_xs.rs:397-775`), which is the physical range only for targets as heavy as the dark matter; and the pion kernels are half the crossed cross section. Proved: the amplitude in the pion kernels is the crossed annihilation amplitude.
* **C217** The pi+ pi- pi0 pi0 current has the symmetries of identical bosons and charge conjugation. False: `_fsp_masses` puts the charged pions first (`_pi_pi_pi_pi.py:160-161`) but `_msqrd` hands the first two momenta to `_current_neutral` as the neutral ones (`_pi_pi_pi_pi.py:648`), so the current is odd under exchange of the identical neutral pions and even under exchange of the charged ones, and energy distributions are attributed to the wrong pions. The squared matrix element is symmetric under both exchanges.
* **C218** The propagators of the four-pion current are finite and absorptive only above threshold. True for the f0 and omega, and for rho propagators with any parameters. The a1 width becomes negative below 9 mpi^2 (`_pi_pi_pi_pi.py:228-234`), a region that three pions reach when one of them is neutral.
* **C220** form_factor of the four-pion classes returns the hadronic current. False: the local name `q2` is reused for the mean total energy (`_pi_pi_pi_pi.py:614`), so a number is passed where a momentum is expected and `ldot` raises IndexError for every input; the same line also uses the energy instead of its square.
* **C221** Every constructor argument of the four-pion classes is used. False: `beta_t_rho2=beta_b_rhos[1]` (`_pi_pi_pi_pi.py:186`) instead of `[2]`. All other arguments are stored.
* **C229** The form factors of two pions and an eta or eta' vanish below threshold. True for the eta. False for the eta': its form_factor has no threshold (`_pi_pi_etap.py:141-161`) and is different from zero below it.
* **C230** The pi pi omega form factor of an array of energies is the array of form factors. False: `np.sum` without an axis over arrays broadcast with the energies (`_pi_pi_omega.py:83-88`): ValueError unless there are one or three energies, and a single number then. `_pi_k_k.py:144-157` has the same sum.
* **C232** The form factors of a neutral pion and two kaons are symmetric in the kaons. True with s and t the pairs (2,3) and (1,3) of `fsp_masses`, which puts the pion last. False for the documented variables (`_pi_k_k.py:197-200`: s the mass of the kaons).
* **C234** Integrated three-meson form factors do not depend on the numeric type of the energy. False: `np.zeros_like(np.atleast_1d(q))` has the type of the energies (`_three_body.py:251`, `:574`, `:866`), so an integer energy drops the fractional part; width and cross_section convert to float first.
* **C235** Splitting a Monte-Carlo integration into batches does not change what is averaged. True when no weight is NaN. False otherwise: `_rambo.py:461-462` averages the batch averages although nanmean makes their sizes different.
* **C236** The reported Monte-Carlo error is the standard error of the mean. True without NaN for one batch and, as a stratified error, for batches of two or more. False with NaN (divided by the number of all points, `_rambo.py:457,470`) and for batch_size=1, where nansum turns the NaN errors into an error of exactly 0 (`_rambo.py:464`).
* **C239** Distributions can be accumulated in batches. False: with batch_size set, floats are added in place to integer histograms (`_rambo.py:584-593`, `:653-662`), which NumPy refuses. Unbatched calls work.
* **C241** Every generated event enters the distributions. True for events of exactly the right energy. False for the events generated: Newton's method approaches the scale from above, so for two bodies of different masses every event falls above the last edge (`_utils.py:41`, `_rambo.py:582`) and the distributions vanish. In floating point the outcome is decided by rounding.
* **C243** Annihilation into three pions through a vector mediator is a number at every open energy. False: the polynomial of `_vector_mediator_cross_sections.py:286-303` is negative close to the lower end of the invariant mass for energies below 500 MeV and close to the upper end above 2.4 GeV, so `assert ret_val.real >= 0` fails; every call between threshold and 500 MeV raises. True between 520 MeV and 1.8 GeV. Between these ranges nothing is claimed.
* **C245** Spectra of the mediator models are evaluated energy by energy. True for the scalar mediator and for non-empty arrays of the vector mediator. False for an empty array of the vector mediator: np.vectorize (`_vector_mediator_spectra.py:15,32-33`) raises ValueError on size zero.
* **C246** A single photon energy is accepted. total_spectrum accepts a float. spectra does not: the zero parts of e e, pi0 pi0 and pi0 g are built with len(e_gams) (`_scalar_mediator_spectra.py:20,46`, `_vector_mediator_spectra.py:24,54`), so a float raises TypeError exactly when one of these channels is open.
* **C247** Lists of photon energies are treated as arrays. False: a closed channel asks the list for its shape (`theory/__init__.py:184`) and dnde_decay_v takes arrays only. True for the scalar mediator when every channel is open.
* **C248** Parts of a channel's spectrum are selected by name. True for spectrum_type. False for the modes of the mediator pair: misspelt names give exactly zero, and a single string is searched for substrings, so "pi pi g" also counts the decays of the pions.
* **C249** Forbidden three-body processes have no phase space. True for integrate and invariant_mass_distributions. energy_distributions has no threshold check (`_three_body.py:581-626`): the densities vanish unless one particle is heavier than the energy plus the two other masses; then the bounds (`_three_body.py:306-322`) describe another region and a positive normalised density is returned for that particle.
* **C250** Every documented integration method of ThreeBody is available. False for invariant_mass_distributions: the documented 'trapz' and 'simps' always raise ValueError (`_three_body.py:708-733`).
* **C251** three_body_integrator selects the integration rule. False: `_nbody.py:203-206,247-250` does not pass the name on, so 'trapz' and 'simps' are 'quad'. True for other multiplicities; unknown names raise for three or more particles only.
* **C252** The spectrum does not depend on the variables of the matrix element. True for the quadrature. False for 'rambo': the matrix element is handed to Rambo unconverted (`_nbody.py:208,252-254`), so one of s and t raises TypeError.
* **C253** Two-body integrals accept matrix elements of the momenta. True with a matrix element. Without one the signature 'momenta' raises TypeError, because the flat matrix element returns an array of zeros for an array (`_two_body.py:16-20`).
* **C254** Expectation values do not depend on the quadrature. False except for constants: the methods discretise differently (expect_methods_differ). For Lipschitz functions and non-negative probabilities they differ by at most the Lipschitz constant times the bin width times the expectation value of one (expect_methods_close_partial).
* **C259** Vector mediators decaying to a neutral pion and a photon show the pion's photons. False for mediator masses between the pion mass and about 135.21 MeV: the decay code takes 134.9766 MeV for the pion mass, the photon kernel 134.9768 MeV, so the pion's energy is below the kernel's threshold and the spectrum is zero. True for all larger masses.
* **C264** The relic density averages the reported total. False: the compiled sum uses lepton masses 0.510998928 and 105.6583715 MeV, the reported channels 0.5109989461 and 105.6583745 MeV. For a vector mediator coupled to leptons the averaged cross section is strictly larger at every energy; between the two muon thresholds the reported total of a muon-philic model is zero while the averaged one is positive. True without lepton couplings (no_leptons_same_average).
* **C267** Limit classes accept an iterator over models. False: len() is taken of the argument, so every iterator or generator raises TypeError; sequences work.
* **C269** Telescope limits and binned_limit agree by default. False: the telescope limits default to method chi2, binned_limit to 1bin; a one-bin measurement is given on which one is infinite and the other 3. With the same method they agree (telescope_values).
* **C270** A composite constrainer reports every limit it holds. True for limits with distinct names; of two limits with the same name only the last one's values are kept.
* **C271** Binned scans compare rates in the units of the limit. False: the cross section in MeV^-2 times the velocity is compared with data without the conversion to cm^3/s, so the scan's threshold is 1.17e-11 times the limit; for every measurement with a finite limit some theory ten billion times below it is reported as excluded. scan_point_threshold is the exact behaviour.
* **C272** No photon carries more than half of the energy. True for the scalar mediator, and for the vector mediator unless the energy lies between 134.9766 and 134.9768 MeV, the two values of the neutral pion's mass in the code (`vector_xs.rs` constants and `parameters.py`): there pi0 gamma is counted as open while the pion's energy exceeds half of the total. The two energies at which a pair of mediators is produced exactly at rest are excluded.
* **C274** Photon spectra of annihilation are never negative. False for muons from threshold to 14 muon masses: close below the endpoint the compiled spectrum of radiative muon decay is negative and radiation has already ended. In a muon-philic vector model the total itself is negative. True for e e, pi0 pi0 and pi0 g.
* **C278** The K* in a charged-kaon pair is the neutral one. False: the two amplitudes are exchanged, the propagator of the K+- pi-+ pair is multiplied by the amplitude (a0 - a1) and the one of the K0 pi pair by (a0 + a1). True for equal couplings to up and down quarks.
* **C284** RH-neutrino matrix elements are those of the weak interaction. Proved for pairs of equal leptons, both two-pion channels, the widths for two lepton flavours and for three neutrinos, of one generation (two graphs, same_generation) or of two. False for the matrix element with two lepton flavours: the two charged leptons have exchanged their parts (two_flavours_exchanged, two_flavours_differ), or their masses, depending on the order of the arguments (two_flavours_masses). 'l pi pi0' with one pion mass. The three-neutrino matrix element is covered by C135.
* **C285** RH-neutrino widths into one meson are those of the weak interaction. Proved for l rho and nu rho. False for nu omega (four times the width), nu phi (twice), nu pi0 and nu eta (a quarter), l pi and l K (a quarter, and the polynomial of C136). The decay constants of parameters.py are those of chiral perturbation theory (92 MeV for the pion); the constants of the vector mesons are those of the reference the code cites.
* **C287** Self-scattering cross sections carry the flux and phase-space factors. False by a factor: the code divides by 32 pi e where the formula has 32 pi e^2, so both are the centre-of-mass energy in MeV times the cross section. The quadrature rule is arbitrary with nodes in [-1, 1]; mediators with mass and width.
* **C288** Python and compiled code use the same constants. False: all masses differ between `parameters.py` and the kernels (by less than four parts in a million), quark masses and condensate by percents (their product by less than four parts in a million), the fine-structure constant of the mediator-decay kernels is 1/137 and 1/137.04 elsewhere; between the two pion thresholds pions are produced through a mediator whose width into them is zero.
* **C289** Elastic scattering off leptons is the tree-level cross section. False: the kernel averages the squared amplitude over momentum transfers from 4 mx^2 - e^2 to 0, which are the physical ones only for a lepton as heavy as the dark matter, omits the vacuum expectation value from the coupling and the sum over the two charges; between mx + ml and 2 mx it is negative for light leptons. For equal masses it is vh^2 times the cross section for one charge.
* **C290** Scattering off the scalar mediator is the tree-level cross section. True for a mediator as heavy as the dark matter. False otherwise: the kernel averages the squared amplitude over momentum transfers from 4 mx^2 - e^2 to 0 instead of -4 p^2 to 0; at e = 2 mx it returns the forward amplitude, shown to be too large for ms = 0.8 mx.
* **C291** Hadronic channels of the vector mediator follow from its couplings to quarks. True for charged pions (width and cross section) and for the width into pi0 gamma. False for the cross sections into pi0 gamma and pi0 v: both are exactly one ninth of the value that the same vertex gives (the squared number of colours is missing). Strictly above both thresholds; the electric charge is the root of 4 pi alpha.
* **C295** The thermal average of the relic density is an average over collisions. False in three ways. Collisions above max(100 m, 50 T) (scalar), max(150 m, 50 T) (vector) or 50 T (generic) are left out, so that every value is strictly below the mean of a positive cross section (cut_loses). Beyond x = 300 the scalar function returns zero and the vector one the mean at T = m/300. The generic function uses only the cross section below threshold from x = 25 on. Proved: for measurable nonnegative cross sections the values are exactly the means over the remaining collisions (mediator_averages_partial, generic_average_partial); without cut the code's integrand gives the mean (average_eq). Exact integrals.
* **C297** RAMBO events average to the phase-space integral. Proved for what generate returns for massless particles, any number of them. With masses it is proved for the exact root of the rescaling equation (which exists, exactScale_exists); the code stops after at most five Newton steps, so its events are only close to these (how close: C310, C311). Independent random numbers, uniform in [0, 1). Last momentum fixed by momentum conservation, energy delta function tested with any measurable function of the energy.
* **C299** Monte Carlo and quadrature integrate the same three-body phase space. Proved for what generate returns for massless particles; with masses for the exact root of the rescaling equation, which the code's at most five Newton steps only approach (how close: C310, C311). At almost every energy. The quadrature is an exact integral, the Monte Carlo value its expectation.
* **C305** list_annihilation_final_states lists exactly the possible final states. VectorMediatorGeV.list_annihilation_final_states omits 'v v', although annihilation_cross_section_funcs, the branching fractions and all spectra have it; everything else is listed. The other models are right: what HeavyQuark and QuarksOnly leave out has no cross section after any history of assignments.
* **C313** Fisher matrix entries are information integrals up to the step of the energy grid. True for the rate. For entries of background parameters it is true after restoring the solid angle that their derivatives lack (C172); as returned they differ from the information integral by one factor dOmega per background parameter, whatever the grid. The grid is the list of energies at which the code builds its degree-one spline; densities that are Lipschitz on its range; where the effective area vanishes the density is zero.
* **C314** A mediator at rest has the spectrum of its rest frame. False at one energy, half of the mass: infinity if the mode of the line is open, NaN if it is closed (0/0), for g g and pi0 g photons and for positrons of every mode. Elsewhere true for the continuum; the photons of the line are lost at rest. The divisions follow IEEE arithmetic, the quadrature is exact.
* **C315** Lines of the mediator models follow two-body kinematics and branching fractions. True for the scalar model and for the vector model from the pion mass of parameters.py on. The compiled cross section opens pi0 g at 134.9766 MeV while the line uses 134.9768 MeV: in between the channel is open and its photon energy is negative (negative_photon_energy). Cross sections are arbitrary functions elsewhere.
