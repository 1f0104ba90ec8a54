{"id": "C01", "title": "Two-body momentum is the physical momentum above threshold", "statement": "For non-negative masses and a centre-of-mass energy at or above m1+m2, two_body_momentum(cme,m1,m2) is a number p>=0 with sqrt(p^2+m1^2)+sqrt(p^2+m2^2)=cme, equals sqrt(kallen_lambda(cme^2,m1^2,m2^2))/(2 cme), is symmetric under exchange of the masses, and is 0 exactly at threshold.", "quantifier": "all real m1,m2>=0 and all cme>=m1+m2 with cme>0", "why_tests_cant": "continuum of masses and energies; tests sample a few mass pairs", "anchors": ["hazma/utils.py:two_body_momentum", "hazma/utils.py:kallen_lambda"]}
{"id": "C02", "title": "Two-body momentum is NaN everywhere below threshold", "statement": "For non-negative masses and 0<cme<m1+m2 two_body_momentum returns NaN - including the region cme<|m1-m2| where the Kallen polynomial is positive again and a single square root would give a finite meaningless value; cross_section_prefactor is then NaN too, is +inf exactly at threshold and a positive number above.", "quantifier": "all real m1,m2>=0 and 0<cme", "why_tests_cant": "two disjoint unphysical regions, unbounded parameter space", "anchors": ["hazma/utils.py:two_body_momentum", "hazma/utils.py:cross_section_prefactor"]}
{"id": "C03", "title": "Annihilation cross sections: the total is the sum, branching fractions are a probability distribution", "statement": "annihilation_cross_sections(e) has for every channel the value of its cross-section function, plus 'total' equal to their sum; annihilation_branching_fractions(e) has exactly the channels as keys and, if all cross sections are non-negative, every fraction lies in [0,1] and they sum to 1 when the total is non-zero and are all 0 when it is zero.", "quantifier": "every model (any finite dict of channels with any real cross sections), every e_cm", "why_tests_cant": "ranges over all user-written models, not just the shipped ones", "anchors": ["hazma/theory/__init__.py:TheoryAnn.annihilation_cross_sections", "hazma/theory/__init__.py:TheoryAnn.annihilation_branching_fractions"]}
{"id": "C04", "title": "Annihilation spectra are branching-fraction weighted sums", "statement": "When every open channel has a continuum function, spectra(e,e_cm)[fs] equals bf[fs]*dN/dE_fs(e) for an open channel and 0 for a closed one, the total equals the sum over channels, and no closed channel's spectrum function is ever evaluated.", "quantifier": "every model, photon energy and e_cm", "why_tests_cant": "all channel dictionaries, orderings and opening patterns", "anchors": ["hazma/theory/__init__.py:TheoryAnn.spectra", "hazma/theory/__init__.py:TheoryAnn.spectrum_funcs", "hazma/theory/__init__.py:TheoryAnn.total_spectrum"]}
{"id": "C05", "title": "A channel without continuum photons does not break the annihilation spectrum", "statement": "spectra()/total_spectrum() succeed for every model whose _spectrum_funcs lists only the channels that produce a continuum spectrum (as documented); channels without an entry contribute nothing.", "quantifier": "every model", "why_tests_cant": "user models with line-only channels", "anchors": ["hazma/theory/__init__.py:TheoryAnn.spectrum_funcs", "hazma/theory/__init__.py:TheoryAnn.spectra"]}
{"id": "C06", "title": "Decay widths and branching fractions", "statement": "decay_widths() adds 'total' = sum; decay_branching_fractions() is a probability distribution over the channels when widths are non-negative and the total is positive, all zeros when total is zero.", "quantifier": "every decaying model", "why_tests_cant": "all finite channel tables", "anchors": ["hazma/theory/__init__.py:TheoryDec.decay_widths", "hazma/theory/__init__.py:TheoryDec.decay_branching_fractions"]}
{"id": "C07", "title": "Decay gamma-ray spectra: each channel uses its own function", "statement": "For a decaying model spectra(e)[fs] is bf[fs]*dN/dE_fs(e) with fs's own spectrum function (0 for a closed channel), and total is the sum.", "quantifier": "every decaying model and energy", "why_tests_cant": "all channel tables", "anchors": ["hazma/theory/__init__.py:TheoryDec.spectrum_funcs", "hazma/theory/__init__.py:TheoryDec.spectra"]}
{"id": "C08", "title": "Decay positron spectra: each channel uses its own function", "statement": "For a decaying model positron_spectra(e)[fs] is bf[fs]*dN/dE_fs(e) with fs's own positron spectrum function.", "quantifier": "every decaying model and energy", "why_tests_cant": "closures capture loop variables; a single-channel test cannot see it", "anchors": ["hazma/theory/__init__.py:TheoryDec.positron_spectrum_funcs", "hazma/theory/__init__.py:TheoryDec.positron_spectra"]}
{"id": "C09", "title": "One-bin limit is the largest allowed rate", "statement": "The binned '1bin' limit <sigma v> returned is non-negative and tight: at the limit no bin's predicted signal exceeds its n-sigma upper bound and at least one bin saturates it; any larger rate violates some bin, any smaller rate violates none; with no signal in any bin the limit is +inf.", "quantifier": "every finite set of bins, fluxes, errors, n_sigma", "why_tests_cant": "all measurement sets and spectra", "anchors": ["hazma/theory/_theory_gamma_ray_limits.py:TheoryGammaRayLimits.binned_limit", "hazma/theory/_theory_gamma_ray_limits.py:TheoryGammaRayLimits.__constrain_one_bin"]}
{"id": "C10", "title": "Chi-squared limit saturates the chi-squared", "statement": "The 'chi2' limit, if finite, is the rate at which the one-sided chi^2 of the predicted signal (only bins where signal exceeds observation) equals the critical value for n_sigma; the chi^2 is monotone in the rate so every larger rate is excluded too; the limit is infinite only if no rate gives a positive chi^2.", "quantifier": "every finite set of bins", "why_tests_cant": "all measurement sets", "anchors": ["hazma/theory/_theory_gamma_ray_limits.py"]}
{"id": "C11", "title": "Unbinned limit uses the best energy window", "statement": "The unbinned limit is prefactor*n_sigma divided by the largest signal/sqrt(background) over every pair of grid energies in the experiment's range, so no scanned window gives a stronger limit.", "quantifier": "every grid of energies and every signal/background counts", "why_tests_cant": "all pairs of windows for arbitrary grids", "anchors": ["hazma/theory/_theory_gamma_ray_limits.py:TheoryGammaRayLimits.unbinned_limit"]}
{"id": "C12", "title": "Flux prefactor conventions", "statement": "The differential signal flux prefactor scales as 1/m^2 with the J-factor for annihilation and 1/m with the D-factor for decay; non-self-conjugate dark matter annihilating gives exactly half the flux of self-conjugate dark matter.", "quantifier": "all positive masses and target parameters", "why_tests_cant": "conventions must hold identically for all targets", "anchors": ["hazma/theory/_theory_gamma_ray_limits.py:TheoryGammaRayLimits._differential_signal_flux_prefactor"]}
{"id": "C13", "title": "Boosted line is a normalised box of physical energies", "statement": "boost_delta_function(e0,e,m,beta) for e0>m>=0, 0<beta<1 is non-negative, vanishes outside the interval of lab energies gamma(e0 -/+ beta k0) reachable from a particle of rest-frame energy e0, and integrates to exactly 1 over lab energy (and its mean energy is gamma*e0).", "quantifier": "all e0>m>=0, 0<beta<1", "why_tests_cant": "integral identity over a continuum", "anchors": ["hazma/spectra/boost.py:boost_delta_function", "rust/src/boost.rs:boost_delta_function"]}
{"id": "C14", "title": "Boost kinematics", "statement": "boost_gamma(E,m)>=1, boost_beta in [0,1) for E>=m>0, and gamma^2(1-beta^2)=1.", "quantifier": "all E>=m>0", "why_tests_cant": "continuum", "anchors": ["rust/src/boost.rs:boost_gamma", "rust/src/boost.rs:boost_beta"]}
{"id": "C15", "title": "Interpolation search returns the bracketing cell", "statement": "The table search returns, for every non-decreasing grid and every in-range x, the last index j with xp[j]<=x; it never reads out of bounds and terminates for every input.", "quantifier": "every sorted grid of any length, every x", "why_tests_cant": "unbounded table lengths, ties", "anchors": ["rust/src/interp.rs:search"]}
{"id": "C16", "title": "Interpolation is clamped, exact at nodes and between neighbouring table values", "statement": "interp returns fp at every node, the first/last table value outside the range, and for x inside a cell a value between the two neighbouring table values; it is the piecewise-linear interpolant.", "quantifier": "every strictly increasing grid, every x", "why_tests_cant": "unbounded tables", "anchors": ["rust/src/interp.rs:interp"]}
{"id": "C17", "title": "Pairwise summation sums every element exactly once", "statement": "pairwise_sum of any slice equals the plain sum of its elements (over the reals), for every length including those that cross the 8 and 128 block boundaries.", "quantifier": "all slices of all lengths", "why_tests_cant": "unbounded lengths with three code paths", "anchors": ["rust/src/boost.rs:pairwise_sum"]}
{"id": "C18", "title": "Boost integral of a table: argument validation", "statement": "boost_integrate_linear_interp fails with BetaOutOfRange, then LengthMismatch, then EmptyTable (in that order of precedence) and otherwise returns a number without any out-of-range access.", "quantifier": "all arguments", "why_tests_cant": "all lengths, all beta", "anchors": ["rust/src/boost.rs:boost_integrate_linear_interp"]}
{"id": "C19", "title": "Boost integral of a table: soft tail is the exact 1/E extrapolation", "statement": "When the whole boost window lies below the table the result is exactly the boost integral of the 1/E extrapolation y0 x0/E; when it lies above the table it is 0.", "quantifier": "all tables, all energies, 0<beta<1", "why_tests_cant": "integral identity", "anchors": ["rust/src/boost.rs:boost_integrate_linear_interp"]}
{"id": "C20", "title": "Boost integral of a table equals the boost integral of its interpolant", "statement": "For windows inside the table, the result equals 1/(2 gamma beta) times the integral over the window of the piecewise-linear interpolant of y/x.", "quantifier": "all tables and windows", "why_tests_cant": "window/cell alignment cases are unbounded", "anchors": ["rust/src/boost.rs:boost_integrate_linear_interp"]}
{"id": "C21", "title": "RAMBO events are on shell with zero total momentum", "statement": "Every event of the massive RAMBO generator has each particle exactly on its mass shell and vanishing total three-momentum, whatever the scale factor the Newton iteration stopped at; total energy equals cme up to the residual of the scale equation.", "quantifier": "all random draws, all particle numbers, masses, any Newton outcome", "why_tests_cant": "random inputs, any multiplicity", "anchors": ["hazma/phase_space/_rambo.py:Rambo"]}
{"id": "C22", "title": "RAMBO massless boost conserves four-momentum", "statement": "After the conformal boost the massless momenta are light-like and sum to (cme,0,0,0).", "quantifier": "all random draws with non-zero total mass", "why_tests_cant": "random inputs", "anchors": ["hazma/phase_space/_rambo.py:Rambo._boost"]}
{"id": "C23", "title": "RAMBO Newton iteration stays on the safe side", "statement": "With the initial scale derived from the current cme and masses, each Newton iterate stays at or above the true scale factor and the residual is non-negative and non-increasing, so total energy is never below cme and the stopping test without absolute value is sound.", "quantifier": "all momenta and masses with sum of masses < cme", "why_tests_cant": "iterative algorithm over arbitrary inputs", "anchors": ["hazma/phase_space/_rambo.py:Rambo._compute_scale_factor"]}
{"id": "C24", "title": "Changing RAMBO's masses or energy behaves like a fresh generator", "statement": "After any sequence of assignments to cme and masses the generator produces the same events (for the same random numbers) as a newly constructed one.", "quantifier": "all histories of setter calls", "why_tests_cant": "histories", "anchors": ["hazma/phase_space/_rambo.py:Rambo.cme", "hazma/phase_space/_rambo.py:Rambo.masses"]}
{"id": "C25", "title": "Normalised distributions integrate to one", "statement": "normalize_distribution returns probabilities whose bin-width weighted sum is 1 whenever the raw weighted sum is positive, preserves the shape, and returns the input unchanged when it is identically zero.", "quantifier": "all histograms of any size", "why_tests_cant": "unbounded number of bins", "anchors": ["hazma/phase_space/_utils.py:normalize_distribution"]}
{"id": "C26", "title": "Energy limits contain every physical configuration", "statement": "For every configuration of on-shell particles with total four-momentum (Q,0), every particle's energy lies within energy_limits and every pair's invariant mass within invariant_mass_limits.", "quantifier": "all multiplicities and momentum configurations", "why_tests_cant": "continuum of configurations of any multiplicity", "anchors": ["hazma/phase_space/_utils.py:energy_limits", "hazma/phase_space/_utils.py:invariant_mass_limits"]}
{"id": "C27", "title": "Three-body integration bounds are the physical region", "statement": "For given energy of particle 1 the invariant-mass/energy bounds used by the three-body integrator are exactly the values where the momenta are collinear: a configuration exists iff the variable lies between the bounds.", "quantifier": "all masses, energies", "why_tests_cant": "continuum", "anchors": ["hazma/phase_space/_three_body.py:ThreeBody"]}
{"id": "C28", "title": "Neutral-pion photon box has two photons and half the pion energy each", "statement": "dnde_photon_neutral_pion for E>m integrates to 2*BR(pi0->gg), has mean photon energy E/2, is non-negative and vanishes for photon energies outside E(1-/+beta)/2.", "quantifier": "all pion energies above the mass", "why_tests_cant": "integral identity", "anchors": ["rust/src/kernels/photon_pion.rs:dnde_photon_neutral_pion"]}
{"id": "C29", "title": "Positron spectrum from muon decay in flight is the boost of the rest-frame spectrum", "statement": "The closed form used for a moving muon equals the boost integral of the rest-frame Michel spectrum for every velocity; it vanishes outside the reachable energies.", "quantifier": "all energies and muon energies", "why_tests_cant": "integral identity over two continuous parameters", "anchors": ["rust/src/kernels/positron_muon.rs:dndx"]}
{"id": "C30", "title": "Positron spectrum from muon decay is normalised", "statement": "The rest-frame positron spectrum of a muon integrates to one positron.", "quantifier": "single integral", "why_tests_cant": "exact integral vs. quadrature", "anchors": ["rust/src/kernels/positron_muon.rs:dndx_rest_frame"]}
{"id": "C31", "title": "Neutrino spectra from muon decay in flight are boosts of the rest-frame spectra", "statement": "The closed forms for electron and muon neutrinos from a moving muon equal the boost integral of the rest-frame spectra; the tau row is always zero.", "quantifier": "all energies", "why_tests_cant": "integral identity", "anchors": ["rust/src/kernels/neutrino_muon.rs"]}
{"id": "C32", "title": "Photon kernels vanish outside the kinematic range and below threshold", "statement": "Every muon/pion/rho photon and positron kernel returns 0 when the parent energy is below its mass and outside the kinematically reachable photon energies.", "quantifier": "all real arguments", "why_tests_cant": "branch coverage over continuum", "anchors": ["rust/src/kernels/photon_muon.rs", "rust/src/kernels/photon_pion.rs", "rust/src/kernels/photon_rho.rs", "rust/src/kernels/positron_muon.rs", "rust/src/kernels/positron_pion.rs"]}
{"id": "C33", "title": "Altarelli-Parisi spectra are non-negative with the right support", "statement": "dnde_photon_ap_fermion/scalar are non-negative for every positive energy, mass and charge, zero when the log would be below 1, and proportional to the squared charge.", "quantifier": "all energies", "why_tests_cant": "continuum", "anchors": ["hazma/spectra/altarelli_parisi.py"]}
{"id": "C34", "title": "Deprecated pair AP spectrum is twice the single-particle one", "statement": "utils.dnde_altarelli_parisi_* equals twice spectra.dnde_photon_ap_* with s=cme^2 for unit charge at every positive photon energy.", "quantifier": "all energies", "why_tests_cant": "identity over continuum", "anchors": ["hazma/utils.py:dnde_altarelli_parisi_fermion", "hazma/spectra/altarelli_parisi.py"]}
{"id": "C35", "title": "Model setters leave no stale state (scalar mediator)", "statement": "After any sequence of public attribute assignments a ScalarMediator/HiggsPortal/HeavyQuark has the same total width as a freshly constructed object with the same parameters; forbidden assignments raise and change nothing; HiggsPortal couplings stay tied to sin(theta).", "quantifier": "all histories of assignments", "why_tests_cant": "histories", "anchors": ["hazma/scalar_mediator/__init__.py:ScalarMediator", "hazma/scalar_mediator/__init__.py:HiggsPortal", "hazma/scalar_mediator/__init__.py:HeavyQuark"]}
{"id": "C36", "title": "Model setters leave no stale state (vector mediator)", "statement": "Likewise for VectorMediator/KineticMixing/QuarksOnly: cached width_v always equals partial_widths()['total'] of the current parameters, KineticMixing couplings stay proportional to the charges, QuarksOnly lepton couplings stay 0.", "quantifier": "all histories of assignments", "why_tests_cant": "histories", "anchors": ["hazma/vector_mediator/__init__.py"]}
{"id": "C37", "title": "Mediator partial widths are non-negative, close below threshold, and sum to total", "statement": "Every partial width of the scalar and vector mediator is non-negative (so the internal asserts can never fire), vanishes at or below its threshold, and 'total' is the sum of the others.", "quantifier": "all masses and couplings", "why_tests_cant": "continuum, internal assert reachability", "anchors": ["hazma/scalar_mediator/_scalar_mediator_widths.py", "hazma/vector_mediator/_vector_mediator_widths.py"]}
{"id": "C38", "title": "Final-state-radiation spectra are non-negative", "statement": "The photon spectra for xx->ff gamma and xx->pi pi gamma through scalar or vector mediators are non-negative on their whole support so the asserts cannot fire, and vanish outside it.", "quantifier": "all photon energies, cme and masses", "why_tests_cant": "continuum, transcendental inequality", "anchors": ["hazma/scalar_mediator/_scalar_mediator_fsr.py", "hazma/vector_mediator/_vector_mediator_fsr.py"]}
{"id": "C39", "title": "Python and Cython FSR formulas agree", "statement": "The radiation spectrum of a mediator decaying at rest used inside the mediator-decay spectrum equals the radiation spectrum of the annihilation with Q equal to the mediator mass.", "quantifier": "all photon energies and masses", "why_tests_cant": "identity between two independently written closed forms", "anchors": ["hazma/scalar_mediator/_scalar_mediator_fsr.py", "hazma/scalar_mediator/scalar_mediator_decay_spectrum.pyx", "hazma/vector_mediator/_vector_mediator_fsr.py", "hazma/vector_mediator/vector_mediator_decay_spectrum.pyx"]}
{"id": "C40", "title": "Detailed balance of the scalar-mediator cross sections", "statement": "sigma(SS->xx) and sigma(xx->SS) obey detailed balance at every energy above both thresholds: sigma(SS->xx) p_S^2 g_S^2/... = sigma(xx->SS) p_x^2 g_x^2 with the appropriate spin and symmetry factors.", "quantifier": "all energies, masses, couplings", "why_tests_cant": "identity of rational-logarithmic expressions", "anchors": ["rust/src/kernels/scalar_xs.rs:sigma_xx_to_ss", "rust/src/kernels/scalar_xs.rs:sigma_ss_to_xx"]}
{"id": "C41", "title": "Annihilation cross sections are non-negative and vanish below threshold", "statement": "Every s-channel cross section kernel of both mediator models is non-negative above threshold and zero below either threshold.", "quantifier": "all energies, masses, couplings, widths", "why_tests_cant": "continuum", "anchors": ["rust/src/kernels/scalar_xs.rs", "rust/src/kernels/vector_xs.rs"]}
{"id": "C42", "title": "Boltzmann right-hand side and Jacobian", "statement": "The Jacobian passed to the stiff solver is the exact derivative of the right-hand side; the right-hand side vanishes exactly at equilibrium and always drives the abundance towards equilibrium.", "quantifier": "all x, w and model functions", "why_tests_cant": "derivative identity for all inputs", "anchors": ["hazma/relic_density/_diffeq.py"]}
{"id": "C43", "title": "Semi-analytic relic abundance", "statement": "The semi-analytic final abundance is the exact solution of dY/dx=-f(x)Y^2 started from Y*, lies strictly between 0 and Y*, and decreases with the annihilation integral.", "quantifier": "all positive inputs", "why_tests_cant": "ODE solution identity", "anchors": ["hazma/relic_density/_rd.py:relic_density", "hazma/relic_density/_approx.py"]}
{"id": "C44", "title": "Equilibrium density derivative is the derivative", "statement": "neq_deriv(T) is the temperature derivative of neq(T) for bosons and fermions.", "quantifier": "all temperatures, masses, statistics", "why_tests_cant": "derivative identity", "anchors": ["hazma/relic_density/_thermal_functions.py:neq", "hazma/relic_density/_thermal_functions.py:neq_deriv"]}
{"id": "C45", "title": "Building a flux measurement does not modify the caller's data", "statement": "Constructing a FluxMeasurement from arrays leaves the arrays unchanged, so building two measurements from the same arrays gives equal objects.", "quantifier": "all data, all histories of constructions", "why_tests_cant": "aliasing", "anchors": ["hazma/flux_measurement.py:FluxMeasurement"]}
{"id": "C46", "title": "Independent constrainers stay independent", "statement": "Two CompositeConstrainer objects created with default arguments do not share limits.", "quantifier": "all histories", "why_tests_cant": "aliasing of default arguments", "anchors": ["hazma/limits/_abstract.py"]}
{"id": "C47", "title": "Single-channel models follow their final state", "statement": "After assigning fs a SingleChannelAnn/SingleChannelDec behaves like a freshly constructed one.", "quantifier": "all histories", "why_tests_cant": "histories", "anchors": ["hazma/single_channel.py"]}
{"id": "C48", "title": "Radiation from every charged final-state particle", "statement": "The n-body photon spectrum adds one radiation term per charged final-state particle, whatever the multiplicities.", "quantifier": "all final states", "why_tests_cant": "multisets of final states", "anchors": ["hazma/spectra/_nbody.py:_dnde_photon_fsr"]}
{"id": "C49", "title": "Scan image indexing", "statement": "constrain()'s image at [row,col] is the constraint evaluated with p2 at row and p1 at col; for every grid size; and the grid scan evaluates each point exactly once.", "quantifier": "all grid sizes", "why_tests_cant": "unbounded grids", "anchors": ["hazma/theory/_theory_constrain.py"]}
{"id": "C50", "title": "Adaptive quadrature invariants", "statement": "At every iteration of the adaptive integrator the subintervals tile the integration range, the running total equals the sum of the panel results, the number of panels never exceeds the limit, the evaluation count is 42*last-21, and no workspace index is out of range.", "quantifier": "all integrands, tolerances, limits", "why_tests_cant": "all integrands and iteration counts", "anchors": ["rust/src/quad.rs:qagse"]}
{"id": "C51", "title": "Quadrature panel ordering", "statement": "The maintained index order lists the panels in non-increasing error order over the maintained range, so the panel bisected next is the nrmax-th largest.", "quantifier": "all sequences of bisections", "why_tests_cant": "permutation invariant", "anchors": ["rust/src/quad.rs:qpsrt"]}
{"id": "C52", "title": "Kronrod rules are exact for linear integrands on every interval", "statement": "The 15/21-point rules integrate affine functions to within the deviation of the tabulated weights from summing to 2 and their node symmetry removes odd terms exactly.", "quantifier": "all intervals, all odd integrands about the centre", "why_tests_cant": "algebraic identity", "anchors": ["rust/src/quad.rs:qk21", "rust/src/quad.rs:qk15"]}
{"id": "C53", "title": "Argument dispatch of array entry points", "statement": "Every spectrum entry point maps a scalar to a scalar, a 1-d float64 array to an equally long array, element by element and in order, rejects any other rank or dtype, and a failing element fails the whole call.", "quantifier": "all argument shapes and lengths", "why_tests_cant": "all lengths/dtypes", "anchors": ["rust/src/dispatch.rs"]}
{"id": "C54", "title": "CKM matrix is unitary", "statement": "The Wolfenstein-built CKM matrix is exactly unitary for every parameter value.", "quantifier": "all Wolfenstein parameters", "why_tests_cant": "algebraic identity", "anchors": ["hazma/parameters.py:_ckm_wolfenstein"]}
{"id": "C55", "title": "CMB limit scaling", "statement": "cmb_limit equals p_ann*mx/f_eff, is positive, monotone decreasing in f_eff, and the effective deposition weights lines with two photons twice.", "quantifier": "all models", "why_tests_cant": "all models", "anchors": ["hazma/theory/_theory_cmb.py"]}
{"id": "C56", "title": "Mediator-decay photon line normalisation", "statement": "The gamma-gamma contribution to the photon spectrum of a moving scalar mediator contains two photons per decay.", "quantifier": "all mediator energies and masses", "why_tests_cant": "integral identity", "anchors": ["hazma/scalar_mediator/scalar_mediator_decay_spectrum.pyx"]}
{"id": "C57", "title": "Mediator-decay positron line normalisation", "statement": "The e+e- contribution to the positron spectrum of a moving mediator integrates to one positron times the branching fraction, and appears only when that final state is requested.", "quantifier": "all mediator energies and masses", "why_tests_cant": "integral identity", "anchors": ["hazma/scalar_mediator/scalar_mediator_positron_spec.pyx", "hazma/vector_mediator/vector_mediator_positron_spec.pyx"]}
{"id": "C58", "title": "Spectrum cache never serves stale tables", "statement": "Whatever calls were made before, a mediator-decay positron spectrum is computed with interpolation tables for the mass in the current call.", "quantifier": "all call histories", "why_tests_cant": "histories of a module-level cache", "anchors": ["hazma/scalar_mediator/scalar_mediator_positron_spec.pyx", "hazma/vector_mediator/vector_mediator_positron_spec.pyx"]}
{"id": "C59", "title": "Positron spectrum functions return positron spectra", "statement": "The vector mediator's 'mu mu' positron spectrum equals the positron spectrum of a muon with half the centre-of-mass energy.", "quantifier": "all energies", "why_tests_cant": "wiring of functions", "anchors": ["hazma/vector_mediator/_vector_mediator_positron_spectra.py"]}
{"id": "C60", "title": "Two-body final-state energies conserve energy", "statement": "In every two-body channel the energies assigned to the products (mediator + pion, photon + pion, line energies) add up to the centre-of-mass energy and are on shell with opposite momenta.", "quantifier": "all masses and energies", "why_tests_cant": "identity", "anchors": ["hazma/vector_mediator/_vector_mediator_spectra.py", "hazma/single_channel.py"]}
{"id": "C61", "title": "Experimental constraint functions are bounded by the measured bound", "statement": "Every rare-decay constraint returns bound minus a non-negative contribution: it never exceeds the bound, equals it when the mediator is outside the kinematic window or decoupled, and the contribution never exceeds the production width.", "quantifier": "all parameters", "why_tests_cant": "probability factors over continuum", "anchors": ["hazma/scalar_mediator/_scalar_mediator_constraints.py"]}
{"id": "C62", "title": "Lines carry their channel's branching fraction", "statement": "gamma_ray_lines/positron_lines report, for every monochromatic channel, exactly the model's line energy and that channel's branching fraction; a line for a final state that is not a channel makes the call fail.", "quantifier": "every model and energy", "why_tests_cant": "all channel and line dictionaries", "anchors": ["hazma/theory/__init__.py:TheoryAnn.gamma_ray_lines", "hazma/theory/__init__.py:TheoryAnn.positron_lines", "hazma/theory/__init__.py:TheoryDec.gamma_ray_lines", "hazma/theory/__init__.py:TheoryDec.positron_lines"]}
{"id": "C63", "title": "Double boost of a line", "statement": "double_boost_delta_function equals the result of boosting a boosted line: the second boost's integral of the first boost's box, for massless and massive products.", "quantifier": "all energies, masses and velocities", "why_tests_cant": "integral identity over a continuum", "anchors": ["hazma/spectra/boost.py:double_boost_delta_function"]}
{"id": "C64", "title": "Boosting a sampled spectrum", "statement": "dnde_boost_array returns zeros for a velocity outside [0,1), zero at or below the product mass and elsewhere the boost integral of the linear spline over exactly the reachable rest-frame energies.", "quantifier": "all arrays, velocities and masses", "why_tests_cant": "guards must hold for every velocity", "anchors": ["hazma/spectra/boost.py:dnde_boost_array"]}
{"id": "C65", "title": "RAMBO weights are the phase-space volume element", "statement": "Event weights are positive for open processes; for massless final states every event carries the exact massless n-body phase-space volume; for two bodies the weight is |p|/(4 pi sqrt(s)) at the event's own total energy.", "quantifier": "all multiplicities, energies, random draws", "why_tests_cant": "random inputs, any multiplicity", "anchors": ["hazma/phase_space/_rambo.py:Rambo._compute_weights", "hazma/phase_space/_rambo.py:Rambo._compute_base_weight"]}
{"id": "C66", "title": "Batched RAMBO generation yields the requested number of points", "statement": "generator(n, batch_size) yields exactly n phase-space points in total, for every batch size.", "quantifier": "all n and batch sizes", "why_tests_cant": "unbounded integers", "anchors": ["hazma/phase_space/_rambo.py:Rambo.generator"]}
{"id": "C67", "title": "Expectation of one under a phase-space distribution", "statement": "PhaseSpaceDistribution1D.expect(lambda x: 1) is 1 for a normalised distribution.", "quantifier": "all histograms", "why_tests_cant": "any number and widths of bins", "anchors": ["hazma/phase_space/_dist.py:PhaseSpaceDistribution1D.expect"]}
{"id": "C68", "title": "Momenta reconstructed from invariant masses are physical", "statement": "A three-body matrix element of momenta is always evaluated at on-shell momenta that sum to (q,0,0,0) and have exactly the requested invariant masses s and t, for every point of the physical region.", "quantifier": "all energies, masses and physical (s,t)", "why_tests_cant": "continuum", "anchors": ["hazma/phase_space/_three_body.py:_mandelstam_to_momenta"]}
{"id": "C69", "title": "Bounds on t are the physical region", "statement": "For every invariant mass s, the t between the bounds of _integration_bounds_t are exactly those of physical final states.", "quantifier": "all energies and masses", "why_tests_cant": "continuum", "anchors": ["hazma/phase_space/_three_body.py:ThreeBody._integration_bounds_t"]}
{"id": "C70", "title": "Energy and mass distributions integrate to the phase-space integral", "statement": "For each particle the (unnormalised) energy distribution integrated over its energy limits, and for each pair the invariant-mass distribution integrated over its mass limits, equals the total three-body phase-space integral.", "quantifier": "all continuous matrix elements, energies, masses", "why_tests_cant": "two-dimensional integral identity over a continuum", "anchors": ["hazma/phase_space/_three_body.py:ThreeBody._partial_integration", "hazma/phase_space/_three_body.py:ThreeBody._integrate_quad", "hazma/phase_space/_three_body.py:ThreeBody._invariant_mass_distributions_quad"]}
{"id": "C71", "title": "ThreeBody setters take effect", "statement": "After any assignments to cme, masses and msqrd the object integrates the matrix element assigned last with the current energy and masses.", "quantifier": "all histories", "why_tests_cant": "histories", "anchors": ["hazma/phase_space/_three_body.py:ThreeBody"]}
{"id": "C72", "title": "Integration methods agree for the default matrix element", "statement": "The Monte-Carlo estimate for the default (flat) matrix element is the mean event weight, an estimate of the same phase-space volume the quadrature method computes.", "quantifier": "all random draws", "why_tests_cant": "random inputs", "anchors": ["hazma/phase_space/_three_body.py:_msqrd_flat", "hazma/phase_space/_three_body.py:ThreeBody._integrate_rambo"]}
{"id": "C73", "title": "Two-body phase space has one value", "statement": "TwoBody.integrate with a flat matrix element, two_body_phase_space_prefactor and the weight of every exact two-body RAMBO event are all |p|/(4 pi sqrt(s)).", "quantifier": "all energies and masses above threshold", "why_tests_cant": "identity over a continuum", "anchors": ["hazma/phase_space/_two_body.py:TwoBody.integrate", "hazma/phase_space/_utils.py:two_body_phase_space_prefactor", "hazma/phase_space/_rambo.py:Rambo._compute_weights"]}
{"id": "C74", "title": "Distributions have the requested number of bins", "statement": "energy_distributions(nbins) returns distributions with nbins bins spanning the energy limits, for both methods.", "quantifier": "all nbins", "why_tests_cant": "unbounded integers", "anchors": ["hazma/phase_space/_three_body.py:ThreeBody.energy_distributions"]}
{"id": "C75", "title": "Photon spectrum from muon decay in flight is the boost of the rest-frame spectrum", "statement": "dnde_photon_muon for a moving muon equals the boost integral of dnde_photon_muon for a muon at rest.", "quantifier": "all photon and muon energies", "why_tests_cant": "integral identity with dilogarithms over a continuum", "anchors": ["rust/src/kernels/photon_muon.rs"]}
{"id": "C76", "title": "Positron spectrum of a charged pion is continuous at rest", "statement": "dnde_positron_charged_pion at E = m_pi is the muon chain's spectrum (number of positrons as for a moving pion).", "quantifier": "all positron energies", "why_tests_cant": "total over a continuum", "anchors": ["rust/src/kernels/positron_pion.rs"]}
{"id": "C77", "title": "Photon spectra of rho mesons are boosts of the pions' spectra", "statement": "dnde_photon_neutral_rho/charged_rho equal the photon spectra of the two decay pions at rest energies, boosted for a moving meson, and unboosted for a meson at rest.", "quantifier": "all energies", "why_tests_cant": "boost identity", "anchors": ["rust/src/kernels/photon_rho.rs"]}
{"id": "C78", "title": "Neutrino rows of a charged pion", "statement": "For a moving charged pion the electron row is BR_e times the boosted line plus BR_mu times the boosted muon-decay row, the muon row is BR_mu times (line + muon-decay row), so that one electron neutrino is produced per pion.", "quantifier": "all energies", "why_tests_cant": "boost identity and totals", "anchors": ["rust/src/kernels/neutrino_pion.rs"]}
{"id": "C79", "title": "Boosting conserves particle number and scales energy", "statement": "For every integrable rest-frame spectrum the boosted spectrum integrates to the same number; mean energy is multiplied by the Lorentz factor; non-negativity is preserved; support is contained in the forward-boosted range.", "quantifier": "all spectra, masses and velocities", "why_tests_cant": "all functions", "anchors": ["rust/src/kernels/photon_rho.rs:boosted", "rust/src/kernels/neutrino_pion.rs", "rust/src/kernels/positron_pion.rs", "hazma/spectra/boost.py"]}
{"id": "C80", "title": "One electron and one muon neutrino per muon", "statement": "The electron and muon rows of dnde_neutrino_muon integrate to one for every muon energy (to 1e-8).", "quantifier": "all muon energies", "why_tests_cant": "integral over a continuum", "anchors": ["rust/src/kernels/neutrino_muon.rs"]}
{"id": "C81", "title": "Positron and neutrino spectra of muons are non-negative", "statement": "dnde_positron_muon and all rows of dnde_neutrino_muon are non-negative for all arguments.", "quantifier": "all energies", "why_tests_cant": "continuum", "anchors": ["rust/src/kernels/positron_muon.rs", "rust/src/kernels/neutrino_muon.rs"]}
{"id": "C82", "title": "All kernels agree on the energy of the muon from a pion", "statement": "The muon energy in the pion rest frame used by the photon, positron and neutrino kernels is (m_pi^2+m_mu^2)/(2 m_pi).", "quantifier": "constants", "why_tests_cant": "consistency of literals", "anchors": ["rust/src/constants.rs:543", "rust/src/constants.rs:592", "rust/src/kernels/neutrino_pion.rs:66"]}
{"id": "C83", "title": "Photon spectrum of a muon is non-negative", "statement": "dnde_photon_muon is non-negative for all arguments.", "quantifier": "all energies", "why_tests_cant": "continuum", "anchors": ["rust/src/kernels/photon_muon.rs"]}
{"id": "C84", "title": "Positron spectrum of a moving charged pion", "statement": "dnde_positron_charged_pion for E > m_pi equals BR_mu times the boost of the muon's positron spectrum plus BR_e times the boosted line, and its total number is the same for all E.", "quantifier": "all energies", "why_tests_cant": "boost identity", "anchors": ["rust/src/kernels/positron_pion.rs"]}
{"id": "C85", "title": "Photon spectrum of a charged pion", "statement": "dnde_photon_charged_pion equals the boost of the branching-weighted rest-frame spectrum (muon photons and radiative decays), the rest-frame spectrum at E = m_pi and zero below.", "quantifier": "all energies", "why_tests_cant": "change of variables in an integral", "anchors": ["rust/src/kernels/photon_pion.rs"]}
{"id": "C86", "title": "All Minkowski products agree", "statement": "The four-vector helpers of utils (ldot, minkowski_dot, lnorm_sqr) are one symmetric bilinear form: the products agree and lnorm_sqr is the product of a vector with itself.", "quantifier": "all four-vectors", "why_tests_cant": "continuum", "anchors": ["hazma/utils.py:ldot", "hazma/utils.py:minkowski_dot", "hazma/utils.py:lnorm_sqr"]}
{"id": "C87", "title": "Soft-photon limit is universal", "statement": "For xx -> ff gamma and xx -> pi pi gamma through scalar and vector mediators, E dN/dE tends to the same eikonal factor of the velocity of the charged particles as the photon energy goes to zero (soft-photon theorem).", "quantifier": "all centre-of-mass energies and masses above threshold", "why_tests_cant": "limit", "anchors": ["hazma/scalar_mediator/_scalar_mediator_fsr.py", "hazma/vector_mediator/_vector_mediator_fsr.py"]}
{"id": "C88", "title": "Annihilation factorises into production and decay", "statement": "For every two-body channel of both mediator models the s-channel cross section at centre-of-mass energy E times the production factor equals the partial width of a mediator of mass E into that channel: sigma(xx -> f) = P(E) Gamma_f(m = E), with a common P for all channels of the model.", "quantifier": "all energies, masses, couplings, widths", "why_tests_cant": "identity between two modules (Python widths, compiled cross sections)", "anchors": ["rust/src/kernels/scalar_xs.rs", "rust/src/kernels/vector_xs.rs", "hazma/scalar_mediator/_scalar_mediator_widths.py", "hazma/vector_mediator/_vector_mediator_widths.py"]}
{"id": "C89", "title": "Annihilation cross sections have the units of a cross section", "statement": "Multiplying all energies, masses, widths and dimensionful constants by l divides every annihilation cross section kernel by l^2.", "quantifier": "all l, energies, masses, couplings", "why_tests_cant": "scaling over a continuum", "anchors": ["rust/src/kernels/scalar_xs.rs", "rust/src/kernels/vector_xs.rs"]}
{"id": "C90", "title": "Self-interaction cross sections have the units of a cross section", "statement": "Multiplying all masses and widths by l divides sigma_xx_to_xx (self interaction) of both models by l^2.", "quantifier": "all l, energies, masses, couplings", "why_tests_cant": "scaling over a continuum", "anchors": ["rust/src/kernels/scalar_xs.rs:sigma_xx_to_xx", "rust/src/kernels/vector_xs.rs:sigma_xx_to_xx"]}
{"id": "C91", "title": "Elastic scattering off leptons has a non-negative cross section", "statement": "sigma_xl_to_xl of the scalar model is non-negative at every energy and zero below the threshold mx + ml.", "quantifier": "all energies, masses, couplings, widths", "why_tests_cant": "continuum", "anchors": ["rust/src/kernels/scalar_xs.rs:sigma_xl_to_xl"]}
{"id": "C92", "title": "The elastic cross section has the units of a cross section", "statement": "Multiplying energies, masses and widths by l divides sigma_xl_to_xl by l^2.", "quantifier": "all l, energies, masses", "why_tests_cant": "scaling over a continuum", "anchors": ["rust/src/kernels/scalar_xs.rs:sigma_xl_to_xl"]}
{"id": "C93", "title": "Equilibrium density approximates the ideal quantum gas", "statement": "neq for a massive particle differs from the exact Fermi-Dirac or Bose-Einstein number density by a relative error of at most exp(-5 m/T), above for fermions and below for bosons.", "quantifier": "all temperatures, masses, degrees of freedom", "why_tests_cant": "integral over a continuum, Bessel functions", "anchors": ["hazma/relic_density/_thermal_functions.py:neq"]}
{"id": "C94", "title": "Derivatives of the equilibrium abundance", "statement": "yeq_deriv and yeq_derivx are the derivatives of yeq with respect to temperature and to x = m/T.", "quantifier": "all temperatures and masses", "why_tests_cant": "derivative", "anchors": ["hazma/relic_density/_thermal_functions.py:yeq_deriv", "hazma/relic_density/_thermal_functions.py:yeq_derivx"]}
{"id": "C95", "title": "Freeze-out matching", "statement": "xstar is the point where Y = (1+delta) Yeq at constant delta satisfies the Boltzmann equation (golden-ratio delta by default), and the abundance is evolved from that value.", "quantifier": "all models and delta", "why_tests_cant": "roots of a transcendental equation", "anchors": ["hazma/relic_density/_approx.py:xstar_root_eqn", "hazma/relic_density/_rd.py:relic_density"]}
{"id": "C96", "title": "delta is ignored by the semi-analytic relic density", "statement": "As documented, relic_density(model, semi_analytic=True, delta=...) does not depend on delta.", "quantifier": "all models and delta", "why_tests_cant": "all models", "anchors": ["hazma/relic_density/_rd.py:relic_density"]}
{"id": "C97", "title": "Default range of the Boltzmann solution", "statement": "As documented, the default final x is 1000 times the initial x; a given xf is reached exactly.", "quantifier": "all x0, xf", "why_tests_cant": "all inputs", "anchors": ["hazma/relic_density/_diffeq.py:solve_boltzmann"]}
{"id": "C98", "title": "Generic thermal average is positive for annihilating models", "statement": "For every model without its own thermal_cross_section whose cross section is positive above the pair threshold, the thermal average is positive at every x <= 300 (also inside the GeV vector model).", "quantifier": "all cross sections and x", "why_tests_cant": "all functions", "anchors": ["hazma/relic_density/_thermal_functions.py:thermal_cross_section", "hazma/vector_mediator/_gev/thermal_cross_section.py"]}
{"id": "C99", "title": "Mediator thermal averages at low temperature", "statement": "The scalar and vector models' thermal averages are positive up to x = 300; above, the scalar one is zero and the vector one keeps its value.", "quantifier": "all cross sections and x", "why_tests_cant": "all functions", "anchors": ["rust/src/kernels/scalar_xs.rs:thermal_cross_section", "rust/src/kernels/vector_xs.rs:thermal_cross_section"]}
{"id": "C100", "title": "Line energies of single-channel models can be used", "statement": "For every two-body single-channel model with an electron, the positron line table holds the electron's energy as a number, so that f_eff, the CMB limit and the convolved spectra can be computed.", "quantifier": "all two-body final states", "why_tests_cant": "type of a nested value over all channels", "anchors": ["hazma/single_channel.py:_positron_line_energies", "hazma/theory/_theory_cmb.py:_f_eff_helper"]}
{"id": "C101", "title": "Single-channel models with photons have gamma-ray lines", "statement": "A single-channel model whose two-body final state contains a photon reports a gamma-ray line at the photon's energy.", "quantifier": "all final states that can be constructed", "why_tests_cant": "interaction of two tables of names over all final states", "anchors": ["hazma/single_channel.py:_gamma_ray_line_energies", "hazma/parameters.py:standard_model_masses"]}
{"id": "C102", "title": "Closed single channels do not occur", "statement": "A single-channel model has a zero annihilation cross section, or decay width, exactly when the energy available is below the mass of its final state.", "quantifier": "all masses and final states", "why_tests_cant": "continuum of masses, all final states", "anchors": ["hazma/single_channel.py:annihilation_cross_section_funcs", "hazma/single_channel.py:_decay_widths"]}
{"id": "C103", "title": "Positrons of a charged pair are counted once", "statement": "A final state made of a charged particle and its antiparticle ('mu mu', 'pi pi', 'e e X', ...) contributes the positron spectrum of one of them, as in the mediator models (f_eff later doubles it to account for electrons).", "quantifier": "all energies and spectra, all charged pairs", "why_tests_cant": "normalisation across modules over all spectra", "anchors": ["hazma/spectra/_nbody.py:_dnde_two_body", "hazma/spectra/_nbody.py:_dnde_multi_particle", "hazma/scalar_mediator/_scalar_mediator_positron_spectra.py"]}
{"id": "C104", "title": "Photons in the final state appear in the photon spectrum", "statement": "For three or more particles a final-state photon contributes its energy distribution to dnde_photon.", "quantifier": "all final states with a photon, all distributions", "why_tests_cant": "reachability over all final states", "anchors": ["hazma/spectra/_nbody.py:_dnde_multi_particle", "hazma/spectra/_nbody.py:_conv_dnde_dist"]}
{"id": "C105", "title": "Neutrino flavours are kept apart", "statement": "Row r of dnde_neutrino(flavor=None) equals dnde_neutrino with that flavour.", "quantifier": "all final states and distributions", "why_tests_cant": "all final states", "anchors": ["hazma/spectra/_nbody.py:dnde_neutrino", "hazma/spectra/_nbody.py:_dnde_multi_particle"]}
{"id": "C106", "title": "Outcome of an n-body spectrum call", "statement": "Unknown particles and too small centre-of-mass energies raise ValueError; otherwise the spectrum of a final state in the tables is the sum of the particles' convolved decay spectra and direct contributions plus radiation; a two-body state does not depend on the order of the particles.", "quantifier": "all final states of any length", "why_tests_cant": "unbounded lists of names", "anchors": ["hazma/spectra/_nbody.py:_dnde_nbody"]}
{"id": "C107", "title": "Photon from a vector decaying to a neutral pion and a photon has the two-body energy", "statement": "In the photon spectrum of a moving vector mediator, the photon emitted with a neutral pion has rest-frame energy (mV^2 - mpi0^2)/(2 mV), so that photon and pion together carry the energy of the vector.", "quantifier": "all vector masses above the pion mass and all vector energies", "why_tests_cant": "an integral identity over all energies", "anchors": ["hazma/vector_mediator/vector_mediator_decay_spectrum.pyx:184-227", "hazma/vector_mediator/_vector_mediator_spectra.py:142-145"]}
{"id": "C108", "title": "Mediator decay spectra conserve particle number and add up over modes", "statement": "The spectrum of a moving mediator contains as many photons or positrons as its rest-frame spectrum with energies multiplied by E/m in total, the angular integral equals the boost of the rest-frame spectrum, and the spectrum for all modes is the sum of the spectra requested mode by mode.", "quantifier": "all rest-frame spectra, branching fractions, masses, energies", "why_tests_cant": "integral identities over arbitrary functions", "anchors": ["hazma/scalar_mediator/scalar_mediator_decay_spectrum.pyx:123-191", "hazma/vector_mediator/vector_mediator_decay_spectrum.pyx:115-227", "hazma/scalar_mediator/scalar_mediator_positron_spec.pyx:106-215"]}
{"id": "C109", "title": "Scan images are indexed as documented", "statement": "As its docstring says, entry [i, j] of an image returned by constrain belongs to (p1_vals[i], p2_vals[j]).", "quantifier": "all grids", "why_tests_cant": "holds or fails for whole families of grids; a square test grid of a symmetric constraint hides the transposition", "anchors": ["hazma/theory/_theory_constrain.py:54-111"]}
{"id": "C110", "title": "Effects of a scan on the theory", "statement": "constrain refuses equal parameter names before touching the theory; otherwise it evaluates every grid point once, leaves the theory at the last grid point, refuses level sets only after the whole scan and returns None for an unknown request.", "quantifier": "all theories whose setters overwrite, all grids and requests", "why_tests_cant": "state after an unbounded loop", "anchors": ["hazma/theory/_theory_constrain.py:85-111"]}
{"id": "C111", "title": "Custom scans accept any grid shape", "statement": "custom_constrain on a grid with r rows and c columns returns r x c images whose entry [i, j] is the constraint at grid point (i, j).", "quantifier": "all r, c and grids", "why_tests_cant": "unbounded shapes; square grids do not show the fault", "anchors": ["hazma/theory/_theory_constrain.py:8-52"]}
{"id": "C112", "title": "Scans of binned measurements agree with the one-bin limit", "statement": "For annihilating dark matter the value returned by the binned-gamma constraint is non-negative exactly when the number it uses as annihilation rate (total cross section times velocity) does not exceed the number binned_limit returns for the same measurement; the units of the two numbers are the subject of a separate property.", "quantifier": "all measurements, masses and rates", "why_tests_cant": "equivalence of two implementations over all inputs", "anchors": ["hazma/theory/_theory_constrain.py:113-171", "hazma/theory/_theory_gamma_ray_limits.py:45-76,404-477"]}
{"id": "C113", "title": "Rare-decay constraints are numbers for every scalar mass", "statement": "Inside its mass window every rare-decay constraint of the scalar mediator returns a number; where the decay is kinematically closed it returns the bound.", "quantifier": "all masses and couplings", "why_tests_cant": "the failing masses form a narrow interval at the edge of a window; a test grid steps over it", "anchors": ["hazma/scalar_mediator/_scalar_mediator_constraints.py:65-268", "hazma/constraint_parameters.py:58-116"]}
{"id": "C114", "title": "Beam-dump constraint is bounded", "statement": "constrain_beam_dump returns a value between n_dec - n_pot*Br(pN -> S) and n_dec for every scalar, equal to n_dec when the scalar does not couple to fermions.", "quantifier": "all masses, couplings, beam dumps", "why_tests_cant": "bound over a continuum of parameters", "anchors": ["hazma/scalar_mediator/_scalar_mediator_constraints.py:299-344"]}
{"id": "C115", "title": "Higgs to invisible constraint can be evaluated on every scalar model", "statement": "The entry 'higgs -> invis' of constraints() evaluates on every scalar-mediator model to a value not above the budget, equal to it when the decay is closed or a coupling vanishes and below it otherwise.", "quantifier": "all models and parameters", "why_tests_cant": "quantifies over model classes and all parameter values", "anchors": ["hazma/scalar_mediator/_scalar_mediator_constraints.py:347-381", "hazma/scalar_mediator/__init__.py:286-453"]}
{"id": "C116", "title": "Rare-decay constraints count the right decays", "statement": "Visible constraints count at most production times the branching fraction into the measured channel and get stronger with the radius within which decays are seen; invisible ones count at least the decays to dark matter, get weaker with the radius, and count everything when the scalar decays only to dark matter.", "quantifier": "all parameters and pairs of radii", "why_tests_cant": "monotonicity over a continuum", "anchors": ["hazma/scalar_mediator/_scalar_mediator_constraints.py:65-268"]}
{"id": "C117", "title": "CKM matrix has the Wolfenstein parameters it was built from", "statement": "lambda = |Vus|/sqrt(|Vud|^2+|Vus|^2), A lambda^2 = lambda |Vcb/Vus| and rhobar + i etabar = -Vud Vub*/(Vcd Vcb*) hold exactly for the matrix returned by _ckm_wolfenstein.", "quantifier": "all Wolfenstein parameters for which the matrix is defined", "why_tests_cant": "an exact algebraic identity over complex parameters", "anchors": ["hazma/parameters.py:246-281"]}
{"id": "C118", "title": "Deposited energy fraction averages over channels", "statement": "The f_eff of a theory is the branching-fraction weighted average of the f_eff of its channels.", "quantifier": "all theories, channels and efficiency tables", "why_tests_cant": "linearity over arbitrary functions", "anchors": ["hazma/theory/_theory_cmb.py:46-138"]}
{"id": "C119", "title": "CMBLimit agrees with cmb_limit", "statement": "hazma.limits CMBLimit.constrain returns for each model the value of the model's cmb_limit.", "quantifier": "all models and parameters", "why_tests_cant": "agreement of two implementations for all models", "anchors": ["hazma/limits/_cmb.py:83-209", "hazma/theory/_theory_cmb.py:9-138"]}
{"id": "C120", "title": "Quadrature rules never touch the end points", "statement": "The 15- and 21-point rules evaluate the integrand exactly 15 and 21 times, always strictly inside the interval, and their value and error estimate depend on nothing else, so integrands singular or undefined at an end point are safe.", "quantifier": "all integrands and intervals", "why_tests_cant": "quantifies over all integrands; tests use particular smooth ones", "anchors": ["rust/src/quad.rs:240-480"]}
{"id": "C121", "title": "A successful quadrature met its tolerance", "statement": "When qagse reports success the returned error estimate is at most max(epsabs, epsrel*|value|) for the value it returns, whichever way it stopped (first rule, sum of panels or extrapolation).", "quantifier": "all integrands, intervals, tolerances and limits", "why_tests_cant": "the exits combine dozens of state variables; no test covers all paths", "anchors": ["rust/src/quad.rs:716-1059"]}
{"id": "C122", "title": "Quadrature evaluates the integrand neval times, strictly inside the range", "statement": "The number of integrand evaluations equals the reported neval = 42*last-21 with last <= limit, and every evaluation is strictly between the end points.", "quantifier": "all integrands, intervals, tolerances and limits", "why_tests_cant": "quantifies over all adaptive refinements", "anchors": ["rust/src/quad.rs:424-475", "rust/src/quad.rs:716-1059"]}
{"id": "C123", "title": "Panels never straddle a break point", "statement": "While integrating with break points the panels always tile the range, each panel lies between two neighbouring break points, holds the value of the 21-point rule on it, and the running value and error are the sums over the panels; no workspace index goes out of range.", "quantifier": "all integrands, ranges, sets of break points, tolerances and limits, and every state of the loop", "why_tests_cant": "invariants of an adaptive loop for arbitrary refinements", "anchors": ["rust/src/quad.rs:1096-1502"]}
{"id": "C124", "title": "Break points are never evaluated", "statement": "quad evaluates the integrand exactly neval times, at most 42*limit times, strictly between the limits, and never at a point listed in points, so singular or discontinuous points may be listed.", "quantifier": "all integrands, ranges, points, tolerances and limits", "why_tests_cant": "quantifies over all adaptive refinements", "anchors": ["rust/src/quad.rs:1096-1502", "rust/src/quad.rs:1596-1624"]}
{"id": "C125", "title": "Success with break points means the tolerance was met", "statement": "When quad reports success the error estimate is within max(epsabs, epsrel*|value|), also when points are given.", "quantifier": "all integrands, ranges, points, tolerances and limits", "why_tests_cant": "the exits combine dozens of state variables", "anchors": ["rust/src/quad.rs:1194-1225", "rust/src/quad.rs:1436-1501", "rust/src/quad.rs:1596-1624"]}
{"id": "C126", "title": "The quadrature driver orders limits and cleans points", "statement": "quad returns zero without evaluating anything for equal limits; exchanging the limits negates the value and changes nothing else; only the set of points strictly inside the range matters (order, repetition and outside points do not); it never rejects a point for lying outside, and rejects a limit exactly when it does not exceed the number of distinct interior points.", "quantifier": "all integrands, limits, options and point lists", "why_tests_cant": "quantifies over all point lists and integrands", "anchors": ["rust/src/quad.rs:1553-1624"]}
{"id": "C127", "title": "RH-neutrino widths are sound and branching fractions are a distribution", "statement": "For a right-handed-neutrino model every partial width is nonnegative, zero below the threshold of its final state and a function of tan^2(2 theta); with nonzero mixing the branching fractions are probabilities summing to one over the 21 final states.", "quantifier": "all masses, angles, flavours, form factors and CKM elements", "why_tests_cant": "signs of closed forms with logarithms and of integrals, for all parameters", "anchors": ["hazma/rh_neutrino/_widths.py:82-860", "hazma/rh_neutrino/_model.py:137-191"]}
{"id": "C128", "title": "Open RH-neutrino channels have positive width", "statement": "Every final state whose masses sum to less than the mass of the right-handed neutrino has a strictly positive width when the mixing is nonzero.", "quantifier": "all masses, nonzero mixings, flavours", "why_tests_cant": "strict positivity up to threshold for every real mass", "anchors": ["hazma/rh_neutrino/_widths.py:82-860", "hazma/rh_neutrino/_configure.py:92-186"]}
{"id": "C129", "title": "Assigning a parameter is constructing with it", "statement": "After rhn.mx = v, rhn.theta = v or rhn.flavor = f the object is the one the constructor gives for the new parameters.", "quantifier": "all objects and values", "why_tests_cant": "quantifies over all states of the object", "anchors": ["hazma/rh_neutrino/_model.py:35-119"]}
{"id": "C130", "title": "RH-neutrino lines are two-body lines of existing channels", "statement": "gamma_ray_lines, positron_lines and the neutrino lines return, for every open two-body channel, the energy fixed by kinematics and the branching fraction of that channel.", "quantifier": "all objects reachable through constructor and setters", "why_tests_cant": "kinematic identity for all masses, all reachable states", "anchors": ["hazma/rh_neutrino/_model.py:224-267", "hazma/theory/__init__.py:573-580", "hazma/theory/__init__.py:637-644"]}
{"id": "C131", "title": "Charge conjugates are counted once", "statement": "Each charge configuration of a decay enters the total width once, and the photon spectrum of a channel is its branching fraction times the spectrum of one decay.", "quantifier": "all models, masses, angles and spectra", "why_tests_cant": "a bookkeeping identity across three modules for arbitrary widths and spectra", "anchors": ["hazma/rh_neutrino/_utils.py:4-19", "hazma/rh_neutrino/_model.py:137-215", "hazma/rh_neutrino/_configure.py:92-186"]}
{"id": "C132", "title": "RH-neutrino spectra use the particles named by the channel", "statement": "The spectra of a final state are computed by hazma.spectra for exactly the particles in its name, at the mass of the right-handed neutrino, and are zeros of the same shape below threshold.", "quantifier": "all models, channels and products", "why_tests_cant": "quantifies over all masses and all entries of the table", "anchors": ["hazma/rh_neutrino/_spectra.py:25-108", "hazma/rh_neutrino/_spectra.py:111-302", "hazma/rh_neutrino/_configure.py:92-186"]}
{"id": "C133", "title": "decay_width accepts a name or a sequence of names", "statement": "decay_width returns the entries of decay_widths for the given final state or states and raises KeyError for unknown ones.", "quantifier": "all models and arguments", "why_tests_cant": "quantifies over all strings and sequences", "anchors": ["hazma/rh_neutrino/_model.py:137-179"]}
{"id": "C134", "title": "RH-neutrino positron spectra use each channel's own spectrum", "statement": "positron_spectra returns for each final state its branching fraction times its own positron spectrum.", "quantifier": "all models, energies and spectra", "why_tests_cant": "a late-binding closure bug is visible only when the last channel differs", "anchors": ["hazma/rh_neutrino/_model.py:193-236", "hazma/theory/__init__.py:600-625"]}
{"id": "C135", "title": "Three-body RH-neutrino widths are integrals of their matrix elements", "statement": "The partial width of a three-body channel equals 1/(2 mx) times the phase-space integral, as ThreeBody.integrate computes it, of the squared matrix element used for the spectra of that channel.", "quantifier": "all masses above threshold, mixings, flavours and form factors", "why_tests_cant": "equality of a closed form with a double integral for all masses", "anchors": ["hazma/rh_neutrino/_widths.py:229-328", "hazma/rh_neutrino/_widths.py:336-422", "hazma/rh_neutrino/_widths.py:436-576", "hazma/rh_neutrino/_widths.py:742-836", "hazma/phase_space/_three_body.py:427-463"]}
{"id": "C136", "title": "Two-body RH-neutrino widths have the tree-level mass dependence", "statement": "The width into a lepton and a meson is a mass-independent coupling factor times the contraction of the weak leptonic tensor with the meson's current, times two-body phase space, for on-shell momenta.", "quantifier": "all masses and all momenta with the given masses", "why_tests_cant": "an algebraic identity over all on-shell four-vectors", "anchors": ["hazma/rh_neutrino/_widths.py:82-194"]}
{"id": "C137", "title": "Squared matrix elements of RH-neutrino decays are nonnegative", "statement": "At every physical configuration of the final-state momenta, the squared matrix element handed to the spectra code is nonnegative.", "quantifier": "all masses, mixings, flavours and physical momenta", "why_tests_cant": "a sign condition on the whole Dalitz region for all masses", "anchors": ["hazma/rh_neutrino/_widths.py:229-261", "hazma/rh_neutrino/_widths.py:336-360", "hazma/rh_neutrino/_widths.py:436-450", "hazma/rh_neutrino/_widths.py:492-625", "hazma/rh_neutrino/_widths.py:742-746"]}
{"id": "C138", "title": "GeV mediator widths follow the attributes", "statement": "After any sequence of attribute assignments and width queries on a VectorMediatorGeV, every partial width and the total width equal those of a new object built with the current attribute values.", "quantifier": "all initial attribute values and all finite histories of assignments and queries", "why_tests_cant": "the result depends on the order of assignments and queries through a cache; tests fix one order", "anchors": ["hazma/vector_mediator/_gev/model.py:35-62", "hazma/vector_mediator/_gev/model.py:194-331", "hazma/vector_mediator/_gev/model.py:634-913"]}
{"id": "C139", "title": "Restricted GeV models follow their one coupling", "statement": "Assigning eps to a KineticMixingGeV or g to a BLGeV gives an object that answers every width query like a new object built with that value.", "quantifier": "all parameters and histories", "why_tests_cant": "histories of assignments and queries are unbounded", "anchors": ["hazma/vector_mediator/_gev/model.py:1083-1187", "hazma/vector_mediator/_gev/model.py:1189-1297"]}
{"id": "C140", "title": "GeV cross sections are widths times one channel-independent factor", "statement": "Above the dark matter threshold the annihilation cross section of every s-channel final state of VectorMediatorGeV equals the width of a mediator with mass equal to the energy into that state, times one factor that is the same for all final states.", "quantifier": "all masses, couplings, form factors and energies above 2 mx", "why_tests_cant": "three separate code paths must share one factor at all energies and masses", "anchors": ["hazma/vector_mediator/_gev/cross_sections.py:56-146", "hazma/vector_mediator/_gev/cross_sections.py:350-369", "hazma/form_factors/vector/_base.py:133-206"]}
{"id": "C141", "title": "GeV cross sections vanish below threshold", "statement": "At energies not above 2 mx, or not above the sum of the final-state masses, every annihilation cross section of VectorMediatorGeV is zero.", "quantifier": "all masses, couplings, form factors and energies", "why_tests_cant": "thresholds depend on continuous masses; tests probe a few energies", "anchors": ["hazma/form_factors/vector/_base.py:163-206", "hazma/vector_mediator/_gev/cross_sections.py:77-196"]}
{"id": "C142", "title": "Annihilation into two mediators agrees between MeV and GeV models", "statement": "For equal masses and coupling, sigma_xx_to_v_v of VectorMediatorGeV and of VectorMediator return the same cross section, which for a massless mediator is that of pair annihilation into two identical photons.", "quantifier": "all masses, couplings and energies", "why_tests_cant": "two long closed forms compared for all arguments", "anchors": ["hazma/vector_mediator/_gev/cross_sections.py:149-196", "rust/src/kernels/vector_xs.rs:317-352"]}
{"id": "C143", "title": "Annihilation into two mediators does not depend on the number type", "statement": "sigma_xx_to_v_v of VectorMediatorGeV returns the same cross section for an int energy and the float with the same value.", "quantifier": "all masses, couplings and integer energies", "why_tests_cant": "the loss is silent and depends on magnitude", "anchors": ["hazma/vector_mediator/_gev/cross_sections.py:149-196"]}
{"id": "C144", "title": "Two-meson currents are contracted with the mediator's polarisation sum", "statement": "The squared Lorentz structures used for two pseudoscalars, a pseudoscalar and a photon, and a pseudoscalar and a vector equal the contraction of the current with the spin sum of the mediator divided by 3 q^2, and the closed-form cross sections in the module agree with the class methods.", "quantifier": "all masses, momenta, polarisation tensors and energies above threshold", "why_tests_cant": "a tensor identity over all on-shell momenta", "anchors": ["hazma/form_factors/vector/_two_body.py:22-132", "hazma/vector_mediator/_gev/cross_sections.py:33-53"]}
{"id": "C145", "title": "Three-meson currents are contracted with the mediator's polarisation sum", "statement": "squared_lorentz_structure of the three-meson vector form factors equals, for on-shell momenta adding up to a mediator at rest, the contraction of the squared current with the spin sum of the mediator divided by 3 q^2, summed over the polarisations of the vector meson if there is one, with the masses in the order the class lists them.", "quantifier": "all masses, energies and momenta", "why_tests_cant": "a tensor identity over all on-shell momenta", "anchors": ["hazma/form_factors/vector/_three_body.py:22-36", "hazma/form_factors/vector/_three_body.py:142-177", "hazma/form_factors/vector/_three_body.py:713-774"]}
{"id": "C146", "title": "One-dimensional form-factor integrals are phase-space integrals", "statement": "integrated_form_factor of the three-meson classes that integrate over one invariant mass equals the three-body phase-space integral of |F|^2 times the squared Lorentz structure, as ThreeBody.integrate computes it, and the partially integrated form factor integrates to it.", "quantifier": "all masses, form factors and energies above threshold", "why_tests_cant": "equality of a single integral of a closed form with a double integral", "anchors": ["hazma/form_factors/vector/_three_body.py:498-581", "hazma/form_factors/vector/_three_body.py:776-873", "hazma/phase_space/_three_body.py:427-463"]}
{"id": "C147", "title": "Energy distributions of P P V agree with the three-body code", "statement": "energy_distributions of a two-pseudoscalar-vector form factor returns for each particle the normalised histogram that the partial integration of the general three-body code gives at the same bin centres; it has the requested number of bins, positive heights and area one.", "quantifier": "all masses, energies above threshold, form factors and numbers of bins", "why_tests_cant": "three hand-derived closed forms compared with an integral at every energy", "anchors": ["hazma/form_factors/vector/_three_body.py:875-948", "hazma/phase_space/_dist.py:18-69", "hazma/phase_space/_three_body.py:427-463"]}
{"id": "C148", "title": "Invariant-mass distributions of P P V are normalised", "statement": "invariant_mass_distributions of a two-pseudoscalar-vector form factor returns histograms with increasing bins and area one.", "quantifier": "all masses, energies above threshold, form factors and numbers of bins", "why_tests_cant": "normalisation must hold for every input", "anchors": ["hazma/form_factors/vector/_three_body.py:950-992", "hazma/phase_space/_dist.py:18-69"]}
{"id": "C149", "title": "Resonance propagators have the documented pole and width", "statement": "The Breit-Wigner functions of the vector form factors equal one at zero for the fixed-width and P-wave forms, have the running P-wave width q^3/s^(1/2) normalised at the resonance, an absorptive part of one sign, and dhhatds is the derivative with respect to s of hhat at the resonance mass, so that the real part of the Gounaris-Sakurai denominator is m^2 - s to first order.", "quantifier": "all resonance masses, widths, decay masses and energies", "why_tests_cant": "identities between transcendental functions for all arguments", "anchors": ["hazma/form_factors/vector/_utils.py:38-410"]}
{"id": "C150", "title": "Couplings of the resonance towers follow the dual-QCD formula", "statement": "The raw couplings built with gamma_generator equal the closed Gamma-function form for every index, and adjusting the lowest resonances keeps the sum of the couplings: in the kaon tower the total is the intended one and in the pion tower the adjusted part keeps its sum.", "quantifier": "all numbers of resonances and values of beta", "why_tests_cant": "a recursion compared with Gamma functions at every index", "anchors": ["hazma/form_factors/vector/_utils.py:412-440", "hazma/form_factors/vector/_pi_pi.py:80-125", "hazma/form_factors/vector/_k_k.py:85-188"]}
{"id": "C151", "title": "find_beta inverts the lowest coupling", "statement": "find_beta returns a beta whose lowest coupling c_0(beta) equals the requested value to the requested accuracy.", "quantifier": "all targets within the bracket", "why_tests_cant": "a loop with a data-dependent number of iterations", "anchors": ["hazma/form_factors/vector/_k_k.py:85-125"]}
{"id": "C152", "title": "Form factors treat arrays of energies elementwise", "statement": "form_factor of each two-meson class returns for an array of energies the list of the values for each energy alone, zero below threshold, whatever the order and the other elements.", "quantifier": "all arrays, couplings, fit data and channels", "why_tests_cant": "position dependence shows only when elements are compared across arrays", "anchors": ["hazma/form_factors/vector/_k_k.py:367-447", "hazma/form_factors/vector/_pi_pi.py:148-225", "hazma/form_factors/vector/_two_body.py"]}
{"id": "C153", "title": "Scalar and array calls of form factors agree", "statement": "form_factor, integrated_form_factor and width of each two-meson class return for a scalar the element they return for an array holding only that scalar, and the width is half the mass times the integrated form factor.", "quantifier": "all energies, couplings, fit data and channels", "why_tests_cant": "two code paths for every energy and class", "anchors": ["hazma/form_factors/vector/_pi_gamma.py:186-197", "hazma/form_factors/vector/_base.py:100-206", "hazma/form_factors/vector/_eta_omega.py", "hazma/form_factors/vector/_eta_phi.py", "hazma/form_factors/vector/_pi_omega.py", "hazma/form_factors/vector/_pi_phi.py"]}
{"id": "C154", "title": "Quark couplings enter form factors linearly and by flavour", "statement": "Each two-meson form factor is linear in (gvuu, gvdd, gvss), widths are quadratic in a common factor, isovector final states depend on gvuu - gvdd only, eta omega on gvuu + gvdd only, eta phi on gvss only, and exchanging up and down exchanges charged and neutral kaons when gvss = 0.", "quantifier": "all couplings, energies and fit data", "why_tests_cant": "identities over continuous couplings and arbitrary arrays", "anchors": ["hazma/form_factors/vector/_pi_pi.py:148-184", "hazma/form_factors/vector/_k_k.py:367-447", "hazma/form_factors/vector/_eta_omega.py", "hazma/form_factors/vector/_eta_phi.py"]}
{"id": "C155", "title": "The electromagnetic coupling runs", "statement": "alpha_em(s) returns the Thomson value for |s| < 1e-6 GeV^2 and the value with vacuum polarisation above, for timelike and spacelike s.", "quantifier": "all real s", "why_tests_cant": "the domain is continuous and split by thresholds", "anchors": ["hazma/form_factors/vector/_alpha.py:50-89"]}
{"id": "C156", "title": "Two-body spectra use the right particles and energies", "statement": "The GeV mediator's photon, positron and neutrino spectra of a two-body final state are zero below threshold and otherwise the sum over both particles of the particle's decay spectrum at the energy fixed by energy and momentum conservation, plus for photons the radiation of each charged particle.", "quantifier": "all energies, decay spectra and the ten two-body final states", "why_tests_cant": "every final state and energy, two near-identical modules", "anchors": ["hazma/vector_mediator/_gev/spectra.py:91-361", "hazma/vector_mediator/_gev/positron.py:84-382", "hazma/vector_mediator/_gev/neutrino.py:91-447"]}
{"id": "C157", "title": "Line energies follow from recoil kinematics", "statement": "gamma_ray_lines of the GeV mediator reports the energy of a photon recoiling against the pion or eta, consistent with the meson energy used in the continuum spectrum; neutrino lines carry half the energy under the name of the requested flavour, and unknown flavours raise.", "quantifier": "all energies and flavour strings", "why_tests_cant": "agreement of independently written formulas for every energy", "anchors": ["hazma/vector_mediator/_gev/model.py:965-992", "hazma/vector_mediator/_gev/spectra.py:235-282"]}
{"id": "C158", "title": "Three- and four-meson spectra use each particle's own energy distribution", "statement": "In the GeV mediator's spectra of three and four mesons, each particle's decay spectrum is averaged over the energy distribution the form factor gives for that particle.", "quantifier": "all decay spectra, distributions and energies, ten final states", "why_tests_cant": "positions of lists in different modules must match for every final state", "anchors": ["hazma/vector_mediator/_gev/spectra.py:74-88", "hazma/vector_mediator/_gev/spectra.py:422-753", "hazma/vector_mediator/_gev/positron.py:413-848", "hazma/vector_mediator/_gev/neutrino.py:481-948", "hazma/form_factors/vector/_pi_k_k.py:592-680"]}
{"id": "C159", "title": "Every unstable particle of a multi-meson final state contributes", "statement": "Above threshold, the eta, eta prime or omega of a final state with two pions, and each of four pions, contribute their decay products to the spectrum.", "quantifier": "all energies above threshold and all distributions within the kinematic limits", "why_tests_cant": "a statement about whole ranges of energy", "anchors": ["hazma/vector_mediator/_gev/spectra.py:467-640", "hazma/vector_mediator/_gev/spectra.py:671-711", "hazma/vector_mediator/_gev/positron.py:413-848"]}
{"id": "C160", "title": "Radiation counts each charged meson once", "statement": "In three- and four-meson final states every charged meson radiates once, with the invariant mass of a pair of charged particles.", "quantifier": "all radiation functions, distributions and energies", "why_tests_cant": "counting must hold for every final state", "anchors": ["hazma/vector_mediator/_gev/spectra.py:455-464", "hazma/vector_mediator/_gev/spectra.py:695-751"]}
{"id": "C161", "title": "Two-pion-photon final state has an omega's decay products with weight one", "statement": "The spectrum of pi0 pi0 gamma contains the photon and the decay of the pion from the omega with weight one, since the final state already requires that decay.", "quantifier": "all energies above threshold", "why_tests_cant": "a weight inside a sum of boosted spectra", "anchors": ["hazma/vector_mediator/_gev/spectra.py:368-419"]}
{"id": "C162", "title": "Two-mediator spectra are weighted by branching fractions", "statement": "Annihilation into two mediators gives, above its threshold, the boosted decay products of both mediators weighted by the mediator's branching fractions, in photons, positrons and neutrinos.", "quantifier": "all mediator masses, energies and rest-frame spectra", "why_tests_cant": "whole ranges of energies and masses", "anchors": ["hazma/vector_mediator/_gev/spectra.py:756-845", "hazma/vector_mediator/_gev/positron.py:851-911", "hazma/vector_mediator/_gev/neutrino.py:951-1012"]}
{"id": "C163", "title": "The total neutrino spectrum is a spectrum", "statement": "total_neutrino_spectrum returns the sum over final states of branching fraction times spectrum.", "quantifier": "all final states, branching fractions and spectra", "why_tests_cant": "return type and value for every model", "anchors": ["hazma/vector_mediator/_gev/model.py:1028-1081"]}
{"id": "C164", "title": "Energy-resolution callbacks of every documented kind are understood", "statement": "A detector resolution may be a vectorised function, a constant, or a function of single floats that rejects arrays with ValueError or TypeError; in each case it is evaluated at every requested energy, and other failures are not swallowed.", "quantifier": "all callbacks and energy arrays", "why_tests_cant": "the callback is the user's; no list of callbacks covers the ways it may react to arrays", "anchors": ["hazma/parameters.py:398-417"]}
{"id": "C165", "title": "The detector response is a normalised Gaussian in the reconstructed energy", "statement": "spec_res_fn is non-negative, symmetric about the true energy, integrates to one over the reconstructed energy, has the true energy as mean and the true energy times the resolution as standard deviation; zero width carries no photons.", "quantifier": "all energies and resolutions", "why_tests_cant": "integrals over an unbounded variable for every energy and width", "anchors": ["hazma/parameters.py:420-451"]}
{"id": "C166", "title": "The grid of true energies resolves the response", "statement": "The grid used for the convolution is geometric between its end points, has at least n_pts and at most 200000 points, and unless the cap is reached its logarithmic step is a quarter of the finest resolution (up to N/(N-1)).", "quantifier": "all energy ranges, callbacks and numbers of points", "why_tests_cant": "ranges and resolutions are continuous; the number of points depends on both", "anchors": ["hazma/parameters.py:456-476"]}
{"id": "C167", "title": "Smearing conserves photons and energy", "statement": "The convolved spectrum contains, over all reconstructed energies, exactly the photons and the energy of the source on the grid and of the lines, with two photons for g g and one for any other line.", "quantifier": "all spectra, lines, resolutions and energy ranges", "why_tests_cant": "an integral identity for arbitrary functions", "anchors": ["hazma/parameters.py:479-541"]}
{"id": "C168", "title": "Smearing is linear and keeps the sign", "statement": "Scaling the source and the branching fractions scales the convolved spectrum; non-negative input gives non-negative output; no input gives zero.", "quantifier": "all spectra, lines, resolutions and factors", "why_tests_cant": "quantifies over functions", "anchors": ["hazma/parameters.py:479-541"]}
{"id": "C169", "title": "convert_sigmav understands the units it documents", "statement": "convert_sigmav converts to MeV^-2 and to cm^3/s, and the two conversions undo each other.", "quantifier": "all cross sections and unit strings", "why_tests_cant": "inverse relation for all numbers; silence on unknown strings", "anchors": ["hazma/parameters.py:354-376"]}
{"id": "C170", "title": "The Fisher matrix is an information matrix", "statement": "fisher returns a symmetric positive semi-definite matrix whose first parameter is the rate with fiducial value zero, followed by the parameters of the background, each once.", "quantifier": "all spectra, background models, effective areas, grids and observing times", "why_tests_cant": "definiteness for arbitrary functions", "anchors": ["hazma/theory/_theory_gamma_ray_limits.py:261-376"]}
{"id": "C171", "title": "Forecast limits scale as statistics demands and ignore the normalisation of nuisance parameters", "statement": "The Fisher limit on the rate scales as one over flux and square root of observing time, and does not change when background parameters are measured in other units or with the other sign.", "quantifier": "all models, factors, keys and significances", "why_tests_cant": "matrix inverses of any size for arbitrary functions", "anchors": ["hazma/theory/_theory_gamma_ray_limits.py:242-376"]}
{"id": "C172", "title": "FisherResults.limit gives the error of every parameter", "statement": "limit(sigma, key) is the forecast error of the parameter of that name, for the rate and for each background parameter.", "quantifier": "all models, targets and keys", "why_tests_cant": "compares two matrices of arbitrary size after inversion", "anchors": ["hazma/theory/_theory_gamma_ray_limits.py:246-258", "hazma/theory/_theory_gamma_ray_limits.py:345-365"]}
{"id": "C173", "title": "Nuisance parameters never strengthen a limit", "statement": "Leaving background parameters free gives a limit at least as weak as holding them fixed; the result is NaN exactly when the matrix is singular, for instance without signal.", "quantifier": "all models, grids, significances and keys", "why_tests_cant": "matrix inequality of arbitrary size", "anchors": ["hazma/theory/_theory_gamma_ray_limits.py:246-258", "hazma/theory/_theory_gamma_ray_limits.py:603-674"]}
{"id": "C174", "title": "fisher_limit and unbinned_limit agree in normalisation", "statement": "With a fixed background the Fisher limit is never weaker than the signal-to-noise limit of unbinned_limit for any choice of windows.", "quantifier": "all masses, targets, spectra, backgrounds, areas and windows, annihilation and decay", "why_tests_cant": "two independently coded prefactors; an inequality over all windows", "anchors": ["hazma/theory/_theory_gamma_ray_limits.py:141-170", "hazma/theory/_theory_gamma_ray_limits.py:479-601"]}
{"id": "C175", "title": "Background derivatives match the flux: galactic centre", "statement": "Each entry of derivatives of the galactic-centre background is the partial derivative of its flux with respect to the parameter of that name.", "quantifier": "all energies and parameters", "why_tests_cant": "derivatives at every point of a six-dimensional parameter space", "anchors": ["hazma/gamma_ray_parameters.py:1159-1226"]}
{"id": "C176", "title": "params reports the model's parameters", "statement": "params of the galactic-centre background maps every name to the parameter of that name.", "quantifier": "all parameter values", "why_tests_cant": "default values hide the difference", "anchors": ["hazma/gamma_ray_parameters.py:1147-1157"]}
{"id": "C177", "title": "Background derivatives match the flux: GECCO", "statement": "Each entry of derivatives of the GECCO background is the partial derivative of its flux, and its default flux is that of gecco_bg_model.", "quantifier": "all energies and parameters", "why_tests_cant": "derivatives at every point", "anchors": ["hazma/gamma_ray_parameters.py:33", "hazma/gamma_ray_parameters.py:1291-1328"]}
{"id": "C178", "title": "Background models return NaN outside their range", "statement": "BackgroundModel.dPhi_dEdOmega warns and returns NaN for energies outside e_range.", "quantifier": "all models and energies", "why_tests_cant": "all energies on both sides of the range", "anchors": ["hazma/background_model.py:35-66"]}
{"id": "C179", "title": "RelicDensityLimit returns the cross section on the relic-density curve", "statement": "If a number is returned it is sigma times vx, in cm^3/s, at 2 mx (1 + vx^2/2), of the model whose property lies between prop_min and prop_max and whose relic density is the observed one. The current value of the property does not matter. NaN is returned exactly when the root finder fails or a ValueError occurs.", "quantifier": "all models without hidden state, all brackets, scales and root finders", "why_tests_cant": "quantifies over every model and over every adaptive root finder", "anchors": ["hazma/limits/_relic_density.py:60-92"]}
{"id": "C180", "title": "A copy of a model is independent of the original", "statement": "Assigning attributes of copy.copy(model) and evaluating its widths does not change what the original returns.", "quantifier": "all VectorMediatorGeV models, all histories of assignments and evaluations of the copy, all channels", "why_tests_cant": "aliasing of a nested dictionary after arbitrary histories", "anchors": ["hazma/vector_mediator/_gev/model.py:178-204", "hazma/vector_mediator/_gev/model.py:290-331"]}
{"id": "C181", "title": "RelicDensityLimit does not change the caller's model", "statement": "After a limit was computed the model passed in has the same attributes and returns the same widths as before.", "quantifier": "all models, properties, brackets and root finders", "why_tests_cant": "aliasing through a shallow copy, for arbitrary search histories", "anchors": ["hazma/limits/_relic_density.py:72-92", "hazma/vector_mediator/_gev/model.py:178-204"]}
{"id": "C182", "title": "Relic-density limits of the GeV mediator describe one model", "statement": "The limit found by varying the dark matter coupling belongs to a model with that coupling: the widths used in the search are those of the value tried.", "quantifier": "all parameters, form factors and root finders", "why_tests_cant": "the order of evaluations decides the result", "anchors": ["hazma/limits/_relic_density.py:77-89", "hazma/vector_mediator/_gev/model.py:285-288"]}
{"id": "C183", "title": "PBH objects hold the tabulated spectrum of their mass", "statement": "The kind and bh_secondary select the table; the mass must be one of its masses, otherwise IndexError (an unknown kind: ValueError); the spectrum is the column of that mass in MeV and per MeV, with the number of photons unchanged by the conversion.", "quantifier": "all tables, masses, fractions and kinds", "why_tests_cant": "arbitrary tables, including repeated masses", "anchors": ["hazma/pbh.py:15-44", "hazma/pbh.py:49-93", "hazma/pbh.py:111-120"]}
{"id": "C184", "title": "PBH spectra do not depend on the fraction", "statement": "total_spectrum is the interpolated column for every positive f_pbh_dummy: the tabulated values at the tabulated energies, linear in between, zero outside.", "quantifier": "all objects, energies and fractions", "why_tests_cant": "all energies and all tables", "anchors": ["hazma/pbh.py:116-127", "hazma/theory/__init__.py:502-562"]}
{"id": "C185", "title": "The spectrum of a PBH is that of its mass", "statement": "After any assignments, failed ones included, the spectrum belongs to the mass reported by mx; kind and file cannot be changed.", "quantifier": "all histories of assignments", "why_tests_cant": "histories of any length with caught exceptions", "anchors": ["hazma/pbh.py:95-120"]}
{"id": "C186", "title": "PBH implements the interface of a decaying model", "statement": "list_decay_final_states lists the keys of the widths and spectra, and positron and photon lines and spectra can be evaluated.", "quantifier": "all objects and energies", "why_tests_cant": "abstract methods are not enforced at construction", "anchors": ["hazma/pbh.py:122-130", "hazma/theory/__init__.py:449-480"]}
{"id": "C187", "title": "The level of a panel counts its bisections", "statement": "In every state of the integrator with break points a panel of level k is one of the 2^k equal parts of one of the initial panels.", "quantifier": "all integrands, limits, break points and states visited", "why_tests_cant": "an invariant of a loop with data-dependent branching, for all integrands", "anchors": ["rust/src/quad.rs:1164-1185", "rust/src/quad.rs:1268-1354"]}
{"id": "C188", "title": "Leptonic widths of the right-handed neutrino respect lepton flavour", "statement": "width_v_l_l is zero for final states that violate lepton flavour, and does not depend on the order in which the two charged leptons are named.", "quantifier": "all masses, mixing angles and all 81 combinations of generations", "why_tests_cant": "all masses; the property concerns final states no test asks for", "anchors": ["hazma/rh_neutrino/_widths.py:698-734", "hazma/rh_neutrino/_widths.py:564-576"]}
{"id": "C189", "title": "Tabulated photon spectra: boosted table plus one box per line", "statement": "dnde_photon_{charged_kaon,long_kaon,short_kaon,eta,eta_prime,omega,phi} return zero below threshold, the interpolated table with its 1/E tail at rest, and in flight the boosted table plus boxes that together hold the sum of the weights of the lines; no real parent energy raises.", "quantifier": "all tables with positive increasing energies, all lines, parent and photon energies", "why_tests_cant": "continuous inputs; the number of photons in the lines is an integral", "anchors": ["rust/src/kernels/photon_tables.rs:189-245", "rust/src/kernels/photon_tables.rs:419-471", "rust/src/photon.rs:47-60"]}
{"id": "C190", "title": "Tabulated photon spectra are non-negative", "statement": "For every parent and photon energy the tabulated spectra are non-negative and do not panic.", "quantifier": "all tables with non-negative values, all lines, parent and photon energies", "why_tests_cant": "continuous inputs; depends on the index arithmetic of the boost integral for every table", "anchors": ["rust/src/kernels/photon_tables.rs:447-471", "rust/src/boost.rs:254-375"]}
{"id": "C191", "title": "Photon lines lie at the two-body energy", "statement": "A line X -> Y gamma lies at the energy at which photon and recoiling Y share the mass of X, so no photon is emitted beyond the kinematic endpoint of the boosted decay.", "quantifier": "all parent and photon energies", "why_tests_cant": "the endpoint condition is over all energies", "anchors": ["rust/src/kernels/photon_tables.rs:105-135"]}
{"id": "C192", "title": "Photon lines carry the photons of their mode", "statement": "The integral of a line over energy is the branching ratio times the number of photons of the mode.", "quantifier": "all parent energies", "why_tests_cant": "an integral over all photon energies, for every boost", "anchors": ["rust/src/kernels/photon_tables.rs:90-102", "rust/src/kernels/photon_tables.rs:283-363"]}
{"id": "C193", "title": "No monochromatic photon is lost", "statement": "Every two-body mode with a photon among the columns of a table has a line, and lines contribute at every parent energy.", "quantifier": "all seven parents, all parent energies and lines", "why_tests_cant": "concerns contributions that are absent, which no comparison with stored values can show", "anchors": ["rust/src/kernels/photon_tables.rs:279-363", "rust/src/kernels/photon_tables.rs:447-471", "hazma/spectra/_photon/data/phi_photon.csv:1", "hazma/spectra/_photon/data/eta_prime_photon.csv:1"]}
{"id": "C194", "title": "spence is the dilogarithm on the whole half line", "statement": "For every x >= 0 spence(x) is Li2(1-x) to within 3e-16 (6e-16*|x-1| near 1), through the direct, reflected, inverted and doubly mapped branches; negative arguments give NaN.", "quantifier": "all real arguments", "why_tests_cant": "an error bound for a rational approximation over a continuum; tests compare points", "anchors": ["rust/src/special.rs:65-99", "rust/src/special.rs:146-198"]}
{"id": "C195", "title": "bessel_kn is the modified Bessel function of every integer order", "statement": "bessel_kn(n, x) is the integral of exp(-x cosh t) cosh(nt) over t > 0 for every integer n and x > 0, +infinity at 0 and NaN below.", "quantifier": "all integer orders and real arguments", "why_tests_cant": "an induction over the order and an identity of integrals for all x", "anchors": ["rust/src/special.rs:260-290"]}
{"id": "C196", "title": "Boosting a spectrum conserves the number of particles", "statement": "The function made by make_boost_function gives the superposition of the boosted lines of the rest-frame spectrum; its integral over the lab energy is the rest-frame number of particles, its first moment is the Lorentz factor times the rest-frame energy; it is non-negative and ends at the boosted end point.", "quantifier": "all integrable spectra, masses, velocities and energies", "why_tests_cant": "integrals over all lab energies, for every spectrum", "anchors": ["hazma/spectra/boost.py:233-367", "hazma/spectra/boost.py:370-409"]}
{"id": "C197", "title": "Unphysical velocities give zeros", "statement": "For a velocity outside [0, 1] the boosted spectrum is zero at every energy.", "quantifier": "all velocities outside [0, 1], all spectra", "why_tests_cant": "the order of the tests decides for a half line of inputs", "anchors": ["hazma/spectra/boost.py:280-293"]}
{"id": "C198", "title": "A boost at rest is the spectrum itself", "statement": "As the velocity reaches zero the boosted function returns the spectrum with the same extra arguments as at any other velocity.", "quantifier": "all spectra, extra arguments and velocities below the machine epsilon", "why_tests_cant": "about every spectrum with extra arguments", "anchors": ["hazma/spectra/boost.py:286-287", "hazma/spectra/boost.py:314-365"]}
{"id": "C199", "title": "Marginalising over the centre-of-mass energy is an average", "statement": "For non-negative probabilities the marginalised spectrum lies between the smallest and largest spectrum times the total probability, for the documented methods and default arguments.", "quantifier": "all spectra, energies, probabilities and lengths", "why_tests_cant": "a bound for all inputs; the failures depend on the number of energies", "anchors": ["hazma/spectra/convolve.py:17-78", "hazma/spectra/convolve.py:81-124"]}
{"id": "C200", "title": "Cross-section kernels divide correctly and raise exactly when they must", "statement": "complex_quotient_real_denominator(a, c) is a/c for all finite a and finite non-zero c, subnormal or not, and an error in every other case; scalbn multiplies by a power of two and ilogb reads the binary exponent off the bits.", "quantifier": "all doubles", "why_tests_cant": "2^128 pairs of doubles", "anchors": ["rust/src/kernels/soft_complex.rs:57-104", "rust/src/kernels/soft_complex.rs:149-200"]}
{"id": "C201", "title": "The three-halves power is t*sqrt(t)", "statement": "soft_complex_pow_1_5(t) equals t*sqrt(t) for every t >= 0, zero included, and is NaN below zero.", "quantifier": "all real arguments", "why_tests_cant": "an identity of real functions", "anchors": ["rust/src/kernels/soft_complex.rs:121-123"]}
{"id": "C202", "title": "In-flight spectra of tabulated meson decays are the isotropic boost of the table", "statement": "For every meson function of dnde_positron and dnde_neutrino that reads a table, every parent in flight and every product energy, scalar or in an array, the value is the lab spectrum of the interpolated table: each rest-frame energy contributes its isotropically boosted line; neutrino rows are (e, mu, tau) with a vanishing tau row. For positrons the in-flight spectrum integrates to the integral of the interpolated table.", "quantifier": "all tables with increasing energies, all parent velocities in (0,1) above the rest-frame cut, all energies", "why_tests_cant": "Tests compare a few energies with stored values; the integral over a window and particle number for every velocity are not testable.", "anchors": ["hazma/spectra/_positron/_utils.py:31-111", "hazma/spectra/_neutrino/_utils.py:29-117", "hazma/spectra/_positron/__init__.py:101-361"]}
{"id": "C203", "title": "Tabulated positron spectra at rest reproduce the table and vanish outside it", "statement": "For a parent at rest the positron spectrum equals the tabulated value at each energy of the table, is non-negative wherever the table is, is zero below the electron mass and above the last energy, and the same for a scalar and an array of energies.", "quantifier": "all tables, all parents at rest, all energies", "why_tests_cant": "Extrapolation beyond the last row shows up only at energies no stored test vector contains.", "anchors": ["hazma/spectra/_positron/_utils.py:13-28", "hazma/spectra/_positron/_utils.py:40-44", "hazma/spectra/_positron/_utils.py:65-71"]}
{"id": "C204", "title": "Asking a tabulated meson for a neutrino flavour selects a row and keeps the shape of the energies", "statement": "For every meson, energy (scalar or array) and flavour in {e, mu, tau}: the result has the shape of the energy argument and equals the row of that flavour in the result without flavour; any other flavour name is an error.", "quantifier": "all energies, parent energies, flavour strings", "why_tests_cant": "Shapes for each kind of argument and all possible strings are not enumerated by tests.", "anchors": ["hazma/spectra/_neutrino/_utils.py:82-117"]}
{"id": "C205", "title": "Every tabulated decay mode conserves the charge of its parent", "statement": "In each table file read by the positron and neutrino spectra of mesons every column is a decay mode whose particles can have the total charge of the meson it is used for.", "quantifier": "all table files with named columns, all their columns, all assignments of signs", "why_tests_cant": "Unit tests compare with values computed from the same tables.", "anchors": ["hazma/spectra/_neutrino/__init__.py:17-34", "hazma/spectra/_neutrino/__init__.py:354-404", "hazma/spectra/_positron/__init__.py:18-25"]}
{"id": "C206", "title": "The FSR generator refuses exactly the arguments it cannot treat", "statement": "dnde_photon_fsr raises ValueError for fewer than two masses, RamboCMETooSmall when cme <= sum of the masses, ValueError for method 'quad' with more than two bodies, for unknown methods, for a Monte-Carlo run (also one chosen by 'auto') with npts not an integer >= 2, and for a non-positive non-radiative integral; every other call returns one value and one error per photon energy.", "quantifier": "all energies, masses, methods, npts, matrix elements and library results", "why_tests_cant": "The method resolution and the checks combine; tests try single bad arguments.", "anchors": ["hazma/spectra/_fsr.py:271-471"]}
{"id": "C207", "title": "FSR spectra vanish outside the kinematic range of the photon", "statement": "With either backend dnde_photon_fsr and its error are exactly zero at photon energies <= 0 and >= (cme^2 - (sum m)^2)/(2 cme).", "quantifier": "all energies, non-negative masses, cme, matrix elements", "why_tests_cant": "A statement about every energy beyond the end point, for all mass lists.", "anchors": ["hazma/spectra/_fsr.py:194-268"]}
{"id": "C208", "title": "Constant factors common to the matrix elements cancel in FSR spectra", "statement": "Multiplying the radiative squared matrix element by a > 0 and the non-radiative one by b > 0 multiplies the spectrum and its error by a/b and changes no exception; in particular a common factor has no effect.", "quantifier": "all a, b > 0, all matrix elements, energies, masses, backends", "why_tests_cant": "Quantifies over matrix elements and factors.", "anchors": ["hazma/spectra/_fsr.py:148-191", "hazma/spectra/_fsr.py:439-471"]}
{"id": "C209", "title": "The FSR generator evaluates matrix elements on physical events only", "statement": "dnde_photon_fsr depends only on the radiative matrix element at momenta with all particles on shell, a massless photon of the requested centre-of-mass energy and total invariant mass cme, and on the non-radiative one at on-shell momenta with total (cme, 0, 0, 0).", "quantifier": "all matrix elements that agree on physical events, all energies, masses, backends", "why_tests_cant": "Quantifies over pairs of functions; a test cannot see unphysical evaluation points of a particular matrix element.", "anchors": ["hazma/spectra/_fsr.py:129-145", "hazma/spectra/_fsr.py:194-268"]}
{"id": "C210", "title": "The FSR spectrum is the photon's energy distribution in three-body phase space", "statement": "For a two-body final state dnde_photon_fsr equals the photon energy distribution of the three-body phase space (m1, m2, 0) weighted with the radiative matrix element, over the non-radiative phase-space integral; its integral over photon energies is the ratio of the three-body and two-body integrals. For constant matrix elements both backends give the same.", "quantifier": "all masses, cme above threshold, photon energies, continuous Lorentz-invariant matrix elements", "why_tests_cant": "Equality of integrals over different variables for arbitrary matrix elements.", "anchors": ["hazma/spectra/_fsr.py:85-126", "hazma/spectra/_fsr.py:148-268"]}
{"id": "C211", "title": "Elastic cross sections of the scalar model are continuous at e = 2 mx", "statement": "sigma_xl_to_xl, sigma_xpi_to_xpi, sigma_xpi0_to_xpi0, sigma_xg_to_xg and sigma_xs_to_xs have at e_cm = 2 mx, where their closed forms are 0/0, the value to which they tend.", "quantifier": "all masses with the target lighter than dark matter, couplings, widths", "why_tests_cant": "A limit; floating point cannot approach it because the closed forms cancel there.", "anchors": ["rust/src/kernels/scalar_xs.rs:397-440", "rust/src/kernels/scalar_xs.rs:450-714", "rust/src/kernels/scalar_xs.rs:726-775", "rust/src/kernels/scalar_xs.rs:784-840"]}
{"id": "C212", "title": "Elastic scattering off pions and photons has a non-negative cross section", "statement": "sigma_xpi_to_xpi, sigma_xpi0_to_xpi0 and sigma_xg_to_xg are means of non-negative squared amplitudes over momentum transfers, hence non-negative at all energies and zero below threshold; charged pions count twice.", "quantifier": "all energies, masses, couplings, widths", "why_tests_cant": "Positivity of a cancelling closed form over a continuum.", "anchors": ["rust/src/kernels/scalar_xs.rs:450-775"]}
{"id": "C213", "title": "Elastic scattering off mediators has a non-negative cross section", "statement": "sigma_xs_to_xs is non-negative at every energy and zero below mx + ms.", "quantifier": "all energies, masses, couplings", "why_tests_cant": "Continuum of masses and energies.", "anchors": ["rust/src/kernels/scalar_xs.rs:784-840"]}
{"id": "C214", "title": "Elastic cross sections follow from annihilation by crossing", "statement": "The elastic cross section off pions and photons is the squared amplitude of the annihilation cross section continued to momentum transfer t (spin averages adjusted), integrated over -lambda(s, mx^2, m^2)/s <= t <= 0 and divided by 16 pi lambda.", "quantifier": "all energies, masses, couplings", "why_tests_cant": "Relates integrals of different kernels for all parameters.", "anchors": ["rust/src/kernels/scalar_xs.rs:228-309", "rust/src/kernels/scalar_xs.rs:450-775"]}
{"id": "C215", "title": "The four-pion current is conserved and its square is never negative", "statement": "For VectorFormFactorPiPiPiPi and VectorFormFactorPiPiPi0Pi0 the hadronic current of any four pion momenta is orthogonal to their total momentum, and the squared matrix element behind widths, cross sections and distributions is non-negative, vanishing only where the current does or for gvuu = gvdd.", "quantifier": "all fit parameters, all couplings, all momenta of non-zero (positive) total invariant mass", "why_tests_cant": "An identity between sums of dozens of complex amplitudes over a 12-dimensional space.", "anchors": ["hazma/form_factors/vector/_pi_pi_pi_pi.py:398-579", "hazma/form_factors/vector/_pi_pi_pi_pi.py:620-661"]}
{"id": "C216", "title": "The four-charged-pion current has the symmetries of identical bosons and charge conjugation", "statement": "In VectorFormFactorPiPiPiPi, with particles ordered pi+ pi- pi+ pi-, the current is symmetric under exchange of the two positive pions and of the two negative ones and odd under exchanging every pi+ with a pi-.", "quantifier": "all fit parameters, all momenta", "why_tests_cant": "Symmetry for all momenta.", "anchors": ["hazma/form_factors/vector/_pi_pi_pi_pi.py:398-579"]}
{"id": "C217", "title": "The pi+ pi- pi0 pi0 current has the symmetries of identical bosons and charge conjugation", "statement": "In VectorFormFactorPiPiPi0Pi0, whose particles are pi+ pi- pi0 pi0 in the order of fsp_masses and of the returned distributions, the current is symmetric under exchange of the two neutral pions and odd under exchange of the charged ones.", "quantifier": "all fit parameters, all momenta", "why_tests_cant": "Symmetry for all momenta; the squared matrix element hides a wrong sign.", "anchors": ["hazma/form_factors/vector/_pi_pi_pi_pi.py:160-167", "hazma/form_factors/vector/_pi_pi_pi_pi.py:529-551", "hazma/form_factors/vector/_pi_pi_pi_pi.py:639-650", "hazma/vector_mediator/_gev/spectra.py:712-753"]}
{"id": "C218", "title": "The propagators of the four-pion current are finite and absorptive only above threshold", "statement": "The a1, f0, omega and rho propagators have no pole at positive squared momenta; rho propagators are real below the two-pion threshold and have positive imaginary part above, and the a1 has positive imaginary part where it can decay to three pions.", "quantifier": "all positive squared momenta, all masses above threshold and positive widths", "why_tests_cant": "A pole is a single point of a continuum.", "anchors": ["hazma/form_factors/vector/_pi_pi_pi_pi.py:200-392"]}
{"id": "C219", "title": "The four-pion current is a Lorentz vector", "statement": "Transforming the four momenta with any boost, rotation or reflection transforms the current with the same matrix and leaves the squared matrix element unchanged.", "quantifier": "all Lorentz transformations, fit parameters, couplings, momenta", "why_tests_cant": "A six-parameter group acting on a continuum.", "anchors": ["hazma/form_factors/vector/_pi_pi_pi_pi.py:398-661", "hazma/utils.py:191-261"]}
{"id": "C220", "title": "form_factor of the four-pion classes returns the hadronic current", "statement": "VectorFormFactorPiPiPiPi().form_factor(momenta) and VectorFormFactorPiPiPi0Pi0().form_factor(momenta) return the hadronic current of the given momenta.", "quantifier": "all arrays of shape (4, 4, n)", "why_tests_cant": "Quantifies over all array sizes.", "anchors": ["hazma/form_factors/vector/_pi_pi_pi_pi.py:597-618"]}
{"id": "C221", "title": "Every constructor argument of the four-pion classes is used", "statement": "Each of the parameters that can be passed to the constructors influences the stored fit data; in particular beta_b_rhos supplies the weights of the three-rho propagator.", "quantifier": "all argument values", "why_tests_cant": "A parameter that is ignored changes no test at default values.", "anchors": ["hazma/form_factors/vector/_pi_pi_pi_pi.py:116-194", "hazma/form_factors/vector/_pi_pi_pi_pi.py:364-378"]}
{"id": "C222", "title": "Widths and cross sections into four pions", "statement": "integrated_form_factor, width and cross_section vanish below the sum of the masses; above it, for every set of random numbers, integrated form factor and width are non-negative numbers; they depend on the couplings only through (gvuu - gvdd)^2; the cross section is the vector propagator and dark matter vertex times the width at the centre-of-mass energy.", "quantifier": "all energies, masses, couplings, fit parameters, random numbers", "why_tests_cant": "Monte-Carlo results for all random numbers.", "anchors": ["hazma/form_factors/vector/_pi_pi_pi_pi.py:663-871"]}
{"id": "C223", "title": "Fit parameters of the four-pion current act only through their own resonance", "statement": "Changing the weights of the a1, f0 or omega terms, of the propagators inside them or the photon-rho coupling changes nothing when the corresponding resonance coupling is zero; the excited rho masses and widths act only through those three terms.", "quantifier": "all fit parameters, modes and momenta", "why_tests_cant": "Independence of a function from an argument.", "anchors": ["hazma/form_factors/vector/_pi_pi_pi_pi.py:398-551"]}
{"id": "C224", "title": "The three-pion form factor is a number exactly on the kinematically allowed region", "statement": "VectorFormFactorPiPiPi0.form_factor(q, s, t) is not NaN if and only if each pair of pions has an invariant mass of at least the sum of its masses; in particular it is a number at the invariants of the momenta of any three pions.", "quantifier": "all energies, invariants, couplings, momenta; all fits with positive widths and rho masses above threshold", "why_tests_cant": "The boundary of a two-dimensional region.", "anchors": ["hazma/form_factors/vector/_pi_pi_pi0.py:153-314"]}
{"id": "C225", "title": "The three-pion form factor respects charge conjugation", "statement": "Exchanging the momenta of the positive and negative pion leaves the value of form_factor unchanged.", "quantifier": "all energies, invariants, couplings, fit parameters", "why_tests_cant": "A symmetry over a continuum.", "anchors": ["hazma/form_factors/vector/_pi_pi_pi0.py:153-314"]}
{"id": "C226", "title": "Three-meson form factors are linear in the quark couplings and respect isospin selection rules", "statement": "form_factor of a linear combination of couplings is the linear combination of form factors (so the shortcut for equal up and down couplings changes nothing); pi pi eta and pi pi eta' depend only on gvuu - gvdd; pi pi omega only on gvuu + gvdd; pi K K only on gvuu - gvdd and gvss.", "quantifier": "all couplings, energies, invariants, fit parameters", "why_tests_cant": "Linearity over all couplings.", "anchors": ["hazma/form_factors/vector/_pi_pi_pi0.py:213-266", "hazma/form_factors/vector/_pi_pi_eta.py:106-122", "hazma/form_factors/vector/_pi_pi_etap.py:118-129", "hazma/form_factors/vector/_pi_pi_omega.py:77-88", "hazma/form_factors/vector/_pi_k_k.py:136-159"]}
{"id": "C227", "title": "The eta form factors depend on ratios of amplitudes and differ by the mixing factor", "statement": "Multiplying all fitted amplitudes by a common non-zero factor changes neither the pi pi eta nor the pi pi eta' form factor; given the same fit the second is sqrt(2) times the first above the eta threshold.", "quantifier": "all factors, energies, invariants, couplings, fits", "why_tests_cant": "Invariance over a continuum of parameters.", "anchors": ["hazma/form_factors/vector/_pi_pi_eta.py:87-160", "hazma/form_factors/vector/_pi_pi_etap.py:99-161"]}
{"id": "C228", "title": "The eta form factors are numbers exactly for physical pion pairs", "statement": "At energies above the eta threshold, form_factor(q, s) of both classes is not NaN if and only if s is at least the squared sum of the pion masses.", "quantifier": "all energies above threshold, all s, couplings; all fits with positive masses and widths whose amplitudes do not cancel", "why_tests_cant": "The boundary of a region.", "anchors": ["hazma/form_factors/vector/_pi_pi_eta.py:87-160", "hazma/form_factors/vector/_pi_pi_etap.py:99-161"]}
{"id": "C229", "title": "The form factors of two pions and an eta or eta' vanish below threshold", "statement": "form_factor(q, s) returns zero whenever q is below the sum of the masses of the final state.", "quantifier": "all energies below threshold", "why_tests_cant": "A threshold over a continuum.", "anchors": ["hazma/form_factors/vector/_pi_pi_eta.py:154-155", "hazma/form_factors/vector/_pi_pi_etap.py:141-161"]}
{"id": "C230", "title": "The pi pi omega form factor of an array of energies is the array of form factors", "statement": "form_factor(q=array) returns an array whose entries are the form factors of the entries.", "quantifier": "all lengths and energies", "why_tests_cant": "Quantifies over array lengths.", "anchors": ["hazma/form_factors/vector/_pi_pi_omega.py:77-107"]}
{"id": "C231", "title": "Integrated pi pi omega form factors are phase-space integrals with a factor for identical pions", "statement": "integrated_form_factor is the three-body phase-space integral of the squared form factor times the polarisation sum, one half of it for two neutral pions, and zero up to threshold.", "quantifier": "all energies, couplings, fit parameters", "why_tests_cant": "An integral identity.", "anchors": ["hazma/form_factors/vector/_pi_pi_omega.py:119-137", "hazma/form_factors/vector/_three_body.py:804-873"]}
{"id": "C232", "title": "The form factors of a neutral pion and two kaons are symmetric in the kaons", "statement": "Exchanging the kaon and the antikaon leaves form_factor unchanged for the pi0 K0 K0bar and pi0 K+ K- final states, with s and t the documented invariants.", "quantifier": "all energies, invariants, couplings, fits", "why_tests_cant": "A symmetry over a continuum.", "anchors": ["hazma/form_factors/vector/_pi_k_k.py:188-213", "hazma/form_factors/vector/_pi_k_k.py:592-640"]}
{"id": "C233", "title": "Charge symmetry and isospin of the pion-kaon-kaon form factors", "statement": "With common masses, exchanging the up and down couplings turns the charged-kaon form factor into the neutral-kaon one, and the mixed one into itself with the kaons exchanged; the mixed form factor symmetrised in the kaons is the sum of the other two.", "quantifier": "all energies, invariants, couplings, fits, masses", "why_tests_cant": "Relations between functions on a continuum.", "anchors": ["hazma/form_factors/vector/_pi_k_k.py:136-176", "hazma/form_factors/vector/_pi_k_k.py:594-681"]}
{"id": "C234", "title": "Integrated three-meson form factors do not depend on the numeric type of the energy", "statement": "integrated_form_factor(q) gives the same number for an integer q as for the equal float.", "quantifier": "all integer energies, channels, couplings", "why_tests_cant": "All energies and couplings.", "anchors": ["hazma/form_factors/vector/_three_body.py:248-258", "hazma/form_factors/vector/_three_body.py:571-581", "hazma/form_factors/vector/_three_body.py:863-873"]}
{"id": "C235", "title": "Splitting a Monte-Carlo integration into batches does not change what is averaged", "statement": "Rambo.integrate(n, batch_size) returns the mean of the weights generated, NaN weights left out, whether or not they are generated in batches.", "quantifier": "all sequences of weights (NaN included), numbers of points, batch sizes", "why_tests_cant": "Every partition of every weight sequence.", "anchors": ["hazma/phase_space/_rambo.py:452-472", "hazma/phase_space/_rambo.py:333-344"]}
{"id": "C236", "title": "The reported Monte-Carlo error is the standard error of the mean", "statement": "The second value of Rambo.integrate is the standard error of its first value; it vanishes only if the weights do not vary.", "quantifier": "all sequences of weights (NaN included), numbers of points, batch sizes", "why_tests_cant": "Statement about a statistic for all samples and batch sizes; a seeded run only compares two numbers.", "anchors": ["hazma/phase_space/_rambo.py:452-472"]}
{"id": "C237", "title": "Massless phase space is integrated exactly", "statement": "For massless final states and a constant matrix element, Rambo.integrate returns the exact phase-space volume with error 0, and decay_width volume/(2 cme), for every seed, number of points and batch size of at least 2.", "quantifier": "all energies, numbers of particles, random draws, numbers of points and batch sizes", "why_tests_cant": "All seeds.", "anchors": ["hazma/phase_space/_rambo.py:259-283", "hazma/phase_space/_rambo.py:452-506"]}
{"id": "C238", "title": "Monte-Carlo estimates are linear in the matrix element, bounded by the weights, and carry the flux factor", "statement": "Scaling the squared matrix element by c >= 0 scales the integral and its error by c. The integral lies between the smallest and the largest weight. cross_section is the integral divided by 4 p cme above the threshold of the initial state and NaN below it.", "quantifier": "all weights, constants, batch sizes, initial masses", "why_tests_cant": "All weight sequences and all masses.", "anchors": ["hazma/phase_space/_rambo.py:452-546", "hazma/utils.py:164-188"]}
{"id": "C239", "title": "Distributions can be accumulated in batches", "statement": "energy_distributions and invariant_mass_distributions accept batch_size and return one distribution per particle or pair.", "quantifier": "all processes with at least two particles, numbers of points, bins, batch sizes", "why_tests_cant": "All processes and sizes; the failure needs the batch option.", "anchors": ["hazma/phase_space/_rambo.py:579-602", "hazma/phase_space/_rambo.py:638-675"]}
{"id": "C240", "title": "Generated distributions are normalised histograms", "statement": "The value of a distribution in a bin is the fraction of the weight inside the limits that falls into the bin, per unit of the observable; the bins integrate to one; each value inside the limits is counted in exactly one bin, the upper limit in the last.", "quantifier": "all observables, limits, numbers of bins, weights, events", "why_tests_cant": "All events and binnings.", "anchors": ["hazma/phase_space/_rambo.py:579-602", "hazma/phase_space/_dist.py:18-69"]}
{"id": "C241", "title": "Every generated event enters the distributions", "statement": "The total weight of the histograms of energy_distributions and invariant_mass_distributions is the total weight of the generated events.", "quantifier": "all processes, random draws, numbers of bins", "why_tests_cant": "Depends on the direction from which Newton's method converges, for every draw.", "anchors": ["hazma/phase_space/_rambo.py:199-257", "hazma/phase_space/_rambo.py:579-602", "hazma/phase_space/_utils.py:20-79"]}
{"id": "C242", "title": "Each pair's invariant-mass distribution is its own", "statement": "invariant_mass_distributions returns for every pair i < j the distribution of the invariant mass of particles i and j between the limits of that pair.", "quantifier": "all processes, pairs, events, numbers of bins", "why_tests_cant": "All multiplicities: the dictionary comprehension shadows its loop variable.", "anchors": ["hazma/phase_space/_rambo.py:638-675"]}
{"id": "C243", "title": "Annihilation into three pions through a vector mediator is a number at every open energy", "statement": "For a vector mediator with non-zero couplings and finite propagator, sigma_xx_to_v_to_pi0pipi(e_cm) and dsigma_ds_xx_to_v_to_pi0pipi(s, e_cm) return a non-negative number, without exception, for every energy above the threshold of the three pions and of the dark matter pair and every s in the open channel.", "quantifier": "all model parameters with live couplings, all energies above threshold, all invariant masses of the charged pair, any continuation of the quadrature after its first pass", "why_tests_cant": "The sign of a polynomial of degree eight over a two-dimensional region decides between a number and an AssertionError; the failing strip at 1 GeV is empty and at 400-500 MeV depends on where the quadrature puts its points.", "anchors": ["hazma/vector_mediator/_vector_mediator_cross_sections.py:262-337"]}
{"id": "C244", "title": "Three-pion channel: thresholds and couplings", "statement": "Both functions return exactly zero at or below the mass of the three pions and at or below twice the dark matter mass; the differential cross section is zero when the up and down couplings are opposite, and scales with the square of the dark matter coupling times the square of the common scale of the quark couplings.", "quantifier": "all energies, invariant masses and parameters", "why_tests_cant": "Equalities over all couplings and both sides of two thresholds.", "anchors": ["hazma/vector_mediator/_vector_mediator_cross_sections.py:262-337"]}
{"id": "C245", "title": "Spectra of the mediator models are evaluated energy by energy", "statement": "spectra(e_gams, e_cm) of ScalarMediator and VectorMediator on a float array returns, for every channel, the array of branching fraction times the number of photons of each energy (radiation plus decays of the final-state particles), and under total their sum over channels; the value at one energy does not depend on the other energies.", "quantifier": "all arrays including empty ones, all branching fractions, all single-particle spectra, live or dead mediator", "why_tests_cant": "All arrays and combinations of open channels; the exception needs an empty array.", "anchors": ["hazma/scalar_mediator/_scalar_mediator_spectra.py:14-102", "hazma/vector_mediator/_vector_mediator_spectra.py:14-140", "hazma/theory/__init__.py:152-209"]}
{"id": "C246", "title": "A single photon energy is accepted", "statement": "spectra and total_spectrum of both mediator models accept a float as documented and give the values of the array of length one.", "quantifier": "all energies, branching fractions and single-particle spectra", "why_tests_cant": "Which combinations of open channels raise is a statement about all 2^5 and 2^6 combinations.", "anchors": ["hazma/scalar_mediator/_scalar_mediator_spectra.py:14-102", "hazma/vector_mediator/_vector_mediator_spectra.py:14-140", "hazma/theory/__init__.py:152-209"]}
{"id": "C247", "title": "Lists of photon energies are treated as arrays", "statement": "spectra of both mediator models on a list of floats gives the dictionary of the array with the same energies.", "quantifier": "all lists, branching fractions and single-particle spectra", "why_tests_cant": "Depends on which channels are open.", "anchors": ["hazma/scalar_mediator/_scalar_mediator_spectra.py:14-102", "hazma/vector_mediator/_vector_mediator_spectra.py:14-140", "hazma/theory/__init__.py:152-209"]}
{"id": "C248", "title": "Parts of a channel's spectrum are selected by name", "statement": "For dnde_ee, dnde_mumu, dnde_pi0pi0, dnde_pipi, dnde_pi0g spectrum_type 'all' is the sum of 'fsr' and 'decay' and any other name raises ValueError; for dnde_ss and dnde_vv a mode selects the contribution of that name, and names that do not exist are rejected.", "quantifier": "all energies, arrays, kernels, lists of modes and mode strings", "why_tests_cant": "All names and lists of names.", "anchors": ["hazma/scalar_mediator/_scalar_mediator_spectra.py:14-102", "hazma/vector_mediator/_vector_mediator_spectra.py:14-140", "hazma/theory/__init__.py:152-209", "hazma/scalar_mediator/scalar_mediator_decay_spectrum.pyx:215-272", "hazma/vector_mediator/vector_mediator_decay_spectrum.pyx:115-227"]}
{"id": "C249", "title": "Forbidden three-body processes have no phase space", "statement": "For a centre-of-mass energy below the sum of the masses, ThreeBody.integrate returns (0, 0), invariant_mass_distributions raises ValueError as documented, and energy_distributions returns vanishing densities.", "quantifier": "all energies below threshold, masses, matrix elements, methods, bin numbers", "why_tests_cant": "The densities vanish for most closed processes; the others need one particle heavier than everything else together.", "anchors": ["hazma/phase_space/_three_body.py:277-322", "hazma/phase_space/_three_body.py:405-407", "hazma/phase_space/_three_body.py:494-570", "hazma/phase_space/_three_body.py:668-733"]}
{"id": "C250", "title": "Every documented integration method of ThreeBody is available", "statement": "integrate and energy_distributions accept 'quad' and 'rambo', invariant_mass_distributions accepts 'quad', 'trapz', 'simps' and 'rambo' at or above threshold, any other name raises ValueError.", "quantifier": "all processes, matrix elements, method strings, numbers of bins and points", "why_tests_cant": "All strings.", "anchors": ["hazma/phase_space/_three_body.py:494-733", "hazma/phase_space/_dist.py:46-69"]}
{"id": "C251", "title": "three_body_integrator selects the integration rule", "statement": "dnde_photon, dnde_positron and dnde_neutrino integrate three-body phase space with the rule named by three_body_integrator ('quad', 'trapz', 'simps' or 'rambo'), reject other names, and do not depend on it for other multiplicities.", "quantifier": "all final states, energies, matrix elements, names, spectra of the decaying particles", "why_tests_cant": "The rules differ by discretisation errors, so an ignored name looks like a small numerical agreement.", "anchors": ["hazma/spectra/_nbody.py:26-35", "hazma/spectra/_nbody.py:170-256", "hazma/spectra/_nbody.py:448-589", "hazma/phase_space/_three_body.py:182-223"]}
{"id": "C252", "title": "The spectrum does not depend on the variables of the matrix element", "statement": "A squared matrix element of s and t and the same one as a function of the momenta, each passed with its signature, give the same n-body spectrum with every integrator; undeclared or wrong signatures raise.", "quantifier": "all three-body final states above threshold, matrix elements, signatures, integrators", "why_tests_cant": "All matrix elements and combinations of signature and integrator.", "anchors": ["hazma/spectra/_nbody.py:170-256", "hazma/phase_space/_three_body.py:43-145", "hazma/phase_space/_rambo.py:337-344"]}
{"id": "C253", "title": "Two-body integrals accept matrix elements of the momenta", "statement": "TwoBody.integrate with msqrd_signature='momenta' evaluates the matrix element on physical momenta for every angle and gives the same as the matrix element in the cosine; without a matrix element it gives the flat result as with the other signature; below threshold the result is NaN.", "quantifier": "all energies, masses, matrix elements", "why_tests_cant": "All matrix elements and angles; the default only fails in one signature.", "anchors": ["hazma/phase_space/_two_body.py:16-71", "hazma/phase_space/_two_body.py:105-155"]}
{"id": "C254", "title": "Expectation values do not depend on the quadrature", "statement": "PhaseSpaceDistribution1D.expect gives the same value with method='quad' and method='trapz'.", "quantifier": "all distributions with increasing edges, all functions", "why_tests_cant": "All distributions and functions.", "anchors": ["hazma/phase_space/_dist.py:68", "hazma/phase_space/_dist.py:94-163"]}
{"id": "C255", "title": "Kernels inside mediator decays agree with hazma.spectra", "statement": "The muon and pion photon and positron kernels compiled into the mediators' decay spectra give the same value as dnde_photon and dnde_positron of hazma.spectra for the same particle and energies.", "quantifier": "all product and parent energies", "why_tests_cant": "Two independent implementations with their own constants; tests compare them at sampled energies and to finite accuracy.", "anchors": ["hazma/spectra/_photon/_muon.pyx:29-117", "hazma/spectra/_photon/_pion.pyx:34-161", "hazma/spectra/_positron/_muon.pyx:25-80", "hazma/spectra/_positron/_pion.pyx:18-66", "hazma/_utils/boost.pyx:60-113"]}
{"id": "C256", "title": "Photon tables of mediator decays reproduce the spectra", "statement": "The tabulated charged-pion and muon spectra used in mediator decays equal hazma.spectra at every point of the table, lie on the chord between neighbouring points, continue as 1/E below 0.1 MeV and vanish above half the mediator mass.", "quantifier": "all mediator masses above 0.2 MeV and all photon energies", "why_tests_cant": "The table depends continuously on the mediator mass; tests fix a few masses and energies.", "anchors": ["hazma/scalar_mediator/scalar_mediator_decay_spectrum.pyx:40-55", "hazma/vector_mediator/vector_mediator_decay_spectrum.pyx:27-58"]}
{"id": "C257", "title": "Mediator decays emit no photon beyond the kinematic limit", "statement": "dnde_ss and dnde_vv, through scalar_mediator_decay_spectrum and dnde_decay_v, are exactly zero for photon energies above E(1+beta)/2, for every selection of modes.", "quantifier": "all mediator energies, masses, branching fractions and modes", "why_tests_cant": "The spectrum is a sum of seven pieces with separate cut-offs, tables and constants; a sampled test cannot show that all of them stop.", "anchors": ["hazma/scalar_mediator/scalar_mediator_decay_spectrum.pyx:123-191", "hazma/vector_mediator/vector_mediator_decay_spectrum.pyx:115-227"]}
{"id": "C258", "title": "Scalar mediator decays use hazma.spectra for their products", "statement": "Restricted to mu mu or pi0 pi0, the decay spectrum of a moving scalar mediator is the isotropic boost of twice the branching fraction times the hazma.spectra spectrum of a particle of half the mediator mass; restricted to pi pi it is the boost of the tabulated one.", "quantifier": "all energies, masses and branching fractions", "why_tests_cant": "An identity between a nested integral and a separately compiled function at every energy.", "anchors": ["hazma/scalar_mediator/scalar_mediator_decay_spectrum.pyx:123-191,246-266"]}
{"id": "C259", "title": "Vector mediators decaying to a neutral pion and a photon show the pion's photons", "statement": "Whenever the decay to pi0 gamma is open, its spectrum contains the two photons of the neutral pion in addition to the line.", "quantifier": "all mediator masses above the pion mass", "why_tests_cant": "The failure is confined to a narrow range of masses just above threshold.", "anchors": ["hazma/vector_mediator/vector_mediator_decay_spectrum.pyx:150-161", "hazma/_utils/legacy_parameters.pxd:20", "hazma/_utils/constants.pxd:8"]}
{"id": "C260", "title": "Positron tables of mediator decays reproduce the spectra", "statement": "The tabulated charged-pion and muon positron spectra used in mediator decays equal hazma.spectra at every point of the table, lie on the chord in between, are non-negative, and vanish at or below the electron mass and from half the mediator mass on.", "quantifier": "all mediator masses above twice the electron mass and all positron energies", "why_tests_cant": "The table depends continuously on the mediator mass; outside its range np.interp repeats the end values, which must therefore be zero.", "anchors": ["hazma/scalar_mediator/scalar_mediator_positron_spec.pyx:57-99", "hazma/vector_mediator/vector_mediator_positron_spec.pyx:57-100"]}
{"id": "C261", "title": "Mediator decays emit positrons only in the physical range", "statement": "The positron spectrum of a moving mediator is non-negative, zero below the electron mass and zero above the largest energy of an electron from a two-body decay, for every final state.", "quantifier": "all mediator energies, masses, non-negative branching fractions and final states", "why_tests_cant": "Involves the whole chain of table, boost integral and box for a continuum of masses.", "anchors": ["hazma/scalar_mediator/scalar_mediator_positron_spec.pyx:106-215", "hazma/vector_mediator/vector_mediator_positron_spec.pyx:107-216"]}
{"id": "C262", "title": "The relic density and the reported total count the same channels", "statement": "For every scalar- and vector-mediator model and energy, the sum averaged by thermal_cross_section and the 'total' of annihilation_cross_sections are sums over the same six channels from the same kernels; they differ by the lepton terms only, which are evaluated with different lepton masses.", "quantifier": "all models and energies (for the vector model away from e_cm = 2 mx)", "why_tests_cant": "The two sums live in different languages and are never compared; a test would have to sample models and energies.", "anchors": ["rust/src/kernels/scalar_xs.rs:851-871", "rust/src/kernels/vector_xs.rs:379-401", "hazma/scalar_mediator/_scalar_mediator_cross_sections.py:472-480", "hazma/vector_mediator/_vector_mediator_cross_sections.py:339-347"]}
{"id": "C263", "title": "Models without lepton couplings average exactly the reported total", "statement": "If the mediator does not couple to leptons (HeavyQuark, QuarksOnly), thermal_cross_section(x) is the thermal average of annihilation_cross_sections(e_cm)['total'] for every x.", "quantifier": "all such models and all x", "why_tests_cant": "Equality of two integrals for all parameters.", "anchors": ["rust/src/kernels/scalar_xs.rs:851-961", "rust/src/kernels/vector_xs.rs:379-483", "hazma/theory/__init__.py:53-73"]}
{"id": "C264", "title": "The relic density averages the reported total", "statement": "thermal_cross_section averages annihilation_cross_sections(e_cm)['total'] for every model.", "quantifier": "all models and energies", "why_tests_cant": "The discrepancy is a part in ten million except in a 6 eV window, where it is the whole cross section.", "anchors": ["rust/src/kernels/vector_xs.rs:123-125,379-401", "rust/src/kernels/scalar_xs.rs:104-106,851-871", "hazma/parameters.py:50-52"]}
{"id": "C265", "title": "The relic density and the reported total agree to one part in ten million", "statement": "From twice the muon-pair threshold on, the cross section averaged in the relic density differs from the reported total by at most 1e-7 of the reported lepton cross sections.", "quantifier": "all scalar and vector models, all e_cm >= 4 m_mu", "why_tests_cant": "A bound uniform in all parameters.", "anchors": ["rust/src/kernels/vector_xs.rs:123-125,160-186,379-401", "rust/src/kernels/scalar_xs.rs:104-106,171-194,851-871"]}
{"id": "C266", "title": "Limit classes return one value per model, in order", "statement": "constrain(models) on a sequence returns an array with exactly one entry per model, entry i being the limit on model i; if a limit raises, the exception of the first failing model propagates and no array is returned.", "quantifier": "all limits, all sequences of models", "why_tests_cant": "Unbounded sequences; ordering and propagation are not sampled.", "anchors": ["hazma/limits/_abstract.py:26-45"]}
{"id": "C267", "title": "Limit classes accept an iterator over models", "statement": "As its docstring says, constrain takes an iterator over dark-matter models.", "quantifier": "all iterators", "why_tests_cant": "Concerns every object without a length.", "anchors": ["hazma/limits/_abstract.py:26-45"]}
{"id": "C268", "title": "Telescope limits evaluate the model's own binned limit", "statement": "ComptelLimit, EgretLimit, FermiLimit and IntegralLimit return, for each model, the model's binned_limit on the telescope's measurement with the significance and method given to the limit; an object without binned_limit is refused.", "quantifier": "all telescopes, significances, methods and sequences of models", "why_tests_cant": "Argument forwarding for all combinations.", "anchors": ["hazma/limits/_existing_telescope.py:7-75"]}
{"id": "C269", "title": "Telescope limits and binned_limit agree by default", "statement": "With default arguments, a telescope limit is the number the model's binned_limit returns for the same measurement.", "quantifier": "all models and measurements", "why_tests_cant": "Two defaults in different files; a test uses one of them.", "anchors": ["hazma/limits/_existing_telescope.py:12-16,28-29", "hazma/theory/_theory_gamma_ray_limits.py:436"]}
{"id": "C270", "title": "A composite constrainer reports every limit it holds", "statement": "The dictionary built by a CompositeConstrainer holds one entry per constrainer with that constrainer's values.", "quantifier": "all lists of constrainers and models", "why_tests_cant": "Unbounded lists; fails only for lists with repeated names.", "anchors": ["hazma/limits/_abstract.py:48-71"]}
{"id": "C271", "title": "Binned scans compare rates in the units of the limit", "statement": "A point of constrain_binned_gamma is reported as excluded only if its annihilation rate, in cm^3/s, exceeds the limit binned_limit returns for the same measurement (in cm^3/s).", "quantifier": "all measurements, models and velocities", "why_tests_cant": "A unit error scales every image; comparing signs needs the exact threshold.", "anchors": ["hazma/theory/_theory_constrain.py:117-130", "hazma/theory/_theory_gamma_ray_limits.py:404-477", "hazma/parameters.py:15-31"]}
{"id": "C272", "title": "No photon carries more than half of the energy", "statement": "spectra(e_gams, e_cm) of a mediator model is exactly zero, channel by channel and in total, for every photon energy above e_cm / 2.", "quantifier": "all couplings, masses, centre-of-mass energies and arrays of photon energies", "why_tests_cant": "Combines cross sections, widths, radiation formulas and tables with different constants; fails only in a narrow window.", "anchors": ["hazma/theory/__init__.py:152-188", "hazma/scalar_mediator/_scalar_mediator_spectra.py:14-100", "hazma/vector_mediator/_vector_mediator_spectra.py:14-130"]}
{"id": "C273", "title": "Spectra do not depend on the dark coupling below the mediator threshold", "statement": "Below the energies at which mediators can be produced, annihilation_branching_fractions and spectra are unchanged when the coupling of the mediator to dark matter or the mediator's width is changed.", "quantifier": "all models, all non-zero couplings, widths, energies and kinds of argument", "why_tests_cant": "Equality of two functions over a continuum of parameters.", "anchors": ["hazma/theory/__init__.py:75-96,152-188", "rust/src/kernels/scalar_xs.rs", "rust/src/kernels/vector_xs.rs"]}
{"id": "C274", "title": "Photon spectra of annihilation are never negative", "statement": "Every entry of spectra(e_gams, e_cm), and the total, is non-negative for every photon energy.", "quantifier": "all models, centre-of-mass energies and photon energies", "why_tests_cant": "Sign over a continuum; negative values occur only close to the endpoint.", "anchors": ["hazma/theory/__init__.py:152-188", "hazma/vector_mediator/_vector_mediator_spectra.py:14-130", "rust/src/kernels/photon_muon.rs"]}
{"id": "C275", "title": "Positron spectra of the scalar mediator are non-negative and bounded in energy", "statement": "Every entry of positron_spectra of a ScalarMediator is non-negative, and is zero below the electron's mass and above half of the centre-of-mass energy.", "quantifier": "all models, centre-of-mass energies and positron energies", "why_tests_cant": "Combines cross sections, widths, compiled spectra and boosted tables over a continuum.", "anchors": ["hazma/theory/__init__.py:323-352", "hazma/scalar_mediator/_scalar_mediator_positron_spectra.py:8-88"]}
{"id": "C276", "title": "Resonances of the four-pion form factor have running widths and unit normalisation", "statement": "In the four-pion form factors the f0 propagator has a width proportional to the velocity of its pions, rho-like propagators the p-wave width proportional to energy squared times velocity cubed, each equal to the nominal width on the resonance; the normalised combinations of rho states tend to one as the squared energy tends to zero.", "quantifier": "all squared energies above threshold, all masses, widths and weights", "why_tests_cant": "Shape of a complex function over a continuum of energies and parameters.", "anchors": ["hazma/form_factors/vector/_pi_pi_pi_pi.py:200-392"]}
{"id": "C277", "title": "Resonances of the three-meson form factors peak where they should", "statement": "On resonance every propagator used by the three-meson and pi pi omega form factors is purely imaginary with modulus mass over width, and a term with amplitude and phase contributes with that amplitude and phase.", "quantifier": "all masses, widths, amplitudes, phases and daughters lighter than the resonance", "why_tests_cant": "Identity over a continuum of resonance parameters.", "anchors": ["hazma/form_factors/vector/_pi_pi_pi0.py:153-170", "hazma/form_factors/vector/_pi_pi_eta.py:87-104", "hazma/form_factors/vector/_pi_pi_omega.py:77-107", "hazma/form_factors/vector/_utils.py:354-386"]}
{"id": "C278", "title": "The K* in a charged-kaon pair is the neutral one", "statement": "In the pi K K0 form factor the neutral K*, which decays to K+- pi-+, carries the amplitude of the neutral-kaon channel and the charged K* that of the charged channel.", "quantifier": "all couplings, energies and invariant masses", "why_tests_cant": "Distinguishing the two amplitudes needs isospin-violating couplings and both propagators over a continuum.", "anchors": ["hazma/form_factors/vector/_pi_k_k.py:592-681"]}
{"id": "C279", "title": "Self-scattering uses the amplitude of the Lagrangian", "statement": "The squared matrix element integrated by sigma_xx_to_s_to_xx and sigma_xx_to_v_to_xx is the spin-averaged square of the sum of the annihilation and exchange graphs with Breit-Wigner propagators.", "quantifier": "all masses, widths, couplings, energies and scattering angles", "why_tests_cant": "Two typed-in polynomials of degree eight; equality over a continuum in five variables.", "anchors": ["hazma/scalar_mediator/_scalar_mediator_cross_sections.py:219-261", "hazma/vector_mediator/_vector_mediator_cross_sections.py:207-249"]}
{"id": "C280", "title": "Annihilation into pairs of mediators is the tree-level cross section", "statement": "sigma_xx_to_ss and sigma_xx_to_vv equal one half of the phase-space integral over all angles of the spin-averaged squared amplitude of emitting two mediators in either order.", "quantifier": "all masses, couplings and energies above both thresholds", "why_tests_cant": "Closed forms with logarithms against an integral, over a continuum.", "anchors": ["rust/src/kernels/scalar_xs.rs:316-344", "rust/src/kernels/vector_xs.rs:317-352", "hazma/scalar_mediator/_scalar_mediator_cross_sections.py:149-187", "hazma/vector_mediator/_vector_mediator_cross_sections.py:140-182"]}
{"id": "C281", "title": "Annihilation into leptons is the tree-level cross section", "statement": "sigma_xx_to_s_to_ff and sigma_xx_to_v_to_ff equal the phase-space integral of the spin-averaged squared amplitude of the annihilation graph, with coupling gsff mf / vh (scalar) or gvff (vector) to the lepton.", "quantifier": "all masses, widths, couplings and energies above both thresholds", "why_tests_cant": "Equality over a continuum of parameters; wrong factors of two or powers of velocity stay plausible.", "anchors": ["rust/src/kernels/scalar_xs.rs:171-194", "rust/src/kernels/vector_xs.rs:160-186"]}
{"id": "C282", "title": "Fermionic widths are the tree-level widths", "statement": "width_s_to_xx, width_s_to_ff, width_v_to_xx and width_v_to_ff equal the two-body width computed from the spin sums of the decay amplitude.", "quantifier": "all masses and couplings above threshold", "why_tests_cant": "Equality over a continuum of parameters.", "anchors": ["hazma/scalar_mediator/_scalar_mediator_widths.py:98-147", "hazma/vector_mediator/_vector_mediator_widths.py:45-84"]}
{"id": "C283", "title": "Final-state radiation is tree-level QED", "statement": "The photon spectra dnde_xx_to_s_to_ffg, dnde_xx_to_s_to_pipig and their vector counterparts equal the width of mediator -> pair + photon, differential in the photon energy and computed from the Feynman rules, divided by the width of mediator -> pair.", "quantifier": "all final-state masses, centre-of-mass energies and photon energies inside the support", "why_tests_cant": "Closed forms with logarithms against spin sums and an angular integral, over a continuum.", "anchors": ["hazma/scalar_mediator/_scalar_mediator_fsr.py:7-104", "hazma/vector_mediator/_vector_mediator_fsr.py:11-132", "hazma/scalar_mediator/scalar_mediator_decay_spectrum.pyx:62-115", "hazma/vector_mediator/vector_mediator_decay_spectrum.pyx:61-110"]}
{"id": "C284", "title": "RH-neutrino matrix elements are those of the weak interaction", "statement": "The squared matrix elements of N -> nu l l, nu pi pi, l pi pi0 used for spectra, and the widths of the three-lepton channels, are those of the four-fermion interaction with the neutrino mixing u.", "quantifier": "all masses, mixings, generations, form factors and momenta", "why_tests_cant": "Equality of polynomials in the invariants with spin sums of chiral currents, over all momenta.", "anchors": ["hazma/rh_neutrino/_widths.py:229-261", "hazma/rh_neutrino/_widths.py:336-360", "hazma/rh_neutrino/_widths.py:436-450", "hazma/rh_neutrino/_widths.py:492-625", "hazma/rh_neutrino/_widths.py:815-836"]}
{"id": "C285", "title": "RH-neutrino widths into one meson are those of the weak interaction", "statement": "The widths of N -> nu P, l P, nu V, l V equal the two-body width computed from the chiral current and the decay constant of the meson, including the absolute normalisation.", "quantifier": "all masses, mixings and decay constants, open channels", "why_tests_cant": "A wrong constant in a width leaves every relative test intact.", "anchors": ["hazma/rh_neutrino/_widths.py:36-55", "hazma/rh_neutrino/_widths.py:82-126", "hazma/rh_neutrino/_widths.py:152-228", "hazma/parameters.py:308-316"]}
{"id": "C286", "title": "Muon-decay spectra are those of the weak interaction", "statement": "The positron, electron-neutrino and muon-neutrino spectra of a muon at rest are proportional, at every energy, to the energy distributions of mu -> e nu nu computed from two left-handed currents with a massive electron.", "quantifier": "all energies inside the support, all values of the Fermi constant", "why_tests_cant": "A distribution over a continuum against an integral over all kinematically possible momenta.", "anchors": ["rust/src/kernels/positron_muon.rs:99-112", "rust/src/kernels/neutrino_muon.rs:60-110"]}
{"id": "C287", "title": "Self-scattering cross sections carry the flux and phase-space factors", "statement": "sigma_xx_to_s_to_xx and sigma_xx_to_v_to_xx are zero at and below threshold and otherwise 1/(32 pi s) times the integral over the scattering angle, as the quadrature rule computes it, of the spin-averaged squared amplitude of elastic scattering.", "quantifier": "all couplings, masses, widths, energies and quadrature rules with nodes in [-1, 1]", "why_tests_cant": "The absolute normalisation of a cross section for all parameters; a factor of energy is invisible at a single energy.", "anchors": ["hazma/scalar_mediator/_scalar_mediator_cross_sections.py:188-270", "hazma/vector_mediator/_vector_mediator_cross_sections.py:183-258"]}
{"id": "C288", "title": "Python and compiled code use the same constants", "statement": "The couplings, masses and condensate behind the mediator widths (parameters.py) and behind the compiled cross sections and decay spectra are the same, so that a channel opens at the same energy in both.", "quantifier": "all constants entering the mediator models; all energies and dark matter masses at the pion thresholds", "why_tests_cant": "Kernels and Python code are each tested against references that use their own constants.", "anchors": ["hazma/parameters.py:50-87", "hazma/parameters.py:205-211", "rust/src/kernels/scalar_xs.rs:98-116", "rust/src/kernels/vector_xs.rs:120-140", "hazma/_utils/legacy_parameters.pxd:1-40", "hazma/scalar_mediator/_scalar_mediator_widths.py:59-95"]}
{"id": "C289", "title": "Elastic scattering off leptons is the tree-level cross section", "statement": "sigma_xl_to_xl equals the phase-space integral of the spin-averaged squared amplitude for exchange of the scalar between dark matter and a lepton with coupling gsff ml / vh, summed over the lepton's charges.", "quantifier": "all energies, masses, couplings, widths", "why_tests_cant": "Equality of a closed form with logarithms and arctangents with an integral of Dirac traces over all angles.", "anchors": ["hazma/scalar_mediator/_scalar_mediator_cross_sections.py:332-365", "rust/src/kernels/scalar_xs.rs:388-440"]}
{"id": "C290", "title": "Scattering off the scalar mediator is the tree-level cross section", "statement": "sigma_xs_to_xs equals the phase-space integral of the spin-averaged squared amplitude of the two graphs in which dark matter absorbs and emits a mediator.", "quantifier": "all energies, masses, couplings", "why_tests_cant": "Equality of a closed form with logarithms with an integral of Dirac traces over all angles.", "anchors": ["rust/src/kernels/scalar_xs.rs:784-840", "hazma/scalar_mediator/_scalar_mediator_cross_sections.py:395-425"]}
{"id": "C291", "title": "Hadronic channels of the vector mediator follow from its couplings to quarks", "statement": "Width and cross section into charged pions are those of a scalar particle of charge gvuu - gvdd; widths and cross sections into pi0 gamma and pi0 v are those of the anomaly, with strength 3 (q q' - r r') / (4 pi^2 fpi) for vectors that couple to up and down quarks with charges (q, r) and (q', r').", "quantifier": "all couplings, masses, widths, energies above threshold", "why_tests_cant": "Numerical factors common to a whole channel change no shape, ratio or threshold; tests against stored values repeat them.", "anchors": ["hazma/vector_mediator/_vector_mediator_widths.py:16-43", "rust/src/kernels/vector_xs.rs:198-320"]}
{"id": "C292", "title": "Photon and pion channels of the scalar mediator follow from its Lagrangian", "statement": "Widths and cross sections into two photons are those of the coupling alpha gsFF / (4 pi Lambda) s F^2, those into pions are those of the low-energy couplings (2 gsGG / 9 Lambda) s (d pi)^2 and -b0 (mu + md) (2 gsGG / 3 Lambda + gsff / vh) s pi^2 / 2, with one half for identical particles; the vacuum expectation value vs that enters them is zero in every model.", "quantifier": "all couplings, masses, widths, energies above threshold; every constructor call and every setter", "why_tests_cant": "The closed forms carry large numerical factors whose origin a test cannot see.", "anchors": ["hazma/scalar_mediator/_scalar_mediator_widths.py:13-95", "rust/src/kernels/scalar_xs.rs:201-309", "hazma/scalar_mediator/__init__.py:208-240"]}
{"id": "C293", "title": "Two-body channels of the GeV vector mediator follow from the Feynman rules", "statement": "For charged leptons, neutrinos, two pseudoscalars, a pseudoscalar and a photon, and a pseudoscalar and a vector meson, widths and cross sections of VectorMediatorGeV are those of the tree-level amplitude: Dirac leptons, left-handed neutrinos, and the form factor in place of the charge or the anomaly coupling.", "quantifier": "all couplings, masses, widths, form factors, energies above threshold", "why_tests_cant": "The formulas are built from generic pieces; a wrong factor in one piece rescales whole channels and all stored values with it.", "anchors": ["hazma/vector_mediator/_gev/cross_sections.py:111-235", "hazma/vector_mediator/_gev/model.py:634-700", "hazma/form_factors/vector/_two_body.py:38-132", "hazma/form_factors/vector/_base.py:133-206"]}
{"id": "C294", "title": "Photons of radiative pion decay are those of the weak amplitude", "statement": "dnde_pi_to_lnug, which enters the photon spectrum of charged pions for muon and electron, is the photon spectrum of pi -> l nu gamma per decay pi -> l nu: the squared amplitude of emission by the pion, by the lepton and from the weak vertex plus the vector and axial form factors, summed over spins and polarisations and integrated over all lepton energies for which there are momenta; zero where there are none.", "quantifier": "all photon energies, all lepton masses below the pion mass, all form factors", "why_tests_cant": "The closed form has a dozen coefficients and a logarithm; tests compare it with values stored from the same formula.", "anchors": ["hazma/spectra/_photon/_pion.pyx:34-62", "rust/src/kernels/photon_pion.rs:163-272", "rust/src/kernels/photon_pion.rs:295-318"]}
{"id": "C295", "title": "The thermal average of the relic density is an average over collisions", "statement": "thermal_cross_section(x) is the mean of cross section times relative (Moeller) velocity over pairs of particles whose momenta are drawn from two Maxwell-Boltzmann gases of temperature T = m/x.", "quantifier": "all cross sections (measurable, nonnegative), masses, x", "why_tests_cant": "The code evaluates a one-dimensional integral with Bessel functions; the mean is a six-dimensional integral over momenta which a test could only sample.", "anchors": ["hazma/relic_density/_thermal_functions.py:438-485", "rust/src/kernels/scalar_xs.rs:895-961", "rust/src/kernels/vector_xs.rs:413-483", "hazma/vector_mediator/_gev/thermal_cross_section.py:132-143"]}
{"id": "C296", "title": "The Altarelli-Parisi spectra are the collinear limit of the exact radiation spectra", "statement": "At fixed photon and centre-of-mass energy, as the mass of the radiating particles goes to zero, twice dnde_photon_ap_fermion (dnde_photon_ap_scalar) has ratio one to the exact spectra of mediator -> fermions (charged pions) + photon.", "quantifier": "all photon and centre-of-mass energies inside phase space, both mediators", "why_tests_cant": "A limit; at any fixed mass the two spectra differ, and a wrong splitting function or logarithm would pass a comparison with loose tolerance.", "anchors": ["hazma/spectra/altarelli_parisi.py:22-124", "hazma/scalar_mediator/_scalar_mediator_fsr.py", "hazma/vector_mediator/_vector_mediator_fsr.py"]}
{"id": "C297", "title": "RAMBO events average to the phase-space integral", "statement": "Averaged over its random numbers, the weighted events of Rambo.generate integrate every observable over Lorentz-invariant phase space, prod d^3p/((2 pi)^3 2E) (2 pi)^4 delta^4(P - sum p).", "quantifier": "all numbers of particles (two or more), masses, observables (measurable, nonnegative) and test functions of the energy", "why_tests_cant": "The events are random: a test can only compare sample means with known integrals within statistical error, for chosen observables.", "anchors": ["hazma/phase_space/_rambo.py:106-122", "hazma/phase_space/_rambo.py:124-157", "hazma/phase_space/_rambo.py:159-197", "hazma/phase_space/_rambo.py:240-283", "hazma/phase_space/_rambo.py:345-400"]}
{"id": "C298", "title": "TwoBody and ThreeBody integrate over Lorentz-invariant phase space", "statement": "ThreeBody.integrate with method quad and TwoBody.integrate give the integral of the squared matrix element over Lorentz-invariant phase space, prod d^3p/((2 pi)^3 2E) (2 pi)^4 delta^4(P - sum p), with s and t the squared invariant masses of particles 2, 3 and 1, 3.", "quantifier": "all masses, continuous squared matrix elements and test functions of the centre-of-mass energy", "why_tests_cant": "The code integrates over two scaled energies between hand-derived limits with a prefactor; the definition is an integral over momenta with delta functions.", "anchors": ["hazma/phase_space/_three_body.py:277-322", "hazma/phase_space/_three_body.py:427-463", "hazma/phase_space/_two_body.py:129-140"]}
{"id": "C299", "title": "Monte Carlo and quadrature integrate the same three-body phase space", "statement": "The expectation of weight times squared matrix element over RAMBO events of three particles equals ThreeBody.integrate with method quad.", "quantifier": "all masses, continuous squared matrix elements of the Mandelstam variables, almost all centre-of-mass energies", "why_tests_cant": "One side is random; a test can only compare within statistical errors at sampled energies and masses.", "anchors": ["hazma/phase_space/_rambo.py:345-400", "hazma/phase_space/_three_body.py:427-463", "hazma/phase_space/_three_body.py:465-500"]}
{"id": "C300", "title": "Value and error of a Monte Carlo phase-space integral are unbiased", "statement": "Over the random numbers, the value Rambo.integrate returns has the phase-space integral (the mean of weight times squared matrix element) as its expectation, and the square of the error it returns has the variance of the value as its expectation, with and without batches.", "quantifier": "all numbers of points and batch sizes of at least two, all square-integrable weights", "why_tests_cant": "Expectations over random numbers cannot be computed by running the code; a biased error estimate looks like any other random number.", "anchors": ["hazma/phase_space/_rambo.py:453-472", "hazma/phase_space/_rambo.py:345-400"]}
{"id": "C301", "title": "A Monte Carlo phase-space integral converges and its error is a standard deviation", "statement": "As n grows the value of Rambo.integrate converges almost surely to the phase-space integral, its error to zero, and the probability that the integral lies within z errors of the value tends to the probability of z standard deviations of a Gaussian, with and without batches.", "quantifier": "all z, batch sizes of at least two and square-integrable weights", "why_tests_cant": "A statement about limits and probabilities over all sequences of random numbers; a test sees a few seeds.", "anchors": ["hazma/phase_space/_rambo.py:453-472", "hazma/phase_space/_rambo.py:345-400"]}
{"id": "C302", "title": "Energy and invariant-mass distributions are densities of Lorentz-invariant phase space", "statement": "ThreeBody.energy_distributions and invariant_mass_distributions (method quad) sample, at the centres of equal bins over the physical range, the density of each particle's energy and of each pair's invariant mass in phase space weighted with the squared matrix element.", "quantifier": "all masses, continuous squared matrix elements, particles, pairs and test functions", "why_tests_cant": "The code integrates over one scaled energy with hand-derived limits and a Jacobian; the definition is a marginal of an integral over momenta with delta functions.", "anchors": ["hazma/phase_space/_three_body.py:324-425", "hazma/phase_space/_three_body.py:548-570", "hazma/phase_space/_three_body.py:628-655"]}
{"id": "C303", "title": "Decay products of the mediators are weighted with their branching fractions", "statement": "In spectra() the photons of 's s', 'v v' and 'pi0 v' are those of mediators in flight whose decays into e e, mu mu, pi pi, pi0 pi0 or pi0 g and g g are weighted with the partial width of that final state over the total width.", "quantifier": "all models with a nonzero width, photon energies and centre-of-mass energies above threshold", "why_tests_cant": "The weights travel through positional arrays; a permutation or a missing normalisation changes spectra without any error.", "anchors": ["hazma/scalar_mediator/_scalar_mediator_spectra.py:68-83", "hazma/vector_mediator/_vector_mediator_spectra.py:79-115", "hazma/scalar_mediator/scalar_mediator_decay_spectrum.pyx:123-191", "hazma/vector_mediator/vector_mediator_decay_spectrum.pyx:115-227"]}
{"id": "C304", "title": "The GeV model gives every final state its own spectrum and branching fraction", "statement": "total_spectrum, total_positron_spectrum and total_neutrino_spectrum of VectorMediatorGeV are the sums over all 25 annihilation final states of that state's branching fraction times that state's own spectrum, zero for neutrinos; no state is missing, raises KeyError or is paired with another state's function. The photons of 'v v' are twice those of a mediator whose decay products are weighted with partial over total width.", "quantifier": "all cross sections, spectra, energies and widths with a nonzero sum", "why_tests_cant": "Four long hand-written dictionaries have to agree key by key and function by function.", "anchors": ["hazma/vector_mediator/_gev/cross_sections.py:517-546", "hazma/vector_mediator/_gev/spectra.py:756-815", "hazma/vector_mediator/_gev/spectra.py:847-897", "hazma/vector_mediator/_gev/positron.py:947-993", "hazma/vector_mediator/_gev/neutrino.py:1049-1095", "hazma/vector_mediator/_gev/model.py:879-954", "hazma/theory/__init__.py:131-188"]}
{"id": "C305", "title": "list_annihilation_final_states lists exactly the possible final states", "statement": "Every name in list_annihilation_final_states() is a key of annihilation_cross_section_funcs(), and a key that is not listed has a cross section that vanishes at every energy, for ScalarMediator, HiggsPortal, HeavyQuark, VectorMediator, KineticMixing, QuarksOnly and VectorMediatorGeV, after any history of parameter assignments.", "quantifier": "all parameters, histories of assignments, energies and final states", "why_tests_cant": "The restricted models rely on couplings staying zero under every sequence of assignments.", "anchors": ["hazma/scalar_mediator/__init__.py:273-283", "hazma/scalar_mediator/__init__.py:404-406", "hazma/vector_mediator/__init__.py:164-174", "hazma/vector_mediator/__init__.py:307-309", "hazma/vector_mediator/_gev/model.py:879-954"]}
{"id": "C306", "title": "Boosted spectra are Lorentz transformations of isotropic decays", "statement": "If particles leave a parent at rest with a given energy spectrum and in all directions alike, the energies seen when the parent moves with velocity v are distributed as boost_delta_function (a line), dnde_boost and the function made by make_boost_function (a spectrum), dnde_positron_muon and dnde_neutrino_muon at the muon's energy, dnde_photon_neutral_pion and the angular integrals of the mediator decays say.", "quantifier": "all velocity or momentum vectors of the parent, masses, rest-frame spectra and test functions of the energy", "why_tests_cant": "The functions are one-dimensional integrals with limits and Jacobians derived by hand, or closed forms of them; the definition is an integral over energies and the sphere of directions.", "anchors": ["hazma/spectra/boost.py:94-140", "hazma/spectra/boost.py:233-409", "rust/src/boost.rs:167-183", "rust/src/kernels/positron_muon.rs", "rust/src/kernels/neutrino_muon.rs", "rust/src/kernels/photon_pion.rs", "hazma/scalar_mediator/scalar_mediator_decay_spectrum.pyx:123-191"]}
{"id": "C307", "title": "solid_angle_cone is the area of a cap of the sky", "statement": "solid_angle_cone(radius) is the area of the part of the unit sphere within radius degrees of any direction; it is 2 pi for 90 and 4 pi for 180 degrees.", "quantifier": "all directions and radii from 0 to 180 degrees", "why_tests_cant": "The area is an integral over a two-dimensional surface.", "anchors": ["hazma/gamma_ray_parameters.py:42-56"]}
{"id": "C308", "title": "Pion spectra are those of the decay chain", "statement": "dnde_positron_charged_pion and dnde_neutrino_charged_pion at the energy of a pion of momentum P are the laboratory energy distributions of the chain: the pion emits a muon of speed (mpi^2-mmu^2)/(mpi^2+mmu^2) in a random direction, the muon, in its own rest frame, emits the positron or neutrino in a random direction with the spectrum dnde_positron_muon or dnde_neutrino_muon gives at rest, and the momentum is transformed into the pion frame and then into the laboratory by Lorentz boosts; plus the prompt line with its branching fraction.", "quantifier": "all momentum vectors of the pion with an energy above its mass by at least 2.2e-16 MeV, and all measurable test functions of the energy", "why_tests_cant": "Two successive boosts in different directions: an integral over two spheres and an energy, which the code replaces by two nested one-dimensional boosts.", "anchors": ["rust/src/kernels/positron_pion.rs:141-185", "rust/src/kernels/neutrino_pion.rs", "rust/src/boost.rs:167-183"]}
{"id": "C309", "title": "Photon spectra of muons, pions and rho mesons are those of their decay chains", "statement": "dnde_photon_muon, dnde_photon_charged_pion, dnde_photon_neutral_rho and dnde_photon_charged_rho at the energy of a particle of momentum P are the laboratory energy distributions of photons emitted isotropically in the rest frame of the radiating particle, which itself leaves its mother isotropically with the two-body speed: a muon from the pion (weighted with its branching fraction, plus the pion's own radiative decays), two charged pions from the neutral rho, a charged and a neutral pion from the charged rho.", "quantifier": "all momentum vectors of the moving particle and all measurable test functions of the photon energy, including those for which the count diverges at small energies", "why_tests_cant": "Integrals over two spheres of directions of a spectrum that diverges at zero energy; the code integrates over one angle or one energy, nested.", "anchors": ["rust/src/kernels/photon_muon.rs", "rust/src/kernels/photon_pion.rs:295-373", "rust/src/kernels/photon_rho.rs:133-279", "rust/src/boost.rs:123-146"]}
{"id": "C310", "title": "Five Newton steps place RAMBO events on the mass shell to better than double precision", "statement": "Every event that a new Rambo generator returns is the exact RAMBO event, whose total energy is the centre-of-mass energy, with all three-momenta stretched by a common factor of at least one. The factor exceeds one, and the total energy exceeds the centre-of-mass energy (in units of the energy above threshold), by at most an explicit bound: the larger of eps / (2 K^2), with K the energy above threshold, and five applications of x -> x^2 / (2 (1 + x)) to sqrt((1 + mu)/(1 - mu)) - 1, with mu the sum of masses over the energy. If the masses are at most half of the energy the bound is below 2 eps / cme^2 + 1.1e-18.", "quantifier": "all energies above threshold, all lists of two or more non-negative masses, all random draws, all batch sizes, all eps >= 0", "why_tests_cant": "The worst case over all momentum configurations is not reachable by sampling, and the loop stops for a whole batch at once.", "anchors": ["hazma/phase_space/_rambo.py:199-257"]}
{"id": "C311", "title": "Averages over generated massive events are phase-space integrals to the accuracy of the Newton iteration", "statement": "For any number of particles of any masses, the mean of weight times observable over the events that generate returns is the Lorentz-invariant phase-space integral of the observable, up to factors (1 + B)^(3n-3) above and 1 + B below, where B bounds the stretching of C310, times the factor by which the observable can change when momenta are stretched by 1 + B. For three bodies the mean weight agrees, with these factors, with the phase-space volume found by quadrature.", "quantifier": "all numbers of particles, all non-negative masses, all energies at which the bound is at most B, all measurable observables", "why_tests_cant": "An expectation over all random numbers compared with a high-dimensional integral over momenta.", "anchors": ["hazma/phase_space/_rambo.py:199-283", "hazma/phase_space/_three_body.py"]}
{"id": "C312", "title": "Rambo.integrate converges for massive particles to the phase-space integral within the Newton accuracy", "statement": "With probability one, and for any batch size of at least two or none, the value of Rambo.integrate for massive particles eventually stays as close as one likes to the interval from I / ((1 + B) L) to (1 + B)^(3n-3) L I, with I the phase-space integral of the squared matrix element, B the stretching bound of C310 and L the factor by which the squared matrix element changes under such stretching; for three bodies I is the value of ThreeBody.integrate by quadrature. Although the events of a batch are not independent (the Newton loop stops for all at once) this costs no more than these factors.", "quantifier": "all numbers of particles, all non-negative masses, all energies above threshold, all continuous non-negative squared matrix elements, all batch sizes", "why_tests_cant": "A limit over infinitely many random events, compared with an integral.", "anchors": ["hazma/phase_space/_rambo.py:199-283", "hazma/phase_space/_rambo.py:423-472", "hazma/phase_space/_three_body.py"]}
{"id": "C313", "title": "Fisher matrix entries are information integrals up to the step of the energy grid", "statement": "Every entry of the matrix returned by fisher differs from the integral of the Poisson information density (product of the derivatives of the expected counts with respect to both parameters, divided by the expected background counts) over the range of the energy grid by at most half the Lipschitz constant of that density times the largest step times the length of the range. With grids of the same range and steps going to zero the entry converges to the integral.", "quantifier": "all signal spectra, backgrounds, effective areas, observing times, solid angles, grids and pairs of parameters for which the density is Lipschitz", "why_tests_cant": "A convergence statement for arbitrary grids and densities.", "anchors": ["hazma/theory/_theory_gamma_ray_limits.py:335-374"]}
{"id": "C314", "title": "A mediator at rest has the spectrum of its rest frame", "statement": "The photon and positron spectra of a mediator with energy equal to its mass (scalar_mediator_decay_spectrum, vector and positron versions; dnde_ss and dnde_vv at twice the mass) are finite and equal the rest-frame spectra, the lines included.", "quantifier": "all rest-frame spectra, branching fractions, modes, masses and energies", "why_tests_cant": "The failure is at a single energy, and the lost line is an integral; samples of energies do not hit the first or show the second.", "anchors": ["hazma/scalar_mediator/scalar_mediator_decay_spectrum.pyx:166-191", "hazma/vector_mediator/vector_mediator_decay_spectrum.pyx:184-227", "hazma/scalar_mediator/scalar_mediator_positron_spec.pyx:166-215", "hazma/vector_mediator/vector_mediator_positron_spec.pyx:167-216"]}
{"id": "C315", "title": "Lines of the mediator models follow two-body kinematics and branching fractions", "statement": "gamma_ray_lines and positron_lines of the scalar and vector mediator models return one line per model with the branching fraction of its channel (zero if no channel is open, between zero and one) and the energy of two-body kinematics: half the centre-of-mass energy for g g and e e, and for pi0 g the energy of a photon recoiling against the pion, non-negative whenever the channel is open. In f_eff a line counts with its branching fraction times the efficiency at its energy times the fraction of the energy it carries.", "quantifier": "all centre-of-mass energies, cross sections, masses and efficiency tables", "why_tests_cant": "The wrong sign occurs only in a window of energies 0.0002 MeV wide, and the rest holds for arbitrary cross sections.", "anchors": ["hazma/scalar_mediator/_scalar_mediator_spectra.py:105-108", "hazma/scalar_mediator/_scalar_mediator_positron_spectra.py:88-107", "hazma/vector_mediator/_vector_mediator_spectra.py:142-145", "hazma/vector_mediator/_vector_mediator_positron_spectra.py:37-40", "hazma/theory/_theory_cmb.py:107-122", "rust/src/kernels/vector_xs.rs:127"]}
{"id": "C316", "title": "Unbinned limits without signal or background", "statement": "On a strictly increasing grid of at least two energies unbinned_limit never raises because a window is empty: without signal in any window (and with background in each) the limit is infinite; a window with signal and no background at all makes it exactly zero; with neither in any window it is NaN.", "quantifier": "all grids, targets, exposures, significances, signal and background integrals", "why_tests_cant": "Statements about every grid and every pair of integrals; the degenerate windows do not occur with the shipped background models on the energies tests use.", "anchors": ["hazma/theory/_theory_gamma_ray_limits.py:479-601"]}
{"id": "C317", "title": "Form factors of three mesons do not depend on the unit of energy", "statement": "The form factors of three pions, two pions and an eta, eta prime or omega, and a pion and two kaons take energies and invariants in MeV and return, in powers of 1/MeV, the amplitudes written entirely in MeV: resonances at the masses and widths of the fit times 1000, thresholds at the masses of the particles in MeV, the pion decay constant 92.2138 MeV in the anomaly, the third invariant as the sum of the squared masses minus the other two.", "quantifier": "all fits, couplings, energies and invariants, including those where the result is not a number", "why_tests_cant": "A wrong power of ten changes numbers that no closed formula predicts at sample points, and a test against stored output would store the error.", "anchors": ["hazma/form_factors/vector/_pi_pi_pi0.py:153-314", "hazma/form_factors/vector/_pi_pi_eta.py:87-160", "hazma/form_factors/vector/_pi_pi_etap.py:99-161", "hazma/form_factors/vector/_pi_pi_omega.py:77-107", "hazma/form_factors/vector/_pi_k_k.py:119-213"]}
{"id": "C318", "title": "Form factors of two mesons do not depend on the unit of energy", "statement": "form_factor of an array of energies in MeV returns, for each of the ten two-body final states and each energy above threshold, the amplitude written entirely in MeV (resonances at 1000 times the masses and widths of the fit, phase space and running widths with the masses of the particles in MeV, the fine-structure constant at zero), as a pure number for two pseudoscalars and in 1/MeV with a photon or a vector meson, and zero at and below threshold; for neutral kaons this holds for the first open energy.", "quantifier": "all fits, couplings and arrays of energies", "why_tests_cant": "The statement is about all fits and energies; a wrong power of ten in one resonance is invisible in a comparison with stored output.", "anchors": ["hazma/form_factors/vector/_pi_pi.py:148-221", "hazma/form_factors/vector/_k_k.py:367-486", "hazma/form_factors/vector/_eta_gamma.py:82-169", "hazma/form_factors/vector/_pi_gamma.py:110-197", "hazma/form_factors/vector/_pi_omega.py:92-194", "hazma/form_factors/vector/_pi_phi.py:99-193", "hazma/form_factors/vector/_eta_omega.py:83-151", "hazma/form_factors/vector/_eta_phi.py:79-146"]}
