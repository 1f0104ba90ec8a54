{
 "claims": [
  {
   "property": "C01",
   "status": "proved",
   "theorems": [
    "Hazma.Kinematics.two_body_momentum_physical",
    "Hazma.Kinematics.two_body_momentum_symm"
   ],
   "note": ""
  },
  {
   "property": "C02",
   "status": "proved",
   "theorems": [
    "Hazma.Kinematics.two_body_momentum_nan_below",
    "Hazma.Kinematics.cross_section_prefactor_regions",
    "Hazma.Kinematics.kinematically_accessible_iff_momentum"
   ],
   "note": ""
  },
  {
   "property": "C03",
   "status": "proved",
   "theorems": [
    "Hazma.Theory.annihilation_cross_sections_spec",
    "Hazma.Theory.annihilation_branching_fractions_distribution",
    "Hazma.Details.dict_set_get"
   ],
   "note": "Model keys are distinct and do not use the reserved key 'total'."
  },
  {
   "property": "C04",
   "status": "proved",
   "theorems": [
    "Hazma.Theory.spectra_ann_weighted",
    "Hazma.Theory.positron_spectra_ann_weighted"
   ],
   "note": ""
  },
  {
   "property": "C05",
   "status": "partial",
   "theorems": [
    "Hazma.Theory.spectra_ann_raises_for_missing_channel",
    "Hazma.Theory.spectra_ann_weighted"
   ],
   "note": "The claim is false of the base class: an open channel without a _spectrum_funcs entry raises KeyError. The negation is proved; spectra_ann_weighted is the part that holds (every open channel has an entry)."
  },
  {
   "property": "C06",
   "status": "proved",
   "theorems": [
    "Hazma.Theory.decay_branching_fractions_distribution"
   ],
   "note": ""
  },
  {
   "property": "C07",
   "status": "proved",
   "theorems": [
    "Hazma.Theory.spectra_dec_weighted"
   ],
   "note": ""
  },
  {
   "property": "C08",
   "status": "partial",
   "theorems": [
    "Hazma.Theory.positron_spectra_dec_uses_last_channel",
    "Hazma.Theory.positron_spectra_dec_wrong_channel",
    "Hazma.Theory.positron_spectra_dec_weighted_partial"
   ],
   "note": "The claim is false of the code: the closures share the loop variables. Exact behaviour, a counterexample and the single-channel case are proved."
  },
  {
   "property": "C09",
   "status": "proved",
   "theorems": [
    "Hazma.Limits.one_bin_limit_is_largest_allowed_rate"
   ],
   "note": ""
  },
  {
   "property": "C10",
   "status": "partial",
   "theorems": [
    "Hazma.Limits.chi2_monotone",
    "Hazma.Limits.chi2_limit_saturates_partial",
    "Hazma.Limits.chi2_limit_does_not_saturate",
    "Hazma.Limits.chi2_limit_infinite_but_excluded"
   ],
   "note": "False for non-zero observed fluxes (two counterexamples proved); proved when every observed flux is zero."
  },
  {
   "property": "C11",
   "status": "proved",
   "theorems": [
    "Hazma.Limits.unbinned_limit_best_window"
   ],
   "note": ""
  },
  {
   "property": "C12",
   "status": "proved",
   "theorems": [
    "Hazma.Limits.signal_flux_prefactor_conventions",
    "Hazma.Limits.binned_and_differential_prefactors_agree"
   ],
   "note": ""
  },
  {
   "property": "C13",
   "status": "proved",
   "theorems": [
    "Hazma.Boost.boost_delta_implementations_agree",
    "Hazma.Boost.boost_delta_normalised_box",
    "Hazma.Boost.boost_delta_unphysical_beta"
   ],
   "note": ""
  },
  {
   "property": "C14",
   "status": "proved",
   "theorems": [
    "Hazma.Boost.boost_kinematics"
   ],
   "note": ""
  },
  {
   "property": "C15",
   "status": "proved",
   "theorems": [
    "Hazma.Interp.search_total",
    "Hazma.Interp.search_spec"
   ],
   "note": ""
  },
  {
   "property": "C16",
   "status": "proved",
   "theorems": [
    "Hazma.Interp.interp_spec",
    "Hazma.Interp.interp_defined_iff",
    "Hazma.Interp.interp_nonneg"
   ],
   "note": "NaN abscissae and tables with non-finite entries are outside the model."
  },
  {
   "property": "C17",
   "status": "proved",
   "theorems": [
    "Hazma.PairwiseSum.pairwise_sum_eq_sum",
    "Hazma.PairwiseSum.pairwise_sum_each_once"
   ],
   "note": ""
  },
  {
   "property": "C18",
   "status": "proved",
   "theorems": [
    "Hazma.BoostTable.boost_integrate_validation"
   ],
   "note": ""
  },
  {
   "property": "C19",
   "status": "proved",
   "theorems": [
    "Hazma.BoostTable.boost_integrate_below_table",
    "Hazma.BoostTable.boost_integrate_above_table"
   ],
   "note": ""
  },
  {
   "property": "C20",
   "status": "partial",
   "theorems": [
    "Hazma.BoostTable.boost_integrate_value",
    "Hazma.BoostTable.boost_integrate_exact_partial",
    "Hazma.BoostTable.boost_integrate_drops_a_cell"
   ],
   "note": "False: the result is off by exactly one whole cell unless exactly one node lies in the window. The exact value is proved for every table and every window whose bounds are resolved by the 1e-6 tolerance."
  },
  {
   "property": "C21",
   "status": "proved",
   "theorems": [
    "Hazma.Rambo.events_on_shell",
    "Hazma.Rambo.events_total_energy"
   ],
   "note": "Random draws are assumed in range with a total of positive invariant mass (probability one)."
  },
  {
   "property": "C22",
   "status": "proved",
   "theorems": [
    "Hazma.Rambo.massless_boost"
   ],
   "note": ""
  },
  {
   "property": "C23",
   "status": "proved",
   "theorems": [
    "Hazma.Rambo.newton_safe_side",
    "Hazma.Rambo.scale_factor_exists_unique"
   ],
   "note": ""
  },
  {
   "property": "C24",
   "status": "partial",
   "theorems": [
    "Hazma.Rambo.setters_fresh_partial",
    "Hazma.Rambo.stale_scale_wrong_energy"
   ],
   "note": "False: the setters do not refresh the starting scale. Proved that everything else is fresh after any history, and a concrete event with the wrong total energy."
  },
  {
   "property": "C25",
   "status": "proved",
   "theorems": [
    "Hazma.PhaseSpace.normalize_distribution_spec",
    "Hazma.PhaseSpace.normalize_distribution_nonneg"
   ],
   "note": ""
  },
  {
   "property": "C26",
   "status": "proved",
   "theorems": [
    "Hazma.PhaseSpace.energy_limits_contain",
    "Hazma.PhaseSpace.invariant_mass_limits_contain",
    "Hazma.PhaseSpace.energy_limit_attained"
   ],
   "note": ""
  },
  {
   "property": "C27",
   "status": "proved",
   "theorems": [
    "Hazma.ThreeBody.three_body_bounds_exact"
   ],
   "note": ""
  },
  {
   "property": "C28",
   "status": "proved",
   "theorems": [
    "Hazma.Spectra.neutral_pion_box"
   ],
   "note": "Single-precision roundings of the kernel are not modelled."
  },
  {
   "property": "C29",
   "status": "proved",
   "theorems": [
    "Hazma.Spectra.positron_muon_is_boost",
    "Hazma.Spectra.kernels_above_endpoint"
   ],
   "note": ""
  },
  {
   "property": "C30",
   "status": "partial",
   "theorems": [
    "Hazma.Spectra.positron_muon_not_normalised",
    "Hazma.Spectra.positron_muon_normalised_partial"
   ],
   "note": "False: R_FACTOR is the inverse of the normalisation, so the spectrum holds 0.99963 positrons. Proved: the exact total for every muon energy, and its distance from one."
  },
  {
   "property": "C31",
   "status": "proved",
   "theorems": [
    "Hazma.Spectra.neutrino_muon_is_boost",
    "Hazma.Spectra.neutrino_muon_tau"
   ],
   "note": ""
  },
  {
   "property": "C32",
   "status": "proved",
   "theorems": [
    "Hazma.Spectra.kernels_below_threshold",
    "Hazma.Spectra.kernels_above_endpoint",
    "Hazma.Spectra.kernels_at_rest_endpoint"
   ],
   "note": "Positive photon energies."
  },
  {
   "property": "C33",
   "status": "proved",
   "theorems": [
    "Hazma.AltarelliParisi.ap_formula",
    "Hazma.AltarelliParisi.ap_support",
    "Hazma.AltarelliParisi.ap_nonneg",
    "Hazma.AltarelliParisi.ap_charge_sq",
    "Hazma.AltarelliParisi.ap_scalar_le_fermion"
   ],
   "note": "Positive photon energies and masses."
  },
  {
   "property": "C34",
   "status": "proved",
   "theorems": [
    "Hazma.AltarelliParisi.deprecated_ap_is_pair"
   ],
   "note": ""
  },
  {
   "property": "C35",
   "status": "partial",
   "theorems": [
    "Hazma.ScalarModel.scalar_setter_fresh",
    "Hazma.ScalarModel.scalar_setter_get",
    "Hazma.ScalarModel.scalar_history_fresh",
    "Hazma.ScalarModel.create_ok_iff",
    "Hazma.ScalarModel.scalar_lam_zero_stale",
    "Hazma.ScalarModel.higgs_forbidden",
    "Hazma.ScalarModel.higgs_couplings_tied",
    "Hazma.ScalarModel.higgs_history_fresh_partial",
    "Hazma.ScalarModel.higgs_lam_assignment_breaks",
    "Hazma.ScalarModel.heavy_forbidden",
    "Hazma.ScalarModel.heavy_couplings_tied",
    "Hazma.ScalarModel.heavy_setter_fresh_partial",
    "Hazma.ScalarModel.heavy_lam_assignment_breaks"
   ],
   "note": "Proved for the generic model (every assignment that returns normally) and for the subclasses without assignments to lam. False for HiggsPortal and HeavyQuark: the inherited lam setter is not hidden, and after assigning it the width differs from that of a fresh object with the same visible parameters."
  },
  {
   "property": "C36",
   "status": "proved",
   "theorems": [
    "Hazma.VectorModel.vector_setter_get",
    "Hazma.VectorModel.vector_history_fresh",
    "Hazma.VectorModel.fresh_width_total",
    "Hazma.VectorModel.kinetic_forbidden",
    "Hazma.VectorModel.kinetic_history_fresh",
    "Hazma.VectorModel.kinetic_docstring_sign",
    "Hazma.VectorModel.quarks_history_fresh"
   ],
   "note": "Dark-matter masses assigned are non-negative (otherwise mv=0 divides by zero). The docstring of KineticMixing has the opposite overall sign of the couplings."
  },
  {
   "property": "C37",
   "status": "proved",
   "theorems": [
    "Hazma.ScalarModel.scalar_widths",
    "Hazma.VectorModel.vector_widths",
    "Hazma.ScalarModel.width_unknown_lepton"
   ],
   "note": "Scalar: non-zero lam and non-negative mediator mass."
  },
  {
   "property": "C38",
   "status": "proved",
   "theorems": [
    "Hazma.Fsr.scalar_ff_sign",
    "Hazma.Fsr.scalar_pipi_sign",
    "Hazma.Fsr.vector_ff_sign",
    "Hazma.Fsr.vector_pipi_sign",
    "Hazma.Fsr.zero_energy"
   ],
   "note": "Positive photon energies, exact arithmetic. At zero photon energy three of the four functions raise ZeroDivisionError (zero_energy)."
  },
  {
   "property": "C39",
   "status": "partial",
   "theorems": [
    "Hazma.Fsr.vector_rest_agrees",
    "Hazma.Fsr.scalar_rest_is_half"
   ],
   "note": "True for the vector mediator; false for the scalar mediator, whose compiled decay code uses exactly half of the annihilation spectrum."
  },
  {
   "property": "C40",
   "status": "proved",
   "theorems": [
    "Hazma.Xs.detailed_balance",
    "Hazma.Xs.inverse_positive"
   ],
   "note": ""
  },
  {
   "property": "C41",
   "status": "proved",
   "theorems": [
    "Hazma.Xs.scalar_annihilation_signs",
    "Hazma.Xs.vector_annihilation_signs"
   ],
   "note": "Above threshold means e > 2 mx; exactly at e = 2 mx two vector kernels return a non-real value, stated in vector_annihilation_signs."
  },
  {
   "property": "C42",
   "status": "proved",
   "theorems": [
    "Hazma.Relic.boltzmann_jacobian",
    "Hazma.Relic.boltzmann_drive"
   ],
   "note": "Fixed point and attraction for positive cross section and degrees of freedom."
  },
  {
   "property": "C43",
   "status": "proved",
   "theorems": [
    "Hazma.Relic.semi_analytic_solution",
    "Hazma.Relic.semi_analytic_monotone"
   ],
   "note": "Exact integrals; continuous thermal average."
  },
  {
   "property": "C44",
   "status": "partial",
   "theorems": [
    "Hazma.Relic.neqDeriv_is_derivative_partial",
    "Hazma.Relic.neqDeriv_boson_wrong"
   ],
   "note": "True for fermions and massless particles; false for massive bosons (sign of the Bessel sum)."
  },
  {
   "property": "C45",
   "status": "partial",
   "theorems": [
    "Hazma.Aliasing.flux_effect",
    "Hazma.Aliasing.flux_leaves_others_partial",
    "Hazma.Aliasing.flux_overwrites_caller",
    "Hazma.Aliasing.flux_from_file",
    "Hazma.Aliasing.flux_bin_values"
   ],
   "note": "False: the caller's flux array is overwritten, and a second measurement divides again. True for the four other arrays and for measurements read from a file."
  },
  {
   "property": "C46",
   "status": "partial",
   "theorems": [
    "Hazma.Aliasing.default_constrainers_shared",
    "Hazma.Aliasing.constrainers_independent_partial",
    "Hazma.Aliasing.own_list_used_partial"
   ],
   "note": "False: default-constructed constrainers share one list. True for explicit different lists and after a reset."
  },
  {
   "property": "C47",
   "status": "partial",
   "theorems": [
    "Hazma.SingleChannel.ann_switch_is_fresh",
    "Hazma.SingleChannel.dec_switch_stale",
    "Hazma.SingleChannel.dec_switch_partial"
   ],
   "note": "True for SingleChannelAnn; false for SingleChannelDec, whose setter leaves the stored particles and masses."
  },
  {
   "property": "C48",
   "status": "partial",
   "theorems": [
    "Hazma.NBody.fsr_per_species",
    "Hazma.NBody.fsr_per_particle_partial",
    "Hazma.NBody.fsr_identical_particles",
    "Hazma.NBody.fsr_three_pions",
    "Hazma.NBody.fsr_two_body",
    "Hazma.NBody.fsr_average_irrelevant"
   ],
   "note": "False for three or more particles: each particle's radiation is divided by the number of particles with its name. True for pairwise different charged particles and in two-body states."
  },
  {
   "property": "C49",
   "status": "proved",
   "theorems": [
    "Hazma.Constrain.scan_image",
    "Hazma.Constrain.attributes_overwrite"
   ],
   "note": "The theory's attributes are an abstract state; setters are assumed to overwrite, which is proved for plain attributes."
  },
  {
   "property": "C50",
   "status": "partial",
   "theorems": [
    "Hazma.Quad.adaptive_invariants",
    "Hazma.Quad.workspace_in_range",
    "Hazma.Quad.adaptive_no_panic_partial",
    "Hazma.Quad.table_overflow"
   ],
   "note": "Tiling, sums, counts and panel workspace for every limit; absence of any panic for limits up to 51 (the default is 50). Beyond that the epsilon table can be asked for a 51st element, which is out of range (table_overflow); not shown reachable from an integrand."
  },
  {
   "property": "C51",
   "status": "partial",
   "theorems": [
    "Hazma.Quad.panels_in_order",
    "Hazma.Quad.bisected_nth_largest_partial",
    "Hazma.Quad.largest_bisected",
    "Hazma.Quad.third_not_third_largest"
   ],
   "note": "The order over the maintained range holds always. That the bisected panel is the nrmax-th largest holds while the list is complete or nrmax <= limit+1-last, in particular outside extrapolation; third_not_third_largest refutes the rest."
  },
  {
   "property": "C52",
   "status": "proved",
   "theorems": [
    "Hazma.Quad.rules_drop_odd",
    "Hazma.Quad.rules_affine",
    "Hazma.Quad.rules_total",
    "Hazma.Quad.rules_polynomial",
    "Hazma.Quad.rules_reverse",
    "Hazma.Quad.rules_linear",
    "Hazma.Quad.rules_monotone",
    "Hazma.Quad.rules_resabs",
    "Hazma.Quad.rules_error_polynomial"
   ],
   "note": "Exact arithmetic with the tabulated decimal nodes and weights; the total error from rounding them is bounded explicitly."
  },
  {
   "property": "C53",
   "status": "proved",
   "theorems": [
    "Hazma.Dispatch.dispatch_map",
    "Hazma.Dispatch.dispatch_rejects",
    "Hazma.Dispatch.dispatch_failing",
    "Hazma.Dispatch.dispatch_failing_scalar",
    "Hazma.Dispatch.dispatch_flavors",
    "Hazma.Dispatch.dispatch_require"
   ],
   "note": "Python objects are described by what the dispatcher observes of them; the compiled kernels are parameters."
  },
  {
   "property": "C54",
   "status": "proved",
   "theorems": [
    "Hazma.Ckm.ckm_unitary",
    "Hazma.Ckm.shipped_unitary",
    "Hazma.Ckm.first_row"
   ],
   "note": "Whenever all roots and the quotient are defined; the shipped parameters are such a case."
  },
  {
   "property": "C55",
   "status": "proved",
   "theorems": [
    "Hazma.Cmb.deposition_bounds",
    "Hazma.Cmb.pair_line",
    "Hazma.Cmb.single_line",
    "Hazma.Cmb.cmb_limit_meaning",
    "Hazma.Cmb.invisible_unconstrained",
    "Hazma.Cmb.vx_scaling",
    "Hazma.Cmb.total_deposition_bounds",
    "Hazma.SingleChannel.numeric_lines"
   ],
   "note": "Exact integrals; energies inside the range of the efficiency tables."
  },
  {
   "property": "C56",
   "status": "partial",
   "theorems": [
    "Hazma.Mediator.gg_half",
    "Hazma.Mediator.ss_gg_photons",
    "Hazma.Mediator.gg_shape_partial"
   ],
   "note": "Violated: the box has height BF/(E beta) on an interval of length E beta, one photon per decay instead of two. The shape is right."
  },
  {
   "property": "C57",
   "status": "partial",
   "theorems": [
    "Hazma.Mediator.ee_too_few",
    "Hazma.Mediator.line_in_other_modes",
    "Hazma.Mediator.ee_shape_partial"
   ],
   "note": "Violated twice: the box integrates to v*BF with v the electron velocity, and it is added to the pi pi and mu mu spectra as well. The shape is right."
  },
  {
   "property": "C58",
   "status": "proved",
   "theorems": [
    "Hazma.Mediator.tables_current",
    "Hazma.Mediator.cache_never_hit"
   ],
   "note": "Holds because the cached values are never updated, so every call recomputes."
  },
  {
   "property": "C59",
   "status": "partial",
   "theorems": [
    "Hazma.Mediator.vector_mumu_is_photons",
    "Hazma.Mediator.scalar_mumu_partial"
   ],
   "note": "Violated: the vector function calls the photon spectrum of the muon. Holds for the scalar mediator."
  },
  {
   "property": "C60",
   "status": "proved",
   "theorems": [
    "Hazma.Mediator.two_body_states",
    "Hazma.Mediator.isTwoBody_unique",
    "Hazma.Mediator.two_body_on_shell",
    "Hazma.NBody.two_body_energies"
   ],
   "note": ""
  },
  {
   "property": "C61",
   "status": "partial",
   "theorems": [
    "Hazma.ScalarConstraints.rare_decay_bounded_partial",
    "Hazma.ScalarConstraints.window_kinematic",
    "Hazma.ScalarConstraints.kl_ee_not_a_number",
    "Hazma.ScalarConstraints.stable_not_a_number",
    "Hazma.ScalarConstraints.missing_mass"
   ],
   "note": "Holds for every scalar that decays at all and, for K_L -> pi0 e e, is lighter than mkl - mpi0. Otherwise the value is NaN (kl_ee_not_a_number, stable_not_a_number). Constant factors of the production widths are non-negative parameters."
  },
  {
   "property": "C62",
   "status": "proved",
   "theorems": [
    "Hazma.Theory.lines_ann_spec",
    "Hazma.Theory.lines_dec_spec",
    "Hazma.Theory.lines_ann_unknown_channel_raises"
   ],
   "note": ""
  },
  {
   "property": "C63",
   "status": "partial",
   "theorems": [
    "Hazma.Boost.double_boost_delta_value",
    "Hazma.Boost.double_boost_delta_massless_partial",
    "Hazma.Boost.double_boost_delta_wrong_massive",
    "Hazma.BoostLorentz.double_line"
   ],
   "note": "Exact value proved for all masses; it equals the specification only for massless products (the code divides by the line energy instead of the momentum)."
  },
  {
   "property": "C64",
   "status": "partial",
   "theorems": [
    "Hazma.Boost.boost_array_spec_partial",
    "Hazma.Boost.boost_array_negative_beta_unchanged"
   ],
   "note": "Negative velocities return the input unchanged, contrary to the documentation."
  },
  {
   "property": "C65",
   "status": "proved",
   "theorems": [
    "Hazma.Rambo.massless_weight",
    "Hazma.Rambo.two_body_weight",
    "Hazma.Rambo.weights_pos"
   ],
   "note": "For masses and more than two bodies this says positivity; that the weighted events integrate over phase space is C297."
  },
  {
   "property": "C66",
   "status": "partial",
   "theorems": [
    "Hazma.Rambo.generator_points_partial",
    "Hazma.Rambo.generator_overshoots"
   ],
   "note": "False unless the batch size divides n: the number is rounded up to whole batches (proved)."
  },
  {
   "property": "C67",
   "status": "partial",
   "theorems": [
    "Hazma.PhaseSpace.expect_one_value",
    "Hazma.PhaseSpace.expect_one_partial",
    "Hazma.PhaseSpace.expect_one_flat_two_bins"
   ],
   "note": "False: the trapezoid over bin centres misses half of the first and last bin; the exact value is proved for every histogram."
  },
  {
   "property": "C68",
   "status": "proved",
   "theorems": [
    "Hazma.ThreeBody.mandelstam_to_momenta_physical"
   ],
   "note": ""
  },
  {
   "property": "C69",
   "status": "partial",
   "theorems": [
    "Hazma.ThreeBody.bounds_t_midpoint_partial",
    "Hazma.ThreeBody.bounds_t_wrong"
   ],
   "note": "False: the bounds use lambda(s,m1^2,m2^2) where lambda(s,q^2,m1^2) is needed. Proved: the midpoint is right, the true width, and a physical configuration outside the bounds."
  },
  {
   "property": "C70",
   "status": "proved",
   "theorems": [
    "Hazma.ThreeBody.energy_distribution_total",
    "Hazma.ThreeBody.invariant_mass_distribution_total"
   ],
   "note": "Exact integrals in place of SciPy quadrature; continuous matrix elements."
  },
  {
   "property": "C71",
   "status": "partial",
   "theorems": [
    "Hazma.ThreeBody.setters_current_partial",
    "Hazma.ThreeBody.msqrd_assignment_partial",
    "Hazma.ThreeBody.msqrd_assignment_ignored"
   ],
   "note": "False for objects built with a matrix element of momenta: assigning msqrd is silently undone."
  },
  {
   "property": "C72",
   "status": "partial",
   "theorems": [
    "Hazma.ThreeBody.monte_carlo_flat_is_zero"
   ],
   "note": "False: the default matrix element is 1 for scalars and 0 for arrays, so the Monte-Carlo integral is exactly 0."
  },
  {
   "property": "C73",
   "status": "proved",
   "theorems": [
    "Hazma.ThreeBody.two_body_phase_space_agree"
   ],
   "note": ""
  },
  {
   "property": "C74",
   "status": "partial",
   "theorems": [
    "Hazma.ThreeBody.requested_bins_partial",
    "Hazma.ThreeBody.quad_one_bin_short"
   ],
   "note": "False for the quadrature method, which returns nbins-1 bins."
  },
  {
   "property": "C75",
   "status": "partial",
   "theorems": [
    "Hazma.Spectra.photon_muon_flight_is_boost",
    "Hazma.Spectra.photon_muon_rest_is_cut",
    "Hazma.Spectra.photon_muon_cut_mismatch"
   ],
   "note": "False: the rest-frame kernel stops at y=1-r, the in-flight one at y=1-r^2. Proved: the in-flight kernel is exactly the boost of the uncut spectrum, the rest kernel exactly its cut, and the two differ."
  },
  {
   "property": "C76",
   "status": "partial",
   "theorems": [
    "Hazma.Spectra.positron_pion_at_rest_zero"
   ],
   "note": "False: at rest the kernel is identically zero although a moving pion always carries more than 0.999 positrons."
  },
  {
   "property": "C77",
   "status": "partial",
   "theorems": [
    "Hazma.Spectra.rho_photon_flight_partial",
    "Hazma.Spectra.rho_photon_at_rest_wrong"
   ],
   "note": "True for moving mesons, false at rest: the integrand (spectrum divided by energy) is returned."
  },
  {
   "property": "C78",
   "status": "partial",
   "theorems": [
    "Hazma.Spectra.neutrino_pion_rows",
    "Hazma.Spectra.neutrino_pion_electron_line_doubled"
   ],
   "note": "False: the electron line is added twice. Proved: the exact content of all three rows and the totals."
  },
  {
   "property": "C79",
   "status": "proved",
   "theorems": [
    "Hazma.Spectra.boost_conserves_number",
    "Hazma.Spectra.boost_scales_energy",
    "Hazma.Spectra.boost_nonneg",
    "Hazma.Spectra.boosted_support"
   ],
   "note": "About the boost integral itself; the code's kernels are connected to it by C29, C31, C75, C77, C78, C84, C85."
  },
  {
   "property": "C80",
   "status": "proved",
   "theorems": [
    "Hazma.Spectra.neutrino_muon_numbers"
   ],
   "note": "To 1e-8, the accuracy of the literal R_FACTOR."
  },
  {
   "property": "C81",
   "status": "proved",
   "theorems": [
    "Hazma.Spectra.muon_spectra_nonneg"
   ],
   "note": ""
  },
  {
   "property": "C82",
   "status": "partial",
   "theorems": [
    "Hazma.Spectra.muon_energy_inconsistent"
   ],
   "note": "False: the photon kernel's literal differs by 4.7e-5 MeV from the value used by the other kernels."
  },
  {
   "property": "C83",
   "status": "partial",
   "theorems": [
    "Hazma.Spectra.photon_muon_rest_nonneg_partial",
    "Hazma.Spectra.photon_muon_negative"
   ],
   "note": "True at rest, false in flight: negative just below the endpoint for every muon energy."
  },
  {
   "property": "C84",
   "status": "proved",
   "theorems": [
    "Hazma.Spectra.positron_pion_is_boost",
    "Hazma.Spectra.positron_pion_total"
   ],
   "note": "Moving pions; see C76 for pions at rest."
  },
  {
   "property": "C85",
   "status": "proved",
   "theorems": [
    "Hazma.Spectra.charged_pion_photon_is_boost"
   ],
   "note": "Exact integral in place of quadrature."
  },
  {
   "property": "C86",
   "status": "proved",
   "theorems": [
    "Hazma.Kinematics.minkowski_forms_agree"
   ],
   "note": ""
  },
  {
   "property": "C87",
   "status": "proved",
   "theorems": [
    "Hazma.Fsr.soft_photon_universal"
   ],
   "note": ""
  },
  {
   "property": "C88",
   "status": "partial",
   "theorems": [
    "Hazma.Xs.scalar_factorisation_partial",
    "Hazma.Xs.vector_factorisation_partial",
    "Hazma.Xs.pion_threshold_mismatch",
    "Hazma.Xs.pi0g_not_factorised"
   ],
   "note": "Holds with equal constants; false as shipped because the kernels and parameters.py use different masses (pion_threshold_mismatch) and because the vector pi0-gamma kernel is 1/9 of the width-based value (pi0g_not_factorised)."
  },
  {
   "property": "C89",
   "status": "proved",
   "theorems": [
    "Hazma.Xs.annihilation_units"
   ],
   "note": ""
  },
  {
   "property": "C90",
   "status": "partial",
   "theorems": [
    "Hazma.Xs.self_interaction_units",
    "Hazma.Xs.self_interaction_not_cross_section",
    "Hazma.Xs.self_interaction_units_partial"
   ],
   "note": "False: both self-interaction kernels scale as 1/l; the missing factor is 1/e."
  },
  {
   "property": "C91",
   "status": "partial",
   "theorems": [
    "Hazma.Xs.scalarXL_eq_mean",
    "Hazma.Xs.scalarXL_pos_partial",
    "Hazma.Xs.scalarXL_negative"
   ],
   "note": "True for e > 2 mx; false between mx + ml and 2 mx, where the kernel integrates over positive momentum transfers."
  },
  {
   "property": "C92",
   "status": "partial",
   "theorems": [
    "Hazma.Xs.scalarXL_units",
    "Hazma.Xs.scalarXL_not_cross_section",
    "Hazma.Xs.scalarXL_units_partial"
   ],
   "note": "False: the kernel is dimensionless, a factor 1/vh^2 is missing."
  },
  {
   "property": "C93",
   "status": "proved",
   "theorems": [
    "Hazma.Relic.neq_approximates_ideal_gas",
    "Hazma.Relic.neq_pos"
   ],
   "note": "Bessel functions by their integral representation."
  },
  {
   "property": "C94",
   "status": "proved",
   "theorems": [
    "Hazma.Relic.yeq_derivatives",
    "Hazma.Relic.entropy_deriv"
   ],
   "note": "Fermions (the default); where heff is differentiable with the tabulated derivative."
  },
  {
   "property": "C95",
   "status": "partial",
   "theorems": [
    "Hazma.Relic.xstar_meaning_partial",
    "Hazma.Relic.start_not_matched"
   ],
   "note": "The evolution starts from Yeq, not (1+delta) Yeq."
  },
  {
   "property": "C96",
   "status": "partial",
   "theorems": [
    "Hazma.Relic.delta_ignored_numerically",
    "Hazma.Relic.delta_moves_freeze_out"
   ],
   "note": "False: delta is ignored exactly when semi_analytic is False; otherwise different values never share a freeze-out point."
  },
  {
   "property": "C97",
   "status": "partial",
   "theorems": [
    "Hazma.Relic.default_span"
   ],
   "note": "False by default (e^7 > 1096 times); true for a given xf."
  },
  {
   "property": "C98",
   "status": "partial",
   "theorems": [
    "Hazma.Relic.generic_average_pos_partial",
    "Hazma.Relic.generic_average_vanishes",
    "Hazma.Relic.generic_alpha_cut"
   ],
   "note": "False: zero from x = 25 on because the integral ends at 50/x."
  },
  {
   "property": "C99",
   "status": "proved",
   "theorems": [
    "Hazma.Relic.mediator_averages",
    "Hazma.Relic.averages_agree"
   ],
   "note": "Integrable integrands, exact integrals."
  },
  {
   "property": "C100",
   "status": "partial",
   "theorems": [
    "Hazma.SingleChannel.electron_line_unusable",
    "Hazma.SingleChannel.electron_line_energy_partial"
   ],
   "note": "False: the entry is a nested dictionary and the sum over lines raises TypeError. The nested number is the correct energy."
  },
  {
   "property": "C101",
   "status": "partial",
   "theorems": [
    "Hazma.SingleChannel.no_gamma_line",
    "Hazma.SingleChannel.no_photon_line"
   ],
   "note": "False: the code tests for the name g, which the mass table does not contain; no constructible model has a line."
  },
  {
   "property": "C102",
   "status": "partial",
   "theorems": [
    "Hazma.SingleChannel.ann_threshold",
    "Hazma.SingleChannel.dec_no_threshold"
   ],
   "note": "True for annihilation, false for decay."
  },
  {
   "property": "C103",
   "status": "partial",
   "theorems": [
    "Hazma.NBody.pair_positrons_doubled",
    "Hazma.NBody.direct_positrons_doubled"
   ],
   "note": "False: exactly twice in two-body states, and both members of 'e e' are counted as positrons in larger states."
  },
  {
   "property": "C104",
   "status": "partial",
   "theorems": [
    "Hazma.NBody.photon_final_state"
   ],
   "note": "False: AssertionError for every state of three or more particles with a photon; nothing in two-body states."
  },
  {
   "property": "C105",
   "status": "partial",
   "theorems": [
    "Hazma.NBody.neutrino_rows",
    "Hazma.NBody.neutrino_rows_partial",
    "Hazma.NBody.neutrino_rows_differ",
    "Hazma.NBody.neutrino_rows_few"
   ],
   "note": "False: direct neutrinos are added to all three rows."
  },
  {
   "property": "C106",
   "status": "proved",
   "theorems": [
    "Hazma.NBody.nbody_outcome",
    "Hazma.NBody.nbody_two_outcome",
    "Hazma.NBody.two_body_symmetric",
    "Hazma.NBody.nbody_one_outcome"
   ],
   "note": "Known particles without a decay table raise AssertionError for three or more particles."
  },
  {
   "property": "C107",
   "status": "partial",
   "theorems": [
    "Hazma.Mediator.pi0g_energy",
    "Hazma.Mediator.pi0g_spectrum_energy",
    "Hazma.Mediator.pi0g_count_partial"
   ],
   "note": "Violated: the line is boosted from mV/2. One photon per decay holds."
  },
  {
   "property": "C108",
   "status": "partial",
   "theorems": [
    "Hazma.Mediator.photon_integral_is_boost",
    "Hazma.Mediator.positron_integral_is_boost",
    "Hazma.Mediator.scalar_photons",
    "Hazma.Mediator.vector_photons",
    "Hazma.Mediator.vector_modes_add",
    "Hazma.Mediator.scalar_modes_add",
    "Hazma.Mediator.positron_numbers",
    "Hazma.Mediator.scalar_mode_share",
    "Hazma.Mediator.vector_mode_share"
   ],
   "note": "Proved for photons of both mediators. For positrons the exclusive spectra count the e e line three times (positron_numbers gives the exact excess). A mediator exactly at rest: C314."
  },
  {
   "property": "C109",
   "status": "partial",
   "theorems": [
    "Hazma.Constrain.image_transposed",
    "Hazma.Constrain.scan_image"
   ],
   "note": "Violated: the images are transposed with respect to the docstring. scan_image gives the exact indexing."
  },
  {
   "property": "C110",
   "status": "proved",
   "theorems": [
    "Hazma.Constrain.scan_effects"
   ],
   "note": ""
  },
  {
   "property": "C111",
   "status": "partial",
   "theorems": [
    "Hazma.Constrain.custom_wide_fails",
    "Hazma.Constrain.custom_tall_partial"
   ],
   "note": "Violated: images are made r x r; more columns than rows raise IndexError, fewer leave columns of zeros. Square grids are right."
  },
  {
   "property": "C112",
   "status": "proved",
   "theorems": [
    "Hazma.Constrain.binned_image_agrees_with_limit"
   ],
   "note": "For measurements whose tolerated flux is positive in every bin (the code asserts this)."
  },
  {
   "property": "C113",
   "status": "partial",
   "theorems": [
    "Hazma.ScalarConstraints.window_kinematic",
    "Hazma.ScalarConstraints.kl_ee_not_a_number",
    "Hazma.ScalarConstraints.stable_not_a_number",
    "Hazma.ScalarConstraints.stable_exists"
   ],
   "note": "False: the window of K_L -> pi0 e e reaches past the kinematic limit, and a stable scalar inside a window divides by its zero width. window_kinematic is the part that holds for the other five windows."
  },
  {
   "property": "C114",
   "status": "partial",
   "theorems": [
    "Hazma.ScalarConstraints.beam_dump_bounded",
    "Hazma.ScalarConstraints.beam_dump_heavy_raises"
   ],
   "note": "Bounds proved up to the beam energy; above it the function raises instead of returning the bound."
  },
  {
   "property": "C115",
   "status": "partial",
   "theorems": [
    "Hazma.ScalarConstraints.higgs_portal_invis",
    "Hazma.ScalarConstraints.higgs_needs_mixing"
   ],
   "note": "True for HiggsPortal with |stheta| < 1; false for the base class and HeavyQuark, where evaluating the entry raises AttributeError."
  },
  {
   "property": "C116",
   "status": "proved",
   "theorems": [
    "Hazma.ScalarConstraints.rare_decay_fraction"
   ],
   "note": "Inside the window and the kinematic limit, non-zero total width."
  },
  {
   "property": "C117",
   "status": "proved",
   "theorems": [
    "Hazma.Ckm.ckm_wolfenstein",
    "Hazma.Ckm.shipped_wolfenstein"
   ],
   "note": "Positive lambda and A, A lambda^2 < 1, |s13| < 1."
  },
  {
   "property": "C118",
   "status": "proved",
   "theorems": [
    "Hazma.Cmb.deposition_average"
   ],
   "note": "Exact integrals of integrable spectra."
  },
  {
   "property": "C119",
   "status": "partial",
   "theorems": [
    "Hazma.Cmb.cmb_limit_class_raises",
    "Hazma.Cmb.cmb_limit_class_energy",
    "Hazma.Cmb.cmb_limit_class_partial",
    "Hazma.Details.limit_efficiency"
   ],
   "note": "False: the class passes x_kd where the model is expected and always raises; its centre-of-mass energy squares the velocity twice."
  },
  {
   "property": "C120",
   "status": "proved",
   "theorems": [
    "Hazma.Quad.rules_evaluate_inside",
    "Hazma.Quad.rules_local"
   ],
   "note": ""
  },
  {
   "property": "C121",
   "status": "proved",
   "theorems": [
    "Hazma.Quad.success_within_tolerance"
   ],
   "note": "qagse, real-valued integrands."
  },
  {
   "property": "C122",
   "status": "proved",
   "theorems": [
    "Hazma.Quad.evaluations"
   ],
   "note": ""
  },
  {
   "property": "C123",
   "status": "partial",
   "theorems": [
    "Hazma.Quad.points_invariants",
    "Hazma.Quad.points_no_panic_partial",
    "Hazma.Quad.quad_no_panic_partial"
   ],
   "note": "Invariants for every limit; absence of panics for limits up to 51 plus the number of points (the default limit is 50). Beyond that the epsilon table may overflow, see C50."
  },
  {
   "property": "C124",
   "status": "proved",
   "theorems": [
    "Hazma.Quad.points_evaluations",
    "Hazma.Quad.quad_evaluations"
   ],
   "note": ""
  },
  {
   "property": "C125",
   "status": "partial",
   "theorems": [
    "Hazma.Quad.points_success_partial",
    "Hazma.Quad.quad_success_partial",
    "Hazma.Quad.points_limit_one",
    "Hazma.Quad.points_false_success"
   ],
   "note": "False for a limit of one when points are given but none lies inside the range: the loop is empty and success is reported with any error (points_false_success). Proved in all other cases."
  },
  {
   "property": "C126",
   "status": "proved",
   "theorems": [
    "Hazma.Quad.filterPoints_spec",
    "Hazma.Quad.quad_empty",
    "Hazma.Quad.quad_reversed",
    "Hazma.Quad.quad_points_congr",
    "Hazma.Quad.quad_errors",
    "Hazma.Quad.points_reversed"
   ],
   "note": ""
  },
  {
   "property": "C127",
   "status": "proved",
   "theorems": [
    "Hazma.RhNeutrino.partial_widths_sound",
    "Hazma.RhNeutrino.branching_fractions_distribution"
   ],
   "note": "Exact integrals; form factor and CKM elements arbitrary; positive mass."
  },
  {
   "property": "C128",
   "status": "partial",
   "theorems": [
    "Hazma.RhNeutrino.open_channels_positive_partial",
    "Hazma.RhNeutrino.lepton_two_pion_window",
    "Hazma.RhNeutrino.positive_iff_open_partial"
   ],
   "note": "Proved for all final states without two pions. False for 'l pi pi0': between its threshold and m_l + 2 m_pi the width is zero. Above that, and for 'nu pi pi', the widths are positive for every form factor that is continuous and does not vanish above the two-pion threshold (the form factor is a parameter); positive_iff_open_partial is the exact list."
  },
  {
   "property": "C129",
   "status": "partial",
   "theorems": [
    "Hazma.RhNeutrino.set_mx_theta",
    "Hazma.RhNeutrino.set_flavor_partial",
    "Hazma.RhNeutrino.set_flavor_mu",
    "Hazma.RhNeutrino.set_flavor_tau",
    "Hazma.RhNeutrino.set_flavor_differs"
   ],
   "note": "mx and theta proved. False for flavor: assigning 'tau' produces a muon-flavoured model labelled tau, assigning 'mu' changes the neutrino label to 'vmu'."
  },
  {
   "property": "C130",
   "status": "partial",
   "theorems": [
    "Hazma.RhNeutrino.gamma_ray_lines_raise",
    "Hazma.RhNeutrino.positron_lines_raise",
    "Hazma.RhNeutrino.neutrino_lines_partial",
    "Hazma.RhNeutrino.neutrino_lines_eta_overwrites"
   ],
   "note": "False: the photon and positron line keys are not final states, so gamma_ray_lines and positron_lines raise KeyError; the eta line overwrites the pi0 line. Energies proved otherwise."
  },
  {
   "property": "C131",
   "status": "partial",
   "theorems": [
    "Hazma.RhNeutrino.configurations_covered",
    "Hazma.RhNeutrino.configurations_covered_unique",
    "Hazma.RhNeutrino.flavour_changing_twice",
    "Hazma.RhNeutrino.widths_count_conjugates_partial",
    "Hazma.RhNeutrino.photon_spectra_weights",
    "Hazma.RhNeutrino.lepton_pion_photons_doubled"
   ],
   "note": "False: flavour-changing three-lepton channels enter the total width twice, and photon spectra of channels that are not self-conjugate are doubled on top of branching fractions that already count both charges."
  },
  {
   "property": "C132",
   "status": "partial",
   "theorems": [
    "Hazma.RhNeutrino.spectra_use_named_particles_partial",
    "Hazma.RhNeutrino.eta_and_rho_spectra",
    "Hazma.RhNeutrino.neutrino_zeros_shape",
    "Hazma.RhNeutrino.products_accepted"
   ],
   "note": "False for 'nu eta' (pion spectra) and 'l rho' (kaon spectra), and below threshold the neutrino product has the wrong shape; proved for all other entries."
  },
  {
   "property": "C133",
   "status": "partial",
   "theorems": [
    "Hazma.RhNeutrino.decay_width_sequence_partial",
    "Hazma.RhNeutrino.decay_width_string_raises"
   ],
   "note": "Sequences proved; a string, which the signature and docstring allow, always raises KeyError on its first character."
  },
  {
   "property": "C134",
   "status": "partial",
   "theorems": [
    "Hazma.RhNeutrino.positron_spectra_zero"
   ],
   "note": "False: the loop variables are captured by reference, so every channel gets the spectrum of the three-neutrino entry, which is zero. See also C08."
  },
  {
   "property": "C135",
   "status": "partial",
   "theorems": [
    "Hazma.RhNeutrino.v_pi_pi_phase_space",
    "Hazma.RhNeutrino.l_pi0_pi_phase_space",
    "Hazma.RhNeutrino.l_u_d_phase_space",
    "Hazma.RhNeutrino.v_l_l_phase_space",
    "Hazma.RhNeutrino.v_l_l_small_mass",
    "Hazma.RhNeutrino.v_l_l_phase_space_all",
    "Hazma.RhNeutrino.v_l_l_flavour_phase_space",
    "Hazma.RhNeutrino.v_v_v_phase_space_value",
    "Hazma.RhNeutrino.v_v_v_phase_space_differs"
   ],
   "note": "Proved for two pions (any form factor), three different leptons and a lepton pair; on the small-mass branch, where the logarithm is replaced by a series, the width is right to 13 digits (v_l_l_small_mass). False for three neutrinos: the matrix element is linear in the mixing and six times too large. 'l pi pi0' with one pion mass."
  },
  {
   "property": "C136",
   "status": "partial",
   "theorems": [
    "Hazma.RhNeutrino.two_body_tree_level_partial",
    "Hazma.RhNeutrino.charged_pseudoscalar_contraction",
    "Hazma.RhNeutrino.charged_pseudoscalar_massless",
    "Hazma.RhNeutrino.radiative_width_scaling"
   ],
   "note": "Proved for nu P, l V, nu V. False for l P (charged pion or kaon): the code uses the vector-meson polynomial and overestimates the width; in the limit of a massless lepton by 1 + 2 x^2."
  },
  {
   "property": "C137",
   "status": "partial",
   "theorems": [
    "Hazma.RhNeutrino.msqrd_v_pi_pi_nonneg",
    "Hazma.RhNeutrino.msqrd_l_pi0_pi_nonneg",
    "Hazma.RhNeutrino.msqrd_v_l_l_nonneg",
    "Hazma.RhNeutrino.msqrd_flavour_nonneg",
    "Hazma.RhNeutrino.msqrd_flavour_negative_iff",
    "Hazma.RhNeutrino.msqrd_flavour_negative",
    "Hazma.RhNeutrino.msqrd_v_v_v_sign",
    "Hazma.RhNeutrino.msqrd_v_v_v_negative"
   ],
   "note": "False for flavour-changing channels with the heavier lepton listed last (momenta passed in the other order than the matrix element is written for) and for three neutrinos at negative mixing. Proved otherwise."
  },
  {
   "property": "C138",
   "status": "partial",
   "theorems": [
    "Hazma.GevCache.attributes_are_last_assigned",
    "Hazma.GevCache.hadronic_width_is_current_partial",
    "Hazma.GevCache.hadronic_width_value",
    "Hazma.GevCache.two_neutral_pions_never",
    "Hazma.GevCache.fermion_width_value",
    "Hazma.GevCache.fermion_width_new",
    "Hazma.GevCache.electron_width_is_stale",
    "Hazma.GevCache.dark_matter_width_is_stale",
    "Hazma.GevCache.assigning_mv_refreshes",
    "Hazma.GevCache.first_assignment_takes_effect",
    "Hazma.GevCache.total_width_value"
   ],
   "note": "True for every hadronic channel after any history, and for all channels right after mv is assigned. False for the fermion channels: the setters store what the cached method returns, so the width keeps the coupling (and dark matter mass) of the first evaluation since mv or a quark coupling was last assigned. The exact value is proved for every history. width_v_to_pi0_pi0 always raises AssertionError. The hadronic form factor widths are one deterministic function in the model."
  },
  {
   "property": "C139",
   "status": "partial",
   "theorems": [
    "Hazma.GevCache.eps_assignment_raises",
    "Hazma.GevCache.kinetic_mixing_couplings_fixed",
    "Hazma.GevCache.kinetic_mixing_widths_partial",
    "Hazma.GevCache.baryon_minus_lepton_hadrons_keep_first_g",
    "Hazma.GevCache.baryon_minus_lepton_attributes",
    "Hazma.GevCache.baryon_minus_lepton_hadrons_stale"
   ],
   "note": "False: assigning eps always raises AttributeError after storing the new eps, with all couplings unchanged; assigning g changes the attributes but the hadronic widths keep the g of construction for ever. Proved: the exact behaviour for every history, and that the Standard Model widths of a KineticMixingGeV are those of a new object with the eps of construction."
  },
  {
   "property": "C140",
   "status": "proved",
   "theorems": [
    "Hazma.GevXs.fermion_cross_section_factorises",
    "Hazma.GevXs.hadron_cross_section_factorises",
    "Hazma.GevXs.pi0_pi0_gamma_factorises",
    "Hazma.GevXs.ratio_of_cross_sections"
   ],
   "note": "Final states through an s-channel mediator; v v has none. Form factors are arbitrary functions of the energy. The hadronic statement excludes the pole of a mediator of zero width."
  },
  {
   "property": "C141",
   "status": "partial",
   "theorems": [
    "Hazma.GevXs.below_threshold_partial",
    "Hazma.GevXs.closed_final_state",
    "Hazma.GevXs.hadron_below_threshold"
   ],
   "note": "True for the leptons, pi0 pi0 gamma, v v, and for closed final states. False for the hadronic channels between the final-state threshold and 2 mx: the result is NaN, and at 2 mx an infinity."
  },
  {
   "property": "C142",
   "status": "partial",
   "theorems": [
    "Hazma.GevXs.vv_twice_mev",
    "Hazma.GevXs.vv_positive",
    "Hazma.GevXs.massless_vv_is_full_sphere",
    "Hazma.GevFeynman.vv_twice"
   ],
   "note": "False: the GeV result is exactly twice the MeV result for all arguments. For a massless mediator it is the integral over the full sphere without the factor one half for identical particles; the MeV result is the right one. Energies exactly at a threshold are excluded in vv_twice_mev."
  },
  {
   "property": "C143",
   "status": "partial",
   "theorems": [
    "Hazma.GevXs.vv_integer_energy",
    "Hazma.GevXs.vv_integer_differs"
   ],
   "note": "False: an int energy makes the result array an integer array, so the answer is rounded down; for every integer energy above threshold there is a coupling with a positive answer that becomes zero."
  },
  {
   "property": "C144",
   "status": "partial",
   "theorems": [
    "Hazma.GevXs.two_pseudoscalar_contraction",
    "Hazma.GevXs.two_pseudoscalar_equal",
    "Hazma.GevXs.polarisation_sum",
    "Hazma.GevXs.vector_structures",
    "Hazma.GevXs.closed_form_pp",
    "Hazma.GevXs.closed_form_pa",
    "Hazma.GevXs.closed_form_pv"
   ],
   "note": "Exact for photons and vectors and for two pseudoscalars of equal mass, the only ones used. For unequal masses the two-pseudoscalar structure lacks a term in the mass difference, given exactly."
  },
  {
   "property": "C145",
   "status": "partial",
   "theorems": [
    "Hazma.VectorThree.levi_transverse",
    "Hazma.VectorThree.ppp_contraction",
    "Hazma.VectorThree.ppp_nonneg",
    "Hazma.VectorThree.ppv_contraction",
    "Hazma.VectorThree.ppv_wrong_particle",
    "Hazma.VectorThree.vectorFirst_contraction"
   ],
   "note": "True for three pseudoscalars. For two pseudoscalars and a vector the public method treats the particle listed last as the vector while every class lists it first, so it returns the structure of the wrong particle (ppv_wrong_particle); the integrals use the right one."
  },
  {
   "property": "C146",
   "status": "proved",
   "theorems": [
    "Hazma.VectorThree.ppp2_is_phase_space",
    "Hazma.VectorThree.ppp2_partial_total",
    "Hazma.VectorThree.ppv_is_phase_space",
    "Hazma.VectorThree.ppv_partial_total"
   ],
   "note": "Exact integrals; any form factor; energies above threshold; positive vector mass."
  },
  {
   "property": "C147",
   "status": "proved",
   "theorems": [
    "Hazma.VectorThree.djde1_is_partial",
    "Hazma.VectorThree.djde2_is_partial",
    "Hazma.VectorThree.djde3_is_partial",
    "Hazma.VectorThree.density_spec",
    "Hazma.VectorThree.ppv_energy_distribution"
   ],
   "note": "Two pseudoscalars and a vector, any form factor not vanishing at the energy, any number of bins."
  },
  {
   "property": "C148",
   "status": "partial",
   "theorems": [
    "Hazma.VectorThree.ppv_invariant_mass_half"
   ],
   "note": "False for every input: the bins run from the largest to the smallest mass, the normalisation sees a negative area and is skipped, and the heights integrate to one half."
  },
  {
   "property": "C149",
   "status": "proved",
   "theorems": [
    "Hazma.Resonance.dhhatds_is_derivative",
    "Hazma.Resonance.gs_real_part",
    "Hazma.Resonance.running_width",
    "Hazma.Resonance.propagators",
    "Hazma.Resonance.propagators_absorptive"
   ],
   "note": "Resonances above the two-particle threshold; the derivative at the resonance mass for equal decay masses as used."
  },
  {
   "property": "C150",
   "status": "proved",
   "theorems": [
    "Hazma.Resonance.gamma_generator_values",
    "Hazma.Resonance.raw_couplings_closed",
    "Hazma.Resonance.lowest_coupling",
    "Hazma.Resonance.kk_couplings_sum",
    "Hazma.Resonance.pipi_couplings_sum"
   ],
   "note": "scipy.special.gamma is the exact Gamma function; real arithmetic."
  },
  {
   "property": "C151",
   "status": "partial",
   "theorems": [
    "Hazma.Resonance.find_beta_partial",
    "Hazma.Resonance.find_beta_wrong"
   ],
   "note": "False: the bisection decides with the value at the previous midpoint and returns the next one; a target just above c_0(7.5) gives 8.75, just below 6.25, exactly that value a RuntimeError. Proved: the outcome is determined; a returned value is only returned after some tested point met the tolerance; a target met at the first midpoint is returned; targets at or below zero raise."
  },
  {
   "property": "C152",
   "status": "partial",
   "theorems": [
    "Hazma.MesonFF.array_elementwise_partial",
    "Hazma.MesonFF.k0_k0_array",
    "Hazma.MesonFF.k0_k0_repeated",
    "Hazma.MesonFF.closed_channels"
   ],
   "note": "True for nine of the ten two-meson classes. False for K0 K0: the correction of the phi coupling multiplies the row of the first open energy instead of the first resonance, so values depend on the position in the array; the exact result is proved for every array. Fit data are arbitrary parameters."
  },
  {
   "property": "C153",
   "status": "partial",
   "theorems": [
    "Hazma.MesonFF.scalar_like_array_partial",
    "Hazma.MesonFF.scalar_not_converted",
    "Hazma.MesonFF.width_path"
   ],
   "note": "True for pi pi, pi0 pi0, K K, K0 K0, eta gamma. False for pi0 gamma, pi0 omega, pi0 phi, eta omega, eta phi: a scalar is returned before the conversion from GeV, so form_factor is 1000 times and integrated_form_factor 10^6 times the value in an array. Widths agree in both forms."
  },
  {
   "property": "C154",
   "status": "proved",
   "theorems": [
    "Hazma.MesonFF.linear_in_couplings",
    "Hazma.MesonFF.width_quadratic",
    "Hazma.MesonFF.selection_rules",
    "Hazma.MesonFF.kaon_exchange"
   ],
   "note": "Ten two-meson classes, arbitrary fit data. kaon_exchange is stated without coupling to strange quarks, since the phi terms use the kaon mass of the channel."
  },
  {
   "property": "C155",
   "status": "partial",
   "theorems": [
    "Hazma.MesonFF.alpha_em_constant",
    "Hazma.MesonFF.pi0_gamma_alpha"
   ],
   "note": "False: the mask that selects small scales is reversed, so from 1e-6 GeV^2 on the value is alpha(0) for every s, and zero and spacelike s give NaN."
  },
  {
   "property": "C156",
   "status": "partial",
   "theorems": [
    "Hazma.GevSpectra.energyOf_conserves",
    "Hazma.GevSpectra.photon_two_body",
    "Hazma.GevSpectra.lepton_two_body_partial",
    "Hazma.GevSpectra.lepton_kaons_halved",
    "Hazma.GevSpectra.pion_positrons_twice_mev"
   ],
   "note": "True for photons in all ten final states and for positrons and neutrinos in nine. False for two charged kaons: only one of them decays in the positron and neutrino spectra. Decay spectra and Altarelli-Parisi functions are parameters; electrons and photons do not decay."
  },
  {
   "property": "C157",
   "status": "proved",
   "theorems": [
    "Hazma.GevSpectra.line_energies",
    "Hazma.GevSpectra.energyOf_conserves"
   ],
   "note": "Real arithmetic."
  },
  {
   "property": "C158",
   "status": "partial",
   "theorems": [
    "Hazma.GevSpectra.photon_decays_partial",
    "Hazma.GevSpectra.photon_order",
    "Hazma.GevSpectra.lepton_order",
    "Hazma.GevSpectra.wrong_particles"
   ],
   "note": "True only for the photons of pi pi pi0 pi0. False elsewhere: seven final states pair the distributions with the particles in another order than the form factor, pi k k0 is treated as pi0 k k, and pions of four-pion states are treated as kaons. What is computed is proved for every input."
  },
  {
   "property": "C159",
   "status": "partial",
   "theorems": [
    "Hazma.GevSpectra.heavy_meson_lost",
    "Hazma.GevSpectra.pions_lost",
    "Hazma.Details.threshold_is_mass"
   ],
   "note": "False: up to 1415 (eta), 1984 (omega) and 2407 MeV (eta prime) the heavy meson contributes nothing, since its table is read at pion energies below its mass; up to 1125 MeV two of four charged pions are lost and up to 1115 MeV pi pi pi0 pi0 gives no positrons or neutrinos. Decay spectra are assumed to vanish below the parent's mass, as the tables do."
  },
  {
   "property": "C160",
   "status": "partial",
   "theorems": [
    "Hazma.GevSpectra.radiation_pairs",
    "Hazma.GevSpectra.no_radiation"
   ],
   "note": "True for pi pi pi0 pi0. False for pi pi pi0 (pair of a charged and a neutral pion), for four charged pions (three of four radiate) and for the other charged final states (no radiation)."
  },
  {
   "property": "C161",
   "status": "partial",
   "theorems": [
    "Hazma.GevSpectra.pi0_pi0_gamma_spectrum"
   ],
   "note": "False: the omega's decay products are multiplied by the branching fraction 0.0834; the exact spectrum is proved."
  },
  {
   "property": "C162",
   "status": "partial",
   "theorems": [
    "Hazma.GevSpectra.vv_lines",
    "Hazma.GevSpectra.lepton_vv_inverted"
   ],
   "note": "False: the photon lines have no branching fractions (four photons for every mediator above the eta mass) and the pion line uses the charged pion's mass; positron and neutrino spectra use the inverse Lorentz factor and vanish above threshold."
  },
  {
   "property": "C163",
   "status": "partial",
   "theorems": [
    "Hazma.GevSpectra.total_neutrino_is_dict"
   ],
   "note": "False as to the value returned: it is the dictionary of all spectra; its entry total is the sum."
  },
  {
   "property": "C164",
   "status": "proved",
   "theorems": [
    "Hazma.Detector.eval_energy_res"
   ],
   "note": "Every documented kind of callback; other exceptions and wrong lengths are errors."
  },
  {
   "property": "C165",
   "status": "proved",
   "theorems": [
    "Hazma.Detector.response_density"
   ],
   "note": "Exact integrals over the reconstructed energy."
  },
  {
   "property": "C166",
   "status": "proved",
   "theorems": [
    "Hazma.Detector.true_grid_resolves",
    "Hazma.Detector.geomspace_spec"
   ],
   "note": "The step is the target of a quarter of the resolution times N/(N-1), since N counts points and not intervals."
  },
  {
   "property": "C167",
   "status": "proved",
   "theorems": [
    "Hazma.Detector.convolution_conserves"
   ],
   "note": "For resolutions that do not vanish; a vanishing width carries no photons (C165)."
  },
  {
   "property": "C168",
   "status": "proved",
   "theorems": [
    "Hazma.Detector.convolution_linear"
   ],
   "note": ""
  },
  {
   "property": "C169",
   "status": "partial",
   "theorems": [
    "Hazma.Detector.convert_sigmav_partial"
   ],
   "note": "False for the documented name cm^3/s, which gives None for every input; true for cm^3 / s (with spaces) and MeV^-2."
  },
  {
   "property": "C170",
   "status": "proved",
   "theorems": [
    "Hazma.Fisher.fisher_information"
   ],
   "note": "Degree-1 splines on the default grid."
  },
  {
   "property": "C171",
   "status": "proved",
   "theorems": [
    "Hazma.Fisher.limit_rescaling"
   ],
   "note": ""
  },
  {
   "property": "C172",
   "status": "partial",
   "theorems": [
    "Hazma.Fisher.background_errors_partial"
   ],
   "note": "False for background parameters: their errors are too large by the factor dOmega, because the derivatives lack the solid angle; the limit on the rate is exact."
  },
  {
   "property": "C173",
   "status": "proved",
   "theorems": [
    "Hazma.Fisher.nuisance_weakens",
    "Hazma.Fisher.no_signal_nan"
   ],
   "note": "A spectrum that vanishes on the grid gives NaN."
  },
  {
   "property": "C174",
   "status": "proved",
   "theorems": [
    "Hazma.Fisher.fisher_le_unbinned",
    "Hazma.Fisher.limit_no_nuisance"
   ],
   "note": "Same nodes for both integrals; windows made of grid cells."
  },
  {
   "property": "C175",
   "status": "proved",
   "theorems": [
    "Hazma.Fisher.gc_derivatives"
   ],
   "note": "Positive energies and cutoff, non-zero amplitudes (NaN otherwise in the code)."
  },
  {
   "property": "C176",
   "status": "partial",
   "theorems": [
    "Hazma.Fisher.gc_params_partial"
   ],
   "note": "False: the exponential index is reported as the cutoff energy; right exactly when the two coincide."
  },
  {
   "property": "C177",
   "status": "partial",
   "theorems": [
    "Hazma.Fisher.gecco_derivatives_partial",
    "Hazma.Fisher.gecco_sign_harmless",
    "Hazma.Fisher.gecco_models_agree"
   ],
   "note": "False for the power-law index, whose derivative has the wrong sign except at 1 MeV or for zero amplitude; no forecast limit depends on that sign."
  },
  {
   "property": "C178",
   "status": "partial",
   "theorems": [
    "Hazma.Fisher.background_range_partial"
   ],
   "note": "False: outside the range the function value is returned with a warning, never NaN."
  },
  {
   "property": "C179",
   "status": "proved",
   "theorems": [
    "Hazma.RelicLimit.limit_on_relic_curve",
    "Hazma.RelicLimit.limit_ignores_current_value",
    "Hazma.RelicLimit.limit_nan_iff"
   ],
   "note": "Models without hidden state. The root finder is any adaptive procedure that returns only roots inside the bracket; its tolerance is taken as zero."
  },
  {
   "property": "C180",
   "status": "partial",
   "theorems": [
    "Hazma.RelicLimit.copy_attributes",
    "Hazma.RelicLimit.original_answers_for_copy",
    "Hazma.RelicLimit.copy_changes_hadronic_widths",
    "Hazma.RelicLimit.original_recovers_partial"
   ],
   "note": "False: copy.copy of a VectorMediatorGeV shares the width cache, so the original answers with the copy's widths. True for attributes, and for widths once the original's mv is assigned again."
  },
  {
   "property": "C181",
   "status": "partial",
   "theorems": [
    "Hazma.RelicLimit.gev_limit_keeps_attributes",
    "Hazma.RelicLimit.gev_limit_overwrites_widths",
    "Hazma.RelicLimit.limit_on_relic_curve"
   ],
   "note": "True for attributes. False for VectorMediatorGeV as to widths: after a limit found by varying gvuu the caller's model returns the two-pion width of the value that was found."
  },
  {
   "property": "C182",
   "status": "partial",
   "theorems": [
    "Hazma.RelicLimit.gev_limit_uses_first_width",
    "Hazma.RelicLimit.gev_limit_off_relic_curve"
   ],
   "note": "False for VectorMediatorGeV and gvxx: the search uses the total width of the first value tried throughout; a new model with the value found has another relic density whenever the relic density depends on the width."
  },
  {
   "property": "C183",
   "status": "proved",
   "theorems": [
    "Hazma.Pbh.construct_spec",
    "Hazma.Pbh.conversion_keeps_number"
   ],
   "note": "Parsed tables; the text format of the header is modelled as mantissa and exponent."
  },
  {
   "property": "C184",
   "status": "proved",
   "theorems": [
    "Hazma.Pbh.spectrum_fraction",
    "Hazma.Pbh.interp1d_spec"
   ],
   "note": "Increasing energies. Negative and vanishing fractions give no photons."
  },
  {
   "property": "C185",
   "status": "partial",
   "theorems": [
    "Hazma.Pbh.history",
    "Hazma.Pbh.spectrum_of_mass_partial",
    "Hazma.Pbh.failed_assignment_keeps_spectrum",
    "Hazma.Pbh.kind_is_fixed"
   ],
   "note": "True as long as no mass outside the table is assigned. False otherwise: the assignment raises IndexError but stores the mass, and the spectrum stays that of the former mass."
  },
  {
   "property": "C186",
   "status": "partial",
   "theorems": [
    "Hazma.Pbh.interface_partial"
   ],
   "note": "False: list_decay_final_states returns None (the override is misspelt) and positron_spectra and positron_lines raise AttributeError for every object; widths, spectra and photon lines are consistent."
  },
  {
   "property": "C187",
   "status": "proved",
   "theorems": [
    "Hazma.Quad.levels_count_bisections"
   ],
   "note": "Exact arithmetic."
  },
  {
   "property": "C188",
   "status": "partial",
   "theorems": [
    "Hazma.RhNeutrino.vll_flavour_partial",
    "Hazma.RhNeutrino.vll_second_lepton_ignored",
    "Hazma.RhNeutrino.vll_violates_flavour"
   ],
   "note": "True for neutrinos of another generation than the right-handed one. False for the same generation: the second lepton is ignored, so the forbidden v_e e mu has the width of v_e e e, and v_e mu e that of v_e mu mu."
  },
  {
   "property": "C189",
   "status": "proved",
   "theorems": [
    "Hazma.PhotonTables.in_flight_spectrum",
    "Hazma.PhotonTables.at_rest_spectrum",
    "Hazma.PhotonTables.branch_total",
    "Hazma.PhotonTables.parse_spec"
   ],
   "note": "Any table with positive increasing energies, any lines. The boost integral of the table itself is C18-C20. Fused multiply-adds taken as exact."
  },
  {
   "property": "C190",
   "status": "partial",
   "theorems": [
    "Hazma.PhotonTables.spectrum_nonneg",
    "Hazma.PhotonTables.boost_integrate_nonneg",
    "Hazma.PhotonTables.negative_energy_value"
   ],
   "note": "True at every positive photon energy. False at negative energies, which are not rejected: the value is the negative number y0*x0/E."
  },
  {
   "property": "C191",
   "status": "partial",
   "theorems": [
    "Hazma.PhotonTables.line_energies_partial",
    "Hazma.PhotonTables.phi_line_is_daughter_energy",
    "Hazma.PhotonTables.phi_photons_beyond_endpoint"
   ],
   "note": "True for kaons, eta, eta' and omega. False for the phi: its lines are at the energy of the recoiling meson, so a phi in flight emits photons above the kinematic endpoint."
  },
  {
   "property": "C192",
   "status": "partial",
   "theorems": [
    "Hazma.PhotonTables.line_weights_partial",
    "Hazma.PhotonTables.etap_line_half"
   ],
   "note": "False for the eta': its two-photon line carries one photon per decay."
  },
  {
   "property": "C193",
   "status": "partial",
   "theorems": [
    "Hazma.PhotonTables.lines_complete_partial",
    "Hazma.PhotonTables.missing_lines",
    "Hazma.PhotonTables.lines_lost_at_rest"
   ],
   "note": "True in flight for kaons, eta and omega. False: eta' -> rho gamma, eta' -> omega gamma and phi -> pi0 gamma have no line, and at rest all lines are left out."
  },
  {
   "property": "C194",
   "status": "proved",
   "theorems": [
    "Hazma.Special.spence_accurate",
    "Hazma.Special.spence_accurate_near_one",
    "Hazma.Special.spence_is_spectra_spence"
   ],
   "note": "Exact arithmetic with the coefficients of the code: the error of the approximation itself, not of rounding. The bound on the error polynomial is a rational computation done by the kernel on eight intervals that cover the domain."
  },
  {
   "property": "C195",
   "status": "proved",
   "theorems": [
    "Hazma.Special.bessel_kn_spec",
    "Hazma.Special.bessel_recurrence",
    "Hazma.Special.bessel_order"
   ],
   "note": "The cephes functions K0 and K1 are assumed exact."
  },
  {
   "property": "C196",
   "status": "proved",
   "theorems": [
    "Hazma.BoostFn.boosted_value",
    "Hazma.BoostFn.boost_conserves_number",
    "Hazma.BoostFn.boost_multiplies_energy",
    "Hazma.BoostFn.boost_support",
    "Hazma.Details.trapz_exact"
   ],
   "note": "scipy's quad is taken as the exact integral. Velocities from the machine epsilon up to, not including, one; any integrable spectrum."
  },
  {
   "property": "C197",
   "status": "partial",
   "theorems": [
    "Hazma.BoostFn.boost_unphysical_partial",
    "Hazma.BoostFn.boost_negative_beta"
   ],
   "note": "True above the speed of light. False for negative velocities: the test for small velocities comes first and returns the rest-frame spectrum."
  },
  {
   "property": "C198",
   "status": "partial",
   "theorems": [
    "Hazma.BoostFn.boost_at_rest_partial",
    "Hazma.BoostFn.boost_at_rest_drops_args"
   ],
   "note": "True for spectra without extra arguments. False with extra arguments: at rest the spectrum is called without them and raises TypeError."
  },
  {
   "property": "C199",
   "status": "partial",
   "theorems": [
    "Hazma.BoostFn.marginal_between_partial",
    "Hazma.BoostFn.marginalize_default_fails",
    "Hazma.BoostFn.trapezoid_rejected"
   ],
   "note": "True with vectorized=False. False with the defaults of marginalize: vectorized=True makes np.vectorize collect whole rows, which raises ValueError for two or more product energies; the documented method name 'trapezoid' raises AssertionError."
  },
  {
   "property": "C200",
   "status": "proved",
   "theorems": [
    "Hazma.SoftComplex.ilogb_spec",
    "Hazma.SoftComplex.scalbn_spec",
    "Hazma.SoftComplex.quotient_spec",
    "Hazma.SoftComplex.quotient_refines"
   ],
   "note": "Rounding and overflow are not modelled; subnormal denominators are."
  },
  {
   "property": "C201",
   "status": "proved",
   "theorems": [
    "Hazma.SoftComplex.pow15_spec"
   ],
   "note": "Exact arithmetic; finite arguments."
  },
  {
   "property": "C202",
   "status": "proved",
   "theorems": [
    "Hazma.LeptonTables.positron_in_flight",
    "Hazma.LeptonTables.neutrino_in_flight",
    "Hazma.LeptonTables.positron_number"
   ],
   "note": "The quadratic spline of the neutrino tables is an arbitrary function; positive lower end of the neutrino tables assumed."
  },
  {
   "property": "C203",
   "status": "partial",
   "theorems": [
    "Hazma.LeptonTables.positron_at_rest_partial",
    "Hazma.LeptonTables.rest_negative_beyond",
    "Hazma.LeptonTables.in_flight_zero_beyond",
    "Hazma.LeptonTables.rest_array_nan",
    "Hazma.LeptonTables.positron_edge_cases"
   ],
   "note": "False in the code outside the table for a parent at rest (`_positron/_utils.py:44`, `_positron/_utils.py:71`): the spline extrapolates, so the spectrum is negative above the end point of every table that ends in a zero (charged kaon, eta, phi, rho, short kaon), and an array of energies gives NaN below the electron mass where a single energy gives 0. A Python integer as energy raises AssertionError. Proved: tabulated values, non-negativity inside the table, zero beyond the boosted end point in flight."
  },
  {
   "property": "C204",
   "status": "partial",
   "theorems": [
    "Hazma.LeptonTables.flavour_rows_partial",
    "Hazma.LeptonTables.scalar_flavour_is_array",
    "Hazma.LeptonTables.unknown_flavour_zero"
   ],
   "note": "False in the code for single energies (`_neutrino/_utils.py:97`, `_neutrino/_utils.py:109`): asking for a flavour returns a one-element array although the overloads promise a float, and an unknown flavour name silently gives zeros instead of a ValueError as for muons and charged pions. Proved for arrays."
  },
  {
   "property": "C205",
   "status": "partial",
   "theorems": [
    "Hazma.LeptonTables.columns_conserve_charge_partial",
    "Hazma.LeptonTables.rho_tables_interchanged"
   ],
   "note": "False in the data: the neutrino tables of the charged and neutral rho are interchanged (`charged_rho_neutrino_*.csv` is the mode pi pi with twice the yield, `neutral_rho_neutrino_*.csv` the mode pi pi0), so the neutral rho gives half and the charged rho twice the neutrinos. The headers are what is modelled; the numbers are not."
  },
  {
   "property": "C206",
   "status": "proved",
   "theorems": [
    "Hazma.FsrGen.fsr_arguments"
   ],
   "note": "The exceptions are ValueError and RamboCMETooSmall; NaN is not modelled."
  },
  {
   "property": "C207",
   "status": "proved",
   "theorems": [
    "Hazma.FsrGen.fsr_support"
   ],
   "note": "Quadrature and Monte-Carlo routines are arbitrary."
  },
  {
   "property": "C208",
   "status": "proved",
   "theorems": [
    "Hazma.FsrGen.fsr_constants_cancel"
   ],
   "note": "The libraries are assumed to return results that scale with the integrand (relative tolerances); absolute tolerances are not modelled."
  },
  {
   "property": "C209",
   "status": "proved",
   "theorems": [
    "Hazma.FsrGen.fsr_only_physical",
    "Hazma.FsrGen.rad_event",
    "Hazma.FsrGen.two_body_physical"
   ],
   "note": "The three-body and RAMBO integrators are assumed to evaluate matrix elements on physical events only."
  },
  {
   "property": "C210",
   "status": "proved",
   "theorems": [
    "Hazma.FsrGen.fsr_is_three_body_distribution",
    "Hazma.FsrGen.fsr_total",
    "Hazma.FsrGen.fsr_backends_agree_flat"
   ],
   "note": "Exact quadrature; radiative matrix elements are continuous functions of the two invariants of photon and particle, the non-radiative one is constant on physical events; agreement of the backends for a constant radiative matrix element."
  },
  {
   "property": "C211",
   "status": "partial",
   "theorems": [
    "Hazma.Xs.xg_continuous",
    "Hazma.Xs.xs_continuous",
    "Hazma.Xs.xpi_gap",
    "Hazma.Xs.xl_gap"
   ],
   "note": "True for photons (`scalar_xs.rs:736`: the zero returned at e = 2 mx is the limit, so the guard is right) and for mediators (`scalar_xs.rs:789`). False for leptons and pions (`scalar_xs.rs:397`, `scalar_xs.rs:586`): at e = 2 mx the kernels divide zero by zero although the limit is finite and positive. Exact arithmetic."
  },
  {
   "property": "C212",
   "status": "proved",
   "theorems": [
    "Hazma.Xs.elastic_nonneg",
    "Hazma.Xs.elastic_pion_mean",
    "Hazma.Xs.xg_eq_mean",
    "Hazma.Xs.mean_crossed_pos",
    "Hazma.Xs.elastic_channels"
   ],
   "note": "For positive mediator mass, width and dark-matter mass; division by zero is `none`."
  },
  {
   "property": "C213",
   "status": "partial",
   "theorems": [
    "Hazma.Xs.xs_negative",
    "Hazma.Xs.xs_nonneg_partial",
    "Hazma.Xs.xs_light_nonneg_partial",
    "Hazma.Xs.xs_is_compton",
    "Hazma.Xs.compton_nonneg",
    "Hazma.Xs.xs_heavy_negative"
   ],
   "note": "False: sigma_xs_to_xs is negative for mx = 1, ms = 3 at e = 4.5 (`scalar_xs.rs:784`), where the range of momentum transfers contains the pole of the crossed channel. True at every energy for mediators with 2 ms^2 < 3 mx^2 (xs_light_nonneg_partial): the range then has no pole and the kernel is the mean of the squared amplitude, a sum of squares. False for every mediator heavier than 2 mx just above sqrt(2 ms^2 + mx^2) (xs_heavy_negative). Masses in between remain open."
  },
  {
   "property": "C214",
   "status": "partial",
   "theorems": [
    "Hazma.Xs.pionBar_annihilation",
    "Hazma.Xs.elastic_pion_partial",
    "Hazma.Xs.range_physical_iff",
    "Hazma.Xs.xg_threshold"
   ],
   "note": "False: the elastic kernels integrate over the momentum transfers of annihilation kinematics, 4 mx^2 - s to 0 (`scalar_xs.rs:397-775`), which is the physical range only for targets as heavy as the dark matter; and the pion kernels are half the crossed cross section. Proved: the amplitude in the pion kernels is the crossed annihilation amplitude."
  },
  {
   "property": "C215",
   "status": "proved",
   "theorems": [
    "Hazma.FourPion.current_conserved",
    "Hazma.FourPion.msqrd_nonneg",
    "Hazma.FourPion.msqrd_pos_example"
   ],
   "note": "Exact arithmetic; a quotient by zero is zero in the model, C218 says where that cannot happen."
  },
  {
   "property": "C216",
   "status": "proved",
   "theorems": [
    "Hazma.FourPion.charged_exchange"
   ],
   "note": ""
  },
  {
   "property": "C217",
   "status": "partial",
   "theorems": [
    "Hazma.FourPion.neutral_wrong_statistics",
    "Hazma.FourPion.neutral_not_bose",
    "Hazma.FourPion.msqrd_exchange_partial"
   ],
   "note": "False: `_fsp_masses` puts the charged pions first (`_pi_pi_pi_pi.py:160-161`) but `_msqrd` hands the first two momenta to `_current_neutral` as the neutral ones (`_pi_pi_pi_pi.py:648`), so the current is odd under exchange of the identical neutral pions and even under exchange of the charged ones, and energy distributions are attributed to the wrong pions. The squared matrix element is symmetric under both exchanges."
  },
  {
   "property": "C218",
   "status": "partial",
   "theorems": [
    "Hazma.FourPion.propagators_finite",
    "Hazma.FourPion.bw3_cut",
    "Hazma.FourPion.a1_width_sign"
   ],
   "note": "True for the f0 and omega, and for rho propagators with any parameters. The a1 width becomes negative below 9 mpi^2 (`_pi_pi_pi_pi.py:228-234`), a region that three pions reach when one of them is neutral."
  },
  {
   "property": "C219",
   "status": "proved",
   "theorems": [
    "Hazma.FourPion.current_covariant",
    "Hazma.FourPion.msqrd_invariant"
   ],
   "note": ""
  },
  {
   "property": "C220",
   "status": "partial",
   "theorems": [
    "Hazma.FourPion.form_factor_raises",
    "Hazma.Details.broadcast_laws"
   ],
   "note": "False: the local name `q2` is reused for the mean total energy (`_pi_pi_pi_pi.py:614`), so a number is passed where a momentum is expected and `ldot` raises IndexError for every input; the same line also uses the energy instead of its square."
  },
  {
   "property": "C221",
   "status": "partial",
   "theorems": [
    "Hazma.FourPion.third_beta_ignored",
    "Hazma.FourPion.rho_t_weights",
    "Hazma.FourPion.other_arguments_stored_partial"
   ],
   "note": "False: `beta_t_rho2=beta_b_rhos[1]` (`_pi_pi_pi_pi.py:186`) instead of `[2]`. All other arguments are stored."
  },
  {
   "property": "C222",
   "status": "proved",
   "theorems": [
    "Hazma.FourPion.integrated_couplings",
    "Hazma.FourPion.below_threshold",
    "Hazma.FourPion.width_nonneg",
    "Hazma.FourPion.cross_section_width"
   ],
   "note": "Random numbers are an argument; exactly at threshold the generator divides by zero, which is excluded. Below twice the dark matter mass the cross section is NaN."
  },
  {
   "property": "C223",
   "status": "proved",
   "theorems": [
    "Hazma.FourPion.parameters_local"
   ],
   "note": ""
  },
  {
   "property": "C224",
   "status": "proved",
   "theorems": [
    "Hazma.MesonThree.three_pion_finite_iff",
    "Hazma.MesonThree.three_pion_phase_space",
    "Hazma.MesonThree.default_good"
   ],
   "note": "Exact arithmetic: rounding at the edge of the Dalitz plot is not modelled."
  },
  {
   "property": "C225",
   "status": "proved",
   "theorems": [
    "Hazma.MesonThree.three_pion_charge_conjugation",
    "Hazma.MesonThree.three_pion_phase_space"
   ],
   "note": ""
  },
  {
   "property": "C226",
   "status": "proved",
   "theorems": [
    "Hazma.MesonThree.three_pion_linear",
    "Hazma.MesonThree.eta_isovector",
    "Hazma.MesonThree.omega_isoscalar",
    "Hazma.MesonThree.kk_couplings"
   ],
   "note": ""
  },
  {
   "property": "C227",
   "status": "proved",
   "theorems": [
    "Hazma.MesonThree.eta_amplitude_scale",
    "Hazma.MesonThree.etap_ratio"
   ],
   "note": ""
  },
  {
   "property": "C228",
   "status": "proved",
   "theorems": [
    "Hazma.MesonThree.eta_finite_iff",
    "Hazma.MesonThree.default_good_eta",
    "Hazma.MesonThree.default_good_etap"
   ],
   "note": ""
  },
  {
   "property": "C229",
   "status": "partial",
   "theorems": [
    "Hazma.MesonThree.eta_closed_partial",
    "Hazma.MesonThree.etap_below_threshold"
   ],
   "note": "True for the eta. False for the eta': its form_factor has no threshold (`_pi_pi_etap.py:141-161`) and is different from zero below it."
  },
  {
   "property": "C230",
   "status": "partial",
   "theorems": [
    "Hazma.MesonThree.omega_array"
   ],
   "note": "False: `np.sum` without an axis over arrays broadcast with the energies (`_pi_pi_omega.py:83-88`): ValueError unless there are one or three energies, and a single number then. `_pi_k_k.py:144-157` has the same sum."
  },
  {
   "property": "C231",
   "status": "proved",
   "theorems": [
    "Hazma.MesonThree.omega_identical"
   ],
   "note": "The quadrature is the exact integral. The polarisation sum is that of VectorThree.vectorFirst (see C145)."
  },
  {
   "property": "C232",
   "status": "partial",
   "theorems": [
    "Hazma.MesonThree.kk_exchange_partial",
    "Hazma.MesonThree.kk_documented_variables"
   ],
   "note": "True with s and t the pairs (2,3) and (1,3) of `fsp_masses`, which puts the pion last. False for the documented variables (`_pi_k_k.py:197-200`: s the mass of the kaons)."
  },
  {
   "property": "C233",
   "status": "proved",
   "theorems": [
    "Hazma.MesonThree.kk_charge_symmetry",
    "Hazma.MesonThree.kk_isospin_relation"
   ],
   "note": "Stated with common masses; the classes use the physical masses in the K* propagators."
  },
  {
   "property": "C234",
   "status": "partial",
   "theorems": [
    "Hazma.MesonThree.integer_energy",
    "Hazma.MesonThree.integer_energy_zero"
   ],
   "note": "False: `np.zeros_like(np.atleast_1d(q))` has the type of the energies (`_three_body.py:251`, `:574`, `:866`), so an integer energy drops the fractional part; width and cross_section convert to float first."
  },
  {
   "property": "C235",
   "status": "partial",
   "theorems": [
    "Hazma.RamboEstimate.batched_mean",
    "Hazma.RamboEstimate.unbatched_mean",
    "Hazma.RamboEstimate.batched_nan_wrong"
   ],
   "note": "True when no weight is NaN. False otherwise: `_rambo.py:461-462` averages the batch averages although nanmean makes their sizes different."
  },
  {
   "property": "C236",
   "status": "partial",
   "theorems": [
    "Hazma.RamboEstimate.unbatched_error",
    "Hazma.RamboEstimate.error_nan",
    "Hazma.RamboEstimate.batched_error",
    "Hazma.RamboEstimate.error_batch_one"
   ],
   "note": "True without NaN for one batch and, as a stratified error, for batches of two or more. False with NaN (divided by the number of all points, `_rambo.py:457,470`) and for batch_size=1, where nansum turns the NaN errors into an error of exactly 0 (`_rambo.py:464`)."
  },
  {
   "property": "C237",
   "status": "proved",
   "theorems": [
    "Hazma.RamboEstimate.massless_exact",
    "Hazma.Resonances.weights_times_matrix_element"
   ],
   "note": "For draws in range whose momenta are not all parallel."
  },
  {
   "property": "C238",
   "status": "proved",
   "theorems": [
    "Hazma.RamboEstimate.integrate_scale",
    "Hazma.RamboEstimate.integral_bounds",
    "Hazma.RamboEstimate.cross_section_flux",
    "Hazma.Resonances.massless_exact_constant"
   ],
   "note": ""
  },
  {
   "property": "C239",
   "status": "partial",
   "theorems": [
    "Hazma.RamboEstimate.unbatched_distributions_partial",
    "Hazma.RamboEstimate.batched_distributions_raise"
   ],
   "note": "False: with batch_size set, floats are added in place to integer histograms (`_rambo.py:584-593`, `:653-662`), which NumPy refuses. Unbatched calls work."
  },
  {
   "property": "C240",
   "status": "proved",
   "theorems": [
    "Hazma.RamboEstimate.distribution_density",
    "Hazma.RamboEstimate.histogram_total"
   ],
   "note": "Weights that are numbers; exact arithmetic."
  },
  {
   "property": "C241",
   "status": "partial",
   "theorems": [
    "Hazma.RamboEstimate.conserving_counted_partial",
    "Hazma.RamboEstimate.two_body_above",
    "Hazma.RamboEstimate.two_body_dropped"
   ],
   "note": "True for events of exactly the right energy. False for the events generated: Newton's method approaches the scale from above, so for two bodies of different masses every event falls above the last edge (`_utils.py:41`, `_rambo.py:582`) and the distributions vanish. In floating point the outcome is decided by rounding."
  },
  {
   "property": "C242",
   "status": "proved",
   "theorems": [
    "Hazma.RamboEstimate.mass_distribution_of_pair"
   ],
   "note": ""
  },
  {
   "property": "C243",
   "status": "partial",
   "theorems": [
    "Hazma.VectorPi0PiPi.sigma_raises_near_threshold",
    "Hazma.VectorPi0PiPi.dsigma_raises_low",
    "Hazma.VectorPi0PiPi.dsigma_raises_high",
    "Hazma.VectorPi0PiPi.dsigma_pos_partial",
    "Hazma.VectorPi0PiPi.sigma_returns_partial"
   ],
   "note": "False: the polynomial of `_vector_mediator_cross_sections.py:286-303` is negative close to the lower end of the invariant mass for energies below 500 MeV and close to the upper end above 2.4 GeV, so `assert ret_val.real >= 0` fails; every call between threshold and 500 MeV raises. True between 520 MeV and 1.8 GeV. Between these ranges nothing is claimed."
  },
  {
   "property": "C244",
   "status": "proved",
   "theorems": [
    "Hazma.VectorPi0PiPi.closed_zero",
    "Hazma.VectorPi0PiPi.isovector_zero",
    "Hazma.VectorPi0PiPi.value_couplings"
   ],
   "note": ""
  },
  {
   "property": "C245",
   "status": "partial",
   "theorems": [
    "Hazma.MediatorSpectra.scalar_spectra_array",
    "Hazma.MediatorSpectra.vector_spectra_array_partial",
    "Hazma.MediatorSpectra.vector_empty_array_raises"
   ],
   "note": "True for the scalar mediator and for non-empty arrays of the vector mediator. False for an empty array of the vector mediator: np.vectorize (`_vector_mediator_spectra.py:15,32-33`) raises ValueError on size zero."
  },
  {
   "property": "C246",
   "status": "partial",
   "theorems": [
    "Hazma.MediatorSpectra.totalSpectrum_float",
    "Hazma.MediatorSpectra.scalar_spectra_float",
    "Hazma.MediatorSpectra.vector_spectra_float",
    "Hazma.MediatorSpectra.numpy_float"
   ],
   "note": "total_spectrum accepts a float. spectra does not: the zero parts of e e, pi0 pi0 and pi0 g are built with len(e_gams) (`_scalar_mediator_spectra.py:20,46`, `_vector_mediator_spectra.py:24,54`), so a float raises TypeError exactly when one of these channels is open."
  },
  {
   "property": "C247",
   "status": "partial",
   "theorems": [
    "Hazma.MediatorSpectra.scalar_spectra_list",
    "Hazma.MediatorSpectra.vector_spectra_list_raises"
   ],
   "note": "False: a closed channel asks the list for its shape (`theory/__init__.py:184`) and dnde_decay_v takes arrays only. True for the scalar mediator when every channel is open."
  },
  {
   "property": "C248",
   "status": "partial",
   "theorems": [
    "Hazma.MediatorSpectra.kinds",
    "Hazma.MediatorSpectra.string_modes",
    "Hazma.MediatorSpectra.string_ppg_counts_decays",
    "Hazma.MediatorSpectra.unknown_modes",
    "Hazma.MediatorSpectra.misspelt_modes_zero"
   ],
   "note": "True for spectrum_type. False for the modes of the mediator pair: misspelt names give exactly zero, and a single string is searched for substrings, so \"pi pi g\" also counts the decays of the pions."
  },
  {
   "property": "C249",
   "status": "partial",
   "theorems": [
    "Hazma.PhaseApi.integrate_below",
    "Hazma.PhaseApi.mass_below",
    "Hazma.PhaseApi.energy_below_partial",
    "Hazma.PhaseApi.forbidden_distribution"
   ],
   "note": "True for integrate and invariant_mass_distributions. energy_distributions has no threshold check (`_three_body.py:581-626`): the densities vanish unless one particle is heavier than the energy plus the two other masses; then the bounds (`_three_body.py:306-322`) describe another region and a positive normalised density is returned for that particle."
  },
  {
   "property": "C250",
   "status": "partial",
   "theorems": [
    "Hazma.PhaseApi.methods_accepted_partial",
    "Hazma.PhaseApi.documented_methods_raise",
    "Hazma.PhaseApi.too_few_bins"
   ],
   "note": "False for invariant_mass_distributions: the documented 'trapz' and 'simps' always raise ValueError (`_three_body.py:708-733`)."
  },
  {
   "property": "C251",
   "status": "partial",
   "theorems": [
    "Hazma.PhaseApi.integrator_name_ignored",
    "Hazma.PhaseApi.trapz_is_not_quad",
    "Hazma.PhaseApi.integrator_other_partial",
    "Hazma.PhaseApi.integrator_unknown"
   ],
   "note": "False: `_nbody.py:203-206,247-250` does not pass the name on, so 'trapz' and 'simps' are 'quad'. True for other multiplicities; unknown names raise for three or more particles only."
  },
  {
   "property": "C252",
   "status": "partial",
   "theorems": [
    "Hazma.PhaseApi.signatures_agree_partial",
    "Hazma.PhaseApi.st_raises_with_rambo",
    "Hazma.PhaseApi.signature_ignored_by_rambo",
    "Hazma.PhaseApi.signature_mismatch"
   ],
   "note": "True for the quadrature. False for 'rambo': the matrix element is handed to Rambo unconverted (`_nbody.py:208,252-254`), so one of s and t raises TypeError."
  },
  {
   "property": "C253",
   "status": "partial",
   "theorems": [
    "Hazma.PhaseApi.two_body_momenta",
    "Hazma.PhaseApi.two_body_invariant",
    "Hazma.PhaseApi.two_body_default",
    "Hazma.PhaseApi.two_body_momenta_below"
   ],
   "note": "True with a matrix element. Without one the signature 'momenta' raises TypeError, because the flat matrix element returns an array of zeros for an array (`_two_body.py:16-20`)."
  },
  {
   "property": "C254",
   "status": "partial",
   "theorems": [
    "Hazma.PhaseApi.expect_quad_constant_partial",
    "Hazma.PhaseApi.expect_methods_close_partial",
    "Hazma.PhaseApi.expect_methods_differ"
   ],
   "note": "False except for constants: the methods discretise differently (expect_methods_differ). For Lipschitz functions and non-negative probabilities they differ by at most the Lipschitz constant times the bin width times the expectation value of one (expect_methods_close_partial)."
  },
  {
   "property": "C255",
   "status": "proved",
   "theorems": [
    "Hazma.CythonKernels.kernels_agree"
   ],
   "note": "Exact arithmetic: single-precision rounding and quadrature error are not modelled. The positron kernel cuts its integral at a computed energy in Cython and at a literal in Rust; the integrand vanishes between the two."
  },
  {
   "property": "C256",
   "status": "proved",
   "theorems": [
    "Hazma.CythonKernels.photon_tables"
   ],
   "note": "Mediator masses above 0.2 MeV (below, no charged pion or muon exists and the grid is reversed)."
  },
  {
   "property": "C257",
   "status": "proved",
   "theorems": [
    "Hazma.CythonKernels.photon_endpoint"
   ],
   "note": "For the vector mediator below the pion mass the fraction into pi0 gamma must be zero, as it is for every model."
  },
  {
   "property": "C258",
   "status": "proved",
   "theorems": [
    "Hazma.CythonKernels.scalar_decay_uses_spectra"
   ],
   "note": "For charged pions the spectrum is replaced by its table (C256)."
  },
  {
   "property": "C259",
   "status": "partial",
   "theorems": [
    "Hazma.CythonKernels.vector_pi0_photons_partial",
    "Hazma.CythonKernels.vector_pi0_window",
    "Hazma.CythonKernels.window_size"
   ],
   "note": "False for mediator masses between the pion mass and about 135.21 MeV: the decay code takes 134.9766 MeV for the pion mass, the photon kernel 134.9768 MeV, so the pion's energy is below the kernel's threshold and the spectrum is zero. True for all larger masses."
  },
  {
   "property": "C260",
   "status": "proved",
   "theorems": [
    "Hazma.CythonKernels.positron_tables"
   ],
   "note": "Mediator masses above twice the electron mass."
  },
  {
   "property": "C261",
   "status": "proved",
   "theorems": [
    "Hazma.CythonKernels.positron_range"
   ],
   "note": "Moving mediators; exact integral in place of quadrature."
  },
  {
   "property": "C262",
   "status": "proved",
   "theorems": [
    "Hazma.ThermalTotal.scalar_same_channels",
    "Hazma.ThermalTotal.vector_same_channels"
   ],
   "note": "Positive masses and width."
  },
  {
   "property": "C263",
   "status": "proved",
   "theorems": [
    "Hazma.ThermalTotal.no_leptons_same_average"
   ],
   "note": "Exact integrals; positive masses and width."
  },
  {
   "property": "C264",
   "status": "partial",
   "theorems": [
    "Hazma.ThermalTotal.vector_average_exceeds_total",
    "Hazma.ThermalTotal.average_is_not_of_total",
    "Hazma.ThermalTotal.no_leptons_same_average"
   ],
   "note": "False: the compiled sum uses lepton masses 0.510998928 and 105.6583715 MeV, the reported channels 0.5109989461 and 105.6583745 MeV. For a vector mediator coupled to leptons the averaged cross section is strictly larger at every energy; between the two muon thresholds the reported total of a muon-philic model is zero while the averaged one is positive. True without lepton couplings (no_leptons_same_average)."
  },
  {
   "property": "C265",
   "status": "proved",
   "theorems": [
    "Hazma.ThermalTotal.average_close_to_total"
   ],
   "note": "Positive masses and width."
  },
  {
   "property": "C266",
   "status": "proved",
   "theorems": [
    "Hazma.LimitsApi.constrain_sequence"
   ],
   "note": "For any limit, as a function that may raise."
  },
  {
   "property": "C267",
   "status": "partial",
   "theorems": [
    "Hazma.LimitsApi.constrain_iterator_refused",
    "Hazma.LimitsApi.constrain_sequence"
   ],
   "note": "False: len() is taken of the argument, so every iterator or generator raises TypeError; sequences work."
  },
  {
   "property": "C268",
   "status": "proved",
   "theorems": [
    "Hazma.LimitsApi.telescope_values"
   ],
   "note": "binned_limit is an arbitrary function of measurement, significance and method."
  },
  {
   "property": "C269",
   "status": "partial",
   "theorems": [
    "Hazma.LimitsApi.telescope_default_differs",
    "Hazma.LimitsApi.telescope_values",
    "Hazma.LimitsApi.telescope_default_two_sigma"
   ],
   "note": "False: the telescope limits default to method chi2, binned_limit to 1bin; a one-bin measurement is given on which one is infinite and the other 3. With the same method they agree (telescope_values)."
  },
  {
   "property": "C270",
   "status": "partial",
   "theorems": [
    "Hazma.LimitsApi.composite_distinct_partial",
    "Hazma.LimitsApi.composite_same_name"
   ],
   "note": "True for limits with distinct names; of two limits with the same name only the last one's values are kept."
  },
  {
   "property": "C271",
   "status": "partial",
   "theorems": [
    "Hazma.LimitsApi.scan_point_threshold",
    "Hazma.LimitsApi.scan_excludes_allowed",
    "Hazma.LimitsApi.conversion_bounds"
   ],
   "note": "False: the cross section in MeV^-2 times the velocity is compared with data without the conversion to cm^3/s, so the scan's threshold is 1.17e-11 times the limit; for every measurement with a finite limit some theory ten billion times below it is reported as excluded. scan_point_threshold is the exact behaviour."
  },
  {
   "property": "C272",
   "status": "partial",
   "theorems": [
    "Hazma.EndToEnd.scalar_photon_endpoint",
    "Hazma.EndToEnd.vector_photon_endpoint_partial",
    "Hazma.EndToEnd.vector_endpoint_gap"
   ],
   "note": "True for the scalar mediator, and for the vector mediator unless the energy lies between 134.9766 and 134.9768 MeV, the two values of the neutral pion's mass in the code (`vector_xs.rs` constants and `parameters.py`): there pi0 gamma is counted as open while the pion's energy exceeds half of the total. The two energies at which a pair of mediators is produced exactly at rest are excluded."
  },
  {
   "property": "C273",
   "status": "proved",
   "theorems": [
    "Hazma.EndToEnd.scalar_coupling_independent",
    "Hazma.EndToEnd.vector_coupling_independent"
   ],
   "note": "Below the thresholds for producing mediators; the propagators must not vanish (they do only on resonance with zero width)."
  },
  {
   "property": "C274",
   "status": "partial",
   "theorems": [
    "Hazma.EndToEnd.vector_spectrum_negative",
    "Hazma.EndToEnd.scalar_spectrum_negative",
    "Hazma.EndToEnd.muon_philic_total_negative",
    "Hazma.EndToEnd.photon_entries_nonneg_partial"
   ],
   "note": "False for muons from threshold to 14 muon masses: close below the endpoint the compiled spectrum of radiative muon decay is negative and radiation has already ended. In a muon-philic vector model the total itself is negative. True for e e, pi0 pi0 and pi0 g."
  },
  {
   "property": "C275",
   "status": "proved",
   "theorems": [
    "Hazma.EndToEnd.scalar_positron_spectra"
   ],
   "note": "Exact integrals; mediators heavier than two electrons; the threshold energies at which quantities of the code divide by zero are excluded."
  },
  {
   "property": "C276",
   "status": "proved",
   "theorems": [
    "Hazma.Resonances.f0_running_width",
    "Hazma.Resonances.rho_running_width",
    "Hazma.Resonances.rho_normalisation"
   ],
   "note": "Above the two-pion threshold; below it the width vanishes."
  },
  {
   "property": "C277",
   "status": "proved",
   "theorems": [
    "Hazma.Resonances.resonance_peaks"
   ],
   "note": "Complex arithmetic is exact."
  },
  {
   "property": "C278",
   "status": "partial",
   "theorems": [
    "Hazma.Resonances.kk_resonance_assignment",
    "Hazma.Resonances.kk_resonance_swapped",
    "Hazma.Resonances.kk_resonance_isoscalar_partial"
   ],
   "note": "False: the two amplitudes are exchanged, the propagator of the K+- pi-+ pair is multiplied by the amplitude (a0 - a1) and the one of the K0 pi pair by (a0 + a1). True for equal couplings to up and down quarks."
  },
  {
   "property": "C279",
   "status": "proved",
   "theorems": [
    "Hazma.SelfScattering.scalar_self_msq",
    "Hazma.SelfScattering.vector_self_msq",
    "Hazma.SelfScattering.com_kinematics"
   ],
   "note": "The Feynman rules are written with explicit Dirac matrices (Lemmas/Dirac.lean); away from points at which a propagator vanishes."
  },
  {
   "property": "C280",
   "status": "proved",
   "theorems": [
    "Hazma.FeynmanRules.scalar_pair_sigma",
    "Hazma.FeynmanRules.vector_pair_sigma"
   ],
   "note": "Graphs with three mediators at a vertex do not exist in the model. Strictly above both thresholds."
  },
  {
   "property": "C281",
   "status": "proved",
   "theorems": [
    "Hazma.FeynmanRules.scalar_fermion_sigma",
    "Hazma.FeynmanRules.vector_fermion_sigma",
    "Hazma.Details.scalar_lepton_sigma"
   ],
   "note": "Strictly above both thresholds and off a pole with zero width."
  },
  {
   "property": "C282",
   "status": "proved",
   "theorems": [
    "Hazma.FeynmanRules.scalar_widths",
    "Hazma.FeynmanRules.vector_widths"
   ],
   "note": "Strictly above threshold."
  },
  {
   "property": "C283",
   "status": "proved",
   "theorems": [
    "Hazma.Radiation.scalar_ff_radiation",
    "Hazma.Radiation.scalar_pipi_radiation",
    "Hazma.Radiation.vector_ff_radiation",
    "Hazma.Radiation.vector_pipi_radiation",
    "Hazma.Radiation.range_iff",
    "Hazma.Radiation.rest_radiation"
   ],
   "note": "Inside the support of the spectrum, positive mass. The compiled rest-frame spectra of mediator decay (rest_radiation) agree for the vector mediator and are exactly half for the scalar mediator, the violation recorded under C39."
  },
  {
   "property": "C284",
   "status": "partial",
   "theorems": [
    "Hazma.WeakDecays.lepton_pair",
    "Hazma.WeakDecays.lepton_pair_masses",
    "Hazma.WeakDecays.pion_pair",
    "Hazma.WeakDecays.charged_pion_pair",
    "Hazma.WeakDecays.two_flavours_weak",
    "Hazma.WeakDecays.two_flavours_exchanged",
    "Hazma.WeakDecays.two_flavours_differ",
    "Hazma.WeakDecays.two_flavours_masses",
    "Hazma.WeakDecays.two_flavours_width",
    "Hazma.WeakDecays.three_neutrinos",
    "Hazma.WeakDecays.crossed_eq",
    "Hazma.WeakDecays.same_generation"
   ],
   "note": "Proved for pairs of equal leptons, both two-pion channels, the widths for two lepton flavours and for three neutrinos, of one generation (two graphs, same_generation) or of two. False for the matrix element with two lepton flavours: the two charged leptons have exchanged their parts (two_flavours_exchanged, two_flavours_differ), or their masses, depending on the order of the arguments (two_flavours_masses). 'l pi pi0' with one pion mass. The three-neutrino matrix element is covered by C135."
  },
  {
   "property": "C285",
   "status": "partial",
   "theorems": [
    "Hazma.WeakDecays.lepton_vector_meson",
    "Hazma.WeakDecays.neutrino_rho",
    "Hazma.WeakDecays.neutrino_omega",
    "Hazma.WeakDecays.neutrino_phi",
    "Hazma.WeakDecays.neutrino_pseudoscalar",
    "Hazma.WeakDecays.lepton_pseudoscalar"
   ],
   "note": "Proved for l rho and nu rho. False for nu omega (four times the width), nu phi (twice), nu pi0 and nu eta (a quarter), l pi and l K (a quarter, and the polynomial of C136). The decay constants of parameters.py are those of chiral perturbation theory (92 MeV for the pion); the constants of the vector mesons are those of the reference the code cites."
  },
  {
   "property": "C286",
   "status": "proved",
   "theorems": [
    "Hazma.MuonDecay.amplitude",
    "Hazma.MuonDecay.electron_spectrum",
    "Hazma.MuonDecay.electron_neutrino_spectrum",
    "Hazma.MuonDecay.muon_neutrino_spectrum",
    "Hazma.MuonDecay.electron_spectrum_normalised"
   ],
   "note": "Muon at rest, inside the support; decays in flight are boosts of these (C29, C31). Proportionality with the exact constant; the normalisations themselves are C30 and C80."
  },
  {
   "property": "C287",
   "status": "partial",
   "theorems": [
    "Hazma.SelfSigma.self_cross_sections",
    "Hazma.SelfSigma.self_below_threshold",
    "Hazma.SelfSigma.self_cross_sections_partial"
   ],
   "note": "False by a factor: the code divides by 32 pi e where the formula has 32 pi e^2, so both are the centre-of-mass energy in MeV times the cross section. The quadrature rule is arbitrary with nodes in [-1, 1]; mediators with mass and width."
  },
  {
   "property": "C288",
   "status": "partial",
   "theorems": [
    "Hazma.Constants.python_condensate",
    "Hazma.Constants.constants_close",
    "Hazma.Constants.constants_differ",
    "Hazma.Constants.charges",
    "Hazma.Constants.pion_window"
   ],
   "note": "False: all masses differ between `parameters.py` and the kernels (by less than four parts in a million), quark masses and condensate by percents (their product by less than four parts in a million), the fine-structure constant of the mediator-decay kernels is 1/137 and 1/137.04 elsewhere; between the two pion thresholds pions are produced through a mediator whose width into them is zero."
  },
  {
   "property": "C289",
   "status": "partial",
   "theorems": [
    "Hazma.ElasticFeynman.amplitudeSq_eq",
    "Hazma.ElasticFeynman.sigma_eq_mean",
    "Hazma.ElasticFeynman.code_eq_mean",
    "Hazma.ElasticFeynman.range_iff",
    "Hazma.ElasticFeynman.code_equal_masses_partial",
    "Hazma.ElasticFeynman.code_wrong_sign"
   ],
   "note": "False: the kernel averages the squared amplitude over momentum transfers from 4 mx^2 - e^2 to 0, which are the physical ones only for a lepton as heavy as the dark matter, omits the vacuum expectation value from the coupling and the sum over the two charges; between mx + ml and 2 mx it is negative for light leptons. For equal masses it is vh^2 times the cross section for one charge."
  },
  {
   "property": "C290",
   "status": "partial",
   "theorems": [
    "Hazma.Compton.amplitudeSq_eq",
    "Hazma.Compton.sigma_eq_mean",
    "Hazma.Compton.code_eq_mean",
    "Hazma.Compton.code_equal_masses_partial",
    "Hazma.Compton.code_too_large"
   ],
   "note": "True for a mediator as heavy as the dark matter. False otherwise: the kernel averages the squared amplitude over momentum transfers from 4 mx^2 - e^2 to 0 instead of -4 p^2 to 0; at e = 2 mx it returns the forward amplitude, shown to be too large for ms = 0.8 mx."
  },
  {
   "property": "C291",
   "status": "partial",
   "theorems": [
    "Hazma.Anomaly.epsilon_rules",
    "Hazma.Anomaly.vertex_transverse",
    "Hazma.Anomaly.pipi_sigma",
    "Hazma.Anomaly.pipi_width",
    "Hazma.Anomaly.pi0g_width",
    "Hazma.Anomaly.anomaly_sigma",
    "Hazma.Anomaly.hadronic_channels_partial",
    "Hazma.Anomaly.anomaly_sigma_wrong"
   ],
   "note": "True for charged pions (width and cross section) and for the width into pi0 gamma. False for the cross sections into pi0 gamma and pi0 v: both are exactly one ninth of the value that the same vertex gives (the squared number of colours is missing). Strictly above both thresholds; the electric charge is the root of 4 pi alpha."
  },
  {
   "property": "C292",
   "status": "proved",
   "theorems": [
    "Hazma.ScalarFeynman.widths",
    "Hazma.ScalarFeynman.sigmas",
    "Hazma.ScalarFeynman.state_vs",
    "Hazma.ScalarFeynman.low_energy",
    "Hazma.ScalarFeynman.photon_transverse"
   ],
   "note": "For vs = 0, which state_vs proves of every model. Strictly above both thresholds and off a pole with zero width. The pion vertex obeys the low-energy theorem when b0 (mu + md) is the squared mass of the pion; C288 says by how much the constants miss this."
  },
  {
   "property": "C293",
   "status": "proved",
   "theorems": [
    "Hazma.GevFeynman.lepton_channels",
    "Hazma.GevFeynman.neutrino_channels",
    "Hazma.GevFeynman.pseudoscalar_pair",
    "Hazma.GevFeynman.pseudoscalar_vector"
   ],
   "note": "Form factors are arbitrary functions of the energy. Two pseudoscalars of equal mass, the only pairs in the code. Strictly above both thresholds and off a pole with zero width. Two mediators: C142."
  },
  {
   "property": "C294",
   "status": "proved",
   "theorems": [
    "Hazma.PionRadiative.pion_radiative",
    "Hazma.PionRadiative.pion_radiative_cython",
    "Hazma.PionRadiative.radSq_eq",
    "Hazma.PionRadiative.allowed_eq",
    "Hazma.PionRadiative.allowed_empty",
    "Hazma.PionRadiative.ward"
   ],
   "note": "Positive photon energy, lepton lighter than the pion; beyond the endpoint both sides are zero. The amplitude is emission by the pion, by the lepton and from the weak vertex, and the vector and axial form factors; the relative sign of the two form factors and the decay constant is the one of the code. radSq_eq is the known distribution in the energies of photon and lepton. The sum over polarisations is over the two transverse ones; ward shows that a photon polarised along its momentum decouples."
  },
  {
   "property": "C295",
   "status": "partial",
   "theorems": [
    "Hazma.ThermalAverage.mediator_averages_partial",
    "Hazma.ThermalAverage.generic_average_partial",
    "Hazma.ThermalAverage.cut_loses",
    "Hazma.ThermalAverage.average_bounded",
    "Hazma.ThermalAverage.average_eq"
   ],
   "note": "False in three ways. Collisions above max(100 m, 50 T) (scalar), max(150 m, 50 T) (vector) or 50 T (generic) are left out, so that every value is strictly below the mean of a positive cross section (cut_loses). Beyond x = 300 the scalar function returns zero and the vector one the mean at T = m/300. The generic function uses only the cross section below threshold from x = 25 on. Proved: for measurable nonnegative cross sections the values are exactly the means over the remaining collisions (mediator_averages_partial, generic_average_partial); without cut the code's integrand gives the mean (average_eq). Exact integrals."
  },
  {
   "property": "C296",
   "status": "proved",
   "theorems": [
    "Hazma.Collinear.collinear",
    "Hazma.Collinear.not_scalar_splitting"
   ],
   "note": "Fixed energies, mass of the radiating particles tending to zero. For vector -> fermions and scalar -> pions the difference vanishes; for scalar -> fermions and vector -> pions the ratio tends to one and the remaining difference is 2 alpha x/(pi Q) and 4 alpha x/(pi Q). Unit charge and the same alpha on both sides."
  },
  {
   "property": "C297",
   "status": "partial",
   "theorems": [
    "Hazma.RamboUnbiased.events_average_partial",
    "Hazma.RamboUnbiased.generate_average_massless",
    "Hazma.RamboUnbiased.exactScale_exists",
    "Hazma.RamboUnbiased.exactScale_massless"
   ],
   "note": "Proved for what generate returns for massless particles, any number of them. With masses it is proved for the exact root of the rescaling equation (which exists, exactScale_exists); the code stops after at most five Newton steps, so its events are only close to these (how close: C310, C311). Independent random numbers, uniform in [0, 1). Last momentum fixed by momentum conservation, energy delta function tested with any measurable function of the energy."
  },
  {
   "property": "C298",
   "status": "proved",
   "theorems": [
    "Hazma.PhaseSpaceMeasure.three_body_quadrature",
    "Hazma.PhaseSpaceMeasure.two_body_formula",
    "Hazma.PhaseSpaceMeasure.two_body_number"
   ],
   "note": "The nested quadratures are exact integrals. Continuous matrix element, nonnegative on physical momenta. Last momentum fixed by momentum conservation, energy delta function tested with any measurable function of the energy. The two-body matrix element depends on the polar angle only."
  },
  {
   "property": "C299",
   "status": "partial",
   "theorems": [
    "Hazma.PhaseSpaceMeasure.rambo_quadrature_ae_partial",
    "Hazma.PhaseSpaceMeasure.rambo_quadrature_partial",
    "Hazma.PhaseSpaceMeasure.generate_quadrature_massless",
    "Hazma.RamboStatistics.massless_three_body",
    "Hazma.RamboConvergence.massless_converges"
   ],
   "note": "Proved for what generate returns for massless particles; with masses for the exact root of the rescaling equation, which the code's at most five Newton steps only approach (how close: C310, C311). At almost every energy. The quadrature is an exact integral, the Monte Carlo value its expectation."
  },
  {
   "property": "C300",
   "status": "proved",
   "theorems": [
    "Hazma.RamboStatistics.estimates_unbiased",
    "Hazma.RamboStatistics.independent_draws",
    "Hazma.RamboStatistics.massless_weights",
    "Hazma.RamboStatistics.massless_integral"
   ],
   "note": "Weights of independent events with finite variance and no NaN, at least two points, batches of at least two. massless_weights proves this of the events generate returns for massless particles and a continuous nonnegative squared matrix element."
  },
  {
   "property": "C301",
   "status": "proved",
   "theorems": [
    "Hazma.RamboConvergence.converges",
    "Hazma.RamboConvergence.converges_once",
    "Hazma.RamboConvergence.converges_batches"
   ],
   "note": "Independent events with finite variance and no NaN; batches of a fixed size of at least two, or none. The Gaussian statement needs a variance different from zero."
  },
  {
   "property": "C302",
   "status": "proved",
   "theorems": [
    "Hazma.PhaseSpaceDensity.energy_density",
    "Hazma.PhaseSpaceDensity.mass_density",
    "Hazma.PhaseSpaceDensity.energy_distributions",
    "Hazma.PhaseSpaceDensity.mass_distributions"
   ],
   "note": "The inner quadrature is an exact integral. Continuous matrix element, nonnegative on physical momenta, taking the arguments it is called with. Equality as measures in the centre-of-mass energy and the energy or mass, i.e. against every measurable test function of both."
  },
  {
   "property": "C303",
   "status": "proved",
   "theorems": [
    "Hazma.MediatorWeights.scalar_pair",
    "Hazma.MediatorWeights.vector_pair"
   ],
   "note": "The weights are right. The two-photon and photon-pion lines keep the shape that C56 and C107 show to be wrong."
  },
  {
   "property": "C304",
   "status": "proved",
   "theorems": [
    "Hazma.GevRegistry.photon_spectra",
    "Hazma.GevRegistry.lepton_spectra",
    "Hazma.GevRegistry.decays_weighted",
    "Hazma.GevRegistry.spectrum_get",
    "Hazma.GevRegistry.sigma_get"
   ],
   "note": "Cross sections and single-state spectra are arbitrary real functions; which function is stored under which name, and the weighting, are the code's."
  },
  {
   "property": "C305",
   "status": "partial",
   "theorems": [
    "Hazma.FinalStates.mediators_listed",
    "Hazma.FinalStates.heavy_quark_listed",
    "Hazma.FinalStates.quarks_only_listed",
    "Hazma.GevRegistry.listed_partial",
    "Hazma.GevRegistry.vv_not_listed"
   ],
   "note": "VectorMediatorGeV.list_annihilation_final_states omits 'v v', although annihilation_cross_section_funcs, the branching fractions and all spectra have it; everything else is listed. The other models are right: what HeavyQuark and QuarksOnly leave out has no cross section after any history of assignments."
  },
  {
   "property": "C306",
   "status": "proved",
   "theorems": [
    "Hazma.BoostLorentz.line",
    "Hazma.BoostLorentz.boost_function",
    "Hazma.BoostLorentz.muon_decay",
    "Hazma.BoostLorentz.neutral_pion",
    "Hazma.BoostLorentz.mediator_decay",
    "Hazma.BoostLorentz.boosted_spectrum"
   ],
   "note": "Directions are points of the unit sphere with its surface measure, momenta three-dimensional vectors, equality as measures in the energy, i.e. against every measurable test function. Rest-frame spectra nonnegative and integrable; methods quad and quadrature, whose integral is exact here. A velocity of exactly zero is C76, C77 and C198."
  },
  {
   "property": "C307",
   "status": "proved",
   "theorems": [
    "Hazma.SolidAngle.cone",
    "Hazma.SolidAngle.cone_values"
   ],
   "note": "Radii from 0 to 180 degrees; the surface measure of the unit sphere of three-dimensional Euclidean space."
  },
  {
   "property": "C308",
   "status": "proved",
   "theorems": [
    "Hazma.BoostLorentz.pion_positrons",
    "Hazma.BoostLorentz.pion_muon_neutrinos",
    "Hazma.BoostLorentz.pion_electron_neutrinos",
    "Hazma.BoostLorentz.chain",
    "Hazma.BoostLorentz.chain_isotropic",
    "Hazma.BoostLorentz.muonSpeed_eq"
   ],
   "note": "Energy above the pion mass by at least one machine epsilon; the boost integrals are exact. The muon decays alike in all directions of its rest frame, as in the code: the polarisation of muons from pion decay is not in it. The electron-neutrino line counts twice (C78), which the theorem states as it is. Mother's momentum any three-dimensional vector, equality against every measurable test function of the energy."
  },
  {
   "property": "C309",
   "status": "proved",
   "theorems": [
    "Hazma.BoostLorentz.muon_photons",
    "Hazma.BoostLorentz.pion_photons",
    "Hazma.BoostLorentz.neutral_rho_photons",
    "Hazma.BoostLorentz.charged_rho_photons",
    "Hazma.BoostLorentz.soft_spectrum",
    "Hazma.BoostLorentz.soft_chain"
   ],
   "note": "Boost integrals are exact. The spectra may be negative near their end points, so gains and losses (positive and negative parts) are counted separately and balanced; the identity holds for every measurable test function, also where the number of photons is infinite. For moving particles: muons and rho mesons above their mass by at least one machine epsilon (rho mesons at rest are C77), pions with any momentum. The muon-at-rest spectrum is the one the in-flight code boosts, up to the kinematic end point; what the code returns for a muon at rest is cut earlier (C75)."
  },
  {
   "property": "C310",
   "status": "proved",
   "theorems": [
    "Hazma.Rambo.events_close",
    "Hazma.Rambo.generated_close",
    "Hazma.Rambo.excess_small",
    "Hazma.Rambo.newton_excess",
    "Hazma.Rambo.scale_close",
    "Hazma.Rambo.iterate_excess",
    "Hazma.Rambo.rate_tendsto"
   ],
   "note": "Exact arithmetic: the bound is on the truncation of the Newton iteration, not on rounding. eps is the machine epsilon in the stopping rule. Near threshold (masses almost all of the energy) the bound after five steps is weak; it is explicit for every energy."
  },
  {
   "property": "C311",
   "status": "proved",
   "theorems": [
    "Hazma.RamboUnbiased.generate_average",
    "Hazma.RamboUnbiased.average_close",
    "Hazma.RamboUnbiased.generate_close",
    "Hazma.RamboUnbiased.three_body_volume",
    "Hazma.RamboUnbiased.weight_stretch"
   ],
   "note": "Exact arithmetic; independent random numbers uniform in [0, 1). The factors are one up to the bound of C310, below 1e-17 when the masses are at most half of the energy and the energy is above some tens of MeV."
  },
  {
   "property": "C312",
   "status": "proved",
   "theorems": [
    "Hazma.RamboConvergence.massive_integral",
    "Hazma.RamboConvergence.massive_three_body",
    "Hazma.RamboConvergence.exact_weights",
    "Hazma.RamboConvergence.integrate_compare"
   ],
   "note": "Independent random numbers uniform in [0, 1), exact arithmetic; squared matrix elements that are continuous, non-negative and change by at most the factor L when momenta are stretched by 1 + B (L = 1 for constant ones). The quadrature is an exact integral, agreement at almost every energy."
  },
  {
   "property": "C313",
   "status": "partial",
   "theorems": [
    "Hazma.Fisher.fisher_accuracy_partial",
    "Hazma.Fisher.rate_accuracy",
    "Hazma.Fisher.rate_converges",
    "Hazma.Fisher.background_information_differs",
    "Hazma.Fisher.trapz_error"
   ],
   "note": "True for the rate. For entries of background parameters it is true after restoring the solid angle that their derivatives lack (C172); as returned they differ from the information integral by one factor dOmega per background parameter, whatever the grid. The grid is the list of energies at which the code builds its degree-one spline; densities that are Lipschitz on its range; where the effective area vanishes the density is zero."
  },
  {
   "property": "C314",
   "status": "partial",
   "theorems": [
    "Hazma.Mediator.mediator_at_rest_partial",
    "Hazma.Mediator.positrons_at_rest_partial",
    "Hazma.Mediator.line_photons_lost",
    "Hazma.Mediator.in_flight"
   ],
   "note": "False at one energy, half of the mass: infinity if the mode of the line is open, NaN if it is closed (0/0), for g g and pi0 g photons and for positrons of every mode. Elsewhere true for the continuum; the photons of the line are lost at rest. The divisions follow IEEE arithmetic, the quadrature is exact."
  },
  {
   "property": "C315",
   "status": "partial",
   "theorems": [
    "Hazma.MediatorLines.scalar_lines",
    "Hazma.MediatorLines.vector_lines",
    "Hazma.MediatorLines.line_energies_partial",
    "Hazma.MediatorLines.line_fractions",
    "Hazma.MediatorLines.line_efficiency",
    "Hazma.MediatorLines.negative_photon_energy"
   ],
   "note": "True for the scalar model and for the vector model from the pion mass of parameters.py on. The compiled cross section opens pi0 g at 134.9766 MeV while the line uses 134.9768 MeV: in between the channel is open and its photon energy is negative (negative_photon_energy). Cross sections are arbitrary functions elsewhere."
  },
  {
   "property": "C316",
   "status": "proved",
   "theorems": [
    "Hazma.Limits.unbinned_limit_no_signal",
    "Hazma.Limits.unbinned_limit_no_background",
    "Hazma.Limits.unbinned_limit_nothing"
   ],
   "note": "NumPy division: warnings are not modelled. A window with signal and exactly no background makes the reported limit zero."
  },
  {
   "property": "C317",
   "status": "proved",
   "theorems": [
    "Hazma.MesonThree.kk_units",
    "Hazma.MesonThree.eta_units",
    "Hazma.MesonThree.three_pion_units",
    "Hazma.MesonThree.omega_units"
   ],
   "note": "Scalars, all fits (for three pions: fits with positive widths and resonances above threshold, the default among them). That the amplitudes of the pi K K fit are in 1/GeV and the prefactor of the isovector three-pion amplitude in 1/GeV is forced by the result, not documented."
  },
  {
   "property": "C318",
   "status": "proved",
   "theorems": [
    "Hazma.MesonFF.two_body_units",
    "Hazma.MesonFF.array_units",
    "Hazma.MesonFF.k0_k0_array",
    "Hazma.MesonFF.scalar_like_array_partial"
   ],
   "note": "Arrays. A single energy gives the same for five of the ten channels (scalar_like_array_partial); for the other five the result of a single energy is 1000 times too large (claimed separately, scalar_not_converted). For neutral kaons only the first open energy of an array follows the formula (k0_k0_array)."
  }
 ]
}