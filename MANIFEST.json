{"claims": [
{"property": "C01", "status": "proved", "theorems": ["Lamberthub.invalid_scalars_refused", "Lamberthub.izzo_negative_mu_undefined"], "note": "all thirteen validating solvers raise ValueError for every invalid scalar; izzo2015, which never validates, stops with an undefined square root for negative mu."},
{"property": "C02", "status": "partial", "theorems": ["Lamberthub.validation_partial", "Lamberthub.null_final_position_accepted", "Lamberthub.raw_agrees", "Lamberthub.raw_shape_refused", "Lamberthub.raw_final_shape_unchecked", "Lamberthub.raw_nan_accepted"], "note": "the validation of the code never looks at the final position: a null r2 is accepted (proved), so the full claim is false; everything else is proved"},
{"property": "C03", "status": "proved", "theorems": ["Lamberthub.transferAngle_polar"], "note": ""},
{"property": "C04", "status": "proved", "theorems": ["Lamberthub.transferAngle_degenerate", "Lamberthub.angle_guards_fire"], "note": ""},
{"property": "C05", "status": "partial", "theorems": ["Lamberthub.transferAngle_complementary_partial", "Lamberthub.transferAngle_polar_plane_same"], "note": "true for planes that do not contain the z axis; for polar planes both senses give the same angle (proved)"},
{"property": "C06", "status": "proved", "theorems": ["Lamberthub.orbitNormal_spec"], "note": ""},
{"property": "C07", "status": "partial", "theorems": ["Lamberthub.incRaan_plane_partial", "Lamberthub.incRaan_retrograde_equatorial"], "note": "false for retrograde equatorial planes, where the code returns inclination 0 (proved)"},
{"property": "C08", "status": "proved", "theorems": ["Lamberthub.eccentric_anomaly"], "note": ""},
{"property": "C09", "status": "proved", "theorems": ["Lamberthub.hyperbolic_parabolic_anomaly"], "note": ""},
{"property": "C10", "status": "proved", "theorems": ["Lamberthub.mean_anomaly_monotone"], "note": ""},
{"property": "C11", "status": "proved", "theorems": ["Lamberthub.mean_anomaly_is_time"], "note": ""},
{"property": "C12", "status": "partial", "theorems": ["Lamberthub.rotationMatrix_partial", "Lamberthub.rotationMatrix_axis1_not_rotation"], "note": "false for axis 1, where the matrix is orthogonal only for multiples of a quarter turn (proved)"},
{"property": "C13", "status": "proved", "theorems": ["Lamberthub.coe2rv_state"], "note": ""},
{"property": "C14", "status": "partial", "theorems": ["Lamberthub.rv2coe_coe2rv_partial", "Lamberthub.rv2coe_defined", "Lamberthub.rv2coe_parabolic_undefined", "Lamberthub.rv2coe_retrograde_equatorial", "Lamberthub.rv2coe_near_circular_lossy"], "note": "exact round trip proved away from the tolerances; false for retrograde equatorial, near-circular (0 < e < tol) and parabolic states (each proved)"},
{"property": "C15", "status": "proved", "theorems": ["Lamberthub.stumpff_functions", "Lamberthub.stumpff_loop_error"], "note": ""},
{"property": "C16", "status": "proved", "theorems": ["Lamberthub.vallado_kepler_transfer"], "note": "for positions that are not aligned"},
{"property": "C17", "status": "proved", "theorems": ["Lamberthub.delatorre_kepler_transfer", "Lamberthub.delatorre_returns", "Lamberthub.delatorre_returns_zero"], "note": "for atol + rtol*tof < tof"},
{"property": "C18", "status": "partial", "theorems": ["Lamberthub.izzo_kepler_transfer_partial", "Lamberthub.izzo_returns_minimum_energy", "Lamberthub.izzo_parabolic_undefined", "Lamberthub.izzo_slow_wrong", "Lamberthub.izzo_slow_hyperbola"], "note": "false for slow transfers (negation proved: izzo_slow_wrong, izzo_slow_hyperbola); the code never evaluates the time equation at the value it returns; the theorem covers every return whose residual is at most half the time sought (the root is then in the domain of the time equation and the flight time differs from tof by exactly the residual); at exactly the parabolic time the code divides by zero (proved)"},
{"property": "C19", "status": "partial", "theorems": ["Lamberthub.gooding_kepler_transfer_partial", "Lamberthub.gooding_derivatives", "Lamberthub.gooding_minimum_energy_undefined"], "note": "the code does not test that the returned iterate satisfies the time equation (gooding_unconverged_accepted); the theorem covers every return whose residual is at most half the time sought; at exactly the minimum-energy time it divides 0 by 0 (proved)"},
{"property": "C20", "status": "partial", "theorems": ["Lamberthub.thorne_kepler_transfer_partial", "Lamberthub.thorne_polar_wrong_time", "Lamberthub.thorne_returns"], "note": "false for prograde motion in planes through the polar axis (negation proved); brentq is a parameter satisfying its documented contract"},
{"property": "C21", "status": "partial", "theorems": ["Lamberthub.der_kepler_transfer_partial", "Lamberthub.der_parabolic_not_a_transfer", "Lamberthub.der_near_parabolic_never_a_transfer", "Lamberthub.der_returns"], "note": "false for near-parabolic problems (negation proved): the shortcut returns velocities of no transfer; brentq is a parameter satisfying its documented contract"},
{"property": "C22", "status": "partial", "theorems": ["Lamberthub.arora_kepler_transfer_partial", "Lamberthub.arora_returns_hyperbolic", "Lamberthub.arora_open_orbit_for_revolutions", "Lamberthub.Arora.series_error"], "note": "full statement for M = 0 (the series used near the parabola is within 1e-18 of W) and for M >= 1 above the parabolic time; below it the claim is false (negation proved): a zero-revolution hyperbolic transfer is returned; minimize_scalar and brentq are parameters"},
{"property": "C23", "status": "partial", "theorems": ["Lamberthub.jiang_kepler_transfer_partial", "Lamberthub.jiang_near_parabolic", "Lamberthub.jiang_minimum_energy_diverges"], "note": "Every output is a zero-revolution Kepler transfer of the requested sense with the stated stopping guarantee; the sense is missing for planes containing the z axis. jiang_minimum_energy_diverges: around the minimum-energy time the bracketing loop never ends."},
{"property": "C24", "status": "partial", "theorems": ["Lamberthub.mcelreath_kepler_transfer_partial", "Lamberthub.mcelreath_time_equation", "Lamberthub.mcelreath_parabolic_undefined", "Lamberthub.mcelreath_quarter_circle"], "note": "every output is a Kepler transfer with exactly M revolutions in the requested sense (with one exception stated in the theorem below the parabolic time); missing: the flight time is tof, because the code stops on the size of the last step only, and slow transfers come out too slow (mcelreath_slow_wrong, C78). Near-parabolic problems are never solved (negation proved)."},
{"property": "C25", "status": "partial", "theorems": ["Lamberthub.negrete_kepler_transfer_partial", "Lamberthub.negrete_hyperbolic_refused", "Lamberthub.negrete_hyperbolic_converges", "Lamberthub.negrete_antipodal_converges"], "note": "every output is a Kepler transfer of the requested sense, with the number of revolutions and the flight time that belong to the z found; missing: flight time = tof and revolutions = M, which the code never verifies. negrete_hyperbolic_converges: on zero-revolution problems faster than the parabola whose contour holds a single simple pole, the solver returns for every large enough maxiter and the flight time of its output tends to tof; negrete_antipodal_converges proves the pole hypotheses for all almost opposite positions and a range of flight times. negrete_hyperbolic_refused: all fast problems with close positions are refused."},
{"property": "C26", "status": "partial", "theorems": ["Lamberthub.pan_kepler_transfer_partial", "Lamberthub.pan_oneOrbit", "Lamberthub.Pan.bezierLoop_ok", "Lamberthub.pan_wrong_time"], "note": "every output is a Kepler transfer of the requested sense, except hyperbolas with eccentricity at most 1+1.001e-5; for those the velocities still lie on one orbit of the requested sense (pan_oneOrbit); missing: the flight time of those. That the flight time is tof is false (negation proved, pan_wrong_time): the code stops on the size of the last step, and for positions at distances R and 2R a three-quarter turn apart it returns, with the default tolerances, a transfer of less than 3300 units of time for every tof between 6600 and 5e8 units. Assumes that brentq satisfies its documentation and returns a point it evaluated; atol >= 0."},
{"property": "C27", "status": "partial", "theorems": ["Lamberthub.battin_kepler_transfer_partial", "Lamberthub.battin_aligned_radial", "Lamberthub.battin_returns"], "note": "full statement for positions not aligned with the centre and planes that do not contain the polar axis; aligned positions are not refused and give radial velocities (proved). The flight time of the orbit is wrong, see C71."},
{"property": "C28", "status": "partial", "theorems": ["Lamberthub.gauss_kepler_transfer_partial", "Lamberthub.gauss_arrival_wrong", "Lamberthub.gauss_parabola_unbound", "Lamberthub.gauss_returns"], "note": "the departure velocity belongs to a zero-revolution transfer of the requested sense, always slower than the parabola; the arrival velocity is wrong whenever the distances differ (negation proved: the pair of velocities lies on no Kepler orbit)."},
{"property": "C29", "status": "partial", "theorems": ["Lamberthub.avanzini_kepler_transfer_partial", "Lamberthub.avanzini_equatorial_wrong", "Lamberthub.avanzini_returns", "Lamberthub.avanzini_equatorial_prograde_iff", "Lamberthub.avanzini_equatorial_retrograde_iff"], "note": "full statement outside the equatorial plane (and, in it, for prograde motion with r1 on the positive x axis); in the equatorial plane the negation is proved, except when r1 (prograde) or r2 (retrograde) is on the positive x axis; the two theorems ending in _iff say exactly when the equatorial velocities lie on one orbit, and in which sense."},
{"property": "C30", "status": "partial", "theorems": ["Lamberthub.revolutions_honoured_partial", "Lamberthub.zero_rev_only_refuse_partial", "Lamberthub.revolutions_ignored", "Lamberthub.vallado_revolutions_wrong", "Lamberthub.vallado_revolutions_accepted", "Lamberthub.battin_revolutions_wrong"], "note": "proved for mcelreath2025, der2011, delatorre2018, arora2013 (exactly M revolutions) and for the refusing solvers; false for gauss1809, battin1984 and vallado2013, which ignore M: negations proved."},
{"property": "C31", "status": "partial", "theorems": ["Lamberthub.iterations_bounded", "Lamberthub.iterations_bounded_partial", "Lamberthub.mcelreath_reports", "Lamberthub.negrete_reports", "Lamberthub.jiang_reports_zero", "Lamberthub.gooding_unconverged_accepted"], "note": "count within 1..maxiter for ten solvers (five of them for every maxiter including 0); false for jiang2016 (0 on the parabola), negrete2024 (max(4, maxiter)), and gooding1990 returns unconverged answers: negations proved. The convergence test of the others is part of their transfer theorems."},
{"property": "C32", "status": "partial", "theorems": ["Lamberthub.full_output_harmless", "Lamberthub.full_output_harmless_partial", "Lamberthub.full_output_wrong"], "note": "all solvers for maxiter >= 1, nine of them for every maxiter; false for gooding1990 with maxiter=0: negation proved. thorne2004 assumes that brentq reports at least one iteration."},
{"property": "C33", "status": "proved", "theorems": ["Lamberthub.izzo_units", "Lamberthub.gauss_units", "Lamberthub.battin_units", "Lamberthub.gooding_units", "Lamberthub.der_units", "Lamberthub.arora_units", "Lamberthub.avanzini_units"], "note": "equations between the two runs, for all inputs and all positive scale factors, including the runs that stop with an exception"},
{"property": "C34", "status": "partial", "theorems": ["Lamberthub.vallado_rotation", "Lamberthub.delatorre_rotation", "Lamberthub.gauss_rotation", "Lamberthub.battin_rotation", "Lamberthub.der_rotation", "Lamberthub.jiang_rotation", "Lamberthub.mcelreath_rotation", "Lamberthub.negrete_rotation", "Lamberthub.arora_rotation", "Lamberthub.gooding_rotation", "Lamberthub.izzo_rotation", "Lamberthub.thorne_rotation", "Lamberthub.pan_rotation", "Lamberthub.avanzini_rotation_partial", "Lamberthub.avanzini_equatorial_rotation", "Lamberthub.avanzini_rotation_fails"], "note": "equations between the two runs for all inputs and all angles for thirteen solvers; avanzini2008 satisfies it exactly off the equatorial plane and violates it on every equatorial transfer: negation proved"},
{"property": "C35", "status": "partial", "theorems": ["Lamberthub.jiang_bracket", "Lamberthub.delatorre_bracket", "Lamberthub.pan_bracket", "Lamberthub.vallado_bracket_partial", "Lamberthub.vallado_leaves_bracket", "Lamberthub.Jiang.loop_pass", "Lamberthub.Delatorre.loop_pass", "Lamberthub.Pan.loop_pass", "Lamberthub.Vallado.loop_pass"], "note": "every residual function, every number of passes, for jiang2016, delatorre2018 and pan2016 (the last assuming that brentq only evaluates its function inside its bracket); vallado2013 keeps its bracket on the long way and for elliptic times, and leaves it on an explicit family of hyperbolic short way inputs: negation proved"},
{"property": "C36", "status": "proved", "theorems": ["Lamberthub.golden_section", "Lamberthub.golden_step"], "note": "every function that decreases up to a point of the interval and increases after it, every number of steps"},
{"property": "C37", "status": "partial", "theorems": ["Lamberthub.vallado_diverges", "Lamberthub.vallado_terminates_partial"], "note": "false as stated: vallado_diverges exhibits an open family of valid inputs (hyperbolic short way, 3.5 <= |r1||r2|/A <= 8) on which the readjustment loop never ends; vallado_terminates_partial covers every long way arc, every elliptic time of flight, and all small length units"},
{"property": "C38", "status": "partial", "theorems": ["Lamberthub.gooding_unconverged_accepted", "Lamberthub.gooding_converged_rejected", "Lamberthub.gooding_unconverged_minimum_kept", "Lamberthub.Gooding.xlambIter_ok"], "note": "the claim is false: negation proved with witnesses; what does hold is xlambIter_ok"},
{"property": "C39", "status": "proved", "theorems": ["Lamberthub.Thorne.getQMatrix_reversion", "Lamberthub.Thorne.getBArray_inversion"], "note": "for every order and all coefficients with A_1 <> 0"},
{"property": "C40", "status": "partial", "theorems": ["Lamberthub.catalogue_coherent_partial", "Lamberthub.zero_rev_only_refuse_partial", "Lamberthub.revolutions_ignored"], "note": "the lists are coherent as sets; that every solver outside MULTI_REV_SOLVERS refuses M > 0 is false for the three solvers that ignore M."},
{"property": "C41", "status": "partial", "theorems": ["Lamberthub.izzo_low_path", "Lamberthub.der_low_path", "Lamberthub.der_fallback_low_path", "Lamberthub.der_fallback_refuses", "Lamberthub.delatorre_low_path", "Lamberthub.side_energy", "Lamberthub.gooding_low_path", "Lamberthub.negrete_low_path", "Lamberthub.mcelreath_low_path", "Lamberthub.arora_low_path"], "note": "izzo, der: starting points strictly on the two sides of the fastest transfer; delatorre: the transfer returned on the low (high) path has the largest (smallest) energy of all transfers with the same time; arora: the exact root next to the guess is on the documented side; mcelreath: guesses on the two sides of the computed minimum; gooding, negrete: the larger (smaller) of the two roots, on the documented side when they take the same time. Missing: at a finite number of steps the quadrature of negrete (accurate in the limit: negrete_two_poles_converge) and the minimum of mcelreath (error bounded near it: mcelreath_minimum_converges) are not shown to be accurate. Finding: der's fallback refuses every time between the least one and the one at x=0, negation proved"},
{"property": "C42", "status": "partial", "theorems": ["Lamberthub.izzo_derivatives", "Lamberthub.hyp2f1b_loop_error", "Lamberthub.der_derivatives_partial", "Lamberthub.der_derivative_wrong", "Lamberthub.arora_W_derivatives", "Lamberthub.arora_tof_derivatives", "Lamberthub.gooding_derivatives", "Lamberthub.delatorre_difference", "Lamberthub.delatorre_time_differentiable", "Lamberthub.arora_W_jumps"], "note": "delatorre2018 takes a symmetric difference quotient: it equals the derivative at a point within the documented step. izzo2015, gooding1990 and arora2013 away from its two switching points are right; at these points the function that arora2013 evaluates is not even continuous (negation proved, a jump below 1e-18); der2011 is right for transfer angles below pi and wrong above (negation proved)"},
{"property": "C43", "status": "partial", "theorems": ["Lamberthub.battin_xi_no_level", "Lamberthub.battin_K_fraction_partial"], "note": "false for xi (negation proved for every x <> 0 and every positive number of levels: no level of the fraction is ever used); the other fraction K is proved to be a truncation of the right continued fraction."},
{"property": "C44", "status": "proved", "theorems": ["Lamberthub.zero_rev_unique", "Lamberthub.zero_rev_unique_sense", "Lamberthub.zero_rev_exists_unique", "Lamberthub.zero_rev_continuous", "Lamberthub.zero_rev_agree", "Lamberthub.vallado_delatorre_agree", "Lamberthub.izzo_vallado_polar_disagree"], "note": "uniqueness among all Kepler motions (every plane, including polar ones, in the form with SameTurn), existence for every positive time, continuity in the time, and the agreement of any two programs that solve the problem within a small tolerance"},
{"property": "C45", "status": "proved", "theorems": ["Lamberthub.vallado_returns_elliptic"], "note": "every time of flight at or above the parabolic one, both senses, every positive rtol, a budget from which on the solver returns"},
{"property": "C46", "status": "proved", "theorems": ["Lamberthub.mcelreath_derivatives"], "note": "all real arguments where the time equation is defined"},
{"property": "C47", "status": "proved", "theorems": ["Lamberthub.negrete_moment_roots", "Lamberthub.negrete_contour_converges", "Lamberthub.negrete_two_poles_converge"], "note": "single-pole contour: convergence as the number of nodes grows; two poles: the quadratic is exact on exact moments, and the whole multi-revolution search (contour, quadratic, refinements, choice of the path) converges to the two poles"},
{"property": "C48", "status": "partial", "theorems": ["Lamberthub.pan_time_of_flight_partial", "Lamberthub.pan_parabolic_time_wrong"], "note": "exact for ellipses and for hyperbolas with eccentricity above 1+1.001e-5; false next to the parabola, where the code's formula is sqrt 2 times the true time (negation proved on the exact parabola)."},
{"property": "C49", "status": "proved", "theorems": ["Lamberthub.gauss_equations"], "note": "for all |x| < 1; the code truncates the series after 51 terms"},
{"property": "C50", "status": "partial", "theorems": ["Lamberthub.battin_cubic_wrong"], "note": "false: negation proved for all h1 > -1 and 0 < B <= 8 (at the solution of a transfer slower than the parabola on the short way B < 8, Battin.B_lt), the cubic is strictly negative at the returned value (wrong parenthesis in _u_at_B)."},
{"property": "C51", "status": "partial", "theorems": ["Lamberthub.avanzini_root_exact", "Lamberthub.avanzini_time_of_flight", "Lamberthub.avanzini_parabolic_undefined"], "note": "proved away from the equatorial plane for all elliptic and hyperbolic values; for the parabolic value the code divides by zero (proved)."},
{"property": "C52", "status": "proved", "theorems": ["Lamberthub.delatorre_returns_budget", "Lamberthub.delatorre_bisects", "Lamberthub.delatorre_bracket_returns"], "note": "short way positions must differ by more than a relative 1e-12 of the chord geometry, which is the offset hard coded in the source"},
{"property": "C53", "status": "proved", "theorems": ["Lamberthub.multi_rev_count", "Lamberthub.rev_arcs", "Lamberthub.revT_valley", "Lamberthub.revT_solutions"], "note": "the count is of Kepler motions (LambertArc), not of a solver's roots; the positions must not span a polar plane so that the sense is defined"},
{"property": "C54", "status": "proved", "theorems": ["Lamberthub.delatorre_multi_returns", "Lamberthub.delatorre_refuses_infeasible"], "note": "the threshold is the least time found by the golden-section search, shown to be the time of a true transfer; the bound 1e18*M*pi*sqrt(D^3/(2mu)) comes from the offset 1e-12 hard coded in the source"},
{"property": "C55", "status": "partial", "theorems": ["Lamberthub.izzo_revolutions_partial", "Lamberthub.izzo_feasible_refused", "Lamberthub.izzo_window_refused", "Lamberthub.feasible_iff"], "note": "admitted numbers are feasible (given that the point found by _halley is elliptic) and feasible ones are at most M_max+1; the exact bound fails: _halley never updates the time it is given, so that T_min is overestimated and a window of feasible times is refused with the default tolerances, negation proved; izzo_window_refused: such a window exists for every geometry and every number of revolutions whose fastest transfer is not at x=0.1"},
{"property": "C56", "status": "proved", "theorems": ["Lamberthub.thorne_A_series", "Lamberthub.Thorne.getAArray_eq"], "note": "an analytic identity, with convergence, for every a outside [-s/2, s/2]; get_Q_matrix and get_B_array are C39"},
{"property": "C57", "status": "partial", "theorems": ["Lamberthub.izzo_invalid_partial", "Lamberthub.izzo_invalid_accepted"], "note": "proved except for a negative time together with a negative number of revolutions, where the claim is false: negation proved with M=-1 and default tolerances"},
{"property": "C58", "status": "partial", "theorems": ["Lamberthub.izzo_householder_order", "Lamberthub.izzo_householder_converges", "Lamberthub.gooding_halley_order", "Lamberthub.gooding_converges", "Lamberthub.der_laguerre_order_partial", "Lamberthub.der_converges_partial", "Lamberthub.mcelreath_householder_order", "Lamberthub.mcelreath_minimum_order", "Lamberthub.arora_halley_order", "Lamberthub.lancT1_ne_zero", "Lamberthub.Izzo.halley_misses_minimum", "Lamberthub.arora_converges", "Lamberthub.mcelreath_converges", "Lamberthub.mcelreath_minimum_converges", "Lamberthub.gooding_minimum_order", "Lamberthub.gooding_minimum_converges", "Lamberthub.arora_switch_no_order", "Lamberthub.arora_switches_no_order", "Lamberthub.avanzini_secant_order"], "note": "orders 4, 3, 3, 3, 4, 3, 3 of the steps of izzo, gooding (roots and minimum), der, mcelreath (roots and minimum), arora, with the loops of all of them started near the root (number of passes and accuracy). avanzini: order of the golden ratio at every root of its function, elliptic or hyperbolic, and its loop stops there. Above half a turn the iteration of der is only linear or repels (C89). At the two switching points sqrt(2) +- 0.02 of arora (no revolutions, both ways) the claim is false: the jump of W leaves no order of convergence (negation proved). Finding: the minimum search of izzo (_halley) does not converge to the minimum at all (Izzo.halley_misses_minimum)"},
{"property": "C59", "status": "partial", "theorems": ["Lamberthub.arc_reversal", "Lamberthub.vallado_reversal", "Lamberthub.delatorre_reversal", "Lamberthub.negrete_reversal", "Lamberthub.mcelreath_reversal", "Lamberthub.jiang_reversal", "Lamberthub.der_reversal", "Lamberthub.battin_reversal", "Lamberthub.gooding_reversal", "Lamberthub.izzo_reversal", "Lamberthub.thorne_reversal", "Lamberthub.gauss_reversal_partial", "Lamberthub.arora_reversal_partial", "Lamberthub.avanzini_reversal", "Lamberthub.avanzini_solved_together", "Lamberthub.izzo_polar_not_reversible", "Lamberthub.pan_not_reversible", "Lamberthub.arora_not_reversible", "Lamberthub.arora_revolutions_not_reversible", "Lamberthub.avanzini_equatorial_reversal_iff", "Lamberthub.avanzini_equatorial_not_reversible"], "note": "the transfers themselves and 8 solvers for all non-null positions, izzo and thorne in planes that do not contain the polar axis; in those planes the claim is false for izzo (negation proved). gauss: same outcome and iterations, the velocities are reversed if and only if the distances are equal. arora: no revolutions, with atol converted from the units of the first distance to those of the second. avanzini: outside the equatorial plane; in it both problems fail with the same error or neither does. pan: false, the transfers of a family of problems are not reversed whatever brentq does (negation proved). arora with the same atol on both sides: false for all positions at different distances, without revolutions and with them (negations proved). avanzini in the equatorial plane: the velocities are reversed if and only if the semi-latus rectum has one value, and this fails for all circular transfers of more than half a turn (negation proved)"},
{"property": "C60", "status": "partial", "theorems": ["Lamberthub.oneOrbit_iff", "Lamberthub.arc_oneOrbit", "Lamberthub.izzo_oneOrbit", "Lamberthub.vallado_oneOrbit", "Lamberthub.delatorre_oneOrbit", "Lamberthub.gooding_oneOrbit", "Lamberthub.thorne_oneOrbit", "Lamberthub.arora_oneOrbit", "Lamberthub.jiang_oneOrbit", "Lamberthub.mcelreath_oneOrbit", "Lamberthub.negrete_oneOrbit", "Lamberthub.battin_oneOrbit", "Lamberthub.der_oneOrbit_iff", "Lamberthub.der_near_parabolic_never_a_transfer", "Lamberthub.gauss_oneOrbit_iff", "Lamberthub.pan_oneOrbit", "Lamberthub.avanzini_oneOrbit_partial", "Lamberthub.avanzini_equatorial_not_oneOrbit", "Lamberthub.avanzini_equatorial_prograde_iff", "Lamberthub.avanzini_equatorial_retrograde_iff"], "note": "eleven solvers for all inputs (vallado and battin when the positions are not aligned, which they do not check); the claim is false for gauss exactly when the distances differ, for der exactly when its parabolic shortcut is taken, and for avanzini in the equatorial plane exactly unless the theorems ending in _iff say otherwise: all three are characterised by an equivalence, so nothing is missing; the status is partial because the claim itself is false for these three solvers"},
{"property": "C61", "status": "partial", "theorems": ["Lamberthub.polarMap_complete", "Lamberthub.sym_polarMap", "Lamberthub.arc_symmetry", "Lamberthub.vallado_symmetry", "Lamberthub.delatorre_symmetry", "Lamberthub.gauss_symmetry", "Lamberthub.battin_symmetry", "Lamberthub.der_symmetry", "Lamberthub.jiang_symmetry", "Lamberthub.mcelreath_symmetry", "Lamberthub.negrete_symmetry", "Lamberthub.arora_symmetry", "Lamberthub.gooding_symmetry", "Lamberthub.izzo_symmetry", "Lamberthub.thorne_symmetry", "Lamberthub.pan_symmetry", "Lamberthub.avanzini_symmetry_partial", "Lamberthub.izzo_polar_not_symmetric"], "note": "equations between the two runs, for all inputs and all isometries that keep the polar axis (polarMap_complete: there are no others), for eleven solvers; izzo and thorne satisfy it for the isometries without a mirror through the axis, and for the others outside the planes through the polar axis, where izzo never satisfies it (negation proved). avanzini: outside the equatorial plane, where even the rotations fail. Missing: nothing else is claimed true; the claim as stated is false for izzo, thorne and avanzini in those planes"},
{"property": "C62", "status": "proved", "theorems": ["Lamberthub.Report.main_runs", "Lamberthub.Report.main_last_wins", "Lamberthub.Report.main_no_files", "Lamberthub.Report.update_replaces", "Lamberthub.Report.update_appends", "Lamberthub.Report.update_last_wins", "Lamberthub.Report.buildSection_shape", "Lamberthub.Report.buildSection_plain", "Lamberthub.Report.rstrip_prefix", "Lamberthub.Report.update_never", "Lamberthub.Report.update_loses_text", "Lamberthub.Report.update_backslash_fails"], "note": "Everything stated is proved: the equations for READMEs that are tidy (no start marker, or one generated section) and for plain texts; for the other READMEs the property is false and the failures are proved. The README in /repo is tidy. Octal escapes and group references in the replacement text are simplified to re.error."},
{"property": "C63", "status": "proved", "theorems": ["Lamberthub.Report.tables_total", "Lamberthub.Report.tables_complete", "Lamberthub.Report.tables_ranked", "Lamberthub.Report.tables_speedup_ge_one", "Lamberthub.Report.solverName_function", "Lamberthub.Report.solverName_plain", "Lamberthub.Report.tables_duplicate", "Lamberthub.Report.row_direction", "Lamberthub.Report.tables_sorted"], "note": "Ranks and speedups are proved when no solver was measured twice on a case; the ranks are wrong in every other case (tables_duplicate). Number formatting is a parameter."},
{"property": "C64", "status": "proved", "theorems": ["Lamberthub.vallado_refuses_fast", "Lamberthub.vallado_returns_slow", "Lamberthub.vallado_long_way_iff", "Lamberthub.lowestY_pos_of_long", "Lamberthub.fastestTime_pos", "Lamberthub.vallado_long_way_refused", "Lamberthub.vallado_long_way_refused_solvable"], "note": "Everything stated is proved, in both directions. Nothing is said about the short way when the lowest conic has y <= 0 (readjustment loop): see C35 and C37."},
{"property": "C65", "status": "partial", "theorems": ["Lamberthub.Rounded.dot_error", "Lamberthub.Rounded.norm_error", "Lamberthub.Rounded.cosine_error", "Lamberthub.Rounded.cross_error", "Lamberthub.Rounded.angle_defined", "Lamberthub.Rounded.angle_error", "Lamberthub.Rounded.binary64_standard", "Lamberthub.Rounded.angle_undefined", "Lamberthub.Rounded.angle_judged_aligned", "Lamberthub.Rounded.angle_wrong_sense", "Lamberthub.Rounded.angle_wrong_sense_prograde", "Lamberthub.Rounded.angle_aligned"], "note": "Proved for every arithmetic that follows the standard model, and binary64 with unbounded exponent does; the claim without the conditions is false in binary64 (four witnesses proved; exactly aligned positions are never misjudged). Missing: overflow and underflow, the reordering that fastmath allows, and rounding in the rest of the solvers (C82 covers the loops that stop by rounding)."},
{"property": "C66", "status": "proved", "theorems": ["Lamberthub.thorne_solves", "Lamberthub.thorne_refuses", "Lamberthub.thorne_solves_iff", "Lamberthub.thorne_minimum_energy_refused", "Lamberthub.thorne_fast_refused"], "note": "Everything stated is proved, in both directions. The direction that returns assumes that the bracketing root finder finds a root of a continuous function with a sign change in enough iterations (BrentComplete) and, for full_output, that it counts at least one iteration. Real arithmetic: in binary64 the refused window around the minimum-energy time is a few units in the last place."},
{"property": "C67", "status": "proved", "theorems": ["Lamberthub.jiang_fast_wrong", "Lamberthub.jiang_large_unit_wrong", "Lamberthub.arc_time_unique"], "note": "A defect, proved for all inputs; arc_time_unique makes the time of the returned motion unambiguous. Real arithmetic."},
{"property": "C68", "status": "proved", "theorems": ["Lamberthub.pan_short_chord_is_vallado", "Lamberthub.pan_slow_is_vallado", "Lamberthub.pan_slow_solved", "Lamberthub.pan_diverges"], "note": "Everything stated is proved, in real arithmetic."},
{"property": "C69", "status": "proved", "theorems": ["Lamberthub.der_solves_elliptic", "Lamberthub.der_solves_hyperbolic", "Lamberthub.der_divides_by_zero"], "note": "Everything stated is proved. The second step of the hyperbolic iteration divides by zero when the first one lands on the clamp value 1 + eps; such a time of flight exists for every geometry (der_divides_by_zero), so the claim that der2011 solves all hyperbolic problems is false. Multi-revolution transfers are in C87."},
{"property": "C70", "status": "proved", "theorems": ["Lamberthub.least_energy", "Lamberthub.conic_of_time", "Lamberthub.thorne_times", "Lamberthub.der_times", "Lamberthub.jiang_times", "Lamberthub.mcelreath_times", "Lamberthub.negrete_times", "Lamberthub.vallado_right_conic", "Lamberthub.delatorre_right_conic", "Lamberthub.arora_right_conic"], "note": "The time formulas of thorne, der, jiang, mcelreath and negrete are proved equal to the two specified times. The conic is proved right for vallado, delatorre and arora, outside the tolerance band around the parabola."},
{"property": "C71", "status": "partial", "theorems": ["Lamberthub.battin_time_wrong", "Lamberthub.battin_time_wrong_slow", "Lamberthub.battin_wrong_reached"], "note": "false: for every transfer slower than the parabola on the short way, and every slow enough transfer in either sense, the time of the returned orbit stays at a fixed distance from the requested one however small the tolerance (negation proved); a problem on which the solver returns with every tolerance, 0 included, is exhibited."},
{"property": "C72", "status": "proved", "theorems": ["Lamberthub.gauss_short_solved", "Lamberthub.gauss_fast_wrong", "Lamberthub.gauss_slow_refused"], "note": "Everything stated is proved; the three parts say where the solver works and where it does not. Nothing is said about problems that are neither short nor slow; the arrival velocity is wrong when the distances differ (C28)."},
{"property": "C73", "status": "proved", "theorems": ["Lamberthub.izzo_fast_solved", "Lamberthub.izzo_near_least_energy_solved", "Lamberthub.izzo_slow_ratio", "Lamberthub.izzo_slow_wrong", "Lamberthub.izzo_slow_wrong_long_way", "Lamberthub.izzo_slow_hyperbola", "Lamberthub.izzo_slow_hyperbola_short", "Lamberthub.slowRatio_lt_one"], "note": "Everything stated is proved. The neighbourhood of (2) and the bounds from which (1) and (3) hold are not explicit; the geometries with 35 k^2 + 20 k = 1 and k = 1 are left out of (3)."},
{"property": "C74", "status": "proved", "theorems": ["Lamberthub.opposite_refused", "Lamberthub.opposite_undefined", "Lamberthub.izzo_aligned_never", "Lamberthub.thorne_aligned_never", "Lamberthub.delatorre_aligned_never", "Lamberthub.arora_opposite_never", "Lamberthub.battin_opposite_never", "Lamberthub.ray_refused", "Lamberthub.vallado_ray_radial", "Lamberthub.vallado_returns_ray", "Lamberthub.battin_ray_radial", "Lamberthub.battin_aligned_radial"], "note": "Everything stated is proved for exact arithmetic. In floating point cos(pi) is exact but sin(pi) is 1.2e-16, so that delatorre and arora divide by a tiny number instead of zero; this is not modelled."},
{"property": "C75", "status": "proved", "theorems": ["Lamberthub.gooding_start_domain", "Lamberthub.gooding_near_least_energy_solved", "Lamberthub.gooding_fast_solved", "Lamberthub.gooding_slow_ratio", "Lamberthub.gooding_slow_wrong"], "note": "Everything stated is proved. The neighbourhood of (2) and the bounds from which (3) and (4) hold are not explicit; the least-energy time itself divides by zero (gooding_minimum_energy_undefined, C19)."},
{"property": "C76", "status": "partial", "theorems": ["Lamberthub.gooding_feasibility_partial"], "note": "Proved for every geometry from some number of revolutions on (not explicit). Missing: the smaller numbers of revolutions, for which the convergence of the search for the minimum time from its starting value is not proved."},
{"property": "C77", "status": "partial", "theorems": ["Lamberthub.gooding_multi_solved_partial"], "note": "Proved for every geometry from some number of revolutions on and for times up to some distance above the minimum (neither explicit). Missing: the smaller numbers of revolutions and the times far from the minimum."},
{"property": "C78", "status": "proved", "theorems": ["Lamberthub.mcelreath_solved_near", "Lamberthub.mcelreath_slow_wrong"], "note": "Everything stated is proved. The neighbourhood and the constant of (1) and the bound from which (2) holds are not explicit."},
{"property": "C79", "status": "proved", "theorems": ["Lamberthub.arora_parabolic_solved", "Lamberthub.arora_fast_solved", "Lamberthub.arora_slow_refused"], "note": "Everything stated is proved. The error of the flight time also contains the error of the series for W, below 1e-17 time units of the geometry; the neighbourhoods and the bound of (3) are not explicit."},
{"property": "C80", "status": "proved", "theorems": ["Lamberthub.izzo_multi_slow_solved"], "note": "Everything stated is proved. The flight time from which it holds is not explicit."},
{"property": "C81", "status": "proved", "theorems": ["Lamberthub.gooding_multi_slow_ratio", "Lamberthub.gooding_multi_slow_wrong", "Lamberthub.arc_time_unique_rev"], "note": "Everything stated is proved. The number of revolutions and the flight time from which it holds are not explicit."},
{"property": "C82", "status": "proved", "theorems": ["Lamberthub.Rounded.c2_loop_rounded", "Lamberthub.Rounded.c3_loop_rounded", "Lamberthub.Rounded.hyp2f1b_rounded", "Lamberthub.Rounded.izzo_series_argument", "Lamberthub.Rounded.logSeries_rounded", "Lamberthub.Rounded.c2_pos_rounded", "Lamberthub.Rounded.c3_pos_rounded", "Lamberthub.Rounded.c2_neg_rounded", "Lamberthub.Rounded.c3_neg_rounded", "Lamberthub.Rounded.binary64_absorbs", "Lamberthub.Rounded.lib64_model", "Lamberthub.Rounded.c2_binary64", "Lamberthub.Rounded.c3_binary64", "Lamberthub.Rounded.hyp2f1b_binary64", "Lamberthub.Rounded.logSeries_binary64"], "note": "Everything stated is proved. The arithmetic has no overflow and no underflow; the library functions have a relative error w; the reordering that fastmath allows is not covered. The series loop of tlamb near x = 1 is the subject of C84."},
{"property": "C83", "status": "proved", "theorems": ["Lamberthub.avanzini_solves_near_fundamental", "Lamberthub.eccVec_ge"], "note": "Everything stated is proved. The size of the neighbourhood is not explicit."},
{"property": "C84", "status": "proved", "theorems": ["Lamberthub.Rounded.seriesTime_rounded", "Lamberthub.Rounded.seriesTime_binary64"], "note": "Everything stated is proved. The derivatives dt, d2t, d3t are not modelled with rounding."},
{"property": "C85", "status": "proved", "theorems": ["Lamberthub.multi_rev_stable", "Lamberthub.onPath_unique", "Lamberthub.multi_rev_agree", "Lamberthub.delatorre_multi_accurate", "Lamberthub.arora_multi_accurate"], "note": "Everything stated is proved. delta is not explicit. For arora2013 the path is in C86. minimize_scalar and brentq are parameters satisfying their documentation."},
{"property": "C86", "status": "proved", "theorems": ["Lamberthub.arora_multi_solves", "Lamberthub.Arora.multi_local", "Lamberthub.onPath_side"], "note": "Everything stated is proved. That the search for the guess itself returns is assumed (brentq is limited to 100 passes and to the interval sqrt(2)-1e-8, its contract does not promise a result); the example shows a problem where it does for all tolerances up to 1. delta and the number of passes are not explicit."},
{"property": "C87", "status": "proved", "theorems": ["Lamberthub.der_minimum_time", "Lamberthub.der_refuses_infeasible", "Lamberthub.der_infeasible_not_refused", "Lamberthub.der_multi_solves", "Lamberthub.der_fallback_minimum_fails", "Lamberthub.Der.computeMinimumTime_near", "Lamberthub.Der.minimumTimeLoop_fails"], "note": "Everything stated is proved, as the truth is: above half a turn the least time is wrong and the fallback iteration never helps (negations). Between the least time and a quarter of a unit above the time of the ellipse of least energy nothing is said; there the fallback refuses (C41, der_fallback_refuses). brentq is a parameter that satisfies its documentation."},
{"property": "C88", "status": "proved", "theorems": ["Lamberthub.der_accurate", "Lamberthub.thorne_accurate", "Lamberthub.zero_rev_solvers_accurate", "Lamberthub.vallado_converges", "Lamberthub.delatorre_converges"], "note": "Everything stated is proved. delta is not explicit. The statement for der2011, thorne2004 and delatorre2018 is about runs that return; when they do is in C52, C66, C69 and C87. brentq is a parameter that satisfies its documentation."},
{"property": "C89", "status": "proved", "theorems": ["Lamberthub.der_rate", "Lamberthub.der_not_quadratic", "Lamberthub.der_repels", "Lamberthub.der_repels_near_parabola", "Lamberthub.der_converges_above", "Lamberthub.der_contracts"], "note": "Everything stated is proved. The cause is the sign of y in _tof_elliptic_prime (C42). At x = 0 and where the derivative used by the code vanishes the iteration is not described."},
{"property": "C90", "status": "proved", "theorems": ["Lamberthub.arora_hyperbolic_start", "Lamberthub.arora_elliptic_start", "Lamberthub.arora_samples_ordered"], "note": "Everything stated is proved. Beyond the last tabulated time the start leaves the domain (C79, arora_slow_refused)."},
{"property": "C91", "status": "proved", "theorems": ["Lamberthub.avanzini_root_iff", "Lamberthub.avanzini_fast_root", "Lamberthub.avanzini_defined", "Lamberthub.avanzini_no_root"], "note": "Everything stated is proved, about the function and not about the runs of the secant method: see C41 and C58 for those."},
{"property": "C92", "status": "proved", "theorems": ["Lamberthub.avanzini_secant_outcome"], "note": "Everything stated is proved, in real arithmetic: with floats two different points can have equal values."},
{"property": "C93", "status": "proved", "theorems": ["Lamberthub.avanzini_accurate", "Lamberthub.avanzini_exceptional_refused", "Lamberthub.avanzini_parabola_refused"], "note": "Everything stated is proved, in real arithmetic. delta depends on the problem and on maxiter and is not explicit: for a fixed number of passes only finitely many steps occur. Which problems do return is in C41, C58 and C83."},
{"property": "C94", "status": "proved", "theorems": ["Lamberthub.avanzini_maxiter", "Lamberthub.vallado_maxiter", "Lamberthub.gauss_maxiter", "Lamberthub.battin_maxiter", "Lamberthub.jiang_maxiter", "Lamberthub.delatorre_maxiter", "Lamberthub.mcelreath_maxiter", "Lamberthub.arora_maxiter", "Lamberthub.izzo_maxiter", "Lamberthub.gooding_maxiter_changes"], "note": "Everything stated is proved. Not stated for der2011, pan2016 and thorne2004, which hand maxiter to brentq (a parameter), nor for negrete2024, where maxiter is the number of points of a quadrature."},
{"property": "C95", "status": "proved", "theorems": ["Lamberthub.path_flag_single_revolution", "Lamberthub.path_flag_ignored", "Lamberthub.getTransferAngle_le"], "note": "Everything stated is proved. With M >= 1 the flag selects the path: C41."}
]}
