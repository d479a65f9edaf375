# Formal model of lamberthub — design

The code in `/repo` (python, `src/lamberthub`) is modelled function by function in
Lean 4 (`lean/Verif/Model/*`), specifications are stated separately
(`lean/Verif/Spec/*` and the `Spec` namespace at the head of some `Props` files),
helper lemmas live in `lean/Verif/Proofs/*` and the property theorems in
`lean/Verif/Props/*`, each with an `example` that meets its hypotheses.
`properties.jsonl` lists the properties, `MANIFEST.json` the theorems that establish
each of them.

## Modelling choices

* **Numbers.** A python float is modelled by a real number (`ℝ`), i.e. exact
  arithmetic.  Rounding is modelled for `linalg.py` and `get_transfer_angle`
  (`Model/Rounded.lean`, C65), and for the absorption loops (`Model/RoundedLoops.lean` and `Model/RoundedSeries.lean`, C82 and C84) only.  Overflow, subnormals and `fastmath` reassociation are *not*
  modelled.  Complex numbers (mcelreath, negrete) are modelled by `ℂ` with the
  principal square root and logarithm (`Model/PyC.lean`).
* **Undefined operations.** Division by zero, square root of a negative number,
  `arccos`/`arcsin` outside [-1,1], `log` of a non-positive number do **not** get a
  junk value: they stop the model with the outcome `error undefined`.  In the real
  program the same operation gives `inf`/`nan` (numpy) or `ZeroDivisionError`
  (numba).  Theorems of the form "whenever the solver returns ..." are therefore
  about runs in which every intermediate quantity is a finite number; theorems of the
  form "the solver returns" prove that none of these operations happens.
* **Exceptions** are values: the model lives in `Py α = Except PyErr α`, where
  `PyErr` distinguishes `ValueError`, `RuntimeError`, `AssertionError`, unbound local
  variables, `undefined` and `diverges` (an infinite `while`).
* **Loops.** `for numiter in range(1, maxiter+1)` is structural recursion on the
  remaining number of passes; unbounded `while` loops use `whileLoop`, which is the
  exact least-fixed-point semantics (`diverges` if the loop never exits), no fuel.
* **External code.** `scipy.optimize.brentq` and `minimize_scalar` are parameters of
  the model.  What a theorem needs of them is an explicit hypothesis:
  * `BrentSpec b`: the result lies in the bracket, is a root up to the tolerances, and
    a bracket without a change of sign is refused with `ValueError`;
  * `BrentEvaluates b`: the result is a point at which the function was evaluated;
  * `BrentCounts b`: the reported number of iterations is between 1 and `maxiter`;
  * `BrentLocal b`: the function is only evaluated inside the bracket;
  * `BrentComplete b` (C66 only): on a bracket with a change of sign of a continuous function, with
    positive `xtol` and `rtol` at least `2^-50`, every large enough `maxiter` gives a result;
  * `MinimizerSpec`: the point returned by `minimize_scalar(bounds=...)` is within the
    bounds (`arora_low_path` assumes moreover that the value found is not above the
    value at the root);
  * `MinimizerExact` (`arora_revolutions_not_reversible` only): the minimizer finds the least value of a
    continuous function (`exactMinimizer` is an instance).
  `exactBrent` is a concrete instance satisfying all the hypotheses on `brentq`.
  `time.perf_counter` is a parameter (`clock`).
* **Absorption loops** (`while res + delta != res`) stop because of rounding; over
  the reals they are modelled by their limit (documented at the definition), and
  the truncation error of every partial sum is bounded in a separate theorem
  (`stumpff_loop_error`, `hyp2f1b_loop_error`).  The loops of `stumpff.py`, of `hyp2f1b` and of the logarithm in `tlamb`
  are modelled a second time as they are written, with rounding (`Model/RoundedLoops.lean`); C82 proves that they stop and how far
  the result is from the limit.  The series loop of `tlamb` near `x = 1` is modelled
  with rounding in `Model/RoundedSeries.lean` (without the derivatives, which the loop does not read); C84 is the same for it.
* numba/caching/compilation, array dtypes and wall-clock time are not modelled.
  The shape checks and NaN behaviour of `assertions.py` are modelled separately on raw
  arrays (`Model/Arrays.lean`).

## What is modelled

| source | model |
|--------|-------|
| `__init__.py` (lists of solvers) | `Model/Catalogue` |
| `linalg.py` | `Model/V3`, with rounding `Model/Rounded` |
| `utils/assertions.py` | `Model/Assertions`, `Model/Arrays` |
| `utils/angles.py` | `Model/Angles`, `get_transfer_angle` with rounding `Model/Rounded` |
| `utils/elements.py` | `Model/Elements` |
| `utils/kepler.py` | `Model/Kepler` |
| `utils/stumpff.py` | `Model/Stumpff`, with rounding `Model/RoundedLoops` |
| `ecc_solvers/avanzini.py`, `ecc_solvers/utils.py` | `Model/Avanzini` (`_secant` is the code's own secant method) |
| `p_solvers/{battin,gauss,jiang,pan}.py` | `Model/{Battin,Gauss,Jiang,Pan}` |
| `regularization/delatorre.py` | `Model/Delatorre` |
| `series_solvers/thorne.py` | `Model/Thorne`, `Model/ThorneSeries` |
| `universal_solvers/*.py` | `Model/{Arora,Der,Gooding,Izzo,McElreath,Negrete,Vallado}` |
| `scripts/generate_benchmark_report.py` | `Model/Report` (texts are lists of characters; the command line, the JSON parser and the number formats are not modelled) |

Every function of `src/lamberthub` has a definition.  Not modelled: the tests, the
documentation, the docstrings, the results of `brentq`/`minimize_scalar` beyond the hypotheses above, and floating point rounding outside C65, C82 and C84.

## Central specification

`Spec/TwoBody.lean`: a Kepler trajectory is a curve `pos, vel : ℝ → V3` with
`pos' = vel`, `vel' = -μ pos/|pos|³`, `pos ≠ 0` for all times.
`LambertArc μ r1 r2 v1 v2 T M`: some Kepler trajectory is at `(r1,v1)` at time 0 and
at `(r2,v2)` at time `T > 0` and returns to the direction of `r1` exactly `M` times
strictly in between.  No solver variable occurs in it.  `Sense pro r v` is the sign of
the polar component of the angular momentum.  `Spec/Radial.lean`: the same for a motion
along a ray during the transfer time only (positions in the same direction).

The bridge (`Proofs/Core.lean`) is a Levi-Civita regularisation argument: for
geometry constant `A` (A² = |r1||r2| + r1·r2, A ≠ 0), and any value `V > 0` of
`|r1|+|r2| - √2 A cos φ` (resp. 1, cosh φ), the Lagrange-coefficient velocities
`v1 = (r2 - f r1)/g`, `v2 = (ġ r2 - r1)/g`, `f = 1-V/|r1|`, `ġ = 1-V/|r2|`,
`g = A √(V/μ)` are a `LambertArc` for the time given by Lagrange's equation
(`LC.Path.arc`).  Every solver is reduced to this statement by algebra.  Conversely
every `LambertArc` between positions that are not aligned comes from such a path
(`LC.path_of_arc`, `Proofs/PathConverse`), which gives uniqueness (C44), the number of
transfers (C53) and the comparison of low and high paths (C41).

## Plan per property

| id | proof |
|----|-------|
| C01, C02, C57 | case analysis on the guards |
| C03-C07 | Cauchy-Schwarz, arccos, Lagrange's identity, arctan2 algebra |
| C08-C11 | half-angle tangents, monotone compositions, derivatives; time via the two-body specification |
| C12-C14 | trigonometric identities, branch analysis |
| C15 | power series of cos, sin, cosh, sinh |
| C16-C29, C45, C52, C54 | inversion of a successful run + core theorem; forward evaluation for the theorems that say that a solver returns |
| C30-C32 | solver prologues and loops, induction; relational comparison of two runs (`Agree`) |
| C33, C34 | relational comparison of the runs on scaled and rotated data |
| C35-C38 | loop invariants by induction, divergence by an invariant |
| C39, C56 | induction over rows and columns, formal power series, hypergeometric series |
| C40 | finite table + C30 |
| C41 | unimodality of the time of flight (`revT_valley`) |
| C42, C46 | `HasDerivAt` |
| C43, C50 | induction on the loop, sign of a cubic |
| C44, C53, C55 | monotonicity and valley shape of the time of flight, converse of the core theorem |
| C47 | residues: exact Riemann sums of powers, continuity |
| C48, C49, C51 | exact identities between the time equations |
| C58 | Taylor expansion with Lagrange remainder at simple roots (`halley_order`, `householder_order`, `laguerre_order`); simplicity from monotonicity (`lancT1_ne_zero`); secant method: mean values of the slopes from the root, then Fibonacci exponents by induction on the passes (`secant_step`, `secantLoop_order`) |
| C59 | relational comparison of the runs on exchanged positions (`Agree`); uniqueness of the Lagrange velocities |
| C60 | first integrals of the Lagrange form for every positive parameter; the equivalence of equal integrals and a common motion (`oneOrbit_iff`) |
| C61 | a structure of what the runs use of an isometry (`Sym`), relational comparison of the runs; classification of the isometries that keep the axis |
| C62 | first-occurrence search and substitution on texts; the README stays in a form closed under updates; induction on the runs |
| C63 | grouping by key and stable sorting as permutations; the dictionaries of ranks and speedups by induction on the cases |
| C64 | the bisection on the strictly increasing time of flight, started at the lowest psi; the bracket invariant in both directions |
| C65 | `linalg.py` and `get_transfer_angle` modelled again with a rounding after every operation; forward error analysis in the standard model; binary64 (53 bits, ties to even) as an instance |
| C66 | strict monotonicity of the time of flight in the variable of the search; which values the intervals of semi-major axes cover; end of the doubling loops |
| C67 | a positive decreasing residual: the loop climbs to the end of the bracket in bounded steps; the initial velocity determines the duration |
| C68 | a finite set of sampled times is bounded; Cauchy-Schwarz on the chord against the absolute tests |
| C69 | the iteration maps the open interval to itself or gives up; the time is monotone, so the fallback bracket has a sign change; the doubled bound passes the solution; the division by zero is reached because the quadratic through the three points of the finite differences lies below the time curve, whose third derivative is negative (`lancT3_neg`) |
| C70 | every orbit of the problem has one path parameter x, its energy is -(1-x²)μ/s; the time is monotone in x; the formulas of the five solvers are evaluated at x = 0 and x = 1 |
| C71 | two rational bounds of the arc tangent show that both bugs of battin1984 make y too small; the true flight time is tof·y*/y; compactness-free ε-δ argument in Lancaster's variable; the witness is a fixed point of the loop found by the intermediate value theorem |
| C72 | the map of one pass is a contraction with factor 5/6 on short problems (term by term bounds of the series and of its differences); the remainder of the series is below 5e-27; comparison with the parabola by monotonicity of the time; compactness for the slow problems |
| C73 | asymptotics of the time equation and of its three derivatives at x = -1 and x = infinity; the limit of one pass of `_householder` there (exact for 1/x, off by an explicit factor for (1+x)^(-3/2)); a contraction that is uniform in the root from the strict derivative; `_halley` for large times by compactness |
| C74 | inversion of a successful run for the solvers that never return; forward evaluation for the errors; the Levi-Civita transformation on a line and a local inverse of the time map for the motions along a ray (`Path.radial`) |
| C75 | the bilinear start of `xlamb` bounded by hand; expansions of the time and two derivatives to `o(1/x)` relative accuracy for fast hyperbolas, so that a pass is exact in absolute terms; the uniform contraction of C73 for the Halley step; for slow transfers the start is of order `tof^(-1/4)` at least and the pass divides it by five |
| C76 | the time with `M` revolutions is affine in `M`; divided by `M` its derivative tends to one with a simple zero at 0, so that the step of the search contracts uniformly in `1/M` (`min_step`) and the search ends within the tolerances; all code after the test of feasibility is shown never to raise its message (`NotRefused`) |
| C77 | the time near its minimum is a parabola up to 1/1000 (`time_parabola`); on such a function the Halley step halves the distance to a root from all points closer to it than half its distance to the minimum, uniformly in that distance (`halley_parabola`); both starting values are such points (`firstStart_close`, `secondStart_close`) |
| C78 | the elliptic start is exact for the transfer whose eccentric anomalies differ by the transfer angle (`start_theta`), and the third-order step halves the distance to the root uniformly in the flight time (`step_near`, `desired_near`); near `2π` the time has a pole of third order (`time_slow`), at which the step taken from a start of relative order `tof^(-1/2)` multiplies the distance to `2π` by four (`step_slow`) and is accepted |
| C79 | the starts of the hyperbolic and elliptic regions next to the parabola and to zero time are continuous functions of the flight time whose limits are the solution (`near_hyp`, `near_ell`, `short_guess`, `long_guess`), so that the test of the first pass holds (`iterate_first`); the start of the last elliptic region tends to a number below `-√2` (`slow_constant`, `slow_guess`), where `_get_W` refuses (`iterate_refused`) |
| C80 | the time equation and its three derivatives at both ends x = ±1 (`rv_end`, `rv_end_deriv`, `rv_end_third`, `Proofs/IzzoMultiSlow`); the guess has relative error O(√u) there (`guess_residual`) and a Householder pass leaves a relative error o(u^(3/2)) by Taylor's formula (`taylor_bound`, `householder_residual`, `step_multi`), which is exactly what an absolute error that vanishes needs |
| C81 | the end expansions of C80; both starting values stay at a distance of order at least `tof^(-1/2)` from the ends (`firstStart_long`, `secondStart_long`, the bilinear value of C75), so the time of the start is negligible and the Halley pass divides the distance to the end by five (`step_slow_rev`) |
| C82 | the three loops and `c2`, `c3` modelled with a rounding after every operation; an abstract lemma (`acc_stop`) on sums accumulated in an arithmetic that absorbs small terms; forward error analysis with factors `(1-u)^k` (`Fac`); binary64 as an instance (`binary64_absorbs`) |
| C83 | definedness and continuity of the time of flight near `eccT = 0` (from the monotony and surjectivity of the time along the family of paths), two explicit steps of the secant method; least eccentricity from the fixed component of the eccentricity vector along the chord |
| C84 | every variable of the loop followed as exact value times `(1±u)^k`, the sum `tqsum` with an absolute bound against the sum of the sizes of its terms (for `q < 0` the terms change sign); the coefficients of the series go down by at least `1/(2n+2)` of themselves, so that an absorbed term bounds the rest; `acc_stop_from` for the passes that `i < n` forces |
| C85 | the strict monotony of the dimensionless time on the two sides of its minimum makes the parameter continuous in the time without any derivative; the side of the minimum is the order of the energies |
| C86 | the root is simple because the time composed with `k(x)` has the derivative of the dimensionless time, which vanishes at the fastest transfer only; local convergence of the loop (C58) from a guess whose exact root is on the requested side (C41) |
| C87 | the code's equation is minus a third of `revH`, the derivative of the time with an integrating factor, for both signs of `σ`; the root of `brentq` is the fastest transfer, the estimate of the time there is Lipschitz with an explicit constant; the fallback iteration has an invariant: the residual never decreases |
| C88 | the stop on the path parameter (der2011) or on the semi-major axis (thorne2004) is turned into a statement on velocities: there are at most two path parameters, at most one axis with its branch, and the velocities are continuous in them; the stop on the time by C44 and C85 |
| C89 | a Laguerre step with a wrong derivative `g` of `f` is differentiable at the root with derivative `1 - f'/g`; the sign of `f'` is known from the shape of the time curve (C43, C85) |
| C90 | the interpolations are rewritten as means with positive weights (`getX_frac`, `rational_mem`), so that only the order of the tabulated times is needed: polynomial inequalities in `tau` after squaring (`sampled_order`) |
| C91 | every conic path is that of a transverse eccentricity between the limits of the code (`ecc_of_path`), the time of flight increases with it (`tof_lt_iff`) and is defined except where the orbit is a parabola or has a position at the apocentre (`tof_defined_state`) |
| C92 | induction on the number of passes, with the injectivity of the function (C91) as the reason why two different points have different values |
| C93 | induction on the number of passes: the iterates do not depend on the tolerances, so below the smallest nonzero step only a zero step, i.e. a root, stops the loop; then C51 and C91 |
| C94 | induction on the smaller number of passes; the relation "fails with the error of no convergence, or equal" is compatible with `bind` and `if` (`Maxiter.Ext`) |
| C95 | unfolding: the flag occurs only in branches for M ≥ 1; for gooding1990, which recovers the revolutions from the angle, the transfer angle is at most a full turn in all cases, so that `xlamb` reports one solution |

## Findings: properties that the code violates

Each negation is a theorem with explicit inputs, beside the `_partial` theorem that
states what does hold.

* **validation**: `r2` is never looked at, a null final position is accepted
  (`null_final_position_accepted`), wrong shapes of `r2` and NaN components are
  accepted (`raw_final_shape_unchecked`, `raw_nan_accepted`); izzo2015 validates
  nothing (`izzo_negative_mu_undefined`).
* **angles**: in planes through the polar axis both senses give the same transfer angle
  (`transferAngle_polar_plane_same`); retrograde equatorial planes get inclination 0
  (`incRaan_retrograde_equatorial`).
* **rounding**: `get_transfer_angle` does not clamp the cosine, nor allow for rounding in its tests
  against zero: in binary64 there are non-aligned positions for which it returns nan
  (`Rounded.angle_undefined`), others that it judges aligned (`Rounded.angle_judged_aligned`) and
  others for which it returns the angle of the opposite sense, in both directions (`Rounded.angle_wrong_sense`,
  `Rounded.angle_wrong_sense_prograde`). Exactly aligned positions are always recognised (`Rounded.angle_aligned`).
* **polar planes**: izzo2015 goes the short way when prograde and the long way when
  retrograde (`izzo_polar_side`), the solvers that use `get_transfer_angle` always the long way
  (`vallado_polar_side`): they return different velocities (`izzo_vallado_polar_disagree`), and
  izzo2015 does not respect the reversal of the motion (`izzo_polar_not_reversible`) nor
  the mirrors in planes through the axis (`izzo_polar_not_symmetric`).
* **elements**: `rotation_matrix` about axis 1 is not a rotation
  (`rotationMatrix_axis1_not_rotation`); `rv2coe` is undefined on parabolas and lossy for
  near-circular or retrograde equatorial states.
* **avanzini2008**: wrong plane orientation for equatorial transfers
  (`avanzini_equatorial_wrong`, `avanzini_rotation_fails`); division by zero at the
  parabola (`avanzini_parabolic_undefined`). Its equation has one root at most, and none exactly when the transfer is
  parabolic or has a position at the apocentre (`avanzini_root_iff`, `avanzini_fast_root`); it is undefined at three points at most
  (`avanzini_defined`). With small tolerances it refuses the transfers without a root (`avanzini_exceptional_refused`,
  `avanzini_parabola_refused`).
* **gauss1809**: arrival velocity wrong whenever the distances differ
  (`gauss_arrival_wrong`); unbound variable on the parabola (`gauss_parabola_unbound`).
* **C72** gauss1809 applies the circular cosine to the hyperbolic anomaly: on every short problem faster than the
  parabola it returns an ellipse that takes too long (`gauss_fast_wrong`); slow problems are refused for every
  number of iterations (`gauss_slow_refused`).
* **C73** the convergence test of `_householder` is absolute in x: on slow transfers without revolutions x is so close
  to -1 that the first pass is accepted whatever it is. The flight time obtained over the one requested tends to
  `1/(k rho^(3/2))`, `rho = (5k²+44k+5)/(35k²+20k-1)`, below one unless k = 1 (1.4 % off for long-way transfers
  of small chord, 6 % at lambda = 0.99); for short chords (`35k²+20k < 1`) the pass jumps to x < -1 and a hyperbola is returned.
  With revolutions the guess has the right leading term and the same test is harmless (C80).
* **C74** opposite positions are not tested for by gooding, avanzini, izzo, arora, battin, thorne and delatorre, which
  divide by zero; vallado and battin do not refuse positions in the same direction (`vallado_returns_ray`).
* **C75** the tests of `xlamb` compare values of x, which are near -1 on slow transfers: for every geometry the
  first pass is accepted when the time is long enough, and since the start is of the wrong order the flight time
  obtained over the one requested tends to zero (`gooding_slow_ratio`, `gooding_slow_wrong`).
  The same happens with many revolutions, at both ends x = ±1 (C81: `gooding_multi_slow_wrong`).
* **C78** the same happens in mcelreath2025, whose variable approaches 2π on slow transfers: the first step is accepted
  and the transfer returned takes arbitrarily many times too long (`mcelreath_slow_wrong`).
* **C79** the rounded constants of region E4 of arora2013's guess give, as the time grows, a start that tends to
  -1.41421357 < -√2: all slow enough problems end in a ValueError although they have a solution (`arora_slow_refused`).
* **battin1984**: misplaced parenthesis in `_u_at_B` (`battin_cubic_wrong`); the
  continued fraction of `_xi_at_x` is never used (`battin_xi_no_level`); aligned positions
  give radial velocities (`battin_aligned_radial`).
* **revolutions**: gauss1809, battin1984 and vallado2013 ignore `M`
  (`revolutions_ignored`, `vallado_revolutions_wrong`, `battin_revolutions_wrong`).
* **vallado2013**: the readjustment loop never ends on an open family of inputs
  (`vallado_diverges`) and leaves its bracket on another (`vallado_leaves_bracket`).  On the long
  way it refuses every problem faster than the conic `psi = -4 pi^2`, for every `maxiter`
  (`vallado_long_way_refused_solvable`), although each of them has a solution.
* **jiang2016**: endless loop at the minimum-energy time (`jiang_minimum_energy_diverges`);
  reports 0 iterations on the parabola (`jiang_reports_zero`); for very fast transfers, and for every hyperbolic
  transfer when lengths are expressed in a large unit, it returns a motion of the wrong duration without an error
  (`jiang_fast_wrong`, `jiang_large_unit_wrong`).
* **pan2016**: the parabolic time is √2 times the true one (`pan_parabolic_time_wrong`).
  Positions less than `1e-4` units of length apart and slow transfers never use Pan's method
  (`pan_short_chord_is_vallado`, `pan_slow_is_vallado`), and the fallback never stops on a
  family of inputs (`pan_diverges`).
* **thorne2004**: wrong time for prograde motion in polar planes (`thorne_polar_wrong_time`);
  the search intervals leave gaps: problems close to the minimum-energy time and very fast ones are refused
  although they have a solution (`thorne_minimum_energy_refused`, `thorne_fast_refused`).
* **der2011**: the near-parabolic shortcut returns velocities of no transfer
  (`der_parabolic_not_a_transfer`); the derivative is wrong above half a turn
  (`der_derivative_wrong`); the fallback refuses feasible times (`der_fallback_refuses`);
  the least time with revolutions is too small above half a turn, so that infeasible times are not refused
  (`der_infeasible_not_refused`); the derivative of the iteration for the least time has the wrong sign, so that it
  only runs away (`der_fallback_minimum_fails`).
* **arora2013**: a hyperbolic zero-revolution transfer is returned when revolutions are
  requested below the parabolic time (`arora_open_orbit_for_revolutions`).
* **gooding1990**: unconverged iterates are accepted, converged ones rejected
  (`gooding_unconverged_accepted`, `gooding_converged_rejected`,
  `gooding_unconverged_minimum_kept`); 0/0 at the minimum-energy time
  (`gooding_minimum_energy_undefined`).
* **izzo2015**: a negative time of flight is accepted together with M = -1
  (`izzo_invalid_accepted`); division by zero at the parabolic time (`izzo_parabolic_undefined`);
  `_halley` never updates the time it is given, so feasible numbers of revolutions are
  refused (`izzo_feasible_refused`, and in general `izzo_window_refused`).
* **mcelreath2025**: near-parabolic problems are never solved (`mcelreath_parabolic_undefined`).
* **negrete2024**: fast problems with close positions are refused
  (`negrete_hyperbolic_refused`); almost opposite positions on fast hyperbolas are solved in
  the limit of many nodes (`negrete_antipodal_converges`); the iteration count is `max(4, maxiter)` (`negrete_reports`).
* **C26** pan2016 stops when two successive points agree, whatever their times: for positions at distances `R` and `2R`
  a three-quarter turn apart it returns, with the default tolerances, a transfer of less than `3300` units for all times of flight
  between `6600` and `5e8` units `√(R³/μ)` (`pan_wrong_time`).
* **C59** for these problems (up to `1e5` units) `pan2016` does not respect the reversal of the
  motion either: the search of the reversed problem has no sign change next to the apse line
  returned by the first one, so it never returns that orbit (`pan_not_reversible`).
  arora2013 measures `atol` in the units of the first distance, so with the same `atol` the two runs may stop at different
  passes and return different orbits (`arora_not_reversible`); with converted tolerances they agree
  (`arora_reversal_partial`).  With revolutions, for a time just below the least one, it returns velocities in one direction
  and answers that there is no solution in the other (`arora_revolutions_not_reversible`).
  avanzini2008 in the equatorial plane returns velocities of different frames in the two directions: they are reversed for
  one value of the semi-latus rectum only (`avanzini_equatorial_reversal_iff`), which no circular transfer of more than half
  a turn has (`avanzini_equatorial_not_reversible`). Outside that plane the property holds (`avanzini_reversal`), and in it
  the two problems still fail together (`avanzini_solved_together`).
* **C42, C58** the function `W` of arora2013 has a jump (below `1e-18`) at each of the two values of `k` where it passes from
  the closed form to the series (`arora_W_jumps`); a root at such a point attracts with no order (`arora_switches_no_order`).
  The jump is below the precision of binary64.
* **C69** der2011 divides by zero for some hyperbolic time of flight of every geometry: its first step can land on the clamp
  value `1 + ε`, where the backward difference is `0 / 0` (`der_divides_by_zero`).
* **C89** above half a turn the iteration of der2011 runs away from solutions near the parabola
  (`der_repels_near_parabola`); the bracketed fallback finds them.
* **delatorre2018**: the Newton step is dead code, the method bisects (`delatorre_bisects`).
* **full_output**: gooding1990 with `maxiter=0` (`full_output_wrong`).
* **C71** battin1984 converges to an orbit whose flight time is not the requested one (longer, by some tenths of a percent in
  our evaluations): C43 and C50 both lower `y` (`battin_time_wrong`, `battin_time_wrong_slow`, reached by
  `battin_wrong_reached`).
* **C62** `update_readme` uses the generated text as a regular expression template: a
  backslash in it (e.g. in the name of the processor) stops the script with `re.error`
  (`update_backslash_fails`).  A README with a start marker and no end marker gets a
  second section, and the next run deletes everything from the first marker on
  (`update_loses_text`); with the end marker only before the start marker it is never
  updated (`update_never`).
* **C63** ranks and speedups are stored by case and solver name: with several report
  files that measure the same solver on the same case, the rows share one rank and the
  ranks are not 1..n (`tables_duplicate`).
* **C94** `gooding1990` does not report that its iteration ran out of passes: without passes
  and with one pass it returns different velocities and no error (`gooding_maxiter_changes`).

## Mutation tests

`seeded/LOG.jsonl` records deliberate edits of the model (one realistic bug each), the
claim each one breaks and the theorems that stopped proving.  A mutant whose `outcome` is
`SURVIVED` led to the theorems named in `theorems_tightened`, or is equivalent with respect to the
stated claims (the `note` says why).

## Trusted base

* Lean's kernel (and Lake/Mathlib as shipped).
* The axioms `propext`, `Classical.choice`, `Quot.sound`, through Mathlib's real
  numbers.  `#print axioms` on every theorem of `MANIFEST.json` lists exactly these
  three, except `catalogue_coherent_partial` and `Report.rstrip_prefix`, which use `propext` only.  No other axiom, no
  `sorry`, no `native_decide`, no `bv_decide`.
* The correspondence between the python text and the definitions of `Model/*`, each of
  which cites its source lines, and the modelling choices above.
* The statements in `Spec/*`.
* For solvers that call scipy: the hypotheses named above, visible in each theorem.
