{"id": "C01", "title": "Invalid scalars are always refused", "statement": "Every solver that documents input validation (all of ALL_SOLVERS except izzo2015) raises ValueError, and never returns velocities, when the gravitational parameter is not positive, the time of flight is not positive, or the number of revolutions is negative, whatever the remaining arguments are.", "quantifier": "all solvers but izzo2015, all argument tuples with mu<=0 or tof<=0 or M<0", "why_tests_cant": "A test can only feed a few invalid values; the claim is about every invalid value combined with every value of the other nine arguments.", "anchors": ["src/lamberthub/utils/assertions.py: assert_parameters_are_valid, assert_gravitational_parameter_is_positive, assert_time_of_flight_is_positive, assert_number_of_revolutions_not_negative", "all solver entry points"]}
{"id": "C02", "title": "Null or repeated position vectors are refused", "statement": "The shared validation raises ValueError when the initial position is the null vector, when the final position is the null vector, or when both positions coincide; and it accepts every pair of distinct non-null three-dimensional vectors with mu>0, tof>0, M>=0.", "quantifier": "all pairs of position vectors and all scalars", "why_tests_cant": "Universal acceptance/rejection statement; the existing test only checks a null *first* vector, and the code indeed never inspects the second one.", "anchors": ["src/lamberthub/utils/assertions.py: assert_position_vectors_are_valid, assert_position_vector_is_valid"]}
{"id": "C03", "title": "Transfer angle is a genuine polar angle", "statement": "For any two non-null position vectors the reported transfer angle lies in [0, 2*pi) and its cosine times the product of the norms is the dot product of the vectors.", "quantifier": "all pairs of non-null vectors, both senses of motion", "why_tests_cant": "Ranges over a six-dimensional continuum including the collinear and polar-plane boundary cases.", "anchors": ["src/lamberthub/utils/angles.py: get_transfer_angle"]}
{"id": "C04", "title": "Transfer angle is zero or pi exactly for aligned vectors", "statement": "The transfer angle is 0 exactly when the final position is a positive multiple of the initial one and pi exactly when it is a negative multiple, so the 'angle is zero' / 'angle is 180 degrees' guards fire for exactly the degenerate geometries.", "quantifier": "all pairs of non-null vectors, both senses of motion", "why_tests_cant": "Equivalence over a continuum; tests exercise single aligned pairs.", "anchors": ["src/lamberthub/utils/angles.py: get_transfer_angle", "src/lamberthub/utils/assertions.py: assert_transfer_angle_not_zero, assert_transfer_angle_not_pi"]}
{"id": "C05", "title": "Prograde and retrograde angles are complementary", "statement": "For non-aligned positions the prograde and the retrograde transfer angles add up to 2*pi; swapping the two positions or changing the sense of motion complements the angle.", "quantifier": "all non-aligned pairs of vectors", "why_tests_cant": "Needs every plane orientation; the property fails precisely on planes containing the z axis, a set of measure zero that random testing never hits.", "anchors": ["src/lamberthub/utils/angles.py: get_transfer_angle"]}
{"id": "C06", "title": "Orbit normal agrees with the transfer angle", "statement": "The orbit normal vector is a unit vector perpendicular to both positions, r1 x r2 = |r1||r2| sin(transfer angle) * normal, and its z component is positive for prograde and negative for retrograde motion whenever the plane is not polar.", "quantifier": "all non-aligned pairs of vectors, both senses", "why_tests_cant": "Consistency between two separately coded functions over a continuum of inputs.", "anchors": ["src/lamberthub/utils/angles.py: get_orbit_normal_vector, get_transfer_angle"]}
{"id": "C07", "title": "Inclination and node reproduce the orbit plane", "statement": "The inclination and right ascension computed from two positions determine the orbit normal: (sin(raan) sin(inc), -cos(raan) sin(inc), cos(inc)) is the orbit normal of the requested sense of motion.", "quantifier": "all non-aligned pairs of vectors, both senses", "why_tests_cant": "Continuum plus the exceptional equatorial plane, where the answer is wrong for retrograde motion.", "anchors": ["src/lamberthub/utils/angles.py: get_orbit_inc_and_raan_from_position_vectors"]}
{"id": "C08", "title": "Eccentric anomaly conversions are mutually inverse", "statement": "For every eccentricity in [0,1), converting true to eccentric anomaly and back returns the same true anomaly for every angle in (-pi,pi), and conversely; both maps are strictly increasing and preserve the sign.", "quantifier": "all e in [0,1), all angles in (-pi,pi)", "why_tests_cant": "Round trip over a continuum; monotonicity cannot be tested pointwise.", "anchors": ["src/lamberthub/utils/angles.py: nu_to_E, E_to_nu"]}
{"id": "C09", "title": "Hyperbolic and parabolic anomaly conversions are mutually inverse", "statement": "For e>1 true <-> hyperbolic anomaly conversions are mutually inverse between the angles inside the asymptotes and all real hyperbolic anomalies; likewise true <-> parabolic anomaly on (-pi,pi).", "quantifier": "all e>1, all admissible anomalies", "why_tests_cant": "Round trip over a continuum with an e-dependent domain.", "anchors": ["src/lamberthub/utils/angles.py: nu_to_H, H_to_nu, nu_to_B, B_to_nu"]}
{"id": "C10", "title": "Mean anomaly grows along the orbit", "statement": "For every non-negative eccentricity the mean anomaly obtained from the true anomaly is strictly increasing in the true anomaly over one passage, vanishes at periapsis and is odd; a negative eccentricity is always refused with ValueError.", "quantifier": "all eccentricities, all admissible true anomalies", "why_tests_cant": "Monotonicity and total rejection are universally quantified.", "anchors": ["src/lamberthub/utils/kepler.py: kepler_from_nu, kepler_from_nu_elliptic, kepler_from_nu_parabolic, kepler_from_nu_hyperbolic"]}
{"id": "C11", "title": "Mean anomaly measures elapsed time", "statement": "On the conic with semi-latus rectum p and eccentricity e, the difference of the mean anomalies of two true anomalies divided by the mean motion is exactly the time a body subject to the inverse-square attraction needs to go from one to the other.", "quantifier": "all conics, all pairs of true anomalies within one passage", "why_tests_cant": "A statement about solutions of a differential equation.", "anchors": ["src/lamberthub/utils/kepler.py"]}
{"id": "C12", "title": "Rotation matrices are rotations", "statement": "rotation_matrix(angle, axis) is an orthogonal matrix of determinant one for each of the three axes and every angle, and raises ValueError for any other axis.", "quantifier": "all angles, all axes", "why_tests_cant": "Universal over angles; the existing test for axis 1 asserts the wrong literal matrix.", "anchors": ["src/lamberthub/utils/elements.py: rotation_matrix"]}
{"id": "C13", "title": "Classical elements give a state on the described orbit", "statement": "The position and velocity built from classical elements satisfy |r| = p/(1+e cos nu), have angular momentum of norm sqrt(mu p) along the direction given by inclination and node, specific energy -mu(1-e^2)/(2p), and eccentricity vector of norm e.", "quantifier": "all elements with mu>0, p>0, 1+e cos(nu)>0", "why_tests_cant": "Continuum of six elements.", "anchors": ["src/lamberthub/utils/elements.py: rv_pqw, coe_rotation_matrix, coe2rv"]}
{"id": "C14", "title": "State to elements to state is the identity", "statement": "Converting a position/velocity pair to classical elements and back reproduces the same position and velocity (non-rectilinear, non-equatorial or prograde).", "quantifier": "all states with non-zero angular momentum", "why_tests_cant": "Round trip over a six-dimensional continuum with four branches; it fails for equatorial retrograde states.", "anchors": ["src/lamberthub/utils/elements.py: rv2coe, coe2rv"]}
{"id": "C15", "title": "Stumpff functions are right on every branch", "statement": "The c2 and c3 functions agree with the entire functions sum (-psi)^k/(2k+2)! and sum (-psi)^k/(2k+3)! for every real argument: the closed forms and the series branch join without a jump, c3 is positive, c2 is non-negative and vanishes exactly at the squares of the non-zero multiples of 2*pi, and they satisfy the Stumpff identities.", "quantifier": "all real psi", "why_tests_cant": "Equality of analytic functions over the whole real line.", "anchors": ["src/lamberthub/utils/stumpff.py: c2, c3"]}
{"id": "C16", "title": "vallado2013 returns a true Kepler transfer", "statement": "Whenever vallado2013 returns velocities, the inverse-square (two-body) trajectory that starts at r1 with v1 passes through r2 with velocity v2 after some positive time, completing exactly zero full revolutions and turning in the requested sense (positive z angular momentum for prograde, negative for retrograde). The elapsed time differs from the requested tof by less than rtol*tof.", "quantifier": "all inputs on which the solver returns, no bound on iterations", "why_tests_cant": "A statement about every solution of a differential equation for every input and every iteration history; tests compare a handful of literature cases to a few digits.", "anchors": ["src/lamberthub/universal_solvers/vallado.py"]}
{"id": "C17", "title": "delatorre2018 returns a true Kepler transfer", "statement": "Whenever delatorre2018 returns velocities, the inverse-square (two-body) trajectory that starts at r1 with v1 passes through r2 with velocity v2 after some positive time, completing exactly M full revolutions and turning in the requested sense (positive z angular momentum for prograde, negative for retrograde). The elapsed time differs from tof by at most atol+rtol*tof.", "quantifier": "all inputs on which the solver returns, no bound on iterations", "why_tests_cant": "A statement about every solution of a differential equation for every input and every iteration history; tests compare a handful of literature cases to a few digits.", "anchors": ["src/lamberthub/regularization/delatorre.py"]}
{"id": "C18", "title": "izzo2015 returns a true Kepler transfer", "statement": "Whenever izzo2015 returns velocities, the inverse-square (two-body) trajectory that starts at r1 with v1 passes through r2 with velocity v2 after some positive time, completing exactly M full revolutions and turning in the requested sense (positive z angular momentum for prograde, negative for retrograde). The elapsed time is the solver's own time equation evaluated at the returned root.", "quantifier": "all inputs on which the solver returns, no bound on iterations", "why_tests_cant": "A statement about every solution of a differential equation for every input and every iteration history; tests compare a handful of literature cases to a few digits.", "anchors": ["src/lamberthub/universal_solvers/izzo.py"]}
{"id": "C19", "title": "gooding1990 returns a true Kepler transfer", "statement": "Whenever gooding1990 returns velocities, the inverse-square (two-body) trajectory that starts at r1 with v1 passes through r2 with velocity v2 after some positive time, completing exactly M full revolutions and turning in the requested sense (positive z angular momentum for prograde, negative for retrograde). The elapsed time is the solver's own time equation evaluated at the returned root.", "quantifier": "all inputs on which the solver returns, no bound on iterations", "why_tests_cant": "A statement about every solution of a differential equation for every input and every iteration history; tests compare a handful of literature cases to a few digits.", "anchors": ["src/lamberthub/universal_solvers/gooding.py"]}
{"id": "C20", "title": "thorne2004 returns a true Kepler transfer", "statement": "Whenever thorne2004 returns velocities, the inverse-square (two-body) trajectory that starts at r1 with v1 passes through r2 with velocity v2 after some positive time, completing exactly zero full revolutions and turning in the requested sense (positive z angular momentum for prograde, negative for retrograde). The elapsed time equals tof up to the root finder's tolerance on the semi-major axis.", "quantifier": "all inputs on which the solver returns, no bound on iterations", "why_tests_cant": "A statement about every solution of a differential equation for every input and every iteration history; tests compare a handful of literature cases to a few digits.", "anchors": ["src/lamberthub/series_solvers/thorne.py:176-258"]}
{"id": "C21", "title": "der2011 returns a true Kepler transfer", "statement": "Whenever der2011 returns velocities, the inverse-square (two-body) trajectory that starts at r1 with v1 passes through r2 with velocity v2 after some positive time, completing exactly M full revolutions and turning in the requested sense (positive z angular momentum for prograde, negative for retrograde). On the Newton/Laguerre path the normalised time residual is at most atol+rtol*|tau|.", "quantifier": "all inputs on which the solver returns, no bound on iterations", "why_tests_cant": "A statement about every solution of a differential equation for every input and every iteration history; tests compare a handful of literature cases to a few digits.", "anchors": ["src/lamberthub/universal_solvers/der.py"]}
{"id": "C22", "title": "arora2013 returns a true Kepler transfer", "statement": "Whenever arora2013 returns velocities, the inverse-square (two-body) trajectory that starts at r1 with v1 passes through r2 with velocity v2 after some positive time, completing exactly M full revolutions and turning in the requested sense (positive z angular momentum for prograde, negative for retrograde). The dimensionless elapsed time differs from the requested one by at most atol.", "quantifier": "all inputs on which the solver returns, no bound on iterations", "why_tests_cant": "A statement about every solution of a differential equation for every input and every iteration history; tests compare a handful of literature cases to a few digits.", "anchors": ["src/lamberthub/universal_solvers/arora.py"]}
{"id": "C23", "title": "jiang2016 returns a true Kepler transfer", "statement": "Whenever jiang2016 returns velocities, the inverse-square (two-body) trajectory that starts at r1 with v1 passes through r2 with velocity v2 after some positive time, completing exactly zero full revolutions and turning in the requested sense (positive z angular momentum for prograde, negative for retrograde).", "quantifier": "all inputs on which the solver returns, no bound on iterations", "why_tests_cant": "A statement about every solution of a differential equation for every input and every iteration history; tests compare a handful of literature cases to a few digits.", "anchors": ["src/lamberthub/p_solvers/jiang.py"]}
{"id": "C24", "title": "mcelreath2025 returns a true Kepler transfer", "statement": "Whenever mcelreath2025 returns velocities, the inverse-square (two-body) trajectory that starts at r1 with v1 passes through r2 with velocity v2 after some positive time, completing exactly M full revolutions and turning in the requested sense (positive z angular momentum for prograde, negative for retrograde).", "quantifier": "all inputs on which the solver returns, no bound on iterations", "why_tests_cant": "A statement about every solution of a differential equation for every input and every iteration history; tests compare a handful of literature cases to a few digits.", "anchors": ["src/lamberthub/universal_solvers/mcelreath.py"]}
{"id": "C25", "title": "negrete2024 returns a true Kepler transfer", "statement": "Whenever negrete2024 returns velocities, the inverse-square (two-body) trajectory that starts at r1 with v1 passes through r2 with velocity v2 after some positive time, completing exactly M full revolutions and turning in the requested sense (positive z angular momentum for prograde, negative for retrograde); on the fast zero-revolution problems whose contour holds one simple pole, it returns for every large enough maxiter and that time tends to tof.", "quantifier": "all inputs on which the solver returns, no bound on iterations", "why_tests_cant": "A statement about every solution of a differential equation for every input and every iteration history; tests compare a handful of literature cases to a few digits.", "anchors": ["src/lamberthub/universal_solvers/negrete.py"]}
{"id": "C26", "title": "pan2016 returns a true Kepler transfer", "statement": "Whenever pan2016 returns velocities, the inverse-square (two-body) trajectory that starts at r1 with v1 passes through r2 with velocity v2 after some positive time, completing exactly zero full revolutions and turning in the requested sense (positive z angular momentum for prograde, negative for retrograde).", "quantifier": "all inputs on which the solver returns, no bound on iterations", "why_tests_cant": "A statement about every solution of a differential equation for every input and every iteration history; tests compare a handful of literature cases to a few digits.", "anchors": ["src/lamberthub/p_solvers/pan.py"]}
{"id": "C27", "title": "battin1984 returns a true Kepler transfer", "statement": "Whenever battin1984 returns velocities, the inverse-square (two-body) trajectory that starts at r1 with v1 passes through r2 with velocity v2 after some positive time, completing exactly zero full revolutions and turning in the requested sense (positive z angular momentum for prograde, negative for retrograde).", "quantifier": "all inputs on which the solver returns, no bound on iterations", "why_tests_cant": "A statement about every solution of a differential equation for every input and every iteration history; tests compare a handful of literature cases to a few digits.", "anchors": ["src/lamberthub/p_solvers/battin.py"]}
{"id": "C28", "title": "gauss1809 returns a true Kepler transfer", "statement": "Whenever gauss1809 returns velocities, the inverse-square (two-body) trajectory that starts at r1 with v1 passes through r2 with velocity v2 after some positive time, completing exactly zero full revolutions and turning in the requested sense (positive z angular momentum for prograde, negative for retrograde).", "quantifier": "all inputs on which the solver returns, no bound on iterations", "why_tests_cant": "A statement about every solution of a differential equation for every input and every iteration history; tests compare a handful of literature cases to a few digits.", "anchors": ["src/lamberthub/p_solvers/gauss.py"]}
{"id": "C29", "title": "avanzini2008 returns a true Kepler transfer", "statement": "Whenever avanzini2008 returns velocities, the inverse-square (two-body) trajectory that starts at r1 with v1 passes through r2 with velocity v2 after some positive time, completing exactly zero full revolutions and turning in the requested sense (positive z angular momentum for prograde, negative for retrograde).", "quantifier": "all inputs on which the solver returns, no bound on iterations", "why_tests_cant": "A statement about every solution of a differential equation for every input and every iteration history; tests compare a handful of literature cases to a few digits.", "anchors": ["src/lamberthub/ecc_solvers/avanzini.py", "src/lamberthub/ecc_solvers/utils.py"]}
{"id": "C30", "title": "Requested revolutions are honoured or refused", "statement": "A solver called with M>=1 either raises or returns a transfer with exactly M complete revolutions; zero-revolution solvers always raise ValueError for M>=1.", "quantifier": "all solvers, all inputs with M>=1", "why_tests_cant": "Universal over solvers and inputs; three solvers silently ignore M and one returns an open orbit.", "anchors": ["all solver entry points", "src/lamberthub/universal_solvers/gooding.py: vlamb"]}
{"id": "C31", "title": "Iteration budget is respected", "statement": "If a solver returns, the reported number of iterations is between 1 and maxiter; if the convergence test was not met within maxiter iterations the solver raises instead of returning.", "quantifier": "all inputs, all maxiter", "why_tests_cant": "Needs every maxiter and every iteration history.", "anchors": ["all solver entry points"]}
{"id": "C32", "title": "full_output never changes the velocities", "statement": "The velocities returned with full_output=True are the same as with full_output=False, and a call raises with one setting iff it raises with the other.", "quantifier": "all solvers with full_output, all inputs", "why_tests_cant": "Relational property of two runs over all inputs.", "anchors": ["all solver entry points"]}
{"id": "C33", "title": "Change of units", "statement": "Rescaling lengths by k>0 and times by t>0 (mu by k^3/t^2) rescales the returned velocities by k/t and leaves success or failure unchanged, for the solvers that iterate on non-dimensional variables.", "quantifier": "all inputs, all positive scale factors", "why_tests_cant": "Metamorphic relation over a continuum.", "anchors": ["src/lamberthub/universal_solvers/izzo.py", "src/lamberthub/universal_solvers/gooding.py", "src/lamberthub/p_solvers/battin.py", "src/lamberthub/p_solvers/gauss.py"]}
{"id": "C34", "title": "Rotation about the polar axis", "statement": "Rotating both positions about the z axis rotates the returned velocities by the same rotation.", "quantifier": "all inputs, all rotation angles", "why_tests_cant": "Metamorphic relation over a continuum; avanzini2008 violates it for equatorial transfers.", "anchors": ["src/lamberthub/universal_solvers/izzo.py", "src/lamberthub/universal_solvers/vallado.py", "src/lamberthub/ecc_solvers/avanzini.py"]}
{"id": "C35", "title": "Root brackets are never left", "statement": "The bracketing root finders (Pan's Bezier search, Jiang's and De La Torre's safeguarded iterations, Vallado's bisection) only ever evaluate and return points of the initial bracket, and keep a sign change (or an exact root) inside the current bracket.", "quantifier": "all bracket ends and all residual functions", "why_tests_cant": "Loop invariant over every iteration of every run.", "anchors": ["src/lamberthub/p_solvers/pan.py: _bezier_root", "src/lamberthub/p_solvers/jiang.py: _solve_semimajor_axis", "src/lamberthub/regularization/delatorre.py: _solve_bracketed", "src/lamberthub/universal_solvers/vallado.py"]}
{"id": "C36", "title": "Golden-section search localises the minimum time", "statement": "De La Torre's minimum-time search returns a point of the initial interval, the interval shrinks by the golden ratio at each step, and for a unimodal time function the minimiser stays inside the bracket.", "quantifier": "all unimodal functions, all iteration counts", "why_tests_cant": "Inductive invariant.", "anchors": ["src/lamberthub/regularization/delatorre.py: _find_minimum_time"]}
{"id": "C37", "title": "Vallado's bound readjustment terminates", "statement": "For every valid input vallado2013 terminates (returns or raises).", "quantifier": "all valid inputs", "why_tests_cant": "Termination of an unbounded inner loop; it is false when the lengths are expressed in large units.", "anchors": ["src/lamberthub/universal_solvers/vallado.py: vallado2013"]}
{"id": "C38", "title": "Convergence failures of gooding1990 are reported", "statement": "gooding1990 raises when its iteration did not converge within maxiter and does not raise when it did.", "quantifier": "all inputs, all maxiter", "why_tests_cant": "All iteration histories; the code tests (numiter+1)==maxiter and never looks at convergence.", "anchors": ["src/lamberthub/universal_solvers/gooding.py: gooding1990, _xlamb_iter, xlamb"]}
{"id": "C39", "title": "Series reversion coefficients", "statement": "The coefficients produced by get_B_array/get_Q_matrix are those of the formal compositional inverse of the series with coefficients A, for every order.", "quantifier": "all coefficient sequences with A_1 != 0, all orders", "why_tests_cant": "Unbounded order and arbitrary coefficients.", "anchors": ["src/lamberthub/series_solvers/thorne.py: get_Q_matrix, get_B_array"]}
{"id": "C40", "title": "Solver catalogue is coherent", "statement": "Every multi-revolution or zero-revolution or robust solver is in ALL_SOLVERS, no list has duplicates, robust solvers support multiple revolutions, and every zero-revolution-only solver refuses M>=1.", "quantifier": "all catalogue entries", "why_tests_cant": "Relates the catalogue to the behaviour of the solvers on all inputs.", "anchors": ["src/lamberthub/__init__.py"]}
{"id": "C41", "title": "Low/high path selection", "statement": "For multi-revolution problems with two solutions, is_low_path selects the starting point on the documented side of the minimum-time solution.", "quantifier": "all geometries and M>=1", "why_tests_cant": "Ordering statement over a continuum.", "anchors": ["src/lamberthub/universal_solvers/izzo.py: _initial_guess", "src/lamberthub/universal_solvers/negrete.py: _find_z", "src/lamberthub/regularization/delatorre.py: _initial_bracket"]}
{"id": "C42", "title": "Analytic derivatives used by the iterations are correct", "statement": "The first, second and third derivatives of the non-dimensional time of flight used by Izzo's and Der's iterations, and the derivatives of Arora's W function, are the true derivatives of the time equation; the difference quotient of De La Torre's Newton step is the derivative at a point within its step.", "quantifier": "all admissible values of the free variable and of the geometry parameter", "why_tests_cant": "Equality of functions over a continuum.", "anchors": ["src/lamberthub/universal_solvers/izzo.py: _tof_equation_p, _tof_equation_p2, _tof_equation_p3", "src/lamberthub/universal_solvers/arora.py: _get_Wprime, _get_W2prime", "src/lamberthub/regularization/delatorre.py: _tof_derivative"]}
{"id": "C43", "title": "Battin's successive substitution uses its continued fraction", "statement": "The auxiliary function xi(x) used by battin1984 is the truncated continued fraction of the requested number of levels.", "quantifier": "all x>-1, all numbers of levels", "why_tests_cant": "Universal over x and levels; the code stops after one pass for every x.", "anchors": ["src/lamberthub/p_solvers/battin.py: _xi_at_x, _K_at_u"]}
{"id": "C44", "title": "Zero-revolution solutions are unique", "statement": "For non-aligned positions and given sense of motion, two zero-revolution transfers with the same time of flight have the same velocities, hence two solvers that solve the same zero-revolution problem exactly agree.", "quantifier": "all non-aligned geometries, all tof>0", "why_tests_cant": "Uniqueness over all Kepler arcs.", "anchors": ["all solvers for M=0"]}
{"id": "C45", "title": "Supported zero-revolution problems are solved", "statement": "Given a large enough iteration budget, vallado2013 returns for every elliptic zero-revolution problem.", "quantifier": "all problems whose time of flight exceeds the parabolic time", "why_tests_cant": "Convergence of an iteration for every input.", "anchors": ["src/lamberthub/universal_solvers/vallado.py: vallado2013"]}
{"id": "C46", "title": "McElreath derivatives are the derivatives of the time equation", "statement": "The three analytic derivatives returned by _tof_equation_full are the first, second and third derivatives, with respect to x, of the time of flight that it returns, at every real x where it is defined.", "quantifier": "all geometries with |2m| < r1+r2, all real x that are not multiples of 2 pi", "why_tests_cant": "The solver converges even with slightly wrong derivatives, so wrong coefficients only show as extra iterations.", "anchors": ["src/lamberthub/universal_solvers/mcelreath.py: _tof_equation_full"]}
{"id": "C47", "title": "Negrete's contour moments recover the poles", "statement": "With exact moments of two distinct poles with non-zero weights, the quadratic of _find_z returns exactly the two poles; and for an integrand with a single simple real pole inside the contour, _contour_integrals followed by I1/I0 returns and converges to the pole as the number of nodes grows; and for an integrand with two simple real poles inside the multi-revolution contour, the whole search (contour, quadratic, two refinements, choice of the path) returns for every large enough number of nodes, the low path close to the smaller pole and the high path close to the larger.", "quantifier": "all complex poles and weights; all integrands with one simple pole that are analytic on the disc and continuous on its closure; all integrands with two such poles", "why_tests_cant": "Limit over all node counts and all integrands; a wrong coefficient only shows as slightly wrong roots.", "anchors": ["src/lamberthub/universal_solvers/negrete.py: _find_z", "src/lamberthub/universal_solvers/negrete.py: _contour_integrals", "src/lamberthub/universal_solvers/negrete.py: _refine_single_root"]}
{"id": "C48", "title": "Pan's time of flight is that of the orbit it reconstructs", "statement": "For every argument of periapsis, the time that _tof_at_omega returns is the exact Kepler time along the orbit whose velocities _reconstruct_velocities returns for the same argument.", "quantifier": "all non-aligned positions at different distances, all arguments of periapsis for which the functions return", "why_tests_cant": "Tests only see the converged solution of a few ordinary ellipses, never the branches next to the parabola.", "anchors": ["src/lamberthub/p_solvers/pan.py: _tof_at_omega", "src/lamberthub/p_solvers/pan.py: _reconstruct_velocities", "src/lamberthub/p_solvers/pan.py: _parabolic_tof"]}
{"id": "C49", "title": "Gauss's two equations are exact in the limit of the series", "statement": "For every free parameter x with |x| < 1 the series of _X_at_x converges as its order grows, and a pair (x, y) that satisfies _gauss_first_equation and the second equation with the untruncated series belongs to a zero-revolution Kepler transfer of the requested sense whose time of flight is exactly tof.", "quantifier": "all non-aligned positions, both senses, all tof > 0, all |x| < 1", "why_tests_cant": "The limit of a series and an identity between transcendental functions for every geometry.", "anchors": ["src/lamberthub/p_solvers/gauss.py: _gauss_first_equation", "src/lamberthub/p_solvers/gauss.py: _gauss_second_equation", "src/lamberthub/p_solvers/gauss.py: _X_at_x"]}
{"id": "C50", "title": "Battin's second equation solves its cubic", "statement": "The value that _battin_second_equation returns is a root of y^3 - (1 + h1) y^2 - h2 = 0, up to the truncation of the continued fraction K.", "quantifier": "all h1 > -1 and h2 for which the function returns", "why_tests_cant": "The successive substitution converges to a nearby value for any slightly wrong y, so tests with loose tolerances cannot tell.", "anchors": ["src/lamberthub/p_solvers/battin.py: _battin_second_equation", "src/lamberthub/p_solvers/battin.py: _u_at_B"]}
{"id": "C51", "title": "Avanzini's root is an exact solution", "statement": "An exact root x of the function _f solved by the secant method gives, through eccT_at_x, coe_at_eccT and coe2rv, velocities of a Kepler arc from r1 to r2 whose duration is exactly the requested time of flight, in the requested sense and with no complete revolution.", "quantifier": "all mu > 0, all r1, r2 and senses for which the geometry is computed, all x and tof", "why_tests_cant": "The quadrant of the argument of periapsis and the wrap of the mean anomaly depend on the geometry; a finite sample cannot cover all of them.", "anchors": ["src/lamberthub/ecc_solvers/utils.py: _f", "src/lamberthub/ecc_solvers/utils.py: kepler_tof_at_eccT", "src/lamberthub/ecc_solvers/utils.py: coe_at_eccT", "src/lamberthub/ecc_solvers/avanzini.py: _get_eccT_at_x"]}
{"id": "C52", "title": "De La Torre's zero-revolution search always succeeds given enough iterations", "statement": "Every pass of _solve_bracketed halves the bracket (the Newton step is never taken, because the iterate has just become an end of the bracket), so for M=0 a budget exists from which on delatorre2018 returns a transfer.", "quantifier": "all mu>0, all non-aligned r1, r2, both senses, all tolerances with atol + rtol*tof > 0, every tof on the long way and every elliptic tof on the short way below an explicit astronomical bound", "why_tests_cant": "Termination and success for all inputs in a continuum, with no bound on the number of passes.", "anchors": ["src/lamberthub/regularization/delatorre.py: _solve_bracketed", "src/lamberthub/regularization/delatorre.py: _initial_bracket", "src/lamberthub/regularization/delatorre.py: delatorre2018"]}
{"id": "C53", "title": "Exactly zero, one or two transfers with complete revolutions", "statement": "For every number M>=1 of complete revolutions and each sense of motion there is a minimum time of flight: below it Lambert's problem has no solution, at it exactly one, above it exactly two, which differ in energy.", "quantifier": "all mu>0, all r1, r2 spanning a plane that is not polar, both senses, all M>=1, all times of flight", "why_tests_cant": "A count of the solutions among all Kepler motions, over a continuum of geometries and times.", "anchors": ["src/lamberthub/universal_solvers/izzo.py: _find_xy", "src/lamberthub/regularization/delatorre.py: _find_minimum_time", "src/lamberthub/universal_solvers/negrete.py: _find_z"]}
{"id": "C54", "title": "De La Torre's multi-revolution search refuses exactly what it found infeasible and solves the rest", "statement": "For M>=1 the golden-section search of _find_minimum_time succeeds and returns the time of a true transfer; a shorter time of flight raises the infeasibility error, in particular whenever no transfer that fast exists; every longer one, up to an explicit astronomical bound, is solved on both paths once the iteration budget is large enough.", "quantifier": "all mu>0, all non-aligned r1, r2, both senses, both paths, all M>=1, all tolerances with atol + rtol*tof > 0, all times of flight up to the bound", "why_tests_cant": "Refusal of every infeasible time and success on every feasible one is a statement over a continuum of times and geometries with no bound on the number of passes.", "anchors": ["src/lamberthub/regularization/delatorre.py: _find_minimum_time", "src/lamberthub/regularization/delatorre.py: _initial_bracket", "src/lamberthub/regularization/delatorre.py: _solve_bracketed", "src/lamberthub/regularization/delatorre.py: delatorre2018"]}
{"id": "C55", "title": "Izzo's bound on the number of revolutions is the feasible one", "statement": "Every number of revolutions that izzo2015's M_max admits is that of an existing transfer, and every existing transfer makes at most M_max revolutions.", "quantifier": "all mu>0, all r1, r2 not spanning a polar plane, both senses, all times of flight, all M>=1, all tolerances and iteration budgets", "why_tests_cant": "The times of flight wrongly refused form windows a millionth wide next to the minimum time, and their absence elsewhere is a statement over a continuum of geometries and times.", "anchors": ["src/lamberthub/universal_solvers/izzo.py: _find_xy", "src/lamberthub/universal_solvers/izzo.py: _compute_T_min", "src/lamberthub/universal_solvers/izzo.py: _halley"]}
{"id": "C56", "title": "Thorne's series coefficients expand the time of flight", "statement": "For every order, the array returned by get_A_array holds the first coefficients A_n of one power series with T(a)/T_parabolic = 1 + sum A_n (s/2a)^n, where T(a) is the Lagrange time of flight computed by lagrange_tof: on the fast branch for every ellipse with a > s/2, and for every hyperbola with a < -s/2.", "quantifier": "all mu>0, all semi-perimeters and chords 0<c<=s, both signs of the transfer angle, all orders, all semi-major axes", "why_tests_cant": "The identity is between an infinite series and transcendental functions; comparing a truncation with a value at sample points cannot separate a wrong high-order coefficient from the truncation error.", "anchors": ["src/lamberthub/series_solvers/thorne.py: get_A_array", "src/lamberthub/series_solvers/thorne.py: lagrange_tof", "src/lamberthub/series_solvers/thorne.py: get_parabolic_tof"]}
{"id": "C57", "title": "izzo2015 never returns velocities for invalid scalars", "statement": "izzo2015, whose validation is commented out, returns no velocities when mu <= 0, tof <= 0 or M < 0.", "quantifier": "all positions, all real mu and tof, all integers M, both senses and paths, all tolerances and iteration budgets", "why_tests_cant": "The outcome depends on where undefined operations happen inside the initial guess for a continuum of invalid inputs; the accepted invalid inputs lie on a thin set.", "anchors": ["src/lamberthub/universal_solvers/izzo.py: izzo2015", "src/lamberthub/universal_solvers/izzo.py: _find_xy", "src/lamberthub/universal_solvers/izzo.py: _initial_guess"]}
{"id": "C58", "title": "The iterations converge with the order of the method they are named after", "statement": "Near every simple root of its time equation, one pass of the Householder iteration of izzo2015 and mcelreath2025 raises the error to the fourth power, one pass of the Halley iterations of gooding1990, arora2013 and of mcelreath2025's minimum search, and of the Laguerre iteration of der2011, to the third power; the loops of izzo2015, gooding1990 and der2011 started there return a value as accurate as that power of the tolerance. A pass of the secant method of avanzini2008 from two points near a root has an error of at most a constant times the product of their errors, so that the number of right digits grows by the golden ratio at every pass. The roots are simple except for the fastest transfer with revolutions.", "quantifier": "all geometries, all times of flight, all numbers of revolutions, all roots, all starting points of a neighbourhood of the root, all tolerances", "why_tests_cant": "The order is a limit statement about a neighbourhood of every root of a transcendental equation; a wrong coefficient of a high derivative lowers the order but still converges in every sample run.", "anchors": ["src/lamberthub/universal_solvers/izzo.py: _householder", "src/lamberthub/universal_solvers/gooding.py: xlamb", "src/lamberthub/universal_solvers/arora.py: arora2013", "src/lamberthub/universal_solvers/mcelreath.py", "src/lamberthub/universal_solvers/der.py: _laguerre_step", "src/lamberthub/ecc_solvers/avanzini.py: _secant"]}
{"id": "C59", "title": "A Lambert problem run backwards has the reversed solution", "statement": "Exchanging the two positions and the sense of motion gives the velocities exchanged and reversed: solver(mu, r2, r1, tof, not prograde) returns (-v2, -v1), with the same number of iterations, exactly when solver(mu, r1, r2, tof, prograde) returns (v1, v2), and fails with the same exception otherwise. The same holds for the Kepler transfers themselves, with the same number of complete revolutions.", "quantifier": "all mu, all non-null positions, all times, revolutions, senses, paths, budgets and tolerances", "why_tests_cant": "A relation between two whole executions of every solver, including the failing ones; a sample of pairs cannot exclude an asymmetric branch.", "anchors": ["src/lamberthub/universal_solvers/", "src/lamberthub/p_solvers/", "src/lamberthub/regularization/delatorre.py", "src/lamberthub/series_solvers/thorne.py", "src/lamberthub/utils/angles.py: get_transfer_angle"]}
{"id": "C60", "title": "The two returned velocities always lie on one orbit", "statement": "Whatever the time of flight, the revolutions, the tolerances, the iteration budget and the quality of the convergence, if a solver returns, the states (r1, v1) and (r2, v2) have the same angular momentum, the same energy and the same eccentricity vector; equivalently, some Kepler motion goes from one to the other.", "quantifier": "all inputs and controls for which the solver returns, positions not aligned", "why_tests_cant": "Tests look at problems the solver solves well; the claim also covers every badly converged, mistuned or out-of-domain run, where only the algebra of the reconstruction is left.", "anchors": ["src/lamberthub/universal_solvers/", "src/lamberthub/p_solvers/gauss.py", "src/lamberthub/ecc_solvers/avanzini.py", "src/lamberthub/series_solvers/thorne.py", "src/lamberthub/regularization/delatorre.py"]}
{"id": "C61", "title": "All symmetries of the polar axis", "statement": "An isometry of space that keeps the polar axis as a line (a rotation about it, the mirror in the equator, a mirror in a plane through the axis, or any product) carries solutions to solutions: solver(mu, Q r1, Q r2, tof, M, sense') returns (Q v1, Q v2) exactly when solver(mu, r1, r2, tof, M, sense) returns (v1, v2), with the same number of iterations, and fails with the same exception otherwise. Here sense' is the opposite of sense when Q contains a mirror through the axis, and sense otherwise. The same holds for the Kepler transfers themselves.", "quantifier": "all inputs, all isometries that keep the polar axis as a line", "why_tests_cant": "A relation between two whole executions over a continuous group and all inputs, including the failing runs.", "anchors": ["src/lamberthub/universal_solvers/", "src/lamberthub/p_solvers/", "src/lamberthub/ecc_solvers/avanzini.py", "src/lamberthub/utils/angles.py"]}
{"id": "C62", "title": "The generated section of the README", "statement": "Running scripts/generate_benchmark_report.py any number of times leaves exactly the README that the last run alone would have written: text outside the two markers is kept character by character, the generated text is replaced, a README without markers gets the section appended once, and without report files the script stops without writing. The exceptions are characterised: end marker only before the start marker (never updated), start marker without end marker (a second run deletes user text), a backslash in the generated text (the replacement is read as a regex template).", "quantifier": "for all README texts with no start marker or with one generated section, all sequences of runs of any length, all reports whose texts contain neither '<' nor a backslash, all number formats and dates; negations for all texts of the stated form", "why_tests_cant": "The script has no tests; sequences of runs, texts and report contents are unbounded, and the failure of a second run shows only on particular texts.", "anchors": ["scripts/generate_benchmark_report.py:198-285"]}
{"id": "C63", "title": "The benchmark tables", "statement": "The tables of the report are always produced; every measurement of every report file is shown in exactly one row and nothing else is shown; when no solver was measured twice on a case, the rows of each case are in the order of their medians with the ranks 1, 2, ..., n, each speedup is the slowest median of the case divided by the median of the row, and hence at least one. With a solver measured twice on a case (two report files) some case has wrong ranks. The solver name shown is the name of the python function. The scenarios are shown once each in alphabetical order of their titles, the rows of a scenario are ordered by number of revolutions, direction, path and median, and the direction shown is the direction of the case.", "quantifier": "for all lists of reports, all numbers of groups, cases and measurements, all real medians", "why_tests_cant": "The script has no tests; the number of measurements, ties and groupings is unbounded, and the stable sorts and dictionaries interact.", "anchors": ["scripts/generate_benchmark_report.py:76-195", "scripts/generate_benchmark_report.py:218-257"]}
{"id": "C64", "title": "Which problems vallado2013 can solve", "statement": "vallado2013 bisects the variable psi from -4*pi^2 to 4*pi^2. When the conic psi = -4*pi^2 exists for the given positions (always on the long way), call its time of flight fastestTime. For every time of flight below the one the tolerance can reach from fastestTime the solver raises an error, whatever maxiter is; for every longer time it returns, for every large enough maxiter. On the long way this is an equivalence: with enough iterations a problem is solved exactly when fastestTime < (1 + rtol) * tof. fastestTime is positive, so for every long-way pair of positions there are valid problems (with a unique solution) that are refused for every maxiter.", "quantifier": "for all mu > 0, all non-aligned positions, both senses, all times of flight and tolerances, all maxiter", "why_tests_cant": "The boundary is a surface in a seven-dimensional space of inputs, and the refusal has to be established for every number of iterations.", "anchors": ["src/lamberthub/universal_solvers/vallado.py:74-162"]}
{"id": "C65", "title": "The transfer angle with rounding errors", "statement": "With every operation rounded with a relative error of at most u <= 1/1000 (for binary64, u = 2^-53), the scalar product, the lengths and the vector product computed by linalg.py are within stated multiples of u of their exact values, and the cosine that get_transfer_angle passes to arccos is within 12 u of the exact one. Hence get_transfer_angle returns a number whenever the cosine of the angle is at most 1 - 12 u in magnitude; if in addition the vertical component of r1 x r2 exceeds 3 u |r1||r2|, the returned angle turns in the right sense and its error times |sin theta| is at most 20 pi u. Without these conditions the claim is false: there are non-aligned positions in binary64 for which the computed cosine exceeds one (nan), others that are judged aligned, and others, at a large angle, for which the angle of the opposite sense is returned.", "quantifier": "for all positions, both senses, every arithmetic that satisfies the standard model with any u <= 1/1000; concrete witnesses for the negations", "why_tests_cant": "Rounding errors depend on every bit of six real inputs; the failures form a thin set around alignment and around polar planes that random tests never meet.", "anchors": ["src/lamberthub/utils/angles.py:13-58", "src/lamberthub/linalg.py:8-67"]}
{"id": "C66", "title": "Which problems thorne2004 can solve", "statement": "thorne2004 searches the semi-major axis between fixed ends: ellipses from a = s/2*(1+2^-52) upwards and hyperbolas from a = -2^-52*s downwards (s is the semi-perimeter of the triangle of the positions), and treats a time close to the parabolic one as the parabola. For positions and sense with a transfer of the requested time of flight: if the energy of that transfer lies between -mu/(s*(1+2^-52)) and 2^51*mu/s, or the time equals that of the parabola up to the tolerances, the solver returns for every large enough maxiter; in all other cases it raises ValueError for every maxiter. In particular, for all positions and both senses there is an open interval of flight times around the minimum-energy time, and a positive time below which every time, for which the problem has exactly one solution and the solver refuses it for all small tolerances.", "quantifier": "for all mu > 0, all positions that are not aligned and whose plane does not contain the polar axis, both senses, all times of flight, all maxiter; for all positive atol and rtol >= 2^-50 in the direction that returns", "why_tests_cant": "The refused times form windows of relative width about 1e-16 and below 1e-15 that random tests never meet, and the refusal has to be established for every number of iterations.", "anchors": ["src/lamberthub/series_solvers/thorne.py:176-258"]}
{"id": "C67", "title": "Fast transfers and the unit of length in jiang2016", "statement": "The hyperbolic search of jiang2016 covers semi-major axes up to -2^-26*max(s, c, 1) and never checks that the bracket contains a root. Let tU be the time of the transfer at that end. For every requested time shorter than tU by more than atol (and not taken for the parabolic time), every motion the solver returns takes longer than tU, hence misses the requested time by more than atol, and with at least max(s, 1)/atol iterations it does return such a motion instead of raising an error. Because of the literal 1 in the bracket the result depends on the unit of length: every hyperbolic problem, in a large enough unit of length, is answered with a motion that takes longer than tof + atol.", "quantifier": "for all mu > 0, all non-aligned positions, both senses, all times of flight, all tolerances >= 0, all maxiter; for every hyperbolic problem, all large enough units", "why_tests_cant": "Tests use kilometres or astronomical units with moderate speeds; the failing region is a half-line of units and a neighbourhood of zero in time for every geometry.", "anchors": ["src/lamberthub/p_solvers/jiang.py:112-116", "src/lamberthub/p_solvers/jiang.py:373-425"]}
{"id": "C68", "title": "The reach of Pan's own method", "statement": "pan2016 looks for the argument of periapsis on 721 samples and calls vallado2013 with the same arguments when it finds no change of sign, when the two distances agree up to atol + 1e-8*|r2|, or when its search fails. Consequences: (1) if the positions are at most 1e-4 units of length apart, the absolute tests of _elements_at_omega reject every apse line, and pan2016 equals vallado2013 for every time of flight and all tolerances; (2) in every geometry there is a time beyond which pan2016 equals vallado2013; (3) hence every problem with a long enough time of flight is solved within rtol, with enough iterations; (4) pan2016 inherits the endless loop of vallado2013: on an open family of positions and every hyperbolic time of flight it never stops.", "quantifier": "for all mu > 0, all non-aligned positions, both senses, all times of flight, all maxiter, all tolerances, every bracketing root finder", "why_tests_cant": "The equality of two programs on an unbounded set of inputs, and a run that never ends, cannot be observed by running tests; the tests never use positions less than 1e-4 units apart.", "anchors": ["src/lamberthub/p_solvers/pan.py:113-143", "src/lamberthub/p_solvers/pan.py:190-207", "src/lamberthub/p_solvers/pan.py:254-286"]}
{"id": "C69", "title": "Which problems der2011 solves", "statement": "With enough iterations der2011 returns on every zero-revolution problem whose orbit has energy at most -(1-(1-eps)^2) mu/s (path parameter between -1+eps and 1-eps): its iteration never leaves the interval or divides by zero, and the bracket of the fallback always contains the solution. On every problem whose orbit has energy at least ((1+sqrt(eps))^2-1) mu/s the doubling of the upper end of the bracket terminates, the bracket contains the solution, and the run returns too or divides by zero in its finite differences; ValueError is never raised. The division by zero does happen: for every pair of positions and each sense there is a time of flight, of a hyperbolic transfer, at which der2011 stops with it, for all small enough tolerances and all iteration budgets of at least two.", "quantifier": "for all mu > 0, all positions with an orbit plane that has a sense, both senses, all times of flight whose orbit is in the energy range, every atol > 0 and rtol >= 2^-50, every complete bracketing root finder, all large enough maxiter", "why_tests_cant": "Success on an unbounded set of problems and termination of a doubling loop for every time of flight cannot be observed on samples.", "anchors": ["src/lamberthub/universal_solvers/der.py:139-239", "src/lamberthub/universal_solvers/der.py:344-420"]}
{"id": "C70", "title": "Characteristic times and the kind of conic", "statement": "The orbits of a transfer problem have energy at least -mu/s, where s is the semi-perimeter; the orbit of least energy exists for every number of revolutions and takes the time leastEnergyTime. A zero-revolution orbit is an ellipse, parabola or hyperbola exactly as its time is above, at or below Euler's parabolic time, and every multi-revolution orbit is an ellipse. The functions of thorne2004, der2011, jiang2016, mcelreath2025 and negrete2024 that select the branch of the solver compute exactly these two times. vallado2013, delatorre2018 and arora2013 return the kind of conic that the flight time demands whenever it is outside their tolerance of the parabolic time.", "quantifier": "for all mu > 0, all pairs of positions that are not aligned (for the conics: with an orbit plane that has a sense), both senses, all times, all numbers of revolutions, all tolerances and iteration limits", "why_tests_cant": "Equality of five differently written formulas with one time, and minimality over all orbits through two points, are statements over a continuum.", "anchors": ["src/lamberthub/series_solvers/thorne.py:103-176", "src/lamberthub/universal_solvers/der.py:134-137", "src/lamberthub/universal_solvers/der.py:433-440", "src/lamberthub/p_solvers/jiang.py:129-160", "src/lamberthub/universal_solvers/mcelreath.py:331-335", "src/lamberthub/universal_solvers/negrete.py:257-262"]}
{"id": "C71", "title": "battin1984 converges to the requested time", "statement": "The flight time of the orbit that battin1984 returns tends to the requested time of flight when the tolerance tends to zero.", "quantifier": "all mu > 0, all positions that are not aligned, both senses, all times of flight, all numbers of iterations", "why_tests_cant": "The error is a fraction of a percent and the project's tests compare with loose tolerances; that no tolerance and no number of iterations removes it is a statement about all runs.", "anchors": ["src/lamberthub/p_solvers/battin.py: battin1984", "src/lamberthub/p_solvers/battin.py: _xi_at_x", "src/lamberthub/p_solvers/battin.py: _u_at_B"]}
{"id": "C72", "title": "The problems that gauss1809 solves", "statement": "On every short problem (twice the sum of the distances at most 3 K and 6 mu tof^2 at most K^3, K being twice the root of the product of the distances times the cosine of half the angle) slower than the parabola, gauss1809 returns within maxiter passes as soon as (5/6)^maxiter is at most atol, and the orbit of the departure velocity meets the requested time up to atol. On every short problem faster than the parabola it returns without an error an elliptic orbit whose flight is longer than requested. On the short way it returns on no problem slower than some bound, for no number of iterations, although each of them has exactly one solution.", "quantifier": "all mu > 0, all positions that are not aligned, both senses, all times of flight of the stated kinds, all tolerances and numbers of iterations", "why_tests_cant": "Convergence of the fixed point iteration, the silent failure on all hyperbolic transfers and the refusal for every number of iterations are statements about infinitely many inputs and runs; the tests contain a few elliptic problems.", "anchors": ["src/lamberthub/p_solvers/gauss.py: gauss1809", "src/lamberthub/p_solvers/gauss.py: _gauss_first_equation", "src/lamberthub/p_solvers/gauss.py: _gauss_second_equation", "src/lamberthub/p_solvers/gauss.py: _X_at_x"]}
{"id": "C73", "title": "Fast, near least-energy and slow transfers in izzo2015", "statement": "With no complete revolutions and positions in a plane that does not contain the polar axis: (1) as the flight time requested tends to zero izzo2015 returns after at most two passes and the ratio of the flight time obtained to the one requested tends to one, for every positive relative tolerance; (2) around the time of the least-energy transfer there is a neighbourhood in which it solves every problem with a number of passes that depends on atol only and an error of at most 3 (rtol + atol) time units; (3) as the flight time grows it does not: it stops after one pass, since two values of x near -1 always pass the absolute test, and the ratio of the flight times tends to an explicit constant below one, so that the error of the flight time grows without bound (in particular for every transfer of more than half a turn); for short chords the pass leaves the domain x > -1 and a hyperbola is returned silently for every long time.", "quantifier": "all mu > 0, all positions in a non-polar plane, both senses, all tolerances, all iteration limits above a number, all flight times in the three limits", "why_tests_cant": "The convergence statements concern infinitely many flight times, and the failure is a limit: the error appears when the distance of x to -1 falls below the tolerance, at flight times that no test uses.", "anchors": ["src/lamberthub/universal_solvers/izzo.py: izzo2015", "src/lamberthub/universal_solvers/izzo.py: _find_xy", "src/lamberthub/universal_solvers/izzo.py: _initial_guess", "src/lamberthub/universal_solvers/izzo.py: _householder", "src/lamberthub/universal_solvers/izzo.py: _compute_T_min", "src/lamberthub/universal_solvers/izzo.py: _halley"]}
{"id": "C74", "title": "Positions on one line with the attractor", "statement": "Two positions on one line through the attractor do not determine a plane of motion. Opposite positions: no solver returns velocities; jiang, pan, gauss, der, vallado, negrete and mcelreath raise an error that names the reason, gooding, avanzini, izzo, arora, battin, thorne and delatorre do not test for the case and run into a division by zero. Positions in the same direction: jiang, pan, avanzini, gauss, der, gooding, arora, negrete and mcelreath raise 'Transfer angle was found to be zero!', izzo, thorne and delatorre never return velocities, vallado and battin return the velocities of a motion along the common ray that does not meet the attractor, vallado in the requested time up to rtol.", "quantifier": "all positions on a common line, all mu, all times of flight, senses, paths, tolerances and iteration limits (M = 0 for the solvers without revolutions)", "why_tests_cant": "The cases have measure zero in the space of inputs; in floating point the cosine and sine of 180 degrees are not exact, so that tests reach neighbouring inputs only; that a run with a division by zero never returns is a statement about all runs.", "anchors": ["src/lamberthub/utils/angles.py: get_transfer_angle", "src/lamberthub/utils/assertions.py: assert_transfer_angle_not_zero", "src/lamberthub/utils/assertions.py: assert_transfer_angle_not_pi", "src/lamberthub/universal_solvers/vallado.py: vallado2013", "src/lamberthub/p_solvers/battin.py: battin1984"]}
{"id": "C75", "title": "Fast, near least-energy and slow transfers in gooding1990", "statement": "With no complete revolutions: (1) the start of the search is always in the domain x > -1 of the time equation and has the sign of the least-energy time minus the time requested; (2) around the time of the least-energy transfer there is a neighbourhood in which gooding1990 solves every problem except that time itself, with a number of passes that depends on the tolerances only and errors of the flight time of at most 3 atol time units and 3 rtol times the distance to the least-energy time; (3) as the flight time requested tends to zero it returns after at most two passes and the flight time obtained over the one requested tends to one, for all positive tolerances; (4) as the flight time grows it does not solve the problem: it stops after its first pass and the flight time obtained over the one requested tends to zero, for every geometry and all tolerances.", "quantifier": "all mu > 0, all positions in a non-polar plane, both senses, all positive tolerances, all iteration limits from 1 (4), 2 (3) or a number that depends on the tolerances (2), all flight times in the three limits", "why_tests_cant": "The convergence statements concern infinitely many flight times, and the failure is a limit: it appears when the distance of x to -1 falls below the tolerances, at flight times that no test uses.", "anchors": ["src/lamberthub/universal_solvers/gooding.py: gooding1990", "src/lamberthub/universal_solvers/gooding.py: xlamb", "src/lamberthub/universal_solvers/gooding.py: tlamb", "src/lamberthub/universal_solvers/gooding.py: vlamb"]}
{"id": "C76", "title": "gooding1990 refuses exactly the numbers of revolutions that are infeasible", "statement": "With M >= 1 complete revolutions, all positive tolerances and enough iterations for them: gooding1990 raises 'No feasible solution, try lower M!' for every flight time for which no transfer with M revolutions and the sense requested exists, and never for a flight time that exceeds the one of such a transfer by 24 pi M (rtol + atol)^2 time units.", "quantifier": "all mu > 0, all positions in a non-polar plane, both senses and paths, all M from a number that depends on the geometry, all atol > 0 and rtol >= 0, all iteration limits from a number that depends on atol only, all flight times", "why_tests_cant": "Whether a number of revolutions is feasible depends on the minimum of a transcendental function that the code itself only approximates; a test can try flight times but not establish that no transfer exists for them.", "anchors": ["src/lamberthub/universal_solvers/gooding.py: gooding1990", "src/lamberthub/universal_solvers/gooding.py: xlamb", "src/lamberthub/universal_solvers/gooding.py: _xlamb_iter", "src/lamberthub/universal_solvers/gooding.py: tlamb"]}
{"id": "C77", "title": "gooding1990 solves problems with many revolutions near their minimum time", "statement": "With M >= 1 complete revolutions gooding1990 solves, on both paths, every problem whose flight time exceeds the smallest feasible one T0 by at least 3000 pi M (rtol + atol)^2 time units and at most a bound that does not depend on the tolerances: it returns the velocities of a transfer with M revolutions and the sense requested, whose flight time T satisfies (T - tof)^2 <= 60 pi M atol^2 (tof - T0) time units, and among all transfers of the same time, sense and number of revolutions it has the largest energy on the low path and the smallest on the high path.", "quantifier": "all mu > 0, all positions in a non-polar plane, both senses and paths, all M from a number that depends on the geometry, all positive tolerances, all iteration limits from a number that depends on the tolerances only, all flight times in the interval", "why_tests_cant": "Near the minimum the two solutions merge and the derivative vanishes, so that convergence has to be uniform in the distance of the roots; the flight times are a continuum and the geometries unbounded.", "anchors": ["src/lamberthub/universal_solvers/gooding.py: gooding1990", "src/lamberthub/universal_solvers/gooding.py: xlamb", "src/lamberthub/universal_solvers/gooding.py: _xlamb_iter", "src/lamberthub/universal_solvers/gooding.py: tlamb"]}
{"id": "C78", "title": "Problems that mcelreath2025 solves, and slow transfers", "statement": "With no complete revolutions: (1) for every geometry there is a transfer, the one of semi-major axis (r1 + r2 - sqrt(r1 r2) (1 + cos theta)) / (1 - cos theta), around whose flight time mcelreath2025 solves every problem, with a number of passes that depends on the tolerance only and an error of the flight time of at most a constant times min(rtol, 1e-10); (2) as the flight time requested grows it does not solve the problem: it accepts the first step, after which the transfer takes more than c times the time requested, for every factor c.", "quantifier": "all mu > 0, all positions in a non-polar plane that pass the code's own test for a half turn, both senses and paths, all rtol > 0 and atol >= 0, all iteration limits from 1 (2) or a number that depends on rtol (1), all flight times in a neighbourhood (1) or large enough (2)", "why_tests_cant": "The convergence concerns a continuum of flight times and all geometries; the failure appears only when the distance of the variable to 2 pi falls below the tolerance on the steps, at flight times that no test uses.", "anchors": ["src/lamberthub/universal_solvers/mcelreath.py: mcelreath2025", "src/lamberthub/universal_solvers/mcelreath.py: _find_single_revolution_x", "src/lamberthub/universal_solvers/mcelreath.py: _solve_desired_x", "src/lamberthub/universal_solvers/mcelreath.py: _tof_equation_full"]}
{"id": "C79", "title": "Nearly parabolic, fast and slow transfers in arora2013", "statement": "With no complete revolutions, for every geometry and every tolerance: (1) arora2013 solves every problem whose flight time is near the one of the parabola, this time included, and (2) every problem whose flight time is short enough, in both cases in one pass and with a flight time within the tolerance; (3) for every geometry it refuses all problems whose flight time is long enough, with the error 'Did not found a suitable equaiton to find W!', whatever the tolerances and the iteration limit, although each of them has a solution.", "quantifier": "all mu > 0, all positions in a non-polar plane, both senses, all atol > 0 (1, 2) or all tolerances (3), all iteration limits from 1, all flight times in a neighbourhood of the parabolic time (1), of 0 (2) or large enough (3), all root finders and minimizers", "why_tests_cant": "The solved problems form a continuum for each of all geometries; the refusal depends on the last digits of the constants of the initial guess, whose limit -1.41421357 lies below -sqrt(2) by 7.6e-9, and appears only at flight times that no test uses.", "anchors": ["src/lamberthub/universal_solvers/arora.py: arora2013", "src/lamberthub/universal_solvers/arora.py: _get_x", "src/lamberthub/universal_solvers/arora.py: _get_W", "src/lamberthub/universal_solvers/arora.py: _get_TOF"]}
{"id": "C80", "title": "Slow transfers with revolutions in izzo2015", "statement": "With at least one complete revolution, for every geometry in a non-polar plane, both senses, both branches and all tolerances atol > 0, rtol >= 0, izzo2015 solves every problem whose flight time is long enough, with any iteration limit above a number: it returns a transfer with exactly M revolutions and the sense requested, whose flight time differs from the one requested by as little as one wishes when the flight time is long enough; with low_path the transfer takes nearly M periods of its orbit, without it nearly M + 1. (Without revolutions the same problems come out wrong, C73.)", "quantifier": "all mu > 0, all positions in a non-polar plane, both senses, both branches, all M >= 1, all atol > 0 and rtol >= 0, all iteration limits above a number, all flight times from some value on", "why_tests_cant": "The absolute test on x accepts whatever the first pass gives when x is near -1 or 1, so the accuracy rests on the order of the guess and of the Householder step in a limit; the claim covers infinitely many flight times for each of all geometries.", "anchors": ["src/lamberthub/universal_solvers/izzo.py: izzo2015", "src/lamberthub/universal_solvers/izzo.py: _find_xy", "src/lamberthub/universal_solvers/izzo.py: _initial_guess", "src/lamberthub/universal_solvers/izzo.py: _householder", "src/lamberthub/universal_solvers/izzo.py: _tof_equation_y"]}
{"id": "C81", "title": "Slow transfers with many revolutions in gooding1990", "statement": "For every geometry in a non-polar plane there is a number of revolutions from which on gooding1990 does not solve slow problems: on both paths, for all positive tolerances and every iteration limit above a number that depends on atol only, all long enough flight times are answered after a single counted pass by a transfer with the number of revolutions and the sense requested whose flight time over the one requested tends to zero; so for every factor c the answer is more than c times too fast from some flight time on. The initial velocity and the number of revolutions determine the time of a transfer, so the answer does not solve the problem in any other reading.", "quantifier": "all mu > 0, all positions in a non-polar plane, both senses, both paths, all M from some number on, all positive tolerances, all iteration limits n + 3 with 1 <= atol 2^n, all flight times from some value on, all factors c >= 1", "why_tests_cant": "The failure is a limit: both starting values are farther from the ends x = 1 and x = -1 than the solution by a factor that grows with the flight time, and the test on x accepts the first pass as soon as that distance is below the tolerances, which happens at flight times that no test uses.", "anchors": ["src/lamberthub/universal_solvers/gooding.py: gooding1990", "src/lamberthub/universal_solvers/gooding.py: xlamb", "src/lamberthub/universal_solvers/gooding.py: tlamb", "src/lamberthub/universal_solvers/gooding.py: vlamb"]}
{"id": "C82", "title": "The loops that stop by rounding", "statement": "The loops of c2, c3 (stumpff.py), of hyp2f1b (izzo.py) and of the logarithm in tlamb (gooding.py) add terms until the floating point sum does not change. In every arithmetic that follows the standard model of floating point with unit roundoff u and absorbs terms much smaller than the sum, they stop after at most N passes (N given by the size of the terms) and return the sum of the infinite series up to an error of order N u; where izzo2015 calls hyp2f1b the argument lies in the range covered. binary64 is such an arithmetic: c2 and c3 are within 7 and 3 units of roundoff on [-1, 1], hyp2f1b within 161, the logarithm log(f + g), 0 <= f <= 0.4, within a relative error of 22. Outside [-1, 1] the direct formulas of c2 and c3 have an absolute error of a few units of roundoff for psi > 1 and a relative error of at most 22 sqrt(-psi) units or so for psi < -1.", "quantifier": "all arithmetics of the standard model that absorb small terms, all arguments in the ranges named, all numbers of passes", "why_tests_cant": "Termination rests on rounding, not on the mathematics, so it must hold for each of the 2^64 arguments; tests sample some and cannot show that no argument makes the loop run for ever or stop early.", "anchors": ["src/lamberthub/utils/stumpff.py: c2", "src/lamberthub/utils/stumpff.py: c3", "src/lamberthub/universal_solvers/izzo.py: hyp2f1b", "src/lamberthub/universal_solvers/gooding.py: tlamb"]}
{"id": "C83", "title": "avanzini2008 solves problems near the fundamental ellipse", "statement": "For positions that are not aligned and not both in the equatorial plane, and for which avanzini2008 returns for at least one time of flight, there is a transfer without revolutions in the requested sense, of duration TF, on the orbit of least eccentricity among all orbits that join the positions. For all tolerances atol > 0, rtol >= 0, every maxiter >= 2 and every eps > 0 there is a neighbourhood of TF such that for every tof in it avanzini2008 returns the velocities of a transfer without revolutions, in the requested sense, whose duration differs from tof by less than eps.", "quantifier": "all positions as above, all gravitational parameters, both senses, all tolerances, all maxiter >= 2, all times of flight in the neighbourhood", "why_tests_cant": "The claim is about a neighbourhood for each of infinitely many geometries, and about all iterates of the secant method; tests run finitely many problems.", "anchors": ["src/lamberthub/ecc_solvers/avanzini.py: avanzini2008", "src/lamberthub/ecc_solvers/avanzini.py: _secant", "src/lamberthub/ecc_solvers/avanzini.py: _get_eccT_at_x", "src/lamberthub/ecc_solvers/utils.py: kepler_tof_at_eccT"]}
{"id": "C84", "title": "The series of gooding1990's time of flight stops and is accurate in rounded arithmetic", "statement": "In every arithmetic that rounds with relative error at most u and absorbs small terms, the loop of tlamb that sums the series near x = 1 until the sum does not change stops, for every number of derivatives asked for. For |q| < 1, for qsqfm1 within 9u of 1 - q^2 relatively, and for every x >= 0 that the code sends to the series, what it returns differs from the dimensionless time of flight of Lancaster's equation by at most (28 N + 980) u, relatively, where N bounds the passes. In binary64 it is below 3e-13, uniformly for q near 1 and near -1.", "quantifier": "all arithmetics of the standard model with absorption (binary64 is one), all -1 < q < 1, all x >= 0 with computed |u| <= 0.4, all computed qsqfm1, all n", "why_tests_cant": "The loop stops only because of rounding; that it does so for every argument, and the relative bound when the time itself tends to zero (q near 1), cannot be found by trying arguments.", "anchors": ["src/lamberthub/universal_solvers/gooding.py: tlamb (l.262-353)"]}
{"id": "C85", "title": "Transfers with complete revolutions depend continuously on the time of flight, and the solvers converge to them", "statement": "Call a transfer with M >= 1 revolutions on the low (high) path if its energy is the largest (smallest) of all transfers of the same duration, revolutions and sense. For every time T, feasible or not, and every eps there is a delta such that each transfer whose duration is within delta of T has velocities within eps of those of a transfer of duration exactly T, on the same path. Hence the velocities returned by delatorre2018 tend, as its tolerances tend to zero, to those of the exact solution on the requested path (when the time of flight exceeds the least time of its search by more than the tolerance), those of arora2013 above the parabolic time tend to an exact solution, and two programs on one path agree.", "quantifier": "all positions that do not span a polar plane, both senses, both paths, all M >= 1, all times of flight, all tolerances and budgets", "why_tests_cant": "The two families of solutions meet at the least time, where the derivative of the time vanishes; that no solution is lost or jumps to the other family concerns all nearby times and tolerances at once.", "anchors": ["src/lamberthub/regularization/delatorre.py: delatorre2018 (l.12-100), _find_z (l.103-118)", "src/lamberthub/universal_solvers/arora.py: arora2013"]}
{"id": "C86", "title": "arora2013 solves problems with revolutions on the requested path", "statement": "For every number of revolutions M >= 1 and every time of flight above the parabolic time and above the least time of M revolutions, and every eps: with tight enough tolerances and enough passes arora2013 returns whenever its search for a first guess (_get_multirev_k_guess) does, and the velocities are within eps of those of the transfer of exactly the requested duration on the requested path (largest energy for low, smallest for high), unless the minimum search has found a time within atol of the requested one.", "quantifier": "all positions that do not span a polar plane, both senses, both paths, all M >= 1, all such times of flight, all small tolerances and large budgets, all minimisers and root finders that keep their documented contract", "why_tests_cant": "A Halley iteration may leave the side of the minimum on which it started; that it does not, for every problem and every sufficiently accurate guess, is not a finite set of cases, and the minimiser need not find the minimum.", "anchors": ["src/lamberthub/universal_solvers/arora.py: arora2013, _get_multirev_k_guess (l.329-403)"]}
{"id": "C87", "title": "The least time with revolutions in der2011", "statement": "The equation of _compute_minimum_time is positive before the fastest transfer with M >= 1 revolutions, zero at it and negative beyond it; the time computed there is the least time below half a turn, and too small by 4/3 |sigma|^3/|y| above half a turn. So below half a turn der2011 refuses, with the documented ValueError, the times that are too short for M revolutions (up to an explicit multiple of the tolerances); above half a turn times that are too short are not refused (negation). For both senses and both paths it solves every problem whose time is at least a quarter of a time unit longer than that of the ellipse of least energy: it returns velocities of a transfer with M revolutions within the tolerances. When brentq rejects the tolerances, the fallback iteration of l.465-476 moves away from the minimum in every pass, and with five revolutions or more every call fails (negation).", "quantifier": "all positions that do not span a polar plane, both senses, both paths, all M >= 1 and all tolerances that are small beside (c/s)^2/(10(M+2))^2, all times of flight, all large iteration budgets, all root finders that keep the documented contract of brentq", "why_tests_cant": "The sign of a transcendental function on a whole interval, the error of the least time for every geometry and every M, and a loop that fails for every budget cannot be sampled; the tests never compare the least time with the true one.", "anchors": ["src/lamberthub/universal_solvers/der.py: _phi, _compute_minimum_time (l.423-476), der2011 (l.95-101), _find_path_parameter, _solve_elliptic"]}
{"id": "C88", "title": "The velocities converge to those of the transfer when the tolerances tend to zero", "statement": "For every problem and every eps there is a delta such that whenever der2011 returns with atol, rtol < delta its velocities are within eps of those of a transfer of exactly the requested duration, number of revolutions and sense (without revolutions: unless the time of flight is exactly the parabolic time). Without revolutions the same holds for thorne2004, vallado2013 and delatorre2018, and the limit is one and the same transfer for all four. vallado2013 does return for every time of flight from the parabolic time on, for every positive rtol, with enough iterations, and delatorre2018 for every time of flight in the range of C52.", "quantifier": "all positions that do not span a polar plane, both senses, both paths, all numbers of revolutions (der2011), all times of flight, all tolerances below delta, all iteration budgets, all root finders that keep the documented contract of brentq", "why_tests_cant": "A limit: the stopping tests of der2011 and thorne2004 may be on the path parameter or on the semi-major axis instead of the time, and two transfers share each semi-major axis; that the right one is approached for every problem cannot be sampled.", "anchors": ["src/lamberthub/universal_solvers/der.py: der2011, _find_path_parameter", "src/lamberthub/regularization/delatorre.py", "src/lamberthub/series_solvers/thorne.py", "src/lamberthub/universal_solvers/vallado.py"]}
{"id": "C89", "title": "Above half a turn the Laguerre iteration of der2011 is linear at best, and repels from some solutions", "statement": "Let the transfer angle exceed half a turn (sigma < 0), let x be an elliptic root of the time equation and w = |sigma|^3 x / |y|. One pass of the loop of _solve_elliptic_jit multiplies the error at x, in the limit, by 4 w / (3 x tau - 2 + 2 w). Hence the iteration has order two at no such root. Where x < 0, on the low path, and where 3 x tau + 6 w < 2, the loop started near the root returns without the fallback in a number of passes that depends on the tolerance only. Without revolutions and on the high path, where x > 0 and 3 x tau + 6 w > 2, no sequence of iterates tends to the root without hitting it; without revolutions this is so at every solution with x (1 + |sigma|^3) >= 1.", "quantifier": "all -1 < sigma < 0, all elliptic roots x other than 0 and the zero of the derivative used by the code, all numbers of revolutions, all starting points near the root", "why_tests_cant": "A statement on the limit of iterations at every root; a test sees the answer of the bracketed fallback and not that the iteration ran away from the solution.", "anchors": ["src/lamberthub/universal_solvers/der.py: _tof_elliptic_prime, _tof_elliptic_second, _laguerre_step, _solve_elliptic_jit"]}
{"id": "C90", "title": "The initial guess of arora2013 belongs to the right region", "statement": "Without revolutions: (1) for every flight time up to the parabolic one, the initial guess k of arora2013 is computed without error and satisfies sqrt(2) <= k and k*tau < 1, so that it describes a hyperbolic transfer (a parabolic one at k = sqrt(2)); (2) for every flight time above the parabolic one and up to the one tabulated at k = -1.41, it is computed without error and satisfies -sqrt(2) < k < sqrt(2), and for a flight time between the times tabulated at 0, -1, -1.38 and -1.41 it lies between these values, up to 1e-4; (3) the tabulated times are in strictly increasing order for every geometry.", "quantifier": "all mu > 0, all positions not aligned, both senses, all flight times from 0 to the last tabulated one, whatever the tolerances", "why_tests_cant": "A property of the rational interpolations over all geometries, with denominators that could vanish; tests only see the value reached after the iteration.", "anchors": ["src/lamberthub/universal_solvers/arora.py: arora2013", "src/lamberthub/universal_solvers/arora.py: _get_x", "src/lamberthub/universal_solvers/arora.py: _get_gammas", "src/lamberthub/universal_solvers/arora.py: _get_W", "src/lamberthub/universal_solvers/arora.py: _get_TOF"]}
{"id": "C91", "title": "The equation of avanzini2008 has at most one root, and none exactly for parabolas and apocentres", "statement": "For every zero-revolution transfer in the sense asked for, the function _f whose root is looked for by the secant method of avanzini2008 is strictly increasing in x wherever it is defined, hence it has one root at most. It has a root if and only if the transfer is not parabolic and neither the initial nor the final position is the apocentre of a non-circular orbit. In particular it has exactly one root for every time of flight below that of the parabola, and none for the time of the parabola. It is defined on the whole real line except at three points at most, the same for all times of flight.", "quantifier": "all mu > 0, all positions whose plane does not contain the polar axis, both senses, all positive times of flight", "why_tests_cant": "Existence and uniqueness of a root over all reals; a test sees the point where the secant method stopped, and hits the exceptional transfers with probability zero.", "anchors": ["src/lamberthub/ecc_solvers/avanzini.py: _get_eccT_limits, _get_eccT_at_x", "src/lamberthub/ecc_solvers/utils.py: kepler_tof_at_eccT, _f"]}
{"id": "C92", "title": "How the secant method of avanzini2008 ends", "statement": "With non-negative tolerances every run of _secant on the function of avanzini2008 ends in one of three ways: it returns a point obtained from the secant through two different points of the graph and within atol + rtol |x| of the second of them, in a pass numbered from 1 to maxiter; it raises RuntimeError; or it evaluates the function at one of the points, three at most for each geometry, where the function is not defined. In particular it never divides by zero and the branch that returns the average of two points with equal values is never taken.", "quantifier": "all mu > 0, all positions not aligned, both senses, all positive times of flight, all non-negative tolerances, all numbers of passes", "why_tests_cant": "That a branch is never taken and a denominator never vanishes along iterations of any length is a statement about all executions.", "anchors": ["src/lamberthub/ecc_solvers/avanzini.py: _secant", "src/lamberthub/ecc_solvers/utils.py: _f"]}
{"id": "C93", "title": "avanzini2008 with small tolerances: exact results or none", "statement": "For every problem and every maxiter there is a delta > 0 such that, with tolerances in [0, delta), whatever avanzini2008 returns comes from an exact root of its equation: when the two positions are not both in the equatorial plane the velocities are exactly those of the zero-revolution transfer in the time and the sense asked for. Consequently the transfers for which the equation has no root (parabolas, and transfers that begin or end at the apocentre of a non-circular orbit) are never returned with such tolerances: the solver fails.", "quantifier": "all mu > 0, all positions not aligned (for the sense and the refusals: whose plane does not contain the polar axis), both senses, all times of flight, all maxiter, all tolerances below delta", "why_tests_cant": "It is a limit statement over all tolerances and all problems, and the refused transfers have probability zero among random inputs.", "anchors": ["src/lamberthub/ecc_solvers/avanzini.py: avanzini2008, _secant", "src/lamberthub/ecc_solvers/utils.py: _f"]}
{"id": "C94", "title": "maxiter only stops the iteration", "statement": "For avanzini2008, vallado2013, gauss1809, battin1984, jiang2016, delatorre2018, mcelreath2025, arora2013 and izzo2015: with some maxiter the solver raises the error of no convergence, or else it does exactly what it does with every larger maxiter (same velocities, same reported iterations, same error). Hence a larger maxiter never changes an answer. gooding1990 violates this: without passes and with one pass it returns different velocities and no error.", "quantifier": "all inputs, valid or not, both senses and paths, all tolerances, all pairs of values of maxiter", "why_tests_cant": "It compares all pairs of iteration budgets on all inputs; a test compares a few.", "anchors": ["src/lamberthub/ecc_solvers/avanzini.py: _secant", "src/lamberthub/universal_solvers/vallado.py", "src/lamberthub/p_solvers/gauss.py", "src/lamberthub/p_solvers/battin.py", "src/lamberthub/p_solvers/jiang.py: _solve_semimajor_axis", "src/lamberthub/regularization/delatorre.py: _solve_bracketed", "src/lamberthub/universal_solvers/mcelreath.py: _solve_desired_x, _solve_minimum_x", "src/lamberthub/universal_solvers/arora.py", "src/lamberthub/universal_solvers/izzo.py: _householder, _halley", "src/lamberthub/universal_solvers/gooding.py: _xlamb_iter"]}
{"id": "C95", "title": "is_low_path has no effect without complete revolutions", "statement": "With M = 0 every one of the 14 solvers does the same for both values of is_low_path: same velocities, same reported iterations, same exception. avanzini2008, battin1984, gauss1809, jiang2016, pan2016, thorne2004 and vallado2013 ignore it for every M.", "quantifier": "all solvers, all other arguments, valid or not (positions on a line included)", "why_tests_cant": "The answers must agree on all inputs, including those on which a solver fails; a test compares a few.", "anchors": ["src/lamberthub/universal_solvers/gooding.py: vlamb, xlamb", "src/lamberthub/universal_solvers/izzo.py: _initial_guess", "src/lamberthub/universal_solvers/der.py: _find_path_parameter", "src/lamberthub/universal_solvers/arora.py", "src/lamberthub/universal_solvers/mcelreath.py: _find_x", "src/lamberthub/universal_solvers/negrete.py: _find_z", "src/lamberthub/regularization/delatorre.py: _find_z"]}
