{"id": "C01", "title": "R-alpha conjunction/disjunction is a sign-exact AND/OR", "statement": "For every alpha accepted by RAlpha(alpha), conjunction(a,b) is a finite number whose sign (negative, zero, positive) is the minimum of the signs of a and b, and disjunction(a,b) is a finite number whose sign is the maximum of the signs of a and b.", "quantifier": "all alpha in (-1,1], all finite a, b", "why_tests_cant": "a test samples a handful of (alpha,a,b); the sign law must hold on all of R^2 incl. the zero set", "anchors": ["magpi/r_fun.py:RAlpha.conjunction", "magpi/r_fun.py:RAlpha.disjunction", "magpi/r_fun.py:RAlpha.__init__"]}
{"id": "C02", "title": "Every CSG expression classifies points like three-valued logic", "statement": "For any expression built by nesting union, intersection, negate, difference, implication, equivalence and xor of one R-system (RAlpha, RP with p>=2, RAlphaM with m>=0) over arbitrary ADFs, the sign of the resulting ADF at a point is the Kleene three-valued evaluation (in=1, on boundary=0, out=-1) of the same set expression on the signs of the leaves.", "quantifier": "all expression trees of any depth, all leaf ADFs, all points", "why_tests_cant": "the space of trees and points is infinite; errors only show for specific nestings/boundary coincidences", "anchors": ["magpi/r_fun.py:RFun.union", "magpi/r_fun.py:RFun.intersection", "magpi/r_fun.py:RFun.negate", "magpi/r_fun.py:RFun.difference", "magpi/r_fun.py:RFun.implication", "magpi/r_fun.py:RFun.equivalence", "magpi/r_fun.py:RFun.xor"]}
{"id": "C03", "title": "R-p systems are sign-exact for every accepted p", "statement": "For every p accepted by RP(p), conjunction/disjunction have the sign of min/max of the operands.", "quantifier": "all p passing the constructor check, all finite a, b", "why_tests_cant": "infinitely many p and operands", "anchors": ["magpi/r_fun.py:RP.__init__", "magpi/r_fun.py:RP.conjunction", "magpi/r_fun.py:RP.disjunction"]}
{"id": "C04", "title": "r1 is exactly min/max and RP(2) is exactly r0", "statement": "RAlpha(1.0) computes exactly min and max, and RP(2) agrees with RAlpha(0.0) on every pair of operands.", "quantifier": "all finite a, b", "why_tests_cant": "equality of two real functions on the whole plane", "anchors": ["magpi/r_fun.py:r1", "magpi/r_fun.py:r0", "magpi/r_fun.py:rp2"]}
{"id": "C05", "title": "R-alpha-m is sign-exact for m >= 0 and scales r-alpha", "statement": "RAlphaM(m,alpha) equals RAlpha(alpha) times (a^2+b^2)^(m/2); for m >= 0 it obeys the sign law for all operands, for m < 0 it obeys it except when both operands are zero where the result is not a number.", "quantifier": "all m, all alpha in (-1,1], all finite a, b", "why_tests_cant": "singular operand pairs are measure zero", "anchors": ["magpi/r_fun.py:RAlphaM.conjunction", "magpi/r_fun.py:RAlphaM.disjunction"]}
{"id": "C06", "title": "Rho blending only rounds corners", "statement": "For rho > 0, RhoBlending agrees with r0 whenever a^2+b^2 >= rho^2; inside that disc its conjunction is <= and its disjunction is >= the r0 one, so blending intersection never adds material and blending union never removes any, and the values deviate by at most sqrt(rho^3)/2.", "quantifier": "all rho > 0, all finite a, b", "why_tests_cant": "inequality over the whole plane", "anchors": ["magpi/r_fun.py:RhoBlending.conjunction", "magpi/r_fun.py:RhoBlending.disjunction"]}
{"id": "C07", "title": "Algebraic laws of the set operations", "statement": "For every provided R-system: union and intersection are commutative, negate is an involution, De Morgan holds exactly (negate of union = intersection of negations), difference(f,g)=intersection(f,negate g), implication(f,g)=union(negate f,g), xor(f,g)=negate(equivalence(f,g)).", "quantifier": "all R-systems and parameters, all ADFs, all points", "why_tests_cant": "universally quantified equations between functions", "anchors": ["magpi/r_fun.py:RFun"]}
{"id": "C08", "title": "Conjunction/disjunction preserve first order normalisation", "statement": "If at a point x one ADF vanishes and the other is positive (for intersection) or negative (for union), then under RAlpha and RP (p>=2) the combined ADF has at x exactly the gradient of the vanishing ADF; in particular unit normal derivatives stay unit.", "quantifier": "all differentiable ADFs on R^n, all n, all such points, all alpha/p", "why_tests_cant": "gradient identity at every boundary point", "anchors": ["magpi/r_fun.py:RAlpha", "magpi/r_fun.py:RP", "magpi/r_fun.py:RFun._conjunction", "magpi/r_fun.py:RFun._disjunction"]}
{"id": "C09", "title": "R-p is normalised to order p-1", "statement": "For even p >= 2 and b > 0, RP(p).conjunction(a,b) differs from a by at most |a|^p/(p b^(p-1)), so all normal derivatives of order 2..p-1 vanish at the boundary.", "quantifier": "all even p >= 2, all a, all b > 0", "why_tests_cant": "bound over a continuum and all p", "anchors": ["magpi/r_fun.py:RP"]}
{"id": "C10", "title": "cuboid/cube ADF classify points exactly", "statement": "For every dimension, edge vector, centering flag and R-system obeying the sign law, the ADF of cuboid is positive exactly on the open box, zero exactly on its boundary and negative exactly outside; cube(l) behaves like cuboid with all edges l in whatever dimension it is evaluated.", "quantifier": "all dimensions n >= 1, all positive edge vectors, all points, both centering modes, all sign-exact R-systems", "why_tests_cant": "all dimensions and points; edges/corners are measure zero", "anchors": ["magpi/r_fun.py:cuboid", "magpi/r_fun.py:cube", "magpi/r_fun.py:compose"]}
{"id": "C11", "title": "cuboid ADF has unit normal derivative on open faces", "statement": "At a point that lies on exactly one face plane and strictly between all others, the cuboid ADF (RAlpha or RP) is differentiable and its gradient is the inward unit normal of that face.", "quantifier": "all dimensions, boxes, open faces, points on them", "why_tests_cant": "continuum of boundary points", "anchors": ["magpi/r_fun.py:cuboid", "magpi/r_fun.py:r0"]}
{"id": "C12", "title": "sphere and cylinder ADF", "statement": "For r > 0 the sphere ADF is positive/zero/negative exactly inside/on/outside the ball of radius r, has gradient of norm one on the sphere, and the cylinder ADF does the same with the distance from the axis, independent of the remaining coordinates.", "quantifier": "all r > 0, all dimensions, all points", "why_tests_cant": "continuum", "anchors": ["magpi/r_fun.py:sphere", "magpi/r_fun.py:cylinder"]}
{"id": "C13", "title": "normalize_1st_order keeps the solid and yields unit normals", "statement": "Where value and gradient do not vanish simultaneously, normalize_1st_order(f) is finite, has the sign of f and magnitude at most one; at boundary points with non-vanishing gradient its gradient has norm exactly one and the direction of the gradient of f. Where both vanish the result is not a number.", "quantifier": "all differentiable ADFs, all points", "why_tests_cant": "universal over functions", "anchors": ["magpi/r_fun.py:normalize_1st_order"]}
{"id": "C14", "title": "ellipsoid ADF", "statement": "For non-zero axis lengths, the ellipsoid ADF is positive/zero/negative exactly inside/on/outside the ellipsoid sum (x_i/a_i)^2 = 1 and has unit gradient on its surface.", "quantifier": "all dimensions, axis vectors, points", "why_tests_cant": "continuum", "anchors": ["magpi/r_fun.py:ellipsoid", "magpi/r_fun.py:scale_without_normalization"]}
{"id": "C15", "title": "translate moves the solid", "statement": "The solid of translate(f,y) is the solid of f shifted by y: the value at x+y equals f(x); successive translations add; gradients are carried along.", "quantifier": "all ADFs, vectors, points", "why_tests_cant": "universal", "anchors": ["magpi/r_fun.py:translate"]}
{"id": "C16", "title": "scale scales the solid and keeps normalisation", "statement": "For s > 0 the value of scale(f,s) at s*x is s*f(x), so the solid is scaled by s and gradient norms are unchanged; for s < 0 the solid is the complement of the point-reflected scaled solid (the sign is flipped); s = 0 evaluates the ADF at a point without finite coordinates; a scaling factor that is not a single number is rejected.", "quantifier": "all ADFs, all s, all points", "why_tests_cant": "universal", "anchors": ["magpi/r_fun.py:scale", "magpi/r_fun.py:scale_without_normalization"]}
{"id": "C17", "title": "rotate2d turns the solid counter-clockwise about o", "statement": "For every real angle and every centre o, the value of rotate2d(f,angle,o) at the point obtained by turning x counter-clockwise by angle about o equals f(x).", "quantifier": "all ADFs, all angles (any numeric dtype), all centres, all points", "why_tests_cant": "continuum of angles; the test uses a symmetric square", "anchors": ["magpi/r_fun.py:rotate2d"]}
{"id": "C18", "title": "rotate3d turns the solid about the axis through o", "statement": "rotate3d(f,angle,axis,o) evaluates to f(x) at the point obtained by rotating x about the axis through o by angle (right hand rule), like rotate2d does in the plane; calls with a scalar angle and no axis, with Euler angles and an axis, or with any other angle shape raise ValueError.", "quantifier": "all ADFs, angles, axes, centres, points", "why_tests_cant": "tests use a cube symmetric under the rotation", "anchors": ["magpi/r_fun.py:rotate3d", "magpi/quaternions.py:quaternion_rotation", "magpi/quaternions.py:from_axis_angle"]}
{"id": "C19", "title": "reflect is the mirror image", "statement": "reflect(f,n,o) evaluated at the mirror image of x in the plane through o with normal n equals f(x), independent of the length and sign of n; reflecting twice restores f; points of the plane are unaffected; a zero normal evaluates the ADF at a point whose coordinates are not numbers.", "quantifier": "all ADFs, n, o, points, dimensions", "why_tests_cant": "universal", "anchors": ["magpi/r_fun.py:reflect"]}
{"id": "C20", "title": "project makes the ADF constant along the normal", "statement": "project(f,n,o) is constant along the direction n, agrees with f on the plane through o, and projecting twice is the same as projecting once.", "quantifier": "all ADFs, n != 0, o, points", "why_tests_cant": "universal", "anchors": ["magpi/r_fun.py:project"]}
{"id": "C21", "title": "revolution is rotationally symmetric", "statement": "revolution(f,0) (resp. 1) is invariant under every rotation about the x (resp. y) axis and agrees with f on the half plane of non-negative radius; any other axis raises ValueError when evaluated.", "quantifier": "all ADFs, all angles, all points", "why_tests_cant": "continuum", "anchors": ["magpi/r_fun.py:revolution"]}
{"id": "C22", "title": "Quaternion arithmetic is Hamilton's", "statement": "+,-,*,negation,conj and abs of Quaternion agree with the real quaternion algebra; multiplication is associative, abs is multiplicative and conj reverses products.", "quantifier": "all finite quaternions", "why_tests_cant": "identities in 8-12 real variables", "anchors": ["magpi/quaternions.py:Quaternion.__mul__", "magpi/quaternions.py:Quaternion.__add__", "magpi/quaternions.py:Quaternion.__abs__", "magpi/quaternions.py:Quaternion.conj"]}
{"id": "C23", "title": "reciprocal and division", "statement": "For every non-zero q, q*q.reciprocal() and q.reciprocal()*q are exactly one; (p/q)*q = p; quaternion_left_div(p,q) solves q*x = p; for q = 0 the reciprocal is not a number.", "quantifier": "all finite p, q", "why_tests_cant": "universal identity", "anchors": ["magpi/quaternions.py:Quaternion.reciprocal", "magpi/quaternions.py:Quaternion.__truediv__", "magpi/quaternions.py:quaternion_left_div"]}
{"id": "C24", "title": "Mixed scalar/quaternion arithmetic is consistent", "statement": "For a number s: s + q = q + s, s*q = q*s, and s - q = -(q - s).", "quantifier": "all finite s, q", "why_tests_cant": "universal identity", "anchors": ["magpi/quaternions.py:Quaternion.__radd__", "magpi/quaternions.py:Quaternion.__rsub__", "magpi/quaternions.py:Quaternion.__rmul__"]}
{"id": "C25", "title": "quaternion_rotation is a rotation", "statement": "For every q != 0, x -> quaternion_rotation(x,q) is linear, preserves dot products, norms and cross products (orientation), fixes the axis q.imag, depends only on the direction of q, and rotating by p then by q equals rotating by p*q. For q = 0 the result is not a number.", "quantifier": "all x, p, q", "why_tests_cant": "identities over R^4 x R^3", "anchors": ["magpi/quaternions.py:quaternion_rotation"]}
{"id": "C26", "title": "from_axis_angle yields the stated rotation", "statement": "For every axis u of length one, from_axis_angle(t,u) is a unit quaternion and quaternion_rotation(.,from_axis_angle(t,u)) is the Rodrigues rotation about u by angle -t.", "quantifier": "all t, all unit axes, all x (the property as documented does not ask the caller to normalise the axis)", "why_tests_cant": "continuum", "anchors": ["magpi/quaternions.py:from_axis_angle"]}
{"id": "C27", "title": "from_euler_angles is the composition of three axis rotations", "statement": "from_euler_angles((a,b,c)) is a unit quaternion equal to the product of the axis-angle quaternions about z by c, y by b and x by a, for all angles.", "quantifier": "all triples of angles", "why_tests_cant": "trigonometric identity", "anchors": ["magpi/quaternions.py:from_euler_angles"]}
{"id": "C28", "title": "quaternion exp and log are inverse", "statement": "exp(log(q)) = q for every q != 0.", "quantifier": "all non-zero quaternions", "why_tests_cant": "branch points lie on measure zero sets", "anchors": ["magpi/quaternions.py:quanternion_exp", "magpi/quaternions.py:quanternion_log", "magpi/quaternions.py:arg", "magpi/quaternions.py:sgn"]}
{"id": "C29", "title": "quaternion powers agree with repeated multiplication", "statement": "q**n equals the n-fold product for every natural n (and the inverse for n = -1) and every q != 0.", "quantifier": "all q, all n", "why_tests_cant": "infinite n; tests use n = 2, 3", "anchors": ["magpi/quaternions.py:Quaternion.__pow__"]}
{"id": "C30", "title": "quaternion_reflection is the mirror image", "statement": "For every non-zero normal, quaternion_reflection(x,n) is the mirror image of x in the plane orthogonal to n; it agrees with the reflection used by r_fun.reflect, is an involution and an isometry.", "quantifier": "all x, n", "why_tests_cant": "universal", "anchors": ["magpi/quaternions.py:quaternion_reflection"]}
{"id": "C31", "title": "Hypercube.transform lands in the box", "statement": "For every sample coordinate u the transformed point lies in [lb,ub] (lb <= ub); on [0,1] it is the affine bijection onto the box.", "quantifier": "all dimensions, boxes, samples", "why_tests_cant": "continuum of samples, incl. samples outside [0,1]", "anchors": ["magpi/domain.py:transform_hypercube", "magpi/domain.py:Hypercube.transform", "magpi/domain.py:Hypercube.includes"]}
{"id": "C32", "title": "Hypercube.transform_bnd lands on the boundary", "statement": "For every box with positive edges in any dimension and every sample, transform_bnd returns a point of the closed box having at least one coordinate equal to its lower or upper bound; a sample of wrong size is rejected.", "quantifier": "all dimensions n >= 1, boxes, samples", "why_tests_cant": "continuum, all dimensions, interval boundaries", "anchors": ["magpi/domain.py:transform_hypercube_bnd", "magpi/domain.py:Hypercube.transform_bnd"]}
{"id": "C33", "title": "transform_bnd hits each face proportionally to its area and covers it", "statement": "The set of values of the first sample coordinate that is sent to a given face is an interval whose length is that face's share of the total surface area, and on that interval the first coordinate is stretched affinely over [0,1), so every point of the (half-open) face is hit.", "quantifier": "all dimensions n >= 2, boxes, faces", "why_tests_cant": "statement about measure of preimages", "anchors": ["magpi/domain.py:transform_hypercube_bnd"]}
{"id": "C34", "title": "Disk/Annulus transform lands in the region and is onto", "statement": "For 0 <= r1 <= r2 every sample is mapped to a point whose distance d from the origin point satisfies r1 <= d (< r2 if r1 < r2), every such point is attained, and Disk.includes accepts every transformed sample when r > 0.", "quantifier": "all radii, origins, samples", "why_tests_cant": "continuum", "anchors": ["magpi/domain.py:transform_annulus", "magpi/domain.py:transform_circle", "magpi/domain.py:Disk", "magpi/domain.py:_Spherical.includes"]}
{"id": "C35", "title": "Sphere transforms land in the ball / on the sphere", "statement": "Every sample is mapped by Sphere.transform strictly inside the ball (so includes is true), by Sphere.transform_bnd exactly onto the sphere and by Disk.transform_bnd exactly onto the circle; all points of the ball except those straight above its centre, all points of the sphere except the north pole, and all points of the circle are attained.", "quantifier": "all radii, origins, samples", "why_tests_cant": "continuum", "anchors": ["magpi/domain.py:transform_sphere", "magpi/domain.py:transform_sphere_bnd", "magpi/domain.py:transform_circle_bnd"]}
{"id": "C36", "title": "Disk.transform_bnd traverses the circle once", "statement": "Different parameters in [0,1) are mapped to different points of the circle.", "quantifier": "all pairs of parameters", "why_tests_cant": "pairs of parameters", "anchors": ["magpi/domain.py:transform_circle_bnd"]}
{"id": "C37", "title": "Hypercube.normal_vec returns the outward unit normal on the boundary", "statement": "For a sample on the boundary of the box normal_vec returns an outward unit normal; for a batch containing a sample that is not on the boundary it returns None.", "quantifier": "all boxes, dimensions, samples, batches, tolerances", "why_tests_cant": "corners/edges are measure zero; batches mix", "anchors": ["magpi/domain.py:Hypercube.normal_vec"]}
{"id": "C38", "title": "Sphere/Disk.normal_vec returns outward unit normals for samples and batches", "statement": "For one sample (or a batch of samples) on the boundary, normal_vec returns the outward unit normal(s); off the boundary (beyond tolerance) it returns None.", "quantifier": "all radii, origins, samples, batch sizes", "why_tests_cant": "batch size vs dimension broadcasting", "anchors": ["magpi/domain.py:_Spherical.normal_vec"]}
{"id": "C39", "title": "transform_triangle lands in the triangle", "statement": "For every triangle (a,b,c) and every sample the transformed point is a convex combination of a, b and c.", "quantifier": "all triangles in R^d, all samples", "why_tests_cant": "tests use one axis-aligned triangle", "anchors": ["magpi/domain.py:transform_triangle"]}
{"id": "C40", "title": "transform_polyline is the arc-length parametrisation", "statement": "transform_polyline(s,points) is the point reached after walking the fraction (s mod 1) of the total length along the polyline.", "quantifier": "all polylines of positive length with any number of points, all s", "why_tests_cant": "any number of segments incl. zero-length ones", "anchors": ["magpi/domain.py:transform_polyline"]}
{"id": "C41", "title": "Parallelogram.transform and support", "statement": "Parallelogram(a,b,c).transform maps (s,t) in [0,1]^2 to a + s(b-a) + t(c-a); every point of the parallelogram is attained, samples outside [0,1] >= 0 are wrapped; support() is the parallelogram's area.", "quantifier": "all a,b,c in R^d, all samples", "why_tests_cant": "continuum", "anchors": ["magpi/domain.py:Parallelogram", "magpi/domain.py:affine_plane", "magpi/domain.py:linear_map"]}
{"id": "C42", "title": "Parallelogram.transform_bnd traces the boundary", "statement": "transform_bnd(s) lies on the boundary of the parallelogram spanned by a, b, c for every s.", "quantifier": "all a,b,c, all s", "why_tests_cant": "tests only use a = 0", "anchors": ["magpi/domain.py:Parallelogram.transform_bnd"]}
{"id": "C43", "title": "support() is the Lebesgue measure of the region", "statement": "support() of Hypercube, Disk, Annulus, Sphere equals the Lebesgue measure of the box, disk, annulus, ball.", "quantifier": "all parameters", "why_tests_cant": "measure statement", "anchors": ["magpi/domain.py:Hypercube.support", "magpi/domain.py:Disk.support", "magpi/domain.py:Annulus.support", "magpi/domain.py:Sphere.support"]}
{"id": "C44", "title": "transforms are uniform", "statement": "The image of the uniform distribution on [0,1]^d under the transform is the uniform distribution on the domain (module docstring), for Hypercube, Annulus/Disk and Sphere.", "quantifier": "all measurable sets", "why_tests_cant": "distributional statement", "anchors": ["magpi/domain.py:transform_hypercube", "magpi/domain.py:transform_annulus", "magpi/domain.py:transform_sphere"]}
{"id": "C45", "title": "midpoint, trapezoid and Simpson are exact to their degree on every grid", "statement": "On every (not necessarily uniform) grid with at least two nodes, midpoint and trap integrate polynomials of degree <= 1 exactly and simpson those of degree <= 3, over [first node, last node].", "quantifier": "all grids of any length, all polynomials", "why_tests_cant": "all grid lengths/spacings", "anchors": ["magpi/integrate.py:midpoint", "magpi/integrate.py:trap", "magpi/integrate.py:simpson"]}
{"id": "C46", "title": "Quadrature weights and nodes are well formed", "statement": "For each rule the number of weights equals the number of nodes, weights add up to last minus first node, on an increasing grid all weights are positive (non-negative for trap/gauss end points) and all nodes lie between first and last node; hence bounds on f give bounds on the result.", "quantifier": "all grids", "why_tests_cant": "all grid lengths", "anchors": ["magpi/integrate.py:midpoint", "magpi/integrate.py:trap", "magpi/integrate.py:simpson", "magpi/integrate.py:gauss"]}
{"id": "C47", "title": "gauss(n) transports the reference rule to every cell", "statement": "If the reference nodes/weights integrate polynomials of degree <= D exactly on [-1,1], gauss's composite rule integrates them exactly on every grid.", "quantifier": "all reference rules, degrees, grids, polynomials", "why_tests_cant": "all grids and degrees", "anchors": ["magpi/integrate.py:gauss"]}
{"id": "C48", "title": "integrate on several dimensions is the iterated quadrature", "statement": "integrate(f,[d1,..,dk]) equals the k-fold nested quadrature sum of f over the one dimensional rules (independent of the internal meshgrid axis order), is linear in f, and integrates products and polynomials of admissible degree in each variable exactly.", "quantifier": "all k >= 1, grids, integrands", "why_tests_cant": "all dimensions", "anchors": ["magpi/integrate.py:integrate"]}
{"id": "C49", "title": "integrate_disk has the right area element", "statement": "With a rule exact for affine functions, integrate_disk of a constant c over any annular sector and any node counts >= 2 gives c times the sector's area; for a general f it is the quadrature of f(o+(r cos phi, r sin phi)) r.", "quantifier": "all radii, sectors, node counts", "why_tests_cant": "all node counts", "anchors": ["magpi/integrate.py:integrate_disk"]}
{"id": "C50", "title": "integrate_sphere has the right volume element", "statement": "integrate_sphere of a constant gives c times (R^3-r^3)/3 times (theta2-theta1) times the quadrature of sin over [phi1,phi2], for every rule exact on quadratics.", "quantifier": "all radii, sectors, node counts", "why_tests_cant": "all node counts", "anchors": ["magpi/integrate.py:integrate_sphere"]}
{"id": "C51", "title": "odeint returns one state per time stamp and composes", "statement": "odeint(df,y,ts) has len(ts) entries, the first is y; repeated time stamps repeat the state; integrating over ts and restarting from the last state with the remaining time stamps gives the same trajectory as integrating over all of them.", "quantifier": "all dynamics, states, time grids, split points, one-step methods", "why_tests_cant": "all grid lengths and split points", "anchors": ["magpi/ode.py:odeint", "magpi/ode.py:_odeint"]}
{"id": "C52", "title": "rk4/Euler have their order on model problems", "statement": "For y' = A y one rk4 step applies the degree-4 Taylor polynomial of exp(dt A) and one Euler step the degree-1 polynomial; for constant dynamics both are exact.", "quantifier": "all linear operators, states, steps", "why_tests_cant": "universal", "anchors": ["magpi/ode.py:rk4", "magpi/ode.py:explicit_euler"]}
{"id": "C53", "title": "odeint evaluates the dynamics at the right times", "statement": "For y' = p(t) with p a cubic polynomial odeint with rk4 returns the exact solution at all time stamps.", "quantifier": "all cubic p, all time grids", "why_tests_cant": "no test exercises time dependent dynamics", "anchors": ["magpi/ode.py:_odeint", "magpi/ode.py:rk4"]}
{"id": "C54", "title": "batches_without_replacement partitions the data", "statement": "For every permutation produced by the key: floor(N/B) batches of exactly B rows are returned, no row index occurs twice, N mod B rows are left out, and all leaves of the data tree are indexed alike.", "quantifier": "all N, all B >= 1, all permutations, all data", "why_tests_cant": "all sizes and permutations", "anchors": ["magpi/opt.py:batches_without_replacement", "magpi/opt.py:axis_size"]}
{"id": "C55", "title": "batches_with_replacement draws rows of the data", "statement": "It returns the requested number of batches of the requested size whose rows are rows of the data, aligned over leaves; without replacement inside a batch no index repeats in a batch.", "quantifier": "all sizes, all draws", "why_tests_cant": "all sizes and draws", "anchors": ["magpi/opt.py:batches_with_replacement"]}
{"id": "C56", "title": "make_iterator yields all batches of all epochs in order with fresh keys", "statement": "make_iterator yields exactly epochs times num_batches batches, in the order produced by batch_fn for each epoch; the key handed to batch_fn is different in each epoch and all keys handed out (to batch_fn and to the consumer) are pairwise distinct.", "quantifier": "all epochs, batch counts, batch functions", "why_tests_cant": "unbounded number of epochs and batches", "anchors": ["magpi/opt.py:make_iterator"]}
{"id": "C57", "title": "inconsistent leading axes are rejected", "statement": "axis_size raises an assertion error unless all leaves have the same size along the axis, and returns that size otherwise.", "quantifier": "all trees", "why_tests_cant": "all trees", "anchors": ["magpi/opt.py:check_axis_size", "magpi/opt.py:axis_size"]}
{"id": "C58", "title": "Trust region radius stays in its bounds", "statement": "If the radius starts in [min_tr_radius,max_tr_radius] it stays there after any number of updates, whatever objective values (including NaN and infinities) are met.", "quantifier": "all objectives, all histories", "why_tests_cant": "all histories of accept/reject/NaN", "anchors": ["magpi/tr.py:update_tr_radius", "magpi/tr.py:TR.update"]}
{"id": "C59", "title": "Accepted steps decrease the objective", "statement": "With rho_accept >= 0, whenever a step is accepted the new objective value is at most the old one minus rho_accept times the (positive) predicted decrease; so the values along a run never increase.", "quantifier": "all objectives with symmetric linear Hessian-vector products, all histories", "why_tests_cant": "all runs", "anchors": ["magpi/tr.py:TR.update"]}
{"id": "C60", "title": "Rejected steps leave the iterate alone and shrink the radius", "statement": "When a step is rejected the parameters, value, gradient, error and aux are those of the old iterate; and the radius is multiplied by decrease_factor (clipped at min_tr_radius).", "quantifier": "all objectives (incl. NaN values), all states", "why_tests_cant": "all states", "anchors": ["magpi/tr.py:TR.update", "magpi/tr.py:TR.__post_init__", "magpi/tr.py:update_tr_radius"]}
{"id": "C61", "title": "Steihaug step stays in the trust region", "statement": "The step returned by steihaug has norm at most tr_radius for every gradient, every Hessian-vector product, tr_radius > 0, eps > 0 and iteration limit; if it stops because of negative curvature or because it hit the boundary its norm is exactly tr_radius.", "quantifier": "all inputs, all iteration counts", "why_tests_cant": "all Hessians incl. indefinite", "anchors": ["magpi/tr.py:steihaug"]}
{"id": "C62", "title": "Steihaug step is at least as good as the Cauchy point", "statement": "For symmetric linear Hessians and gradient norm >= eps > 0 the quadratic model at the returned step is at most its value at the Cauchy point, in particular the predicted decrease is at least 1/2 |g| min(radius, |g|/|H|) > 0.", "quantifier": "all symmetric H, g, radius, iteration limits >= 1", "why_tests_cant": "all inputs", "anchors": ["magpi/tr.py:steihaug"]}
{"id": "C63", "title": "Steihaug converges within dim iterations", "statement": "In exact arithmetic steihaug stops after at most dim iterations with converged=True, so the default limit 10*dim is never reached.", "quantifier": "all dimensions, symmetric H, g, eps > 0", "why_tests_cant": "all dimensions", "anchors": ["magpi/tr.py:steihaug"]}
{"id": "C64", "title": "A non-stationary iterate gets a non-zero step", "statement": "If the gradient norm is at least tol > 0, the sub-problem tolerance chosen by update is at most the gradient norm, Steihaug performs at least one iteration and the step is non-zero; the tolerances are non-increasing over a run and never below tol.", "quantifier": "all states of all runs", "why_tests_cant": "all histories", "anchors": ["magpi/tr.py:TR.update"]}
{"id": "C65", "title": "The trust region run terminates", "statement": "For an objective bounded below whose Hessians are bounded by beta, the number of updates before either the gradient norm is <= tol or the radius has dropped to min_tr_radius is bounded by an explicit number depending only on the parameters, beta and the initial gap.", "quantifier": "all such objectives and starts", "why_tests_cant": "unbounded runs", "anchors": ["magpi/tr.py:TR.update"]}
{"id": "C66", "title": "At minimal radius the solver is frozen", "statement": "Once tr_radius <= min_tr_radius, update returns parameters and state unchanged (including iter_num) for ever; only re-initialisation resets the radius to init_tr_radius.", "quantifier": "all states", "why_tests_cant": "unbounded runs", "anchors": ["magpi/tr.py:TR.update", "magpi/tr.py:TR.init_state"]}
{"id": "C67", "title": "A non-finite trial value is survived", "statement": "If the objective at the trial point is NaN (or +inf) the step is rejected and the radius is reduced so that the next trial differs.", "quantifier": "all states", "why_tests_cant": "special values", "anchors": ["magpi/tr.py:TR.update", "magpi/tr.py:update_tr_radius"]}
{"id": "C68", "title": "Restarting from an OptStep resumes", "statement": "init_state on an OptStep keeps iteration counter and radius (reset to init_tr_radius iff it is <= min_tr_radius) and recomputes value, gradient and error at its params; on plain params it starts at iteration 0 with init_tr_radius.", "quantifier": "all states", "why_tests_cant": "all states", "anchors": ["magpi/tr.py:TR.init_state"]}
{"id": "C69", "title": "Configurations violating rho_accept <= rho_decrease are rejected", "statement": "TR(...) raises ValueError iff rho_accept > rho_decrease; the defaults are accepted.", "quantifier": "all parameter pairs", "why_tests_cant": "all parameters", "anchors": ["magpi/tr.py:TR.__post_init__"]}
{"id": "C70", "title": "rejection_sampling returns the first accepted proposal of each stream", "statement": "Each of the n returned samples is the first proposal of its own key stream whose uniform number p does not exceed pdf(sample)/m; in particular it satisfies p <= pdf/m; results are independent of the other streams.", "quantifier": "all key streams, densities, proposal functions, n, m", "why_tests_cant": "unbounded number of iterations", "anchors": ["magpi/sampling.py:rejection_sampling"]}
{"id": "C71", "title": "rejection_sampling never returns a zero density sample", "statement": "Every returned sample has pdf(sample) > 0.", "quantifier": "all key streams and densities", "why_tests_cant": "probability of the failing draw is tiny", "anchors": ["magpi/sampling.py:rejection_sampling"]}
{"id": "C72", "title": "rejection_sampling has the target distribution", "statement": "If proposals are i.i.d. and 0 <= pdf <= m, the accepted sample has density proportional to pdf with respect to the proposal distribution and the expected number of draws is m divided by the proposal mean of pdf.", "quantifier": "all finite proposal distributions and densities", "why_tests_cant": "distributional", "anchors": ["magpi/sampling.py:rejection_sampling"]}
{"id": "C73", "title": "B-spline basis is non-negative with local support", "statement": "On a sorted grid basis(x,grid,k)[i] >= 0, it vanishes for x < t_i and x >= t_(i+k+1), and it is finite at every finite x (repeated knots included). At nan and at plus and minus infinity it is nan for degree 1 and more (unless all its knots agree), although both infinities are outside of the support.", "quantifier": "all sorted grids, degrees, indices, x", "why_tests_cant": "all degrees", "anchors": ["magpi/spline.py:_base_fun", "magpi/spline.py:basis"]}
{"id": "C74", "title": "B-spline basis is a partition of unity", "statement": "For a sorted grid t_0..t_(m-1) and degree k, the len(grid)-k-1 basis values add up to 1 for every x in [t_k, t_(m-1-k)), so a spline lies between its smallest and largest coefficient there.", "quantifier": "all sorted grids (repeated knots allowed), degrees, x", "why_tests_cant": "all degrees and grids", "anchors": ["magpi/spline.py:basis"]}
{"id": "C75", "title": "make_grid spans [start,stop] symmetrically and increases", "statement": "For power > 0, start < stop and num >= 2, make_grid has num nodes, is strictly increasing, begins at start, ends at stop and is symmetric about the centre.", "quantifier": "all start, stop, power, num", "why_tests_cant": "all parameters", "anchors": ["magpi/spline.py:make_grid"]}
{"id": "C76", "title": "SplineActivation starts as, and outside the grid stays, the base activation", "statement": "With zero coefficients, or for inputs outside the grid's range, SplineActivation(x) = activation(x); the output is affine in the coefficients.", "quantifier": "all inputs, grids, coefficients", "why_tests_cant": "all inputs", "anchors": ["magpi/spline.py:SplineActivation"]}
{"id": "C77", "title": "impose_dirichlet_bc is exact on the boundary", "statement": "Where the ADF is zero the constrained model returns exactly g (zero if g is omitted), whatever finite value the model has; argnums select the arguments passed to adf and g.", "quantifier": "all models, ADFs, g, arguments", "why_tests_cant": "universal over models", "anchors": ["magpi/model.py:impose_dirichlet_bc"]}
{"id": "C78", "title": "impose_ic is exact at t0 and decays to the model", "statement": "At t = t0 the constrained model returns exactly m0; for t >= t0 and decay_rate >= 0 it is a convex combination of m0 and the model; for decay_rate > 0 it tends to the model as t grows.", "quantifier": "all models, m0, times, rates", "why_tests_cant": "universal/limit", "anchors": ["magpi/model.py:impose_ic"]}
{"id": "C79", "title": "impose_neumann_bc is exact on the boundary", "statement": "Where adf = 0 and |grad adf| = 1 the derivative of the constrained model in the outward normal direction -grad adf equals h (zero if omitted).", "quantifier": "all smooth models, ADFs, h, boundary points", "why_tests_cant": "universal over models", "anchors": ["magpi/model.py:impose_neumann_bc"]}
{"id": "C80", "title": "MLP output shape", "statement": "An MLP built from layers [n0,..,nk] maps a vector of n0 features to a vector of nk entries, or to a scalar iff nk = 1, for every parameter setting.", "quantifier": "all layer lists", "why_tests_cant": "all layer lists", "anchors": ["magpi/model.py:MLP", "magpi/model.py:mlp"]}
{"id": "C81", "title": "laplace is the Laplacian", "statement": "laplace(f)(x) is the trace of the Hessian of f at x, equal to divergence(grad f)(x), for twice differentiable f on R^n.", "quantifier": "all C2 functions, points, n", "why_tests_cant": "universal over functions", "anchors": ["magpi/calc.py:laplace", "magpi/calc.py:hessian_diag", "magpi/calc.py:hvp", "magpi/calc.py:divergence"]}
{"id": "C82", "title": "curl grad = 0 and div curl = 0", "statement": "For C2 functions curl(grad f) = 0 in 2d and 3d and divergence(curl F) = 0 in 3d; any other dimension raises ValueError.", "quantifier": "all C2 functions", "why_tests_cant": "universal over functions", "anchors": ["magpi/calc.py:curl", "magpi/calc.py:curl2d", "magpi/calc.py:curl3d", "magpi/calc.py:divergence"]}
{"id": "C83", "title": "Iterated derivative operator", "statement": "derivative([i1,..,ik])(f) is the iterated partial derivative in the listed order, mixed partials of smooth functions do not depend on the order, and string names denote the argument of that name.", "quantifier": "all functions, index lists", "why_tests_cant": "all index lists", "anchors": ["magpi/calc.py:derivative", "magpi/calc.py:value_and_derivative"]}
{"id": "C84", "title": "Hessian vector products agree", "statement": "hvp, hvp_forward_over_reverse, hvp_reverse_over_reverse and the hvp of value_grad_hvp all return the same Hessian-vector product for C2 functions, linear and symmetric in the direction; alpha adds alpha times the direction.", "quantifier": "all C2 functions, points, directions", "why_tests_cant": "universal", "anchors": ["magpi/calc.py:hvp", "magpi/calc.py:hvp_forward_over_reverse", "magpi/calc.py:hvp_reverse_over_reverse", "magpi/calc.py:value_grad_hvp"]}
{"id": "C85", "title": "charge and source tensors match", "statement": "single_layer_potential(source_tensor(x,..,order=k), charge_tensor(f,..,order=k)) equals 1/(4 pi) times the sum over cells of the quadrature of (k-th Taylor polynomial of f about the cell midpoint)(y)/|x-y| times the area element; hence it is the quadrature of f(y)/|x-y| when f is a polynomial of degree <= k. This holds for charges that are numbers or vectors; for matrix valued charges the charge tensor is that of the transposed charge.", "quantifier": "all parametrisations, grids, orders, charges", "why_tests_cant": "all orders and grids; index bookkeeping", "anchors": ["magpi/surface_integral.py:source_tensor", "magpi/surface_integral.py:charge_tensor", "magpi/surface_integral.py:single_layer_potential", "magpi/surface_integral.py:integrate_surface_elements", "magpi/surface_integral.py:midpoints"]}
{"id": "C86", "title": "integrate_surface integrates the area element", "statement": "For a planar (affine) patch integrate_surface of a constant is the constant times the area of the patch; the result does not depend on the orientation of the parametrisation.", "quantifier": "all affine patches, grids, rules", "why_tests_cant": "continuum", "anchors": ["magpi/surface_integral.py:integrate_surface"]}
{"id": "C87", "title": "normalized and un-normalized charges agree", "statement": "On the boundary (adf = 0, |grad adf| = 1) scalar_potential_charge(adf,m,phi,normalized=True) equals scalar_potential_charge(adf,m,adf*phi) and likewise for vector_potential_charge.", "quantifier": "all smooth ADFs, m, phi, boundary points", "why_tests_cant": "universal over functions", "anchors": ["magpi/surface_integral.py:scalar_potential_charge", "magpi/surface_integral.py:vector_potential_charge"]}
{"id": "C88", "title": "make_funs_with_aux normalises all calling conventions", "statement": "Whatever combination of value_and_grad/has_aux the user's function has, the derived function returns ((value,aux),grad) with the user's value, aux (None if absent) and gradient.", "quantifier": "all functions, all four conventions", "why_tests_cant": "universal over functions", "anchors": ["magpi/utils.py:make_funs_with_aux"]}
{"id": "C89", "title": "Tree helpers", "statement": "tree_single_dtype returns the common dtype, None for no arrays, and raises ValueError iff two dtypes differ; tree_dim returns the common size or raises; tree_size is the total number of entries.", "quantifier": "all trees", "why_tests_cant": "all trees", "anchors": ["magpi/utils.py:tree_single_dtype", "magpi/utils.py:tree_dim", "magpi/tr.py:tree_size"]}
{"id": "C90", "title": "cayley_rotation is a rotation (examples/mumag3.py)", "statement": "For every p the matrix I - Q(p) is invertible and x -> cayley_rotation(p,x) is the rotation about p by the angle 2 arctan |p|: it keeps inner products, norms and cross products and fixes p.", "quantifier": "all p, x", "why_tests_cant": "continuum", "anchors": ["examples/mumag3.py:cayley_rotation", "examples/mumag3.py:to_skew_simmetric_matrix"]}
{"id": "C91", "title": "curl has the right-handed orientation", "statement": "For a differentiable field F in three dimensions the inner product of curl F with the cross product v x w equals <DF v, w> - <DF w, v> for all v, w; in two dimensions the same holds with the determinant of (v, w).", "quantifier": "all differentiable fields, points, directions", "why_tests_cant": "universal over functions and directions; sign and index order", "anchors": ["magpi/calc.py:curl", "magpi/calc.py:curl2d", "magpi/calc.py:curl3d"]}
{"id": "C92", "title": "divergence is the trace of the Jacobian", "statement": "divergence(f) is the trace of the derivative of f, in whatever basis that trace is computed; for batched values the trace is taken row by row, and for a scalar-valued f the sum of the partial derivatives is silently returned.", "quantifier": "all differentiable functions", "why_tests_cant": "universal over functions", "anchors": ["magpi/calc.py:divergence", "magpi/calc.py:value_and_divergence"]}
{"id": "C93", "title": "curl_single_layer_potential is the curl of the vector potential", "statement": "With the derivative returned by source_tensor, curl_single_layer_potential(dS, q) equals the curl (with calc.curl's sign convention) of x -> single_layer_potential(S(x), q), for every vector charge tensor q and every target point that is not a quadrature node.", "quantifier": "all parametrisations, grids, orders, charge tensors, target points off the nodes", "why_tests_cant": "universal over functions; sign convention", "anchors": ["magpi/surface_integral.py:curl_single_layer_potential", "magpi/surface_integral.py:source_tensor"]}
{"id": "C94", "title": "Cuboid of mumag3: construction, normalisation, ADF, normal", "statement": "Cuboid(xs,ys,zs) exists exactly if every grid has at least two entries in ascending order, otherwise an AssertionError is raised. If its sides have positive length, normalize maps it one-to-one onto [-1,1]^3 (increasing in every coordinate), adf is positive inside, zero on the boundary, negative outside, and normal_vec is the outward unit normal on the open sides. (Grids whose entries are all equal are accepted, then normalize gives nan or inf.)", "quantifier": "all grids, all points", "why_tests_cant": "continuum, all grids", "anchors": ["examples/mumag3.py:Cuboid", "examples/mumag3.py:normalize", "examples/mumag3.py:adf", "examples/mumag3.py:normal_vec"]}
{"id": "C95", "title": "The faces tile the boundary of the cuboid", "statement": "The cells of the six faces cover exactly the topological boundary of the cuboid, a point in the interior of a cell lies in no other cell, and midpoints[i][j] is the centre of the cell (i, j).", "quantifier": "all grids, all points", "why_tests_cant": "continuum, all grids", "anchors": ["examples/mumag3.py:_faces", "examples/mumag3.py:_midpoints", "examples/mumag3.py:Face"]}
{"id": "C96", "title": "single_layer_potential of the cuboid", "statement": "single_layer_potential(domain, f)(x) equals 1/(4 pi) times the sum over all cells of all six sides of the quadrature of (second Taylor polynomial of f about the centre of the cell)(y)/|x-y|; it is the quadrature of f(y)/|x-y| if f is a polynomial of degree <= 2.", "quantifier": "all grids, C2 charges, rules, numbers of subintervals, target points", "why_tests_cant": "all grids, universal over functions; index bookkeeping between the coefficients of the charge and the tensors", "anchors": ["examples/mumag3.py:charge_taylor_coefs2", "examples/mumag3.py:_integrand", "examples/mumag3.py:integrate_face", "examples/mumag3.py:surface_tensors", "examples/mumag3.py:solve_sufrace_integral", "examples/mumag3.py:single_layer_potential"]}
{"id": "C97", "title": "The default number of subintervals raises", "statement": "surface_integral and single_layer_potential of mumag3 with their default subintervals=(1,1,1) raise a TypeError for every cuboid, charge and target point.", "quantifier": "all cuboids, charges, target points", "why_tests_cant": "the claim is about all inputs", "anchors": ["examples/mumag3.py:single_layer_potential", "examples/mumag3.py:surface_integral", "examples/mumag3.py:integrate_face"]}
{"id": "C98", "title": "The first potential of the stray field solver", "statement": "Given a thin singular value decomposition of Q_phi1 without zero singular values and collocation points inside the cuboid, phi1 minimises the sum of squares of (Laplacian of phi - div m) over the collocation points among all combinations of the ansatz functions (the ADF of the cuboid times tanh(W y + b), y the point moved to [-1,1]^3), with minimal coefficients; with as many singular values as points the equation holds exactly there. phi1 vanishes on the boundary, and on the open sides with outward unit normal n the charge g equals m.n - d phi1/dn.", "quantifier": "all cuboids, weights, collocation points, magnetisations", "why_tests_cant": "continuum, universal over functions; sign conventions", "anchors": ["examples/mumag3.py:create_stray_field_solver", "examples/mumag3.py:solve_stray_field"]}
{"id": "C99", "title": "Stray field with and without precomputed tensors", "statement": "At every point inside the cuboid, and every other point that is not a quadrature node where phi1 is differentiable, the field hs(x) equals minus the gradient of phi1 + phi2, and the variant with the derivatives returned by surface_tensors_grad returns the same field.", "quantifier": "all cuboids, weights, rules, magnetisations, points", "why_tests_cant": "continuum, universal over functions", "anchors": ["examples/mumag3.py:create_stray_field_solver", "examples/mumag3.py:surface_tensors_grad", "examples/mumag3.py:solve_sufrace_integral"]}
{"id": "C100", "title": "What an MLP computes", "statement": "An MLP with real parameters and an activation with real values computes the composition of the hidden layers z -> sigma(z W + b), in order, followed by the output layer z -> z W + b without activation; the value is a number if the output layer has one neuron.", "quantifier": "all numbers of layers, all widths, parameters, activations, inputs", "why_tests_cant": "all networks; order of layers, missing or additional activation", "anchors": ["magpi/model.py:MLP", "magpi/model.py:mlp"]}
{"id": "C101", "title": "Steihaug solves the Newton equation", "statement": "With a linear Hessian-vector product H: if the step p of steihaug does not reach the boundary of the region, norm_r is the norm of the residual g + H p, and converged is reported exactly if that norm is below eps. For symmetric positive definite H whose Newton step q = -H^-1 g lies inside the region, the step does not touch the boundary, is not longer than q and satisfies |g + H p| < eps.", "quantifier": "all gradients, linear Hessians, radii, tolerances, iteration limits (>= dim for the second part)", "why_tests_cant": "universal over matrices of any size; monotonicity of the norms of the iterates cannot be tested exhaustively", "anchors": ["magpi/tr.py:steihaug"]}
{"id": "C102", "title": "Quadratic objectives: the model is exact", "statement": "For a quadratic objective (convex or not), with exact Hessian-vector products or with finite differences of any non-zero increment, and with or without damping: as long as the gradient norm is at least tol and the radius above its minimum, every update has the ratio rho = 1, is accepted (rho_accept <= 1) and does not reduce the radius (rho_decrease <= 1).", "quantifier": "all quadratic functions, starting points, configurations", "why_tests_cant": "universal over objectives and runs", "anchors": ["magpi/tr.py:TR.update", "magpi/tr.py:update_tr_radius"]}
{"id": "C103", "title": "Error of finite difference Hessian-vector products", "statement": "If the Hessian is Lipschitz continuous with constant L, the Hessian-vector product used with approx_hvp=True differs from the exact one by at most L/2 |fd_h| |p|^2.", "quantifier": "all objectives with Lipschitz continuous Hessian, points, directions, increments", "why_tests_cant": "universal over functions", "anchors": ["magpi/tr.py:TR.update"]}
{"id": "C104", "title": "includes decides membership", "statement": "Hypercube.includes is true in all coordinates exactly for points of the closed box, Sphere.includes and Disk.includes exactly for points of the open ball; nan coordinates are never included. The Cuboid of mumag3 includes exactly the points of the box spanned by the ends of its grids, its support is the volume of that box, its transform is uniform on it and its transform_bnd lands on its boundary, and both map all samples as the Hypercube with these corners.", "quantifier": "all domains, all points, all grids", "why_tests_cant": "continuum; open and closed conventions differ", "anchors": ["magpi/domain.py:Hypercube.includes", "magpi/domain.py:_Spherical.includes", "examples/mumag3.py:Cuboid"]}
{"id": "C105", "title": "Boundary transforms are uniform", "statement": "With uniform samples of the unit cube, transform_bnd of Sphere and Disk has the uniform distribution on the sphere or circle (although Disk.transform_bnd winds around twice); transform_bnd of a Hypercube in any dimension >= 2 is in a measurable set A with the probability area of A on the faces / surface area of the box; in dimension 1 each end has probability 1/2.", "quantifier": "all radii, centres, boxes of every dimension, measurable sets", "why_tests_cant": "a distribution, over the continuum and all measurable sets", "anchors": ["magpi/domain.py:transform_sphere_bnd", "magpi/domain.py:transform_circle_bnd", "magpi/domain.py:transform_hypercube_bnd"]}
{"id": "C106", "title": "Samples on polylines and parallelograms are uniform", "statement": "With uniform samples of the unit interval, transform_polyline is in a measurable set A with the probability (length of the part of the polyline in A) / (length of the polyline), for polylines of positive length with zero-length segments allowed; Parallelogram.transform_bnd likewise on its polyline. With uniform samples of the unit square, Parallelogram.transform in the plane is in A with the probability (area of the parallelogram in A) / support().", "quantifier": "all polylines, parallelograms, measurable sets", "why_tests_cant": "a distribution, over the continuum and all measurable sets", "anchors": ["magpi/domain.py:transform_polyline", "magpi/domain.py:Parallelogram.transform_bnd", "magpi/domain.py:Parallelogram.transform"]}
{"id": "C107", "title": "Error bounds of the midpoint, trapezoidal and Simpson rule", "statement": "On every grid with strictly increasing (not necessarily equidistant) nodes and cells of length at most h, the error of the rule against the integral is at most M/24 h^2 (b-a) for midpoint and M/12 h^2 (b-a) for trap, with M a bound of the second derivative, and M/2880 h^4 (b-a) for simpson, with M a bound of the fourth derivative; vector valued integrands included; the constants cannot be improved.", "quantifier": "all grids, all twice (four times) differentiable integrands with values in a Banach space", "why_tests_cant": "a bound over all grids and integrands, with sharp constants", "anchors": ["magpi/integrate.py:midpoint", "magpi/integrate.py:trap", "magpi/integrate.py:simpson"]}
{"id": "C108", "title": "Error of the Gauss rules, convergence of all rules in one dimension", "statement": "If the base rule is exact for polynomials of degree at most D, the error of gauss on every grid with cells of length at most h is at most 2M/(D+1)! h^(D+1) (b-a), M a bound of the derivative of order D+1. For every continuous integrand the values of midpoint, trap, simpson and gauss converge to the integral when the cells shrink.", "quantifier": "all grids, base rules, integrands", "why_tests_cant": "a limit statement over all grids and continuous integrands", "anchors": ["magpi/integrate.py:gauss", "magpi/integrate.py:midpoint", "magpi/integrate.py:trap", "magpi/integrate.py:simpson"]}
{"id": "C109", "title": "integrate on several grids converges to the integral over the box", "statement": "For every continuous function on a box, in any number of dimensions, integrate with one grid per dimension converges to the Lebesgue integral over the box when the cells of the grids shrink, for midpoint, trap, simpson and gauss.", "quantifier": "all dimensions, boxes, continuous integrands, families of grids", "why_tests_cant": "a limit statement in arbitrary dimension", "anchors": ["magpi/integrate.py:integrate", "magpi/integrate.py:gauss", "magpi/integrate.py:midpoint", "magpi/integrate.py:trap", "magpi/integrate.py:simpson"]}
{"id": "C110", "title": "integrate_disk and integrate_sphere converge to the integrals over disk and ball", "statement": "For 0 <= r_inner < r, phi2 - phi1 at most 2 pi (for the ball: [phi1, phi2] in [0, pi], theta2 - theta1 at most 2 pi) and an integrand which is continuous on the annular sector (part of the ball), the values of integrate_disk (integrate_sphere) converge to the Lebesgue integral over it when the numbers of nodes grow, with midpoint, trap, simpson and gauss; with the default arguments the region is the whole disk (ball).", "quantifier": "all centres, radii, angles, continuous integrands", "why_tests_cant": "a limit statement; change of variables over the continuum", "anchors": ["magpi/integrate.py:integrate_disk", "magpi/integrate.py:integrate_sphere"]}
{"id": "C111", "title": "Surface integrals converge, surface elements add up", "statement": "For a continuously differentiable parametrisation and a function which is continuous on the surface, integrate_surface converges to the surface integral when the grids are refined, for midpoint, trap, simpson and gauss. The values of integrate_surface_elements add up to the value of integrate_surface.", "quantifier": "all surfaces, rectangles, continuous functions, families of grids", "why_tests_cant": "a limit statement over the continuum", "anchors": ["magpi/surface_integral.py:integrate_surface", "magpi/surface_integral.py:integrate_surface_elements"]}
{"id": "C112", "title": "The single layer potential converges", "statement": "At every point x off the surface, single_layer_potential(source_tensor, charge_tensor) converges to 1/(4 pi) times the integral of f(y)/|x-y| over the surface when the grids are refined, for every order of the expansion, charges which are order+1 times continuously differentiable and continuously differentiable surfaces; the part of the error due to the Taylor expansion is at most C h^(order+1) on grids with cells of size at most h.", "quantifier": "all surfaces, charges, orders, points off the surface, families of grids", "why_tests_cant": "a limit statement over the continuum", "anchors": ["magpi/surface_integral.py:source_tensor", "magpi/surface_integral.py:charge_tensor", "magpi/surface_integral.py:single_layer_potential"]}
{"id": "C113", "title": "odeint converges for non-linear, non-autonomous systems", "statement": "Let f be continuously differentiable and Y a solution of y' = f(y,t) on [t0,T] in finite dimension. Then there are C and h0 > 0 such that on every time grid of [t0,T] with steps at most h <= h0, all values of odeint started in Y(t0), with explicit_euler or rk4, differ from Y at most by C h. The order one is sharp for explicit_euler; rk4 has order one only in general for time dependent right hand sides, because odeint evaluates f at the end point of the step.", "quantifier": "all right hand sides, solutions, time grids", "why_tests_cant": "a limit statement for all differential equations and all grids", "anchors": ["magpi/ode.py:odeint", "magpi/ode.py:explicit_euler", "magpi/ode.py:rk4"]}
{"id": "C114", "title": "rk4 has order four for autonomous systems", "statement": "Let f be four times continuously differentiable on a finite dimensional space and Y a solution of y' = f(y) on [t0,T]. Then there are C and h0 > 0 such that on every time grid of [t0,T], uniform or not, with steps at most h <= h0, all values of odeint with rk4 started in Y(t0) differ from Y at most by C h^4.", "quantifier": "all autonomous right hand sides, solutions, time grids", "why_tests_cant": "a limit statement; the order conditions are identities between elementary differentials of arbitrary functions", "anchors": ["magpi/ode.py:rk4", "magpi/ode.py:odeint"]}
{"id": "C115", "title": "The trust region method reaches the gradient tolerance", "statement": "Let the objective be bounded below with Lipschitz continuous gradient (constant L) and Hessian products bounded by beta. If min_tr_radius lies below the start radius and below decrease_factor*tol*min((1-rho_decrease)/(L+beta), 1/(beta+damping)), then as long as the gradient norm exceeds tol the radius never falls to min_tr_radius (so the solver never gets stuck), and within an explicit number of updates an iterate with gradient norm at most tol is reached and reported in the state.", "quantifier": "all objectives, configurations accepted by the constructor with the stated bounds, start points, warm starts", "why_tests_cant": "a global convergence statement over all objectives", "anchors": ["magpi/tr.py:TR.update", "magpi/tr.py:update_tr_radius", "magpi/tr.py:steihaug"]}
{"id": "C116", "title": "Splines reproduce polynomials", "statement": "Between the knots t_k and t_(m-1-k) Marsden's identity holds for the basis of degree k, the averages of the inner knots reproduce the identity, and every polynomial of degree at most k is a spline with coefficients which depend only on the grid.", "quantifier": "all non-decreasing grids, degrees, points, polynomials", "why_tests_cant": "continuum of points, all degrees", "anchors": ["magpi/spline.py:basis", "magpi/spline.py:_base_fun"]}
{"id": "C117", "title": "Splines and spline activations are smooth", "statement": "On strictly increasing grids the basis functions of degree k+1 are k times continuously differentiable on the whole line, their derivative is the difference quotient of two basis functions of one degree less, and SplineActivation of degree k+1 with a C^k activation function is C^k; in particular the default layer is C^2.", "quantifier": "all grids, degrees, coefficients", "why_tests_cant": "smoothness is a statement about a continuum", "anchors": ["magpi/spline.py:basis", "magpi/spline.py:_base_fun", "magpi/spline.py:SplineActivation", "magpi/spline.py:make_grid"]}
{"id": "C118", "title": "Smoothness of the R-function systems", "statement": "RAlpha(alpha) with alpha < 1 and RP(p), p > 0, are analytic in every point but the origin and not differentiable at the origin (so the comment that rp4 is analytic everywhere is wrong); RAlpha(1) is not differentiable exactly on the diagonal; RAlphaM with m > 0 is differentiable at the origin with derivative zero; RhoBlending with rho > 0 is continuously differentiable everywhere and analytic off the circle of radius rho.", "quantifier": "all admissible parameters, all points of the plane", "why_tests_cant": "smoothness is a statement about a continuum", "anchors": ["magpi/r_fun.py:RAlpha", "magpi/r_fun.py:RAlphaM", "magpi/r_fun.py:RP", "magpi/r_fun.py:RhoBlending"]}
{"id": "C119", "title": "Construction, equality and tree round trips of quaternions", "statement": "The Quaternion constructor accepts exactly a number and a vector of three entries of the same floating point type (everything else raises), equality compares all four entries, flattening and unflattening gives back the same object, and vmap over a function returning quaternions always raises because unflattening runs the checks on batched entries.", "quantifier": "all arrays of all shapes and types", "why_tests_cant": "all shapes and types", "anchors": ["magpi/quaternions.py:Quaternion"]}
{"id": "C120", "title": "Construction and sampling of disks, spheres and annuli", "statement": "The constructors accept exactly the arguments passing their checks; an origin of the wrong length is accepted but every sampling call on the object raises; for accepted origins of the right length the methods agree with the dimension-typed model; negative radii are accepted and give a negative support for spheres.", "quantifier": "all arrays of all shapes", "why_tests_cant": "all shapes", "anchors": ["magpi/domain.py:Sphere", "magpi/domain.py:Disk", "magpi/domain.py:Annulus"]}
{"id": "C121", "title": "The run loop of the trust region solver", "statement": "For every objective, run returns the state after k updates with 1 <= k <= maxiter (the start if maxiter is 0); the error exceeded tol after every earlier update, and at the end it does not unless the iterations are used up; the reported error is the norm of optimality_fun at the returned point. An error that is not a number ends the run silently. Under the smoothness assumptions of C115 and with maxiter above an explicit number the returned point has gradient norm at most tol.", "quantifier": "all objectives, start points, warm starts, configurations", "why_tests_cant": "a global convergence statement over all objectives", "anchors": ["magpi/tr.py:TR", "magpi/tr.py:TR.update", "magpi/tr.py:TR.optimality_fun"]}
{"id": "C122", "title": "Forward and reverse mode Jacobians agree", "statement": "value_and_jacrev returns the value and the matrix of partial derivatives, entry (i, j) being the derivative of entry i with respect to argument j; it agrees with value_and_jacfwd; with has_aux the auxiliary output at the same point is passed through and the Jacobian is that of the value alone.", "quantifier": "all differentiable functions between all dimensions", "why_tests_cant": "all functions", "anchors": ["magpi/calc.py:value_and_jacrev", "magpi/calc.py:value_and_jacfwd"]}
{"id": "C123", "title": "Differential operators applied to modules", "statement": "laplace, divergence and curl of a module differentiate with respect to the input with parameters fixed. derivative and value_and_derivative of a module return a function that raises TypeError whenever it is called with input and parameters, since zeros_like does not accept trees; with parameters passed by keyword it is the derivative in the direction of all ones. An explicit direction gives the directional derivative.", "quantifier": "all modules, parameters, inputs", "why_tests_cant": "all modules", "anchors": ["magpi/calc.py:apply_to_module", "magpi/calc.py:value_and_derivative", "magpi/calc.py:laplace", "magpi/calc.py:value_and_divergence", "magpi/calc.py:curl"]}
{"id": "C124", "title": "The checks and the batches of curl", "statement": "is_2d and is_3d accept exactly the trees of arrays whose last axes have length 2 or 3 and raise IndexError exactly if a number is among the values; for batched values curl is the curl of each row.", "quantifier": "all trees of shapes, all differentiable batched fields", "why_tests_cant": "all shapes and fields", "anchors": ["magpi/calc.py:is_2d", "magpi/calc.py:is_3d", "magpi/calc.py:curl2d", "magpi/calc.py:curl3d"]}
{"id": "C125", "title": "Unit vectors", "statement": "unit_vec of a non-zero vector is the vector of length one in the same direction, invariant under positive scaling; unit_vec of zero is nan in every entry; batches are treated row by row.", "quantifier": "all vectors of all dimensions", "why_tests_cant": "all vectors", "anchors": ["examples/mumag3.py:unit_vec"]}
{"id": "C126", "title": "Rotations built from an axis and an angle", "statement": "from_axis_angle followed by rotate3d turns every vector by the given angle about the given axis (Rodrigues' formula) whenever the axis has length one; for an axis of any other positive length the result is still a rotation about the same axis, but by a different angle unless the angle is a multiple of a half turn; a zero axis gives the identity or nan.", "quantifier": "all axes, angles and vectors", "why_tests_cant": "a statement over all axes and angles", "anchors": ["magpi/quaternions.py:from_axis_angle", "magpi/quaternions.py:quaternion_rotation", "magpi/r_fun.py:rotate3d"]}
{"id": "C127", "title": "The computed potentials are harmonic and the fields solenoidal", "statement": "The single layer potential computed from the source tensor is harmonic at every point that is not a quadrature node, the field computed from curl_single_layer_potential is divergence free there, and the second potential of the stray field solver is harmonic off its nodes; hence inside the cuboid the divergence of the computed stray field is minus the Laplacian of phi1, and at the collocation points the computed field and the magnetization satisfy div(h + m) = 0.", "quantifier": "all parametrisations, grids, quadrature rules, charges, magnetizations and points off the nodes", "why_tests_cant": "a pointwise differential equation at a continuum of points", "anchors": ["magpi/surface_integral.py:single_layer_potential", "magpi/surface_integral.py:curl_single_layer_potential", "magpi/surface_integral.py:source_tensor", "examples/mumag3.py:single_layer_potential", "examples/mumag3.py:create_stray_field_solver"]}
{"id": "C128", "title": "Transformations carry gradients along and compose", "statement": "If an ADF has gradient u at x, then the ADF transformed by rotate2d (float angle), rotate3d (unit axis or Euler angles) or reflect has at the image of x the image of u, of the same length, so transformations keep normalisation; project keeps the part of u orthogonal to the direction, revolution keeps the length of the gradient off the axis. Rotations about a common point or axis add up, two reflections of the plane are a rotation by twice the angle between the normals, a revolved disk is the ball, a projected ball is the cylinder, and scaling commutes with the R-alpha and R-p set operations (with union and intersection exchanged for negative factors).", "quantifier": "all ADFs, points, angles, axes, normals and scaling factors", "why_tests_cant": "statements about gradients and all points", "anchors": ["magpi/r_fun.py:rotate2d", "magpi/r_fun.py:rotate3d", "magpi/r_fun.py:reflect", "magpi/r_fun.py:project", "magpi/r_fun.py:revolution", "magpi/r_fun.py:scale"]}
{"id": "C129", "title": "Constraints stacked on each other", "statement": "impose_ic around impose_dirichlet_bc satisfies the boundary condition exactly where initial and boundary value agree; impose_dirichlet_bc around impose_ic satisfies the initial condition exactly where g = (1 - adf) m0; of two stacked Dirichlet conditions the outer one holds and the inner boundary value is scaled by the outer ADF and shifted; impose_neumann_bc around impose_dirichlet_bc with the same normalised ADF satisfies both conditions. Every function with the right boundary values is of the form produced by impose_dirichlet_bc.", "quantifier": "all ADFs, boundary and initial functions, models, arguments and argument positions", "why_tests_cant": "statements about all models and all points of a boundary", "anchors": ["magpi/model.py:impose_ic", "magpi/model.py:impose_dirichlet_bc", "magpi/model.py:impose_neumann_bc"]}
{"id": "C130", "title": "Convergence of the potential of the cuboid", "statement": "Off the surface of the cuboid, single_layer_potential of mumag3.py converges to the single layer potential over the six sides when the grids of the cuboid are refined, for every number of subintervals and each of the quadrature rules, although the charge is expanded about the centres of the cells and only with derivatives in the plane of the side. With the normals of normal_vec the charge of a magnetisation m converges to the potential of the charges -m_k on the lower and +m_k on the upper sides.", "quantifier": "all boxes, fine grids (also non-uniform), subintervals >= 1, charges which are three times continuously differentiable on every side, and points off the surface", "why_tests_cant": "a limit over grids for all charges", "anchors": ["examples/mumag3.py:single_layer_potential", "examples/mumag3.py:integrate_surface", "examples/mumag3.py:charge_taylor_coefs2"]}
{"id": "C131", "title": "Convergence of the derivatives of single layer potentials", "statement": "Off the surface the single layer potential is differentiable under the integral. The derivatives of the potentials computed from source_tensor and charge_tensor converge to its derivative when the grids are refined, and curl_single_layer_potential converges to the curl of the vector valued potential, for every order of the expansion of the charge and each of the quadrature rules.", "quantifier": "all continuously differentiable surfaces, smooth charges with values in Banach spaces, orders, fine grids and points off the surface", "why_tests_cant": "limits of derivatives over grids for all charges", "anchors": ["magpi/surface_integral.py:source_tensor", "magpi/surface_integral.py:charge_tensor", "magpi/surface_integral.py:single_layer_potential", "magpi/surface_integral.py:curl_single_layer_potential"]}
{"id": "C132", "title": "Convergence of the stray field of the cuboid", "statement": "Off the surface of the cuboid the derivatives of single_layer_potential of mumag3.py converge to those of the exact potential over the six sides. In the interior the stray field of create_stray_field_solver, with and without precomputed tensors, converges to minus the gradient of phi1 plus the exact potential of the charges m.n + phi1_without_adf when the surface grid is refined.", "quantifier": "all boxes, fine grids, magnetisations which are three times continuously differentiable, extreme learning machines, subintervals >= 1, interior points", "why_tests_cant": "a limit of derivatives over grids for all magnetisations", "anchors": ["examples/mumag3.py:create_stray_field_solver", "examples/mumag3.py:surface_tensors_grad", "examples/mumag3.py:single_layer_potential"]}
{"id": "C133", "title": "Order four for dynamics which depend on time", "statement": "odeint hands the end of the step to the method, so rk4 is not of order four for dynamics which depend on time (C53). With the time as a further entry of the state odeint follows the time stamps exactly and has order four along every solution of every smooth system; the other entries are those of the method whose evaluations start at the start of the step.", "quantifier": "all four times continuously differentiable dynamics f(y, t), solutions, fine grids", "why_tests_cant": "limits over grids for all systems", "anchors": ["magpi/ode.py:odeint", "magpi/ode.py:rk4"]}
{"id": "C134", "title": "The rotations of the code are all rotations", "statement": "The maps of quaternion_rotation are exactly the rotations of the space, two quaternions give the same rotation exactly if they differ by a real factor; every rotation has an axis and an angle for from_axis_angle and angles for from_euler_angles. The maps of cayley_rotation are exactly the rotations whose trace is not -1, with a unique parameter, and from a unit vector m0 they reach exactly the unit vectors other than -m0.", "quantifier": "all quaternions, rotation matrices, parameters and unit vectors", "why_tests_cant": "surjectivity onto a group", "anchors": ["magpi/quaternions.py:quaternion_rotation", "magpi/quaternions.py:from_axis_angle", "magpi/quaternions.py:from_euler_angles", "examples/mumag3.py:cayley_rotation"]}
{"id": "C135", "title": "The spline determines its coefficients", "statement": "On a strictly increasing grid the basis functions are positive in the interior of their support, and splines which agree between the first and the last knot have the same coefficients; different coefficients of SplineActivation give different functions.", "quantifier": "all strictly increasing grids, degrees, coefficients", "why_tests_cant": "linear independence of functions on intervals", "anchors": ["magpi/spline.py:basis", "magpi/spline.py:SplineActivation"]}
{"id": "C136", "title": "Types and shapes of the arguments of the quaternion functions", "statement": "quaternion_rotation accepts triples of every type; quaternion_reflection accepts two triples exactly if the first has the type of the normalised second one, so triples of integers are rejected; from_axis_angle with a Python number as angle accepts exactly axes of the default type and axes which are not of floating point type; from_euler_angles does not reject more than three angles; exp, log and powers of integer quaternions raise ValueError.", "quantifier": "all arrays of all types and shapes", "why_tests_cant": "all shapes and types of arguments", "anchors": ["magpi/quaternions.py:quaternion_rotation", "magpi/quaternions.py:quaternion_reflection", "magpi/quaternions.py:from_euler_angles", "magpi/quaternions.py:from_axis_angle", "magpi/quaternions.py:quanternion_exp", "magpi/quaternions.py:quanternion_log", "magpi/quaternions.py:sgn"]}
{"id": "C137", "title": "Shapes of the results of the samplers", "statement": "transform_hypercube_bnd, transform_polyline and the methods of Parallelogram keep the axes of a batch, map every row of a batch like a single sample, map a number (in two dimensions) to a point, and reject every other length of the last axis; transform_hypercube_bnd in one dimension rejects nothing. transform_circle_bnd drops every axis of length one, so a batch with one sample gives one point.", "quantifier": "all arrays of all shapes, all bounds, lines and parallelograms", "why_tests_cant": "all shapes of arguments", "anchors": ["magpi/domain.py:transform_hypercube_bnd", "magpi/domain.py:transform_circle_bnd", "magpi/domain.py:transform_polyline", "magpi/domain.py:Parallelogram"]}
{"id": "C138", "title": "R-functions in floating point arithmetic", "statement": "With every operation rounded to nearest even, the conjunction and the disjunction of RAlpha(0) keep the weak sign law (the conjunction is not negative if both arguments are not negative and not positive if one of them is not positive; dually for the disjunction) and have an error of at most six units of rounding times the sum of the absolute values, as long as the squares of the arguments neither overflow nor underflow. The strict sign is lost for arguments of very different size, the sign is wrong if the squares underflow, and RAlpha(1), which is min and max without rounding, may return nan.", "quantifier": "all formats with at least four digits, all pairs of numbers of the format with squares in the normal range", "why_tests_cant": "all floating point numbers of all formats", "anchors": ["magpi/r_fun.py:RAlpha"]}
{"id": "C139", "title": "Samples of boxes in floating point arithmetic", "statement": "With every operation rounded, transform_hypercube maps every coordinate in [0, 1), and every coordinate above one after wrapping, into [lb, ub], and zero to lb. The coordinate one is mapped to ub if lb is zero, but may be mapped outside of the box otherwise. The wrapping x % 1.0 gives numbers in [0, 1) for nonnegative x, for small negative x it gives one.", "quantifier": "all formats, all bounds without overflow, all coordinates", "why_tests_cant": "all floating point numbers of all formats", "anchors": ["magpi/domain.py:transform_hypercube"]}
{"id": "C140", "title": "Trees of set operations in floating point arithmetic", "statement": "With every operation rounded to nearest even, an ADF built from leaves with unions, intersections, differences, complements, implications and equivalences of r0 never has the wrong sign: its value is zero or has the sign which three-valued logic computes from the signs of the leaves. A point with a positive value belongs to the set, a point with a negative value does not, if no leaf vanishes. This holds as long as the leaves stay away from overflow and underflow, with a margin which grows linearly with the depth of the tree.", "quantifier": "all formats with at least four digits, all trees, all leaves, all points with leaves in the range", "why_tests_cant": "all trees of all depths and all floating point numbers", "anchors": ["magpi/r_fun.py:RFun", "magpi/r_fun.py:RAlpha"]}
{"id": "C141", "title": "Spline activations approximate every continuous function", "statement": "For every degree, every spacing of the grid and every continuous activation, every continuous function on an interval inside of the nodes is approximated to any accuracy by SplineActivation with enough nodes. If every coefficient is a value of the function at a point of the support of its basis function, the error is at most the variation of the function over the length of a support; with the averages of the inner knots as points it is at most half of the bound of the second derivative times the square of this length.", "quantifier": "all continuous functions, all intervals inside of the nodes, all degrees, all spacings, all accuracies", "why_tests_cant": "all functions and an unbounded number of nodes", "anchors": ["magpi/spline.py:SplineActivation", "magpi/spline.py:basis", "magpi/spline.py:make_grid"]}
{"id": "C142", "title": "Perceptrons are smooth and stable", "statement": "If the activation is r times continuously differentiable, the output of MLP depends r times continuously differentiably on the input and on the parameters, and tanh, the default, is smooth. If the activation has the Lipschitz constant L (one for tanh), changing no input by more than d changes no output by more than L^k times the product of the largest sums of the absolute weights into a neuron times d.", "quantifier": "all numbers and widths of layers, all activations, all parameters, all inputs", "why_tests_cant": "all networks and all inputs", "anchors": ["magpi/model.py:MLP"]}
{"id": "C143", "title": "Perceptrons approximate every continuous function", "statement": "Every continuous function with values in R^p on a compact subset of R^d is approximated uniformly to any accuracy by MLP([n, p]) with the default activation tanh, for some n and some parameters.", "quantifier": "all dimensions, all compact sets, all continuous functions, all accuracies", "why_tests_cant": "all continuous functions and networks of all widths", "anchors": ["magpi/model.py:MLP"]}
{"id": "C144", "title": "Hard constraints lose no generality", "statement": "Every continuous function which satisfies the Dirichlet condition (equals g where the ADF vanishes) on a compact set is approximated uniformly to any accuracy by impose_dirichlet_bc applied to a perceptron, and the approximation is exact where the ADF vanishes. The same holds for impose_ic and functions which satisfy the initial condition, for every decay rate which is not zero.", "quantifier": "all compact sets, all continuous ADFs and data, all continuous functions with the condition, all accuracies", "why_tests_cant": "all continuous functions and networks of all widths", "anchors": ["magpi/model.py:impose_dirichlet_bc", "magpi/model.py:impose_ic", "magpi/model.py:MLP"]}
{"id": "C145", "title": "The sub-problem is solved optimally in Krylov spaces, at a rate given by the condition number", "statement": "For a symmetric Hessian, definite or not, the step of steihaug lies in the Krylov space spanned by g, H g, ..., H^(k-1) g, k the number of iterations, and minimises the quadratic model over this space unless it reaches the boundary of the trust region. If the eigenvalues lie between l > 0 and b, k+1 iterations happen only if eps^2 <= b/l (1 - l/b)^k |g|^2, whatever the dimension.", "quantifier": "all dimensions, symmetric Hessians, gradients, radii, tolerances, iteration limits", "why_tests_cant": "all symmetric operators of all dimensions", "anchors": ["magpi/tr.py:steihaug"]}
{"id": "C146", "title": "Fast local convergence of the trust region method", "statement": "Near a stationary point with positive definite Lipschitz continuous Hessian, where the gradient is at least tol and small compared with the radius, every step is accepted, the radius does not shrink and the new gradient norm is at most max(tol, min(1/2, |g|^forcing_parameter) |g|) + damping/l |g| + M/(2 l^2) |g|^2. Hence the gradient norm falls by the factor 3/4 at least in each step until it is below twice the tolerance, and the iterates stay within |g|/l of the stationary point.", "quantifier": "all objectives with such a point, all configurations, all runs", "why_tests_cant": "all objectives and runs of all lengths", "anchors": ["magpi/tr.py:TR.update", "magpi/tr.py:steihaug", "magpi/tr.py:update_tr_radius"]}
{"id": "C147", "title": "Samples of rejection sampling are independent", "statement": "If the uniform numbers and the candidates of all streams are independent and uniform, the samples which rejection_sampling returns are independent, each with density proportional to the given function: the probability that sample i lies in A_i for all i is the product of the integrals of the density over A_i, divided by its total integral. The loop has ended within k rounds with probability (1 - (1 - mean/max)^k)^n exactly, for n samples.", "quantifier": "all bounded measurable densities, numbers of samples, probability spaces", "why_tests_cant": "a statement about probabilities over all random streams", "anchors": ["magpi/sampling.py:rejection_sampling"]}
{"id": "C148", "title": "Means over minibatches are unbiased, with known variance", "statement": "If all permutations are equally likely, then for every batch of batches_without_replacement the mean over the batch of any function of a row (with values in any real vector space) has as expectation its mean over all rows, and for real functions the variance of the batch mean is the variance of the rows times (N - B) / ((N - 1) B). The same holds for batches_with_replacement without replacement within the batch, and with independent draws within the batch the variance is the variance of the rows over B.", "quantifier": "all data trees, batch sizes, functions, batches", "why_tests_cant": "expectations over all N! permutations or N^(bB) draws", "anchors": ["magpi/opt.py:batches_without_replacement", "magpi/opt.py:batches_with_replacement"]}
{"id": "C149", "title": "Arrays of points instead of one point", "statement": "rotate2d and rotate3d accept one point; a number or an array with one entry is broadcast to a point with equal coordinates; an array of points is an AssertionError and another number of coordinates a TypeError. revolution accepts shape (3,) only. sphere of an array of points is one number, positive iff the sum of the squares of all coordinates is below r^2. cylinder of an array uses its first two points. cuboid of an array is one number, positive iff all points are inside and negative iff some point is outside. reflect of b points in n >= 2 dimensions is a TypeError unless b is 1 or n; for b = n coordinate i of every point is moved by the distance of point i.", "quantifier": "all shapes, arrays, radii, edges, normals, angles", "why_tests_cant": "silently different results for some shapes; tests pass single points", "anchors": ["magpi/r_fun.py:rotate2d", "magpi/r_fun.py:rotate3d", "magpi/r_fun.py:revolution", "magpi/r_fun.py:sphere", "magpi/r_fun.py:cylinder", "magpi/r_fun.py:cuboid", "magpi/r_fun.py:reflect", "magpi/r_fun.py:translate", "magpi/r_fun.py:compose"]}
{"id": "C150", "title": "Derivatives by keyword and divergence by number of axes", "statement": "derivative by the name of an argument which is passed by keyword is silently zero: value and derivative are (f, 0) at every point, and no error is raised. divergence accepts exactly those functions for which value and argument have between one and three axes together, else it is a ValueError.", "quantifier": "all functions, argument names, ways of passing, shapes", "why_tests_cant": "how an argument is passed changes the result silently", "anchors": ["magpi/calc.py:value_and_derivative", "magpi/calc.py:derivative", "magpi/calc.py:divergence", "magpi/calc.py:value_and_divergence"]}
{"id": "C151", "title": "Boxes in floating point arithmetic", "statement": "In floating point arithmetic the conjunction r0 of any number of values, taken from the left, never has the wrong sign: positive only if all values are positive, negative only if some value is negative, exactly zero if none is negative and one is zero. Hence cuboid with r0 is positive only at points of the interior of the box, negative only at points outside and exactly zero on its boundary, if the distances to the planes of the faces are zero or in a range of exponents (2^-39 to 2^40 for three dimensions in single precision). Points inside may have the value zero, and below the range the sign may be wrong.", "quantifier": "all formats with at least 4 bits, dimensions, edges, centerings, points in range", "why_tests_cant": "all points of a format; rounding accumulates over 2 n operations", "anchors": ["magpi/r_fun.py:cuboid", "magpi/r_fun.py:compose", "magpi/r_fun.py:RAlpha"]}
{"id": "C152", "title": "The trust region method in floating point arithmetic", "statement": "In floating point arithmetic, whatever the objective, gradient and sub-problem compute (nan and inf included): the trust region radius stays a number of the format between the rounded bounds after any number of updates; once the radius is at the minimal radius the state is frozen exactly. If the computed prediction is positive, a step is accepted only if the computed objective strictly decreases, by at least rho_accept times the prediction up to two roundings; a rejected step keeps the parameters and, unless the ratio is nan, shrinks the radius by at least a quarter. If the objective takes values of the format (or inf, but not at the start) and computed predictions are positive, then the computed objective never increases and after finitely many updates the solver is frozen at the minimal radius. If rounding makes the prediction negative, an increase is accepted.", "quantifier": "all formats, objectives, sub-problem solvers, configurations, numbers of updates", "why_tests_cant": "all executions and rounding errors", "anchors": ["magpi/tr.py:TR", "magpi/tr.py:TR.update", "magpi/tr.py:update_tr_radius"]}
{"id": "C153", "title": "Spline basis in floating point arithmetic", "statement": "On a sorted grid (repeated knots allowed) in the range of the format the computed basis functions of degree k are finite, non-negative, exactly zero outside of their supports, and their absolute error is at most 8 (2^k - 1) units in the last place of 1, however close the knots are. Between the knots t_k and t_(m-1-k) they add up to one within k + 1 times this error, for any number of knots. Far away from narrow knots the quotients overflow and the computed basis function is nan.", "quantifier": "all formats with at least k + 6 bits, degrees, grids and points in range", "why_tests_cant": "all grids and floating point numbers; cancellation between close knots", "anchors": ["magpi/spline.py:_base_fun", "magpi/spline.py:basis"]}
{"id": "C154", "title": "Quadrature in floating point arithmetic", "statement": "On a grid of the format in range the computed weights of the midpoint, trapezoidal and Simpson's rule are non-negative with a relative error of at most three roundings, however close the nodes are, and the computed nodes stay in the interval. If the integrand is bounded by C and Lipschitz and is computed with absolute error eps, then every possible result of integrate (any order and grouping of the additions, with or without fused operations) differs from the exact value of the rule by at most (b - a) (e + ((1 + u)^(n + 3) - 1)(C + e)) for n nodes, u the unit roundoff and e the error of the integrand. Near the overflow threshold the computed midpoint is inf.", "quantifier": "all formats, grids, integrands, orders of summation", "why_tests_cant": "all grids and floating point numbers; the order of the summation is not specified", "anchors": ["magpi/integrate.py:midpoint", "magpi/integrate.py:trap", "magpi/integrate.py:simpson", "magpi/integrate.py:integrate"]}
{"id": "C155", "title": "Integration of differential equations in floating point arithmetic", "statement": "Let the dynamics be bounded by M and Lipschitz (L in the state, K in time) on a ball and be computed with absolute error eps. Then all values computed by odeint, with explicit_euler or rk4, on time stamps of the format with N steps of length at most h, h L <= 1/2, are finite numbers of the format and differ from those of the exact method at most by N exp(L (t_N - t_0)) times the error of one step, about u R + 2 h E with the unit roundoff u, the norm R of the states and the error E of the dynamics (rounded arguments and times included). The error does grow with N: for y' = 1 and steps shorter than u/2 all computed values of explicit_euler are the initial value 1.", "quantifier": "all formats, dimensions, dynamics, time grids, both methods", "why_tests_cant": "all grids and floating point numbers", "anchors": ["magpi/ode.py:rk4", "magpi/ode.py:explicit_euler", "magpi/ode.py:odeint", "magpi/ode.py:_odeint"]}
{"id": "C156", "title": "Spheres, cylinders and translations in floating point arithmetic", "statement": "In every format with emin + 2 p <= 2 and without overflow the computed value of sphere at a point of n coordinates, whatever the order of the sum in norm, is finite and differs from the exact (r^2 - |x|^2)/(2r) at most by ((1+u)^(n+5) - 1)(r^2 + |x|^2)/(2r) and an underflow term; so its sign is right outside of a thin shell around the boundary (single precision, n <= 3, 2^-30 <= r <= 2^30: wherever |x| differs from r by the fraction 2^-20 or more). The same for cylinder with the distance from the axis, and for a translated sphere with two more roundings, which depend on the distance from the centre only. Inside of the shell the sign can be wrong. A solid built from balls by the set operations of r0, all in floating point arithmetic, never gets the wrong sign at a point where each ball is larger than twice its error bound (and in the range without over- and underflow).", "quantifier": "all formats, dimensions, radii, points, orders of summation", "why_tests_cant": "all floating point numbers", "anchors": ["magpi/r_fun.py:sphere", "magpi/r_fun.py:cylinder", "magpi/r_fun.py:translate"]}
{"id": "C157", "title": "Forward differentiation of R-functions and ADFs", "statement": "With JAX's rules for the primitive operations, differentiation does not change values, and the tangent of a set expression built with RAlpha (-1 < alpha < 1), RP (even p >= 2) or RAlphaM (m >= 0, -1 < alpha < 1) is the derivative of the computed function exactly where no set operation meets two operands on their boundaries, and nan in every direction elsewhere. RhoBlending (rho > 0) is right everywhere, minimum and maximum (r1) exactly where the operands differ. sphere is right but for its centre, cylinder off its axis, cuboid where at most one coordinate is on a face plane (nan on the edges and corners of the closed box), revolution off its axis; translate and scale move these sets. jacfwd is the gradient or nan in every entry accordingly, and normalize_1st_order is f / sqrt(f^2 + |grad f|^2) or nan. At some of these points the function is differentiable.", "quantifier": "all set expressions, operands, points, directions, parameters", "why_tests_cant": "points where a square root is differentiated at zero are never sampled", "anchors": ["magpi/r_fun.py:RAlpha", "magpi/r_fun.py:RAlphaM", "magpi/r_fun.py:RP", "magpi/r_fun.py:RhoBlending", "magpi/r_fun.py:cuboid", "magpi/r_fun.py:sphere", "magpi/r_fun.py:cylinder", "magpi/r_fun.py:revolution", "magpi/r_fun.py:normalize_1st_order"]}
{"id": "C158", "title": "Forward differentiation of quaternions", "statement": "With JAX's rules for the primitive operations, differentiation does not change values, and sums, products, conjugates, from_euler_angles and from_axis_angle have the right tangents everywhere; absolute values, reciprocals, quotients and rotated vectors unless the quaternion is zero (then nan); reflections unless the normal is zero. quanternion_exp, quanternion_log and integer powers have the derivatives of the exponential function, of an inverse of it and of the power where the vector part (of q, and of n log q) is longer than eps. At real quaternions, where the exponential function and powers are smooth, all tangents of exp, of a ** q and of q ** s are nan in every direction, in particular q ** 2 at the identity; in the rest of the eps tube the vector part of exp and log has the tangent zero and all tangents of powers are nan. rotate2d (float angle), rotate3d (unit axis, Euler angles), reflect and project move the points where the tangent of an ADF is right, and those where it is nan, with the solid.", "quantifier": "all differentiated quaternions, vectors, angles, exponents, points, directions and ADFs", "why_tests_cant": "derivatives at real quaternions and within the eps tube are not sampled", "anchors": ["magpi/quaternions.py:quanternion_exp", "magpi/quaternions.py:quanternion_log", "magpi/quaternions.py:sgn", "magpi/quaternions.py:arg", "magpi/quaternions.py:quaternion_rotation", "magpi/quaternions.py:quaternion_reflection", "magpi/quaternions.py:from_euler_angles", "magpi/quaternions.py:from_axis_angle", "magpi/r_fun.py:rotate2d", "magpi/r_fun.py:rotate3d", "magpi/r_fun.py:reflect", "magpi/r_fun.py:project"]}
{"id": "C159", "title": "Differentiation of splines", "statement": "With JAX's rules for the primitive operations: forward differentiation of a basis function on any grid (repeated knots included) gives its derivative from the right, hence the derivative off the knots, and everywhere if the grid increases strictly and the degree is at least two; differentiated in the point and the knots jointly it gives the derivative off the knots if the knots of each quotient differ. Reverse differentiation gives the same numbers if the knots of each quotient differ (no knot repeated within degree steps); if two agree, the gradient of the basis and of SplineActivation with respect to the point is nan for every point, all coefficients and every cotangent, because the unselected branch of jnp.where divides by zero. The cotangent of the coefficients is always right. With make_grid and degree at least two forward and reverse mode give the derivative of SplineActivation at every point.", "quantifier": "all grids, degrees, points, coefficients, tangents, cotangents and differentiable activation functions", "why_tests_cant": "tests evaluate the basis; gradients on grids with repeated knots and at knots are not sampled", "anchors": ["magpi/spline.py:_base_fun", "magpi/spline.py:basis", "magpi/spline.py:SplineActivation", "magpi/spline.py:make_grid"]}
{"id": "C160", "title": "Half of the best decrease", "statement": "For a symmetric, positive semidefinite Hessian the step of steihaug which ends on the boundary of the trust region achieves at least half of the largest decrease of the quadratic model in the region (Yuan's theorem). A step which ends inside misses the minimum of the model in the region by at most the norm of the residual times the radius, and the residual is below the tolerance if the loop has converged, which it does if the limit is at least the dimension. Along runs of TR on objectives with positive semidefinite Hessians, with any damping, the predicted decrease of each step is at least half of the best one of the damped model, and accepted steps decrease the objective by rho_accept times this. For indefinite Hessians no fraction is guaranteed.", "quantifier": "all dimensions, gradients, symmetric Hessians, radii, tolerances, limits, configurations and numbers of updates", "why_tests_cant": "optimality relative to the exact minimiser is never computed by tests", "anchors": ["magpi/tr.py:steihaug", "magpi/tr.py:TR.update"]}
{"id": "C161", "title": "Accuracy of rotations and reflections in floating point arithmetic", "statement": "In floating point arithmetic with p >= 8 digits, rounding to nearest and sums in any order, also with fused multiply-add: a product of quaternions has an error of at most 2(((1+u)^4-1) |p||q| + 4 (1+u)^4 eta); reciprocal has a relative error of at most 11u; quaternion_rotation differs from the exact rotation by at most 30u|x| + 9(1+|q|)eta, so that lengths are preserved up to this, for quaternions of any length in a wide range (2^-60 to 2^60 in single precision); quaternion_reflection differs from the mirror image by at most 34u|x| + 18eta; with from_axis_angle and library functions with errors up to eps the error is at most (12 eps + 39u)|x| + 45eta. Outside of the range of lengths the results are wrong: in single precision the quaternion 2^-80 gives no numbers and 2^70 gives the zero vector, although both are the identity. (u unit roundoff, eta half of the smallest positive number.)", "quantifier": "all formats with p >= 8 digits, all quaternions and vectors in the stated ranges, all orders of the sums, all library functions of the stated accuracy", "why_tests_cant": "tests compare with tolerances at few points", "anchors": ["magpi/quaternions.py:Quaternion.__mul__", "magpi/quaternions.py:Quaternion.reciprocal", "magpi/quaternions.py:quaternion_rotation", "magpi/quaternions.py:quaternion_reflection", "magpi/quaternions.py:from_axis_angle"]}
{"id": "C162", "title": "The solid of pacman.ipynb", "statement": "The function pacman of the notebook is finite at every point. It is positive exactly in the open unit ball without the closed wedge |z| <= x/1.8 of the mouth and in the four open balls of the eyes and the food, and not negative exactly in the closed ball without the open wedge and the four closed balls.", "quantifier": "all points", "why_tests_cant": "points on the boundaries of the five balls and the wedge are not sampled; the plot shows a grid", "anchors": ["examples/pacman.ipynb:pacman", "examples/pacman.ipynb:mouth"]}
{"id": "C163", "title": "The solver for Poisson's equation in elm_poisson.ipynb", "statement": "Whatever the samples, weights and decomposition are, elm_model vanishes on the boundary of the square. The right hand side is Delta u = -8 pi^2 u of the exact solution, which vanishes there too. For samples in the open square, l2_reg > 0 and any singular value decomposition of the matrix (singular values may be zero) beta is the only minimiser of the sum of the squared residuals of the equation at the samples plus l2_reg |beta|^2.", "quantifier": "all samples, centres, widths gamma, regularisations, decompositions", "why_tests_cant": "infinitely many samples and weights; rank deficient matrices do not occur in a run", "anchors": ["examples/elm_poisson.ipynb:u_elm", "examples/elm_poisson.ipynb:solution", "examples/elm_poisson.ipynb:beta", "examples/elm_poisson.ipynb:elm_model"]}
{"id": "C164", "title": "The magnetisation of mumag3.ipynb and hysteresis.ipynb", "statement": "m_flower is a unit vector along (xz, yz, 1) at every point. m_vortex is a unit vector off the axis x = z = 0, orthogonal to the radius and turning about the axis, with the component exp(-2 k) along it; on the axis all components are nan. mag is a unit vector for any parameters and any network if the initial state is one; it is as smooth in the point and the parameters as both; the fields of unit vectors which it represents for some function in place of the network are exactly those which are nowhere opposite to the initial state.", "quantifier": "all points, networks, parameters, initial states and fields", "why_tests_cant": "the axis has measure zero; all fields of unit vectors", "anchors": ["examples/mumag3.ipynb:m_vortex", "examples/mumag3.ipynb:m_flower", "examples/mumag3.ipynb:mag", "examples/hysteresis.ipynb:mag"]}
{"id": "C165", "title": "The energies of hysteresis.ipynb and mumag3.ipynb", "statement": "The exchange energy is A times the mean of the squares of all partial derivatives: not negative, zero exactly if the derivative vanishes at all samples, and unchanged if the magnetisation is rotated or reflected. For unit vectors the anisotropy energy is between 0 and Ka, 0 exactly if the magnetisation is along the axis (either way) and Ka exactly if it is orthogonal to it at all samples; the energy in an external field is at most its length in absolute value, and minimal exactly for the direction of the field; mean_mag is in [-1, 1]. Where the stray field is defined, the loss is the total energy plus the magnetostatic energy once more.", "quantifier": "all magnetisations, samples (at least one), axes, fields and constants", "why_tests_cant": "equality cases have measure zero", "anchors": ["examples/hysteresis.ipynb:exchange_energy", "examples/hysteresis.ipynb:ani_energy", "examples/hysteresis.ipynb:mag_energy", "examples/hysteresis.ipynb:ext_energy", "examples/hysteresis.ipynb:loss", "examples/hysteresis.ipynb:mean_mag", "examples/mumag3.ipynb:loss"]}
{"id": "C166", "title": "The gradient of the loss", "statement": "The losses of the notebooks use a field which is constant for the gradient (stop_gradient) and count the magnetostatic energy twice. Their gradient with respect to the parameters differs from the gradient of the total energy by c times the mean over the samples of <dm, h[m]> - <m, h[dm]>, where h is the computed field as a function of the magnetisation, dm the derivative of the magnetisation in the parameters, and c = 1/2 in hysteresis.ipynb, c = 1 in mumag3.ipynb. So the gradients agree exactly if the computed field is symmetric for m and all dm.", "quantifier": "all parameter spaces, smooth magnetisations, samples in the box, grids, rules and constants", "why_tests_cant": "the total energy is never differentiated through the field solver by the code", "anchors": ["examples/hysteresis.ipynb:loss", "examples/mumag3.ipynb:loss", "examples/mumag3.py:create_stray_field_solver"]}
{"id": "C167", "title": "Nested forward differentiation of any order", "statement": "For set expressions, cuboids, spheres, cylinders, translated, scaled and revolved figures, below any number of nested jvps in any directions, the result carries the value and all mixed derivatives of all orders wherever no R-function meets two operands which both vanish and no norm or revolution is taken at zero; at every other point all derivatives of all orders are nan (also where the function is a polynomial, such as the centre of a sphere). The value is never changed. hvp and laplace therefore give the Hessian times a vector and the Laplacian exactly there, and nan elsewhere. In elm_poisson.ipynb an entry of Q is the Laplacian of the node exactly if the sample is neither a corner of the square nor the centre of the node, and nan otherwise.", "quantifier": "all orders of differentiation, directions, points, set expressions, solids; RAlpha with -1 < alpha < 1, RP with even p >= 2, RAlphaM with m >= 0", "why_tests_cant": "the points where derivatives are nan have measure zero; infinitely many orders", "anchors": ["magpi/r_fun.py:RAlpha", "magpi/r_fun.py:RP", "magpi/r_fun.py:RAlphaM", "magpi/r_fun.py:cuboid", "magpi/r_fun.py:sphere", "magpi/r_fun.py:revolution", "magpi/calc.py:hvp", "magpi/calc.py:laplace", "examples/elm_poisson.ipynb:u_elm"]}
{"id": "C168", "title": "Reverse differentiation of programs", "statement": "For every straight line program of the operations add, subtract, multiply, divide, negate, sqrt, exp, sin, cos, tanh, log and powers, and every input at which each operation is smooth near its arguments (radicands, bases of real powers and arguments of log positive, divisors and bases of negative integer powers not zero): the program computes a smooth function; jax.value_and_grad gives its value and its gradient; the gradient below any number of nested jvps in any directions carries all mixed derivatives of the partial derivatives; hvp (forward over forward), hvp_forward_over_reverse, value_grad_hvp and hvp_reverse_over_reverse all give the Hessian times the vector. If this holds for all inputs, the trust region method gets the exact gradient and the exact symmetric Hessian. The conjunction of RAlpha with -1 < alpha < 1 as a program has the right gradient by reverse differentiation unless both operands are zero, and then both entries are nan.", "quantifier": "all programs, inputs and directions, all numbers of nested jvps", "why_tests_cant": "infinitely many programs; a wrong transpose rule shows only in programs which use it", "anchors": ["magpi/calc.py:value_and_jacrev", "magpi/calc.py:hvp", "magpi/calc.py:hvp_forward_over_reverse", "magpi/calc.py:value_grad_hvp", "magpi/calc.py:hvp_reverse_over_reverse", "magpi/utils.py:_value_and_grad_with_aux", "magpi/tr.py:TR"]}
{"id": "C169", "title": "Derivatives in the stray field solver", "statement": "For every box with non-empty sides: the matrix Q_phi1 as computed by nested jvps has minus the Laplacian of the ansatz function as entry at every sample with at most one coordinate on a plane of a face, and nan at samples on edges and in corners; for samples in the interior it is the exact Q_phi1. normal_vec as computed by jacfwd is the outward unit normal on the open sides and nan on edges and corners; the field -jacfwd(phi1) is minus the gradient of phi1, or nan there. The Taylor coefficients of the surface charge as computed by nested jvps are those of the exact charge at every midpoint if the first and the last cell of every grid are not empty; if one of them is empty (a repeated knot at an end, which the constructor accepts) a charge is nan.", "quantifier": "all grids, samples, ansatz functions, magnetisations and points", "why_tests_cant": "infinitely many grids and samples; nan appears only at samples on edges and for repeated knots", "anchors": ["examples/mumag3.py:create_stray_field_solver", "examples/mumag3.py:Cuboid", "examples/mumag3.py:charge_taylor_coefs2"]}
{"id": "C170", "title": "Derivatives of functions which differentiate", "statement": "jacfwd and jvp inside a function which is itself differentiated any number of times: where the derivatives of an ADF are right, so are those of its gradient, elsewhere all entries of the gradient are nan. normalize_1st_order has right derivatives of all orders where those of the ADF are right and its gradient is not zero, and is nan where they are not; an ellipsoid has right derivatives everywhere but at its centre, where also its value is nan. scale_without_normalization, rotate2d, rotate3d, reflect and project move the points with right derivatives with the solid. The derivatives of impose_dirichlet_bc, impose_neumann_bc and impose_ic are right where those of ADF, initial value and model are, and nan elsewhere; where those of the ADF are not right, even the value of impose_neumann_bc is nan for models which pass on nan. A tanh MLP has right derivatives everywhere and passes on nan.", "quantifier": "all solids, models, networks, points, orders and directions of differentiation", "why_tests_cant": "infinitely many orders and points; the wrong points are a null set", "anchors": ["magpi/r_fun.py:normalize_1st_order", "magpi/r_fun.py:ellipsoid", "magpi/r_fun.py:rotate3d", "magpi/model.py:impose_neumann_bc", "magpi/model.py:impose_dirichlet_bc", "magpi/model.py:impose_ic", "magpi/model.py:MLP"]}
{"id": "C171", "title": "The gradient of the losses of the notebooks as reverse differentiation computes it", "statement": "The losses of hysteresis.ipynb and mumag3.ipynb, with the magnetisation from two PINNs, the Cayley transform by solving linear systems, the exchange energy with an inner jacfwd and the field behind stop_gradient, are followed operation by operation with JAX's rules, including the rule for linear solves. value_and_grad gives the loss and its gradient with respect to the trainable parameters, forward over reverse differentiation gives the products of the Hessian with all directions, so the trust region method gets exact derivatives of the loss with constant field, for all networks and initial states whose operations are right at the samples; the PINNs and the flower state are right everywhere, the vortex state off its axis (on which it is nan).", "quantifier": "all network sizes and parameters, samples, fields, directions and solids", "why_tests_cant": "infinitely many parameters and a program of thousands of operations; finite differences see it at single points with an error", "anchors": ["examples/hysteresis.ipynb:loss", "examples/mumag3.ipynb:loss", "examples/mumag3.py:cayley_rotation", "magpi/calc.py:hvp_forward_over_reverse", "magpi/tr.py:TR._hvp"]}
{"id": "C172", "title": "The loss of hysteresis.ipynb as objective of the trust region method", "statement": "TR compares values of the loss, in which the field belongs to the same parameters, but gets the gradient of the loss with constant field. The difference of both derivatives in a direction is minus the mean of <m, H[dm]> (twice that for mumag3.ipynb), that is the derivative of the magnetostatic energy up to the asymmetry of the field; both gradients agree exactly if the mean of <m, H[dm]> vanishes for all directions. For the initial state of the notebook, a cube with one cell and one sample they never agree, and for suitable external fields they are opposite and not zero, so the loss increases along the direction of steepest descent of the model and the trust region method rejects every step with small radius and never leaves the initial parameters, which are not stationary.", "quantifier": "all magnetisations, samples, boxes, grids and parameters", "why_tests_cant": "needs derivatives at all parameters and the exact field", "anchors": ["examples/hysteresis.ipynb:loss", "examples/mumag3.ipynb:loss", "magpi/tr.py:TR.update"]}
{"id": "C173", "title": "Rates of the trust region method", "statement": "For objectives with Lipschitz continuous gradient, bounded Hessian-vector products (exact or approximate, damped or not) and a gradient which dominates the error (in particular strongly convex ones) every accepted step multiplies the error of the value by at most 1 - linearRate, a constant of the configuration, the objective and the start; the number of rejected steps is bounded by that of the accepted ones and a logarithm; so the tolerance is reached after a number of updates which is proportional to log(1/tol), at a point with an error of at most tol^2/(2 l) in the value and tol/l in the parameters. For convex objectives with bounded level set the error after a accepted steps is at most e0/(1 + eta e0 a).", "quantifier": "all objectives with these properties, dimensions, configurations with min_tr_radius below the stated bound, starts and restarts", "why_tests_cant": "a rate is a statement about all starts and tolerances; runs see some", "anchors": ["magpi/tr.py:TR.update", "magpi/tr.py:TR.run", "magpi/tr.py:steihaug", "magpi/tr.py:update_tr_radius"]}
{"id": "C174", "title": "The trust region method with an inexact gradient", "statement": "Near a point x at which the values have the gradient g and the method is given a gradient G with norm at least tol, all small steps are steepest descent to the boundary of the trust region and the ratio of actual and predicted decrease tends to <g, G>/|G|^2. If this quotient is greater than rho_accept all steps with small radius are accepted; if it is less, every step from a state with small radius is rejected, the parameters never change and the radius falls to min_tr_radius. In particular exact gradients are always accepted for rho_accept < 1.", "quantifier": "all objectives, points, gradients, configurations and states with sufficiently small radius", "why_tests_cant": "a limit of the radius to zero, over infinitely many steps", "anchors": ["magpi/tr.py:TR.update", "magpi/tr.py:steihaug", "magpi/tr.py:update_tr_radius"]}
{"id": "C175", "title": "Potentials at target points on the quadrature nodes", "statement": "With the rules of floating point arithmetic for division by zero, single_layer_potential of mumag3.py and the source tensors of surface_integral.py have finite values exactly at the target points which are no quadrature nodes, and then the values the other properties are about; at a node the potential is infinite or not a number, whatever the charge is, even zero. With trap and simpson (the default) all corners of all cells are nodes for every number of subintervals, with midpoint and Gauss rules of odd degree (the default is gauss(5)) all centres of cells.", "quantifier": "all boxes and grids, surfaces, charges, target points, quadrature rules, orders and numbers of subintervals", "why_tests_cant": "the exceptional points are a null set which random samples do not hit", "anchors": ["examples/mumag3.py:single_layer_potential", "examples/mumag3.py:_integrand", "magpi/surface_integral.py:_source_tensor", "magpi/surface_integral.py:single_layer_potential"]}
{"id": "C176", "title": "The hysteresis loop follows the fields and keeps its results in step", "statement": "If the callback of `train` in hysteresis.ipynb reads a number from every step, `train` returns one state, one mean magnetisation and one curvature for each field, in the order of the fields; the run for a field starts from the parameters found for the field before; state, energies and mean magnetisation belong to the parameters found; the slices `curvatures[iters_cum[i]:iters_cum[i]+iters[i]]` hold exactly the numbers read during run `i`; for each field the loss does not increase from the parameters found for the field before; all mean magnetisations are in [-1, 1]. The callback in the notebook reads `state.steihaug_curvature`, which does not exist, so the loop raises for every non-empty list of fields.", "quantifier": "for all objectives, networks, parameters, lists of fields, iteration limits, tolerances and radii above the smallest", "why_tests_cant": "The number of iterations of a run, the steps which are frozen at the smallest radius and the slices depend on every input; a test follows one sequence of fields.", "anchors": ["examples/hysteresis.ipynb train", "magpi/tr.py:111-221 TR.update", "magpi/tr.py:44 TR.run"]}
{"id": "C177", "title": "The training loop for standard problem 3 makes every step with its own batch and returns means", "statement": "`train` in mumag3.ipynb makes floor(N / B) steps of the optimiser in every epoch, with disjoint batches in which point and tensor of a sample stay together and with values of lam in [8, 9); the parameters and the state of the optimiser go from step to step; losses and energies of an epoch are the means over its steps, computed before the parameters change; their sums are consistent; no random key is used twice and none which is split is used, so that the permutations and the values of lam of all epochs can be arbitrary independently of each other; without epochs or with batches larger than the set of samples it raises a TypeError, with batch size zero a ZeroDivisionError.", "quantifier": "for all optimisers, losses, gradients, permutations, random values, numbers of samples, epochs and batch sizes", "why_tests_cant": "A test uses one optimiser, one seed and divisible sizes; the statement is about every sequence of random choices and all sizes.", "anchors": ["examples/mumag3.ipynb train", "magpi/opt.py:38-46 batches_without_replacement"]}
{"id": "C178", "title": "The crossing of the energies of flower and vortex state is found by bisection", "statement": "The total energy of mumag3.ipynb is the energy that is reported with the loss, exists for every lam and is differentiable in lam wherever lam is not zero and the magnetisation is smooth at the sample points. The bisection of energy_difference on [8, 9] therefore returns a lam in [8, 9] which is closer than 2.1e-12 to one at which both states have the same energy, if neither state has the lower energy at both ends; otherwise it raises a ValueError. The magnetisations of the notebook are smooth for all parameters of the networks if the samples are off the axis of the vortex, because the midpoints of its cells are off the axis; with an odd number of cells per axis two of them would be on the axis, where the vortex state is nan. In general bisection of a continuous function returns a number closer than xtol + rtol |y| to a zero if the signs at the ends differ.", "quantifier": "for all domains, quadratures, samples inside the domain, magnetisations that are smooth in lam and space, and all continuous functions, intervals and tolerances", "why_tests_cant": "a test can only compare one crossing with a reference value; that a crossing exists and is found follows from continuity over all of [8, 9]", "anchors": ["examples/mumag3.ipynb:427-443", "examples/mumag3.ipynb:469-484"]}
{"id": "C179", "title": "A sample on the axis of the vortex destroys the training", "statement": "If one sample lies on the axis of the vortex state (the middle of the box in x and z), the loss of mumag3.ipynb with the vortex as initial state and every entry of the gradient which reverse differentiation gives are nan, whatever the parameters, the other samples, the values of lam and the field are. If the parameters are nan, loss and gradient are nan for every batch and every initial state. Hence, if all samples are used in an epoch, train returns nan for every parameter for every optimiser which turns a gradient nan into an update nan, as adamw does. For finite gradients the step n of adamw is minus the step size times the sum of the mean of the gradients so far with weights 0.9, divided by the square root of the mean of their squares with weights 0.999 plus 1e-8, and 1e-4 times the parameters. If the initial state is smooth at all samples, train with adamw returns finite parameters; so it does for the flower state always, and for the vortex state exactly if no sample is on the axis. The trust region method never leaves parameters at which the value is nan, and its run ends after one update with error nan.", "quantifier": "for all boxes, networks of this form with any depth, width and parameters, all samples, batches, fields, permutations, numbers of epochs, optimisers with that property, all objectives and configurations of TR", "why_tests_cant": "The event has probability zero for random samples in exact arithmetic; tests with random samples do not hit it, while regular grids with an odd number of points do.", "anchors": ["examples/mumag3.ipynb:44-55", "examples/mumag3.ipynb:164-181", "examples/mumag3.ipynb:205-235", "magpi/tr.py:111-221"]}
{"id": "C180", "title": "The hysteresis loop of hysteresis.ipynb from beginning to end", "statement": "For the network of the notebook with any size and initial parameters, any box, stray field solver, samples inside the box and material, the loop over the external fields (with a callback that does not raise) returns finite parameters. For every field the loss computed by the code (energy plus magnetostatic energy, stray field of the same parameters) is not larger at the parameters found than at those found for the field before; the reported value is this loss and the reported error is the norm of its gradient for constant stray field, as reverse differentiation computes it. In general TR gets exact first and second derivatives for constant stopped parameters from every program with stop_gradient that computes smooth functions.", "quantifier": "for all networks, parameters, boxes, solvers, samples, materials, lists of fields, numbers of iterations, tolerances and initial radii above the minimal radius", "why_tests_cant": "a run shows one loop; that no step of any loop raises the loss or leaves the finite numbers needs the derivatives at all parameters", "anchors": ["examples/hysteresis.ipynb:80-144", "examples/hysteresis.ipynb:187-225", "magpi/tr.py:111-221"]}
{"id": "C181", "title": "Samples of disks, annuli, circles and spheres in floating point arithmetic", "statement": "In binary floating point arithmetic with correctly rounded operations and cosines and sines with an error of at most eps: the computed radius of a sample of an annulus lies between the two radii of the annulus exactly, the distance of the computed sample from the centre lies between them up to 2((eps + 2u) r2 + u A + eta), where A bounds the coordinates of the centre; a computed sample of the boundary of a disk has the distance r from the centre up to 2((eps + 2u) r + u A + eta) and is within 2((eps + 22u) r + u A + eta) of the exact sample; a computed sample of the boundary of a sphere has the distance r from the centre up to 4((eps + 2u) r + u A + eta). In single precision normal_vec with its default tolerances finds a normal at every computed sample of the boundary, correct up to 2^-16, if the coordinates of the centre are at most 32 times the radius; for the centre (256, 0) and the radius 1 + 7/2^19 it gives None at a sample of its own boundary; includes is true of every computed sample of a disk with a second coordinate of at most 1 - 2^-18 if the coordinates of the centre are at most four times the radius; for the second coordinate 1 - 2^-24 and the radius 5/4 about the origin it is false of the computed and true of the exact sample.", "quantifier": "for all formats with at least 8 bits, libraries of that accuracy, samples, radii and centres in range, and all orders of summation in the norm", "why_tests_cant": "whether a boundary sample passes the tolerance depends on the last bits of radius and centre; tests use discs about the origin", "anchors": ["magpi/domain.py:transform_annulus", "magpi/domain.py:transform_circle", "magpi/domain.py:transform_circle_bnd", "magpi/domain.py:transform_sphere_bnd", "magpi/domain.py:_Spherical.normal_vec", "magpi/domain.py:_Spherical.includes"]}
{"id": "C182", "title": "The step sizes of the training decay as planned and the trained parameters stay bounded", "statement": "With the transition steps and the exponential decay of mumag3.ipynb the step sizes of train are positive, start with the given one and get strictly smaller; after the part k/R of all updates they are 10^k times smaller, at the end 10^R times, where R is the number of reductions. As long as the gradients are finite, adamw moves no parameter away from zero by more than 11 times the sum of the step sizes, whatever the gradients are; a parameter whose derivative is always zero only shrinks by the weight decay, and one whose derivatives so far all have the same sign moves against them. If the initial magnetisation is smooth at all samples, every parameter which train returns is in absolute value at most that of the initial one plus 11 init (1 + T / log 10), where T is the number of transition steps.", "quantifier": "for all numbers of samples, batch sizes, epochs and reductions, all initial step sizes up to 10^4, all gradients, batches, random choices, networks and initial parameters", "why_tests_cant": "a bound for all possible gradients and all runs of 60000 and more updates cannot be sampled", "anchors": ["examples/mumag3.ipynb:train", "examples/mumag3.ipynb:schedule", "examples/mumag3.ipynb:_transition_steps"]}
