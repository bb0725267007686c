# A Lean 4 model of schaffer9/MagPI

This directory holds a formal model of the Python package in `/repo` (MagPI, pinned commit) and
kernel-checked theorems about it. `properties.jsonl` lists the properties in English,
`MANIFEST.json` maps them to theorem names, `seeded/LOG.jsonl` records how the theorems were tested
against wrong programs.

## Layout of `lean/Verif`

- `Num/XR.lean` – the number type of the model: exact reals plus `nan`, `+inf`, `-inf`.
- `Num/Fl.lean` – binary floating point formats and rounding to nearest even (C138–C140, C151–C156, C161, C181).
- `Model/*.lean` – the model, one file per Python module; every definition cites file and lines.
- `Spec/*.lean` – small independent vocabularies used in the statements (three-valued logic, walking
  along a polyline, plane rotation, …). They never mention model definitions.
- `Lemmas/*.lean` – helper lemmas.
- `Props/*.lean` – the property theorems, each followed by an `example` exhibiting a non-trivial
  instance of its hypotheses.

## Numbers

Python/JAX computes in IEEE floats. The model computes in `XR`: real numbers *without rounding*,
together with `nan`, `+inf`, `-inf` and IEEE rules for them (0/0, inf-inf, 0*inf are `nan`, every
comparison with `nan` is false, `sqrt` of a negative number is `nan`, …). A division of a non-zero
number by zero gives an infinity whose sign is taken as if the zero were `+0` (exact reals have no
signed zero); no theorem depends on that sign unless it says so. Statements quantify over all finite
inputs (`fin r` for a real `r`) and conclude that the result is the finite number claimed, so a missing
guard (division by zero, negative radicand) makes the theorem false instead of being hidden by a
totalised operation. Rounding, overflow and underflow are **not** modelled there. They are modelled separately, in
`Model/Float*.lean` (C138–C140, C151–C156, C161, C181: R-functions, point tests, set operations, boxes, spheres, trust region method, spline
basis, quadrature, differential equations, rotations and reflections by quaternions, samples of disks, circles and spheres): every operation is rounded to nearest even in an arbitrary binary format
(single and double precision are instances), with gradual underflow, a correctly rounded square root, no signed zero and
no reassociation by the compiler or fused multiply-add, except in dot products, where any order of the additions and any
fusing is allowed (`FlDot`).

Where only ring operations and divisions by non-zero literals occur (quadrature weights, Runge–Kutta,
splines) or where the object is analytic (automatic differentiation), the model works directly over
`ℝ` or over an arbitrary real vector space, which stands for a pytree of arrays.

Automatic differentiation (`jvp`, `jacfwd`, `grad`, `linearize`) is modelled by the Fréchet derivative
(`fderiv`) of the modelled function at points where the statement assumes differentiability; that JAX's
AD computes this derivative is part of the trusted base. For R-functions, ADFs, quaternions and splines this is examined (C157–C159): `Model/FwdAD.lean`,
`Model/QuatAD.lean` and `Model/SplineAD.lean` follow the code of `r_fun.py`, `quaternions.py` and `spline.py` on pairs of a value and a tangent with JAX's rules for the primitive operations, and the
theorems say exactly where the tangent is the derivative and where it is `nan`. For splines reverse mode is modelled as well:
cotangents are carried back through the operations, and `where` gives zero to the branch it does not select. `Model/NestedAD.lean` models nested
`jvp`s of any order (C167) with tangents of tangents and symbolic zeros. `Model/MumagAD.lean` models the differentiated programs of mumag3.py
in the same way (C169), `Model/BcAD.lean` functions which call `jacfwd` or `jvp` themselves (C170), `Model/TrainAD.lean` the losses of the notebooks with the PINNs and the Cayley transform as functions of the trainable parameters (C171; the
linear solve has the rule of `custom_linear_solve`: the tangent solves `A dx = db - dA x`, the cotangent `A^T w = x'`; the solve itself is exact, and fails to `nan` for singular matrices). `Model/RevAD.lean` models `jax.grad` of straight line programs
of these operations (C168): the reverse pass with the transposes of JAX's rules, for numbers of any level, so that it may be
differentiated again; in reverse over reverse mode the outer pass sends the cotangents of several uses of a number back one by one.
Potentials for target points on quadrature nodes are modelled with `nan` and infinities (`Model/NodeX.lean`, C175). So for every program and every input at which its operations are smooth the assumption that AD gives the derivative is a theorem. Pseudo random functions are parameters
(arbitrary permutations, arbitrary streams), so the theorems hold for every random outcome.

Exceptions are values: functions that can raise return `Except Err _`.
Batches: code that broadcasts over leading axes is modelled on one sample, except where the leading
axes influence the result (`normal_vec`, `transform_triangle`, `integrate`), where shapes are modelled.
jit/vmap are semantically transparent and not modelled. dtype is modelled only where it changes
results (`rotate2d` with an integer angle).

## Trusted base

- Lean 4.33.0's kernel and the axioms `propext`, `Classical.choice`, `Quot.sound` (via Mathlib). No
  axiom is added (every theorem depends on at most these three); there is no `sorry`, `native_decide` or `bv_decide`.
- The reading of the Python source in `/repo` (the code is not run here).
- The documented semantics of the external libraries as cited in the model's comments: JAX array
  indexing (out of bounds integer indices are clamped), `argmax` (first maximum), `where`, `cond`,
  `while_loop`, `scan`, `jnp.isclose` (|a-b| <= atol + rtol |b|), `jaxopt.loop.while_loop`,
  `jaxopt` IterativeSolver.run (first update unconditional, then while error > tol, at most maxiter),
  exactness of `solve_lu`, and AD = derivative (for C157–C159 and C167–C171 instead JAX's rules for `add`, `mul`, `div`, `integer_pow`,
  `pow`, `sqrt`, `abs`, `sin`, `cos`, `exp`, `log`, `tanh`, `acos`, `select`, `custom_linear_solve`).
- Not modelled: floating point rounding (except for C138–C140, C151–C156, C161, C181), jit/vmap/pmap machinery, PRNG quality, flax parameter
  initialisation, `__hash__`/pytree registration, docs. Of the notebooks the functions
  `pacman`, the Poisson solver of elm_poisson.ipynb, the magnetisation, energies, losses and means of mumag3.ipynb and
  hysteresis.ipynb are modelled (C162–C166; networks are arbitrary functions, samples arbitrary points), and the PINNs of both with parameters in a vector in any order (C171); the training loops of both with arbitrary losses and, for mumag3.ipynb, any optimiser (C176, C177); the step with the loss of mumag3.ipynb and `optax.adamw`, whose formula is taken from its documentation, with nan and infinities (C179; `optax` is part of the trusted base there), its step sizes by `optax.exponential_decay` as exact real numbers (C182); the loss of hysteresis.ipynb as objective of `TR` with `stop_gradient` (C180); the energy as a function of lam and scipy's `bisect` in mumag3.ipynb (C178; the energies are exact, not in single precision); their plots, the initialisation of parameters and
  Halton sequences are not.

## Plan per property

- **C01 R-alpha conjunction/disjunction is a sign-exact AND/OR** — model `RAlpha` over XR; prove sign law via `a+b <= sqrt(..)` case analysis.
- **C02 Every CSG expression classifies points like three-valued logic** — inductive type of CSG trees, evaluation by the modelled combinators, spec = Kleene logic on {-1,0,1}; induction on the tree from an abstract `SignExact` law proved for each system.
- **C03 R-p systems are sign-exact for every accepted p** — sign law for even p>=2 by monotonicity of the p-norm; the constructor also accepts p<=0: prove counterexamples, so partial.
- **C04 r1 is exactly min/max and RP(2) is exactly r0** — unfold; sqrt((a-b)^2)=|a-b|.
- **C05 R-alpha-m is sign-exact for m >= 0 and scales r-alpha** — factor through RAlpha; rpow positivity; nan case by computation in XR.
- **C06 Rho blending only rounds corners** — case split on s>=0; monotonicity of sqrt.
- **C07 Algebraic laws of the set operations** — ring identities under sqrt for each system.
- **C08 Conjunction/disjunction preserve first order normalisation** — Fréchet derivative of the conjunction at (0,b), chain rule.
- **C09 R-p is normalised to order p-1** — Bernoulli inequality for the p-th root.
- **C10 cuboid/cube ADF classify points exactly** — cuboid = reduce of conjunction over the list [ub0-x0,x0-lb0,...]; induction over the list with the sign law.
- **C11 cuboid ADF has unit normal derivative on open faces** — induction over the fold with C08.
- **C12 sphere and cylinder ADF** — explicit gradients; HasFDerivAt; for ellipsoid also the XR-level remark about JAX's norm derivative at 0.
- **C13 normalize_1st_order keeps the solid and yields unit normals** — explicit gradients; HasFDerivAt; for ellipsoid also the XR-level remark about JAX's norm derivative at 0.
- **C14 ellipsoid ADF** — explicit gradients; HasFDerivAt; for ellipsoid also the XR-level remark about JAX's norm derivative at 0.
- **C15 translate moves the solid** — unfold the wrappers; linear algebra in coordinates; rotate3d turns out to rotate clockwise (negation proved with witness, partial theorem with the true direction); integer angles in rotate2d truncate the matrix (negation proved).
- **C16 scale scales the solid and keeps normalisation** — unfold the wrappers; linear algebra in coordinates; rotate3d turns out to rotate clockwise (negation proved with witness, partial theorem with the true direction); integer angles in rotate2d truncate the matrix (negation proved).
- **C17 rotate2d turns the solid counter-clockwise about o** — unfold the wrappers; linear algebra in coordinates; rotate3d turns out to rotate clockwise (negation proved with witness, partial theorem with the true direction); integer angles in rotate2d truncate the matrix (negation proved).
- **C18 rotate3d turns the solid about the axis through o** — unfold the wrappers; linear algebra in coordinates; rotate3d turns out to rotate clockwise (negation proved with witness, partial theorem with the true direction); integer angles in rotate2d truncate the matrix (negation proved).
- **C19 reflect is the mirror image** — unfold the wrappers; linear algebra in coordinates; rotate3d turns out to rotate clockwise (negation proved with witness, partial theorem with the true direction); integer angles in rotate2d truncate the matrix (negation proved).
- **C20 project makes the ADF constant along the normal** — unfold the wrappers; linear algebra in coordinates; rotate3d turns out to rotate clockwise (negation proved with witness, partial theorem with the true direction); integer angles in rotate2d truncate the matrix (negation proved).
- **C21 revolution is rotationally symmetric** — unfold the wrappers; linear algebra in coordinates; rotate3d turns out to rotate clockwise (negation proved with witness, partial theorem with the true direction); integer angles in rotate2d truncate the matrix (negation proved).
- **C22 Quaternion arithmetic is Hamilton's** — compare with Mathlib's `Quaternion ℝ` (independent spec), ring identities; `s - q` is wrong in the code (negation proved).
- **C23 reciprocal and division** — compare with Mathlib's `Quaternion ℝ` (independent spec), ring identities; `s - q` is wrong in the code (negation proved).
- **C24 Mixed scalar/quaternion arithmetic is consistent** — compare with Mathlib's `Quaternion ℝ` (independent spec), ring identities; `s - q` is wrong in the code (negation proved).
- **C25 quaternion_rotation is a rotation** — compare with Mathlib's `Quaternion ℝ` (independent spec), ring identities; `s - q` is wrong in the code (negation proved).
- **C26 from_axis_angle yields the stated rotation** — compare with Mathlib's `Quaternion ℝ` (independent spec), ring identities; `s - q` is wrong in the code (negation proved).
- **C27 from_euler_angles is the composition of three axis rotations** — compare with Mathlib's `Quaternion ℝ` (independent spec), ring identities; `s - q` is wrong in the code (negation proved).
- **C28 quaternion exp and log are inverse** — exp/log with the code's eps threshold; false for negative reals (negation proved); proved under the explicit guard; de Moivre by induction.
- **C29 quaternion powers agree with repeated multiplication** — exp/log with the code's eps threshold; false for negative reals (negation proved); proved under the explicit guard; de Moivre by induction.
- **C30 quaternion_reflection is the mirror image** — compare with Mathlib's `Quaternion ℝ` (independent spec), ring identities; `s - q` is wrong in the code (negation proved).
- **C31 Hypercube.transform lands in the box** — one-sample model with list/Fin vectors; `argmax` as first index; samples < 0 leave the box (negation proved).
- **C32 Hypercube.transform_bnd lands on the boundary** — one-sample model with list/Fin vectors; `argmax` as first index; samples < 0 leave the box (negation proved).
- **C33 transform_bnd hits each face proportionally to its area and covers it** — one-sample model with list/Fin vectors; `argmax` as first index; samples < 0 leave the box (negation proved).
- **C34 Disk/Annulus transform lands in the region and is onto** — trigonometric computation; surjectivity by explicit preimages; circle is traversed twice (negation proved).
- **C35 Sphere transforms land in the ball / on the sphere** — trigonometric computation; surjectivity by explicit preimages; circle is traversed twice (negation proved).
- **C36 Disk.transform_bnd traverses the circle once** — trigonometric computation; surjectivity by explicit preimages; circle is traversed twice (negation proved).
- **C37 Hypercube.normal_vec returns the outward unit normal on the boundary** — batch model with shapes; mixed corners return None and batches are checked with any(): negations proved, characterisation theorem.
- **C38 Sphere/Disk.normal_vec returns outward unit normals for samples and batches** — batch model with shapes; mixed corners return None and batches are checked with any(): negations proved, characterisation theorem.
- **C39 transform_triangle lands in the triangle** — shape-level model incl. clamped index; false in general (negation proved), partial for axis-aligned triangles.
- **C40 transform_polyline is the arc-length parametrisation** — spec = recursive walk along the polyline; refinement by induction; zero first segment gives nan.
- **C41 Parallelogram.transform and support** — exact linear solve; transform_bnd is wrong unless a=0 (negation proved, partial).
- **C42 Parallelogram.transform_bnd traces the boundary** — exact linear solve; transform_bnd is wrong unless a=0 (negation proved, partial).
- **C43 support() is the Lebesgue measure of the region** — Mathlib volume of boxes and balls.
- **C44 transforms are uniform** — push-forward measures; change of variables.
- **C45 midpoint, trapezoid and Simpson are exact to their degree on every grid** — lists of weights/nodes built with the same slice assignments; induction over the grid.
- **C46 Quadrature weights and nodes are well formed** — lists of weights/nodes built with the same slice assignments; induction over the grid.
- **C47 gauss(n) transports the reference rule to every cell** — lists of weights/nodes built with the same slice assignments; induction over the grid.
- **C48 integrate on several dimensions is the iterated quadrature** — multi-index sums; Fubini for finite sums.
- **C49 integrate_disk has the right area element** — multi-index sums; Fubini for finite sums.
- **C50 integrate_sphere has the right volume element** — multi-index sums; Fubini for finite sums.
- **C51 odeint returns one state per time stamp and composes** — scan as list recursion over an arbitrary vector space; time argument is off by one step (negation proved, partial for autonomous / shifted time).
- **C52 rk4/Euler have their order on model problems** — scan as list recursion over an arbitrary vector space; time argument is off by one step (negation proved, partial for autonomous / shifted time).
- **C53 odeint evaluates the dynamics at the right times** — scan as list recursion over an arbitrary vector space; time argument is off by one step (negation proved, partial for autonomous / shifted time).
- **C54 batches_without_replacement partitions the data** — lists of indices, arbitrary permutation / draws; keys as paths in a split tree.
- **C55 batches_with_replacement draws rows of the data** — lists of indices, arbitrary permutation / draws; keys as paths in a split tree.
- **C56 make_iterator yields all batches of all epochs in order with fresh keys** — lists of indices, arbitrary permutation / draws; keys as paths in a split tree.
- **C57 inconsistent leading axes are rejected** — lists of indices, arbitrary permutation / draws; keys as paths in a split tree.
- **C58 Trust region radius stays in its bounds** — state machine `init`/`update` over XR scalars and an inner product space of parameters; invariants by induction over the number of updates; NaN trial values do not shrink the radius (negation proved).
- **C59 Accepted steps decrease the objective** — state machine `init`/`update` over XR scalars and an inner product space of parameters; invariants by induction over the number of updates; NaN trial values do not shrink the radius (negation proved).
- **C60 Rejected steps leave the iterate alone and shrink the radius** — state machine `init`/`update` over XR scalars and an inner product space of parameters; invariants by induction over the number of updates; NaN trial values do not shrink the radius (negation proved).
- **C61 Steihaug step stays in the trust region** — Steihaug-CG loop over a real inner product space; CG invariants (conjugacy, orthogonality).
- **C62 Steihaug step is at least as good as the Cauchy point** — Steihaug-CG loop over a real inner product space; CG invariants (conjugacy, orthogonality).
- **C63 Steihaug converges within dim iterations** — Steihaug-CG loop over a real inner product space; CG invariants (conjugacy, orthogonality).
- **C64 A non-stationary iterate gets a non-zero step** — Steihaug-CG loop over a real inner product space; CG invariants (conjugacy, orthogonality).
- **C65 The trust region run terminates** — potential argument combining C59, C60, C62.
- **C66 At minimal radius the solver is frozen** — state machine `init`/`update` over XR scalars and an inner product space of parameters; invariants by induction over the number of updates; NaN trial values do not shrink the radius (negation proved).
- **C67 A non-finite trial value is survived** — state machine `init`/`update` over XR scalars and an inner product space of parameters; invariants by induction over the number of updates; NaN trial values do not shrink the radius (negation proved).
- **C68 Restarting from an OptStep resumes** — state machine `init`/`update` over XR scalars and an inner product space of parameters; invariants by induction over the number of updates; NaN trial values do not shrink the radius (negation proved).
- **C69 Configurations violating rho_accept <= rho_decrease are rejected** — state machine `init`/`update` over XR scalars and an inner product space of parameters; invariants by induction over the number of updates; NaN trial values do not shrink the radius (negation proved).
- **C70 rejection_sampling returns the first accepted proposal of each stream** — stream model of while_loop with fuel; first accepted index; p = 0 accepts zero density (negation proved).
- **C71 rejection_sampling never returns a zero density sample** — stream model of while_loop with fuel; first accepted index; p = 0 accepts zero density (negation proved).
- **C72 rejection_sampling has the target distribution** — finite proposal distributions, geometric series.
- **C73 B-spline basis is non-negative with local support** — Cox–de Boor recursion; induction on the degree.
- **C74 B-spline basis is a partition of unity** — Cox–de Boor recursion; induction on the degree.
- **C75 make_grid spans [start,stop] symmetrically and increases** — explicit formulas; monotonicity of sign(t)|t|^p.
- **C76 SplineActivation starts as, and outside the grid stays, the base activation** — explicit formulas; monotonicity of sign(t)|t|^p.
- **C77 impose_dirichlet_bc is exact on the boundary** — model functions over real vector spaces; derivative computation for Neumann.
- **C78 impose_ic is exact at t0 and decays to the model** — model functions over real vector spaces; derivative computation for Neumann.
- **C79 impose_neumann_bc is exact on the boundary** — model functions over real vector spaces; derivative computation for Neumann.
- **C80 MLP output shape** — dense layers as matrices over lists with shape checks.
- **C81 laplace is the Laplacian** — fderiv; symmetry of second derivatives.
- **C82 curl grad = 0 and div curl = 0** — fderiv; symmetry of second derivatives.
- **C83 Iterated derivative operator** — fderiv; symmetry of second derivatives.
- **C84 Hessian vector products agree** — fderiv; symmetry of second derivatives.
- **C85 charge and source tensors match** — finite sums over cells and multi-indices; Taylor polynomial via iterated derivatives; product rule.
- **C86 integrate_surface integrates the area element** — finite sums over cells and multi-indices; Taylor polynomial via iterated derivatives; product rule.
- **C87 normalized and un-normalized charges agree** — finite sums over cells and multi-indices; Taylor polynomial via iterated derivatives; product rule.
- **C88 make_funs_with_aux normalises all calling conventions** — small decision logic over trees.
- **C89 Tree helpers** — small decision logic over trees.
- **C90 cayley_rotation is a rotation (examples/mumag3.py)** — skew symmetric algebra.
- **C91 curl has the right-handed orientation** — fderiv; bilinear identities, LinearMap.trace.
- **C92 divergence is the trace of the Jacobian** — fderiv; bilinear identities, LinearMap.trace.
- **C93 curl_single_layer_potential is the curl of the vector potential** — list of entry functions of the source tensor; product rule for curl.
- **C94 Cuboid of mumag3: construction, normalisation, ADF, normal** — the six faces as a list; order facts about sorted lists.
- **C95 The faces tile the boundary of the cuboid** — the six faces as a list; order facts about sorted lists.
- **C96 single_layer_potential of the cuboid** — Taylor coefficients via fderiv; the code's two-dimensional expansion agrees with the one in space on the plane of the face.
- **C97 The default number of subintervals raises** — Taylor coefficients via fderiv; the code's two-dimensional expansion agrees with the one in space on the plane of the face.
- **C98 The first potential of the stray field solver** — normal equations from the SVD; smoothness of the R0 conjunction for positive arguments; product rule on the boundary.
- **C99 Stray field with and without precomputed tensors** — linearity of the derivative over the lists of tensor entries.
- **C100 What an MLP computes** — vector-matrix products; induction on the number of hidden layers.
- **C101 Steihaug solves the Newton equation** — residual invariant; norms of conjugate gradient iterates increase; finite termination.
- **C102 Quadratic objectives: the model is exact** — exact algebra; mean value inequality.
- **C103 Error of finite difference Hessian-vector products** — exact algebra; mean value inequality.
- **C104 includes decides membership** — order of extended reals; box measure.
- **C105 Boundary transforms are uniform** — cones over sets and product measure; doubling map; change of variables face by face.
- **C106 Samples on polylines and parallelograms are uniform** — uniqueness of the arc point; disjoint union over segments; change of variables.
- **C107 Error bounds of the midpoint, trapezoidal and Simpson rule** — symmetrised error functions per cell; sum over cells.
- **C108 Error of the Gauss rules, convergence of all rules in one dimension** — Taylor expansion per cell, exactness; modulus of continuity.
- **C109 integrate on several grids converges to the integral over the box** — modulus of continuity, induction over the dimension with Fubini.
- **C110 integrate_disk and integrate_sphere converge to the integrals over disk and ball** — change of variables on boxes (polar and spherical coordinates), C109.
- **C111 Surface integrals converge, surface elements add up** — C109 for the integrand with the area element; rules are sums over cells.
- **C112 The single layer potential converges** — C85 (Taylor polynomial per cell), remainder bound, C111.
- **C113 odeint converges for non-linear, non-autonomous systems** — stability and consistency of one step in a tube around the solution.
- **C114 rk4 has order four for autonomous systems** — expansion of the stages up to order five, Taylor expansion of the solution by Lie derivatives, convergence from C113.
- **C115 The trust region method reaches the gradient tolerance** — descent lemma: ratio >= rho_decrease once the radius is small; then the budget of accepted and rejected updates.
- **C116 Splines reproduce polynomials** — dual recurrence by induction on the degree; coefficients in y.
- **C117 Splines and spline activations are smooth** — derivative from the right on each piece, glued by continuity.
- **C118 Smoothness of the R-function systems** — compositions of analytic functions with positive radicand; restriction to lines for non-differentiability; t(t-|t|) is C^1.
- **C119 Construction, equality and tree round trips of quaternions** — case split on types and shapes; treeUnflatten runs the checks again.
- **C120 Construction and sampling of disks, spheres and annuli** — unfold the checks.
- **C121 The run loop of the trust region solver** — induction on the loop; then C115_radius, stops_after from the first update and C59_monotone.
- **C122 Forward and reverse mode Jacobians agree** — adjoint in the standard basis.
- **C123 Differential operators applied to modules** — C81 and C92 for fixed parameters; list of two arguments for the failure.
- **C124 The checks and the batches of curl** — induction on the list of shapes; product derivative.
- **C125 Unit vectors** — algebra of norms.
- **C126 Rotations built from an axis and an angle** — polar form of from_axis_angle and C27-type conjugation identities; intermediate value for the effective angle.
- **C127 The computed potentials are harmonic and the fields solenoidal** — the Newton kernel is harmonic off its pole; finite sums; C81, C92, C98 and C99 for the stray field.
- **C128 Transformations carry gradients along and compose** — chain rule for affine maps with their adjoints; explicit trigonometric identities.
- **C129 Constraints stacked on each other** — evaluate the inner constraint, then C77-C79.
- **C130 Convergence of the potential of the cuboid** — the rule on all subintervals of a grid is again a rule of cells, so that C112 applies to each side; C96 for the sum over the sides.
- **C131 Convergence of the derivatives of single layer potentials** — Taylor error with an arbitrary continuous kernel (as C112), derivative under the integral by domination, derivative of the finite sums; C93 for the curl.
- **C132 Convergence of the stray field of the cuboid** — C131 on each side with the refined rule of C130, C96 for the sum, C99 for the stray field.
- **C133 Order four for dynamics which depend on time** — The state with the time is an autonomous system, so C114 applies; the second component is computed exactly.
- **C134 The rotations of the code are all rotations** — A rotation matrix is its own cofactor matrix, so the four columns of Shepperd's formula intertwine it with the quaternion product and one of them is not zero; commutation with all vectors forces a real quotient; Euler angles from the first row; the Cayley parameter is the vector part divided by the real part.
- **C135 The spline determines its coefficients** — Positivity by induction over the degree; then the first interval determines the first coefficient, and so on.
- **C136 Types and shapes of the arguments of the quaternion functions** — Unfold the checks of the constructor (C119).
- **C137 Shapes of the results of the samplers** — The functions on arrays are defined with their cases for the shape and compared row by row with the functions of one sample.
- **C138 R-functions in floating point arithmetic** — Rounding to nearest even over the reals (Num/Fl.lean); the sign law from the fact that the rounded root of a rounded square is the absolute value, monotonicity of rounding and, in the remaining cases, a relative error bound; the witnesses are computed.
- **C139 Samples of boxes in floating point arithmetic** — The scaled coordinate does not exceed the exact width: if the width was rounded up, a coordinate below one keeps it away from the rounded width, and the rounded width is a nearest number.
- **C140 Trees of set operations in floating point arithmetic** — Induction over the tree with the range of the values: two different numbers of a format are not close, so that every level loses at most p binary orders of magnitude at zero and gains at most two at infinity; the sign from the weak sign law of C138.
- **C141 Spline activations approximate every continuous function** — Nonnegativity, support and partition of unity make the value of a spline an average of nearby coefficients; the mesh of make_grid tends to zero since the signed power is uniformly continuous; second order by linear precision (C116).
- **C142 Perceptrons are smooth and stable** — The layers are compositions of smooth maps; induction over the layers for the Lipschitz bound.
- **C143 Perceptrons approximate every continuous function** — A neuron with a large bias is nearly an exponential of a linear function, with an explicit error; the span of these exponentials is an algebra which separates points, hence dense by the theorem of Stone and Weierstrass.
- **C144 Hard constraints lose no generality** — A function h which vanishes with the weight w is nearly w * (w h / (w^2 + d)) for small d, by compactness; the second factor is continuous and approximated by C143.
- **C145 The sub-problem is solved optimally in Krylov spaces, at a rate given by the condition number** — The iterate is in the span of the conjugate directions, which is the Krylov space; its residual is orthogonal to them. Comparison with a gradient step, which the larger Krylov space contains, gives the rate.
- **C146 Fast local convergence of the trust region method** — The Newton step fits into the region, so the step of the sub-problem is a conjugate gradient iterate with small residual and model decrease at least l/2 |p|^2; Taylor expansions with Lipschitz Hessian bound the ratio from below and the new gradient from above.
- **C147 Samples of rejection sampling are independent** — The streams of different samples are independent families; each accepted candidate is a function of its own stream, with the law of C71.
- **C148 Means over minibatches are unbiased, with known variance** — Averages over permutations are symmetric in the positions; pairs of different positions have the pair average. Draws invariant under renumbering of the rows reduce to this.
- **C149 Arrays of points instead of one point** — The arrays carry shape and entries; broadcasting, dot and reductions are followed axis by axis.
- **C150 Derivatives by keyword and divergence by number of axes** — The direction is built from the positional arguments only; the trace takes the first and the last axis of the Jacobian.
- **C151 Boxes in floating point arithmetic** — The computed value is zero or at least 2^(k-p) after every step since one operand is a leaf; the signs follow from C138 step by step.
- **C152 The trust region method in floating point arithmetic** — The ratio is followed through the rounded division; strict decrease in a discrete set of values bounds the number of accepted steps.
- **C153 Spline basis in floating point arithmetic** — Differences of numbers of the format have small relative error, so the weights are in [0, 1] with an absolute error of four units; neighbouring basis functions add up to at most one; induction on the degree.
- **C154 Quadrature in floating point arithmetic** — Differences of numbers of the format have a small relative error; induction on the tree of the additions of the dot product.
- **C155 Integration of differential equations in floating point arithmetic** — The four stages are followed with a common bound for the error of the dynamics; the exact step has the Lipschitz constant exp(L dt); discrete Gronwall argument along the list of time stamps.
- **C156 Spheres, cylinders and translations in floating point arithmetic** — Error analysis operation by operation: dot product, square root (no underflow), squares, difference (no underflow), quotient. A point in single precision with the wrong sign found by search, every rounding of it checked by the kernel.
- **C157 Forward differentiation of R-functions and ADFs** — Dual numbers over numbers with nan and infinities; predicate `Outcome` (derivative, or nan in every direction) carried through every operation; signs of the operands by the sign law.
- **C158 Forward differentiation of quaternions** — Dual numbers; predicate `IsADQ` by components; power series of the exponential function in Mathlib as specification; transformations by composition with affine maps.
- **C159 Differentiation of splines** — Dual numbers for forward mode, the transposed operations for reverse mode with zero cotangents for unselected branches; derivative of the recursion; smoothness of C106 for the knots.
- **C160 Half of the best decrease** — Conjugate gradients: the step is a combination of orthogonal residuals; Bessel's inequality for residuals and for conjugate directions and an elementary inequality compare the model at the step and at any other point.
- **C161 Accuracy of rotations and reflections in floating point arithmetic** — Each component of a product is a sum of four products, bounded by the theorem on dot products and Cauchy-Schwarz; the errors are carried through norm, inverse square and two products; perturbation of the rotation by the error of the quaternion.
- **C162 The solid of pacman.ipynb** — Sign law of r0 for the five set operations; signs of half spaces and translated spheres.
- **C163 The solver for Poisson's equation in elm_poisson.ipynb** — Smoothness of the ansatz in the open square; normal equations of ridge regression from the decomposition; sine functions differentiated twice.
- **C164 The magnetisation of mumag3.ipynb and hysteresis.ipynb** — unit_vec (C125); Rodrigues' formula and reach of the Cayley transform (C90, C134).
- **C165 The energies of hysteresis.ipynb and mumag3.ipynb** — Means of bounded numbers; equality in the Cauchy-Schwarz inequality.
- **C166 The gradient of the loss** — The field is a linear functional of derivatives of the magnetisation up to order two at finitely many points; symmetry of second derivatives exchanges derivatives in parameters and points.
- **C167 Nested forward differentiation of any order** — Numbers with tangents whose parts are again such numbers, with symbolic zeros; a relation between such numbers and smooth functions which all rules of JAX preserve; nan entries pass through every operation; radicands whose value and first derivatives vanish give nan in every derivative of the root.
- **C168 Reverse differentiation of programs** — Programs as sequences of operations; the reverse pass with symbolic zeros and the transposes of JAX's rules, for numbers of any level; induction over the program with the chain rule; the relation between numbers and smooth functions of C167 holds for the cotangents; an outer reverse pass as one more kind of number.
- **C169 Derivatives in the stray field solver** — Normalize, adf, tanh layer, phi1 and the charge for numbers with nested tangents; NestOutcome of the box (C167) under translation and products with smooth factors; midpoints lie in open sides exactly if the end cells are not empty.
- **C170 Derivatives of functions which differentiate** — An inner jacfwd adds a coordinate to the point: jvp of F at a + t e_j is one more nested direction (jacG_rep). jvp along a direction field is again a sound kind of numbers (Sound.along), so a model which is right for all numbers is right below the jvp of impose_neumann_bc.
- **C171 The gradient of the losses of the notebooks as reverse differentiation computes it** — Add linear solves to the classes of numbers (ADSolve): the tangent is the solve of db - dA x, the cotangent goes back through the transposed system. SolveSound says that the rule is the derivative for every kind of numbers; then the programs of both losses are right for all numbers (LossSound), and C168 gives gradient and Hessian vector products.
- **C172 The loss of hysteresis.ipynb as objective of the trust region method** — The field is linear in the jet of the magnetisation (JetLin, C166). Differentiate both losses with the product rule and subtract.
- **C173 Rates of the trust region method** — The radius is at least a multiple of the norm of the gradient, so of a monotone function of the error, which decreases (radius_step_of); so an accepted step gains a multiple of the square of the gradient norm (Cauchy decrease). Counting radius changes bounds the rejected steps.
- **C174 The trust region method with an inexact gradient** — limit of the ratio for small radii; induction over the updates
- **C175 Potentials at target points on the quadrature nodes** — finite sums of extended reals are finite iff all terms are; membership of nodes in grids
- **C176 The hysteresis loop follows the fields and keeps its results in step** — Model the callback of TR.update and TR.run and `train` of hysteresis.ipynb (Model/Training.lean); the callback is called once per counted iteration, so the slices of the list are the runs; descent from C59, magnetisation from C164 and C165.
- **C177 The training loop for standard problem 3 makes every step with its own batch and returns means** — Model `train` of mumag3.ipynb with arbitrary optimiser, loss and random functions (Model/TrainLoop.lean); induction over batches and epochs, batches from C54.
- **C178 The crossing of the energies of flower and vortex state is found by bisection** — `Model/Crossing.lean` models the total energy as a function of lam and scipy's bisect; continuity from the derivative of the field (C166 machinery), then the intermediate value theorem along the loop.
- **C179 A sample on the axis of the vortex destroys the training** — Propagation of nan through values and cotangents: `Kills` (cotangent nan reaches the parameter as nan) and `Poison` (every cotangent does) are closed under the operations on the way from the network to the anisotropy energy. The training is C177 with these gradients; the trust region method by induction over updates.
- **C180 The hysteresis loop of hysteresis.ipynb from beginning to end** — `LossG.stopObjective` is the objective of a program with `stop_gradient`; C171 for each value of the stopped parameters gives its contract, C176 the loop, C165 and C99 the values of the loss.
- **C181 Samples of disks, annuli, circles and spheres in floating point arithmetic** — C139 gives the bounds for the square of the radius, the square root of a rounded square is exact; errors of products and sums as in C155, norm as in C156.
- **C182 The step sizes of the training decay as planned and the trained parameters stay bounded** — Closed form of the steps of `adamw` (C179_step); the inequality of Cauchy and Schwarz compares the two means with their weights, the weight decay only shrinks; the step sizes are a geometric sequence.

## Where the code disagrees with its documentation or with a stated property

Each item is a theorem about the model of the code as it is; the code in `/repo` is unchanged.

| Property | Where | What the code does | Theorem |
|---|---|---|---|
| C03 | r_fun.py `RP` | `p = 0` and negative even `p` are accepted; the first raises `ZeroDivisionError` when called, the others break the sign law. | `C03_rp_zero_counterexample`, `C03_rp_negative_p_counterexample` |
| C05 | r_fun.py `RAlphaM` | `m < 0` is accepted and is not finite at the origin. | `C05_ralpham_sign_law` |
| C14 | r_fun.py `ellipsoid` | the value at the centre is nan. | `C14_centre_counterexample` |
| C17 | r_fun.py `rotate2d` | an angle of integer type truncates the rotation matrix. | `C17_integer_angle_counterexample` |
| C18 | r_fun.py `rotate3d` | the body is turned by minus the angle. | `C18_direction_counterexample` |
| C24 | quaternions.py `__rsub__` | `scalar - q` does not equal `-(q - scalar)`. | `C24_rsub_counterexample` |
| C28, C29 | quaternions.py `log`, `__pow__` | `exp(log q)` and powers are wrong for negative real `q`. | `C28_negative_real_counterexample`, `C29_pow_counterexample` |
| C31 | domain.py `Hypercube.transform` | samples with negative coordinates leave the box. | `C31_negative_sample_counterexample` |
| C35 | domain.py sphere | all parameters of the two poles collapse; injective elsewhere only. | `C35_sphere_circle_transform` |
| C36 | domain.py `circle_bnd` | `[0,1)` covers the circle twice. | `C36_circle_bnd_counterexample` |
| C37 | domain.py `Hypercube.normal_vec` | a corner touching a lower and an upper side gives no normal; batches containing points off the boundary are accepted. | `C37_mixed_corner_counterexample`, `C37_batch_counterexample` |
| C38 | domain.py spherical `normal_vec` | batches whose size is neither one nor the dimension raise. | `C38_batch_counterexample` |
| C39 | domain.py `transform_triangle` | only right for legs along the axes; triangles in space raise. | `C39_triangle_counterexample`, `C39_space_triangle_counterexample` |
| C40 | domain.py polyline | a first segment of length zero and integer parameter gives nan. | `C40_polyline_counterexample` |
| C42 | domain.py `Parallelogram.transform_bnd` | leaves the boundary unless the origin is zero. | `C42_parallelogram_bnd_counterexample` |
| C53 | ode.py `odeint` | the methods get the end time of the step instead of its start. | `C53_counterexample` |
| C60, C67 | tr.py `update` | a nan trial value is rejected but the radius stays: the solver repeats the same trial for ever. | `C60_counterexample`, `C67_nan_stuck`, `C67_counterexample` |
| C71 | sampling.py `rejection_sampling` | samples of density 0 or nan can be accepted. | `C71_zero_counterexample`, `C71_nan_counterexample` |
| C73 | spline.py:6-20 `_base_fun` | at plus and minus infinity, outside of the support, basis functions of degree one and more are `nan` (`inf * 0`). | `C73_nonfinite` |
| C75 | spline.py `make_grid` | `start > stop` yields a reversed grid without error. | `C75_reversed` |
| C79 | model.py `impose_neumann_bc` | with `argnum_model=-1` the model is called with all arguments twice. | `C79_last_argument` |
| C83 | calc.py `derivative` | an argument number out of range (such as -1) silently gives zero; a single string is taken as the sequence of its characters. | `C83_out_of_range`, `C83_string` |
| C85 | surface_integral.py `charge_tensor` | matrix-valued charges come out transposed. | `C85_matrix_transposed` |
| C87 | surface_integral.py charges | off normalised ADFs the two variants differ by a factor. | `C87_not_normalised` |
| C92 | calc.py `divergence` | of a scalar function is accepted. | `C92_scalar` |
| C94 | examples/mumag3.py `Cuboid` | degenerate grids are accepted. | `C94_degenerate` |
| C97 | examples/mumag3.py | the default `subintervals` raise `TypeError`. | `C97_default_subintervals` |
| C104 | domain.py `includes` | `Hypercube.includes` returns one truth value per coordinate instead of one per point, and boxes are closed while balls are open. | `C104_hypercube`, `C104_spherical` |
| C118 | r_fun.py:198 | the comment says `rp4` is "analytic everywhere"; it is not differentiable at the origin. | `C118_rp` |
| C119 | quaternions.py `Quaternion` | `vmap` of a quaternion-valued function always raises; parts of different types (integer real part) are rejected. | `C119_vmap`, `C119_constructor` |
| C120 | domain.py `Sphere`, `Disk`, `Annulus` | an origin of the wrong length is accepted by the constructor, sampling then raises; negative radii are accepted, the support is negative. | `C120_constructor`, `C120_negative` |
| C121 | tr.py `TR.run` | a gradient norm which is not a number counts as converged. | `C121_nan` |
| C123 | calc.py `derivative`, `value_and_derivative` | accept modules, but the result always raises when called with input and parameters. | `C123_derivative_raises` |
| C125 | examples/mumag3.py `unit_vec` | is not a number at zero. | `C125_zero` |
| C126 | quaternions.py `from_axis_angle`, `quaternion_rotation`; r_fun.py `rotate3d` | the axis is not normalised: an axis of length other than one turns by a different angle. | `C126_wrong_angle`, `C126_zero_axis` |
| C136 | quaternions.py `quaternion_reflection` | a triple of integers is rejected, although `quaternion_rotation` accepts it. | `C136_reflection_integers` |
| C136 | quaternions.py `from_axis_angle` | an axis of another floating point type than the default is rejected if the angle is a Python number. | `C136_axis_angle_python` |
| C136 | quaternions.py `from_euler_angles` | more than three angles are accepted and all of them enter the real part; the result may be zero. | `C136_euler_four` |
| C136 | quaternions.py `quanternion_exp`, `quanternion_log`, `__pow__` | raise `ValueError` for quaternions of integers. | `C136_exp_log` |
| C137 | domain.py `transform_circle_bnd` | `squeeze` drops all axes of length one: an array with one sample gives a point without the axis of the batch. | `C137_circle_bnd_single` |
| C138 | r_fun.py `RAlpha` | in single precision `r0` loses the strict sign (the conjunction of `1` and `2^-30` is `0`), has the wrong sign if the squares underflow (`-2^-80`, `2^-79`), and `RAlpha(1)` returns `nan` for `8194`, `8195`. | `C138_r0_sign_lost`, `C138_r0_underflow`, `C138_r1_nan` |
| C139 | domain.py `transform_hypercube` | in single precision the coordinate `1` may be mapped outside of the box (`lb = -1`, `ub = 3 * 2^-25`). | `C139_outside` |
| C149 | r_fun.py `reflect`, `sphere`, `cylinder`, `rotate2d` | arrays of points are not rejected everywhere: `reflect` of `n` points in `n` dimensions mixes the points, `sphere` and `cylinder` of an array return one number, `rotate2d` of a number is broadcast to a point. | `C149_reflect`, `C149_sphere`, `C149_cylinder`, `C149_rotate2d` |
| C150 | calc.py `value_and_derivative` | the derivative by the name of an argument passed by keyword is silently `0`. | `C150_keyword` |
| C151 | r_fun.py `cuboid` | in single precision the point `2^-30` of `[0, 1]` has the value `0`, and the point `2^-79` outside of `[0, 2^-80]` a positive value. | `C151_cuboid_counterexamples` |
| C152 | tr.py `TR.update` | if rounding makes the predicted decrease negative, a step which increases the objective is accepted. | `C152_prediction_counterexample` |
| C153 | spline.py `_base_fun` | in single precision the basis function on the knots `0, 2^-20, 2^-19` is `nan` at `2^110`, since a quotient overflows. | `C153_overflow_counterexample` |
| C154 | integrate.py `midpoint`, `simpson` | the computed midpoint of `2^emax` and `1.5 * 2^emax` is `inf`: the sum overflows before it is halved. | `C154_overflow_counterexample` |
| C29 | quaternions.py `__rpow__` | `0 ** q` has no number in any component, also for `0 ** 2`. | `C29_base_nan` |
| C155 | ode.py `explicit_euler` | for `y' = 1`, `y(0) = 1` and steps of at most half a unit roundoff the computed values stay at `1`, however many steps are made. | `C155_stagnation_counterexample` |
| C156 | r_fun.py `sphere` | in single precision the point `(123, 11973)/8192` lies inside of the circle of radius `12260999/8388608`, its computed value is negative. | `C156_sign_counterexample` |
| C157 | r_fun.py `sphere`, `cylinder`, `revolution` | `jacfwd` of the ADF is `nan` at the centre, on the axis, and on the axis of revolution, where the function is smooth: `sqrt` is differentiated at `0`. `normalize_1st_order` is `nan` there. | `C157_sphere`, `C157_cylinder`, `C157_revolution_ball`, `C157_normalize` |
| C157 | r_fun.py `RP` (comment "analytic everywhere" at `rp4`), `RAlphaM` | the tangent is `nan` wherever both operands vanish, for `RAlphaM` with `m > 0` although the function is differentiable there. | `C157_csg`, `C157_ralpham_smooth_nan` |
| C157 | r_fun.py `r1` | the tangent of minimum and maximum is `nan` wherever the operands agree, for example of `f` with itself. | `C157_r1` |
| C158 | quaternions.py:122-155 `quanternion_exp`, `quanternion_log`, `__pow__`, `__rpow__` | at real quaternions, where the exponential function and powers are smooth, the forward derivative is `nan` in every direction, so `q ** 2` cannot be differentiated at the identity: `norm` is differentiated at `0`, and `arccos` at `±1`. | `C158_exp`, `C158_log`, `C158_pow_nan`, `C158_rpow` |
| C158 | quaternions.py:162-169 `sgn` | for vector parts not longer than `eps` the derivative of the vector part of `exp` and `log` is zero instead of the derivative of the function (`exp(re) cos(norm(im))` in the direction of the vector part). | `C158_exp_near`, `C158_log` |
| C159 | spline.py:6-20 `_base_fun` | repeated knots are handled by `jnp.where`, but the unselected branch divides by zero: the values and forward derivatives are finite, while the reverse gradient (`jax.grad`) with respect to the point is `nan` everywhere, also with zero coefficients. | `C159_reverse`, `C159_activation` |
| C159 | spline.py:24-41 `basis` | at a knot, for degree one, differentiation gives the slope to the right although there is no derivative. | `C159_forward` |
| C160 | tr.py:243-327 `steihaug` | for indefinite Hessians no fraction of the best decrease in the trust region is guaranteed: with gradient `(1, 0)` the step ignores a direction of arbitrarily large negative curvature. | `C160_indefinite` |
| C161 | quaternions.py:82-100 `__abs__`, `reciprocal` | the norm is squared: in single precision the rotation by the quaternion `2^-80` gives `nan`, the one by `2^70` gives the zero vector, while both are the identity. | `C161_small_norm`, `C161_large_norm` |
| C164 | mumag3.ipynb `m_vortex` | nan on the axis `x = z = 0`: one sample or face midpoint on it makes the whole stray field nan (odd numbers of grid cells; the notebook uses even ones). | `C164_vortex_axis` |
| C166 | mumag3.ipynb, hysteresis.ipynb `loss` | the gradient of the loss is the gradient of the total energy only if the computed field is symmetric; for the discretised field it is off by the stated amount. | `C166_hysteresis`, `C166_mumag3`, `C166_symmetric` |
| C167 | r_fun.py, elm_poisson.ipynb | `laplace` and all other derivatives of a sphere are nan at its centre, those of a cuboid at its edges; in elm_poisson.ipynb a sample at the centre of a node or at a corner of the square makes an entry of `Q` nan (`norm(x - W) ** 2`), although the function is smooth at the centre; the unscrambled Sobol sequence starts at a corner. | `C167_sphere`, `C167_cuboid`, `C167_elm_matrix` |
| C172 | hysteresis.ipynb `loss`, `TR` | the trust region method compares values in which the field belongs to the new parameters, but its model has the gradient with constant field, which is not the gradient of these values unless the mean of the products of `m` with the field of `dm` vanishes; so the ratio of actual and predicted decrease need not tend to one for small steps. For the initial state, a cube with one cell, one sample and suitable external fields both gradients are opposite and the method never leaves the initial parameters once the radius is small (C174 says when this happens in general). | `C172_hysteresis`, `C172_consistent`, `C172_inconsistent`, `C172_stuck` |
| C176 | hysteresis.ipynb `train` | the callback reads `state.steihaug_curvature`, which is commented out in tr.py:39: the loop raises at the first step. | `C176_raises` |
| C177 | mumag3.ipynb `train` | a batch size larger than the number of samples gives an obscure TypeError from `tree_map` instead of a message. | `C177_raises` |
| – | hysteresis.ipynb | imports `gauss5`, which magpi/integrate.py does not define (ImportError). | not modelled |
| – | calc.py:24-34 `apply_to_module` | the wrapper has the positional parameter `f`, so `derivative(wrt=['x'])` by keyword raises a TypeError. | not modelled |
| – | mumag3.py:198-211 `charge_taylor_coefs2` | for vector valued charges `tensordot(c, t, 3)` contracts axes of different sizes: TypeError. Charges are numbers in the model. | not modelled |
| C169 | mumag3.py:46-50, 198-211, 303 | `Cuboid` accepts grids with repeated knots; if the first two or the last two knots of a grid are equal, a midpoint of a side lies on an edge, where `normal_vec` is nan: its charge, so the potential and the field, are nan although the cell has no area. Likewise a sample of `X_dom` on an edge makes a row of `Q_phi1` nan | `C169_charges_finite`, `C169_edge_charge`, `C169_matrix`; right in all other cases |
| C170 | r_fun.py, model.py:181-243 | A model with Neumann conditions on a cuboid is nan at the edges and corners, not only its derivatives, and `ellipsoid` is nan at its centre, because both use the gradient of an ADF where it is nan | `C170_neumann`, `C170_ellipsoid` |
| C175 | `_integrand` (mumag3.py), `_source_tensor` | at target points which are quadrature nodes (corners of cells for `simpson`, centres for Gauss rules of odd degree such as the default) the potential is infinite or not a number, even for zero charge | `C175_box`, `C175_corners`, `C175_surface` |
| C178 | mumag3.ipynb `m_vortex`, `Cuboid` | the vortex state is nan on its axis; with an odd number of cells per axis the solver evaluates it there (midpoints of two cells), with the six cells of the notebook it does not. | `C178_grid` |
| C179 | mumag3.ipynb `m_vortex`, `loss`, `train` | one sample on the axis of the vortex makes loss and gradient nan; one step of `adamw` then makes all parameters nan for the rest of the training. The trust region method stops at its start without an error message | `C179_axis`, `C179_train`, `C179_trust_region` |
| C181 | `_Spherical.normal_vec`, `transform_circle_bnd` (domain.py) | in single precision `normal_vec` returns `None` at boundary samples of the same disk if the centre is far from the origin compared with the radius (more than about 170 radii), because the tolerance is relative to the radius; up to 32 radii it always finds the normal | `C181_none`, `C181_normal` |
| C181 | `_Spherical.includes`, `transform_annulus` (domain.py) | in single precision `includes` is false of some samples of the same disk: radius 5/4 about the origin, second coordinate `1 - 2^-24`; the radius of the sample is rounded to that of the disk. Samples with a second coordinate of at most `1 - 2^-18` are always included if the centre is within four radii of the origin | `C181_not_included`, `C181_included` |

## Which functions are modelled

Generated from the citations in the comments of the model. Properties which involve a function are found through the
`anchors` in `properties.jsonl`.

| File | Function | Lines | Definitions of the model |
|---|---|---|---|
| calc.py | `apply_to_module` | 25-34 | `applyToModule` |
| calc.py | `value_and_derivative` | 41-71 | `derivativeDirection`, `moduleDerivative`, `moduleDerivativeKw`, `moduleDirection`, `valueAndDerivative`, `valueAndDerivativeDirection` |
| calc.py | `derivative` | 75-155 | `Wrt.toList`, `derivative`, `derivative.df`, `derivativeDirect` |
| calc.py | `value_and_jacfwd` | 158-178 | `imposeNeumannBc`, `valueAndJacfwd`, `valueAndJacfwdAux` |
| calc.py | `value_and_jacrev` | 181-202 | `Prog.valueAndGrad`, `valueAndJacrev`, `valueAndJacrevAux` |
| calc.py | `hvp` | 205-208 | `Prog.hvp`, `hvp`, `hvpG` |
| calc.py | `hvp_forward_over_reverse` | 211-243 | `LossG.hvpForwardOverReverse`, `Prog.hvpForwardOverReverse`, `gradF`, `hvpForwardOverReverse` |
| calc.py | `value_grad_hvp` | 250-257 | not modelled |
| calc.py | `value_grad_hvp` | 261-268 | not modelled |
| calc.py | `value_grad_hvp` | 271-306 | `LossG.hvpForwardOverReverse`, `Objective`, `Prog.hvpForwardOverReverse`, `UserFun.value`, `gradF`, `valueGradHvp` |
| calc.py | `hvp_reverse_over_reverse` | 309-327 | `Prog.hvpReverseOverReverse`, `gradF`, `hvpReverseOverReverse` |
| calc.py | `hessian_diag` | 330-346 | `hessianDiag`, `hessianDiag1`, `laplaceG` |
| calc.py | `laplace` | 350-364 | `laplace`, `laplace1`, `laplaceArgs` |
| calc.py | `divergence` | 368-380 | `divergence` |
| calc.py | `value_and_divergence` | 384-405 | `divergenceBatch`, `divergenceScalar`, `divergenceShape`, `valueAndDivergence`, `valueAndDivergenceArgs` |
| calc.py | `curl` | 409-425 | `curl`, `curlArgs` |
| calc.py | `curl3d` | 428-446 | `curl3d`, `curl3dBatch` |
| calc.py | `curl2d` | 449-464 | `curl2d`, `curl2dBatch` |
| calc.py | `is_2d` | 467-468 | `isNd` |
| calc.py | `is_3d` | 471-472 | `isNd` |
| domain.py | `Domain.support` | 20-21 | not modelled |
| domain.py | `Domain.transform` | 23-24 | not modelled |
| domain.py | `Hypercube.__post_init__` | 33-34 | `Hypercube`, `Hypercube.init` |
| domain.py | `Hypercube.support` | 36-38 | `Hypercube`, `Hypercube.support` |
| domain.py | `Hypercube.includes` | 40-42 | `Hypercube`, `Hypercube.includes` |
| domain.py | `Hypercube.transform` | 44-46 | `Hypercube`, `Hypercube.transform` |
| domain.py | `Hypercube.transform_bnd` | 48-50 | `Hypercube`, `Hypercube.transformBnd` |
| domain.py | `Hypercube.normal_vec` | 52-74 | `Hypercube`, `Hypercube.candidate`, `Hypercube.inDomain`, `Hypercube.normalVec`, `Hypercube.touch` |
| domain.py | `Parallelogram.__post_init__` | 85-88 | `Parallelogram`, `Parallelogram.B` |
| domain.py | `Parallelogram.support` | 90-93 | `Parallelogram`, `Parallelogram.support` |
| domain.py | `Parallelogram.transform` | 95-102 | `Parallelogram`, `Parallelogram.transform`, `Parallelogram.transformArr` |
| domain.py | `Parallelogram.transform_bnd` | 104-106 | `Parallelogram`, `Parallelogram.transformBnd`, `Parallelogram.transformBndArr` |
| domain.py | `linear_map` | 109-112 | `linearMap` |
| domain.py | `affine_plane` | 115-119 | `affinePlane`, `affinePlane.ref` |
| domain.py | `_Spherical.includes` | 126-128 | `SphericalIncludesFl`, `spherical.includes` |
| domain.py | `_Spherical.normal_vec` | 130-138 | `SphericalNormalFl`, `iscloseTolFl`, `spherical.normalVec`, `spherical.normalVecBatch` |
| domain.py | `Sphere.__post_init__` | 147-149 | `SphericalObj`, `SphericalObj.init` |
| domain.py | `Sphere.support` | 151-152 | `SphericalObj.sphereSupport`, `sphereSupport` |
| domain.py | `Sphere.transform` | 154-156 | `SphericalObj.sphereTransform` |
| domain.py | `Sphere.transform_bnd` | 158-160 | `SphericalObj.sphereTransformBnd` |
| domain.py | `Disk.__post_init__` | 169-171 | `SphericalObj`, `SphericalObj.init` |
| domain.py | `Disk.support` | 173-174 | `SphericalObj.diskSupport`, `diskSupport` |
| domain.py | `Disk.transform` | 176-178 | `SphericalObj.diskTransform` |
| domain.py | `Disk.transform_bnd` | 180-182 | `SphericalObj.diskTransformBnd` |
| domain.py | `Annulus.__post_init__` | 192-195 | `AnnulusObj`, `AnnulusObj.init` |
| domain.py | `Annulus.support` | 197-198 | `AnnulusObj.support`, `annulusSupport` |
| domain.py | `Annulus.transform` | 200-203 | `AnnulusObj.transform` |
| domain.py | `transform_hypercube` | 206-208 | `transformHypercube`, `transformHypercubeFl` |
| domain.py | `transform_hypercube_bnd` | 211-253 | `hyperBnd.cum`, `hyperBnd.face`, `hyperBnd.insert`, `hyperBnd.rows`, `hyperBnd.supports`, `hyperBnd.total`, `hyperBnd.val`, `transformHypercubeBnd`, `transformHypercubeBndArr` |
| domain.py | `transform_circle` | 256-257 | `transformCircle`, `transformCircleFl` |
| domain.py | `transform_annulus` | 260-269 | `annulusRadiusFl`, `transformAnnulus`, `transformAnnulusFl` |
| domain.py | `transform_sphere` | 272-283 | `transformSphere` |
| domain.py | `transform_sphere_bnd` | 286-294 | `transformSphereBnd`, `transformSphereBndFl` |
| domain.py | `transform_circle_bnd` | 297-304 | `transformCircleBnd`, `transformCircleBndArr`, `transformCircleBndFl` |
| domain.py | `transform_triangle` | 307-315 | `transformTriangle`, `transformTriangle.fold` |
| domain.py | `transform_polyline` | 318-334 | `polyline.cum`, `polyline.length`, `polyline.seg`, `transformPolyline`, `transformPolylineArr` |
| integrate.py | `Integrand.__call__` | 13-14 | not modelled |
| integrate.py | `midpoint` | 20-23 | `midpoint`, `midpointFl` |
| integrate.py | `trap` | 26-32 | `trap`, `trapFl` |
| integrate.py | `simpson` | 35-50 | `simpson`, `simpson.weights`, `simpsonFl`, `simpsonFl.weights` |
| integrate.py | `gauss` | 53-63 | `gauss` |
| integrate.py | `integrate` | 66-140 | `IntegrateFl`, `integrate1`, `integrateN`, `integrateNX`, `meshgrid`, `tensordot`, `tensordotX` |
| integrate.py | `integrate_disk` | 143-199 | `integrateDisk`, `integrateDisk.g` |
| integrate.py | `integrate_sphere` | 202-257 | `integrateSphere`, `integrateSphere.g` |
| model.py | `MLP.__call__` | 19-33 | `MLP.apply`, `MLP.applyG`, `MLP.call`, `MLP.hidden`, `MLP.hiddenG` |
| model.py | `mlp` | 36-66 | `mlp` |
| model.py | `impose_ic` | 69-119 | `Argnums`, `Argnums.toList`, `imposeIc`, `imposeIcG` |
| model.py | `impose_dirichlet_bc` | 122-178 | `Argnums`, `Argnums.toList`, `imposeDirichletBc`, `imposeDirichletBcG` |
| model.py | `impose_neumann_bc` | 181-243 | `Argnums`, `Argnums.toList`, `imposeNeumannBc`, `imposeNeumannBcG` |
| ode.py | `rk4` | 11-17 | `rk4`, `rk4Fl` |
| ode.py | `explicit_euler` | 20-23 | `explicitEuler`, `explicitEulerFl` |
| ode.py | `odeint` | 26-49 | `odeint`, `odeintFl` |
| ode.py | `_odeint` | 52-61 | `odeint`, `odeint.step`, `odeintFl`, `odeintFl.step` |
| opt.py | `check_axis_size` | 23-27 | `checkAxisSize` |
| opt.py | `axis_size` | 30-35 | `axisSize` |
| opt.py | `batches_without_replacement` | 38-46 | `batchesWithoutReplacement` |
| opt.py | `batches_with_replacement` | 49-63 | `batchesWithReplacement` |
| opt.py | `make_iterator` | 66-79 | `makeIterator`, `makeIterator.batches` |
| quaternions.py | `Quaternion.__init__` | 20-25 | `Quat`, `QuatD`, `QuatObj.init` |
| quaternions.py | `Quaternion.zero_quaternion` | 28-29 | `zero` |
| quaternions.py | `Quaternion.__eq__` | 31-37 | `Quat.PyEq` |
| quaternions.py | `Quaternion.__neg__` | 39-40 | `neg` |
| quaternions.py | `Quaternion.__add__` | 42-49 | `add`, `addScalar` |
| quaternions.py | `Quaternion.__radd__` | 51-52 | `raddScalar` |
| quaternions.py | `Quaternion.__sub__` | 54-61 | `sub`, `subScalar` |
| quaternions.py | `Quaternion.__rsub__` | 63-64 | `rsubScalar` |
| quaternions.py | `Quaternion.__mul__` | 66-77 | `Quat.MulFl`, `Quat.crossFl`, `cross`, `mul`, `mulScalar`, `pairsFl`, `qmulG` |
| quaternions.py | `Quaternion.__rmul__` | 79-80 | `rmulScalar` |
| quaternions.py | `Quaternion.__abs__` | 82-83 | `Quat.AbsFl`, `abs` |
| quaternions.py | `Quaternion.__pow__` | 85-87 | `QuatObj.pow`, `pow` |
| quaternions.py | `Quaternion.__rpow__` | 89-91 | `rpow` |
| quaternions.py | `Quaternion.__truediv__` | 93-97 | `rightDiv`, `truediv`, `truedivScalar` |
| quaternions.py | `Quaternion.reciprocal` | 99-100 | `Quat.RecFl`, `reciprocal` |
| quaternions.py | `Quaternion.conj` | 102-103 | `conj` |
| quaternions.py | `Quaternion.tree_flatten` | 105-107 | `QuatObj.treeFlatten` |
| quaternions.py | `Quaternion.tree_unflatten` | 110-111 | `QuatObj.treeUnflatten`, `QuatObj.vmap` |
| quaternions.py | `quaternion_right_div` | 114-115 | `rightDiv` |
| quaternions.py | `quaternion_left_div` | 118-119 | `leftDiv` |
| quaternions.py | `quanternion_exp` | 122-138 | `QuatObj.exp`, `exp` |
| quaternions.py | `quanternion_log` | 141-155 | `QuatObj.log`, `log` |
| quaternions.py | `arg` | 158-159 | `arg` |
| quaternions.py | `sgn` | 162-169 | `sgn` |
| quaternions.py | `quaternion_rotation` | 172-188 | `RotationFl`, `quaternionRotation`, `quaternionRotationG`, `quaternionRotationObj`, `rotation` |
| quaternions.py | `quaternion_reflection` | 191-209 | `ReflectionFl`, `quaternionReflection`, `quaternionReflectionObj`, `reflection` |
| quaternions.py | `from_euler_angles` | 212-234 | `fromEulerAngles`, `fromEulerAnglesObj` |
| quaternions.py | `from_axis_angle` | 237-252 | `fromAxisAngle`, `fromAxisAngleFl`, `fromAxisAngleObj` |
| r_fun.py | `RFun.conjunction` | 33-34 | `RFun`, `RFunD`, `RFunG` |
| r_fun.py | `RFun.disjunction` | 36-37 | `RFun`, `RFunD`, `RFunG` |
| r_fun.py | `RFun._conjunction` | 39-43 | `conjADF`, `intersection` |
| r_fun.py | `RFun._disjunction` | 45-49 | `disjADF`, `union` |
| r_fun.py | `RFun.negate` | 51-52 | `SetExpr.build`, `SetExpr.buildD`, `SetExpr.buildG`, `negate` |
| r_fun.py | `RFun.union` | 54-55 | `SetExpr.build`, `SetExpr.buildD`, `SetExpr.buildG`, `union` |
| r_fun.py | `RFun.intersection` | 57-58 | `SetExpr.build`, `SetExpr.buildD`, `SetExpr.buildG`, `intersection` |
| r_fun.py | `RFun.equivalence` | 60-66 | `SetExpr.build`, `SetExpr.buildD`, `SetExpr.buildG`, `equivalence` |
| r_fun.py | `RFun.implication` | 68-72 | `SetExpr.build`, `SetExpr.buildD`, `SetExpr.buildG`, `implication` |
| r_fun.py | `RFun.difference` | 74-78 | `SetExpr.build`, `SetExpr.buildD`, `SetExpr.buildG`, `difference` |
| r_fun.py | `RFun.xor` | 80-86 | `SetExpr.build`, `SetExpr.buildD`, `SetExpr.buildG`, `xor` |
| r_fun.py | `RAlpha.__init__` | 98-100 | `RAlpha`, `RAlpha.sysFl` |
| r_fun.py | `RAlpha.conjunction` | 102-105 | `RAlpha.conj`, `RAlpha.conjFl`, `RAlpha.sys`, `RAlpha.sysD`, `RAlpha.sysFl`, `RAlpha.sysG`, `conjProg` |
| r_fun.py | `RAlpha.disjunction` | 107-110 | `RAlpha.disj`, `RAlpha.disjFl`, `RAlpha.sys`, `RAlpha.sysD`, `RAlpha.sysFl`, `RAlpha.sysG` |
| r_fun.py | `RAlphaM.__init__` | 124-127 | `RAlphaM` |
| r_fun.py | `RAlphaM.conjunction` | 129-136 | `RAlphaM.conj`, `RAlphaM.sys`, `RAlphaM.sysD`, `RAlphaM.sysG` |
| r_fun.py | `RAlphaM.disjunction` | 138-145 | `RAlphaM.disj`, `RAlphaM.sys`, `RAlphaM.sysD`, `RAlphaM.sysG` |
| r_fun.py | `RP.__init__` | 158-160 | `RP` |
| r_fun.py | `RP.conjunction` | 162-163 | `RP.callConj`, `RP.conj`, `RP.sys`, `RP.sysD`, `RP.sysG` |
| r_fun.py | `RP.disjunction` | 165-166 | `RP.disj`, `RP.sys`, `RP.sysD`, `RP.sysG` |
| r_fun.py | `RhoBlending.__init__` | 183-184 | `RhoBlending` |
| r_fun.py | `RhoBlending.conjunction` | 186-188 | `RhoBlending`, `RhoBlending.conj`, `RhoBlending.sysD` |
| r_fun.py | `RhoBlending.disjunction` | 190-192 | `RhoBlending`, `RhoBlending.disj`, `RhoBlending.sysD` |
| r_fun.py | `cuboid` | 201-236 | `EdgeArg`, `EdgeArg.get`, `cuboid`, `cuboid.lb`, `cuboid.ub`, `cuboidD`, `cuboidFl`, `cuboidFl.lb`, `cuboidFl.ub`, `cuboidG`, `cuboidNd` |
| r_fun.py | `cube` | 239-256 | `adf`, `cube` |
| r_fun.py | `sphere` | 259-273 | `NormFl`, `SphereFl`, `ellipsoid.jac`, `sphere`, `sphereD`, `sphereG`, `sphereNd`, `squaresFl` |
| r_fun.py | `cylinder` | 276-292 | `CylinderFl`, `cylinder`, `cylinderD`, `cylinderG`, `cylinderNd` |
| r_fun.py | `ellipsoid` | 295-311 | `ellipsoid`, `ellipsoid.jac`, `ellipsoidG` |
| r_fun.py | `compose` | 314-322 | `compose`, `cuboidNd`, `reduce`, `reduceD`, `reduceG` |
| r_fun.py | `translate` | 325-339 | `TranslateFl`, `translate`, `translateD`, `translateG`, `translateNd` |
| r_fun.py | `scale` | 342-361 | `scale`, `scaleBy`, `scaleByD`, `scaleByG` |
| r_fun.py | `scale_without_normalization` | 364-381 | `ellipsoid.jac`, `scaleWithoutNormalization`, `scaleWithoutNormalizationG` |
| r_fun.py | `rotate2d` | 384-411 | `NumArg`, `NumArg.cast`, `rotate2d`, `rotate2d.M`, `rotate2dD`, `rotate2dG`, `rotate2dNd` |
| r_fun.py | `rotate3d` | 414-463 | `AngleArg`, `rotate3d`, `rotate3d.quat`, `rotate3dD`, `rotate3dG`, `rotate3dNd` |
| r_fun.py | `reflect` | 466-489 | `reflect`, `reflectD`, `reflectG`, `reflectNd` |
| r_fun.py | `project` | 492-514 | `project`, `projectD`, `projectG` |
| r_fun.py | `revolution` | 517-540 | `revolution`, `revolutionD`, `revolutionG`, `revolutionNd` |
| r_fun.py | `normalize_1st_order` | 543-563 | `jacfwdD`, `normalize1stOrder`, `normalize1stOrderG` |
| sampling.py | `rejection_sampling` | 14-53 | `rejection.body`, `rejection.draw`, `rejection.notValid`, `rejectionSampling` |
| spline.py | `_base_fun` | 6-20 | `baseFun`, `baseFunD`, `baseFunFl`, `baseFunVjp` |
| spline.py | `basis` | 24-41 | `splineBasis`, `splineBasisD`, `splineBasisFl`, `splineBasisVjp` |
| spline.py | `make_grid` | 44-63 | `makeGrid` |
| spline.py | `_grid_init` | 66-71 | `gridInit` |
| spline.py | `SplineActivation.__call__` | 114-133 | `SplineActivation`, `SplineActivation.init`, `splineActivation`, `splineActivationD`, `splineActivationVjp`, `splineCoefsVjp` |
| surface_integral.py | `integrate_surface` | 8-19 | `integrateSurface`, `integrateSurface.integrand`, `integrateSurfaceX` |
| surface_integral.py | `integrate_surface_elements` | 22-32 | `gridCells`, `integrateSurfaceElements` |
| surface_integral.py | `center` | 35-38 | `surfaceCenter` |
| surface_integral.py | `midpoints` | 41-47 | `gridCells`, `surfaceMidpoints` |
| surface_integral.py | `_source_tensor` | 50-71 | `outerPower`, `sourceTensor.integrand`, `sourceTensorX.integrand`, `sourceTensorX_`, `sourceTensor_`, `sourceTerms` |
| surface_integral.py | `source_tensor` | 75-79 | `sourceTensorJac` |
| surface_integral.py | `charge_tensor` | 83-104 | `chargeTensor`, `chargeTensor.charge`, `chargeTensorMatrix`, `derivEntries` |
| surface_integral.py | `single_layer_potential` | 107-108 | `singleLayerPotential`, `singleLayerPotentialX` |
| surface_integral.py | `curl_single_layer_potential` | 111-113 | `curlSingleLayerPotential` |
| surface_integral.py | `scalar_potential_charge` | 116-130 | `chargeNormal`, `scalarPotentialCharge` |
| surface_integral.py | `vector_potential_charge` | 133-147 | `chargeNormal`, `vectorPotentialCharge` |
| tr.py | `TR.init_state` | 78-109 | `TR.initState`, `TR.startFl` |
| tr.py | `TR.update` | 111-221 | `Computed`, `LossG.stopObjective`, `TR.dampedHvp`, `TR.denom`, `TR.eps`, `TR.hvp`, `TR.subproblem`, `TR.update`, `TR.updateCb`, `TR.updateFl` |
| tr.py | `TR.optimality_fun` | 223-224 | `TR.optimalityFun` |
| tr.py | `TR.__post_init__` | 226-235 | `TRConf.postInit` |
| tr.py | `tree_size` | 238-240 | `treeSize` |
| tr.py | `steihaug` | 243-327 | `CgState`, `steihaug`, `steihaug.condition`, `steihaug.final`, `steihaug.init`, `steihaug.limitStep`, `steihaug.step` |
| tr.py | `update_tr_radius` | 330-351 | `updateTrRadius`, `updateTrRadiusFl` |
| utils.py | `make_funs_with_aux` | 9-36 | `Objective`, `makeFunsWithAux` |
| utils.py | `tree_single_dtype` | 39-46 | `Leaf.dtypeIfArray`, `treeSingleDtype` |
| utils.py | `tree_dim` | 49-55 | `treeDim` |
| mumag3.py | `Cuboid.__post_init__` | 45-59 | `Cuboid.init`, `Cuboid.validate` |
| mumag3.py | `Cuboid.support` | 61-62 | `Cuboid.support` |
| mumag3.py | `Cuboid.includes` | 64-65 | `Cuboid.includes` |
| mumag3.py | `Cuboid.transform` | 67-68 | `Cuboid.transform` |
| mumag3.py | `Cuboid.transform_bnd` | 70-71 | `Cuboid.transformBnd` |
| mumag3.py | `Cuboid.normalize` | 73-84 | `Cuboid.normalize`, `normalizeG` |
| mumag3.py | `Cuboid.adf` | 86-90 | `Cuboid.adf`, `adfG` |
| mumag3.py | `Cuboid._normal_vec` | 92-93 | `Cuboid.normalVec`, `normalVecAD` |
| mumag3.py | `Cuboid.normal_vec` | 95-99 | `Cuboid.normalVec` |
| mumag3.py | `unit_vec` | 102-103 | `unitVector`, `unitVectorBatch`, `unitVectorG` |
| mumag3.py | `_faces` | 106-118 | `faces_`, `faces_.face` |
| mumag3.py | `_midpoints` | 121-125 | `midpoints_` |
| mumag3.py | `surface_integral` | 128-147 | `Subintervals`, `Subintervals.default` |
| mumag3.py | `single_layer_potential` | 150-173 | `Subintervals`, `Subintervals.default`, `singleLayerPotentialBox`, `singleLayerPotentialBoxX` |
| mumag3.py | `charges` | 176-177 | `charges` |
| mumag3.py | `integrate_surface` | 181-190 | `Subintervals`, `Subintervals.default`, `integrateSurfaceBox` |
| mumag3.py | `solve_sufrace_integral` | 193-195 | `solveSufraceIntegral`, `solveSufraceIntegralX`, `tensordot3`, `tensordot3X` |
| mumag3.py | `charge_taylor_coefs2` | 198-211 | `chargeTaylorCoefs2`, `coefsAD` |
| mumag3.py | `_integrand` | 214-229 | `Face.point`, `integrandX_`, `integrand_` |
| mumag3.py | `integrate_face` | 232-261 | `Face.point`, `Subintervals.succ`, `integrateFace`, `integrateFaceX` |
| mumag3.py | `surface_tensors` | 265-274 | `surfaceTensors`, `surfaceTensorsX` |
| mumag3.py | `surface_tensors_grad` | 278-285 | `surfaceTensorsGrad` |
| mumag3.py | `unit_vec` | 288-289 | `unitVector`, `unitVectorBatch`, `unitVectorG` |
| mumag3.py | `create_stray_field_solver` | 292-334 | `Pinv_phi1`, `Q_phi1`, `Q_phi1AD`, `StrayField`, `g`, `gG`, `gradPhi1AD`, `h_elm`, `h_elmG`, `hs`, `hsTensors`, `params_phi1`, `phi1`, `phi1G`, `phi1_without_adf`, `phi2`, `u_elm`, `u_elmG` |
| mumag3.py | `to_skew_simmetric_matrix` | 337-343 | `toSkewSimmetricMatrix`, `toSkewSimmetricMatrixG` |
| mumag3.py | `cayley_rotation` | 346-352 | `cayleyRotation`, `cayleyRotationG` |
