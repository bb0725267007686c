{
 "claims": [
  {
   "property": "C01",
   "status": "proved",
   "theorems": [
    "Verif.C01_ralpha_sign_law"
   ],
   "note": ""
  },
  {
   "property": "C02",
   "status": "proved",
   "theorems": [
    "Verif.C02_csg_kleene"
   ],
   "note": ""
  },
  {
   "property": "C03",
   "status": "partial",
   "theorems": [
    "Verif.C03_exact",
    "Verif.C03_rp_sign_law_partial",
    "Verif.C03_rp_negative_p_counterexample",
    "Verif.C03_rp_zero_counterexample"
   ],
   "note": "Proved for every p the class is meant for (positive even p); p = 0 and negative even p are accepted by the constructor and break the law, shown by the two counterexamples. C03_exact is the exact condition."
  },
  {
   "property": "C04",
   "status": "proved",
   "theorems": [
    "Verif.C04_r1_minmax_rp2_r0"
   ],
   "note": ""
  },
  {
   "property": "C05",
   "status": "proved",
   "theorems": [
    "Verif.C05_ralpham_sign_law"
   ],
   "note": ""
  },
  {
   "property": "C06",
   "status": "proved",
   "theorems": [
    "Verif.C06_rho_blending"
   ],
   "note": ""
  },
  {
   "property": "C07",
   "status": "proved",
   "theorems": [
    "Verif.C07_set_operation_laws"
   ],
   "note": ""
  },
  {
   "property": "C08",
   "status": "proved",
   "theorems": [
    "Verif.C08_normalization_preserved"
   ],
   "note": ""
  },
  {
   "property": "C09",
   "status": "proved",
   "theorems": [
    "Verif.C09_rp_normalized"
   ],
   "note": ""
  },
  {
   "property": "C10",
   "status": "proved",
   "theorems": [
    "Verif.C10_cuboid_classifies"
   ],
   "note": ""
  },
  {
   "property": "C11",
   "status": "proved",
   "theorems": [
    "Verif.C11_cuboid_face_gradient"
   ],
   "note": ""
  },
  {
   "property": "C12",
   "status": "proved",
   "theorems": [
    "Verif.C12_sphere_cylinder"
   ],
   "note": ""
  },
  {
   "property": "C13",
   "status": "proved",
   "theorems": [
    "Verif.C13_normalize"
   ],
   "note": ""
  },
  {
   "property": "C14",
   "status": "partial",
   "theorems": [
    "Verif.C14_exact",
    "Verif.C14_ellipsoid_partial",
    "Verif.C14_centre_counterexample"
   ],
   "note": "Everywhere except the centre; at the centre the value is nan (counterexample), because forward differentiation of the norm at 0 gives 0*inf. C14_exact is the exact condition."
  },
  {
   "property": "C15",
   "status": "proved",
   "theorems": [
    "Verif.C15_translate"
   ],
   "note": ""
  },
  {
   "property": "C16",
   "status": "proved",
   "theorems": [
    "Verif.C16_scale"
   ],
   "note": ""
  },
  {
   "property": "C17",
   "status": "partial",
   "theorems": [
    "Verif.C17_exact",
    "Verif.C17_rotate2d_partial",
    "Verif.C17_integer_angle_counterexample"
   ],
   "note": "All floating point angles; integer dtype angles truncate the matrix (counterexample). C17_exact is the exact condition."
  },
  {
   "property": "C18",
   "status": "partial",
   "theorems": [
    "Verif.C18_exact",
    "Verif.C18_rotate3d_partial",
    "Verif.C18_direction_counterexample"
   ],
   "note": "Code turns the body by minus the angle (counterexample to the stated direction); proved with the actual direction for unit axes and Euler angles, plus the ValueErrors. C18_exact is the exact condition."
  },
  {
   "property": "C19",
   "status": "proved",
   "theorems": [
    "Verif.C19_reflect"
   ],
   "note": ""
  },
  {
   "property": "C20",
   "status": "proved",
   "theorems": [
    "Verif.C20_project"
   ],
   "note": ""
  },
  {
   "property": "C21",
   "status": "proved",
   "theorems": [
    "Verif.C21_revolution"
   ],
   "note": ""
  },
  {
   "property": "C22",
   "status": "proved",
   "theorems": [
    "Verif.C22_hamilton"
   ],
   "note": ""
  },
  {
   "property": "C23",
   "status": "proved",
   "theorems": [
    "Verif.C23_reciprocal"
   ],
   "note": ""
  },
  {
   "property": "C24",
   "status": "partial",
   "theorems": [
    "Verif.C24_exact",
    "Verif.C24_mixed_arithmetic_partial",
    "Verif.C24_rsub_counterexample"
   ],
   "note": "All mixed operations except scalar - quaternion and the additive scalar forms; the code's __rsub__ and scalar addition disagree with Hamilton arithmetic (counterexample). C24_exact is the exact condition."
  },
  {
   "property": "C25",
   "status": "proved",
   "theorems": [
    "Verif.C25_rotation"
   ],
   "note": ""
  },
  {
   "property": "C26",
   "status": "proved",
   "theorems": [
    "Verif.C26_axis_angle"
   ],
   "note": ""
  },
  {
   "property": "C27",
   "status": "proved",
   "theorems": [
    "Verif.C27_euler"
   ],
   "note": ""
  },
  {
   "property": "C28",
   "status": "partial",
   "theorems": [
    "Verif.C28_exact",
    "Verif.C28_exp_log_partial",
    "Verif.C28_negative_real_counterexample",
    "Verif.C28_exponential"
   ],
   "note": "Exact when vector part and angle exceed eps or q is positive real; error bound otherwise for positive real part; false for negative reals (counterexample). C28_exact is the exact condition."
  },
  {
   "property": "C29",
   "status": "partial",
   "theorems": [
    "Verif.C29_exact",
    "Verif.C29_pow_partial",
    "Verif.C29_pow_counterexample",
    "Verif.C29_base",
    "Verif.C29_base_nan"
   ],
   "note": "Same guard as C28, all integers n; false for q = -1 (counterexample). C29_exact is the exact condition."
  },
  {
   "property": "C30",
   "status": "proved",
   "theorems": [
    "Verif.C30_reflection"
   ],
   "note": ""
  },
  {
   "property": "C31",
   "status": "partial",
   "theorems": [
    "Verif.C31_hypercube_transform_partial",
    "Verif.C31_negative_sample_counterexample",
    "Verif.C31_exact"
   ],
   "note": "Proved for samples whose coordinates are >= 0; negative coordinates are not wrapped (counterexample). C31_exact is the exact condition."
  },
  {
   "property": "C32",
   "status": "proved",
   "theorems": [
    "Verif.C32_transform_bnd_on_boundary"
   ],
   "note": ""
  },
  {
   "property": "C33",
   "status": "proved",
   "theorems": [
    "Verif.C33_transform_bnd_uniform_faces"
   ],
   "note": ""
  },
  {
   "property": "C34",
   "status": "proved",
   "theorems": [
    "Verif.C34_annulus_transform"
   ],
   "note": ""
  },
  {
   "property": "C35",
   "status": "proved",
   "theorems": [
    "Verif.C35_sphere_circle_transform"
   ],
   "note": ""
  },
  {
   "property": "C36",
   "status": "partial",
   "theorems": [
    "Verif.C36_circle_bnd_counterexample",
    "Verif.C36_circle_bnd_partial"
   ],
   "note": "False of the code (angle 4*pi*s covers the circle twice); partial: exact description of which parameters collide."
  },
  {
   "property": "C37",
   "status": "partial",
   "theorems": [
    "Verif.C37_hypercube_normal_partial",
    "Verif.C37_mixed_corner_counterexample",
    "Verif.C37_batch_counterexample",
    "Verif.C37_exact"
   ],
   "note": "Samples touching lower and upper sides at once give None and batches with points outside are accepted (counterexamples). C37_exact is the exact condition."
  },
  {
   "property": "C38",
   "status": "partial",
   "theorems": [
    "Verif.C38_exact",
    "Verif.C38_spherical_normal_partial",
    "Verif.C38_batch_counterexample"
   ],
   "note": "Single samples, batches of one, off-boundary batches, and batches of exactly d samples; other batch sizes raise (counterexample). C38_exact is the exact condition."
  },
  {
   "property": "C39",
   "status": "partial",
   "theorems": [
    "Verif.C39_exact",
    "Verif.C39_triangle_partial",
    "Verif.C39_triangle_counterexample",
    "Verif.C39_space_triangle_counterexample"
   ],
   "note": "Only triangles with legs along the axes; counterexamples for a general plane triangle and for any triangle in space. C39_exact is the exact condition."
  },
  {
   "property": "C40",
   "status": "partial",
   "theorems": [
    "Verif.C40_exact",
    "Verif.C40_polyline_partial",
    "Verif.C40_polyline_counterexample"
   ],
   "note": "All polylines of positive length except a zero-length first segment with integer s, which gives nan (counterexample). C40_exact is the exact condition."
  },
  {
   "property": "C41",
   "status": "proved",
   "theorems": [
    "Verif.C41_parallelogram"
   ],
   "note": ""
  },
  {
   "property": "C42",
   "status": "partial",
   "theorems": [
    "Verif.C42_exact",
    "Verif.C42_parallelogram_bnd_partial",
    "Verif.C42_parallelogram_bnd_counterexample"
   ],
   "note": "a = 0 and b != 0; counterexample for a != 0. C42_exact is the exact condition."
  },
  {
   "property": "C43",
   "status": "proved",
   "theorems": [
    "Verif.C43_support_is_volume"
   ],
   "note": ""
  },
  {
   "property": "C44",
   "status": "proved",
   "theorems": [
    "Verif.C44_transforms_uniform"
   ],
   "note": ""
  },
  {
   "property": "C45",
   "status": "proved",
   "theorems": [
    "Verif.C45_midpoint_exact",
    "Verif.C45_trap_exact",
    "Verif.C45_simpson_exact",
    "Verif.C45_degrees_sharp",
    "Verif.C45_exactRule_midpoint",
    "Verif.C45_exactRule_trap",
    "Verif.C45_exactRule_simpson"
   ],
   "note": ""
  },
  {
   "property": "C46",
   "status": "proved",
   "theorems": [
    "Verif.C46_midpoint",
    "Verif.C46_trap",
    "Verif.C46_simpson",
    "Verif.C46_gauss",
    "Verif.C46_bounds"
   ],
   "note": ""
  },
  {
   "property": "C47",
   "status": "proved",
   "theorems": [
    "Verif.C47_gauss_exact",
    "Verif.C47_exactRule_gauss"
   ],
   "note": ""
  },
  {
   "property": "C48",
   "status": "proved",
   "theorems": [
    "Verif.C48_nested",
    "Verif.C48_one_grid",
    "Verif.C48_one_grid_error",
    "Verif.C48_linear",
    "Verif.C48_map",
    "Verif.C48_product",
    "Verif.C48_polynomial_exact"
   ],
   "note": ""
  },
  {
   "property": "C49",
   "status": "proved",
   "theorems": [
    "Verif.C49_formula",
    "Verif.C49_constant"
   ],
   "note": ""
  },
  {
   "property": "C50",
   "status": "proved",
   "theorems": [
    "Verif.C50_formula",
    "Verif.C50_constant"
   ],
   "note": ""
  },
  {
   "property": "C51",
   "status": "proved",
   "theorems": [
    "Verif.C51_length_head",
    "Verif.C51_recurrence",
    "Verif.C51_repeat",
    "Verif.C51_rk4_zero",
    "Verif.C51_euler_zero",
    "Verif.C51_compose"
   ],
   "note": ""
  },
  {
   "property": "C52",
   "status": "proved",
   "theorems": [
    "Verif.C52_rk4_linear",
    "Verif.C52_euler_linear",
    "Verif.C52_constant_step",
    "Verif.C52_constant"
   ],
   "note": ""
  },
  {
   "property": "C53",
   "status": "partial",
   "theorems": [
    "Verif.C53_exact",
    "Verif.C53_counterexample",
    "Verif.C53_step_partial",
    "Verif.C53_uniform_partial",
    "Verif.C53_autonomous_partial"
   ],
   "note": "False of the code: odeint hands the end of the time step to the method (counterexample); partial: exact for the time-shifted problem and for autonomous dynamics. C53_exact is the exact condition."
  },
  {
   "property": "C54",
   "status": "proved",
   "theorems": [
    "Verif.C54_partition",
    "Verif.C54_errors"
   ],
   "note": ""
  },
  {
   "property": "C55",
   "status": "proved",
   "theorems": [
    "Verif.C55_rows",
    "Verif.C55_total"
   ],
   "note": ""
  },
  {
   "property": "C56",
   "status": "proved",
   "theorems": [
    "Verif.C56_iterator",
    "Verif.C56_count",
    "Verif.C56_error"
   ],
   "note": ""
  },
  {
   "property": "C57",
   "status": "proved",
   "theorems": [
    "Verif.C57_ok_iff",
    "Verif.C57_assertion",
    "Verif.C57_negative"
   ],
   "note": ""
  },
  {
   "property": "C58",
   "status": "proved",
   "theorems": [
    "Verif.C58_radius",
    "Verif.C58_run"
   ],
   "note": ""
  },
  {
   "property": "C59",
   "status": "proved",
   "theorems": [
    "Verif.C59_accepted",
    "Verif.C59_fields",
    "Verif.C59_monotone"
   ],
   "note": ""
  },
  {
   "property": "C60",
   "status": "partial",
   "theorems": [
    "Verif.C60_exact",
    "Verif.C60_rejected",
    "Verif.C60_radius_partial",
    "Verif.C60_nan",
    "Verif.C60_counterexample"
   ],
   "note": "Everything except the radius when the ratio is nan (nan trial value): then the radius stays (C60_counterexample). C60_exact is the exact condition."
  },
  {
   "property": "C61",
   "status": "proved",
   "theorems": [
    "Verif.C61_in_region",
    "Verif.C61_on_boundary",
    "Verif.C61_outcome",
    "Verif.C61_run"
   ],
   "note": ""
  },
  {
   "property": "C62",
   "status": "proved",
   "theorems": [
    "Verif.C62_cauchy",
    "Verif.C62_decrease"
   ],
   "note": ""
  },
  {
   "property": "C63",
   "status": "proved",
   "theorems": [
    "Verif.C63_terminates"
   ],
   "note": ""
  },
  {
   "property": "C64",
   "status": "proved",
   "theorems": [
    "Verif.C64_step",
    "Verif.C64_tolerances"
   ],
   "note": ""
  },
  {
   "property": "C65",
   "status": "proved",
   "theorems": [
    "Verif.C65_stops"
   ],
   "note": ""
  },
  {
   "property": "C66",
   "status": "proved",
   "theorems": [
    "Verif.C66_frozen",
    "Verif.C66_restart"
   ],
   "note": ""
  },
  {
   "property": "C67",
   "status": "partial",
   "theorems": [
    "Verif.C67_exact",
    "Verif.C67_inf_partial",
    "Verif.C67_nan_stuck",
    "Verif.C67_counterexample"
   ],
   "note": "+inf trial values; nan trial values are rejected but the radius stays and the same point is tried for ever (C67_nan_stuck, C67_counterexample). C67_exact is the exact condition."
  },
  {
   "property": "C68",
   "status": "proved",
   "theorems": [
    "Verif.C68_resume",
    "Verif.C68_fresh",
    "Verif.C68_interrupted"
   ],
   "note": ""
  },
  {
   "property": "C69",
   "status": "proved",
   "theorems": [
    "Verif.C69_default",
    "Verif.C69_check"
   ],
   "note": ""
  },
  {
   "property": "C70",
   "status": "proved",
   "theorems": [
    "Verif.C70_first_accepted",
    "Verif.C70_bound",
    "Verif.C70_independent"
   ],
   "note": ""
  },
  {
   "property": "C71",
   "status": "partial",
   "theorems": [
    "Verif.C71_almost_surely",
    "Verif.C71_exact",
    "Verif.C71_positive_partial",
    "Verif.C71_zero_counterexample",
    "Verif.C71_nan_counterexample"
   ],
   "note": "Proved for m > 0 and densities that are nowhere nan; with p = 0 a sample of density 0 is accepted (C71_zero_counterexample) and a nan density is accepted (C71_nan_counterexample). C71_exact is the exact condition."
  },
  {
   "property": "C72",
   "status": "proved",
   "theorems": [
    "Verif.C72_distribution",
    "Verif.C72_draws"
   ],
   "note": ""
  },
  {
   "property": "C73",
   "status": "proved",
   "theorems": [
    "Verif.C73_basis",
    "Verif.C73_nonfinite"
   ],
   "note": ""
  },
  {
   "property": "C74",
   "status": "proved",
   "theorems": [
    "Verif.C74_partition",
    "Verif.C74_hull"
   ],
   "note": ""
  },
  {
   "property": "C75",
   "status": "proved",
   "theorems": [
    "Verif.C75_grid",
    "Verif.C75_reversed"
   ],
   "note": ""
  },
  {
   "property": "C76",
   "status": "proved",
   "theorems": [
    "Verif.C76_zero",
    "Verif.C76_outside",
    "Verif.C76_affine",
    "Verif.C76_module",
    "Verif.C76_own_grids",
    "Verif.C76_init"
   ],
   "note": ""
  },
  {
   "property": "C77",
   "status": "proved",
   "theorems": [
    "Verif.C77_boundary",
    "Verif.C77_interior",
    "Verif.C77_argnums"
   ],
   "note": ""
  },
  {
   "property": "C78",
   "status": "proved",
   "theorems": [
    "Verif.C78_initial",
    "Verif.C78_convex",
    "Verif.C78_limit"
   ],
   "note": ""
  },
  {
   "property": "C79",
   "status": "proved",
   "theorems": [
    "Verif.C79_neumann",
    "Verif.C79_neumann_scalar",
    "Verif.C79_last_argument"
   ],
   "note": ""
  },
  {
   "property": "C80",
   "status": "proved",
   "theorems": [
    "Verif.C80_shape",
    "Verif.C80_init",
    "Verif.C80_too_short",
    "Verif.C80_mismatch"
   ],
   "note": ""
  },
  {
   "property": "C81",
   "status": "proved",
   "theorems": [
    "Verif.C81_laplace",
    "Verif.C81_laplace_number",
    "Verif.C81_div_grad"
   ],
   "note": ""
  },
  {
   "property": "C82",
   "status": "proved",
   "theorems": [
    "Verif.C82_curl_grad_2d",
    "Verif.C82_curl_grad_3d",
    "Verif.C82_div_curl",
    "Verif.C82_dimension"
   ],
   "note": ""
  },
  {
   "property": "C83",
   "status": "proved",
   "theorems": [
    "Verif.C83_iterated",
    "Verif.C83_value",
    "Verif.C83_order",
    "Verif.C83_direct",
    "Verif.C83_out_of_range",
    "Verif.C83_unknown",
    "Verif.C83_name_argnum",
    "Verif.C83_string",
    "Verif.C83_common"
   ],
   "note": ""
  },
  {
   "property": "C84",
   "status": "proved",
   "theorems": [
    "Verif.C84_hvp",
    "Verif.C84_symmetric",
    "Verif.C84_linear",
    "Verif.C84_alpha",
    "Verif.C84_value_grad",
    "Verif.C84_aux"
   ],
   "note": ""
  },
  {
   "property": "C85",
   "status": "proved",
   "theorems": [
    "Verif.C85_taylor",
    "Verif.C85_polynomial",
    "Verif.C85_matrix_transposed",
    "Verif.C85_short_grid"
   ],
   "note": ""
  },
  {
   "property": "C86",
   "status": "proved",
   "theorems": [
    "Verif.C86_formula",
    "Verif.C86_planar",
    "Verif.C86_reparametrise",
    "Verif.C86_swap"
   ],
   "note": ""
  },
  {
   "property": "C87",
   "status": "proved",
   "theorems": [
    "Verif.C87_scalar_charge",
    "Verif.C87_vector_charge",
    "Verif.C87_scalar",
    "Verif.C87_vector",
    "Verif.C87_not_normalised"
   ],
   "note": ""
  },
  {
   "property": "C88",
   "status": "proved",
   "theorems": [
    "Verif.C88_normalised"
   ],
   "note": ""
  },
  {
   "property": "C89",
   "status": "proved",
   "theorems": [
    "Verif.C89_dtype_none",
    "Verif.C89_dtype_some",
    "Verif.C89_dtype_error",
    "Verif.C89_dim",
    "Verif.C89_size"
   ],
   "note": ""
  },
  {
   "property": "C90",
   "status": "proved",
   "theorems": [
    "Verif.C90_invertible",
    "Verif.C90_equation",
    "Verif.C90_rodrigues",
    "Verif.C90_angle",
    "Verif.C90_rotation"
   ],
   "note": ""
  },
  {
   "property": "C91",
   "status": "proved",
   "theorems": [
    "Verif.C91_curl_3d",
    "Verif.C91_curl_2d"
   ],
   "note": ""
  },
  {
   "property": "C92",
   "status": "proved",
   "theorems": [
    "Verif.C92_trace",
    "Verif.C92_value",
    "Verif.C92_batch",
    "Verif.C92_scalar"
   ],
   "note": ""
  },
  {
   "property": "C93",
   "status": "proved",
   "theorems": [
    "Verif.C93_curl",
    "Verif.C93_broadcast"
   ],
   "note": ""
  },
  {
   "property": "C94",
   "status": "proved",
   "theorems": [
    "Verif.C94_construct",
    "Verif.C94_normalize",
    "Verif.C94_degenerate",
    "Verif.C94_adf",
    "Verif.C94_normal_vec"
   ],
   "note": ""
  },
  {
   "property": "C95",
   "status": "proved",
   "theorems": [
    "Verif.C95_cover",
    "Verif.C95_disjoint",
    "Verif.C95_midpoints"
   ],
   "note": ""
  },
  {
   "property": "C96",
   "status": "proved",
   "theorems": [
    "Verif.C96_potential",
    "Verif.C96_quadratic"
   ],
   "note": ""
  },
  {
   "property": "C97",
   "status": "proved",
   "theorems": [
    "Verif.C97_default_subintervals"
   ],
   "note": ""
  },
  {
   "property": "C98",
   "status": "proved",
   "theorems": [
    "Verif.C98_least_squares",
    "Verif.C98_collocation",
    "Verif.C98_ansatz",
    "Verif.C98_boundary",
    "Verif.C98_charge"
   ],
   "note": ""
  },
  {
   "property": "C99",
   "status": "proved",
   "theorems": [
    "Verif.C99_tensors",
    "Verif.C99_inside"
   ],
   "note": ""
  },
  {
   "property": "C100",
   "status": "proved",
   "theorems": [
    "Verif.C100_value"
   ],
   "note": ""
  },
  {
   "property": "C101",
   "status": "proved",
   "theorems": [
    "Verif.C101_residual",
    "Verif.C101_newton"
   ],
   "note": ""
  },
  {
   "property": "C102",
   "status": "proved",
   "theorems": [
    "Verif.C102_hvp",
    "Verif.C102_accepted"
   ],
   "note": ""
  },
  {
   "property": "C103",
   "status": "proved",
   "theorems": [
    "Verif.C103_error"
   ],
   "note": ""
  },
  {
   "property": "C104",
   "status": "proved",
   "theorems": [
    "Verif.C104_hypercube",
    "Verif.C104_init",
    "Verif.C104_spherical",
    "Verif.C104_cuboid"
   ],
   "note": ""
  },
  {
   "property": "C105",
   "status": "proved",
   "theorems": [
    "Verif.C105_sphere_circle",
    "Verif.C105_hypercube",
    "Verif.C105_interval"
   ],
   "note": ""
  },
  {
   "property": "C106",
   "status": "proved",
   "theorems": [
    "Verif.C106_polyline_uniform",
    "Verif.C106_parallelogram_bnd",
    "Verif.C106_parallelogram"
   ],
   "note": ""
  },
  {
   "property": "C107",
   "status": "proved",
   "theorems": [
    "Verif.C107_midpoint",
    "Verif.C107_trap",
    "Verif.C107_simpson",
    "Verif.C107_sharp"
   ],
   "note": ""
  },
  {
   "property": "C108",
   "status": "proved",
   "theorems": [
    "Verif.C108_gauss",
    "Verif.C108_convergence"
   ],
   "note": ""
  },
  {
   "property": "C109",
   "status": "proved",
   "theorems": [
    "Verif.C109_convergence"
   ],
   "note": ""
  },
  {
   "property": "C110",
   "status": "proved",
   "theorems": [
    "Verif.C110_disk",
    "Verif.C110_whole_disk",
    "Verif.C110_ball",
    "Verif.C110_whole_ball"
   ],
   "note": ""
  },
  {
   "property": "C111",
   "status": "proved",
   "theorems": [
    "Verif.C111_convergence",
    "Verif.C111_elements"
   ],
   "note": ""
  },
  {
   "property": "C112",
   "status": "proved",
   "theorems": [
    "Verif.C112_taylor_error",
    "Verif.C112_convergence"
   ],
   "note": ""
  },
  {
   "property": "C113",
   "status": "proved",
   "theorems": [
    "Verif.C113_first_order",
    "Verif.C113_sharp"
   ],
   "note": ""
  },
  {
   "property": "C114",
   "status": "proved",
   "theorems": [
    "Verif.C114_rk4_fourth_order"
   ],
   "note": ""
  },
  {
   "property": "C115",
   "status": "proved",
   "theorems": [
    "Verif.C115_radius",
    "Verif.C115_reaches_tolerance"
   ],
   "note": ""
  },
  {
   "property": "C116",
   "status": "proved",
   "theorems": [
    "Verif.C116_marsden",
    "Verif.C116_linear",
    "Verif.C116_polynomials"
   ],
   "note": ""
  },
  {
   "property": "C117",
   "status": "proved",
   "theorems": [
    "Verif.C117_smooth",
    "Verif.C117_derivative",
    "Verif.C117_activation",
    "Verif.C117_module"
   ],
   "note": ""
  },
  {
   "property": "C118",
   "status": "proved",
   "theorems": [
    "Verif.C118_ralpha",
    "Verif.C118_r1",
    "Verif.C118_rp",
    "Verif.C118_ralpham",
    "Verif.C118_rho_blending"
   ],
   "note": ""
  },
  {
   "property": "C119",
   "status": "proved",
   "theorems": [
    "Verif.C119_constructor",
    "Verif.C119_equality",
    "Verif.C119_roundtrip",
    "Verif.C119_vmap"
   ],
   "note": ""
  },
  {
   "property": "C120",
   "status": "proved",
   "theorems": [
    "Verif.C120_constructor",
    "Verif.C120_sphere",
    "Verif.C120_annulus",
    "Verif.C120_negative"
   ],
   "note": ""
  },
  {
   "property": "C121",
   "status": "proved",
   "theorems": [
    "Verif.C121_loop",
    "Verif.C121_nan",
    "Verif.C121_run_converges"
   ],
   "note": ""
  },
  {
   "property": "C122",
   "status": "proved",
   "theorems": [
    "Verif.C122_jacrev",
    "Verif.C122_modes",
    "Verif.C122_aux"
   ],
   "note": ""
  },
  {
   "property": "C123",
   "status": "proved",
   "theorems": [
    "Verif.C123_operators",
    "Verif.C123_derivative_raises",
    "Verif.C123_keyword",
    "Verif.C123_direction"
   ],
   "note": ""
  },
  {
   "property": "C124",
   "status": "proved",
   "theorems": [
    "Verif.C124_check",
    "Verif.C124_batch"
   ],
   "note": ""
  },
  {
   "property": "C125",
   "status": "proved",
   "theorems": [
    "Verif.C125_unit",
    "Verif.C125_zero",
    "Verif.C125_batch"
   ],
   "note": ""
  },
  {
   "property": "C126",
   "status": "proved",
   "theorems": [
    "Verif.C126_axis",
    "Verif.C126_rotate3d",
    "Verif.C126_wrong_angle",
    "Verif.C126_zero_axis"
   ],
   "note": ""
  },
  {
   "property": "C127",
   "status": "proved",
   "theorems": [
    "Verif.C127_potential",
    "Verif.C127_curl",
    "Verif.C127_phi2",
    "Verif.C127_divergence",
    "Verif.C127_collocation"
   ],
   "note": ""
  },
  {
   "property": "C128",
   "status": "proved",
   "theorems": [
    "Verif.C128_rotate2d",
    "Verif.C128_rotate3d",
    "Verif.C128_rotate3d_euler",
    "Verif.C128_reflect",
    "Verif.C128_project",
    "Verif.C128_revolution",
    "Verif.C128_rotate2d_add",
    "Verif.C128_rotate3d_add",
    "Verif.C128_reflect_reflect",
    "Verif.C128_shapes",
    "Verif.C128_scale"
   ],
   "note": ""
  },
  {
   "property": "C129",
   "status": "proved",
   "theorems": [
    "Verif.C129_ic_over_dirichlet",
    "Verif.C129_dirichlet_over_ic",
    "Verif.C129_dirichlet_over_dirichlet",
    "Verif.C129_complete",
    "Verif.C129_cauchy"
   ],
   "note": ""
  },
  {
   "property": "C130",
   "status": "proved",
   "theorems": [
    "Verif.C130_convergence",
    "Verif.C130_magnetisation"
   ],
   "note": ""
  },
  {
   "property": "C131",
   "status": "proved",
   "theorems": [
    "Verif.C131_layer",
    "Verif.C131_gradient",
    "Verif.C131_curl"
   ],
   "note": ""
  },
  {
   "property": "C132",
   "status": "proved",
   "theorems": [
    "Verif.C132_gradient",
    "Verif.C132_stray_field"
   ],
   "note": ""
  },
  {
   "property": "C133",
   "status": "proved",
   "theorems": [
    "Verif.C133_states",
    "Verif.C133_time_in_state",
    "Verif.C133_from_start"
   ],
   "note": ""
  },
  {
   "property": "C134",
   "status": "proved",
   "theorems": [
    "Verif.C134_rotations",
    "Verif.C134_onto",
    "Verif.C134_same_rotation",
    "Verif.C134_axis_angle",
    "Verif.C134_euler",
    "Verif.C134_cayley",
    "Verif.C134_cayley_injective",
    "Verif.C134_magnetisation"
   ],
   "note": ""
  },
  {
   "property": "C135",
   "status": "proved",
   "theorems": [
    "Verif.C135_positive",
    "Verif.C135_coefficients",
    "Verif.C135_module"
   ],
   "note": ""
  },
  {
   "property": "C136",
   "status": "proved",
   "theorems": [
    "Verif.C136_rotation",
    "Verif.C136_reflection",
    "Verif.C136_reflection_integers",
    "Verif.C136_axis_angle",
    "Verif.C136_axis_angle_python",
    "Verif.C136_axis_angle_array",
    "Verif.C136_euler",
    "Verif.C136_euler_four",
    "Verif.C136_euler_shapes",
    "Verif.C136_exp_log"
   ],
   "note": ""
  },
  {
   "property": "C137",
   "status": "proved",
   "theorems": [
    "Verif.C137_hypercube_bnd",
    "Verif.C137_hypercube_bnd_rejects",
    "Verif.C137_hypercube_bnd_two",
    "Verif.C137_hypercube_bnd_one",
    "Verif.C137_circle_bnd",
    "Verif.C137_circle_bnd_single",
    "Verif.C137_polyline",
    "Verif.C137_parallelogram",
    "Verif.C137_parallelogram_bnd"
   ],
   "note": ""
  },
  {
   "property": "C138",
   "status": "proved",
   "theorems": [
    "Verif.C138_r0_sign",
    "Verif.C138_r0_error",
    "Verif.C138_r0_sign_lost",
    "Verif.C138_r0_underflow",
    "Verif.C138_r1_nan"
   ],
   "note": ""
  },
  {
   "property": "C139",
   "status": "proved",
   "theorems": [
    "Verif.C139_in_box",
    "Verif.C139_end",
    "Verif.C139_start",
    "Verif.C139_outside",
    "Verif.C139_wrap",
    "Verif.C139_wrap_one"
   ],
   "note": ""
  },
  {
   "property": "C140",
   "status": "proved",
   "theorems": [
    "Verif.C140_csg"
   ],
   "note": ""
  },
  {
   "property": "C141",
   "status": "proved",
   "theorems": [
    "Verif.C141_error",
    "Verif.C141_second_order",
    "Verif.C141_dense"
   ],
   "note": ""
  },
  {
   "property": "C142",
   "status": "proved",
   "theorems": [
    "Verif.C142_smooth",
    "Verif.C142_lipschitz"
   ],
   "note": ""
  },
  {
   "property": "C143",
   "status": "proved",
   "theorems": [
    "Verif.C143_universal"
   ],
   "note": ""
  },
  {
   "property": "C144",
   "status": "proved",
   "theorems": [
    "Verif.C144_dirichlet",
    "Verif.C144_initial"
   ],
   "note": ""
  },
  {
   "property": "C145",
   "status": "proved",
   "theorems": [
    "Verif.C145_krylov",
    "Verif.C145_rate"
   ],
   "note": ""
  },
  {
   "property": "C146",
   "status": "proved",
   "theorems": [
    "Verif.C146_step",
    "Verif.C146_basin"
   ],
   "note": ""
  },
  {
   "property": "C147",
   "status": "proved",
   "theorems": [
    "Verif.C147_independent",
    "Verif.C147_rounds"
   ],
   "note": ""
  },
  {
   "property": "C148",
   "status": "proved",
   "theorems": [
    "Verif.C148_unbiased",
    "Verif.C148_variance",
    "Verif.C148_replacement",
    "Verif.C148_replacement_variance"
   ],
   "note": ""
  },
  {
   "property": "C149",
   "status": "proved",
   "theorems": [
    "Verif.C149_rotate2d",
    "Verif.C149_rotate3d",
    "Verif.C149_revolution",
    "Verif.C149_sphere",
    "Verif.C149_cylinder",
    "Verif.C149_cuboid",
    "Verif.C149_cuboid_empty",
    "Verif.C149_reflect"
   ],
   "note": ""
  },
  {
   "property": "C150",
   "status": "proved",
   "theorems": [
    "Verif.C150_keyword",
    "Verif.C150_divergence"
   ],
   "note": ""
  },
  {
   "property": "C151",
   "status": "proved",
   "theorems": [
    "Verif.C151_intersections",
    "Verif.C151_cuboid",
    "Verif.C151_cuboid_counterexamples"
   ],
   "note": ""
  },
  {
   "property": "C152",
   "status": "proved",
   "theorems": [
    "Verif.C152_radius",
    "Verif.C152_frozen",
    "Verif.C152_accepted",
    "Verif.C152_decrease",
    "Verif.C152_rejected",
    "Verif.C152_terminates",
    "Verif.C152_prediction_counterexample"
   ],
   "note": ""
  },
  {
   "property": "C153",
   "status": "proved",
   "theorems": [
    "Verif.C153_basis",
    "Verif.C153_partition",
    "Verif.C153_overflow_counterexample"
   ],
   "note": ""
  },
  {
   "property": "C154",
   "status": "proved",
   "theorems": [
    "Verif.C154_rules",
    "Verif.C154_dot",
    "Verif.C154_integrate",
    "Verif.C154_overflow_counterexample"
   ],
   "note": ""
  },
  {
   "property": "C155",
   "status": "proved",
   "theorems": [
    "Verif.C155_odeint",
    "Verif.C155_stagnation_counterexample"
   ],
   "note": ""
  },
  {
   "property": "C156",
   "status": "proved",
   "theorems": [
    "Verif.C156_solids",
    "Verif.C156_sphere",
    "Verif.C156_cylinder",
    "Verif.C156_translated",
    "Verif.C156_single",
    "Verif.C156_sign_counterexample"
   ],
   "note": ""
  },
  {
   "property": "C157",
   "status": "proved",
   "theorems": [
    "Verif.C157_primal",
    "Verif.C157_csg",
    "Verif.C157_r1",
    "Verif.C157_rho",
    "Verif.C157_sphere",
    "Verif.C157_cylinder",
    "Verif.C157_cuboid",
    "Verif.C157_transforms",
    "Verif.C157_strict",
    "Verif.C157_revolution",
    "Verif.C157_jacfwd",
    "Verif.C157_normalize",
    "Verif.C157_ralpham_smooth_nan",
    "Verif.C157_revolution_ball"
   ],
   "note": ""
  },
  {
   "property": "C158",
   "status": "proved",
   "theorems": [
    "Verif.C158_primal",
    "Verif.C158_arithmetic",
    "Verif.C158_rotation",
    "Verif.C158_reflection",
    "Verif.C158_constructors",
    "Verif.C158_exp",
    "Verif.C158_exp_near",
    "Verif.C158_log",
    "Verif.C158_pow",
    "Verif.C158_pow_nan",
    "Verif.C158_rpow",
    "Verif.C158_transforms",
    "Verif.C158_transforms_primal",
    "Verif.C158_rotate2d",
    "Verif.C158_rotate3d"
   ],
   "note": ""
  },
  {
   "property": "C159",
   "status": "proved",
   "theorems": [
    "Verif.C159_forward",
    "Verif.C159_joint",
    "Verif.C159_reverse",
    "Verif.C159_activation",
    "Verif.C159_coefs",
    "Verif.C159_module"
   ],
   "note": ""
  },
  {
   "property": "C160",
   "status": "proved",
   "theorems": [
    "Verif.C160_half",
    "Verif.C160_default",
    "Verif.C160_run",
    "Verif.C160_indefinite"
   ],
   "note": ""
  },
  {
   "property": "C161",
   "status": "proved",
   "theorems": [
    "Verif.C161_mul",
    "Verif.C161_reciprocal",
    "Verif.C161_rotation",
    "Verif.C161_reflection",
    "Verif.C161_axis_angle",
    "Verif.C161_small_norm",
    "Verif.C161_large_norm"
   ],
   "note": ""
  },
  {
   "property": "C162",
   "status": "proved",
   "theorems": [
    "Verif.C162_pacman"
   ],
   "note": ""
  },
  {
   "property": "C163",
   "status": "proved",
   "theorems": [
    "Verif.C163_boundary",
    "Verif.C163_solution",
    "Verif.C163_ridge"
   ],
   "note": ""
  },
  {
   "property": "C164",
   "status": "proved",
   "theorems": [
    "Verif.C164_flower",
    "Verif.C164_vortex",
    "Verif.C164_vortex_axis",
    "Verif.C164_unit",
    "Verif.C164_reach",
    "Verif.C164_smooth"
   ],
   "note": ""
  },
  {
   "property": "C165",
   "status": "proved",
   "theorems": [
    "Verif.C165_exchange",
    "Verif.C165_exchange_invariant",
    "Verif.C165_anisotropy",
    "Verif.C165_external",
    "Verif.C165_mean_mag",
    "Verif.C165_hysteresis_loss",
    "Verif.C165_mumag3_loss"
   ],
   "note": ""
  },
  {
   "property": "C166",
   "status": "proved",
   "theorems": [
    "Verif.C166_hysteresis",
    "Verif.C166_mumag3",
    "Verif.C166_symmetric"
   ],
   "note": ""
  },
  {
   "property": "C167",
   "status": "proved",
   "theorems": [
    "Verif.C167_derivatives",
    "Verif.C167_csg",
    "Verif.C167_sphere",
    "Verif.C167_cylinder",
    "Verif.C167_cuboid",
    "Verif.C167_transforms",
    "Verif.C167_strict",
    "Verif.C167_revolution",
    "Verif.C167_laplace",
    "Verif.C167_primal",
    "Verif.C167_elm_rhs",
    "Verif.C167_elm_matrix",
    "Verif.C167_elm_exact"
   ],
   "note": ""
  },
  {
   "property": "C168",
   "status": "proved",
   "theorems": [
    "Verif.C168_value",
    "Verif.C168_grad",
    "Verif.C168_nested",
    "Verif.C168_hvp",
    "Verif.C168_calc",
    "Verif.C168_trust_region",
    "Verif.C168_conjunction"
   ],
   "note": ""
  },
  {
   "property": "C169",
   "status": "proved",
   "theorems": [
    "Verif.C169_adf",
    "Verif.C169_normal",
    "Verif.C169_outward",
    "Verif.C169_matrix",
    "Verif.C169_field",
    "Verif.C169_exact",
    "Verif.C169_charges",
    "Verif.C169_edge_charge",
    "Verif.C169_charges_finite"
   ],
   "note": ""
  },
  {
   "property": "C170",
   "status": "proved",
   "theorems": [
    "Verif.C170_gradient",
    "Verif.C170_normalize",
    "Verif.C170_ellipsoid",
    "Verif.C170_transforms",
    "Verif.C170_rotate2d",
    "Verif.C170_rotate3d",
    "Verif.C170_dirichlet",
    "Verif.C170_neumann",
    "Verif.C170_ic",
    "Verif.C170_mlp"
   ],
   "note": ""
  },
  {
   "property": "C171",
   "status": "proved",
   "theorems": [
    "Verif.C171_grad",
    "Verif.C171_hvp",
    "Verif.C171_trust_region",
    "Verif.C171_jacfwd",
    "Verif.C171_cayley",
    "Verif.C171_mag",
    "Verif.C171_hysteresis_program",
    "Verif.C171_mumag3_program",
    "Verif.C171_batch_program",
    "Verif.C171_hysteresis",
    "Verif.C171_mumag3",
    "Verif.C171_pinn",
    "Verif.C171_m0",
    "Verif.C171_flower",
    "Verif.C171_vortex"
   ],
   "note": ""
  },
  {
   "property": "C172",
   "status": "proved",
   "theorems": [
    "Verif.C172_hysteresis",
    "Verif.C172_mumag3",
    "Verif.C172_consistent",
    "Verif.C172_inconsistent",
    "Verif.C172_stuck"
   ],
   "note": ""
  },
  {
   "property": "C173",
   "status": "proved",
   "theorems": [
    "Verif.C173_rate",
    "Verif.C173_iterations",
    "Verif.C173_convex",
    "Verif.C173_strongly_convex"
   ],
   "note": ""
  },
  {
   "property": "C174",
   "status": "proved",
   "theorems": [
    "Verif.C174_ratio",
    "Verif.C174_accepted",
    "Verif.C174_stuck"
   ],
   "note": ""
  },
  {
   "property": "C175",
   "status": "proved",
   "theorems": [
    "Verif.C175_box",
    "Verif.C175_corners",
    "Verif.C175_surface"
   ],
   "note": ""
  },
  {
   "property": "C176",
   "status": "proved",
   "theorems": [
    "Verif.C176_train",
    "Verif.C176_raises",
    "Verif.C176_descent",
    "Verif.C176_mean_mag"
   ],
   "note": ""
  },
  {
   "property": "C177",
   "status": "proved",
   "theorems": [
    "Verif.C177_train",
    "Verif.C177_keys",
    "Verif.C177_energies",
    "Verif.C177_raises"
   ],
   "note": ""
  },
  {
   "property": "C178",
   "status": "proved",
   "theorems": [
    "Verif.C178_bisect",
    "Verif.C178_reported",
    "Verif.C178_energy",
    "Verif.C178_crossing",
    "Verif.C178_grid",
    "Verif.C178_notebook"
   ],
   "note": ""
  },
  {
   "property": "C179",
   "status": "proved",
   "theorems": [
    "Verif.C179_axis",
    "Verif.C179_spread",
    "Verif.C179_adamw",
    "Verif.C179_step",
    "Verif.C179_train",
    "Verif.C179_finite",
    "Verif.C179_states",
    "Verif.C179_trust_region"
   ],
   "note": ""
  },
  {
   "property": "C180",
   "status": "proved",
   "theorems": [
    "Verif.C180_objective",
    "Verif.C180_field",
    "Verif.C180_loop"
   ],
   "note": ""
  },
  {
   "property": "C181",
   "status": "proved",
   "theorems": [
    "Verif.C181_circle",
    "Verif.C181_radius",
    "Verif.C181_annulus",
    "Verif.C181_sphere",
    "Verif.C181_normal",
    "Verif.C181_none",
    "Verif.C181_included",
    "Verif.C181_not_included"
   ],
   "note": ""
  },
  {
   "property": "C182",
   "status": "proved",
   "theorems": [
    "Verif.C182_schedule",
    "Verif.C182_bounded",
    "Verif.C182_unused",
    "Verif.C182_direction",
    "Verif.C182_train"
   ],
   "note": ""
  }
 ]
}