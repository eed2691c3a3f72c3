{
 "claims": [
  {
   "property": "C01",
   "status": "proved",
   "theorems": [
    "MiniCFD.Base64.encodeBase64_roundtrip",
    "MiniCFD.Base64.encodeBase64_injective"
   ],
   "note": ""
  },
  {
   "property": "C02",
   "status": "proved",
   "theorems": [
    "MiniCFD.Shuffle.getNewOrder_spec",
    "MiniCFD.Shuffle.newOrder_unique"
   ],
   "note": ""
  },
  {
   "property": "C03",
   "status": "proved",
   "theorems": [
    "MiniCFD.Shuffle.shuffleConnectivity_kept",
    "MiniCFD.Shuffle.shuffleZone_kept",
    "MiniCFD.Shuffle.shuffleZone_coordinates"
   ],
   "note": ""
  },
  {
   "property": "C04",
   "status": "proved",
   "theorems": [
    "MiniCFD.Mapper.map_total",
    "MiniCFD.Mapper.map_inverse",
    "MiniCFD.Mapper.shuffleMaps_total",
    "MiniCFD.Mapper.shuffleMaps_inverse",
    "MiniCFD.Mapper.isValid_of_inverse",
    "MiniCFD.Mapper.back_of_isValid",
    "MiniCFD.Mapper.shuffleMaps_twice_breaks"
   ],
   "note": "Shuffle may be run only once on the same maps: shuffleMaps_twice_breaks"
  },
  {
   "property": "C05",
   "status": "proved",
   "theorems": [
    "MiniCFD.Partition.getNodeParts_spec",
    "MiniCFD.Partition.getNodeParts_orphan"
   ],
   "note": "getNodeParts_orphan: a node used by no cell gets an invalid part and breaks the slicing"
  },
  {
   "property": "C06",
   "status": "proved",
   "theorems": [
    "MiniCFD.Partition.slice_exact",
    "MiniCFD.Partition.slice_shuffled_nodes",
    "MiniCFD.Partition.slice_shuffled_cells"
   ],
   "note": ""
  },
  {
   "property": "C51",
   "status": "proved",
   "theorems": [
    "MiniCFD.Mapper.map_sameCells"
   ],
   "note": ""
  },
  {
   "property": "C07",
   "status": "proved",
   "theorems": [
    "MiniCFD.Adjacency.nodeLists_agree",
    "MiniCFD.Adjacency.pairs_exact",
    "MiniCFD.Adjacency.cellLists_agree"
   ],
   "note": ""
  },
  {
   "property": "C08",
   "status": "proved",
   "theorems": [
    "MiniCFD.Exchange.ghost_is_snapshot",
    "MiniCFD.Exchange.local_untouched",
    "MiniCFD.Exchange.update_never_fails",
    "MiniCFD.Exchange.planOf_good"
   ],
   "note": ""
  },
  {
   "property": "C09",
   "status": "partial",
   "theorems": [
    "MiniCFD.Reconstruct.reconstruct_serial",
    "MiniCFD.Reconstruct.reconstruct_parallel_partial",
    "MiniCFD.Reconstruct.reconstruct_keeps",
    "MiniCFD.Reconstruct.reconstruct_others",
    "MiniCFD.Reconstruct.reconstruct_depends_on_partition"
   ],
   "note": "the claim is false of the code: an inter cell sees its inner neighbours after limiting (witness reconstruct_depends_on_partition); true for inner cells, for inter cells without troubled inner neighbours, and for every quantity the limiter keeps"
  },
  {
   "property": "C52",
   "status": "proved",
   "theorems": [
    "MiniCFD.GhostSetup.getCoord_complete",
    "MiniCFD.GhostSetup.ghostCells_complete"
   ],
   "note": ""
  },
  {
   "property": "C53",
   "status": "proved",
   "theorems": [
    "MiniCFD.Exchange.no_deadlock",
    "MiniCFD.Exchange.lockstep"
   ],
   "note": ""
  },
  {
   "property": "C10",
   "status": "proved",
   "theorems": [
    "MiniCFD.Overset.fringe_exact"
   ],
   "note": ""
  },
  {
   "property": "C11",
   "status": "proved",
   "theorems": [
    "MiniCFD.Overset.donors_exact"
   ],
   "note": ""
  },
  {
   "property": "C12",
   "status": "proved",
   "theorems": [
    "MiniCFD.Sections.sort_renumbers",
    "MiniCFD.Sections.sort_total",
    "MiniCFD.Sections.sort_deterministic",
    "MiniCFD.Sections.sort_keeps_cells"
   ],
   "note": ""
  },
  {
   "property": "C13",
   "status": "proved",
   "theorems": [
    "MiniCFD.Sections.merge_keeps_cells",
    "MiniCFD.Sections.split_keeps_cells",
    "MiniCFD.Sections.merge_split_round_trip",
    "MiniCFD.Sections.merge_mixed_loses_cells"
   ],
   "note": "for zones of non-mixed sections; merging an already mixed section loses its cells, shown by merge_mixed_loses_cells"
  },
  {
   "property": "C14",
   "status": "proved",
   "theorems": [
    "MiniCFD.Fields.run_tidy",
    "MiniCFD.Fields.solution_reference_stable",
    "MiniCFD.Fields.field_reference_stable",
    "MiniCFD.Fields.addSoln_again",
    "MiniCFD.Fields.addField_again",
    "MiniCFD.Fields.addField_new_zero"
   ],
   "note": ""
  },
  {
   "property": "C15",
   "status": "proved",
   "theorems": [
    "MiniCFD.Column.blocks_tile_column",
    "MiniCFD.Column.get_after_set",
    "MiniCFD.Column.set_after_get",
    "MiniCFD.Column.contributions_stay_in_block"
   ],
   "note": ""
  },
  {
   "property": "C16",
   "status": "proved",
   "theorems": [
    "MiniCFD.Simple.burgers_is_godunov"
   ],
   "note": ""
  },
  {
   "property": "C17",
   "status": "proved",
   "theorems": [
    "MiniCFD.Simple.single_upwind",
    "MiniCFD.Simple.double_upwind",
    "MiniCFD.Simple.double_waves_exist",
    "MiniCFD.Simple.multiple_upwind",
    "MiniCFD.Simple.multiple_waves_exist"
   ],
   "note": "for Multiple the eigendecomposition returned by the Eigen library is taken as correct"
  },
  {
   "property": "C20",
   "status": "proved",
   "theorems": [
    "MiniCFD.Euler.toPrim_spec",
    "MiniCFD.Euler.toCons_toPrim",
    "MiniCFD.Euler.toPrim_toCons",
    "MiniCFD.Euler.toPrim_nonneg",
    "MiniCFD.Euler.toPrim_vacuum",
    "MiniCFD.Euler.toPrim_zero_density"
   ],
   "note": ""
  },
  {
   "property": "C21",
   "status": "proved",
   "theorems": [
    "MiniCFD.Euler.normalToGlobal_globalToNormal",
    "MiniCFD.Euler.globalToNormal_normalToGlobal",
    "MiniCFD.Euler.flux_matrix_normal",
    "MiniCFD.Euler.flux_matrix_clipped"
   ],
   "note": ""
  },
  {
   "property": "C22",
   "status": "proved",
   "theorems": [
    "MiniCFD.Euler.ausm_supersonic_right",
    "MiniCFD.Euler.ausm_supersonic_left",
    "MiniCFD.Euler.hllc_supersonic_right",
    "MiniCFD.Euler.hllc_supersonic_left"
   ],
   "note": ""
  },
  {
   "property": "C23",
   "status": "proved",
   "theorems": [
    "MiniCFD.Euler.hllc_contact"
   ],
   "note": ""
  },
  {
   "property": "C24",
   "status": "proved",
   "theorems": [
    "MiniCFD.Euler.solid_wall",
    "MiniCFD.Euler.solid_wall_any"
   ],
   "note": ""
  },
  {
   "property": "C25",
   "status": "proved",
   "theorems": [
    "MiniCFD.Euler.smart_supersonic_inlet",
    "MiniCFD.Euler.smart_subsonic_inlet",
    "MiniCFD.Euler.smart_supersonic_outlet",
    "MiniCFD.Euler.smart_subsonic_outlet",
    "MiniCFD.Euler.subsonic_inlet_same",
    "MiniCFD.Euler.subsonic_outlet_same",
    "MiniCFD.Euler.smart_same"
   ],
   "note": ""
  },
  {
   "property": "C54",
   "status": "proved",
   "theorems": [
    "MiniCFD.Euler.subsonic_inlet_characteristics",
    "MiniCFD.Euler.subsonic_outlet_characteristics"
   ],
   "note": ""
  },
  {
   "property": "C18",
   "status": "proved",
   "theorems": [
    "MiniCFD.Simple.burgers_reversal",
    "MiniCFD.Simple.single_reversal",
    "MiniCFD.Simple.double_reversal",
    "MiniCFD.Simple.double_reversal_defective",
    "MiniCFD.Simple.multiple_reversal",
    "MiniCFD.Euler.ausm_reversal",
    "MiniCFD.Euler.hllc_reversal",
    "MiniCFD.Euler.hllc_collision",
    "MiniCFD.Euler.ausm_mirror",
    "MiniCFD.Euler.hllc_mirror",
    "MiniCFD.Exact.exact_reversal",
    "MiniCFD.Exact.contact_root"
   ],
   "note": "false for HLLC in head-on collisions (hllc_collision) and for Double with a nilpotent coefficient (double_reversal_defective); for the exact solver only up to the tolerance of its root finder, stated with the exact root"
  },
  {
   "property": "C19",
   "status": "proved",
   "theorems": [
    "MiniCFD.Simple.burgers_consistent",
    "MiniCFD.Simple.single_consistent",
    "MiniCFD.Simple.double_consistent",
    "MiniCFD.Simple.multiple_consistent",
    "MiniCFD.Euler.ausm_consistent",
    "MiniCFD.Euler.hllc_consistent",
    "MiniCFD.Exact.exact_consistent"
   ],
   "note": ""
  },
  {
   "property": "C26",
   "status": "proved",
   "theorems": [
    "MiniCFD.Eigen.left_right",
    "MiniCFD.Eigen.right_left",
    "MiniCFD.Eigen.columns_are_eigenvectors"
   ],
   "note": "the Jacobian enters as directional derivatives of the flux"
  },
  {
   "property": "C27",
   "status": "partial",
   "theorems": [
    "MiniCFD.Exact.history_free_gas_partial",
    "MiniCFD.Exact.history_free_tangential_partial",
    "MiniCFD.Exact.history_free_1d",
    "MiniCFD.Exact.history_matters"
   ],
   "note": "false of the code when a vacuum branch is taken in 2D/3D with different tangential velocities (history_matters); true in 1D, without vacuum, and with equal tangential velocities"
  },
  {
   "property": "C55",
   "status": "proved",
   "theorems": [
    "MiniCFD.Exact.ordinary_solves",
    "MiniCFD.Exact.axis_solves",
    "MiniCFD.Exact.right_vacuum_solves",
    "MiniCFD.Exact.left_vacuum_solves",
    "MiniCFD.Exact.middle_vacuum_solves",
    "MiniCFD.Exact.vacuum_criterion"
   ],
   "note": ""
  },
  {
   "property": "C56",
   "status": "proved",
   "theorems": [
    "MiniCFD.Exact.findRoot_total",
    "MiniCFD.Exact.f_prime_is_derivative",
    "MiniCFD.Exact.root_unique",
    "MiniCFD.Exact.call_total"
   ],
   "note": ""
  },
  {
   "property": "C28",
   "status": "proved",
   "theorems": [
    "MiniCFD.RK.linear_step",
    "MiniCFD.RK.linear_steps",
    "MiniCFD.RK.quadrature",
    "MiniCFD.RK.steady",
    "MiniCFD.RK.stage_times",
    "MiniCFD.RK.clock_after",
    "MiniCFD.RK.history_free",
    "MiniCFD.RK.strong_stability",
    "MiniCFD.RK.rk1_converges",
    "MiniCFD.RK.rk2_converges",
    "MiniCFD.RK.rk3_converges"
   ],
   "note": "convergence is stated for a globally Lipschitz right-hand side; after RK1 and RK3 the clock of the system is not t+dt (clock_after)"
  },
  {
   "property": "C29",
   "status": "proved",
   "theorems": [
    "MiniCFD.Frame.frame_right_handed",
    "MiniCFD.Frame.rotate_is_turn",
    "MiniCFD.Frame.rotate_add",
    "MiniCFD.Frame.rotate_full"
   ],
   "note": ""
  },
  {
   "property": "C30",
   "status": "partial",
   "theorems": [
    "MiniCFD.Rotor.placed_after_update_partial",
    "MiniCFD.Rotor.history_free_partial",
    "MiniCFD.Rotor.placed_after_initial",
    "MiniCFD.Rotor.stale_speed",
    "MiniCFD.Rotor.stale_origin",
    "MiniCFD.Rotor.garbage_clock"
   ],
   "note": "false of the code: UpdateAzimuth is skipped when the stored (possibly uninitialised) time equals the argument, and blade end points are cached; proved for updates that are not skipped"
  },
  {
   "property": "C31",
   "status": "partial",
   "theorems": [
    "MiniCFD.Rotor.stations_increase",
    "MiniCFD.Rotor.section_at_station",
    "MiniCFD.Rotor.section_between",
    "MiniCFD.Rotor.section_linear_partial",
    "MiniCFD.Rotor.section_not_linear",
    "MiniCFD.Rotor.section_within",
    "MiniCFD.Rotor.section_total"
   ],
   "note": "false of the code: the two interpolation weights are exchanged (section_not_linear); proved: values at stations, containment between neighbours, exact formula with the mirrored position"
  },
  {
   "property": "C32",
   "status": "proved",
   "theorems": [
    "MiniCFD.Rotor.tables_complete",
    "MiniCFD.Rotor.lookup_total",
    "MiniCFD.Rotor.lookup_tabulated",
    "MiniCFD.Rotor.aoa_in_range",
    "MiniCFD.Rotor.sc1095_total",
    "MiniCFD.Rotor.sc1095_outside",
    "MiniCFD.Rotor.drag_nonneg"
   ],
   "note": "for twists of at most a full turn; the lookup is piecewise constant, not interpolating"
  },
  {
   "property": "C57",
   "status": "proved",
   "theorems": [
    "MiniCFD.RotorHeap.blades_point_home",
    "MiniCFD.RotorHeap.copy_keeps_blades"
   ],
   "note": ""
  },
  {
   "property": "C58",
   "status": "proved",
   "theorems": [
    "MiniCFD.Rotor.velocity_is_derivative"
   ],
   "note": ""
  },
  {
   "property": "C59",
   "status": "proved",
   "theorems": [
    "MiniCFD.Rotor.force_is_lift_and_drag",
    "MiniCFD.Rotor.force_dissipates",
    "MiniCFD.Rotor.linear_dissipates",
    "MiniCFD.Rotor.sc1095_dissipates",
    "MiniCFD.Rotor.linear_symmetric"
   ],
   "note": "for twists of at most a full turn"
  },
  {
   "property": "C33",
   "status": "proved",
   "theorems": [
    "MiniCFD.Lagrange.line_cardinal",
    "MiniCFD.Lagrange.line_partition_of_unity",
    "MiniCFD.Lagrange.line_reproduces",
    "MiniCFD.Lagrange.line_derivatives",
    "MiniCFD.Lagrange.line_cached",
    "MiniCFD.Lagrange.line_derivatives_reproduce",
    "MiniCFD.Lagrange.line_derivatives_sum",
    "MiniCFD.Lagrange.index_bijective",
    "MiniCFD.Lagrange.hex_cardinal",
    "MiniCFD.Lagrange.hex_partition_of_unity",
    "MiniCFD.Lagrange.hex_reproduces",
    "MiniCFD.Lagrange.hex_derivatives_reproduce",
    "MiniCFD.Lagrange.hex_derivatives"
   ],
   "note": "Any number of distinct nodes; the derivative matrix is the inverse Vandermonde matrix of the constructor."
  },
  {
   "property": "C34",
   "status": "partial",
   "theorems": [
    "MiniCFD.Taylor.value33_monomials",
    "MiniCFD.Taylor.expo3_complete",
    "MiniCFD.Taylor.grad33_correct",
    "MiniCFD.Taylor.grad32_correct",
    "MiniCFD.Taylor.grad31_correct",
    "MiniCFD.Taylor.pdv31_correct",
    "MiniCFD.Taylor.pdv32_correct",
    "MiniCFD.Taylor.pdv33_correct_partial",
    "MiniCFD.Taylor.pdv33_yy",
    "MiniCFD.Taylor.pdv33_yy_wrong",
    "MiniCFD.Taylor.pdv33_debug_aborts"
   ],
   "note": "The claim is false of the code for the yy entry of degree three (taylor.hpp:383 adds the xx column); the negation is proved and every other entry is proved right."
  },
  {
   "property": "C35",
   "status": "proved",
   "theorems": [
    "MiniCFD.Vincent.right_ends",
    "MiniCFD.Vincent.left_ends",
    "MiniCFD.Vincent.mirror",
    "MiniCFD.Vincent.right_derivative",
    "MiniCFD.Vincent.left_derivative",
    "MiniCFD.Vincent.right_orthogonal",
    "MiniCFD.Vincent.dg_lifting",
    "MiniCFD.Vincent.dg_lifting_left",
    "MiniCFD.Vincent.huynh_far_end"
   ],
   "note": "Every positive degree and every parameter; std::legendre enters through its recurrence."
  },
  {
   "property": "C36",
   "status": "proved",
   "theorems": [
    "MiniCFD.Ortho.orthonormal",
    "MiniCFD.Ortho.triangular",
    "MiniCFD.Ortho.span_back",
    "MiniCFD.Ortho.transform_eval",
    "MiniCFD.Ortho.fullEval_eq",
    "MiniCFD.Ortho.measure_eq",
    "MiniCFD.Ortho.idempotent",
    "MiniCFD.Ortho.norm_zero_iff"
   ],
   "note": "Any number of functions, any rule with positive weights on whose points the functions are independent; real arithmetic."
  },
  {
   "property": "C37",
   "status": "proved",
   "theorems": [
    "MiniCFD.Gauss.legendre1_exact",
    "MiniCFD.Gauss.legendre2_exact",
    "MiniCFD.Gauss.legendre3_exact",
    "MiniCFD.Gauss.legendre4_exact",
    "MiniCFD.Gauss.legendre5_exact",
    "MiniCFD.Gauss.legendre6_near",
    "MiniCFD.Gauss.lobatto2_exact",
    "MiniCFD.Gauss.lobatto3_exact",
    "MiniCFD.Gauss.lobatto4_exact",
    "MiniCFD.Gauss.lobatto5_exact",
    "MiniCFD.Gauss.lobatto6_exact",
    "MiniCFD.Gauss.jacobi1_near",
    "MiniCFD.Gauss.jacobi2_near",
    "MiniCFD.Gauss.jacobi3_near",
    "MiniCFD.Gauss.jacobi4_near",
    "MiniCFD.Gauss.jacobi5_near",
    "MiniCFD.Gauss.legendre1_sound",
    "MiniCFD.Gauss.legendre2_sound",
    "MiniCFD.Gauss.legendre3_sound",
    "MiniCFD.Gauss.legendre4_sound",
    "MiniCFD.Gauss.legendre5_sound",
    "MiniCFD.Gauss.legendre6_sound",
    "MiniCFD.Gauss.lobatto2_sound",
    "MiniCFD.Gauss.lobatto3_sound",
    "MiniCFD.Gauss.lobatto4_sound",
    "MiniCFD.Gauss.lobatto5_sound",
    "MiniCFD.Gauss.lobatto6_sound",
    "MiniCFD.Gauss.lobatto_ends",
    "MiniCFD.Gauss.jacobi_sound",
    "MiniCFD.Gauss.triangle1_near",
    "MiniCFD.Gauss.triangle3_exact",
    "MiniCFD.Gauss.triangle6_near",
    "MiniCFD.Gauss.triangle12_near",
    "MiniCFD.Gauss.triangle16_near",
    "MiniCFD.Gauss.triangle_sound",
    "MiniCFD.Gauss.triangle_count",
    "MiniCFD.Gauss.triangle_sharp",
    "MiniCFD.Gauss.tetrahedron1_exact",
    "MiniCFD.Gauss.tetrahedron4_near",
    "MiniCFD.Gauss.tetrahedron14_near",
    "MiniCFD.Gauss.tetrahedron15_near",
    "MiniCFD.Gauss.tetrahedron24_near",
    "MiniCFD.Gauss.tetrahedron46_near",
    "MiniCFD.Gauss.tetrahedron_sound",
    "MiniCFD.Gauss.tetrahedron_count",
    "MiniCFD.Gauss.quadrangle_exact",
    "MiniCFD.Gauss.hexahedron_exact",
    "MiniCFD.Gauss.wedge_near",
    "MiniCFD.Gauss.pyramid_near",
    "MiniCFD.Gauss.jacobi_off_apex",
    "MiniCFD.Gauss.integrate_global",
    "MiniCFD.Gauss.line_exact"
   ],
   "note": "closed-form rules exactly, decimal tables up to a stated bound"
  },
  {
   "property": "C38",
   "status": "proved",
   "theorems": [
    "MiniCFD.DirectDG.commonGradientH_eq",
    "MiniCFD.DirectDG.pack_surjective",
    "MiniCFD.DirectDG.commonGradient_eq",
    "MiniCFD.DirectDG.consistent",
    "MiniCFD.DirectDG.consistent'",
    "MiniCFD.DirectDG.swap",
    "MiniCFD.DirectDG.swap'",
    "MiniCFD.DirectDG.flux_opposite",
    "MiniCFD.DirectDG.linear",
    "MiniCFD.DirectDG.penalty_normal",
    "MiniCFD.DirectDG.flux_matrix_normal",
    "MiniCFD.DirectDG.dissipative",
    "MiniCFD.DirectDG.isotropic_flux"
   ],
   "note": "Any field; both constructors of the packed Hessian."
  },
  {
   "property": "C39",
   "status": "partial",
   "theorems": [
    "MiniCFD.Intersect.intersect_partial",
    "MiniCFD.Intersect.meetsAt_unique",
    "MiniCFD.Intersect.coplanar_missed",
    "MiniCFD.Intersect.coplanar_invented"
   ],
   "note": "False of the code when the segment and the triangle lie in one plane with the start point (intersect.hpp:24-25 leaves the case open): a missed and an invented intersection are proved; every other input is proved right."
  },
  {
   "property": "C40",
   "status": "proved",
   "theorems": [
    "MiniCFD.Shape.shape_family",
    "MiniCFD.Shape.local_to_global_node",
    "MiniCFD.Shape.local_to_global_commutes",
    "MiniCFD.Shape.local_to_global_affine",
    "MiniCFD.Shape.hexahedron_hessians",
    "MiniCFD.Shape.hexahedron_thirds"
   ],
   "note": "All 17 shipped elements."
  },
  {
   "property": "C42",
   "status": "proved",
   "theorems": [
    "MiniCFD.Cell.jacobian_partial",
    "MiniCFD.Cell.det_gradient_defined",
    "MiniCFD.Cell.det_gradient",
    "MiniCFD.Cell.det_hessian"
   ],
   "note": "Tetrahedra, pyramids and wedges inherit an empty vector of Hessians: proved undefined (none)."
  },
  {
   "property": "C60",
   "status": "proved",
   "theorems": [
    "MiniCFD.Shape.local_to_global_quadratic",
    "MiniCFD.Shape.hexahedron27_triquadratic",
    "MiniCFD.Shape.reproduces_product"
   ],
   "note": "Pyramids excluded: their straight version is not polynomial of degree one."
  },
  {
   "property": "C61",
   "status": "proved",
   "theorems": [
    "MiniCFD.Cell.global_to_local_straight",
    "MiniCFD.Cell.global_to_local_some",
    "MiniCFD.Cell.global_to_local_hint",
    "MiniCFD.Cell.global_to_local_rounds"
   ],
   "note": "Termination on curved cells is not claimed: the loop has no bound."
  },
  {
   "property": "C62",
   "status": "proved",
   "theorems": [
    "MiniCFD.Cell.frame_right_handed",
    "MiniCFD.Cell.frame_tangent"
   ],
   "note": ""
  },
  {
   "property": "C63",
   "status": "partial",
   "theorems": [
    "MiniCFD.Cell.outward_normal_partial",
    "MiniCFD.Cell.outward_normal_skewed"
   ],
   "note": "False of the code for skewed cells (hexahedron.hpp:41-73 normalises an edge direction): refuted on a parallelepiped; proved where the edge is orthogonal to the face."
  },
  {
   "property": "C41",
   "status": "proved",
   "theorems": [
    "MiniCFD.SortNodes.sort_proper",
    "MiniCFD.SortNodes.sort_order_irrelevant",
    "MiniCFD.SortNodes.faces_closed",
    "MiniCFD.SortNodes.sort_outward"
   ],
   "note": "All 12 cell classes; outwardness in physical space for positively oriented affine images of the CGNS cells."
  },
  {
   "property": "C44",
   "status": "proved",
   "theorems": [
    "MiniCFD.Projection.reproduces",
    "MiniCFD.Projection.idempotent",
    "MiniCFD.Projection.pythagoras",
    "MiniCFD.Projection.best",
    "MiniCFD.Projection.mean",
    "MiniCFD.Projection.arithmetic",
    "MiniCFD.Projection.arithmetic_average",
    "MiniCFD.Projection.on_taylor",
    "MiniCFD.Projection.read_write",
    "MiniCFD.Projection.add_layout",
    "MiniCFD.Projection.ortho_sound"
   ],
   "note": "Any orthonormal basis whose first function is constant; OrthoNormal's constructor yields one for positive rules with independent Taylor functions."
  },
  {
   "property": "C43",
   "status": "proved",
   "theorems": [
    "MiniCFD.Weno.lazy_average",
    "MiniCFD.Weno.lazy_convex",
    "MiniCFD.Weno.candidate",
    "MiniCFD.Weno.lazy_unchanged",
    "MiniCFD.Weno.own_weight_nonpos",
    "MiniCFD.Weno.dummy_unchanged",
    "MiniCFD.Weno.eigen_average",
    "MiniCFD.Weno.eigen_unchanged",
    "MiniCFD.Weno.onFace_convex",
    "MiniCFD.Weno.eigen_defined",
    "MiniCFD.Weno.eigen_isolated",
    "MiniCFD.Weno.lazy_isolated",
    "MiniCFD.Weno.eigen_average_euler"
   ],
   "note": "The bound needed is (number of neighbours) * w0 < 1; Eigen divides by zero on a cell without neighbours."
  },
  {
   "property": "C64",
   "status": "proved",
   "theorems": [
    "MiniCFD.Weno.troubled_iff",
    "MiniCFD.Weno.agreeing_not_troubled",
    "MiniCFD.Weno.troubled_congr",
    "MiniCFD.Weno.troubled_perm",
    "MiniCFD.Weno.troubled_scale",
    "MiniCFD.Weno.maxAbs_least"
   ],
   "note": "Units: as long as the averages stay above the floor 1e-9."
  },
  {
   "property": "C65",
   "status": "partial",
   "theorems": [
    "MiniCFD.Weno.smoothness2_correct",
    "MiniCFD.Weno.smoothness1_scaled",
    "MiniCFD.Weno.smoothness3_error_partial",
    "MiniCFD.Weno.smoothness3_wrong",
    "MiniCFD.Weno.smoothness0_nonneg",
    "MiniCFD.Weno.smoothness1_nonneg",
    "MiniCFD.Weno.smoothness2_nonneg",
    "MiniCFD.Weno.smoothness3_nonneg"
   ],
   "note": "Holds for degree 2. Degree 1 misses the factor V^(-1/3) (taylor.hpp:199-202); degree 3 uses a wrong second derivative along y (taylor.hpp:383): the exact error is given and refuted on x^2."
  },
  {
   "property": "C45",
   "status": "proved",
   "theorems": [
    "MiniCFD.Residual.general_conservative",
    "MiniCFD.Residual.ortho_hasUnit",
    "MiniCFD.Residual.taylor_flat",
    "MiniCFD.Residual.lobatto_conservative",
    "MiniCFD.FR.general_conservative",
    "MiniCFD.FR.lobatto_conservative",
    "MiniCFD.FR.defined",
    "MiniCFD.FR.viscous_zero",
    "MiniCFD.FR.lobatto_lines",
    "MiniCFD.FR.twoCubes_conforming"
   ],
   "note": "DG and FR, General and Lobatto, over any number of parts. Hypotheses: both sides of an interface between parts use fluxes that are each other's reverse (C18, C29) and, for FR, face weights times normals are the area vectors of the cells."
  },
  {
   "property": "C46",
   "status": "partial",
   "theorems": [
    "MiniCFD.Residual.last_wins",
    "MiniCFD.Residual.walls_accumulate",
    "MiniCFD.Residual.residual_perm",
    "MiniCFD.Residual.residual_of_history",
    "MiniCFD.Residual.reregister",
    "MiniCFD.Residual.job_additive",
    "MiniCFD.Residual.wall_twice",
    "MiniCFD.Residual.outlet_twice",
    "MiniCFD.Residual.general_defined",
    "MiniCFD.Residual.wall_not_idempotent"
   ],
   "note": "Last-wins and independence of order hold for the conditions kept in maps. Registering a solid wall or a supersonic outlet twice doubles its flux: refuted by wall_not_idempotent."
  },
  {
   "property": "C49",
   "status": "proved",
   "theorems": [
    "MiniCFD.Residual.lobatto_eq_general",
    "MiniCFD.FR.lobatto_eq_general",
    "MiniCFD.FR.same_cache"
   ],
   "note": "DG: columns before the division by the diagonal mass matrix. FR: General with the lumping parameter, any part."
  },
  {
   "property": "C50",
   "status": "proved",
   "theorems": [
    "MiniCFD.Tables.sym2_slots",
    "MiniCFD.Tables.sym3_slots",
    "MiniCFD.Tables.sym3_extends",
    "MiniCFD.Tables.nodes_agree",
    "MiniCFD.Tables.faces_agree",
    "MiniCFD.Tables.faces_other",
    "MiniCFD.Tables.build_agrees",
    "MiniCFD.Tables.check_iff",
    "MiniCFD.Tables.pyramids_left_out",
    "MiniCFD.Vtk.types_documented",
    "MiniCFD.Vtk.tables_nodup",
    "MiniCFD.Vtk.tables_between",
    "MiniCFD.Vtk.tables_corners",
    "MiniCFD.Vtk.table64"
   ],
   "note": "All entries of fixed tables. Findings: dim and CheckTypeDim leave out pyramids; the first-order wedge table of vtk.hpp lists the corners in another order than the second-order one."
  },
  {
   "property": "C66",
   "status": "proved",
   "theorems": [
    "MiniCFD.Vtk.file_shows_cells",
    "MiniCFD.Vtk.file_undefined",
    "MiniCFD.Vtk.shows_nodes",
    "MiniCFD.Vtk.shown_all",
    "MiniCFD.Vtk.shows_first_order"
   ],
   "note": "Contents of the piece; the XML text and the base64 encoding of numbers are C01's. Undefined for a part without cells and for pyramids."
  },
  {
   "property": "C48",
   "status": "proved",
   "theorems": [
    "MiniCFD.LocalHex.cache_defined",
    "MiniCFD.LocalHex.get_value",
    "MiniCFD.LocalHex.approximate_nodes",
    "MiniCFD.LocalHex.approximate_nodes_global",
    "MiniCFD.LocalHex.approximate_exact",
    "MiniCFD.LocalHex.approximate_exact_global",
    "MiniCFD.LocalHex.local_to_global_gradient",
    "MiniCFD.LocalHex.get_global_gradient",
    "MiniCFD.LocalHex.get_global_gradient_global",
    "MiniCFD.LocalHex.get_global_hessian",
    "MiniCFD.LocalHex.basis_gradients_defined",
    "MiniCFD.LocalHex.basis_hessians_defined",
    "MiniCFD.LocalHex.assoc_cross",
    "MiniCFD.LocalHex.flux_divergence"
   ],
   "note": "For every hexahedral class, any coordinates and any point with non-vanishing determinant. Finding: the basis tables of second derivatives need degree two, below that the constructor reads past the end (basis_hessians_defined)."
  },
  {
   "property": "C47",
   "status": "proved",
   "theorems": [
    "MiniCFD.Coordinates.run_moves",
    "MiniCFD.Coordinates.run_dist",
    "MiniCFD.Coordinates.mapAll_append",
    "MiniCFD.Coordinates.run_undo",
    "MiniCFD.Coordinates.fixed",
    "MiniCFD.Coordinates.rotations_add",
    "MiniCFD.Coordinates.rotate_undefined"
   ],
   "note": "Files of any number of bases, zones and nodes; any history of calls."
  },
  {
   "property": "C67",
   "status": "proved",
   "theorems": [
    "MiniCFD.Conform.face_traces_side",
    "MiniCFD.Conform.face_is_side",
    "MiniCFD.Conform.shared_side",
    "MiniCFD.Conform.place_standard"
   ],
   "note": "All classes of three-dimensional cells with SortNodesOnFace, curved cells included. The mesh has to list the common side of two cells as one polygon (Same)."
  },
  {
   "property": "C68",
   "status": "proved",
   "theorems": [
    "MiniCFD.Conform.normal_outward",
    "MiniCFD.Conform.standard_hand"
   ],
   "note": "At every point of a side with a Jacobian of the stated sign; for tetrahedra in CGNS order that sign is negative (standard_hand)."
  },
  {
   "property": "C69",
   "status": "proved",
   "theorems": [
    "MiniCFD.Faces.local_faces",
    "MiniCFD.Faces.ghost_faces",
    "MiniCFD.Faces.adjacent_lists",
    "MiniCFD.Faces.adjacent_symmetric",
    "MiniCFD.Faces.adjacent_across",
    "MiniCFD.Faces.two_sides",
    "MiniCFD.Faces.hash_irrelevant",
    "MiniCFD.Faces.repeated_node",
    "MiniCFD.Faces.across_zones"
   ],
   "note": "For cells of one zone whose common nodes are a side of the holder; across_zones and repeated_node show what happens otherwise."
  },
  {
   "property": "C70",
   "status": "proved",
   "theorems": [
    "MiniCFD.Faces.boundary_faces",
    "MiniCFD.Faces.face_ids",
    "MiniCFD.Faces.named_faces",
    "MiniCFD.Faces.named_unknown",
    "MiniCFD.Faces.holder_missing",
    "MiniCFD.Faces.lines_out_of_order",
    "MiniCFD.Faces.same_name",
    "MiniCFD.Faces.holder_by_chance"
   ],
   "note": "For sections in increasing order, as the shuffler writes them; the last four theorems show what happens when the conditions are not met."
  },
  {
   "property": "C71",
   "status": "proved",
   "theorems": [
    "MiniCFD.Residual.general_weak",
    "MiniCFD.Residual.lobatto_weak"
   ],
   "note": ""
  },
  {
   "property": "C72",
   "status": "proved",
   "theorems": [
    "MiniCFD.Residual.general_uniform",
    "MiniCFD.Residual.lobatto_uniform"
   ],
   "note": "The divergence theorem for the quadrature rules is a hypothesis; it is checked on the example."
  },
  {
   "property": "C73",
   "status": "partial",
   "theorems": [
    "MiniCFD.Source.chord_partial",
    "MiniCFD.Source.inner_start",
    "MiniCFD.Source.inner_end",
    "MiniCFD.Source.inner_both",
    "MiniCFD.Source.boundary_side",
    "MiniCFD.Source.starts_inside",
    "MiniCFD.Source.ends_inside",
    "MiniCFD.Source.through_edge"
   ],
   "note": "Proved for blades with both ends outside the cell, off its edges, and cells without boundary sides; refuted otherwise: with one end inside the heuristic keeps the wrong piece when the crossing is past the middle of the blade, a blade within the cell and boundary sides are missed."
  },
  {
   "property": "C74",
   "status": "proved",
   "theorems": [
    "MiniCFD.Source.source_entry",
    "MiniCFD.Source.source_defined",
    "MiniCFD.Source.untouched",
    "MiniCFD.Source.no_source",
    "MiniCFD.Source.forces_again",
    "MiniCFD.Source.report_length",
    "MiniCFD.Source.update_twice",
    "MiniCFD.Source.section_coefficients"
   ],
   "note": "The limiter of WithLimiterAndSource is C09's."
  },
  {
   "property": "C75",
   "status": "proved",
   "theorems": [
    "MiniCFD.Checkpoint.file_content",
    "MiniCFD.Checkpoint.read_back",
    "MiniCFD.Checkpoint.restart",
    "MiniCFD.Checkpoint.checkpoint",
    "MiniCFD.Checkpoint.sections_from_two",
    "MiniCFD.Checkpoint.zones_made",
    "MiniCFD.Checkpoint.not_gathered",
    "MiniCFD.Checkpoint.earlier_lost",
    "MiniCFD.Checkpoint.earlier_kept"
   ],
   "note": "Of a file only the fields over cells are modelled; whether the CGNS library keeps the values of a field created again is a parameter."
  },
  {
   "property": "C76",
   "status": "proved",
   "theorems": [
    "MiniCFD.Viscosity.damping",
    "MiniCFD.Viscosity.same_matrices",
    "MiniCFD.Viscosity.not_damped",
    "MiniCFD.Viscosity.damping_symm",
    "MiniCFD.Viscosity.damping_energy",
    "MiniCFD.Viscosity.damping_dissipates",
    "MiniCFD.Viscosity.solution_lost",
    "MiniCFD.Viscosity.viscosity_lost",
    "MiniCFD.Viscosity.known_dgGlobal",
    "MiniCFD.Viscosity.known_dgLocal",
    "MiniCFD.Viscosity.known_dgMixed",
    "MiniCFD.Viscosity.known_fr",
    "MiniCFD.Viscosity.residual_weak"
   ],
   "note": "The hypotheses of damping are proved for all schemes in known_*."
  },
  {
   "property": "C77",
   "status": "proved",
   "theorems": [
    "MiniCFD.FaceParts.face_goes_with_cell",
    "MiniCFD.FaceParts.accepted_iff",
    "MiniCFD.FaceParts.fill",
    "MiniCFD.FaceParts.holder_on_its_part",
    "MiniCFD.FaceParts.orphan_face",
    "MiniCFD.FaceParts.some_holder",
    "MiniCFD.FaceParts.part_by_chance",
    "MiniCFD.FaceParts.node_missing"
   ],
   "note": "holder_on_its_part uses the node numbers of METIS on every part, i.e. one zone."
  },
  {
   "property": "C78",
   "status": "proved",
   "theorems": [
    "MiniCFD.Parallel.same_rates",
    "MiniCFD.Parallel.same_run",
    "MiniCFD.Parallel.gather"
   ],
   "note": "Without a limiter (C09 covers limiters). Hypothesis: each cell has the same surface on its process as on a single one, with reversed solvers where a process looks from the other side."
  },
  {
   "property": "C79",
   "status": "proved",
   "theorems": [
    "MiniCFD.Driver.loop_frames",
    "MiniCFD.Driver.frame_times",
    "MiniCFD.Driver.stop_and_go",
    "MiniCFD.Driver.after_run"
   ],
   "note": "What is read back is what was written (C75); restarts on as many processes as before."
  },
  {
   "property": "C80",
   "status": "partial",
   "theorems": [
    "MiniCFD.Driver.forces_partial",
    "MiniCFD.Driver.forces_late"
   ],
   "note": "False as stated: t_curr is computed before i_step is moved to the end of the frame, so every frame but the first gets the forces at the time of the frame before (forces_late). Proved: one file per frame, from the solution of that frame."
  },
  {
   "property": "C81",
   "status": "proved",
   "theorems": [
    "MiniCFD.Driver.weights_sum",
    "MiniCFD.Driver.step_balance",
    "MiniCFD.Driver.run_balance",
    "MiniCFD.Driver.rates_balance",
    "MiniCFD.Driver.inventory_run",
    "MiniCFD.Driver.inventory_closed",
    "MiniCFD.Driver.limitAll_keeps",
    "MiniCFD.Driver.lazy_first",
    "MiniCFD.Driver.eigen_first"
   ],
   "note": "dg::General on one process, with Reconstruct as the limiter; for several processes combine with C78 and C09."
  },
  {
   "property": "C82",
   "status": "proved",
   "theorems": [
    "MiniCFD.PyRK.defined_iff",
    "MiniCFD.PyRK.agrees",
    "MiniCFD.PyRK.clock",
    "MiniCFD.PyRK.stages",
    "MiniCFD.PyRK.linear_step",
    "MiniCFD.PyRK.conserves",
    "MiniCFD.PyRK.steady",
    "MiniCFD.PyRK.quadrature",
    "MiniCFD.PyRK.converges",
    "MiniCFD.PyRK.strong_stability",
    "MiniCFD.PyRK.fourth_not_stable"
   ],
   "note": "Rounding left out. fourth_not_stable shows why strong stability stops at order 3."
  },
  {
   "property": "C83",
   "status": "proved",
   "theorems": [
    "MiniCFD.PyLoop.run_covers",
    "MiniCFD.PyLoop.run_ends",
    "MiniCFD.PyLoop.blazek_bounds",
    "MiniCFD.PyLoop.factor_grows",
    "MiniCFD.PyLoop.blazek_diffusive",
    "MiniCFD.PyLoop.blazek_out_of_range",
    "MiniCFD.PyLoop.animate_covers"
   ],
   "note": "Rounding left out. Without a positive lower bound on suggestions the loop need not end (example after the theorems)."
  },
  {
   "property": "C84",
   "status": "partial",
   "theorems": [
    "MiniCFD.PyLoop.viscosity_fresh_partial",
    "MiniCFD.PyLoop.animate_stale"
   ],
   "note": "False for animate, the default output mode: it never calls apply_viscosity, so all steps use the initial viscosity (animate_stale). Proved for solve_and_write."
  },
  {
   "property": "C85",
   "status": "proved",
   "theorems": [
    "MiniCFD.PyScalar.radius_is_speed",
    "MiniCFD.PyScalar.linear_solves",
    "MiniCFD.PyScalar.burgers_solves",
    "MiniCFD.PyScalar.burgers_bounds",
    "MiniCFD.PyScalar.burgers_conserves",
    "MiniCFD.PyScalar.linear_conserves",
    "MiniCFD.PyScalar.initial",
    "MiniCFD.PyScalar.burgers_godunov",
    "MiniCFD.PyScalar.linear_godunov",
    "MiniCFD.PyScalar.godunov_monotone",
    "MiniCFD.PyScalar.flux_on_axis"
   ],
   "note": "Rounding left out."
  },
  {
   "property": "C86",
   "status": "partial",
   "theorems": [
    "MiniCFD.PyScalar.Coupled.round_trip",
    "MiniCFD.PyScalar.Coupled.eigen",
    "MiniCFD.PyScalar.Coupled.jacobian_is_derivative",
    "MiniCFD.PyScalar.Coupled.diffusion",
    "MiniCFD.PyScalar.CoupledSolver.solves",
    "MiniCFD.PyScalar.CoupledSolver.upwind",
    "MiniCFD.PyScalar.CoupledSolver.consistent",
    "MiniCFD.PyScalar.CoupledSolver.no_initial",
    "MiniCFD.PyScalar.CoupledSolver.initial_partial"
   ],
   "note": "False at t = 0: Coupled.get_value returns None there, since set_initial does not store the states it would return (no_initial). Everything else proved."
  },
  {
   "property": "C87",
   "status": "partial",
   "theorems": [
    "MiniCFD.PyEuler.round_trip",
    "MiniCFD.PyEuler.toPrim_defined",
    "MiniCFD.PyEuler.flux_physical",
    "MiniCFD.PyEuler.jacobian_is_derivative",
    "MiniCFD.PyEuler.homogeneous",
    "MiniCFD.PyEuler.eigen",
    "MiniCFD.PyEuler.vector_viscosity",
    "MiniCFD.PyEuler.scalar_viscosity",
    "MiniCFD.PyEuler.characteristics_partial",
    "MiniCFD.PyEuler.characteristics_lost"
   ],
   "note": "All proved but the last: from_characteristics uses the matrix of the characteristic vector instead of the state, so the round trip fails for every state at rest (characteristics_lost)."
  },
  {
   "property": "C88",
   "status": "proved",
   "theorems": [
    "MiniCFD.PyEuler.roe_defined",
    "MiniCFD.PyEuler.roe_linearisation",
    "MiniCFD.PyEuler.roe_consistent",
    "MiniCFD.PyEuler.roe_upwind",
    "MiniCFD.PyEuler.roe_stationary",
    "MiniCFD.PyEuler.roe_mirror",
    "MiniCFD.PyEuler.roe_expansion_shock"
   ],
   "note": "Rounding left out. roe_expansion_shock: discontinuities that violate the entropy condition are kept too."
  },
  {
   "property": "C89",
   "status": "partial",
   "theorems": [
    "MiniCFD.PyEuler.lax_consistent",
    "MiniCFD.PyEuler.lax_mirror",
    "MiniCFD.PyEuler.lax_positive",
    "MiniCFD.PyEuler.lax_no_value"
   ],
   "note": "False in the last part: get_upwind_value of the class always fails, and a face asks for it (lax_no_value). Everything else proved."
  },
  {
   "property": "C90",
   "status": "partial",
   "theorems": [
    "MiniCFD.PyExact.guess_ends",
    "MiniCFD.PyExact.solves_partial",
    "MiniCFD.PyExact.flux_on_axis_partial",
    "MiniCFD.PyExact.initial",
    "MiniCFD.PyExact.consistent",
    "MiniCFD.PyExact.thin_gas"
   ],
   "note": "False for thin gases: weak waves are recognised by absolute tolerances (1e-10 on the left, 1e-8 on the right), so for pressures below them shocks of any strength are dropped (thin_gas). Proved when the root equals the data or is further away than the tolerances. fsolve is a parameter."
  },
  {
   "property": "C91",
   "status": "partial",
   "theorems": [
    "MiniCFD.PyExact.vacuum_partial",
    "MiniCFD.PyExact.vacuum_no_flux"
   ],
   "note": "False inside the vacuum: the values are nan and get_upwind_flux fails (vacuum_no_flux). Proved for all other rays."
  },
  {
   "property": "C92",
   "status": "partial",
   "theorems": [
    "MiniCFD.PyPoly.radau_pair",
    "MiniCFD.PyPoly.radau_orthogonal",
    "MiniCFD.PyPoly.vincent_pair_partial",
    "MiniCFD.PyPoly.vincent_degree_one",
    "MiniCFD.PyPoly.vincent_default_dead",
    "MiniCFD.PyPoly.vincent_memo",
    "MiniCFD.PyPoly.huynh_regular",
    "MiniCFD.PyPoly.huynh_defined",
    "MiniCFD.PyPoly.huynh_conditions",
    "MiniCFD.PyPoly.huynh_unique",
    "MiniCFD.PyPoly.huynh_pair",
    "MiniCFD.PyPoly.huynh_galerkin",
    "MiniCFD.PyPoly.huynh_lobatto",
    "MiniCFD.PyPoly.lagrange_basis",
    "MiniCFD.PyPoly.lagrange_reproduces"
   ],
   "note": "False for Vincent of degree one with any ratio but 1, the default included: eval_legendre(-1, x) is one, so the right function does not vanish at the left end (vincent_degree_one), and with the default ratio both gradients vanish (vincent_default_dead). Proved for all other degrees and ratios. eval_legendre enters through its recurrence, roots_legendre through exactness."
  },
  {
   "property": "C93",
   "status": "proved",
   "theorems": [
    "MiniCFD.PyQuad.coordinate_spec",
    "MiniCFD.PyQuad.shifted_spec",
    "MiniCFD.PyQuad.integrate_exact",
    "MiniCFD.PyQuad.average_exact",
    "MiniCFD.PyQuad.average_const",
    "MiniCFD.PyQuad.shifted_integrate",
    "MiniCFD.PyQuad.norms",
    "MiniCFD.PyQuad.norm_infty",
    "MiniCFD.PyQuad.lobatto_exact",
    "MiniCFD.PyQuad.lobatto_near",
    "MiniCFD.PyQuad.lobatto_sound",
    "MiniCFD.PyQuad.roots_exist",
    "MiniCFD.PyQuad.roots_of_legendre",
    "MiniCFD.PyQuad.roots_unique"
   ],
   "note": "scipy.special.roots_legendre enters as a rule exact to the required degree; such a rule exists for every number of points, its points are the roots of the Legendre polynomial and it is unique (roots_exist, roots_of_legendre, roots_unique). The bisection for more than 10 Lobatto points is not modelled."
  },
  {
   "property": "C94",
   "status": "partial",
   "theorems": [
    "MiniCFD.PyExpansion.constructors",
    "MiniCFD.PyExpansion.basis_values",
    "MiniCFD.PyExpansion.basis_derivatives",
    "MiniCFD.PyExpansion.cached_basis_derivatives",
    "MiniCFD.PyExpansion.round_trip",
    "MiniCFD.PyExpansion.value_eq",
    "MiniCFD.PyExpansion.value_at_points",
    "MiniCFD.PyExpansion.value_derivatives",
    "MiniCFD.PyExpansion.average_eq",
    "MiniCFD.PyExpansion.approximate_interpolates",
    "MiniCFD.PyExpansion.modal_interpolates",
    "MiniCFD.PyExpansion.modal_eq_nodal",
    "MiniCFD.PyExpansion.approximate_reproduces_partial",
    "MiniCFD.PyExpansion.lobatto_samples",
    "MiniCFD.PyExpansion.lobatto_not_reproduced",
    "MiniCFD.PyExpansion.mass_matrix",
    "MiniCFD.PyExpansion.parseval",
    "MiniCFD.PyExpansion.truncate_spec"
   ],
   "note": "Reproduction is false for LagrangeOnLobattoRoots, which samples 1e-10 inside the ends (lobatto_not_reproduced, lobatto_samples); proved for the other three. Averages on Lobatto nodes for the closed rules with up to six points. roots_legendre enters as a rule exact to degree 2p+1, whose points are shown to be distinct."
  },
  {
   "property": "C95",
   "status": "proved",
   "theorems": [
    "MiniCFD.PyDG.weak_form",
    "MiniCFD.PyDG.weak_form_exact",
    "MiniCFD.PyDG.residual_unique",
    "MiniCFD.PyDG.basis_independent",
    "MiniCFD.PyDG.scheme_independent",
    "MiniCFD.PyDG.length_average",
    "MiniCFD.PyDG.cell_balance",
    "MiniCFD.PyDG.conservation",
    "MiniCFD.PyDG.conservation_ends",
    "MiniCFD.PyDG.free_stream",
    "MiniCFD.PyDG.consistent",
    "MiniCFD.PyDG.interface_consistent",
    "MiniCFD.PyDG.linear_exact"
   ],
   "note": "Uniform states and exactness on Lobatto nodes for the rules with up to six points (those of C93). Riemann solvers that raise are outside; limiters off."
  },
  {
   "property": "C96",
   "status": "partial",
   "theorems": [
    "MiniCFD.PyEnergy.energy_exact",
    "MiniCFD.PyEnergy.convection_balance",
    "MiniCFD.PyEnergy.godunov_dissipates",
    "MiniCFD.PyEnergy.energy_derivative",
    "MiniCFD.PyEnergy.convection_stable",
    "MiniCFD.PyEnergy.linear_stable",
    "MiniCFD.PyEnergy.burgers_stable_partial",
    "MiniCFD.PyEnergy.burgers_gains_energy"
   ],
   "note": "Linear advection: all degrees and kinds (Lobatto up to degree 5). Burgers: proved up to degree 2 off Lobatto nodes, where the quadrature is exact; refuted at degree 3 by a continuous state that gains energy on every grid (burgers_gains_energy)."
  },
  {
   "property": "C97",
   "status": "partial",
   "theorems": [
    "MiniCFD.PyEnergy.cell_coercive",
    "MiniCFD.PyEnergy.diffusive_face",
    "MiniCFD.PyEnergy.diffusion_balance",
    "MiniCFD.PyEnergy.diffusion_dissipates_partial",
    "MiniCFD.PyEnergy.diffusion_stable_partial",
    "MiniCFD.PyEnergy.diffusion_gains_energy",
    "MiniCFD.PyEnergy.degree_zero_diffusion"
   ],
   "note": "Proved up to degree 4 (all kinds of elements); refuted for every degree from 5 on, on every uniform grid (diffusion_gains_energy). At degree 0 the diffusion is three times too strong (degree_zero_diffusion)."
  },
  {
   "property": "C98",
   "status": "partial",
   "theorems": [
    "MiniCFD.PyFR.interpolates_unique",
    "MiniCFD.PyFR.interpolates_exists",
    "MiniCFD.PyFR.reconstruction",
    "MiniCFD.PyFR.frFlux_ends",
    "MiniCFD.PyFR.balance",
    "MiniCFD.PyFR.conservation_partial",
    "MiniCFD.PyFR.free_stream",
    "MiniCFD.PyFR.consistent",
    "MiniCFD.PyFR.corrections",
    "MiniCFD.PyFR.not_conservative",
    "MiniCFD.PyFR.unset",
    "MiniCFD.PyFR.degree_zero_frozen",
    "MiniCFD.PyFR.radau_reverses"
   ],
   "note": "Conservation holds on Lobatto nodes and wherever the flux stays within the polynomials of the element (conservation_partial); refuted on Legendre nodes for Burgers at degree 2, whatever the correction function and Riemann solver (not_conservative). solver.py never sets a correction function (unset); the default one of degree one freezes the solution (degree_zero_frozen); Radau reverses the flow (radau_reverses)."
  },
  {
   "property": "C99",
   "status": "proved",
   "theorems": [
    "MiniCFD.PyFR.weak_form",
    "MiniCFD.PyFR.equals_dg",
    "MiniCFD.PyFR.no_jump",
    "MiniCFD.PyFR.scheme_equals_dg",
    "MiniCFD.PyFR.matched_gauss",
    "MiniCFD.PyFR.matched_lobatto",
    "MiniCFD.PyFR.linear_flux",
    "MiniCFD.PyFR.same_as_dg"
   ],
   "note": "Equations without diffusion: flux reconstruction has no interface correction."
  },
  {
   "property": "C100",
   "status": "proved",
   "theorems": [
    "MiniCFD.PyGrid.uniform",
    "MiniCFD.PyGrid.lookup",
    "MiniCFD.PyGrid.value",
    "MiniCFD.PyGrid.beyond",
    "MiniCFD.PyGrid.before"
   ],
   "note": "Left of the grid the index is -1, so that the last element answers (before)."
  },
  {
   "property": "C101",
   "status": "proved",
   "theorems": [
    "MiniCFD.PyGrid.faces_fresh",
    "MiniCFD.PyGrid.faces_once",
    "MiniCFD.PyGrid.neighbours",
    "MiniCFD.PyGrid.refused",
    "MiniCFD.PyGrid.relink",
    "MiniCFD.PyGrid.adjacent",
    "MiniCFD.PyGrid.same_faces",
    "MiniCFD.PyGrid.flux_value_faces"
   ],
   "note": "get_flux_value of flux reconstruction is not part of the residual: it takes periodic neighbours even on a grid with boundary values (flux_value_faces)."
  },
  {
   "property": "C102",
   "status": "proved",
   "theorems": [
    "MiniCFD.PyGrid.layout",
    "MiniCFD.PyGrid.set_get",
    "MiniCFD.PyGrid.get_set"
   ],
   "note": ""
  },
  {
   "property": "C103",
   "status": "proved",
   "theorems": [
    "MiniCFD.PyLimiter.simultaneous",
    "MiniCFD.PyLimiter.succeeds",
    "MiniCFD.PyLimiter.order_irrelevant"
   ],
   "note": ""
  },
  {
   "property": "C104",
   "status": "partial",
   "theorems": [
    "MiniCFD.PyLimiter.zxh_average_partial",
    "MiniCFD.PyLimiter.zxh_bounded_partial",
    "MiniCFD.PyLimiter.zxh_reproduces_partial",
    "MiniCFD.PyLimiter.zxh_grid_partial",
    "MiniCFD.PyLimiter.zxh_average_lobatto",
    "MiniCFD.PyLimiter.zxh_smoothness",
    "MiniCFD.PyLimiter.zxh_formula_partial",
    "MiniCFD.PyLimiter.zxh_grid_reproduces_partial"
   ],
   "note": "False on Lobatto nodes, which are sampled 1e-10 inside the ends (zxh_average_lobatto, p = 2); proved for the other expansions."
  },
  {
   "property": "C105",
   "status": "partial",
   "theorems": [
    "MiniCFD.PyLimiter.lwa_defined",
    "MiniCFD.PyLimiter.lwa_average",
    "MiniCFD.PyLimiter.lwa_constant",
    "MiniCFD.PyLimiter.lwa_grid",
    "MiniCFD.PyLimiter.lwa_slope",
    "MiniCFD.PyLimiter.lwa_linear_changed",
    "MiniCFD.PyLimiter.lwa_truncation_idle",
    "MiniCFD.PyLimiter.lwa_smoothness",
    "MiniCFD.PyLimiter.lwa_slope_integrals"
   ],
   "note": "Averages and constants proved. Linear data are changed on every uniform grid except for one length (lwa_linear_changed): the borrowed slope is divided by a norm instead of its square (lwa_slope). For p = 2 k_trunc has no effect (lwa_truncation_idle)."
  },
  {
   "property": "C106",
   "status": "proved",
   "theorems": [
    "MiniCFD.PyFilter.open_ends",
    "MiniCFD.PyFilter.periodic",
    "MiniCFD.PyFilter.periodic_short",
    "MiniCFD.PyFilter.sum_kept",
    "MiniCFD.PyFilter.stable",
    "MiniCFD.PyFilter.cubic",
    "MiniCFD.PyFilter.wave",
    "MiniCFD.PyFilter.damping_range",
    "MiniCFD.PyFilter.damping_negative",
    "MiniCFD.PyFilter.damping_long"
   ],
   "note": "The rounded coefficients amplify extremely long waves by less than 1e-23 (damping_negative)."
  },
  {
   "property": "C107",
   "status": "proved",
   "theorems": [
    "MiniCFD.PyDetector.troubled_spec",
    "MiniCFD.PyDetector.all_spec",
    "MiniCFD.PyDetector.krivodonova_value",
    "MiniCFD.PyDetector.liWanAi_value",
    "MiniCFD.PyDetector.zhuJun_value",
    "MiniCFD.PyDetector.krivodonova_zero",
    "MiniCFD.PyDetector.krivodonova_smooth",
    "MiniCFD.PyDetector.krivodonova_jump",
    "MiniCFD.PyDetector.liWanAi_zero",
    "MiniCFD.PyDetector.liWanAi_smooth",
    "MiniCFD.PyDetector.liWanAi_jump",
    "MiniCFD.PyDetector.zhuJun_zero",
    "MiniCFD.PyDetector.zhuJun_smooth",
    "MiniCFD.PyDetector.zhuJun_jump",
    "MiniCFD.PyDetector.liWanAi_reported"
   ],
   "note": "ZhuJun2021 finds jumps of the mean above its floor of 1e-8."
  },
  {
   "property": "C108",
   "status": "partial",
   "theorems": [
    "MiniCFD.PyDetector.energy_meaning",
    "MiniCFD.PyDetector.persson_partial",
    "MiniCFD.PyDetector.persson_linear",
    "MiniCFD.PyDetector.persson_nodal_fails",
    "MiniCFD.PyDetector.persson_zero_fails"
   ],
   "note": "Holds for Legendre expansions of degree 1 or more. On Lagrange expansions the detector calls inner_product with one argument too many and fails (persson_nodal_fails); degree 0 fails; in degree 1 no element can ever be reported (persson_linear)."
  },
  {
   "property": "C109",
   "status": "partial",
   "theorems": [
    "MiniCFD.PyDetector.decay_table",
    "MiniCFD.PyDetector.skyline_spec",
    "MiniCFD.PyDetector.slope_least_squares",
    "MiniCFD.PyDetector.slope_power_law",
    "MiniCFD.PyDetector.slope_nonneg",
    "MiniCFD.PyDetector.kloeckner_modal",
    "MiniCFD.PyDetector.kloeckner_top",
    "MiniCFD.PyDetector.kloeckner_constant_partial",
    "MiniCFD.PyDetector.kloeckner_quadratic_always",
    "MiniCFD.PyDetector.kloeckner_nodal_blind"
   ],
   "note": "Holds for Legendre expansions; constants are left alone from degree 3 on. In degree 2 every element is reported (kloeckner_quadratic_always); on Lagrange expansions the answer does not depend on the solution, since the coefficients of the new Legendre expansion are never set (kloeckner_nodal_blind)."
  },
  {
   "property": "C110",
   "status": "proved",
   "theorems": [
    "MiniCFD.PyDetector.psi_range",
    "MiniCFD.PyDetector.liYanHui_sorted",
    "MiniCFD.PyDetector.liYanHui_constant",
    "MiniCFD.PyDetector.liYanHui_linear",
    "MiniCFD.PyDetector.liYanHui_jump",
    "MiniCFD.PyDetector.liYanHui_local"
   ],
   "note": ""
  },
  {
   "property": "C111",
   "status": "proved",
   "theorems": [
    "MiniCFD.PyDissipation.diffusive_part",
    "MiniCFD.PyDissipation.linear_diffuses"
   ],
   "note": ""
  },
  {
   "property": "C112",
   "status": "partial",
   "theorems": [
    "MiniCFD.PyDissipation.rate_form",
    "MiniCFD.PyDissipation.rate_negative_partial",
    "MiniCFD.PyDissipation.rate_fails",
    "MiniCFD.PyDissipation.rate_zero",
    "MiniCFD.PyDissipation.fits_gauss",
    "MiniCFD.PyDissipation.fits_lobatto"
   ],
   "note": "Holds up to degree 4 for Legendre and Lobatto nodes with the matching correction functions, on grids of equal elements. From degree 5 on there are states for which the form is positive, so that the assertion fails (rate_fails). It also fails for the zero solution (rate_zero), which jump detectors do report next to a jump."
  },
  {
   "property": "C113",
   "status": "proved",
   "theorems": [
    "MiniCFD.PyViscosity.generate_spec",
    "MiniCFD.PyViscosity.generate_defined",
    "MiniCFD.PyViscosity.apply_spec",
    "MiniCFD.PyViscosity.apply_nothing",
    "MiniCFD.PyViscosity.apply_last",
    "MiniCFD.PyViscosity.flux_untroubled",
    "MiniCFD.PyViscosity.flux_troubled",
    "MiniCFD.PyViscosity.flux_integer"
   ],
   "note": "Constant must be given a float: an integer makes the flux raise (flux_integer)."
  },
  {
   "property": "C114",
   "status": "proved",
   "theorems": [
    "MiniCFD.PyViscosity.delta_t_least",
    "MiniCFD.PyViscosity.blazek_spec",
    "MiniCFD.PyViscosity.blazek_inviscid",
    "MiniCFD.PyViscosity.delta_t_limits"
   ],
   "note": "For equations whose get_diffusive_radius is a number; LinearSystem's indexes the coefficient."
  },
  {
   "property": "C115",
   "status": "partial",
   "theorems": [
    "MiniCFD.PyViscosity.persson_nu_range",
    "MiniCFD.PyViscosity.persson_nu_mono",
    "MiniCFD.PyViscosity.persson_nu_continuous",
    "MiniCFD.PyViscosity.persson_coeff_partial",
    "MiniCFD.PyViscosity.persson_linear_half",
    "MiniCFD.PyViscosity.persson_coeff_nodal",
    "MiniCFD.PyViscosity.persson_coeff_zero",
    "MiniCFD.PyViscosity.persson_coeff_system"
   ],
   "note": "Holds for Legendre expansions of scalar equations of degree 1 or more. Raises for nodal expansions and for systems (persson_coeff_nodal, persson_coeff_system)."
  },
  {
   "property": "C116",
   "status": "partial",
   "theorems": [
    "MiniCFD.PyViscosity.Quadratic.generate_profiles",
    "MiniCFD.PyViscosity.Quadratic.valid_empty",
    "MiniCFD.PyViscosity.Quadratic.face_values",
    "MiniCFD.PyViscosity.Quadratic.no_jump",
    "MiniCFD.PyViscosity.Quadratic.profile_continuous",
    "MiniCFD.PyViscosity.Quadratic.profile_bounds",
    "MiniCFD.PyViscosity.Quadratic.center_value",
    "MiniCFD.PyViscosity.Quadratic.profile_exceeds",
    "MiniCFD.PyViscosity.Quadratic.jump_to_untroubled",
    "MiniCFD.PyViscosity.Quadratic.stale_cache"
   ],
   "note": "Scalar equations. Holds as long as the object is used on one grid: the cache of inverse matrices is never emptied and makes profiles wrong on another grid (stale_cache). The factor 17/16 is reached (profile_exceeds). To untroubled neighbours there is a jump (jump_to_untroubled)."
  },
  {
   "property": "C117",
   "status": "partial",
   "theorems": [
    "MiniCFD.PyViscosity.Linear.generate_profiles",
    "MiniCFD.PyViscosity.Linear.face_values",
    "MiniCFD.PyViscosity.Linear.no_jump",
    "MiniCFD.PyViscosity.Linear.profile_bounds",
    "MiniCFD.PyViscosity.Linear.profile_affine",
    "MiniCFD.PyViscosity.Linear.system_all_or_nothing",
    "MiniCFD.PyViscosity.Linear.system_all",
    "MiniCFD.PyViscosity.Linear.span_eigen",
    "MiniCFD.PyViscosity.Linear.system_face_values",
    "MiniCFD.PyViscosity.Linear.system_no_jump"
   ],
   "note": "Holds for scalar equations. For systems generate raises unless all elements are troubled (system_all_or_nothing)."
  },
  {
   "property": "C118",
   "status": "partial",
   "theorems": [
    "MiniCFD.PyViscosity.low_line",
    "MiniCFD.PyViscosity.low_of_line",
    "MiniCFD.PyViscosity.oscillation_spec",
    "MiniCFD.PyViscosity.halves_integral",
    "MiniCFD.PyViscosity.oscillation_le",
    "MiniCFD.PyViscosity.max_nu_spec",
    "MiniCFD.PyViscosity.coefficient_spec",
    "MiniCFD.PyViscosity.coefficient_defined_partial",
    "MiniCFD.PyViscosity.coefficient_zero_fails",
    "MiniCFD.PyViscosity.coefficient_high_fails",
    "MiniCFD.PyViscosity.coefficient_needs",
    "MiniCFD.PyViscosity.neighbours_spec",
    "MiniCFD.PyViscosity.coefficient_smooth"
   ],
   "note": "Scalar equations. The constant exists for all states but zero up to degree 4 on equal elements (coefficient_defined_partial); for the zero state it always raises, from degree 5 on for some other states too (coefficient_zero_fails, coefficient_high_fails)."
  },
  {
   "property": "C119",
   "status": "partial",
   "theorems": [
    "MiniCFD.PyReference.exact_init",
    "MiniCFD.PyReference.periodic",
    "MiniCFD.PyReference.smooth_derivatives",
    "MiniCFD.PyReference.smooth_solves_partial",
    "MiniCFD.PyReference.smooth_wrong",
    "MiniCFD.PyReference.smooth_total",
    "MiniCFD.PyReference.smooth_not_conserved",
    "MiniCFD.PyReference.carried",
    "MiniCFD.PyReference.jumps_values",
    "MiniCFD.PyReference.jumps_kept",
    "MiniCFD.PyReference.jumps_wrong",
    "MiniCFD.PyReference.tube_init",
    "MiniCFD.PyReference.tube_similar"
   ],
   "note": "LinearSmooth solves its equation without diffusion or without mean; with both the mean decays too (smooth_wrong, smooth_not_conserved). LinearJumps without diffusion only (jumps_kept). At the diaphragm itself u_init and u_exact differ at time 0 (tube_init)."
  },
  {
   "property": "C120",
   "status": "partial",
   "theorems": [
    "MiniCFD.PyReference.bisects_exists",
    "MiniCFD.PyReference.bracket_found",
    "MiniCFD.PyReference.burgers_defined",
    "MiniCFD.PyReference.burgers_nan",
    "MiniCFD.PyReference.burgers_unique_partial",
    "MiniCFD.PyReference.burgers_solves_partial",
    "MiniCFD.PyReference.burgers_carried_partial",
    "MiniCFD.PyReference.history"
   ],
   "note": "All holds for mean 0 and |k t omega| < 1, i.e. before the waves break, with root finding in exact arithmetic as a hypothesis that can be met (bisects_exists). Later the answer depends on the history (history)."
  },
  {
   "property": "C121",
   "status": "proved",
   "theorems": [
    "MiniCFD.PyReference.errors_eq",
    "MiniCFD.PyReference.errors_zero",
    "MiniCFD.PyReference.errors_compare",
    "MiniCFD.PyReference.errors_exact",
    "MiniCFD.PyReference.errors_max"
   ],
   "note": ""
  },
  {
   "property": "C122",
   "status": "proved",
   "theorems": [
    "MiniCFD.PyWave.stencil",
    "MiniCFD.PyWave.blocks",
    "MiniCFD.PyWave.symbol",
    "MiniCFD.PyWave.wave_residual",
    "MiniCFD.PyWave.wave_solves"
   ],
   "note": "Advection to the right, as in the code, where the speed is 1."
  },
  {
   "property": "C123",
   "status": "proved",
   "theorems": [
    "MiniCFD.PyWave.energy_pos",
    "MiniCFD.PyWave.wave_energy",
    "MiniCFD.PyWave.wave_decay",
    "MiniCFD.PyWave.stable",
    "MiniCFD.PyWave.fr_same",
    "MiniCFD.PyWave.constant_stays",
    "MiniCFD.PyWave.first_order"
   ],
   "note": "Lobatto nodes up to degree 5, where the rule is exact enough in exact arithmetic."
  },
  {
   "property": "C124",
   "status": "proved",
   "theorems": [
    "MiniCFD.PyWave.mode_index",
    "MiniCFD.PyWave.mode_symmetric",
    "MiniCFD.PyWave.physical_mode"
   ],
   "note": ""
  },
  {
   "property": "C125",
   "status": "proved",
   "theorems": [
    "MiniCFD.PyWave.sample_points",
    "MiniCFD.PyWave.fourier_sum",
    "MiniCFD.PyWave.fourier_linear",
    "MiniCFD.PyWave.fourier_harmonic",
    "MiniCFD.PyWave.fourier_inverse"
   ],
   "note": ""
  },
  {
   "property": "C126",
   "status": "proved",
   "theorems": [
    "MiniCFD.PyFR.penalty_sign",
    "MiniCFD.PyFR.weak_form_vincent",
    "MiniCFD.PyFR.linear_balance",
    "MiniCFD.PyFR.energy_derivative",
    "MiniCFD.PyFR.linear_stable",
    "MiniCFD.PyFR.linear_bounded",
    "MiniCFD.PyFR.linear_solution",
    "MiniCFD.PyFR.named_ratios",
    "MiniCFD.PyWave.sobolev_pos",
    "MiniCFD.PyWave.vincent_energy",
    "MiniCFD.PyWave.vincent_decay",
    "MiniCFD.PyWave.vincent_stable"
   ],
   "note": "Degree 0 needs the ratio 1 there, as the default ratio gives no pair at degree 0 (C92). The time is continuous; exact arithmetic."
  },
  {
   "property": "C127",
   "status": "proved",
   "theorems": [
    "MiniCFD.PyFirst.upwind_monotone",
    "MiniCFD.PyFirst.value_const",
    "MiniCFD.PyFirst.residual_first",
    "MiniCFD.PyFirst.euler_eq",
    "MiniCFD.PyFirst.local_bounds",
    "MiniCFD.PyFirst.bounds",
    "MiniCFD.PyFirst.two_runs"
   ],
   "note": "The discontinuous Galerkin scheme without limiter, viscosity or diffusion; exact arithmetic."
  },
  {
   "property": "C128",
   "status": "partial",
   "theorems": [
    "MiniCFD.PyFirst.suggestion",
    "MiniCFD.PyFirst.energy_partial",
    "MiniCFD.PyFirst.low_order_unstable",
    "MiniCFD.PyFirst.third_order_overshoots",
    "MiniCFD.PyFirst.reconstruction_unstable"
   ],
   "note": "False of the code: the suggestion always uses the column of the table for the third order method, so that the methods of first and second order grow beyond all bounds (low_order_unstable); flux reconstruction doubles it, so that all four methods do (reconstruction_unstable); and the third order method leaves the bounds (third_order_overshoots). Proved: with the third order method the sum of squares does not grow (energy_partial)."
  },
  {
   "property": "C129",
   "status": "partial",
   "theorems": [
    "MiniCFD.FR.uniform_partial",
    "MiniCFD.FR.parallelepiped_uniform",
    "MiniCFD.FR.linear_drift",
    "MiniCFD.FR.quadratic_drift"
   ],
   "note": "False for low degrees: the metric terms of a hexahedron with 8 (20, 26, 27) nodes have degree 2 (4), and are interpolated. The residual of a uniform state is not zero in a truncated pyramid at degree 1 (linear_drift) and in a nozzle with 27 nodes at degree 2 (quadratic_drift). Proved: degree at least 2 (4), and all degrees on parallelepipeds."
  },
  {
   "property": "C130",
   "status": "proved",
   "theorems": [
    "MiniCFD.Energy.face_loses",
    "MiniCFD.Energy.energy_balance",
    "MiniCFD.Energy.power_bound",
    "MiniCFD.Energy.energy_decays",
    "MiniCFD.Energy.rk3_contracts",
    "MiniCFD.Energy.rk3_short"
   ],
   "note": "On one process (C78 transfers runs to several). Exactness of the rules is a hypothesis, ByParts. Subsonic and smart boundary conditions are excluded: there the scalar solvers return an unset matrix."
  },
  {
   "property": "C131",
   "status": "proved",
   "theorems": [
    "MiniCFD.Volumes.bounds",
    "MiniCFD.Volumes.ordered",
    "MiniCFD.Volumes.contracts"
   ],
   "note": "On one process (C78 transfers runs to several). Inlets and outlets must fit the flow; closed cells and constant basis functions are hypotheses, met by the example with cells of unequal length."
  },
  {
   "property": "C132",
   "status": "proved",
   "theorems": [
    "MiniCFD.Positive.hllc_positive",
    "MiniCFD.Positive.part_exists"
   ],
   "note": "No assumption on the order of the three waves: it may fail for the estimates of the code, and positivity holds nevertheless."
  },
  {
   "property": "C133",
   "status": "partial",
   "theorems": [
    "MiniCFD.Positive.exact_positive",
    "MiniCFD.Positive.exact_positive_below",
    "MiniCFD.Positive.exact_positive_receding",
    "MiniCFD.Positive.exact_positive_1d",
    "MiniCFD.Positive.exact_vacuum_fails"
   ],
   "note": "The code violates the property in two and three dimensions if a vacuum forms between gases with different velocities across the normal: star_u is not set there, so that the velocities across are taken from whichever side an earlier call pointed to (exact_vacuum_fails). All other cases are proved."
  },
  {
   "property": "C134",
   "status": "partial",
   "theorems": [
    "MiniCFD.Positive.ausm_density_partial",
    "MiniCFD.Positive.ausm_pressure_fails"
   ],
   "note": "The density remains positive; the pressure does not: the split flux of a gas that moves against the normal with half of its speed of sound has a negative pressure itself, so that a thin neighbour gets one however small the step (ausm_pressure_fails)."
  },
  {
   "property": "C135",
   "status": "proved",
   "theorems": [
    "MiniCFD.Gas.euler_step",
    "MiniCFD.Gas.run_positive",
    "MiniCFD.Gas.tube_fits",
    "MiniCFD.Positive.wall_positive",
    "MiniCFD.Positive.inlet_positive",
    "MiniCFD.Positive.outlet_positive"
   ],
   "note": "Inside the stages of the methods of order 2 and 3 the limit has to hold as well, which is why it is asked of all states the residual is evaluated in (the log kept by the model). Subsonic conditions are left out."
  },
  {
   "property": "C136",
   "status": "proved",
   "theorems": [
    "MiniCFD.Turn.residual_follows",
    "MiniCFD.Turn.run_follows",
    "MiniCFD.Turn.symmetric",
    "MiniCFD.Turn.hllc_turn",
    "MiniCFD.Turn.ausm_turn",
    "MiniCFD.Turn.exact_turn"
   ],
   "note": "Of the solver of a face point only what the last three theorems state is used. Cells and faces of the image are matched one to one, holders with holders."
  },
  {
   "property": "C137",
   "status": "proved",
   "theorems": [
    "MiniCFD.Gas.euler_step_hllc",
    "MiniCFD.Gas.run_positive_hllc",
    "MiniCFD.Gas.tube_fits_hllc"
   ],
   "note": "The bound on the time step speaks of the wave speeds the solver estimates (the pvrs pressure), as the code computes them, not of the exact ones."
  },
  {
   "property": "C138",
   "status": "proved",
   "theorems": [
    "MiniCFD.Units.residual_follows",
    "MiniCFD.Units.run_follows",
    "MiniCFD.Units.run_follows_gases",
    "MiniCFD.Units.hllc_units",
    "MiniCFD.Units.ausm_units",
    "MiniCFD.Units.boundary_conditions_units"
   ],
   "note": "States without mass but with momentum are left out unless the unit of density stays: for them ConservativeToPrimitive takes the momentum for the velocity. Of the solver of a face point only what hllc_units and ausm_units state is used."
  },
  {
   "property": "C139",
   "status": "partial",
   "theorems": [
    "MiniCFD.Units.exact_units_partial",
    "MiniCFD.Units.exact_depends"
   ],
   "note": "True if the unit of velocity stays or a vacuum appears. Otherwise false: FindRoot stops when a velocity is within 1e-8 of zero (exact.hpp:162-174); exact_depends gives gases and units for which the flux of mass is another one in any case."
  },
  {
   "property": "C140",
   "status": "partial",
   "theorems": [
    "MiniCFD.Entropy.face_entropy_partial",
    "MiniCFD.Entropy.euler_entropy_partial",
    "MiniCFD.Entropy.run_entropy_partial",
    "MiniCFD.Entropy.ideal_code",
    "MiniCFD.Entropy.wall_cools",
    "MiniCFD.Entropy.inlet_cools",
    "MiniCFD.Entropy.tolerance_cools"
   ],
   "note": "Proved for a solver which stops at the root of the pressure function (ideal_code: the code's call is one whenever its iteration ends there), gas which slides along walls, and inlets against which no wave gets out. Without these it is false: wall_cools (every gas with a velocity normal to a wall is cooled by GetFluxOnSolidWall), inlet_cools (a supersonic inlet beside a gas of higher pressure), tolerance_cools (the iteration stops within 1e-8 of the root)."
  },
  {
   "property": "C141",
   "status": "proved",
   "theorems": [
    "MiniCFD.Carry.wave_rates",
    "MiniCFD.Carry.wave_runs",
    "MiniCFD.Carry.hllc_carries",
    "MiniCFD.Carry.ausm_carries",
    "MiniCFD.Carry.exact_carries",
    "MiniCFD.Carry.wave_solves"
   ],
   "note": "Asked of the mesh: orthonormal bases, orthonormal frames, and rules which satisfy the divergence theorem for basis functions and products of two of them. wave_solves shows that what the runs end with satisfies the Euler equations. One process, without limiter."
  },
  {
   "property": "C142",
   "status": "proved",
   "theorems": [
    "MiniCFD.Measure.measure_spec",
    "MiniCFD.Measure.measure_zero",
    "MiniCFD.Measure.measure_triangle",
    "MiniCFD.Measure.reduce_whole",
    "MiniCFD.Measure.local_below",
    "MiniCFD.Measure.wave_error"
   ],
   "note": "Weights are asked to be positive for measure_zero, measure_triangle and local_below. demo/linear/multiple.cpp prints what one process measured: local_below says when that is the whole."
  },
  {
   "property": "C143",
   "status": "proved",
   "theorems": [
    "MiniCFD.DoubleMach.jump",
    "MiniCFD.DoubleMach.lax",
    "MiniCFD.DoubleMach.moving_front",
    "MiniCFD.DoubleMach.moving_start",
    "MiniCFD.DoubleMach.moving_travels",
    "MiniCFD.DoubleMach.exact_agrees",
    "MiniCFD.DoubleMach.demo_values",
    "MiniCFD.DoubleMach.demo_inlets"
   ],
   "note": "The constants are parameters, asked to belong to one gas (a^2 rho = gamma p); demo_values and demo_inlets are about the literals of the demo."
  },
  {
   "property": "C144",
   "status": "partial",
   "theorems": [
    "MiniCFD.Waves.exact_start",
    "MiniCFD.Waves.exact_repaired",
    "MiniCFD.Waves.exact_solution_partial",
    "MiniCFD.Waves.demo_right_iff",
    "MiniCFD.Waves.demo_wrong"
   ],
   "note": "The code multiplies columns of the inverse by rows of the matrix of eigenvectors, the other way round than the solver does. exact_repaired: with the two exchanged it is right for every decomposition. As it stands it is right for symmetric matrices of eigenvectors only (demo_right_iff), and wrong if their determinant is positive (demo_wrong)."
  },
  {
   "property": "C145",
   "status": "proved",
   "theorems": [
    "MiniCFD.PyEnergyRK.exists_residual",
    "MiniCFD.PyEnergyRK.system_linear",
    "MiniCFD.PyEnergyRK.no_gain",
    "MiniCFD.PyEnergyRK.third_stable",
    "MiniCFD.PyEnergyRK.joined_balance",
    "MiniCFD.PyEnergyRK.joined_residual",
    "MiniCFD.PyEnergyRK.first_gains",
    "MiniCFD.PyEnergyRK.second_gains",
    "MiniCFD.PyEnergyRK.euler_gains",
    "MiniCFD.PyEnergyRK.heun_gains"
   ],
   "note": "The bound on the step exists for every grid; its size is not computed. Order 4 is not settled."
  },
  {
   "property": "C146",
   "status": "proved",
   "theorems": [
    "MiniCFD.PyFR.linear_system",
    "MiniCFD.PyFRRK.third_contracts",
    "MiniCFD.PyFRRK.energy_form",
    "MiniCFD.PyFRRK.third_stable",
    "MiniCFD.PyFRRK.third_bounded",
    "MiniCFD.PyFRRK.joined_balance",
    "MiniCFD.PyFRRK.joined_residual",
    "MiniCFD.PyFRRK.lower_gain"
   ],
   "note": "The bound on the step exists for every grid; its size is not computed. Modal elements are not Lagrange elements and are left out, as in C126."
  },
  {
   "property": "C147",
   "status": "partial",
   "theorems": [
    "MiniCFD.MetisMesh.step_refines",
    "MiniCFD.MetisMesh.run_refines",
    "MiniCFD.MetisMesh.reads_agree",
    "MiniCFD.MetisMesh.program_reads",
    "MiniCFD.MetisMesh.copy_aliases",
    "MiniCFD.MetisMesh.copy_dangles",
    "MiniCFD.MetisMesh.wrap_writes",
    "MiniCFD.MetisMesh.wrap_dangles",
    "MiniCFD.MetisMesh.neighbors_rows",
    "MiniCFD.MetisMesh.neighbors_none",
    "MiniCFD.MetisMesh.dual_sound",
    "MiniCFD.MetisMesh.dual_copy"
   ],
   "note": "All but the generated copies and the constructor from const vectors refine the machine of values. Copies alias (copy_aliases, copy_dangles), the constructor from const vectors writes to its arguments (wrap_writes, wrap_dangles), a copied SparseGraphWithDeleter frees twice (dual_copy): for these the property is false."
  },
  {
   "property": "C148",
   "status": "partial",
   "theorems": [
    "MiniCFD.Boundary.lookup_first",
    "MiniCFD.Boundary.lookup_fails",
    "MiniCFD.Boundary.lookup_own",
    "MiniCFD.Boundary.covers_unique",
    "MiniCFD.Boundary.sorted_apart",
    "MiniCFD.Boundary.conditions_follow",
    "MiniCFD.Boundary.update_congr",
    "MiniCFD.Boundary.update_first",
    "MiniCFD.Boundary.update_stops",
    "MiniCFD.Boundary.update_again",
    "MiniCFD.Boundary.ordered_stays",
    "MiniCFD.Boundary.name_found",
    "MiniCFD.Boundary.name_unknown",
    "MiniCFD.Boundary.suffix_steals",
    "MiniCFD.Boundary.stale_without_update",
    "MiniCFD.Boundary.second_section_lost"
   ],
   "note": "Proved for conditions that are about one section and whose name is the end of no other section's name (conditions_follow); in general the first section whose name ends in the name of the condition is taken (update_first). The property is false for names that end in other names (suffix_steals), for surfaces of two sections (second_section_lost) and for meshes written without the update (stale_without_update)."
  },
  {
   "property": "C149",
   "status": "proved",
   "theorems": [
    "MiniCFD.PyMirror.gauss_same",
    "MiniCFD.PyMirror.integrate_mirror",
    "MiniCFD.PyMirror.derivative_mirror",
    "MiniCFD.PyMirror.cell_mirror",
    "MiniCFD.PyMirror.interface_mirror",
    "MiniCFD.PyMirror.face_mirror",
    "MiniCFD.PyMirror.scheme_mirror",
    "MiniCFD.PyMirror.evals_step",
    "MiniCFD.PyMirror.evals_march",
    "MiniCFD.PyMirror.march_relation",
    "MiniCFD.PyMirror.images_add",
    "MiniCFD.PyMirror.images_smul",
    "MiniCFD.PyMirror.pairGrid_of",
    "MiniCFD.PyMirror.exists_residual",
    "MiniCFD.PyMirror.run_mirror",
    "MiniCFD.PyMirror.symmetric_stays",
    "MiniCFD.PyMirror.linear_mirrors",
    "MiniCFD.PyMirror.burgers_mirrors",
    "MiniCFD.PyMirror.turned_apply",
    "MiniCFD.PyMirror.roe_mirrors",
    "MiniCFD.PyMirror.points_mirror",
    "MiniCFD.PyMirror.fr_cell_mirror",
    "MiniCFD.PyMirror.fr_scheme_mirror",
    "MiniCFD.PyMirror.fr_run_mirror",
    "MiniCFD.PyMirror.fr_symmetric_stays"
   ],
   "note": "Without limiters and in exact arithmetic. Solvers may have their mirror image on a set of states only (roe_mirrors: positive density and pressure); the theorems on runs then suppose that the residuals are evaluated there. Opposite elements may have different bases unless one of them is on Lobatto points; for flux reconstruction they have to be of one kind, and the two correction functions have to be images of each other (IsPair, C91)."
  },
  {
   "property": "C150",
   "status": "proved",
   "theorems": [
    "MiniCFD.PyMirrorLimiter.mean_imageOf",
    "MiniCFD.PyMirrorLimiter.smoothness_imageOf",
    "MiniCFD.PyMirrorLimiter.zxh_mirror",
    "MiniCFD.PyMirrorLimiter.neighbours_mirror",
    "MiniCFD.PyMirrorLimiter.zxh_grid_mirror",
    "MiniCFD.PyMirrorLimiter.high_mirror",
    "MiniCFD.PyMirrorLimiter.lwa_scalar_mirror",
    "MiniCFD.PyMirrorLimiter.leg_parity",
    "MiniCFD.PyMirrorLimiter.modal_twin",
    "MiniCFD.PyMirrorLimiter.modal_coeff",
    "MiniCFD.PyMirrorLimiter.average_mirror",
    "MiniCFD.PyMirrorLimiter.borrow_mirror",
    "MiniCFD.PyMirrorLimiter.candidates_mirror",
    "MiniCFD.PyMirrorLimiter.lwa_mirror",
    "MiniCFD.PyMirrorLimiter.lwa_grid_mirror"
   ],
   "note": "Scalar equations, exact arithmetic. Systems are limited in characteristic variables, whose matrices would have to be mirrored too; not proved. On Lobatto nodes the candidates of ZhongXingHui2013 do not reproduce the neighbour (C104) and are left out here. The neighbours of LiWanAi2020 come as left and right, and change places in the mirror."
  },
  {
   "property": "C151",
   "status": "proved",
   "theorems": [
    "MiniCFD.PyMirrorDetector.krivodonova_mirror",
    "MiniCFD.PyMirrorDetector.energy_mirror",
    "MiniCFD.PyMirrorDetector.persson_mirror",
    "MiniCFD.PyMirrorDetector.kloeckner_mirror",
    "MiniCFD.PyMirrorDetector.previous_rev",
    "MiniCFD.PyMirrorDetector.next_rev",
    "MiniCFD.PyMirrorDetector.liWanAi_mirror",
    "MiniCFD.PyMirrorDetector.zhuJun_mirror",
    "MiniCFD.PyMirrorDetector.sample_mirror",
    "MiniCFD.PyMirrorDetector.psi_mirror",
    "MiniCFD.PyMirrorDetector.psiValues_mirror",
    "MiniCFD.PyMirrorDetector.liYanHui_mirror",
    "MiniCFD.PyMirrorDetector.reported_mirror"
   ],
   "note": "Exact arithmetic. The mirror acts on the values by a linear map that keeps the size of each component, such as the identity or a change of sign; the wind speed of Krivodonova2004 must change its sign. For Kloeckner2011 on nodal bases the coefficients that it remembers from elsewhere are the same on both sides (C109); Persson2006 raises on nodal bases on both sides (C108)."
  },
  {
   "property": "C152",
   "status": "proved",
   "theorems": [
    "MiniCFD.PyMirrorViscosity.level_mirror",
    "MiniCFD.PyMirrorViscosity.before_mirror",
    "MiniCFD.PyMirrorViscosity.after_mirror",
    "MiniCFD.PyMirrorViscosity.sides_mirror",
    "MiniCFD.PyMirrorViscosity.quadratic_mirror",
    "MiniCFD.PyMirrorViscosity.upwind_mirror",
    "MiniCFD.PyMirrorViscosity.linear_mirror"
   ],
   "note": "Scalar equations, exact arithmetic. The constants of the elements are given here; C153 adds them. A cache of inverse matrices that stems from another grid breaks this, as it breaks C116 (stale_cache)."
  },
  {
   "property": "C153",
   "status": "proved",
   "theorems": [
    "MiniCFD.PyMirrorEnergy.nodes_mirror",
    "MiniCFD.PyMirrorEnergy.half_mirror",
    "MiniCFD.PyMirrorEnergy.energy_mirror",
    "MiniCFD.PyMirrorEnergy.two_points",
    "MiniCFD.PyMirrorEnergy.low_mirror",
    "MiniCFD.PyMirrorEnergy.halfEnergy_mirror",
    "MiniCFD.PyMirrorEnergy.spent_mirror",
    "MiniCFD.PyMirrorEnergy.rate_mirror",
    "MiniCFD.PyMirrorEnergy.max_mirror",
    "MiniCFD.PyMirrorEnergy.constant_mirror",
    "MiniCFD.PyMirrorEnergy.neighbours_mirror",
    "MiniCFD.PyMirrorEnergy.coefficient_mirror",
    "MiniCFD.PyMirrorEnergy.viscosity_mirror"
   ],
   "note": "Scalar equations, exact arithmetic, correction functions for which the rate is known (C112). The two halves of an element are told apart by the order of the nodes, so that the nodes must be sorted, as NumPy returns them."
  },
  {
   "property": "C154",
   "status": "proved",
   "theorems": [
    "MiniCFD.PyMirrorPersson.length_mirror",
    "MiniCFD.PyMirrorPersson.coefficient_mirror",
    "MiniCFD.PyMirrorPersson.constants_mirror",
    "MiniCFD.PyMirrorPersson.viscosity_mirror"
   ],
   "note": "Exact arithmetic. The constant itself is the subject of C115; outside of scalar Legendre expansions of positive degree the code raises, and the theorems say so for the image as well."
  }
 ]
}