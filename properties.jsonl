{"id": "C01", "title": "Base64 output decodes back to the data written", "statement": "Decoding the text that the VTK writer's EncodeBase64 emits for a buffer with any standard Base64 decoder yields exactly the bytes that were passed in, and the text is exactly 4*ceil(n/3) characters long and uses only the Base64 alphabet plus at most two trailing '='.", "quantifier": "every finite byte sequence of every length", "why_tests_cant": "there are 256^n buffers per length; a bit-shift slip in one residue class mod 3 or one bit position shows only for particular bytes", "anchors": ["include/mini/mesh/vtk.hpp: EncodeBase64"]}
{"id": "C02", "title": "Renumbering is a bijection sorted by part", "statement": "The two index arrays returned by GetNewOrder are mutually inverse permutations of 0..n-1; in the new order part numbers are non-decreasing; items of the same part keep their old relative order.", "quantifier": "every number of items and every assignment of part numbers", "why_tests_cant": "the number of assignments is unbounded and sort tie-breaking only shows with repeated parts in adversarial order", "anchors": ["include/mini/mesh/shuffler.hpp: GetNewOrder"]}
{"id": "C03", "title": "Shuffling a mesh does not change its geometry or its data", "statement": "After shuffling nodes and cells by part, every cell still refers, in the same local order, to nodes with the same coordinates; every node and cell field value is still attached to the same physical node or cell. Only numbering changes.", "quantifier": "every mesh (any number of nodes, cells, nodes per cell) and every partition vector, including empty parts", "why_tests_cant": "an index-direction slip (old-to-new vs new-to-old) is invisible on involutive permutations such as the ones small test meshes yield", "anchors": ["include/mini/mesh/shuffler.hpp: ShuffleData, ShuffleConnectivity, Shuffler::Shuffle"]}
{"id": "C04", "title": "CGNS-METIS maps stay mutually inverse", "statement": "The maps between (zone, section, index) and flat METIS indices built by CgnsToMetis::Map are mutually inverse, and are still mutually inverse after Shuffler::Shuffle.", "quantifier": "every sequence of zones, sections, node counts and cell counts, and every partition", "why_tests_cant": "offset errors show only with several zones/sections of distinct sizes; number of layouts is unbounded", "anchors": ["include/mini/mesh/mapper.hpp: CgnsToMetis::Map, CgnsToMetis::IsValid", "include/mini/mesh/shuffler.hpp: Shuffler::Shuffle"]}
{"id": "C05", "title": "A node belongs to a part that uses it", "statement": "GetNodeParts assigns to each node that some cell uses the smallest part among the cells that use it, hence an existing part that really contains it; a node that no cell uses gets the value n_parts, which is no part at all.", "quantifier": "every cell-to-node incidence, every partition of the cells, every node (including nodes used by no cell)", "why_tests_cant": "needs all incidences; the failing case (a node no cell uses) is never present in hand-made test meshes", "anchors": ["include/mini/mesh/metis.hpp: GetNodeParts"]}
{"id": "C06", "title": "Part slices cover the mesh exactly once", "statement": "The half-open node (and cell) index ranges written per part by WritePartitionInfo are disjoint, cover every node (cell), and range p contains exactly the nodes (cells) whose PartIndex is p, provided the mesh was shuffled.", "quantifier": "every shuffled mesh and number of parts, including parts with no item in a section", "why_tests_cant": "off-by-one at the first/last index or at an empty part shows only on particular partitions", "anchors": ["include/mini/mesh/shuffler.hpp: Shuffler::WritePartitionInfo"]}
{"id": "C07", "title": "Send and receive lists agree between every two ranks", "statement": "For every pair of ranks p,q the list of nodes p is told to send to q is the same list, in the same order, as the list q is told to receive from p; the same holds for the ghost-cell lists each rank derives from its adjacency pairs.", "quantifier": "every mesh, every partition, every ordered pair of ranks", "why_tests_cant": "disagreement in order or membership depends on the whole partition; each MPI test runs with one or two partitions", "anchors": ["include/mini/mesh/shuffler.hpp: Shuffler::WritePartitionInfo", "include/mini/mesh/part.hpp: Part::BuildAdj, ShareGhostNodes, ShareGhostCells"]}
{"id": "C08", "title": "Ghost cells hold the owner's coefficients after an exchange", "statement": "After ShareGhostCellCoeffs followed by UpdateGhostCellCoeffs on all ranks, every ghost cell holds exactly the coefficients its owner's cell had when the owner called ShareGhostCellCoeffs, for every order in which ranks run and messages are delivered.", "quantifier": "every number of ranks, every partition, every coefficient data and every interleaving of the ranks' sends, receives and local writes after the share", "why_tests_cant": "the number of message schedules is unbounded and tests see one schedule at a time", "anchors": ["include/mini/mesh/part.hpp: Part::ShareGhostCellCoeffs, Part::UpdateGhostCellCoeffs, Part::BuildAdj"]}
{"id": "C09", "title": "Limiting does not depend on the partition or on the visiting order", "statement": "Part::Reconstruct replaces each troubled cell's polynomial by the limiter's result computed from the un-limited polynomials of the cell and its neighbours, whatever the number of parts and the order in which cells are visited.", "quantifier": "every mesh, partition, limiter and solution", "why_tests_cant": "serial tests cannot see it at all and parallel tests see one partition", "anchors": ["include/mini/mesh/part.hpp: Part::Reconstruct"]}
{"id": "C10", "title": "Foreground fringe is exactly the requested number of layers", "statement": "FindForegroundFringeCells returns, without repetition, exactly the cells whose graph distance to an outermost cell (one with fewer neighbours than faces) is less than the requested number of layers; it terminates.", "quantifier": "every adjacency graph, every face-count function and every requested number of layers", "why_tests_cant": "BFS on arbitrary graphs; layer off-by-one and re-visits depend on the graph's shape", "anchors": ["include/mini/mesh/overset.hpp: Mapping::FindForegroundFringeCells"]}
{"id": "C11", "title": "Background donor search returns the connected ball", "statement": "The breadth-first donor search returns, without repetition, exactly the cells reachable from the start cell through neighbours that lie within the search radius; it terminates.", "quantifier": "every adjacency graph, start cell, radius and cell-centre positions", "why_tests_cant": "arbitrary graph shapes; termination and completeness are not testable on samples", "anchors": ["include/mini/mesh/overset.hpp: Mapping::FindBackgroundDonorCells"]}
{"id": "C12", "title": "Sections are renumbered into contiguous, gap-free ranges", "statement": "After SortSectionsByDim a zone's sections are the same sections (same cells, names, types), ordered by decreasing dimension, with ids 1..n and with element ranges that are contiguous, start at 1 and end at the total number of elements; sizes are unchanged.", "quantifier": "every list of sections of any sizes, dimensions and previous ids", "why_tests_cant": "tests try two or three section layouts", "anchors": ["include/mini/mesh/cgns.hpp: Zone::SortSectionsByDim, Section, ShiftedVector"]}
{"id": "C13", "title": "Merging then splitting sections keeps every cell", "statement": "MergeSections followed by SplitSections yields per-type sections that hold exactly the original cells (same node lists, same relative order per type), and merging alone keeps all cells.", "quantifier": "every list of non-mixed sections of fixed-size element types", "why_tests_cant": "round-trip over unbounded connectivity tables with interleaved types", "anchors": ["include/mini/mesh/cgns.hpp: Zone::MergeSections, Zone::SplitSections"]}
{"id": "C14", "title": "Adding a solution or field is find-or-create", "statement": "After any sequence of AddSolution/AddField calls there is at most one solution per (name, location) and one field per name; a repeated call returns the existing object with its data intact and earlier handles stay valid.", "quantifier": "every finite history of calls", "why_tests_cant": "history property", "anchors": ["include/mini/mesh/cgns.hpp: Zone::AddSolution, Solution::AddField"]}
{"id": "C15", "title": "Solution column round trip", "statement": "Cells occupy pairwise disjoint blocks that tile the solution column; GetSolutionColumn after SetSolutionColumn(c) returns c, SetSolutionColumn after GetSolutionColumn changes nothing, and writing one cell's residual never touches another's.", "quantifier": "every number and sizes of cells (inner and inter-part) and every column", "why_tests_cant": "aliasing/offset errors appear only for particular cell counts per section and zone", "anchors": ["include/mini/spatial/fem.hpp: FiniteElement::SetSolutionColumn, GetSolutionColumn, AddCellDataOffset", "include/mini/mesh/part.hpp: Part::AddLocalCellId, GetCellDataOffset", "include/mini/polynomial/projection.hpp: GetCoeffFrom, WriteCoeffTo, AddCoeffTo, MinusCoeff"]}
{"id": "C16", "title": "Burgers flux is the exact Godunov flux", "statement": "Burgers::GetFluxUpwind(l, r) equals min over u in [l,r] of k*u^2/2 if l<=r and max over u in [r,l] otherwise.", "quantifier": "all real left and right states and every coefficient k of either sign or zero", "why_tests_cant": "continuum of states including sonic rarefaction, stationary shocks, and negative k", "anchors": ["include/mini/riemann/simple/burgers.hpp: Burgers::GetFluxUpwind, GetFlux"]}
{"id": "C17", "title": "Linear upwind solvers solve the linear Riemann problem", "statement": "Single, Double and Multiple return A*u at x/t=0 of the exact self-similar solution: each characteristic field takes its value from the left iff its speed is positive; equivalently flux = A+ u_left + A- u_right.", "quantifier": "all real states and every diagonalisable coefficient matrix", "why_tests_cant": "continuum of matrices and states; sign-of-eigenvalue cases and the a=b=0 special branch", "anchors": ["include/mini/riemann/simple/single.hpp: Single", "include/mini/riemann/simple/double.hpp: Double", "include/mini/riemann/simple/multiple.hpp: Multiple"]}
{"id": "C18", "title": "Numerical fluxes are conservative under face reversal", "statement": "Evaluating the upwind flux with the two states exchanged and the face normal reversed gives exactly the negated flux, so both sides of a face (and both ranks of an inter-part face) exchange the same amount.", "quantifier": "all pairs of states and all normals, for Burgers, Single, Multiple, AUSM; for Double with a diagonalisable coefficient; for HLLC whenever the states do not collide faster than the sum of their speeds of sound (beyond that it is false); for Exact whenever its root finder returns the root", "why_tests_cant": "continuum; equality-case branches (zero speeds, ties) are measure-zero and missed by sampling", "anchors": ["include/mini/riemann/simple/*.hpp", "include/mini/riemann/euler/hllc.hpp", "include/mini/riemann/euler/ausm.hpp", "include/mini/riemann/rotated/*.hpp", "include/mini/spatial/dg/general.hpp: AddFluxOnGhostFaces"]}
{"id": "C19", "title": "Numerical fluxes are consistent", "statement": "GetFluxUpwind(u, u) equals the physical flux of u (flux matrix times normal), for every Riemann solver.", "quantifier": "every state (every admissible state for Euler) and every unit normal", "why_tests_cant": "continuum including sonic points and zero velocity where branches meet", "anchors": ["include/mini/riemann/simple/*.hpp", "include/mini/riemann/euler/hllc.hpp", "include/mini/riemann/euler/ausm.hpp", "include/mini/riemann/euler/exact.hpp", "include/mini/riemann/rotated/*.hpp"]}
{"id": "C20", "title": "Conservative-primitive conversion round trip", "statement": "For every state with positive density and non-negative pressure, converting to conservative and back (and vice versa) is the identity; for every conservative input whatsoever the returned density and pressure are non-negative, and a negative density, energy or pressure yields the all-zero vacuum state. (A density of exactly zero with non-negative energy is not treated as vacuum.)", "quantifier": "every state in 1, 2 and 3 dimensions and every ratio of specific heats > 1", "why_tests_cant": "continuum; clipping branches at exactly zero", "anchors": ["include/mini/riemann/euler/types.hpp: IdealGas::PrimitiveToConservative, ConservativeToPrimitive, SetZeroIfNegative"]}
{"id": "C21", "title": "Rotating to the face frame and back is lossless, and fluxes rotate with it", "statement": "NormalToGlobal undoes GlobalToNormal; the rotated solver's flux of a single state equals the flux matrix of that state times the normal.", "quantifier": "every state (for the flux matrix: every state with positive density and non-negative pressure) and every orthonormal face frame", "why_tests_cant": "continuum of frames; tests use axis-aligned ones", "anchors": ["include/mini/riemann/rotated/euler.hpp: GlobalToNormal, NormalToGlobal, GetFlux", "include/mini/riemann/euler/types.hpp: GetFluxMatrix", "include/mini/riemann/rotated/simple.hpp: GetFluxMatrix"]}
{"id": "C22", "title": "Supersonic faces are fully upwinded", "statement": "If the normal velocity of both states exceeds the fastest wave the scheme estimates, the returned flux is exactly the physical flux of the upstream state and does not depend on the downstream state.", "quantifier": "every pair of admissible states, both directions, HLLC and AUSM, 1D/2D/3D", "why_tests_cant": "continuum; boundary Mach number exactly 1", "anchors": ["include/mini/riemann/euler/hllc.hpp", "include/mini/riemann/euler/ausm.hpp"]}
{"id": "C23", "title": "HLLC resolves stationary contacts exactly", "statement": "If both states have zero normal velocity and equal pressure, the HLLC flux has zero mass and energy components and its normal-momentum component equals that pressure, whatever the densities and tangential velocities.", "quantifier": "every density pair, pressure and tangential velocities", "why_tests_cant": "continuum", "anchors": ["include/mini/riemann/euler/hllc.hpp"]}
{"id": "C24", "title": "Solid walls are impermeable", "statement": "GetFluxOnSolidWall has zero mass and zero energy component and its momentum component is pressure times the outward normal.", "quantifier": "every interior state and every face frame", "why_tests_cant": "continuum", "anchors": ["include/mini/riemann/rotated/euler.hpp: GetFluxOnSolidWall"]}
{"id": "C25", "title": "Smart boundary picks the right boundary condition", "statement": "GetFluxOnSmartBoundary chooses inflow iff the interior normal velocity is negative, and supersonic iff its magnitude exceeds the local speed of sound, and then returns that condition's flux; supersonic inlet ignores the interior state and supersonic outlet ignores the given state; when given and interior state coincide every branch returns the physical flux.", "quantifier": "every pair of states, every frame", "why_tests_cant": "continuum with branch boundaries", "anchors": ["include/mini/riemann/rotated/euler.hpp: GetFluxOnSmartBoundary, GetFluxOnSubsonicInlet, GetFluxOnSubsonicOutlet"]}
{"id": "C26", "title": "Characteristic matrices are inverse and diagonalise the Euler Jacobian", "statement": "The left and right eigenvector matrices of EigenMatrices satisfy L*R = R*L = I and L*A*R = diag(u-a, u, u, u, u+a) where A is the Jacobian of the flux in the face-normal direction.", "quantifier": "every admissible state and orthonormal frame", "why_tests_cant": "continuum; one wrong entry is masked by symmetric test states", "anchors": ["include/mini/riemann/euler/eigen.hpp: EigenMatrices"]}
{"id": "C27", "title": "The exact Riemann solver's answer depends only on its arguments", "statement": "Two calls of the exact Euler solver with equal left and right states give equal fluxes, whatever calls were made before on the same object.", "quantifier": "every history of calls, including calls with vacuum", "why_tests_cant": "history property; tests construct fresh solvers", "anchors": ["include/mini/riemann/euler/exact.hpp"]}
{"id": "C28", "title": "Runge-Kutta steppers realise their advertised order", "statement": "On u' = R(t,u), one step of RK1/RK2/RK3 applied to a linear autonomous system multiplies the solution by 1+z, 1+z+z^2/2, 1+z+z^2/2+z^3/6; on quadrature problems u'=f(t) it is exact for polynomials of degree < order; a steady state is kept; the step ends with the system's solution equal to the result; stage times are as in the SSP tableau; on every smooth Lipschitz problem the error after any number of steps is O(dt^order); every convex set kept by forward Euler steps is kept.", "quantifier": "every linear system, every dt, every dimension, every history of steps", "why_tests_cant": "order conditions are identities over all systems, not samples", "anchors": ["include/mini/temporal/rk.hpp: RungeKutta<1..3>::Update", "include/mini/temporal/ode.hpp"]}
{"id": "C29", "title": "Frames stay orthonormal and right-handed", "statement": "After any sequence of RotateX/RotateY/RotateZ calls with any angles a Frame's axes are orthonormal and right-handed.", "quantifier": "every finite sequence of rotations with arbitrary angles", "why_tests_cant": "history property over a continuum", "anchors": ["include/mini/geometry/frame.hpp: Frame"]}
{"id": "C30", "title": "Rotor and blade configuration is history-free", "statement": "The azimuth, blade positions and blade axes that a rotor reports depend only on the current values of its parameters and time, not on the order in which setters and queries were called.", "quantifier": "every finite history of setter and query calls", "why_tests_cant": "history property; stale caches show only under particular interleavings", "anchors": ["include/mini/aircraft/rotor.hpp: Rotor", "include/mini/aircraft/blade.hpp: Blade"]}
{"id": "C31", "title": "Blade sections interpolate between stations", "statement": "Blade::GetSection(y) returns the station's own chord/twist at a station and linear interpolation between the two neighbouring stations elsewhere; in particular results are continuous and within the neighbouring values.", "quantifier": "every blade with at least two stations in increasing order and every position on it", "why_tests_cant": "continuum; tests use constant-chord blades where weights do not matter", "anchors": ["include/mini/aircraft/blade.hpp: Blade::GetSection"]}
{"id": "C32", "title": "Airfoil lookups never leave the table", "statement": "For every angle of attack the code can produce, the lift/drag table lookup reads only valid entries, returns tabulated values at tabulated angles and values between neighbouring entries elsewhere.", "quantifier": "every angle in [-180, 180] degrees and every pair of velocity components", "why_tests_cant": "continuum plus end points", "anchors": ["include/mini/aircraft/airfoil.hpp", "include/mini/aircraft/section.hpp: GetAngleOfAttack"]}
{"id": "C33", "title": "Lagrange basis interpolates", "statement": "The Line and Hexahedron Lagrange bases satisfy l_i(x_j)=delta_ij, sum to one, reproduce every polynomial of their degree, their derivative functions are the derivatives; the (i,j,k) -> index map is a bijection onto 0..N-1.", "quantifier": "every number of distinct nodes, every node position, every evaluation point", "why_tests_cant": "unbounded node counts and continuum of points", "anchors": ["include/mini/basis/lagrange.hpp"]}
{"id": "C34", "title": "Taylor basis derivatives are right", "statement": "The gradient, Hessian and higher-derivative functions of the Taylor basis return the derivatives of the monomials they accompany, for every coefficient vector.", "quantifier": "every point, every coefficient matrix", "why_tests_cant": "one wrong column index is invisible at the origin or with symmetric coefficients", "anchors": ["include/mini/basis/taylor.hpp"]}
{"id": "C35", "title": "Correction functions meet their end-point conditions", "statement": "Vincent correction functions satisfy g_right(1)=1, g_right(-1)=0, g_left(-1)=1, g_left(1)=0, are mirror images, and their derivative functions are the derivatives.", "quantifier": "every degree and every parameter c", "why_tests_cant": "unbounded degree", "anchors": ["include/mini/basis/vincent.hpp: Vincent"]}
{"id": "C36", "title": "Orthonormalisation yields an orthonormal basis of the same space", "statement": "OrthoNormalize turns any linearly independent family into a family that is orthonormal for the quadrature inner product, spans the same space and is triangular in the input.", "quantifier": "every independent family and every quadrature rule with positive weights", "why_tests_cant": "continuum; numerical tests cannot settle exact orthogonality for all cells", "anchors": ["include/mini/gauss/function.hpp: OrthoNormalize"]}
{"id": "C37", "title": "Gauss rules integrate polynomials exactly", "statement": "Q-point Legendre and Lobatto rules integrate every polynomial of degree <= 2Q-1 (resp. 2Q-3) exactly over [-1,1]; tensor rules on quadrangles/hexahedra do so for products; simplex, Jacobi and six-point Legendre rules, which are tables of decimal literals, do so up to an explicit bound of the order of the last digit of the literals. Points lie in the reference element, weights are positive.", "quantifier": "every polynomial of the stated degree, every shipped Q", "why_tests_cant": "infinite-dimensional space of integrands", "anchors": ["include/mini/gauss/legendre.hpp", "include/mini/gauss/lobatto.hpp", "include/mini/gauss/quadrangle.hpp", "include/mini/gauss/hexahedron.hpp", "include/mini/gauss/triangle.hpp"]}
{"id": "C38", "title": "Direct-DG common gradient is consistent and conservative", "statement": "GetCommonGradient returns the common gradient when both sides carry the same smooth data, is unchanged when the sides are swapped and the normal reversed, and is linear in the data.", "quantifier": "all values, gradients, Hessians, distances > 0 and unit normals", "why_tests_cant": "continuum", "anchors": ["include/mini/riemann/diffusive/direct_dg.hpp: GetCommonGradient", "include/mini/riemann/diffusive/linear.hpp"]}
{"id": "C39", "title": "Segment-triangle intersection is right", "statement": "Intersect reports a ratio iff the ray from the origin of the query through the triangle meets it within the segment, and origin + ratio*(end-origin) then lies in the triangle.", "quantifier": "every triangle and segment in space, including ones in special position", "why_tests_cant": "continuum and degenerate positions", "anchors": ["include/mini/geometry/intersect.hpp: Intersect"]}
{"id": "C40", "title": "Shape functions form a partition of unity and interpolate nodes", "statement": "For every shipped element shape functions sum to one, equal delta_ij at nodes, and the shape-gradient functions are their derivatives (for hexahedra also the Hessian and third-derivative functions); LocalToGlobal therefore maps each node's local coordinates to the node, commutes with affine maps, and equals the affine map when the nodes are placed by one (for pyramids: the affine image of the cube collapsed to a pyramid).", "quantifier": "every local coordinate, every element type and every node placement", "why_tests_cant": "continuum; up to 27 polynomials with hundreds of hand-written coefficients", "anchors": ["include/mini/geometry/triangle.hpp", "include/mini/geometry/quadrangle.hpp", "include/mini/geometry/tetrahedron.hpp", "include/mini/geometry/pyramid.hpp", "include/mini/geometry/wedge.hpp", "include/mini/geometry/hexahedron.hpp"]}
{"id": "C41", "title": "Face node ordering is outward and complete", "statement": "For every cell type SortNodesOnFace, given a face's nodes in any order, returns a permutation of them in cyclic order whose right-hand normal points out of the cell; faces of a cell are closed (each edge is traversed once in each direction).", "quantifier": "every injective global numbering of a cell's nodes and every input order of a face's nodes", "why_tests_cant": "n! orders times all numberings", "anchors": ["include/mini/geometry/tetrahedron.hpp: SortNodesOnFace", "include/mini/geometry/pyramid.hpp", "include/mini/geometry/wedge.hpp", "include/mini/geometry/hexahedron.hpp"]}
{"id": "C42", "title": "Jacobian-determinant derivatives are right", "statement": "LocalToJacobian is the derivative of LocalToGlobal for every element; for hexahedra the determinant-gradient and determinant-Hessian functions return the first and second derivatives of the determinant of the Jacobian; for other cells they have no defined result.", "quantifier": "every element, node placement and local coordinate with invertible Jacobian", "why_tests_cant": "continuum", "anchors": ["include/mini/geometry/cell.hpp: LocalToJacobian, LocalToJacobianDeterminantGradient"]}
{"id": "C43", "title": "WENO limiting keeps cell averages", "statement": "The limited polynomial returned by Lazy (and Eigen) WENO has exactly the cell average of the original; its weights are positive and sum to one when w0 <= 1/(n+1); a cell whose neighbours carry the same polynomial is unchanged.", "quantifier": "every solution, every number of neighbours, every w0 and epsilon > 0", "why_tests_cant": "continuum; conservation must hold for every solution in every time step", "anchors": ["include/mini/limiter/weno.hpp: Lazy, Eigen"]}
{"id": "C44", "title": "Projection reproduces the space and the mean", "statement": "Projecting a function onto an orthonormal basis reproduces every function in the span, minimises the quadrature error, GetAverage is the quadrature mean, and coefficient arithmetic matches pointwise arithmetic.", "quantifier": "every function, basis and rule", "why_tests_cant": "infinite-dimensional", "anchors": ["include/mini/polynomial/projection.hpp: Project, GetAverage, Projection, ProjectionWrapper"]}
{"id": "C45", "title": "The DG/FR residual is conservative", "statement": "The sum over all cells of all ranks of the mean residual equals minus the flux through the physical boundary: interior and inter-part faces contribute nothing.", "quantifier": "every mesh, partition, solution, and Riemann solver with the reversal property", "why_tests_cant": "global conservation for arbitrary meshes and states", "anchors": ["include/mini/spatial/dg/general.hpp", "include/mini/spatial/dg/lobatto.hpp", "include/mini/spatial/fr/general.hpp", "include/mini/spatial/fr/lobatto.hpp", "include/mini/spatial/fem.hpp: GetResidualColumn"]}
{"id": "C46", "title": "Boundary registration is idempotent and last-wins", "statement": "Registering the same boundary condition for the same boundary name again does not change the residual; registering a new function replaces the old one.", "quantifier": "every history of Set* calls", "why_tests_cant": "history property", "anchors": ["include/mini/spatial/fem.hpp: SetSolidWall, SetSupersonicOutlet, SetSupersonicInlet, SetSmartBoundary", "include/mini/spatial/dg/general.hpp: ApplySolidWall"]}
{"id": "C47", "title": "Rigid motions of coordinates are rigid", "statement": "Coordinates::Translate and RotateZ preserve all distances, Dilate scales distances by the absolute factor and fixes its origin; inverse operations undo them; compositions behave as transformations.", "quantifier": "every coordinate set and every finite sequence of operations", "why_tests_cant": "continuum and histories", "anchors": ["include/mini/mesh/cgns.hpp: Coordinates::Translate, Dilate, RotateZ"]}
{"id": "C48", "title": "Local polynomial on curved hexahedra follows the chain rule", "statement": "For a kLocal Hexahedron projection Approximate followed by evaluation at the nodes returns the function values; GetGlobalGradient returns the physical gradient of the represented function; GlobalFluxToLocalFlux is the contravariant flux, so normals and scales in flux reconstruction are consistent.", "quantifier": "every invertible Jacobian field, every coefficient", "why_tests_cant": "continuum of curved geometries", "anchors": ["include/mini/polynomial/hexahedron.hpp: GetValue, Approximate, GetGlobalGradient, GlobalFluxToLocalFlux", "include/mini/spatial/fr/general.hpp: CacheCorrectionGradients"]}
{"id": "C49", "title": "Lobatto shortcuts equal the general scheme", "statement": "The specialised Lobatto DG and FR residuals coincide with the general ones on the same data, because all other basis functions / correction derivatives vanish at the face nodes.", "quantifier": "every degree, solution and face", "why_tests_cant": "equality of two implementations for all inputs", "anchors": ["include/mini/spatial/dg/lobatto.hpp", "include/mini/spatial/fr/lobatto.hpp"]}
{"id": "C50", "title": "Element tables are coherent", "statement": "Symmetric index constants give every permutation of a multi-index the same slot, and distinct multisets distinct slots; VTK node tables list each element's local nodes once; face/node counts by type agree with the geometry classes.", "quantifier": "every index pair/triple and every element type", "why_tests_cant": "finite, but stated for all entries of the tables together with their users", "anchors": ["include/mini/constant/index.hpp", "include/mini/mesh/vtk.hpp", "include/mini/mesh/cgns.hpp: CountNodesByType, CountFacesByType"]}
{"id": "C51", "title": "The METIS mesh has the cells of the CGNS mesh", "statement": "The flat mesh (cell_ptr, cell_idx) that CgnsToMetis::Map hands to METIS lists, for the cell with METIS number m, exactly the METIS numbers of the nodes of the CGNS cell that m stands for, in the same local order.", "quantifier": "every sequence of zones and sections with any node counts and any valid connectivity", "why_tests_cant": "offsets of later zones and sections show only on multi-zone, multi-section meshes; the layouts are unbounded", "anchors": ["include/mini/mesh/mapper.hpp: CgnsToMetis::Map"]}
{"id": "C52", "title": "Every rank knows the geometry of the cells it needs", "statement": "After start-up every rank can look up, for each cell it owns and each ghost cell bordering on it, the zone and the node list (in order) and the coordinates of every node, without exception, and they equal those of the undivided mesh; ghost cells are exactly the foreign cells that share a face with an owned cell.", "quantifier": "every mesh, every partition, every rank", "why_tests_cant": "a missing node shows only on partitions where it is reached through a neighbour's neighbour", "anchors": ["include/mini/mesh/shuffler.hpp: Shuffler::WritePartitionInfo", "include/mini/mesh/part.hpp: ShareGhostNodes, BuildGhostNodes, ShareGhostCells, BuildGhostCells, GetCoord"]}
{"id": "C53", "title": "The ghost exchange cannot deadlock", "statement": "With every rank calling ShareGhostCellCoeffs and UpdateGhostCellCoeffs in turn, in every reachable state some rank can proceed or some message can move, and no rank gets more than one exchange ahead of a neighbour.", "quantifier": "every number of ranks, every partition, every schedule, any number of exchanges", "why_tests_cant": "absence of deadlock quantifies over all schedules", "anchors": ["include/mini/mesh/part.hpp: Part::ShareGhostCellCoeffs, Part::UpdateGhostCellCoeffs"]}
{"id": "C54", "title": "Subsonic boundary states obey the linearised characteristic relations", "statement": "The boundary state built by GetFluxOnSubsonicInlet keeps the outgoing acoustic invariant of the interior and the incoming ones of the given state (and the outlet vice versa), linearised about the interior state, so an acoustic wave leaves without reflection to first order.", "quantifier": "every pair of admissible states, every frame", "why_tests_cant": "continuum; a sign error in the characteristic relation still gives plausible numbers", "anchors": ["include/mini/riemann/rotated/euler.hpp: GetFluxOnSubsonicInlet, GetFluxOnSubsonicOutlet"]}
{"id": "C55", "title": "The exact solver returns the exact solution", "statement": "The state on the time axis is that of the self-similar entropy solution: shocks satisfy mass, momentum and energy jump conditions and the Lax condition, expansions keep entropy and the Riemann invariant and are sonic at the axis when it lies inside, the contact moves at star_u; given or forming vacuum is handled as in the literature, and vacuum forms exactly when u_r - u_l >= 2 (a_l + a_r) / (gamma - 1).", "quantifier": "every pair of states with positive density and pressure or vacuum, every gamma > 1; with the root of the pressure equation taken as exact", "why_tests_cant": "continuum of wave patterns; tests sample Toro's five cases", "anchors": ["include/mini/riemann/euler/exact.hpp: GetPrimitiveUpwind, PrimitiveNearShock, PrimitiveNearExpansion, PrimitiveInsideExpansion, PrimitiveNearVacuum"]}
{"id": "C56", "title": "The exact solver's root finder terminates with the promised accuracy", "statement": "Both loops of FindRoot end, never divide by zero, and return a positive pressure p with -eps <= f(p) <= 0; f_prime is the derivative of f and the root is unique.", "quantifier": "every pair of states with positive density and pressure that forms no vacuum, every eps > 0, every positive starting value", "why_tests_cant": "termination of an unbounded loop over a continuum of inputs", "anchors": ["include/mini/riemann/euler/exact.hpp: FindRoot, SpeedChange"]}
{"id": "C57", "title": "Blades know their rotor through copies and moves", "statement": "After any sequence of construction, copying, moving, destruction of rotors and installation of blades, every blade of every live rotor refers to the rotor that owns it, never to a dead or foreign one.", "quantifier": "every finite program over rotor objects, including the reallocations of a vector of rotors", "why_tests_cant": "dangling pointers usually still read plausible memory in a test", "anchors": ["include/mini/aircraft/rotor.hpp: copy control, InstallBlade", "include/mini/aircraft/blade.hpp: SetRotor"]}
{"id": "C58", "title": "Section velocity is the derivative of section position", "statement": "Section::GetVelocity equals the time derivative of the position reported by GetOrigin/GetPoint of the rotating blade.", "quantifier": "every rotor frame, phase, speed, root, span and position", "why_tests_cant": "a derivative over a continuum", "anchors": ["include/mini/aircraft/section.hpp: GetVelocity", "include/mini/aircraft/blade.hpp: GetPoint, SetAzimuth"]}
{"id": "C59", "title": "Section force is lift plus drag", "statement": "The force on the air has no spanwise component, its component along the relative wind is minus the drag and across it minus the lift, both scaled by rho V^2 chord / 2; with non-negative drag the force never adds energy to the relative motion.", "quantifier": "every section, every inflow, both senses of rotation", "why_tests_cant": "sign and quadrant errors show only for some of a continuum of inflow directions", "anchors": ["include/mini/aircraft/section.hpp: GetForce, GetAngleOfAttack"]}
{"id": "C60", "title": "Second-order elements reproduce quadratic maps", "statement": "When the nodes of a second-order triangle, quadrangle, tetrahedron, wedge or hexahedron are placed by a polynomial map of degree two, LocalToGlobal is that map everywhere; the 27-node hexahedron reproduces every triquadratic function.", "quantifier": "every quadratic map, every local coordinate", "why_tests_cant": "continuum of maps; a wrong mid-edge weight is invisible on straight cells", "anchors": ["include/mini/geometry/triangle.hpp", "include/mini/geometry/quadrangle.hpp", "include/mini/geometry/tetrahedron.hpp", "include/mini/geometry/wedge.hpp", "include/mini/geometry/hexahedron.hpp"]}
{"id": "C61", "title": "GlobalToLocal inverts LocalToGlobal", "statement": "On a straight non-degenerate tetrahedron, wedge or hexahedron GlobalToLocal returns the exact preimage from any hint after at most two Newton rounds; on any cell a returned point ends a Newton step of at most 1e-5, and a hint that is the answer is returned unchanged.", "quantifier": "every node placement, target and hint", "why_tests_cant": "continuum; convergence from every hint", "anchors": ["include/mini/geometry/cell.hpp: GlobalToLocal, root"]}
{"id": "C62", "title": "Normal frames of faces are right-handed and orthonormal", "statement": "LocalToNormalFrame returns normal, tangent and bitangent that are orthonormal and right-handed; the normal is orthogonal to both surface directions and oriented by their order; the tangent is along the first direction.", "quantifier": "every element, node placement and local coordinate where the surface does not degenerate", "why_tests_cant": "continuum", "anchors": ["include/mini/geometry/face.hpp: _NormalFrameBuilder, LocalToNormalVector"]}
{"id": "C63", "title": "GetOutwardNormalVector returns the outward normal", "statement": "For each of the six faces of a hexahedron GetOutwardNormalVector returns the unit vector orthogonal to the face at its middle that points out of the cell.", "quantifier": "every hexahedron and face", "why_tests_cant": "tests use boxes, where an edge direction happens to be the normal", "anchors": ["include/mini/geometry/hexahedron.hpp: GetOutwardNormalVector"]}
{"id": "C64", "title": "The troubled-cell indicator is unit-free and spares agreeing cells", "statement": "Eigen::IsNotSmooth flags a cell exactly when the mean jump of density or energy at its centre exceeds the largest average times h^((P+1)/2); cells agreeing with their neighbours and isolated cells are never flagged; the verdict does not depend on units, on the order of neighbours or on momentum.", "quantifier": "every cell, every number of neighbours, every degree", "why_tests_cant": "continuum of states and arbitrary neighbourhoods", "anchors": ["include/mini/limiter/weno.hpp: Eigen::IsNotSmooth"]}
{"id": "C65", "title": "The smoothness indicator is that of Jiang and Shu", "statement": "weno::GetSmoothness returns the sum over all derivatives D^a with 1 <= |a| <= P of V^(2|a|/3-1) times the integral of (D^a u)^2, and it is never negative.", "quantifier": "every polynomial of degree 1, 2, 3 on every cell", "why_tests_cant": "continuum; a wrong derivative still gives plausible limiting", "anchors": ["include/mini/limiter/weno.hpp: GetSmoothness", "include/mini/basis/taylor.hpp: GetSmoothness, GetPdvValue"]}
{"id": "C66", "title": "A solution file shows every cell at its place with its own values", "statement": "For a part with at least one cell, all of them tetrahedra, wedges or hexahedra, WriteSolutions yields a piece in which a VTK reader finds, in order, every cell with its type and, at each of its nodes, the position LocalToGlobal gives there and all fields of that cell there; mesh nodes are shown where the mesh has them, first-order cells get midpoints.", "quantifier": "every list of cells, every geometry, every solution, any number of fields", "why_tests_cant": "offsets and connectivity depend on all cells before; tables for mixed types", "anchors": ["include/mini/mesh/vtk.hpp: Writer, Prepare, WriteSolutions"]}
{"id": "C67", "title": "Faces are the sides of their cells", "statement": "The surface element built on the nodes that SortNodesOnFace returns for a side of a cell covers exactly that side of the cell's LocalToGlobal map, for every class of cells (tetrahedra, pyramids, wedges, hexahedra of first and second order); two cells that list a common side as the same polygon, from any corner and in either sense, therefore have the same side: no gap, no overlap.", "quantifier": "every class, every side, every order in which the nodes are given, every (also curved) position of nodes", "why_tests_cant": "equality of two parametric surfaces over a continuum; holds per pair of cell class, side and rotation", "anchors": ["include/mini/geometry/hexahedron.hpp: SortNodesOnFace, shape functions", "include/mini/geometry/wedge.hpp", "include/mini/geometry/pyramid.hpp", "include/mini/geometry/tetrahedron.hpp", "include/mini/geometry/quadrangle.hpp", "include/mini/geometry/triangle.hpp", "include/mini/mesh/part.hpp: BuildGaussForFace"]}
{"id": "C68", "title": "The normal of a face points out of its holder", "statement": "At every point of a side where the cell's Jacobian does not vanish and has the usual sign, the cross product of the tangents of the sorted face has a negative product with every direction leading into the cell, so LocalToNormalVector points out of the holder.", "quantifier": "every class, side, point and node position with the orientation of the standard cell; any inward direction", "why_tests_cant": "continuum of curved cells; tests only see boxes", "anchors": ["include/mini/geometry/face.hpp: LocalToNormalVector", "include/mini/geometry/hexahedron.hpp: SortNodesOnFace", "include/mini/mesh/part.hpp: BuildLocalFaces, BuildGhostFaces, BuildBoundaryFaces"]}
{"id": "C69", "title": "Local and ghost faces join the right cells", "statement": "After a Part is built, there is exactly one local face per pair of adjacent local cells and one ghost face per pair of a local and a remote cell, in the order of the pairs. Its holder and sharer are the cells of the pair, its nodes are the nodes the two have in common, listed counter-clockwise seen from outside the holder. The lists of adjacent cells and adjacent faces of every cell name exactly its partners, adjacency is mutual, the i-th adjacent cell lies across the i-th adjacent face, and the two parts sharing a pair build faces on the same nodes. Nothing depends on the iteration order of hash maps.", "quantifier": "all meshes of tetrahedra, pyramids, wedges and hexahedra, all adjacency lists, all hash orders, all partitions", "why_tests_cant": "the result goes through unordered_map iteration, whose order a test cannot vary; a wrong holder shows only as a sign error in some fluxes", "anchors": ["include/mini/mesh/part.hpp: BuildLocalFaces, BuildGhostFaces, Face::other, GetLocalFaces, GetGhostFaces"]}
{"id": "C70", "title": "Boundary faces are found by name and numbered after the others", "statement": "When the boundary sections come in increasing order of zone and section, GetBoundaryFaces() yields one face per boundary face of the part in file order, held by the only cell that has all its nodes, listed outward; local, ghost and boundary faces together have the ids 0, 1, 2, ... in iteration order (which caches indexed by id rely on); GetBoundaryFaces(name) yields the faces of the section of that name and throws for an unknown one.", "quantifier": "all meshes, all lists of boundary sections, all hash orders", "why_tests_cant": "needs all section layouts and hash orders; wrong ids corrupt caches silently", "anchors": ["include/mini/mesh/part.hpp: BuildBoundaryFaces, GetBoundaryFaces", "include/mini/spatial/fr/general.hpp: CacheCorrectionGradients"]}
{"id": "C71", "title": "The DG residual is the weak form", "statement": "Every coefficient of GetResidualColumn is the weak form of the conservation law tested with that basis function: flux against the gradient over the cell, minus the numerical flux out through every face of the cell (local faces held or shared, ghost faces, boundaries with a registered condition) against the function. For dg::Lobatto the same with the node's function, divided by the node's weight.", "quantifier": "all meshes, states, Riemann solvers, boundary conditions, degrees", "why_tests_cant": "tests compare residuals of one mesh against stored numbers; a dropped or doubled term on some kind of face can hide there", "anchors": ["include/mini/spatial/fem.hpp: GetResidualColumn", "include/mini/spatial/dg/general.hpp: AddFluxDivergence, AddFluxOnLocalFaces, AddFluxOnGhostFaces, Apply*", "include/mini/spatial/dg/lobatto.hpp: GetResidualColumn"]}
{"id": "C72", "title": "A uniform flow stays uniform", "statement": "If all cells hold the same state, the Riemann solvers and boundary conditions are consistent with its flux, and the quadrature rules satisfy the divergence theorem for the basis functions on a cell, then the residual of that cell is exactly zero.", "quantifier": "all meshes, states, consistent solvers, degrees", "why_tests_cant": "a free-stream test checks one mesh and one state to rounding error", "anchors": ["include/mini/spatial/fem.hpp: GetResidualColumn", "include/mini/spatial/dg/general.hpp", "include/mini/spatial/dg/lobatto.hpp"]}
{"id": "C73", "title": "The part of a blade in a cell", "statement": "For a tetrahedral cell all of whose sides are interior faces, Rotorcraft's Intersect returns the ratios between which the blade is in the cell, for every blade with both ends outside the cell; forces are deposited exactly on that part. (It does not when an end of the blade is inside the cell, when the blade passes through an edge, or when a side of the cell is on the boundary.)", "quantifier": "all tetrahedra, all orders of faces, all blades in general position", "why_tests_cant": "depends on which of two ratios is found first and on thresholds; tests use a few symmetric positions", "anchors": ["include/mini/aircraft/source.hpp: Intersect", "include/mini/geometry/intersect.hpp: Intersect"]}
{"id": "C74", "title": "The source adds exactly the reported forces", "statement": "With a Rotorcraft, GetResidualColumn is the residual without source plus, in each cell's own block, the sum over the forces that GetForces reports for that cell at that time of weight times force times basis values in the momentum rows and weight times power of the force in the energy row; mass is untouched. Cells not met by a blade keep their residual, DummySource changes nothing, all cells see the same position of the blades, and asking again at the same time gives the same answer. The weights reported add up to the length of the part of the blade in the cell.", "quantifier": "all meshes, states, rotors, blades, airfoils, times", "why_tests_cant": "a wrong row, block or weight is hidden in a residual that has no known exact value", "anchors": ["include/mini/spatial/dg/general.hpp: WithLimiterAndSource, AddSourceIntegral", "include/mini/aircraft/source.hpp: UpdateCoeff, GetForces, GetSourceValue", "include/mini/aircraft/rotor.hpp: UpdateAzimuth"]}
{"id": "C75", "title": "A written solution can be read back", "statement": "Let the zones and, in each zone, the cell sections of every rank be numbered 1, 2, ... If every rank calls GatherSolutions and then all call WriteSolutions, and later ranks call ReadSolutions and ScatterSolutions, each cell of a reading rank ends up with exactly the coefficients that the cell had when they were gathered: on the same partition whatever the ranks held in between, and on any other partition whose cells are all covered by the writers. This requires that a zone has one cell section or that creating a field again keeps its values. Without GatherSolutions the coefficients do not influence the file at all, and if the sections do not start with number 1 gathering is undefined.", "quantifier": "all numbers of ranks, zones, sections, cells and fields, all partitions of writers and readers, all coefficients, all orders in which the data of the ranks reach the file", "why_tests_cant": "a test writes one solution on one partition; it does not vary the order of arrival, restart on other partitions or look at what happened to every earlier section", "anchors": ["include/mini/mesh/part.hpp: Part::GatherSolutions", "include/mini/mesh/part.hpp: Part::ScatterSolutions", "include/mini/mesh/part.hpp: Part::WriteSolutions", "include/mini/mesh/part.hpp: Part::ReadSolutions", "include/mini/mesh/part.hpp: Section::GatherFields", "include/mini/mesh/part.hpp: Section::ScatterFields"]}
{"id": "C76", "title": "Damping matrices represent the diffusion residual of a cell", "statement": "BuildDampingMatrices returns for every local cell a matrix which, applied to the coefficients of any component, gives the element-wise diffusion residual with unit coefficient, for cells of dg::General, dg::Lobatto and FR; the internal assertion that all components agree never fails. The matrices depend neither on the solution nor on the neighbours nor on the diffusion coefficient set before, and they do not damp coefficients whose gradient vanishes. For a basis in global coordinates they are symmetric and, with non-negative weights, negative semi-definite: exactly the energy of the gradient is taken. Although declared const the call overwrites the solution of every local cell (zero, or ones in the last column), zeroes the copies of neighbours, and leaves the static diffusion coefficient at one.", "quantifier": "all meshes, cells, bases, weights, solutions, neighbour lists, orders of cells", "why_tests_cant": "the only test calls the function and checks nothing; the identity is about all coefficients and the side effects about all cells", "anchors": ["include/mini/spatial/viscosity.hpp: EnergyBasedViscosity::BuildDampingMatrices", "include/mini/spatial/dg/general.hpp: AddFluxDivergence", "include/mini/spatial/dg/lobatto.hpp: AddFluxDivergence", "include/mini/spatial/fr/general.hpp: AddFluxDivergence", "include/mini/riemann/diffusive/linear.hpp: Isotropic"]}
{"id": "C77", "title": "A boundary face goes to the part of the cell that has it", "statement": "If exactly one cell of the mesh has all nodes of a boundary face, FillFaceParts assigns the face to that cell's part, in whatever order the hash map of counts is walked, with or without assertions; with assertions it succeeds exactly for such faces; the part so chosen is the only one on which BuildBoundaryFaces finds a holder.  (Without assertions a face of no cell goes to part 0, and the part of a face between two cells depends on the hash map.)", "quantifier": "all meshes (zones, sections, elements, node maps), partitions of cells, faces and iteration orders", "why_tests_cant": "meshes and hash orders are unbounded; tests see only the iteration order of one standard library", "anchors": ["include/mini/mesh/shuffler.hpp: Shuffler::FillFaceParts", "include/mini/mesh/part.hpp: BuildBoundaryFaces"]}
{"id": "C78", "title": "The answer does not depend on the number of processes", "statement": "A run on several processes gives every cell the coefficients that a run on a single process gives it, for every stepper and any number of steps, as long as each cell sees the same faces with mutually reversed solvers and ghost cells are refreshed before each evaluation of the residual (discontinuous Galerkin without a limiter; for limiters see C09).", "quantifier": "for all meshes, distributions of cells over processes, boundary conditions, states, step sizes and numbers of steps", "why_tests_cant": "A test compares a few meshes on a few process counts and can only compare rounded numbers.", "anchors": ["include/mini/spatial/fem.hpp: GetResidualColumn", "include/mini/mesh/part.hpp: ShareGhostCellCoeffs", "include/mini/temporal/rk.hpp: Update", "demo/euler/sourceless.cpp: Main"]}
{"id": "C79", "title": "Runs, frames and restarts", "statement": "A run writes the frames asked for, equidistant in time, numbered on from the starting frame, each holding the solution after a whole number of steps; a run that is stopped at a frame and continued from that frame writes the same frames as a run that was not stopped.", "quantifier": "for all steppers (functions of time and solution), initial solutions, numbers of frames and of steps per frame, and time intervals", "why_tests_cant": "Tests do not run the main programs; off-by-one errors in the numbering show up only in long runs that are split.", "anchors": ["demo/euler/sourceless.cpp: Main", "demo/euler/rotorcraft.cpp: Main"]}
{"id": "C80", "title": "Forces written for a frame are those of that frame", "statement": "With --write_forces the program writes, for each frame, the forces on the rotor computed from the solution in that frame and at the time of that frame.", "quantifier": "for all configurations, and all frames on file", "why_tests_cant": "Needs recorded frames and a moving rotor; no test covers this mode.", "anchors": ["demo/euler/rotorcraft.cpp: Main", "demo/euler/rotorcraft.cpp: WriteForces"]}
{"id": "C81", "title": "Balances over a run", "statement": "With a limiter that keeps cell averages, the integral of every conserved quantity at the end of a run is that at the beginning less the time-weighted flux through the boundary; in particular it stays constant when nothing flows through the boundary.", "quantifier": "for all meshes, boundary conditions, steppers, limiters that keep averages, step sizes, numbers of steps and states", "why_tests_cant": "Conservation over all states and any number of steps cannot be sampled.", "anchors": ["include/mini/spatial/dg/general.hpp: WithLimiterAndSource", "include/mini/temporal/rk.hpp: Update", "include/mini/mesh/part.hpp: Reconstruct"]}
{"id": "C82", "title": "Python: steppers of order one to four", "statement": "RungeKutta(order).update is defined exactly for the orders 1 to 4; it evaluates the residual once per stage at the times of the tableau, leaves the clock at the end of the step, agrees with the C++ steppers for the orders 1 to 3, applies the truncated exponential to linear systems, is exact on quadrature problems of degree up to the order, keeps conserved quantities and steady states, and converges with the advertised order on every smooth nonlinear problem, with variable steps too. The orders 1 to 3 keep convex sets that forward Euler steps and the limiter keep; order 4 does not.", "quantifier": "all right-hand sides, step sizes, numbers of steps, limiters", "why_tests_cant": "a test measures the observed order on one problem; order conditions and stability are statements about all right-hand sides", "anchors": ["python/temporal.py: Euler.update", "python/temporal.py: RungeKutta.update"]}
{"id": "C83", "title": "Python: the time loop covers the interval within all limits", "statement": "A finished run of the solver has written n_frame + 1 frames at equidistant times from t_start to t_stop; its steps follow each other without gap or overlap, all positive and none longer than delta_t_max or than any element's suggestion for the solution at its start; the loop ends when suggestions stay above a positive bound. An element's suggestion is positive and keeps both the convective and the diffusive limit for every degree up to eight.", "quantifier": "all schemes, solutions, intervals, numbers of steps and frames, suggestions", "why_tests_cant": "an adaptive loop has unboundedly many runs; a test sees one sequence of step sizes", "anchors": ["python/solver.py: SolverBase.solve_and_write", "python/solver.py: SolverBase.animate", "python/concept.py: suggest_delta_t", "python/element.py: suggest_cfl"]}
{"id": "C84", "title": "Python: every step uses the viscosity of the current solution", "statement": "When a detector and a viscosity model are selected, every step of the time loop uses the artificial viscosity generated for the solution the step starts from, in whatever output mode the program runs.", "quantifier": "all schemes, viscosity models, intervals, numbers of steps and frames", "why_tests_cant": "an order of calls inside a loop, over all runs; the output looks plausible either way", "anchors": ["python/solver.py: SolverBase.solve_and_write", "python/solver.py: SolverBase.animate", "python/concept.py: apply_viscosity"]}
{"id": "C85", "title": "Python: scalar Riemann solvers return the entropy solution", "statement": "For linear advection and for Burgers' equation, get_value(x, t) is the entropy solution of the Riemann problem (all Kruzhkov inequalities and the conservation law across every wave), takes the initial values at t = 0, stays between the two states; get_upwind_flux is Godunov's flux, monotone in both arguments, and equals the flux of the value on the axis.", "quantifier": "all pairs of states, all positions and times, all wave speeds", "why_tests_cant": "the solution is a function of two real variables for a two-parameter family of data; tests sample points away from the waves", "anchors": ["python/riemann.py: LinearAdvection", "python/riemann.py: Burgers", "python/equation.py: Burgers"]}
{"id": "C86", "title": "Python: the coupled system is solved wave by wave", "statement": "For the 2x2 linear system, characteristic variables round-trip, the eigenmatrices diagonalise the matrix, which is the derivative of the flux; the Riemann solver's value solves each characteristic equation, its flux is consistent and upwind in each characteristic variable, and at t = 0 get_value returns the initial data.", "quantifier": "all matrices with their eigenvectors, states, positions and times", "why_tests_cant": "linear algebra over all matrices and states; tests use one matrix", "anchors": ["python/riemann.py: Coupled", "python/equation.py: Coupled"]}
{"id": "C87", "title": "Python: Euler equations are consistent", "statement": "Conservative and primitive variables round-trip, conversion succeeds exactly on states of non-negative density and pressure; the flux is the physical one, the Jacobian is its derivative along every smooth curve and the flux is homogeneous; eigenvalues and eigenmatrices diagonalise it and give the spectral radius; the viscous flux is 4/3 mu u_x and Fourier's heat flux, a vector of viscosities acts on characteristic variables; to_characteristics and from_characteristics are inverse to each other.", "quantifier": "all gamma > 1, all states of positive density and pressure, all smooth curves of states", "why_tests_cant": "derivative and matrix identities over a continuum of states; tests compare a few finite differences", "anchors": ["python/equation.py: Euler", "python/gas.py: Ideal", "python/concept.py: to_characteristics", "python/concept.py: from_characteristics"]}
{"id": "C88", "title": "Python: Roe flux", "statement": "For states of positive density and pressure the Roe flux exists, is consistent, does not depend on the direction of the axis; the Jacobian at the reported interface value takes the jump of the states to the jump of the fluxes and has the wave speeds for eigenvalues; the flux is one-sided when all waves run to one side, and discontinuities with continuous flux are kept exactly.", "quantifier": "all gamma > 1 and all pairs of states of positive density and pressure", "why_tests_cant": "algebraic identities over all pairs of states", "anchors": ["python/riemann.py: Roe"]}
{"id": "C89", "title": "Python: Lax-Friedrichs flux", "statement": "For states of positive density and pressure the Lax-Friedrichs flux exists, is consistent, does not depend on the direction of the axis, keeps density and pressure positive under the usual bound on the step, and can be selected as the solver of a face.", "quantifier": "all gamma > 1, all triples of states of positive density and pressure, all steps within the bound", "why_tests_cant": "positivity is a statement about all triples of states up to the largest step", "anchors": ["python/riemann.py: LaxFriedrichs", "python/concept.py: Face"]}
{"id": "C90", "title": "Python: exact Euler solver returns the entropy solution on every ray", "statement": "For two gases without vacuum between them the search for a start value ends, the pressure equation has at most one root and fprime is its derivative; with the root, get_value(x, t) is the state of the entropy solution on the ray x/t for every x and t > 0 (jump and Lax conditions at shocks, Riemann invariants in fans, contact in between), the data at t = 0, get_upwind_flux its physical flux on the axis, and equal states give the flux of the state. All of this for gases of any density and pressure.", "quantifier": "all gamma > 1, all pairs of states of positive density and pressure, all points and times, all behaviours of fsolve that return a root", "why_tests_cant": "a continuum of data and rays; tests sample a few shock tubes in units where pressures are of order one", "anchors": ["python/riemann.py: Euler", "python/riemann.py: Solver.get_upwind_flux"]}
{"id": "C91", "title": "Python: exact Euler solver handles vacuum", "statement": "For two gases that recede fast enough to open a vacuum, get_value returns the state of the fans, the data outside them and vacuum in between, and get_upwind_flux returns the flux of the state on the axis.", "quantifier": "all gamma > 1, all pairs of states that open a vacuum, all points and times", "why_tests_cant": "vacuum on the axis is a region in the space of data that tests do not visit", "anchors": ["python/riemann.py: Euler._determine_wave_structure", "python/riemann.py: Euler._get_value"]}
{"id": "C92", "title": "Python: correction functions and Lagrange polynomials are what they claim", "statement": "Radau, Vincent and Huynh give, for every degree they accept, two mirror-image polynomials of at most that degree, one at their own end and zero at the other, and their gradients are the derivatives of their values (Radau with the names of the two ends exchanged); the Radau polynomials are orthogonal to all of degree at most k - 2; the linear system of Huynh(degree, n_lump) is never singular and its solution is the only polynomial with the announced lumping, orthogonality and end conditions, so it coincides with Vincent's for one and two lumping conditions; the cache of gradients never changes an answer. Lagrange polynomials on distinct points are cardinal, reproduce all polynomials of smaller degree and their gradients are derivatives.", "quantifier": "all degrees, all evaluation points, all sequences of calls, all sets of distinct points", "why_tests_cant": "identities of polynomials for every degree and point; tests sample a few", "anchors": ["python/polynomial.py: Radau", "python/polynomial.py: Vincent", "python/polynomial.py: Huynh", "python/polynomial.py: LagrangePolynomial", "python/polynomial.py: LagrangeBasis"]}
{"id": "C93", "title": "Python: element coordinates and quadrature do what the schemes assume", "statement": "LinearCoordinate maps [-1, 1] onto the element and back with constant Jacobian half the length, ShiftedCoordinate is the same map moved; an integrator built on a rule exact to degree d integrates every polynomial of degree d over the element exactly, for vector values too, so averages of constants are the constants, and the integral over a shifted element is that of the shifted function; norm_1, norm_2 and inner_product satisfy the laws of norms and inner products with positive weights, norm_infty is the maximum over its samples; the Lobatto rules with 2 to 6 points are exact to degree 2n - 3 and the tabulated ones with 7 to 10 points miss the monomials by at most 6e-16, all with increasing points from -1 to 1, symmetric, and positive weights.", "quantifier": "all elements, all integrands, all polynomials up to the degree, all tabulated numbers of points", "why_tests_cant": "exactness for all polynomials on all elements; tests integrate samples", "anchors": ["python/coordinate.py: LinearCoordinate", "python/coordinate.py: ShiftedCoordinate", "python/integrator.py: GaussLegendre", "python/integrator.py: GaussLobatto", "python/concept.py: Integrator"]}
{"id": "C94", "title": "Python: expansions represent the polynomials their coefficients say", "statement": "On an element of positive length no expansion constructor fails (uniform roots, Legendre roots, Legendre modes at every degree; Lobatto roots for degrees 1 to 9). The basis functions are polynomials of the given degree, cardinal at the sample points (Lagrange) or Legendre polynomials (Legendre); every way to ask for derivatives of the basis or of the solution (gradients, Hessians, k-th derivatives, cached ones at nodes and ends) returns the derivative of the value; set_coeff and set_taylor_coeff undo each other; the value is the combination of basis and coefficients; average() is the mean value; approximate() reproduces polynomials up to the degree, and a Legendre and a Legendre-root Lagrange expansion approximate every function by the same polynomial; get_basis_innerproducts is the mass matrix, diagonal for Legendre and Gauss-point expansions; mode energies add up to the squared norm; TruncatedLegendre is the orthogonal projection and keeps the average.", "quantifier": "all degrees, all elements, all coefficients in any normed space, all functions", "why_tests_cant": "identities between polynomials for all degrees and coefficients; tests sample degrees and points", "anchors": ["python/expansion.py: Taylor", "python/expansion.py: Lagrange", "python/expansion.py: LagrangeOnUniformRoots", "python/expansion.py: LagrangeOnLegendreRoots", "python/expansion.py: LagrangeOnLobattoRoots", "python/expansion.py: Legendre", "python/expansion.py: TruncatedLegendre"]}
{"id": "C95", "title": "Python: the DG schemes satisfy the weak form, conserve, and do not depend on the basis", "statement": "get_residual_column of a discontinuous Galerkin scheme never fails in divide_mass_matrix, and what it returns for an element is the one polynomial that satisfies the weak form for every test polynomial, in the quadrature of the element (exact integrals except on Lobatto nodes). LegendreDG, DGonUniformRoots and DGonLegendreRoots compute the same function when they hold the same function. The average of the residual times the length is the difference of the two face fluxes, and the sum over a periodic grid is zero (with Inlet faces: the difference of the end fluxes). Uniform states stay. Where one polynomial passes through the neighbours the faces compute its flux, and the residual is the projection of minus the derivative of the flux, for linear advection and diffusion exactly -a u' + b u''.", "quantifier": "all degrees, elements, states, consistent Riemann solvers, equations with values in any normed space, grids of two or more elements", "why_tests_cant": "quantifies over all test polynomials, states, fluxes and grids", "anchors": ["python/element.py: DiscontinuousGalerkin", "python/element.py: LagrangeDG", "python/element.py: DGonGaussPoints", "python/element.py: LegendreDG", "python/spatial.py: FiniteElement.get_residual_column", "python/riemann.py: Solver.get_interface_flux_and_bjump", "python/concept.py: Element.get_dg_flux"]}
{"id": "C96", "title": "Python: DG convection schemes are energy stable", "statement": "On a periodic grid the energy (half the squared norm in the quadrature of the elements, the exact one except on Lobatto nodes) of a solution of the semi-discrete system of a scalar convection equation with its exact Riemann solver never grows; its rate of change is the sum over the faces of the integral, over the jump, of the face flux minus the flux function.", "quantifier": "all degrees, all kinds of elements, all grids, all solutions of the ODE system", "why_tests_cant": "a statement about all trajectories", "anchors": ["python/element.py: DiscontinuousGalerkin", "python/spatial.py: FiniteElement.get_residual_column", "python/riemann.py: LinearAdvection", "python/riemann.py: InviscidBurgers"]}
{"id": "C97", "title": "Python: the direct DG diffusion scheme is energy stable and consistent", "statement": "For linear advection and diffusion with the interface gradient of riemann.Solver (beta_0 = 3, beta_1 = 1/12) on a uniform periodic grid the energy of a solution of the semi-discrete system never grows, and piecewise constants diffuse with the given coefficient.", "quantifier": "all degrees, all kinds of elements, all grids, all solutions of the ODE system", "why_tests_cant": "coercivity of a quadratic form over all polynomials; tests run a few degrees and initial values", "anchors": ["python/riemann.py: Solver.get_interface_gradient", "python/riemann.py: Solver.get_interface_flux_and_bjump", "python/riemann.py: LinearAdvectionDiffusion", "python/element.py: DiscontinuousGalerkin.add_interface_correction"]}
{"id": "C98", "title": "Python: flux reconstruction differentiates a continuous flux and conserves", "statement": "With a correction function set, get_residual_column of a flux reconstruction scheme returns for each element minus the derivative of a flux polynomial that takes the common values of the faces at the ends, and get_fr_flux takes these values; the integral of the residual over an element is the difference of the face fluxes, so that a periodic grid conserves; uniform states stay; where flux and faces agree the residual is exactly minus the derivative of the flux.", "quantifier": "all degrees, elements on uniform, Legendre and Lobatto nodes, states, equations with values in any normed space, grids of two or more elements, correction functions of polynomial.py", "why_tests_cant": "quantifies over all states, fluxes, grids and correction functions", "anchors": ["python/element.py: FluxReconstruction", "python/element.py: LagrangeFR", "python/element.py: FRonGaussPoints", "python/spatial.py: FluxReconstruction", "python/spatial.py: FiniteElement.get_residual_column", "python/solver.py: SolverBase"]}
{"id": "C99", "title": "Python: flux reconstruction with the right correction function is discontinuous Galerkin", "statement": "Without diffusion, FRonLobattoRoots with the default correction function Vincent(huynh_lumping_lobatto) or Huynh(lumping 2) returns the residual column of DGonLobattoRoots for every flux, and FRonUniformRoots and FRonLegendreRoots with Vincent(discontinuous_galerkin) or Huynh(lumping 1) that of DGonUniformRoots and DGonLegendreRoots for every linear flux.", "quantifier": "all degrees (Lobatto: the rules with up to six points), grids, states, Riemann solvers", "why_tests_cant": "equality of two schemes on all states", "anchors": ["python/element.py: FluxReconstruction", "python/element.py: DiscontinuousGalerkin", "python/polynomial.py: Vincent", "python/polynomial.py: Huynh"]}
{"id": "C100", "title": "Python: the grid covers the interval and points are found in their elements", "statement": "The constructor of a spatial scheme cuts [x_left, x_right] into n_element elements of equal length without gaps, refuses empty intervals and less than two elements; get_element_index finds for each point of the grid the one element that contains it, and get_solution_value returns the value of that element; points outside are answered by the last element on both sides.", "quantifier": "all ordered fields, intervals, numbers of elements and points", "why_tests_cant": "all points of all grids", "anchors": ["python/spatial.py: FiniteElement.__init__", "python/spatial.py: FiniteElement.get_element_index", "python/concept.py: Grid.get_solution_value"]}
{"id": "C101", "title": "Python: faces and neighbours", "statement": "After any number of calls of set_boundary_values each element of a grid reads in each evaluation the faces that were solved in this evaluation, with the elements and boundary values that belong to them; no face is solved twice; the neighbours returned by neighbor_expansions are the adjacent elements, shifted by the length of the grid across a periodic boundary so that they touch, and none at an inlet.", "quantifier": "all grids of two or more elements, histories of boundary values, solvers and previous contents of the faces", "why_tests_cant": "quantifies over all histories of calls and all grids", "anchors": ["python/spatial.py: FiniteElement.link_neighbors", "python/spatial.py: FiniteElement.set_boundary_values", "python/spatial.py: FiniteElement.get_residual_column", "python/spatial.py: FluxReconstruction.get_flux_value"]}
{"id": "C102", "title": "Python: the solution column", "statement": "The solution column holds coefficient r of component c of element i at position i*rows*cols + c*rows + r; set_solution_column accepts exactly the columns of the right length, and setting and getting are inverse to each other.", "quantifier": "all numbers of elements, terms and components, all columns", "why_tests_cant": "a round trip for all columns", "anchors": ["python/spatial.py: FiniteElement.set_solution_column", "python/spatial.py: FiniteElement.get_solution_column"]}
{"id": "C103", "title": "Python: limiting is a simultaneous update", "statement": "Limiter.reconstruct replaces the coefficients of exactly the troubled elements, each by the value computed from the expansions as they were before any of them was changed; the order of the troubled elements does not matter.", "quantifier": "all grids, states, lists of troubled elements and reconstruction functions", "why_tests_cant": "quantifies over all grids and orders", "anchors": ["python/limiter.py: CompactWENO.reconstruct", "python/limiter.py: ZhongXingHui2013", "python/limiter.py: LiWanAi2020"]}
{"id": "C104", "title": "Python: the simple WENO limiter conserves", "statement": "ZhongXingHui2013 gives a convex combination of the element's own polynomial and the neighbours' polynomials moved to the same average, for scalars and, in characteristic variables, for systems: averages are unchanged, values stay within the bounds of the candidates, and a polynomial shared by the element and its neighbours is reproduced.", "quantifier": "all degrees, elements, expansions, neighbours, parameters 0 < epsilon, 0 < 2 w_small < 1", "why_tests_cant": "all states and neighbours; nodes on Lobatto roots are sampled 1e-10 inside the ends, far below the tolerance of a test", "anchors": ["python/limiter.py: ZhongXingHui2013.get_scalar_taylor_coeff", "python/limiter.py: ZhongXingHui2013._borrow_expansion", "python/limiter.py: CompactWENO.get_new_taylor_coeff", "python/expansion.py: Taylor.approximate"]}
{"id": "C105", "title": "Python: the p-weighted limiter conserves and keeps linear data", "statement": "LiWanAi2020 gives for p >= 1 and at least one neighbour a convex combination of truncated polynomials with the element's average; averages and constants are unchanged, linear data are reproduced, and k_trunc controls how many truncated polynomials take part.", "quantifier": "all degrees p >= 1, elements, neighbours and parameters", "why_tests_cant": "all states and neighbours", "anchors": ["python/limiter.py: LiWanAi2020.get_scalar_taylor_coeff", "python/limiter.py: LiWanAi2020.get_candidates", "python/limiter.py: LiWanAi2020._borrow_expansion"]}
{"id": "C106", "title": "Python: the selective filter is conservative and damps", "statement": "filter.Selective takes sigma times an eleven-point symmetric difference away from each point: on a periodic array from all points alike, otherwise from all but the five at each end; periodic arrays of less than ten points are refused. The sum is kept, polynomials up to the third degree are not changed, a wave is multiplied by 1 - sigma*damping(theta) with damping between 0 and 1 up to the rounding of the coefficients (1e-23), and for 0 <= sigma <= 2 the sum of squares does not grow by more than that rounding.", "quantifier": "all arrays, lengths, values of sigma, polynomials, waves", "why_tests_cant": "stability is a statement on all arrays; near the ends of a periodic array other code runs than inside", "anchors": ["python/filter.py: Selective.filter", "python/filter.py: Selective.damping"]}
{"id": "C107", "title": "Python: jump detectors tell jumps from smooth data", "statement": "A smoothness-based detector reports exactly the elements whose smoothness exceeds its bound, in increasing order and once each; All reports all. The smoothness of Krivodonova2004 is 0 exactly if the solution is continuous over the inflow faces, of LiWanAi2011 exactly if the neighbours' polynomials agree with the own one at the centre, of ZhuJun2021 exactly if they have the own mean over the element. Under refinement (length below some h0 that depends on the degree and the constants only) all three leave elements alone whose differences are of order h^(p+1), and report elements with a difference that stays.", "quantifier": "all grids, degrees, expansions set up by the constructors, reachable states, scalar and system values, velocities", "why_tests_cant": "the claim is about every small enough element, with and without neighbours at both ends", "anchors": ["python/detector.py: SmoothnessBased.get_troubled_cell_indices", "python/detector.py: Krivodonova2004.get_smoothness_values", "python/detector.py: LiWanAi2011.get_smoothness_values", "python/detector.py: ZhuJun2021.get_smoothness_values"]}
{"id": "C108", "title": "Python: detector on the energy of the highest mode", "statement": "Persson2006 reports an element exactly if, in some component, the integral of the square of the highest Legendre mode is more than the share p^-3 of the integral of the square of the solution plus 1e-8, whatever the kind of expansion; its smoothness is between 0 and p^3, and 0 exactly if the highest mode is absent.", "quantifier": "all elements, degrees, expansions, states, components", "why_tests_cant": "the claim is on all states; only one kind of expansion is ever used with the detector", "anchors": ["python/detector.py: Persson2006.get_smoothness_value", "python/detector.py: Persson2006.get_smoothness_values", "python/expansion.py: Legendre.get_mode_energy"]}
{"id": "C109", "title": "Python: detector on the decay of modes", "statement": "Kloeckner2011 adds to the energies of the modes of a component a share of the total that sums up to 1, replaces each entry by the largest of those behind it, and takes the slope of the line of least squares in logarithms; the slope is not negative, it recovers the exponent of a power law, and the element is reported exactly if the slope of some component is less than 3/2. Constants are not reported; an element whose highest mode dominates is.", "quantifier": "all degrees 2 to 100, expansions, states", "why_tests_cant": "the claim is on all spectra; the branch for nodal expansions and the degree 2 are not exercised", "anchors": ["python/detector.py: Kloeckner2011.add_modal_decay", "python/detector.py: Kloeckner2011.apply_skyline", "python/detector.py: Kloeckner2011.get_least_square_slope", "python/detector.py: Kloeckner2011.get_smoothness_value"]}
{"id": "C110", "title": "Python: detector on samples", "statement": "The indicator of LiYanHui2022 at each sample is in (0, 1], and 1 exactly if the differences to both sides are equal in size. Constants are not reported on any grid, linear data are not reported on a grid of equal elements that is not periodic. With one jump at a face between two constant states exactly the two elements beside the face are reported if 4*jump^2*psi_c > epsilon*(1-psi_c) in some component, otherwise none. Whether an inner element is reported depends on its own and its two neighbours' solutions only.", "quantifier": "all grids, degrees, states, jumps, components", "why_tests_cant": "locality and the exact answer for a jump hold for all grids and positions", "anchors": ["python/detector.py: LiYanHui2022.get_troubled_cell_indices"]}
{"id": "C111", "title": "Python: dissipation matrices", "statement": "The matrices of get_dissipation_matrices are the diffusive part of the residual of flux reconstruction: on any grid, for any equation with a constant coefficient nu of diffusion, the residual of an element minus the residual of the same equation without diffusion is nu times (B - C + D) u + E u_left + F u_right, where the terms of missing neighbours are absent.", "quantifier": "all grids of two or more elements, periodic or not, degrees, nodal expansions, correction functions, scalar and system values, elements of any lengths", "why_tests_cant": "the matrices are built by other code than the residual; equality is needed for all states and grids", "anchors": ["python/element.py: LagrangeFR.get_dissipation_matrices", "python/element.py: LagrangeFR.get_interior_residual"]}
{"id": "C112", "title": "Python: dissipation rate of the energy-based viscosity", "statement": "The rate at which diffusion in an element with zero beyond its faces changes the energy, by which the energy-based viscosity divides, is negative whenever the solution in the element is not zero.", "quantifier": "all degrees, grids of equal elements, states", "why_tests_cant": "the sign of a quadratic form is a claim on all states; it changes with the degree", "anchors": ["python/viscosity.py: Energy._get_dissipation_rate"]}
{"id": "C113", "title": "Python: artificial viscosity reaches the troubled elements only", "statement": "After apply_viscosity every element the detector reports carries its own coefficient and every other element none, whatever the elements and the viscosity object held before; over any sequence of reports only the last one counts. An element without coefficient has the flux of the equation, one with a constant or varying coefficient loses coefficient times slope in addition.", "quantifier": "all grids, sequences of reports, equations, states, coefficients", "why_tests_cant": "left-overs of earlier steps show only in sequences of reports that tests do not enumerate", "anchors": ["python/concept.py: SpatialScheme.apply_viscosity", "python/concept.py: Viscosity.get_cell_viscosity", "python/concept.py: Element.get_extra_viscosity", "python/viscosity.py: Constant.generate"]}
{"id": "C114", "title": "Python: suggested time step", "statement": "suggest_delta_t is the smallest of the given step and the steps of the elements; the step of an element is positive, at most the convective and the diffusive limit, decreases as viscosity is added, and is the CFL number times length over speed without diffusion.", "quantifier": "all grids, degrees, lengths, speeds, viscosities, CFL numbers", "why_tests_cant": "a bound over all elements and parameters", "anchors": ["python/concept.py: SpatialScheme.suggest_delta_t", "python/concept.py: Element.suggest_delta_t"]}
{"id": "C115", "title": "Python: viscosity of Persson and Peraire", "statement": "The coefficient is between 0 and length/degree, 0 exactly if the share of the highest mode is at most 10^(-kappa)/p^4, the full amount exactly from 10^kappa/p^4 on, and continuous and monotone in the share.", "quantifier": "all elements, degrees, solutions, kappa > 0", "why_tests_cant": "continuity and monotonicity are claims on all solutions", "anchors": ["python/viscosity.py: Persson2006._get_constant_coeff", "python/viscosity.py: Persson2006.generate"]}
{"id": "C116", "title": "Python: quadratic profile of viscosity", "statement": "generate gives every troubled element a continuous profile which is the mean of the two constants at a face with a neighbour, so that there is no jump between troubled elements, which is at least half the constant of the element and at most 17/16 of the largest constant around, and which takes the constant of the element in the centre if that is not less than the means.", "quantifier": "all grids (periodic or not), reports, constants, elements, points", "why_tests_cant": "the claim is on all points of all elements and on calls one after another", "anchors": ["python/viscosity.py: Quadratic._get_callable_coeff", "python/viscosity.py: Quadratic._get_callable_scalar", "python/viscosity.py: Energy.generate", "python/viscosity.py: Energy._get_nu"]}
{"id": "C117", "title": "Python: linear profile of viscosity", "statement": "generate gives every troubled element the line between the upwind constants at its two faces; there is no jump between troubled elements, and the values are between 0 and the largest constant around. For systems the matrix at a face has the eigenvectors of the flux as eigenvectors and the upwind constants as eigenvalues.", "quantifier": "all grids (periodic or not), reports, constants, wave speeds, points", "why_tests_cant": "the claim is on all signs of the speeds at both faces, all points and both ends of the grid", "anchors": ["python/viscosity.py: Linear._get_callable_coeff", "python/viscosity.py: Linear._get_upwind_scalar", "python/viscosity.py: Linear._span", "python/viscosity.py: Linear.generate"]}
{"id": "C118", "title": "Python: constant of the energy-based viscosity", "statement": "The energy of the oscillation compares the element on the points of each half with the polynomial of the neighbour and with the line through the neighbour's values at its two Gauss points; it is not negative, it is zero exactly if the element agrees with one of the two on each half, and between neighbours with the same polynomial it is at most half the integral of the square of the difference. The constant is between 0 and length/degree times the largest wave speed, and with it the dissipation during tau is at most that energy, equal to it unless the limit is reached.", "quantifier": "all grids, degrees, states, tau, wave speeds", "why_tests_cant": "the claims are on all states and degrees; for high degrees the assertion fails for special states only", "anchors": ["python/viscosity.py: Energy._get_constant_coeff", "python/viscosity.py: Energy._get_oscillation_energy", "python/viscosity.py: Energy._get_lazy_half_energy", "python/viscosity.py: Energy._get_max_nu"]}
{"id": "C119", "title": "Python: reference solutions of the linear problems and the shock tubes", "statement": "u_exact of LinearSmooth and LinearJumps equals u_init at time 0, has the period of the domain at all times, and solves u_t + a u_x = b u_xx: LinearSmooth classically, LinearJumps by constant values along the characteristics. That of ShockTube equals u_init at time 0 and depends on the distance from the diaphragm over the time alone later.", "quantifier": "all means, wave numbers, speeds, diffusivities, domains, points, times", "why_tests_cant": "a reference that solves another equation makes every measured error wrong; tests compare it with nothing", "anchors": ["python/solver.py: LinearSmooth.u_exact", "python/solver.py: LinearJumps.u_init", "python/solver.py: ShockTube.u_exact"]}
{"id": "C120", "title": "Python: reference solution of the Burgers problem", "statement": "Every request to u_exact ends and returns a solution of u = u_init(x - k u t). The answer does not depend on what was asked before, is the initial value at the foot of the characteristic, and the answers are a classical solution of u_t + k u u_x = 0.", "quantifier": "all points, times, wave numbers, factors, histories of requests", "why_tests_cant": "the claim is on all histories; the widening loop could run forever", "anchors": ["python/solver.py: InviscidBurgers.u_exact", "python/solver.py: InviscidBurgers.u_init"]}
{"id": "C121", "title": "Python: measured errors", "statement": "The first and the second error are zero exactly if the solution agrees with the reference at all points of integration, the first is at most the second times the root of the length of the domain, the second is the L2 distance where the square of the difference is a polynomial that the rule integrates, and the third is the largest deviation on equidistant points of all elements.", "quantifier": "all grids, rules with positive weights, references, solutions", "why_tests_cant": "the claims are on all solutions and rules", "anchors": ["python/solver.py: SolverBase._measure_errors", "python/concept.py: Integrator.norm_1", "python/concept.py: Integrator.norm_2", "python/concept.py: Integrator.norm_infty"]}
{"id": "C122", "title": "Python: the matrix of the wave number analysis", "statement": "On grids of equal elements get_spatial_matrix of a DG or FR scheme for advection to the right does not depend on the number of elements and their position, has period 2 pi in the wave number, and turns into its conjugate for the opposite wave. For waves that close on the grid the residual of every element is the matrix applied to its column, so every eigenvalue of the scaled matrix is the wave number with which some wave of the semi-discrete scheme moves and decays.", "quantifier": "all degrees, expansions, correction functions, speeds, element lengths, numbers of elements, wave numbers", "why_tests_cant": "the claim equates matrices of all grids and concerns solutions of differential equations", "anchors": ["python/wave_number.py: WaveNumberDisplayer.get_spatial_matrix", "python/wave_number.py: WaveNumberDisplayer.get_modified_wavenumbers"]}
{"id": "C123", "title": "Python: waves of the DG schemes do not grow", "statement": "No modified wave number of a DG scheme has a positive imaginary part; the imaginary part is zero exactly if the wave has no jump at the faces. FR has the matrix of DG for the correction functions with which it is DG. Constants are waves of wave number 0 that stay. At degree 0 the modified wave number is sin k + i (cos k - 1).", "quantifier": "all degrees, expansions, speeds, element lengths, wave numbers, eigenvectors", "why_tests_cant": "eigenvalues of a family of matrices over all degrees and wave numbers", "anchors": ["python/wave_number.py: WaveNumberDisplayer.get_modified_wavenumbers"]}
{"id": "C124", "title": "Python: the physical mode", "statement": "get_physical_mode never hits its assertions; the mode it picks for a wave number in the j-th interval of length pi is the j-th smallest eigenvalue, symmetric for negative wave numbers and periodic.", "quantifier": "all wave numbers, all lists of eigenvalues", "why_tests_cant": "the loops run over unbounded wave numbers", "anchors": ["python/wave_number.py: WaveNumberDisplayer.get_physical_mode"]}
{"id": "C125", "title": "Python: discrete Fourier coefficients", "statement": "The sample points are the centres of equal parts; get_kth_fourier_coeff is linear, sees a harmonic of the domain exactly if its number is k up to a multiple of the number of samples, and the coefficients give the samples back.", "quantifier": "all domains, numbers of elements and samples, functions, k", "why_tests_cant": "the claim is on all functions and numbers of samples", "anchors": ["python/discrete_fourier.py: DiscreteFourierAnalysis.get_kth_fourier_coeff"]}
{"id": "C126", "title": "Python: flux reconstruction with Vincent's correction functions is stable", "statement": "With the correction functions of Vincent of any ratio mu that is not zero, the residual of a flux reconstruction element is a Galerkin residual in the inner product that adds a weighted product of the highest derivatives to the integral. For linear advection on a periodic grid the energy of that inner product changes at the rate of minus half the speed times the sum of the squared jumps; for ratios in (0, 1], which include the three ratios the code names, the energy is positive, so every solution of the semi-discrete system (which exists for all initial values) stays bounded by its start, and no wave of the wave number analysis grows.", "quantifier": "all degrees up to 9, nodes, ratios, grids, speeds, initial values, times, wave numbers", "why_tests_cant": "the claim is about all solutions of a family of differential equations for all times", "anchors": ["python/polynomial.py: Vincent", "python/element.py: LagrangeFR.get_interior_residual", "python/element.py: LagrangeFR.add_interface_residual", "python/spatial.py: FluxReconstruction.add_correction_function"]}
{"id": "C127", "title": "Python: schemes of degree zero satisfy a maximum principle", "statement": "For linear advection and Burgers' equation on a periodic grid with elements of degree zero, as long as no step is longer than the time a wave of the largest speed needs to cross an element, any number of steps by the methods of orders one to three keeps all values within the bounds of the initial ones, does not raise the total variation, does not raise the integral of the distance between two runs, and keeps one run above another that starts below it. A step of Euler's method creates no new extremum among an element and its two neighbours and satisfies the discrete Kruzhkov inequality for every constant.", "quantifier": "all grids of at least two elements, every expansion that exists at degree zero, all speeds, initial values, numbers and sizes of steps", "why_tests_cant": "total variation and contraction are inequalities over all pairs of states and sequences of steps", "anchors": ["python/spatial.py: get_residual_column", "python/riemann.py: LinearAdvection", "python/riemann.py: Burgers", "python/temporal.py: RungeKutta"]}
{"id": "C128", "title": "Python: suggested steps keep the schemes of degree zero stable", "statement": "With steps no longer than suggest_delta_t suggests, linear advection on equal elements of degree zero stays stable (the sum of squares does not grow) and within the bounds of its initial values, whichever ODE solver runs.", "quantifier": "all speeds, element lengths, numbers of elements, initial values, numbers of steps", "why_tests_cant": "instability of a step size shows only after many steps on the worst of all grid functions", "anchors": ["python/concept.py: suggest_delta_t", "python/element.py: suggest_cfl", "python/temporal.py: RungeKutta"]}
{"id": "C129", "title": "Flux reconstruction keeps a uniform flow on curved hexahedra", "statement": "A uniform state, with consistent solvers and boundary conditions, has zero residual at every solution point of every hexahedral cell, for fr::General with any correction function and for fr::Lobatto: the schemes invent no waves on curved or tapered cells.", "quantifier": "all conforming hexahedral meshes and partitions, cells with 8, 20, 26 and 27 nodes, all degrees, states, fluxes and boundary conditions", "why_tests_cant": "a test runs on a few meshes, usually of boxes, where the metric terms are constant", "anchors": ["include/mini/spatial/fr/general.hpp: AddFluxDivergence", "include/mini/spatial/fr/lobatto.hpp", "include/mini/polynomial/hexahedron.hpp: GetJacobianAssociated", "include/mini/polynomial/hexahedron.hpp: GlobalFluxToLocalFlux"]}
{"id": "C130", "title": "Discontinuous Galerkin schemes for scalar laws do not gain energy", "statement": "For dg::General with rotated::Single or rotated::Burgers the integral of the square of the solution changes only by a non-negative loss at each face point and by what boundaries let through: with nothing coming in it never grows, and it grows at most by what inlets bring. For the linear equation, two runs of RungeKutta<3> with the same inflow and short enough steps never move apart in the mean square.", "quantifier": "all meshes whose rules satisfy the divergence theorem for the functions in question, all degrees, coefficients of convection, solutions, times, and numbers of steps", "why_tests_cant": "a test sees one solution on one mesh for a few steps; a slow growth of energy looks like rounding", "anchors": ["include/mini/spatial/dg/general.hpp", "include/mini/riemann/rotated/simple.hpp", "include/mini/riemann/rotated/burgers.hpp", "include/mini/riemann/simple/burgers.hpp: GetFluxUpwind", "include/mini/temporal/rk.hpp: RungeKutta<3>"]}
{"id": "C131", "title": "At degree zero scalar laws keep to their bounds on any mesh", "statement": "dg::General of degree zero with rotated::Single or rotated::Burgers and RungeKutta<1>, <2> or <3>: under the Courant condition all values stay between bounds which those at the start and the inflow respect, a solution that starts below another stays below it, and the integral of the distance of two solutions never grows.", "quantifier": "all meshes of closed cells, coefficients of convection, solutions and inflows within the bounds, steps under the Courant condition, numbers of steps", "why_tests_cant": "a test sees one flow on one mesh; an overshoot in a corner after many steps is easily missed", "anchors": ["include/mini/spatial/dg/general.hpp", "include/mini/riemann/rotated/simple.hpp", "include/mini/riemann/simple/single.hpp: GetFluxUpwind", "include/mini/riemann/simple/burgers.hpp: GetFluxUpwind", "include/mini/temporal/rk.hpp"]}
{"id": "C132", "title": "HLLC keeps density and pressure positive", "statement": "Rotated GetFluxUpwind over the HLLC solver: a part of a cell on either side of a face which is not crossed by the gas and the acoustic wave of the solver during a step keeps a positive density and a positive pressure when it exchanges the returned flux for the flux of its own state.", "quantifier": "all gases of positive density and pressure on both sides, unit normals, adiabatic exponents above 1, dimensions, parts allowed by the two wave speeds", "why_tests_cant": "unit tests compare fluxes of a few standard problems; a loss of positivity appears only for extreme pairs of states", "anchors": ["include/mini/riemann/euler/hllc.hpp: GetFluxUpwind, GetStarFlux, GetQ", "include/mini/riemann/rotated/euler.hpp: GetFluxUpwind", "include/mini/riemann/euler/types.hpp"]}
{"id": "C133", "title": "The exact solver keeps density and pressure positive", "statement": "Rotated GetFluxUpwind over the exact solver, with the tolerance of its iteration and whatever it has solved before: as C132, for gases between which no vacuum forms, for those that recede without sliding along each other, and for all in one dimension.", "quantifier": "all gases of positive density and pressure on both sides, unit normals, adiabatic exponents above 1 and up to 3, dimensions, earlier calls, numbers of iterations, parts allowed by the speed of the waves for a bound of the pressure", "why_tests_cant": "tests use states for which the iteration converges to many digits; that its error has the right sign everywhere needs a proof", "anchors": ["include/mini/riemann/euler/exact.hpp", "include/mini/riemann/rotated/euler.hpp: GetFluxUpwind"]}
{"id": "C134", "title": "AUSM and positivity", "statement": "Rotated GetFluxUpwind over the AUSM solver: as C132, if sound and gas do not cross the part.", "quantifier": "all gases of positive density and pressure on both sides, unit normals, adiabatic exponents above 1, dimensions, parts allowed by the sum of speed and speed of sound", "why_tests_cant": "the tests take gases of similar density; negative pressures appear next to a thin gas", "anchors": ["include/mini/riemann/euler/ausm.hpp: GetFluxUpwind, GetPositiveFlux, GetNegativeFlux", "include/mini/riemann/rotated/euler.hpp: GetFluxUpwind"]}
{"id": "C135", "title": "Gases remain gases on every mesh", "statement": "The scheme of the demos at degree zero (dg::General with rotated::Euler over euler::Exact) with walls, supersonic inlets and supersonic outlets: a step of RungeKutta of order 1, 2 or 3 leads from positive density and pressure in all cells to positive density and pressure in all cells, and so does any number of steps, if in all states in which GetResidualColumn is evaluated no vacuum forms at a face and during the time step no wave gets through a cell.", "quantifier": "all meshes with closed cells, initial states, prescribed gases, adiabatic exponents above 1 and up to 3, orders 1 to 3, numbers of steps, time steps within the limit", "why_tests_cant": "the demos run a few flows; a negative pressure turns up as nan after many steps and only for extreme states", "anchors": ["include/mini/spatial/dg/general.hpp", "include/mini/spatial/fem.hpp", "include/mini/temporal/rk.hpp", "include/mini/riemann/rotated/euler.hpp", "include/mini/riemann/euler/exact.hpp", "demo/euler/sourceless.hpp"]}
{"id": "C136", "title": "Turning everything turns the results", "statement": "dg::General of any degree with Euler's equations, with rotated::Euler over HLLC, AUSM or the exact solver and all boundary conditions: on the image of a mesh under a rotation or reflection, GetResidualColumn of the image of a flow stands for the image of the residual, and so do runs of RungeKutta; neither the tangents of the frames at Gaussian points nor the orthonormal basis matter. A flow that is symmetric at the start stays symmetric.", "quantifier": "all meshes with a common rule on images, degrees, states (also ones that are no gases), boundary conditions, prescribed functions, orders 1 to 3, time steps, numbers of steps, rotations and reflections", "why_tests_cant": "tests rotate single states by given angles; whether a whole run depends on the directions of axes is not tested", "anchors": ["include/mini/riemann/rotated/euler.hpp", "include/mini/riemann/euler/hllc.hpp", "include/mini/riemann/euler/ausm.hpp", "include/mini/riemann/euler/exact.hpp", "include/mini/riemann/euler/types.hpp: GetFluxMatrix", "include/mini/spatial/dg/general.hpp", "include/mini/spatial/fem.hpp", "include/mini/temporal/rk.hpp"]}
{"id": "C137", "title": "Gases remain gases on every mesh, with HLLC", "statement": "Finite volumes (dg::General of degree 0) with rotated::Euler over euler::HartenLaxLeerContact on any mesh: if all cells hold gases and the time step respects the fastest of the wave speeds HLLC itself estimates at each face point, one Euler step leaves gases in all cells, and runs of RungeKutta of orders 1 to 3 with boundary conditions (walls, supersonic inlets, supersonic outlets) keep density and pressure positive at every stage. Neither a bound on gamma nor the absence of vacuum between neighbours is needed.", "quantifier": "all meshes, gases, gamma above one, boundary faces of these kinds, orders 1 to 3, time steps below the bound, numbers of steps", "why_tests_cant": "tests run HLLC on single pairs of states; that no cell of any mesh ever loses its pressure is a statement about all runs", "anchors": ["include/mini/riemann/euler/hllc.hpp", "include/mini/riemann/rotated/euler.hpp", "include/mini/spatial/dg/general.hpp", "include/mini/spatial/fem.hpp", "include/mini/temporal/rk.hpp"]}
{"id": "C138", "title": "Units of measurement do not matter", "statement": "dg::General of any degree with Euler's equations, with rotated::Euler over HLLC or AUSM and all boundary conditions: if mesh, flow, prescribed states and times are given in other units of density, velocity and length, GetResidualColumn returns the same residual in the new units, and runs of RungeKutta return the same flow in the new units.", "quantifier": "all meshes with a common rule, degrees, flows in which a point without mass has no momentum (or whose unit of density stays), boundary conditions, prescribed functions, orders 1 to 3, time steps, numbers of steps, positive units", "why_tests_cant": "tests use dimensionless data of order one; a threshold or formula that mixes quantities of different dimension shows up at other magnitudes only", "anchors": ["include/mini/riemann/euler/types.hpp", "include/mini/riemann/euler/hllc.hpp", "include/mini/riemann/euler/ausm.hpp", "include/mini/riemann/rotated/euler.hpp", "include/mini/spatial/dg/general.hpp", "include/mini/spatial/fem.hpp", "include/mini/temporal/rk.hpp"]}
{"id": "C139", "title": "Units of measurement and the exact solver", "statement": "rotated::Euler over the exact solver returns the same flux, in the new units, when the two states are given in other units of density and velocity.", "quantifier": "all gases, frames, positive units", "why_tests_cant": "the tests have one set of data of order one; whether the answer depends on the unit of velocity is a statement about pairs of calls", "anchors": ["include/mini/riemann/euler/exact.hpp:40-178", "include/mini/riemann/rotated/euler.hpp"]}
{"id": "C140", "title": "Second law of thermodynamics", "statement": "dg::General of degree zero with rotated::Euler over the exact solver and supersonic inlets, supersonic outlets and solid walls: in a run of RungeKutta under a Courant condition p / rho^gamma falls in no cell below the least value which it has at the start and at inlets.", "quantifier": "all meshes with closed cells and constant bases, gamma > 1, gases, boundary conditions, orders 1 to 3, numbers of steps", "why_tests_cant": "a test sees the entropy of a few runs; that no wave pattern cools the gas on any mesh is a statement about all pairs of gases at all faces at all steps", "anchors": ["include/mini/riemann/euler/exact.hpp", "include/mini/riemann/rotated/euler.hpp:99-170", "include/mini/spatial/dg/general.hpp", "include/mini/spatial/fem.hpp", "include/mini/temporal/rk.hpp"]}
{"id": "C141", "title": "Density waves are carried exactly", "statement": "dg::General with rotated::Euler over any solver (exact, HLLC, AUSM): a gas of uniform velocity v and pressure whose density lies in the space and is linear along v (any affine density, from degree one on) is, after any number of steps of RungeKutta of any order and length, exactly the solution of the Euler equations: density rho(x - t v), velocity and pressure unchanged, everywhere in every cell; with any mixture of inlets, outlets and smart boundaries that prescribe the solution, and walls along the flow.", "quantifier": "all meshes, degrees, gamma > 1, velocities, pressures, densities linear along the flow and positive at Gaussian points at the first and last instant, orders 1 to 3, step lengths, numbers of steps", "why_tests_cant": "a convergence test shows small errors on a few meshes; that there is no error at all on any mesh, in any direction, for any solver is a statement about cancellation between cell and face integrals", "anchors": ["include/mini/spatial/dg/general.hpp", "include/mini/spatial/fem.hpp", "include/mini/riemann/rotated/euler.hpp:56-193", "include/mini/riemann/euler/types.hpp", "include/mini/temporal/rk.hpp"]}
{"id": "C142", "title": "The reported error is the integral of the distance", "statement": "Part::MeasureL1Error returns, component by component, the sum over the local cells of the integral of |u - f(., t)| by the Gaussian rule of the cell. It is zero exactly if the solution has the values of f at all Gaussian points, changes by at most the distance between two functions f, and summed over processes (MPI_Reduce with MPI_SUM) it is the error on the whole mesh however the cells are distributed. For a density wave that is linear along the flow it is zero after every step.", "quantifier": "all meshes, coefficients, functions, distributions of cells over processes", "why_tests_cant": "tests compare one number on one mesh; that the number vanishes only for correct values and does not depend on the distribution is about all of them", "anchors": ["include/mini/mesh/part.hpp:1082-1096", "include/mini/polynomial/projection.hpp:116-119", "demo/linear/single.cpp:233-235", "demo/linear/multiple.cpp:202-204"]}
{"id": "C143", "title": "The double Mach reflection starts from a shock", "statement": "The states prescribed by demo/euler/double_mach.cpp for any Mach number M > 1 of a gas at rest satisfy the conditions of Rankine and Hugoniot for a front of normal (cos 30, -sin 30, 0) and speed M a, with Lax's entropy conditions; moving_shock is that front, moves at that speed without change of shape and agrees with MyIC at t = 0; and the exact solver lets through exactly the flux of the gas behind the front on faces along it.", "quantifier": "all Mach numbers, gammas, densities, pressures, points and times", "why_tests_cant": "a run shows pictures; whether inlets and initial condition are parts of one exact solution is a set of equations between formulas", "anchors": ["demo/euler/double_mach.cpp:4-31", "include/mini/riemann/euler/exact.hpp:84-174", "include/mini/riemann/euler/types.hpp:260-268"]}
{"id": "C144", "title": "The reference for linear systems is a solution", "statement": "exact_solution of demo/linear/multiple.cpp, against which runs measure their error, starts as the initial condition and satisfies u_t + A u_x = 0: what an interval gains has come through its ends.", "quantifier": "all matrices with real eigenvalues, all decompositions Eigen may return, all states left and right, intervals and periods", "why_tests_cant": "an error against a wrong reference looks like a numerical error; that a formula solves the equation for every decomposition is algebra", "anchors": ["demo/linear/multiple.cpp:71-122", "include/mini/riemann/simple/multiple.hpp:32-53"]}
{"id": "C145", "title": "Third-order steps keep the energy of the Python schemes, shorter orders do not", "statement": "On a periodic grid RungeKutta(order=3) with the discontinuous Galerkin schemes of element.py for linear advection (and advection with diffusion up to degree 4) does not increase the energy of the solution in any run whose steps are short enough, whatever the field; with order=1 from degree 1 on and order=2 from degree 2 on every step, however short, increases the energy of some fields.", "quantifier": "all grids, degrees, kinds of elements (Lobatto up to degree 5), speeds, fields, numbers and sizes of steps below the bound", "why_tests_cant": "runs try a few fields and step sizes; that no field gains energy, or that no step is short enough, is a statement about all of them", "anchors": ["python/element.py:16-166", "python/spatial.py:88-160", "python/temporal.py:23-109", "python/riemann.py:46-99"]}
{"id": "C146", "title": "Third-order steps keep the energy of flux reconstruction in Python", "statement": "On a periodic grid RungeKutta(order=3) with the flux reconstruction elements of element.py and a correction function Vincent(degree, ratio) whose ratio is in (0, 1] (all the ratios that polynomial.py names from degree 1 on) does not increase the energy that belongs to the ratio in any run of linear advection whose steps are short enough; so the integral of the squared solution stays below twice the energy of the initial values, however long the run. With order=1 from degree 1 on and order=2 from degree 2 on every step, however short, increases the energy of some fields.", "quantifier": "all grids, degrees (up to 9, as the code), Lagrange elements, ratios in (0, 1], speeds, fields, numbers and sizes of steps below the bound", "why_tests_cant": "runs try a few fields, ratios and step sizes; that none of them grows is a statement about all", "anchors": ["python/element.py:169-297", "python/polynomial.py:120-186", "python/spatial.py:88-160", "python/temporal.py:23-118"]}
{"id": "C147", "title": "metis::Mesh and the sparse graphs are values", "statement": "metis::Mesh objects built from moved vectors or by resize() behave as independent values through any sequence of moves, assignments, resizes, writes and destructions: accessors return what was last written to that object, nothing else changes it, and no access is undefined as long as moved-from objects are not read. neighbors(i) returns the i-th of the rows that the two arrays were built from. Arrays of METIS held by a SparseGraphWithDeleter are freed exactly once. Copies should behave as values too.", "quantifier": "all programs, contents, addresses the allocator may choose, rows", "why_tests_cant": "aliasing shows only in particular orders of copies, writes and destructions, and undefined behaviour may pass unnoticed", "anchors": ["include/mini/mesh/metis.hpp:28-179", "include/mini/mesh/mapper.hpp:121-122"]}
{"id": "C148", "title": "Boundary conditions follow their sections", "statement": "After the sections of a zone have been read, sorted by dimension and renumbered, and after UpdateSectionRanges(), every boundary condition covers the same cells, in the new numbering, as it did in the file. GetSection(name) returns the section of that name. SolnNameToId and FieldNameToId return the number of the entry with the given name.", "quantifier": "all section lists and names, all outcomes of the sort, all lists of boundary conditions", "why_tests_cant": "tests use one mesh with well-chosen names whose surfaces have one section each", "anchors": ["include/mini/mesh/cgns.hpp:482-563", "include/mini/mesh/cgns.hpp:784-796", "include/mini/mesh/cgns.hpp:855-879", "include/mini/mesh/shuffler.hpp:312", "include/mini/mesh/part.hpp:512-552"]}
{"id": "C149", "title": "Python: mirror images", "statement": "Turn the axis round: mirror the grid, let velocities change their sign, exchange the values given at the two ends. Every scheme of the Python code without limiter (all variants of discontinuous Galerkin and of flux reconstruction, periodic or with boundary values) then computes as residual the mirror image of what it computed before, also with an artificial viscosity that has been mirrored, and so does every run of every order without artificial viscosity; what starts as its own image (a standing wave of Burgers, say) remains its own image. No scheme prefers a direction.", "quantifier": "all grids, degrees, bases, states, equations whose Riemann solver has a mirror image, all lists of time steps", "why_tests_cant": "tests run waves in one direction on a few grids", "anchors": ["python/element.py:31-64", "python/element.py:182-290", "python/riemann.py:54-157", "python/riemann.py:397-440", "python/spatial.py:57-160", "python/temporal.py:10-109"]}
{"id": "C150", "title": "Python: limiters in a mirror", "statement": "Mirror a grid with the scalar solution on it, mark the mirrored elements as troubled: both limiters then return the mirror image of what they returned before (or fail on both grids, where an element has no neighbour). The left neighbour is not treated differently from the right one, neither when candidates are borrowed nor when they are weighted, so that a symmetric solution remains symmetric after limiting; for ZhongXingHui2013 the order of the neighbours does not matter at all.", "quantifier": "all grids, degrees, bases (ZhongXingHui2013: without Lobatto nodes; LiWanAi2020: Lobatto nodes up to degree 5), scalar solutions that keep or change their sign in the mirror, sets of troubled elements, parameters", "why_tests_cant": "tests limit a few jumps on one grid and look at plots", "anchors": ["python/limiter.py:19-37", "python/limiter.py:99-150", "python/limiter.py:170-262", "python/expansion.py:17-40", "python/expansion.py:649-658"]}
{"id": "C151", "title": "Python: jump detectors in a mirror", "statement": "Mirror a grid with the solution on it (and let the wind turn round): every detector then reports the mirror images of the elements that it reported before. The left neighbour is not treated differently from the right one, nor are the samples at the two ends of the row, so that a symmetric solution is limited symmetrically.", "quantifier": "all grids, degrees, bases (Lobatto nodes up to degree 5), systems whose components keep or change their sign in the mirror, bounds, with and without periodic boundaries", "why_tests_cant": "tests look at the reported elements of a few solutions on one grid", "anchors": ["python/detector.py:35-48", "python/detector.py:63-107", "python/detector.py:122-158", "python/detector.py:173-207", "python/detector.py:231-281", "python/detector.py:305-337", "python/detector.py:404-427"]}
{"id": "C152", "title": "Python: profiles of the viscosity in a mirror", "statement": "Mirror a grid with its troubled elements and their viscosity constants (and let the waves run the other way): the quadratic and the linear profiles that are generated are the mirror images of the former ones, and there are profiles for the images of the same elements only. Thus artificial viscosity does not break the symmetry of a solution, neither at the ends of a grid nor across a periodic boundary.", "quantifier": "all grids, sets of troubled elements, constants, wave speeds (also zero), with and without periodic boundaries, whatever valid inverse matrices are already stored", "why_tests_cant": "tests plot one profile on one grid", "anchors": ["python/viscosity.py:337-356", "python/viscosity.py:391-398", "python/viscosity.py:437-487", "python/viscosity.py:513-606"]}
{"id": "C153", "title": "Python: energy-based viscosity in a mirror", "statement": "Mirror a grid with the scalar solution on it: the energy of the oscillation, the dissipation rate, the upper limit, and hence the constant of the energy-based viscosity are those of the element for its image, or the computation fails on both grids. Together with the profiles, the whole artificial viscosity is the mirror image.", "quantifier": "all grids with sorted Gauss nodes, degrees, Galerkin correction functions, solutions that keep or change their sign in the mirror, relaxation times, with and without periodic boundaries", "why_tests_cant": "tests look at the constants of one solution on one grid", "anchors": ["python/viscosity.py:80-117", "python/viscosity.py:194-233", "python/viscosity.py:298-356", "python/element.py:299-368", "python/spatial.py:57-86"]}
{"id": "C154", "title": "Python: viscosity of Persson and Peraire in a mirror", "statement": "Mirror a solution: the constant that the viscosity of Persson and Peraire computes for the image of an element is the one of the element, and it raises for both or for neither. If the images of the troubled elements are reported, generate stores the mirror image of the viscosity, whatever was stored before.", "quantifier": "all elements, degrees, bases, solutions that keep or change the signs of components in the mirror, slopes of the ramp, reports and earlier contents", "why_tests_cant": "tests look at one solution on one element", "anchors": ["python/viscosity.py:31-68", "python/detector.py:305-325", "python/concept.py:1014-1021"]}
