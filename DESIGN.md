# Formal model of miniCFD: design

Subject: the C++ headers of miniCFD under `/repo/include/mini` at the pinned commit.
The model is written in Lean 4 (Mathlib) under `lean/Verif`.

## Trusted base

* Lean 4.33.0's kernel and the Mathlib sources shipped with the sandbox.
* The axioms `propext`, `Classical.choice`, `Quot.sound` only.
* The faithfulness of the hand translation of C++ into Lean definitions (each
  definition cites file and lines).  Nothing was compiled or run.

## Conventions

* Numerical code is modelled over the real numbers (or any linearly ordered
  field).  IEEE rounding, overflow, NaN and infinities are out of scope.
* C++ integers used as indices are natural numbers; overflow is out of scope.
* Undefined behaviour and thrown exceptions are an explicit outcome (`none`)
  where the code can reach them.
* `assert` is a precondition (release builds drop it), stated as a hypothesis.
* Where the code violates a property, the negation is proved with a concrete
  witness and a `_partial` theorem states what does hold.

## Plan per property

* **C01 Base64 output decodes back to the data written.** Byte-level model of EncodeBase64 (`Nat` bytes < 256, triplets, padding). Independent RFC 4648 decoder as spec; round trip by strong induction on the byte list.
* **C02 Renumbering is a bijection sorted by part.** `GetNewOrder` as merge sort of the index list by (part, id); inverse table built by writes. Spec: `Function.LeftInverse`, sortedness, stability.
* **C03 Shuffling a mesh does not change its geometry or its data.** ShuffleData/ShuffleConnectivity as list/array functions; spec: cell -> coordinates sequence invariant under the renumbering.
* **C04 CGNS-METIS maps stay mutually inverse.** CgnsToMetis::Map as a fold over zones/sections with running offsets; IsValid as a statement; induction over the fold; preservation by Shuffle.
* **C05 A node belongs to a part that uses it.** GetNodeParts as a fold of `min` updates; spec: least part among users. Negation for unused nodes with witness, `_partial` theorem under 'node is used'.
* **C06 Part slices cover the mesh exactly once.** Slicing loop of WritePartitionInfo as a recursive function on the PartIndex list; spec: interval membership iff part number.
* **C07 Send and receive lists agree between every two ranks.** Adjacency pair collection into per-part ordered sets; spec: list equality across ranks.
* **C08 Ghost cells hold the owner's coefficients after an exchange.** Asynchronous multi-rank machine with per-pair FIFO channels; any schedule; invariant proof.
* **C09 Limiting does not depend on the partition or on the visiting order.** Two-phase Reconstruct as state transformer; negation with a witness; `_partial`: inner cells / single part; order independence in a phase.
* **C10 Foreground fringe is exactly the requested number of layers.** BFS loop as fuel-free well-founded recursion; spec: graph distance.
* **C11 Background donor search returns the connected ball.** Queue BFS, well-founded recursion on unvisited cells; spec: reflexive-transitive closure restricted to the ball.
* **C12 Sections are renumbered into contiguous, gap-free ranges.** Section list model, sort + renumber; spec: permutation and contiguity.
* **C13 Merging then splitting sections keeps every cell.** Merge/Split on typed rows; spec: per-type filter. Negation for merging an already mixed section.
* **C14 Adding a solution or field is find-or-create.** State machine of named tables; invariant over histories.
* **C15 Solution column round trip.** Prefix-sum offsets, block read/write on columns; spec: tiling, round trip, frame property.
* **C16 Burgers flux is the exact Godunov flux.** Over an ordered field; spec: IsLeast/IsGreatest of the image of the flux on the interval.
* **C17 Linear upwind solvers solve the linear Riemann problem.** Single/Double/Multiple over the reals; spec: A+ and A- splitting.
* **C18 Numerical fluxes are conservative under face reversal.** Per solver theorem of antisymmetry.
* **C19 Numerical fluxes are consistent.** Per solver theorem of consistency.
* **C20 Conservative-primitive conversion round trip.** Over the reals with gamma > 1; 1D/2D/3D via one generic dimension where possible.
* **C21 Rotating to the face frame and back is lossless, and fluxes rotate with it.** Matrix/vector algebra over the reals with an orthonormality hypothesis.
* **C22 Supersonic faces are fully upwinded.** Per solver theorem.
* **C23 HLLC resolves stationary contacts exactly.** HLLC theorem.
* **C24 Solid walls are impermeable.** Direct computation.
* **C25 Smart boundary picks the right boundary condition.** Decision logic and consistency.
* **C26 Characteristic matrices are inverse and diagonalise the Euler Jacobian.** 5x5 matrices over the reals, entry by entry; Jacobian as derivative of the flux along the state.
* **C27 The exact Riemann solver's answer depends only on its arguments.** Stateful model of the solver object; negation with a witness history (vacuum branch); `_partial` for the non-vacuum branch.
* **C28 Runge-Kutta steppers realise their advertised order.** Generic model over a module; spec: amplification polynomials, degree-of-exactness, fixed point, stage times trace; convergence on smooth nonlinear problems by Taylor remainders, stage-error cancellation and a discrete Gronwall argument; strong stability by convexity.
* **C29 Frames stay orthonormal and right-handed.** Induction over a list of rotations.
* **C30 Rotor and blade configuration is history-free.** State machine over setter/query histories; negations with witness histories; `_partial` with the precondition under which caches are fresh.
* **C31 Blade sections interpolate between stations.** Blade::GetSection over an ordered field; negation; `_partial` (exact at ... / constant blades).
* **C32 Airfoil lookups never leave the table.** Index arithmetic of the lookup over ordered field with floor.
* **C33 Lagrange basis interpolates.** Generic Lagrange basis over a field.
* **C34 Taylor basis derivatives are right.** Taylor basis functions as polynomials; derivative via `HasDerivAt`; negation for the faulty column.
* **C35 Correction functions meet their end-point conditions.** Vincent over the reals with Legendre recurrences.
* **C36 Orthonormalisation yields an orthonormal basis of the same space.** Gram-Schmidt loop over an inner product space or bilinear form.
* **C37 Gauss rules integrate polynomials exactly.** Closed-form nodes (square roots) exactly, over the reals. Tables of decimal literals are kept as rationals; the kernel evaluates their moments and linearity lifts the per-monomial bound (1e-12 or as stated) to every polynomial of the promised degree.
* **C38 Direct-DG common gradient is consistent and conservative.** Vector algebra over a field; the packed symmetric Hessian of the code is unfolded into the full one.
* **C39 Segment-triangle intersection is right.** 3x3 linear algebra over an ordered field; Eigen's solver enters through its contract. The coplanar case is left open by the code: one witness where it misses an intersection, one where it invents one; `_partial` for all other inputs.
* **C40 Shape functions form a partition of unity and interpolate nodes.** All 17 elements as structures of nodes, shapes and gradients; the enriched elements (6/8/9, 10, 13/14, 15/18, 20/26) subtract weighted new functions from the old ones as the code does, and one lemma carries cardinality, unity, reproduction and derivatives through that step. Derivatives by `HasDerivAt`; for hexahedra also second and third derivatives.
* **C41 Face node ordering is outward and complete.** SortNodesOnFace function by function on lists of node numbers. The spec gives CGNS positions and bounding planes; a lemma shows that sorting commutes with renumbering and ignores the input order, which reduces the claim to a finite check over classes and faces; triple products carry outwardness to physical space.
* **C42 Jacobian-determinant derivatives are right.** Derivatives of LocalToGlobal; Jacobi's formula for the first and second derivatives of a 3x3 determinant. Non-hexahedra inherit an empty vector, reading it is `none`.
* **C43 WENO limiting keeps cell averages.** `Model/Weno.lean` on top of `Model/Projection.lean`; neighbours enter as functions, divisions by zero as `none`. Column 0 of every candidate is that of the cell, and the normalised weights sum to one; positivity from non-negative smoothness.
* **C44 Projection reproduces the space and the mean.** `Model/Projection.lean` over `Model/Ortho.lean`; orthonormality of the basis comes from C36 (`ortho_sound`). Pythagoras gives best approximation; storage is a list in column-major order.
* **C45 The DG/FR residual is conservative.** `Model/Residual.lean`: the residual is the column of C15 filled by a list of additions that the code makes in order (volume, local faces, boundaries, ghost faces), for any number of ranks. The sum over all cells is computed from the additions; interior faces cancel by antisymmetry, ghost faces by pairing the two ranks. The fluxes on the two sides of an interface between ranks are assumed to be each other's negative, which is C18/C29 for the solvers. `Model/FR.lean` does the same for flux reconstruction on hexahedra, with the searches for face ids and collinear points and the corrections along lines; its `Spec` describes sides by axis and end, not by the code's numbering. The divergence is summed by parts with the Lobatto rule, and what is left on every side cancels with the correction there.
* **C46 Boundary registration is idempotent and last-wins.** State machine of the `Set*` calls (`register`), arbitrary histories, residual as a function of the history. Proved for the conditions kept in maps; the negation is proved for solid walls and supersonic outlets, whose flux doubles when registered twice.
* **C47 Rigid motions of coordinates are rigid.** `Model/Coordinates.lean`: `Translate`, `Dilate`, `RotateZ` on three vectors, for all zones of a file. The spec reads the first two coordinates as a complex number; `run_moves` shows, by induction over the history of calls, that every node is moved by the composition of the transformations and none is lost; `run_dist` scales squared distances, `run_undo` brings all nodes back, `rotations_add` adds angles. `rotate_undefined`: the loop runs over the first vector and reads past the end of a shorter second one.
* **C48 Local polynomial on curved hexahedra follows the chain rule.** `Model/LocalHex.lean`: caches, values, gradients, Hessians and fluxes of `polynomial/hexahedron.hpp` over the cells of C61/C62 and the basis of C33. The spec speaks of functions of the physical coordinates with Fréchet derivatives. `approximate_exact`: reproduction of everything in the space; `local_to_global_gradient`, `get_global_hessian`: the returned numbers are the derivatives of any function that agrees with `LocalToValue` near the point (chain rule, quotient rule, uniqueness of derivatives); `flux_divergence`: Piola identity from the symmetry of second derivatives; `assoc_cross`: columns are cross products of tangents. Eigen's solve and inverse are the inverse matrix. Finding: `basis_hessians_defined`.
* **C49 Lobatto shortcuts equal the general scheme.** Equality of two assembled columns: by the cardinal property for DG; for FR because the derivative of the lumping correction function vanishes at all Lobatto points but the end, where it is the inverse weight.
* **C50 Element tables are coherent.** `Model/Tables.lean`, `Model/Vtk.lean`. Statements over all entries of fixed tables: symmetric indices as multisets, numbers of nodes and faces against the classes of C40 and the planes of C41, VTK tables against the documented corner lists. `dim` and `CheckTypeDim` leave out pyramids (proved).
* **C51 The METIS mesh has the cells of the CGNS mesh.** Same loop model as C04, with the flat connectivity; block invariant.
* **C52 Every rank knows the geometry of the cells it needs.** Buffers packed and unpacked per pair of ranks on top of the C07 lists.
* **C53 The ghost exchange cannot deadlock.** Same machine as C08; case analysis on a rank with the fewest Updates.
* **C54 Subsonic boundary states obey the linearised characteristic relations.** Boundary state of the code compared with the linearised invariants, direct computation.
* **C55 The exact solver returns the exact solution.** Spec: jump and Lax conditions, fan invariants on a three-component state; the code's wave functions are shown to produce such states when the pressure is the root.
* **C56 The exact solver's root finder terminates with the promised accuracy.** Loops with fuel; f is shown increasing and concave by calculus; step size bounded below.
* **C57 Blades know their rotor through copies and moves.** Heap of rotor objects holding the blades' back pointers; invariant by induction over programs.
* **C58 Section velocity is the derivative of section position.** `HasDerivAt` of the modelled position.
* **C59 Section force is lift plus drag.** Angle of attack as a direction angle; inner products with the wind and its normal.
* **C60 Second-order elements reproduce quadratic maps.** The products of two coordinates are reproduced by each element; linear combinations follow.
* **C61 GlobalToLocal inverts LocalToGlobal.** The do-while loop with a bound on rounds (`none` when exceeded); exact on affine cells since the linearisation is the function.
* **C62 Normal frames of faces are right-handed and orthonormal.** Cross products and norms over the reals.
* **C63 GetOutwardNormalVector returns the outward normal.** False for skewed cells: refuted by a leaning parallelepiped; `_partial` where the edge is orthogonal to the face.
* **C64 The troubled-cell indicator is unit-free and spares agreeing cells.** Fold of maxima as least upper bound, fold of sums; comparison rearranged over the reals.
* **C65 The smoothness indicator is that of Jiang and Shu.** Independent spec with iterated derivatives (`Spec/Weno.lean`). Proved for degree 2; exact error terms for degrees 1 and 3, refuted there.
* **C66 A solution file shows every cell at its place with its own values.** `Model/Vtk.lean`: the vectors filled cell by cell and the piece built from them. Spec: a reader which slices connectivity by offsets. Block lemma for flattened lists. Positions through C40; first-order cells by the weights of their shape functions.
* **C67 Faces are the sides of their cells.** `Model/Conform.lean` picks the surface element by the number of nodes. The spec writes the sides of the standard cells in local coordinates (`place`, `height`), which `place_standard` validates against LocalToGlobal. A `Matching` states that on a side the shape functions of the cell are those of the surface; one lemma carries it through each enrichment by middle nodes; sorting is reduced to one list per side by C41. `shared_side`: rotations and reflections of the listing are undone by maps of the reference face.
* **C68 The normal of a face points out of its holder.** The tangents of the surface are images of tangents of the side under the cell's Jacobian; the triple product with an inward direction is the determinant of that Jacobian times a constant of known sign.
* **C69 Local and ghost faces join the right cells.** `Model/Faces.lean`: counters of nodes, the face builders and the containers they fill, pointers as references; the order of walking a hash map is a parameter. Counting lemmas give the common nodes up to order, C41 sorts them; lists of adjacent cells and faces by induction over the pairs. The sharer is looked up in the holder's zone, as in the code.
* **C70 Boundary faces are found by name and numbered after the others.** Same model; nested maps as a sorted list. The holder is the only cell counted as often as the face has nodes. Refuted when lines are out of order, names repeat, or the holder is missing or not unique.
* **C71 The DG residual is the weak form.** On top of C45's list of additions: the amounts that each loop adds to one coefficient are summed.
* **C72 A uniform flow stays uniform.** From C71, with the divergence theorem of the quadrature rules as a hypothesis on the mesh.
* **C73 The part of a blade in a cell.** `Model/Source.lean` follows the loop over faces with its two ratios; the linear solver is any that solves regular systems (C39). Spec in barycentric weights: a segment is in the tetrahedron while all four weights, affine along it, are non-negative. With both ends outside there are exactly two crossings. Partial: refuted for ends inside, edges, and sides on the boundary.
* **C74 The source adds exactly the reported forces.** Same model; additions as in C45. The sums of both functions run over the same list of loads, once as they are added to the column, once as they are reported. Totality for blades with wind everywhere; a wing through a tetrahedron as the example.
* **C75 A written solution can be read back.** `local_cells_` as a map of maps of sections with the cells' coefficients and the vectors `fields_`; the four functions as loops that fail where `operator[]` would make an uninitialised section or `at` would throw. All ranks write into one array per zone and field, in any order of ranks. Invariants over prefixes of the loops; a file of cells is compared with a solution `g zone cell field`. Whether `cgp_field_write`, which is called once per section with the same name, keeps earlier values is a parameter: without it all sections but the last are lost (`earlier_lost`). Writing without gathering (`not_gathered`) and sections not numbered from 1 (`sections_from_two`) are shown to fail.
* **C76 Damping matrices represent the diffusion residual of a cell.** `BuildDampingMatrices` as a fold over cells and columns on a state of coefficients, static diffusion coefficient and matrices. Gradients of both kinds of hexahedra and the divergences of the three schemes are shown to be linear and alike in all components; then column `c` of the matrix is the residual of the unit column. Energy identity for the symmetric (global) case. The side effects of the `const` method are theorems (`solution_lost`, `viscosity_lost`).
* **C77 A boundary face goes to the part of the cell that has it.** `FillFaceParts` as loops over zones, sections, elements; counting as in C70 (`Faces.tally`, any iteration order). Invariant over prefixes: the vector of users holds what the cells done so far contribute. The counts of a face are characterised by the nodes it shares with each cell. Faces of no cell or of two cells are treated too (`orphan_face`, `part_by_chance`). Link with C70: `holder_on_its_part`.
* **C78 The answer does not depend on the number of processes.** `Model/Parallel.lean`: a mesh on one process, and its distribution over several, each evaluating the residual of `Model/Residual.lean` on its own cells with ghost cells filled from their owners (C08). `Spec/Parallel.lean` says what a cell sees of its surface; if it sees the same on its process up to order and orientation, the weak form (C71) is the same, hence the residual, hence by induction all columns of a run. No limiter (C09).
* **C79 Runs, frames and restarts.** `Model/Driver.lean`: the main loop of demo/euler/sourceless.cpp as a fold over the step numbers, frames as an association list (written and read back by C75). Induction over the steps gives the frames; splitting a run into two by `after_add`.
* **C80 Forces written for a frame are those of that frame.** The loop of demo/euler/rotorcraft.cpp with `--write_forces`, including its inner `while`. The claim about times is refuted (`forces_late`); the rest is proved (`forces_partial`).
* **C81 Balances over a run.** Steps with `SetSolutionColumn` of `WithLimiterAndSource` in `Model/Driver.lean`. A linear functional kept by the limiter changes by the weighted rates at the stages; C45 turns rates into boundary fluxes, C43 and `reconstruct_keeps` supply limiters.
* **C82 Python steppers.** `Model/PyRK.lean` follows temporal.py call by call on the same abstract system as C28. Order conditions through linear problems and polynomials; convergence through Taylor expansion of the solution along the stages and a discrete Gronwall argument with variable steps; strong stability by writing stages as convex combinations.
* **C83 Python time loop.** `Model/PyLoop.lean`: the two nested loops with the inner one bounded by fuel and all calls of `update` logged. Induction over fuel and frames shows that the log tiles the interval; termination from a lower bound on suggestions.
* **C84 Python viscosity.** Same model; invariant `nu = generate u` in `solve_and_write`; in `animate` the invariant is `nu = nu0`, which refutes the property for that mode.
* **C85 Python scalar solvers.** `Model/PyScalar.lean`: the branches of `set_initial`, `get_value` and `get_upwind_flux`. Spec: Kruzhkov's inequalities across each discontinuity, the equation in smooth parts, Godunov's flux as minimum or maximum over the interval.
* **C86 Python coupled system.** Same file; solved in characteristic variables, each of which is C85's advection.
* **C87 Python Euler equations.** `Model/PyEuler.lean`; spec `state`, `physFlux` in primitive variables; derivatives by differentiating along curves; matrix identities by `field_simp`. The round trip of characteristic variables is refuted for every state at rest.
* **C88 Python Roe flux.** Square roots of densities are named, the Roe identities for products of averages and jumps follow; the flux formula is reduced to waves, from which all claims follow.
* **C89 Python Lax–Friedrichs flux.** Positive states form a convex cone (quadratic inequality); the half steps `U ± F/m` lie in it; the update is a combination with non-negative weights.
* **C90 Python exact Euler solver.** `Model/PyExact.lean`. The functions of the pressure equation equal those of the C++ solver, whose lemmas give termination, uniqueness and the wave relations. The solution on the ray `ξ` is specified as that on the axis for an observer moving at `ξ`; the third family is the mirror image of the first. Refuted for thin gases by a symmetric example with exact arithmetic.
* **C91 Python vacuum.** Same model with `nan` as `none`; fans as in C90; refuted in the vacuum region.
* **C92 Python polynomials.** `Model/PyPoly.lean`: the loops for gradients, the linear system of Huynh, the memo table and the products of Lagrange. Loops are related to the Legendre polynomials of C35 by induction; regularity of the system by counting zeros (lumping) against orthogonality. Degree one of Vincent refuted.
* **C93 Python coordinates and quadrature.** `Model/PyQuad.lean`: the two coordinates, the loops of `concept.Integrator`, the Lobatto tables (closed forms up to 6 points, decimals above). Exactness on an element from exactness on [-1, 1] by substitution; the tables by their moments.
* **C94 Python expansions.** `Model/PyExpansion.lean`: Taylor rows, base matrices and their inverses (singular: `none`), the column recursion of Legendre, setters, averages, caches. Base rows are Vandermonde matrices; the recursion gives the coefficients of the Legendre polynomials; discrete orthogonality makes the modal projection an interpolation. Sampling on Lobatto nodes refuted as reproduction.
* **C95 Python DG.** `Model/PyDG.lean`: elements of all four kinds, load, mass matrices (singular: `none`), interfaces with the direct DG gradient, periodic and Inlet grids. The weak form follows from C94 and the regularity of the mass matrix; uniqueness gives independence of the basis; test function 1 gives conservation; integration by parts gives consistency.
* **C96, C97 Python energy.** Weak form with the solution as test function, exactness of the quadrature, summation over a periodic grid; Godunov fluxes dissipate. Diffusion: the form of an element is a sum of squares up to degree 4 (in Legendre coefficients of the slope) and takes negative values from degree 5 on.
* **C98 Python flux reconstruction.** `Model/PyFR.lean`: the nodal elements with the correction functions of C92, on the grids of C95. The residual at the nodes is the derivative of one polynomial of degree p+1, whence balance and consistency.
* **C99 FR = DG.** The derivatives of the matching correction functions act on test polynomials as point values at the faces: by orthogonality with Gauss rules, by lumping (their derivatives vanish at all Lobatto nodes but one) on Lobatto nodes. So FR satisfies the weak form of C95, whose solution is unique.
* **C100 Python grid.** `Model/PyGrid.lean`: the constructor's loop over the elements and the bisection of `bisect_right`, over an ordered field.
* **C101 faces and neighbours.** Faces as objects with identities and slots that refer to them; an invariant (`Wired`) kept by the constructor and `set_boundary_values` gives what each element reads. `same_faces` ties it to the faces of C95.
* **C102 solution column.** The nested loops over elements, components and terms.
* **C103 limiting.** `Model/PyLimiter.lean`: `reconstruct` as two folds, first over the troubled elements to get the new coefficients, then to set them; the reconstruction function is arbitrary.
* **C104 simple WENO.** Candidates are functionals on polynomials; the weights of `combine` are positive and sum to one, so that every linear functional on which all candidates agree is kept.
* **C105 p-weighted WENO.** The candidates (borrowed slopes, truncated Legendre expansions) have the average of the element; the negative results are computed on a grid of three equal elements.
* **C106 selective filter.** `Model/PyFilter.lean`: the three loops over lists with Python indices. Stability by the spectral theorem: the stencil is a polynomial of the second difference of periodic grid functions, whose eigenvalues lie in [0, 1].
* **C107–C110 jump detectors.** `Model/PyDetector.lean`: one function per detector over the elements of a grid, each element with its expansion, state and optional neighbours. The three detectors of extrapolation are reduced to maxima of quotients with positive divisors; integrals by exactness of the quadrature. Least squares by the normal equations; sign of the slope by Chebyshev's sum inequality; constants by the concavity of the logarithm. The detector on samples by computing all indicators around a jump.
* **C111, C112 dissipation matrices and rate.** `Model/PyDissipation.lean`: the matrices from the cached derivatives of the basis, the rate as a quadratic form. C111: both sides are linear in the slopes at the faces; the boundary rows of the matrices are derivatives of the interpolant. C112: for the pairs of nodes and correction functions that make flux reconstruction a Galerkin scheme, the form is minus the integral of the squared slope plus the two face terms; as a sum of squares about the center for degree 4 or less, and a quintic with a positive value.
* **C113–C118 artificial viscosity.** `Model/PyViscosity.lean`: dictionaries as partial functions that `generate` empties and fills, `apply_viscosity` as a function on what the elements hold; the constants of the three models; the two profiles with the cache of inverse matrices as part of the state. C113 by induction over the reports; C114 by order; C115 by the ramp as a clamped sine; C116 with the inverse of the 3×3 matrix computed and the cache as invariant; C117 by cases on the signs of the speeds; C118 with the weights of the quadrature positive, exactness for the integral, and C112 for the dissipation.
* **C119–C121 reference solutions and errors.** `Model/PyReference.lean`: `u_init` and `u_exact` over the reals, the dictionary of `InviscidBurgers` as a partial function handed on, the widening loop as the least number of rounds after which the condition fails, `optimize.bisect` as a parameter with a specification. C119 by differentiation; C120 by the intermediate value theorem, contraction, and the difference quotient of the sine for the derivatives of the implicit function; C121 from the norms of C93.
* **C122–C125 wave numbers.** `Model/PyWave.lean`: the analysis on the DG and FR models with complex values; `eigvals` enters by the definition of an eigenvalue. C122 writes the residual of both schemes as two real matrices and shows that they are the same for translated elements; C123 uses the weak form with the real and the imaginary part of the wave as test functions; C124 by induction over the two loops; C125 from sums of roots of unity.
* **C126 stability of Vincent's family.** No new model. `Lemmas/PyFRSobolev.lean` computes the moments of the correction functions against polynomials: they see only the highest coefficient, which the weighted product of the highest derivatives cancels. From the weak form in that inner product the balance follows with the solution itself as test function, for waves with its real and imaginary part. Existence of the solutions by the matrix exponential.
* **C127 degree zero.** No new model. `Lemmas/PyFirst.lean` proves the classical facts about conservative schemes with a flux that is monotone and changes no faster than a constant; `Props/PyFirst.lean` shows that the upwind fluxes are such and that the residual of degree zero is the difference of the fluxes, then carries the facts through the steps by convexity (C82).
* **C128 suggested steps at degree zero.** `PyLoop.blazek` with the residual above. The loss of energy of a third order step is written as a sum of squares of differences, with non-negative coefficients exactly up to the Courant number in the table. The counterexamples are alternating values on two elements and a single value on four.
* **C129 uniform flow for flux reconstruction.** `Model/FR.lean` with the metric terms of `Model/LocalHex.lean`. On a conforming mesh all corrections vanish and the residual is the flux times the discrete divergence of the metric terms (`uniform_entry`). Along every line the metric terms are polynomials of known degree, the derivatives of the Lagrange basis are exact for them, and the divergence vanishes by symmetry of the second derivatives of the map. The counterexamples are one-cell meshes around a truncated pyramid and a nozzle.
* **C130 energy of scalar laws in C++.** `Model/Energy.lean` puts the scalar solvers of `Model/Simple.lean` on the faces of a mesh in the sense of `Model/Parallel.lean`, and `Model/Residual.lean` computes the rates. The weak form (C71) is tested with the solution itself; summation by parts leaves the loss at each face, non-negative by cases, and the boundary terms. For steps of third order the rates of the linear equation are shown to be affine, and the energy of a cubic polynomial of a dissipative operator is bounded as by Levy and Tadmor.
* **C131 maximum principle in C++.** The model of C130 at degree zero. The upwind fluxes are monotone and Lipschitz in each argument (by cases, through the formula of Godunov's flux); so a step of Euler's method is monotone under the Courant condition. Bounds follow by comparison with constants, contraction by the argument of Crandall and Tartar, and both carry over to the Runge–Kutta methods by convexity (C28).
* **C132–C134 positivity of the fluxes.** A state has positive density and pressure iff the energy seen by every observer is positive; these are linear functions of the state, so the admissible states form a cone and it is enough to show that `αU ± (F(U) − f)` lies in it. For HLLC this is an identity for the star states (no order of the waves needed). For the exact solver the waves are treated for the pressure the iteration stops at, whose error has a favourable sign: shocks by the jump conditions, fans by the monotonicity of two functions along the rays (derivatives), the code's mixture of both sides by a discriminant. AUSM: cases in the Mach number; a thin neighbour as witness.
* **C135 positivity on meshes.** The residual of C45/C78 is written as the sum over the faces of the cell; the flux of the cell's own state sums to zero over a closed surface and can be subtracted, so that the new state is a multiple of the old one plus parts which C133 and its counterparts for walls, inlets and outlets put into the cone of gases. The Runge–Kutta methods are convex combinations of such steps; the states they pass through are those in the model's log of evaluations. The solver of a face is any function that agrees with some call of the exact solver.
* **C136 rotations and reflections.** Flows are compared as functions, since the orthonormal basis on the image of a cell is not the image of the basis. Every solver looks at scalars only (density, pressure, normal velocity, speed) and assembles its answer from the two momenta and the normal, hence turns with them. The weak form of C71 is linear in the test function and the components; the matrix between two orthonormal bases is orthogonal. Runs: the pair of flows as one system, of which "one is the image of the other" is a convex set.
* **C137 positive finite volumes with HLLC.** As C135, of which the part that does not look into the solver is shared: the update of a cell is a convex combination of states each of which one solver keeps admissible. For HLLC that is C132: the two star states are admissible by construction, whatever the estimate of the pressure between them.
* **C138 units.** States, primitive variables and fluxes are multiplied by powers of the units; HLLC, AUSM and the boundary conditions branch on signs and on comparisons of quantities of one dimension only, and their formulas are homogeneous. Flows are compared as functions (the orthonormal basis depends on the unit of volume); the weak form of C71 is turned into the weak form on the redrawn mesh. Runs: as in C136, after time is measured in the old unit.
* **C139 units, exact solver.** Every function of the solver is homogeneous, the wave structure too; the iteration is not, since it stops at an absolute value of the velocity. Negation: two gases with a velocity difference below the tolerance in one unit and above it in the other; one Newton step suffices to tell the fluxes apart.
* **C140 second law.** The gases with `p / ρ ^ γ ≥ s` are those on which all functionals `E - v·m + ρ v²/2 - h(ρ₀) ρ + s ρ₀ ^ γ` are non-negative (tangents to the energy of isentropic gases); each functional is followed through shocks (entropy rises across them, from the jump conditions and monotonicity in the strength) and through fans (constant entropy, by differentiation along the fan), which bounds what a face passes on; then as in C135. Convexity gives runs of any order. Negations: exact formulas for the cell at a wall, with Bernoulli's inequality; data for an inlet and for the tolerance.
* **C141 density waves.** The gas and its flux matrix are linear in the density when velocity and pressure are uniform. The weak form (C71) then has only integrals of products of two functions of the space, to which the divergence theorem of the rules applies; with orthonormality the rates are the coefficients of `-v·∇ρ` times the direction in which the components change. They are the same at all stages, so Runge-Kutta steps stay on a straight line. Solvers and boundary conditions enter through consistency (C19, C25) only. That the result solves the Euler equations is checked by derivatives.
* **C142 the reported error.** `MeasureL1Error` is a fold over cells and Gaussian points; induction turns it into a sum of integrals. Sums of non-negative terms vanish only if all terms do; the sum over processes is a sum over a permutation of the cells. With C141 the error of a density wave is zero.
* **C143 the double Mach reflection.** The formulas of the demo as functions of its constants. The three jump conditions along the normal are algebra once `a^2 rho = gamma p`; in space the states have momentum along the normal only. The exact solver starts its search for the pressure at that of the left state, which is the root.
* **C144 the reference for linear systems.** `exact_solution` as a fold over eigenvalues, for any decomposition that satisfies `Decomposed`. The specification is the integral form of the equation, on all intervals and periods. A fan of fronts satisfies it if and only if the sum of times spent inside times `A w - λ w` vanishes for all boxes; boxes which only one front crosses single it out.
* **C145 energy of the stepped Python schemes.** The residual of C95 is linear in the coefficients: weak forms of both sides agree, and they determine the residual. The energy is a definite form (quadrature included), so the linear map is bounded in it; with the balances of C96 and C97 the contraction of C130 for cubic polynomials applies to each step of order 3. Continuous fields neither gain nor lose energy and are advected exactly; a piecewise linear hat, and a quadratic spline whose derivative is continuous too, gain energy in a step of order 1 and 2.
* **C146 energy of stepped flux reconstruction.** As C145 with the energy of C126, which adds a penalty on the highest derivative: the form is definite for ratios in (0, 1], the residual is a linear map (`linear_system`), its balance is that of C126, and the contraction of C130 for cubic polynomials applies to each step of order 3. The fields of C145 that gain energy in steps of order 1 and 2 do so here as well: continuous fields are advected exactly and without change of energy (`lower_gain`).
* **C147 meshes for METIS as values.** A heap of arrays and `Mesh` objects (two owning vectors, two raw pointers), all operations including the generated copy control, with undefined behaviour as `none`; the spec is a machine of values without addresses. Refinement by a frame lemma (a step concerns one object) for every operation but the copies, by induction for programs. The copies are shown to alias and to dangle. Rows: `neighbors` inverts the prefix sums. The deleter: ownership invariant by induction; a copy frees twice.
* **C148 boundary conditions.** `GetSection(name)`, `UpdateRanges` (with its exception half-way), on top of the sections of C12. The spec reads cells by number (`At`) and says which cells a range covers; a range stands for one list of cells (`covers_unique`). `conditions_follow` for every outcome of the sort, by induction over the conditions; three ways in which the property fails, by witnesses.
* **C149 Python: mirror images.** The spec says what an equation, an interval and a function become in a mirror (`Mirrors`, `Opposite`, `Image`). All rules with the exactness of Gauss are one rule up to order (`gauss_same`, from C93), hence symmetric, so that the weak form of C95 with mirrored test functions determines the mirrored residual (`cell_mirror`); faces by cases at the ends of the grid; flux reconstruction through the reconstructed flux of C98. Runs: relations kept by sums, multiples and residuals are kept by all steppers (`march_relation`). Instances for advection with diffusion, Burgers, and Euler with Roe's solver.
* **C150 Python: limiters in a mirror.** The spec is one line: the image of a function (`imageOf`, with the sign that the quantity gets). ZhongXingHui2013: through the closed formula of C104, whose means and indicators are invariant under substitution in the integrals, and whose sums do not depend on the order of the neighbours. LiWanAi2020: candidate by candidate (`Twin`: coefficient `l` of the Taylor series gets the sign `(-1)^l`); Legendre coefficients have parity, borrowed slopes change their sign because the quadrature of the neighbours is symmetric (C149), and the weights of the two borrowed candidates change places.
* **C151 Python: jump detectors in a mirror.** Elements are paired with their images (`Couple`: opposite ends, same basis, image of the values, neighbours that have changed sides), the grid with the grid in reverse order (`Fin.rev`). Each indicator is then the same number: end values change places, averages and integrals follow C149, the modes get the sign `(-1)^n` and so keep their energy, and the samples of LiYanHui2022 form the reversed row, where the wrapped indices on the left become those on the right.
* **C152 Python: profiles of the viscosity in a mirror.** Element `count - 1 - i` is the image of element `i` (`Mirrored`), with the same constant (`SameLevels`). By the closed formulas behind C116 and C117: the element before the image is the image of the element after, the mean is symmetric, the upwind value of reversed waves is the same, and both shapes are reflected when their end values change places.
* **C153 Python: energy-based viscosity in a mirror.** Sorted rules of Gauss are unique, so that node `i.rev` of the image is the image of node `i`, with the same weight; the halves of an element change places, and the middle node counts half on both sides. The borrowed line is determined by its values at two points, which change places. The rate by the quadratic form of C112, under substitution of the polynomial. Neighbours on a grid, with their shifts, change sides (`Fin.rev`).
* **C154 Python: viscosity of Persson and Peraire in a mirror.** The energies of the modes do not change in the mirror (C151), nor does the length of the element; the dictionary that `generate` fills is described by C113.

## What is modelled

Paths are relative to `include/mini` unless they start with `demo` or `python`.  A model file cites lines for each definition.

| Source | Model (`lean/Verif/Model`) | Left out |
|---|---|---|
| algebra/eigen.hpp | `Frame`, `Projection` | thin wrappers of Eigen |
| aircraft/{airfoil,blade,rotor,section,source}.hpp | `Airfoil`, `Rotor`, `RotorHeap`, `Source` | |
| basis/{lagrange,linear,taylor,vincent}.hpp | `Lagrange`, `Ortho`, `Taylor`, `Vincent` | printing |
| constant/index.hpp, gauss/* | `Gauss`, `Taylor`, `Tables` | containers of points |
| geometry/{triangle,quadrangle,tetrahedron,pyramid,wedge,hexahedron,cell,face,element}.hpp | `Shape`, `ShapeHex`, `Cell`, `SortNodes`, `Conform` | |
| geometry/{frame,pi,intersect}.hpp | `Frame`, `Intersect` | |
| mesh/{cgns,mapper,metis,shuffler}.hpp | `Sections`, `Boundary`, `Fields`, `Coordinates`, `Mapper`, `MetisMesh`, `Partition`, `Shuffle`, `Adjacency`, `FaceParts` | the CGNS, METIS libraries |
| mesh/part.hpp | `GhostSetup`, `Exchange`, `Faces`, `Reconstruct`, `Checkpoint`, `Column`, `Measure` | name-to-id tables |
| demo/euler/double_mach.cpp | `DoubleMach` | names of boundaries |
| demo/linear/multiple.cpp (initial_condition, exact_solution) | `Waves` | `Eigen::EigenSolver` (any decomposition) |
| mesh/overset.hpp | `Overset` | mesh/cgal.hpp, which wraps a search of CGAL |
| mesh/vtk.hpp | `Base64`, `Vtk` | |
| polynomial/{projection,hexahedron}.hpp | `Projection`, `LocalHex` | |
| limiter/weno.hpp | `Weno` | |
| riemann/simple, rotated, euler, diffusive | `Simple`, `Euler`, `Exact`, `Eigen`, `DirectDG` | diffusive/navier_stokes.hpp, which cannot be parsed; concept.hpp |
| spatial/{fem,viscosity,dg/*,fr/*}.hpp | `Residual`, `FR`, `Viscosity` | |
| temporal/{ode,rk}.hpp | `RK` | |
| demo/euler/{sourceless,rotorcraft}.cpp | `Driver`, `Parallel` | printing, argument parsing, other demos |
| python/temporal.py | `PyRK` | |
| python/solver.py, suggest_delta_t | `PyLoop` | plotting, argument parsing |
| python/riemann.py, python/equation.py (scalar, Coupled) | `PyScalar` | |
| python/riemann.py (Euler) | `PyExact` | `scipy.optimize.fsolve` (parameter) |
| python/polynomial.py | `PyPoly` | `scipy.special` (recurrence, exactness assumed) |
| python/coordinate.py, integrator.py, concept.py (Integrator) | `PyQuad` | `roots_legendre` (exactness assumed; C93 shows that exactly one such rule exists), Lobatto rules above 10 points |
| python/expansion.py | `PyExpansion` | `Taylor.approximate` (numdifftools), `convert_to`, `Shifted` |
| python/element.py (DG), spatial.py, concept.py (Element, Face, Grid), riemann.py (Solver) | `PyDG`, `PyEnergy` | limiters, `suggest_cfl`, matrix-valued diffusive coefficients |
| python/element.py (FR), spatial.py (FluxReconstruction) | `PyFR`, `PyFRDG` | `get_dissipation_matrices`, `get_flux_value` of the grid |
| python/spatial.py (FiniteElement: grid, faces, columns), concept.py (Grid) | `PyGrid` | drawing, `scalar_type` |
| python/limiter.py | `PyLimiter` | `XuXiaoRui2023` (abstract, cannot be created), labels and printing |
| python/filter.py | `PyFilter` | the printed sum |
| python/detector.py | `PyDetector` | names, LiYanHui2022.get_smoothness_values |
| python/element.py get_dissipation_matrices, python/viscosity.py Energy._get_dissipation_rate | `PyDissipation` | systems |
| python/viscosity.py, python/concept.py Viscosity, apply_viscosity, suggest_delta_t | `PyViscosity` | energies of systems, quadratic profile of systems (componentwise), the energies and matrices not called (`_get_high_order_energy`, `_build_a_on_centers` etc.), names |
| python/solver.py u_init, u_exact, _measure_errors | `PyReference` | floating-point bisection (tolerance), the tables of the shock tubes, plotting and vtu output |
| python/wave_number.py, python/discrete_fourier.py get_kth_fourier_coeff | `PyWave` | `numpy.linalg.eigvals`, plotting, `get_wavenumbers` of discrete_fourier.py (logarithm of a quotient of coefficients) |
| python/riemann.py (Roe, LaxFriedrichs), python/equation.py (Euler), python/gas.py | `PyEuler` | |

Out of scope everywhere: floating-point rounding, overflow of integers, memory and time limits, the behaviour of MPI, CGNS,
METIS, CGAL and Eigen beyond the operation called (a message sent on a channel arrives once, in order; a linear solver
solves regular systems; and so on, as said in each file).

## Findings

Places where a property that a caller would expect does not hold of the code.  Each is proved about the model (theorem
named in brackets), so each is a statement about the source as read, not an observed failure.

* geometry/hexahedron.hpp, `GetOutwardNormalVector` normalises an edge: wrong on skewed cells (`outward_normal_skewed`).
* basis/taylor.hpp:383 adds column XX where YY is meant, line 427 asserts a wrong factor, `Taylor<3, 1>` smoothness is not
  weighted (`pdv33_yy_wrong`, `smoothness3_wrong`, `pdv33_debug_aborts`, `smoothness1_scaled`).
* aircraft/blade.hpp, `GetSection` exchanges the weights of the two stations (`section_not_linear`).
* aircraft/rotor.hpp: the clock is uninitialised before the first update, and speed and origin changes are not seen until
  the time changes (`garbage_clock`, `stale_speed`, `stale_origin`); SC1095 table lookup leaves the table for angles
  beyond a turn.
* aircraft/source.hpp, `Intersect` loses blade tips inside a cell, edge crossings, and cells on the boundary
  (`inner_start`, `inner_end`, `inner_both`, `through_edge`, `boundary_side`).
* temporal/rk.hpp: after a step of order 1 or 3 the system's clock is not `t + dt` (`clock_after`).
* riemann/euler/exact.hpp keeps the star velocity of the last problem in vacuum cases (`history_matters`).
* riemann/euler/hllc.hpp is not the reverse of itself for strongly colliding states (`hllc_collision`).
* riemann/euler/types.hpp: zero density with positive energy gives a pressure and takes momentum for velocity; the flux
  matrix of a clipped state disagrees with the rotated flux.
* riemann/simple/double.hpp is not antisymmetric for nilpotent matrices.
* geometry/intersect.hpp does not handle coplanar segments.
* mesh/shuffler.hpp: a second `Shuffle` breaks the maps; a node without cells is assigned to a part of its own; a face
  without a cell goes to part 0 and a face with two cells to one by chance (`orphan_face`, `part_by_chance`).
* mesh/part.hpp: `Reconstruct` depends on the partition (`reconstruct_depends_on_partition`); a boundary face without
  holder leaves it uninitialised, with two holders one is chosen by chance; equal section names hide each other
  (`holder_missing`, `holder_by_chance`, `same_name`); faces between zones are lost (`across_zones`); solutions are
  written correctly only if sections of cells are numbered from 1 (`sections_from_two`), after `GatherSolutions`
  (`not_gathered`).
* mesh/cgns.hpp: pyramids are left out of the dimension tables (`pyramids_left_out`); merging a mixed section loses
  connectivity; `RotateZ` reads past a shorter y vector (`rotate_undefined`).
* mesh/vtk.hpp: pyramids are unsupported, wedges of 6 and 15 nodes are ordered inconsistently, a part without cells reads
  past the end (`file_undefined`, `tables_corners`).
* spatial/fem.hpp: a boundary registered twice is applied twice (`wall_twice`, `outlet_twice`).
* spatial/viscosity.hpp: `BuildDampingMatrices` is `const` and overwrites the solution and the static viscosity
  (`solution_lost`, `viscosity_lost`).
* polynomial/hexahedron.hpp reads past the table of basis Hessians at degree 1 (`basis_hessians_defined`).
* limiter/weno.hpp divides by zero for a cell without neighbours, and the weight of the cell itself is not positive with
  `1 / w0` neighbours or more (`eigen_isolated`, `own_weight_nonpos`).
* demo/euler/rotorcraft.cpp `--write_forces` evaluates forces at the time of the preceding frame (`forces_late`).
* python/solver.py: `animate`, the default mode, never applies the viscosity model (`animate_stale`).
* python/temporal.py: the limiter acts on the stages of order 4, but that scheme is not strongly stable
  (`fourth_not_stable`).
* python/riemann.py: `Coupled.get_value` returns None at t = 0 (`CoupledSolver.no_initial`).
* python/equation.py: the constructor of `Burgers` passes too many arguments to its base and always raises.
* python/concept.py: `from_characteristics` does not invert `to_characteristics` (`characteristics_lost`).
* python/riemann.py: Roe's flux keeps expansion shocks (`roe_expansion_shock`); `LaxFriedrichs` cannot be
  used by a face (`lax_no_value`).
* python/riemann.py: the exact Euler solver drops shocks of any strength when pressures are below its absolute
  tolerances (`thin_gas`), and returns nan, then fails, when the axis lies in a vacuum (`vacuum_no_flux`).
* python/polynomial.py: `Vincent(1)` with its default ratio is not a correction function; its gradients vanish, so flux
  reconstruction of degree 0 with it never changes the solution (`vincent_default_dead`).
* python/expansion.py: `LagrangeOnLobattoRoots.approximate` samples `1e-10` inside the end nodes, so linear functions are not
  reproduced (`lobatto_not_reproduced`).
* python/riemann.py: with the constants `beta_0 = 3`, `beta_1 = 1/12` used for all degrees, the direct DG diffusion of degree 5 and
  above gains energy (`diffusion_gains_energy`), and at degree 0 diffuses three times too fast (`degree_zero_diffusion`).
* python/element.py: the Burgers equation at degree 3 gains energy without any jump, through inexact quadrature of the flux
  (`burgers_gains_energy`).
* python/solver.py: no method calls `add_correction_function`, so every flux reconstruction scheme, the default method among them, stops
  with an error at the first residual (`unset`); `LegendreFR` is offered but abstract.
* python/element.py: on Legendre or uniform nodes flux reconstruction of a nonlinear flux does not conserve (`not_conservative`), as the
  gaps at the faces use the flux of the extrapolated solution instead of the extrapolated flux.
* python/polynomial.py: `Radau` as correction function exchanges the ends (`radau_reverses`); `Vincent(1)` with the default ratio freezes
  the scheme of degree zero (`degree_zero_frozen`).
* python/spatial.py: a point left of the grid gets index -1, so that the last element answers without any error (`before`);
  `set_boundary_values` asserts only that both values are given or both are not, but fails on `None` (`refused`);
  `FluxReconstruction.get_flux_value` solves the Riemann problems of a periodic grid even if boundary values are set (`flux_value_faces`).
* python/limiter.py: `LiWanAi2020` divides the borrowed slope by `norm_2` instead of its square, so that linear data are changed
  (`lwa_slope`, `lwa_linear_changed`); its truncation loop stops before `k_trunc` can act for p = 2 (`lwa_truncation_idle`);
  it fails for p = 0 and without neighbours (`lwa_defined` needs both). `ZhongXingHui2013` changes averages on Lobatto nodes (`zxh_average_lobatto`).
* python/filter.py: the constructor prints the sum of the coefficients minus 1, which is -1 (the sum is exactly 0, `sum_kept`).
* python/detector.py: `Persson2006` fails on all expansions but `Legendre` (`inner_product(u, u, n_term)` has one argument too many, `persson_nodal_fails`), and can never report an element of degree 1 (`persson_linear`).
* python/detector.py: `Kloeckner2011` makes a new `Legendre` expansion for Lagrange expansions and never sets its coefficients: the answer depends on uninitialised memory (`kloeckner_nodal_blind`). In degree 2 all elements are reported, since the last two entries are made equal (`kloeckner_quadratic_always`).
* python/viscosity.py: `Energy._get_dissipation_rate` asserts that the rate is negative. It is not for some solutions from degree 5 on (`rate_fails`), and never for an element in which the solution is zero (`rate_zero`).
* python/viscosity.py: `Constant(1)` with an integer makes the flux raise, since only `float` and functions are told apart (`flux_integer`).
* python/viscosity.py: `Persson2006` raises for all expansions but `Legendre` (like the detector) and for systems, where the condition is an array, and for degree 0, where it divides by zero (`persson_coeff_nodal`, `persson_coeff_system`, `persson_coeff_zero`).
* python/viscosity.py: `Quadratic._index_to_a_inv` is never emptied; the profiles are wrong if the object is used on another grid (`stale_cache`). The maximum of the parabola may exceed all constants by the factor 17/16 (`profile_exceeds`).
* python/viscosity.py: `Linear` raises for systems unless all elements are troubled, since `_get_nu` returns the float 0.0 for the others (`system_all_or_nothing`); a `print` is left in `_get_callable_coeff`.
* python/viscosity.py: `Energy._get_constant_coeff` fails its assertion for each troubled element in which the solution is zero (`coefficient_zero_fails`), e.g. on the quiet side of a jump that the detector reports.
* python/solver.py: `LinearSmooth.u_exact` multiplies the mean value by the decay of the wave; with `--physical_viscosity` and `--u_mean` the errors are measured against a function that does not solve the equation and loses mass (`smooth_wrong`, `smooth_not_conserved`).
* python/solver.py: `LinearJumps.u_exact` keeps the jumps with physical viscosity (`jumps_kept`).
* python/solver.py: after the waves break `InviscidBurgers.u_exact` depends on which times were asked for before (`history`); the comment in the code admits that it is correct for special cases only.
* python/solver.py: `ShockTube.u_init` takes the right value at the diaphragm, `u_exact` the left one at time 0 (`tube_init`).
* python/discrete_fourier.py and python/wave_packet.py use `spatial.LagrangeDG` and `spatial.LagrangeFR`, which do not exist any more; the programs fail at the first use.
* C128: `Element.suggest_delta_t` asks for `suggest_cfl(3)` whatever ODE solver runs. At degree zero the suggested Courant number is 1.256: the first and second order Runge–Kutta methods amplify alternating values by 1.51 and 1.64 per step, and the third order one makes negative values from non-negative ones. `FluxReconstruction.suggest_cfl` doubles the number; at degree zero with the Galerkin correction the scheme is the same as DG, and then every one of the four methods is unstable.
* C129: `fr::General` and `fr::Lobatto` differentiate the product of flux and metric terms in the space of the solution. At degree 1 on hexahedra with 8 nodes that are not parallelepipeds (and below degree 4 on those with 20, 26 or 27 nodes) the metric terms are not in that space, so that a uniform flow gets a residual (`linear_drift`: 5/2 for the value 5 in a truncated pyramid).
* C130: rotated/simple.hpp:75-87: `GetFluxOnSubsonicInlet`, `GetFluxOnSubsonicOutlet` and `GetFluxOnSmartBoundary` of the scalar solvers `return {}`, a matrix whose entries are not set; using those conditions gives undefined fluxes without an error.
* C133: exact.hpp:84-160: in the branches with vacuum `star_u` is not assigned, so `PassiveScalars::Set` uses the value of an earlier call (0 in a new object). Between gases that recede fast enough, the velocity across the normal may come from the wrong side; the cell on the left then loses more energy than it has (`exact_vacuum_fails`).
* C134: ausm.hpp: the positive part of the flux is not a state of positive pressure for Mach numbers near -1/2, so next to a thin gas AUSM produces negative pressures for every time step (`ausm_pressure_fails`).
* C139: exact.hpp:162-174: `FindRoot` stops when a velocity is at most `1e-8`, whatever the unit of velocity (or the speed of sound) is, so that the flux of the exact solver depends on units (`exact_depends`).
* C140: rotated/euler.hpp:122-128: `GetFluxOnSolidWall` takes the pressure in the cell for the pressure at the wall. A cell whose gas moves towards the wall or away from it then loses entropy at any step (`wall_cools`: density times `1 + y`, pressure times `1 + γ y`, velocity unchanged); the pressure behind the reflected wave would be needed. 
* C140: a supersonic inlet is imposed whatever the gas behind it is; if its pressure is so high that a wave would run against the stream, the cell is cooled (`inlet_cools`).
* C140: the tolerance of `FindRoot` (see C139) cools gases whose velocities differ by less than it (`tolerance_cools`).
* C142: `demo/linear/multiple.cpp:202-204` prints the error of each process without reducing it; it is the error on the mesh only if all other processes have none (`local_below`). `demo/linear/single.cpp` reduces.
* C143: `demo/euler/double_mach.cpp:35,44` sets up the top as `SetSupersonicInlet`, though the gas behind the shock enters there slower than sound (`demo_inlets`: 4.125 against 4.515). The prescribed flow is an exact solution, so the flux is right until waves arrive from inside.
* C144: `demo/linear/multiple.cpp:114-121` takes `eig_cols.col(i) * eig_rows.row(i)`, though `eig_rows` has the eigenvectors as columns and `eig_cols` is its inverse; `simple/multiple.hpp:36-38` takes `eigen_rows_.col(k)` and `eigen_cols_.row(k)`. The reference then sends the jumps at each other's speeds, unless the matrix of eigenvectors happens to be symmetric (`demo_right_iff`); it is never so if its determinant is positive (`demo_wrong`), as that of a rotation is. The error which the demo prints is measured against this reference.
* C144: `demo/linear/single.cpp:82-84,138-141` solves an equation with diffusion 0.05 but measures the error against pure convection. Not modelled.
* C145: the drivers in python/ accept `--rk_order 1` and `2` with any degree (solver.py:579-581). On a fixed grid no step is then short enough to keep the energy of all fields (`first_gains`, `second_gains`); the growth is of the order of dt (order 1) and dt^3 (order 2) per unit of time.
* C147: `metis::Mesh` has no copy control of its own but holds raw pointers beside the vectors they point into (metis.hpp:118-121). A copy reads and writes the arrays of its source and dangles when the source goes (`copy_aliases`, `copy_dangles`). The constructor from `const` vectors casts `const` away and writes go to the arguments (`wrap_writes`). `SparseGraphWithDeleter` has a destructor but no copy control; copies free twice (`dual_copy`). The code in /repo moves and passes by reference throughout, so none of this happens there. Beside the model: `WritePartitionedMesh` in test/mesh/metis.cpp loops to `CountNodes()` where it means `CountCells()`, and so reads beyond the end of the index array.
* C148: `Zone::GetSection(name)` compares the end of a section's name with `name` and takes the first match (cgns.hpp:784-796), so that a condition "Wall" may get the cells of a section "SideWall" even where there is a section "Wall" (`suffix_steals`). `UpdateRanges` keeps one section per condition; a surface of triangles and quadrangles, which mesh generators write as two sections, loses one of them (`second_section_lost`). A condition that no section is named after stops the update half-way (`update_stops`). Only `Shuffle` calls the update; a mesh that is read and written without it has conditions in the old numbering (`stale_without_update`), unless its sections were in order (`ordered_stays`). Beside the model: `BC::name` has 32 characters where CGNS writes up to 33 including the terminating zero (cgns.hpp:484).
