# Design of the formal model of pixell

The model is a Lean 4 library in `/verif/lean/Verif`.  It mirrors selected functions of
`/repo` (simonsobs/pixell) branch by branch as total, computable Lean functions, and proves the
properties of `properties.jsonl` about these functions.

## Layout

* `Verif/Model/*.lean`  – the model.  Each definition cites the file and lines it mirrors and says
  what was simplified.
* `Verif/Spec/*.lean`   – small independent specifications (Python slice semantics, pixel sets,
  dense maps, ...) that do not mention the model.
* `Verif/Lemmas/*.lean` – helper lemmas.
* `Verif/Props/Cnn*.lean` – the property theorems, each followed by an `example` that instantiates
  it on a concrete non-trivial case, and, where the code violates the claim, a refutation theorem
  with a concrete witness (`..._refuted`) next to the strongest true statement (`..._partial`).

## Trusted base

* Lean's kernel (4.33.0), and Mathlib definitions that occur in statements (`ℚ`, `ℝ`, `ℂ`, `List`, `Finset`
  sums, `Nat.Prime`, matrices, derivatives, trigonometric functions).
* Axioms: only `propext`, `Classical.choice`, `Quot.sound`.  The library adds none, and uses no
  `sorry`, `native_decide` or `bv_decide`.
* The reading of the source: that each definition in `Model/` describes the cited lines.

## Common modelling decisions

* Python `int` = `Int`/`Nat`.  Overflow of fixed-width numpy/C integers is not modelled.
* Python `//` and `%` = `Int.fdiv`/`Int.fmod` (floor).  For positive divisors Lean's `/` and `%` on
  `Int` agree with them; the models use the latter only when the divisor is known to be positive.
* Floating point numbers are modelled as exact rationals `ℚ` (or an arbitrary field/ring), and as reals `ℝ` or complex
  numbers `ℂ` where square roots, trigonometry, logarithms or Fourier transforms occur.
  Rounding errors are out of the model.  `np.round` to nearest is modelled on `ℚ`, ties to even.
* Arrays: one axis at a time, as a `List` or as a function on an index range.  The code treats the
  axes of a map independently in all modelled functions (the loops run over axes); pre-dimensions
  broadcast and are left out.
* A WCS: per axis the triple (crval, cdelt, crpix) of a linear (plate carree) WCS; FITS pixel
  numbers start at one, python pixel numbers at zero.  Non-linear projections are not modelled.
* Exceptions are values (`Except`/`Option`); mutable objects are explicit states.
* Out of the model: file formats, plotting, numpy's own implementation, the numerics of the FFT,
  nufft and spherical-harmonic libraries (where they appear they are replaced by their mathematical
  definition), the healpix distance transform.  The section on modelled parts below lists every function.

## Properties

| id | title | what is modelled and how it is proved |
|---|---|---|
| C01 | Slicing a map keeps data and geometry aligned | Model slice_geometry per axis over ℚ; independent spec: Python slice index list and pixel→sky map. Algebra + omega. |
| C02 | expand_slice agrees with Python slice semantics | Model expand_slice; spec: CPython's slice.indices. Case analysis; refute the out-of-range cases. |
| C03 | Slicing geometries composes | Composition of the affine changes of C01. |
| C04 | Padding preserves sky positions and is undone by cropping | Model pad (list ++), and crpix change; list lemmas. The wrap=True branch with zero width is refuted. |
| C05 | Shifting a map moves data and geometry together | Model np.roll by modular indexing; group law. |
| C06 | Rescaling a WCS preserves pixel edges | Affine algebra on ℚ. |
| C07 | Downgrading averages whole blocks and undoes upgrading | Model downgrade via block_reduce; sums over blocks. |
| C08 | Extracting a pixel box returns the right pixels | Model extract_pixbox on one axis on top of sbox_wrap (step 1); refinement to modular index lookup. |
| C09 | Inserting is the inverse of extracting | As C08, with reverse writes; frame conditions. |
| C10 | Slice-box intersection is set intersection | Model sbox_intersect_1d; membership in arithmetic progressions (gcd/lcm). |
| C11 | Wrapping a slice box covers each element once at the right place | Model sbox_wrap loop; the \|step\|>1 case is refuted, \|step\|=1 proved with a loop invariant. |
| C12 | Slice-box algebra | Algebra on index lists of a box. |
| C13 | The union geometry contains every input on one pixel grid | Model union_geometry by min/max fold over boxes. |
| C14 | Projecting to a geometry yields that geometry | Decision logic of project; refuted by the tautological comparison. |
| C15 | Recentering a cylindrical WCS does not move pixels | Affine algebra; fix_wcs refuted for crval != 0. |
| C16 | One-dimensional pixelisation covers the requested interval | Model pixelize_1d over ℚ; pixelization refuted. |
| C17 | WCS compatibility means a common pixel grid | Model is_compatible with tol=0. |
| C18 | Rewinding angles | Floor arithmetic on ℚ. |
| C19 | Unwinding angles | Model unwind as cumulative correction; induction. |
| C20 | Tile geometry partitions the map | Model geometry(); division lemmas. |
| C21 | Tile view reads back what was written and nothing else moves | Model TileView on a flat buffer; induction over write histories. |
| C22 | Arithmetic on tiled maps equals arithmetic on dense maps | Model make_binop; homomorphism to zero-filled maps; refuted for multiplication. |
| C23 | Redistributing tiles over MPI ranks conserves the map | Model redistribute for any number of ranks as pack/exchange/unpack; refuted for unsorted orders. |
| C24 | Padded tiling reconstructs the map | Model the crossfade weights; partition of unity. |
| C25 | Range arithmetic is set arithmetic | Model the range functions on lists; membership semantics by induction. |
| C26 | mask2range lists the runs of a mask | Model mask2range; induction. |
| C27 | Splitting work is a partition | Models of the splitters; permutation/concatenation theorems. |
| C28 | Greedy splitting is balanced | Greedy invariant: max-min <= largest weight. |
| C29 | Linear and exponential bins tile the index range | Model linbin/expbin/edges2bins/bins2edges; non-termination of expbin as a refutation. |
| C30 | Binning after expanding is the identity | Model bin_data/bin_expand. |
| C31 | Block reduction and expansion | Model block_reduce/block_expand. |
| C32 | nearest_product returns the nearest product | Model nearest_product 'below'; refutation (10,[2,3]). |
| C33 | primes returns the prime factorisation | Model primes with fuel-free well-founded recursion. |
| C34 | nditer visits every index exactly once | Model the odometer; equality with the row-major index list; refuted for zero-length axes. |
| C35 | count_variable_basis enumerates all digit combinations | As C34, plus aliasing model of the yielded mutable list. |
| C36 | split_esc inverts escaped joining | Model the automaton of split_esc. |
| C37 | split_slice distributes indices over axis groups | Model split_slice. |
| C38 | Sexagesimal conversion round trip | Rational floor arithmetic. |
| C39 | Greedy crossmatching yields a valid maximal matching | Model the greedy filter loop. |
| C40 | Conjugate gradients keeps its residual and can be resumed | Step invariant over an abstract vector space (Mathlib Module); save/load refinement. |
| C41 | Minres keeps its residual | As C40. |
| C42 | Jacobi inversion error recursion | Linear algebra in a Module. |
| C43 | Haar wavelet transform is lossless | Telescoping, induction over levels. |
| C44 | Fourier resampling keeps each coefficient at its frequency | Model the slot copy on index level; odd case refuted. |
| C45 | Frequency index conversions are inverse | Integer arithmetic. |
| C46 | Compressed symmetric order enumerates each component pair once | Models of the three schemes. |
| C47 | sym_compress and sym_expand are inverse | On top of C46. |
| C48 | alm layout is a bijection | Triangular-number arithmetic. |
| C49 | Transferring and transposing alms | Model on functions ℕ→α. |
| C50 | Per-l multiplication touches only valid coefficients | Set of written indices. |
| C51 | Power spectra do not depend on the thread schedule | Sum over arbitrary partition among threads. |
| C52 | Memory pool never hands out overlapping memory | State machine invariant. |
| C53 | Memory pool reaches a steady state | State machine; refuted by the workload (20,20) after (10,20). |
| C54 | Reading a map file lazily is repeatable | State machine of hdu.data; refuted. |
| C55 | HDF writes replace only what they name | State machine of a file as finite map; Bunch.write refuted. |
| C56 | Nested Bunch HDF round trip | Structural induction on trees. |
| C57 | cache_get computes a key once | State machine; refuted for the empty cache. |
| C58 | Memoised cross spectra are the right spectra | Abstract views; refuted for views with the same start address. |
| C59 | Bunch behaves like a dictionary | Refinement to association list. |
| C60 | label_multi labels distinguish exactly the distinct combinations | Refuted by a collision; partial for two arrays. |
| C61 | spin_helper partitions the components | Induction. |
| C62 | Blocked position evaluation covers every row | Python range arithmetic; refuted for height = 1 mod bsize. |
| C63 | HEALPix ring table | Sums over rings. |
| C64 | Multimaps store and return each map | Offsets and list slices. |
| C65 | distpow is repeated convolution | Convolution monoid, binary exponentiation. |
| C66 | Row rolling is a cyclic shift | Fortran index arithmetic; refuted for \|offset\| > nx. |
| C67 | Preparing a buffer for SHT is reversible | List take/drop/reverse. |
| C68 | split_hdf_path separates file and group | List of components. |
| C69 | Blank-edge cropping is exact and minimal | takeWhile/dropWhile. |
| C70 | Masks grow and shrink consistently | The distance transform is modelled in full (edge finder, methods simple, bubble and cellgrid of distances_core.c). Containment and duality hold for any method; exact dilation and monotonicity are proved for exact distances on cylindrical maps; monotonicity is refuted for the default method. |
| C71 | Index inversion helpers | List/permutation lemmas. |
| C72 | Accumulating by identifier conserves the sum | Sums. |
| C73 | cumsum gives packed-buffer offsets | scanl lemmas. |
| C74 | find_equal_groups partitions by equality | Partition lemmas. |
| C75 | Colour mapping is bounded interpolation | Rational interpolation. |
| C76 | Triangle wave | Rational piecewise-linear arithmetic. |
| C77 | block transposition, flattening and shape helpers are inverse | Mixed-radix arithmetic. |
| C78 | The full-sky geometry covers the sky exactly once | Rational model of fullsky_geometry; algebra. |
| C79 | Expanding a tiled map to other tiles keeps its data | Same flat-buffer model as C21; induction over the tile loop; numpy broadcasting of the list comparison is part of the model. |
| C80 | The distance transform is the distance to the nearest False pixel | Same model. The Vincenty formula is proved equal to the great-circle angle; the edge finder suffices because distances on a cylindrical map descend towards a point (spherical geometry over the reals); the default cellgrid method is proved to finish within an explicit number of steps, never to underestimate, and to be exact in pixels reached from their only closest point through its domain along non-decreasing distances (invariants of the cell queues, edge exchange and finishing rule); it is refuted to be exact elsewhere. Bubble: the same, with a refutation for two points in one pixel. |
| C81 | Recognised harmonic-transform grids have the right rows and columns | Rational model of the offset tests, the choice of grid name and the padding; the specification is the published colatitude of each row of each ducc grid; algebra with the rounding lemma (rows agree within the tolerance). Refuted for Driscoll-Healy (offsets swapped) and for equal-area maps (recognised although the rows are not equidistant in colatitude). |
| C82 | Every row gets its own quadrature weight | Lists of weights over the model of C81; proved for the weights used by the cylindrical transform; refuted for quad_weights, whose flag test is always true, and for the Driscoll-Healy grid. |
| C83 | Ring tables address each pixel once, also after limiting in colatitude | Lists of ring columns; division with remainder for the cylindrical table, filtering for the limits. Refuted for the ring offsets, which are not limited with the rest. |
| C84 | A coordinate box selects the right pixels | Rational model of the box conversion and rounding on one axis, composed with the extraction model of C08 for the data; monotone rounding; refuted for boxes given against the pixel direction (selection is one pixel off) and for the modes inclusive and exclusive. |
| C85 | Objects are painted once on every pixel they reach, for every schedule | Small-step model of the parallel loop: reading and writing back a cell are separate steps and a schedule is any interleaving with each cell read before it is written. Invariant over the prefix of the schedule; registration in cells by modular arithmetic; adjointness by exchanging sums. Distances and boxes of objects are inputs. Refuted: the operation is not passed on, and boxes around the sky miss pixels when the map is not a whole number of cells wide. |
| C86 | Object profiles are interpolated linearly and painted out to the cutoff | Loop invariant of the binary search, convexity of interpolation, specification of the downward scan. Refuted for the table of extents (off by one, and reading before the array), for the fast lookup at distances above the number of samples and for the test of equal spacing. |
| C87 | Radial sums count each pixel once in the bin of its distance | The visits of a wrapped box are shown to be the pixels of the box, each once; folding them into bins is summing. Refuted for the last bin. |
| C88 | Interpolation is a weighted mean of neighbours, and its transpose is its adjoint | Function-by-function model of the weights and of the loop over the context cells (the counter advancing like an odometer, skipping cells on the zero border), over any ordered field; the flat loop is shown to be the nested sum by induction over the dimensions; the transpose is a list of atomic additions in any order (any permutation). Refuted for the zero border, where skipping a cell also skips advancing the counter. The Lanczos kernel is not modelled. |
| C89 | The spline prefilter makes spline interpolation pass through the data, and has an adjoint | Recursive filters modelled as sequences; each pole is shown to invert a three-point stencil, with an error bounded by the truncated geometric tail; composed over poles and axes. The poles and cut-offs are the code's (over the reals). The adjoint is proved pass by pass for axes of at least two points (the transposed filter reads outside an axis of one point). Lines of the flat array are addressed by multi-index. Refuted for the nearest and zero borders at the edges and for the border name reflect, which the filter does not know. |
| C90 | The derivative of an interpolated array is its derivative | Same model as C88 with the derivative weights and the division v*dw/w. The statement is HasDerivAt over the reals in any dimension. Proved for cubic convolution and splines of order 2 and 4 between knots; refuted for the default cubic spline (wrong polynomial: constants have non-zero slope), for order 5 (always zero), for cubic convolution at grid points (cells with zero weight are skipped) and for the transpose (wrong index of the work array). |
| C91 | A wavelet basis shares out every multipole, and a map is recovered from its wavelet maps | The kernels over the reals (real powers and logarithms), lmaxs with its rounding, the digitization by rounded running sums and sorting, and the curved-sky transform built on the coefficient layouts of C48-C50, with the spherical harmonic transforms of the wavelet maps as parameters assumed exact below their cut-off. Proved for the (default) trimmed basis and the digitized one; for plain Butterworth the loss is bounded by tol and shown to be non-zero; cosine needlets lose the largest multipole. The constructor raises exactly if lmax < step*lmin. The flat-sky transform, the variance basis and the optweight basis are not modelled. |
| C92 | The Fourier transforms of a map are each other's inverse, their adjoints are adjoints, and polarization survives | The unnormalized transforms are the finite sums of roots of unity (what the Fourier libraries compute; the libraries themselves are trusted), in two dimensions as nested one-dimensional ones; normalization factors, the spin loop (built on C61's spin_helper) and the rotation by the angle of the wavenumber as in the code. Round trips by orthogonality of the roots of unity; adjoints by exchanging sums. The pixel area and the wavenumbers are parameters. Rounding is not modelled. |
| C93 | Shifting by a number of samples adds up | One axis (the code's axes are independent), transform as in C92. Proved for complex arrays of any length and for real arrays of odd length; refuted for real arrays of every even length, where the code keeps the real part of a half-shifted highest frequency: the alternating array is shifted by half a sample to zero. |
| C94 | Cosine and sine transforms are undone by their inverses | The eight real-to-real transforms by the library's documented sums (weights and waves); the product of the two matrices is computed by telescoping cosine sums. Proved for fft.dct/idct; refuted for enmap.dct/idct with normalization (the factor uses 2n-1 where 2n-2 is needed), for dct_adjoint (the DCT-I matrix is not symmetric), and for the numpy engine (which computes a backward complex transform whatever the type). Asked with a physical normalization only the same factor is added; not modelled. |
| C95 | A real array is recovered from half of its Fourier coefficients | Half spectrum as a list; the library's complex-to-real transform completes it by symmetry. Induction-free, by conjugate symmetry and C92's orthogonality. |
| C96 | The Chebyshev transform gives Chebyshev coefficients along the last axis | redft00 through the even extension as in the code; the meaning is stated with Mathlib's Chebyshev polynomials. Proved for one-dimensional arrays; refuted for two-dimensional ones, where the factor for the inner coefficients goes to the inner rows. |
| C97 | Rotations of the sphere are rotations, undone by their inverses, and recentering puts the center where asked | Positions one at a time over the reals, arctan2 as the complex argument, matrices as Mathlib matrices. Trigonometric identities. recenter's in-place update of an array of centers is modelled as a new center after the call and refutes reuse of the array. Time-dependent transformations and polarization angles (by finite differences) are not modelled. |
| C98 | The angular distance is the angle on the sphere | As C97; the distance is specified as the arc cosine of the inner product. vec_angdist for vectors that are neither zero nor opposite (the code divides by zero there). |
| C99 | Transforming to another coordinate system ends and can be undone | The loop with fuel and abstract steps; exhaustive case analysis on the 36 pairs of systems, for all step functions. |
| C100 | A Doppler boost is undone by the opposite boost, and boosts compose by adding velocities | One direction over the reals; algebra and a derivative. The field of deflections over the sphere (spherical harmonics, interpolation) is not modelled. |
| C101 | Planck spectra, their inverse and derivative belong together, and modulations can be undone | One pixel over the reals, the constants h, c, k arbitrary positive numbers. Exp/log algebra and derivatives. The inverse for monopoles other than T_cmb is refuted. |
| C102 | Rotations of polarization act as a group | One pixel over the reals, two distinct components. Trigonometric identities. (With spin=0 the function returns its argument itself and not a copy.) |
| C103 | The periodic extension of full-sky maps follows the documented boundary condition | Case analysis for fast_rewind; both documented claims are refuted as called, what the functions do is proved. |
| C104 | redistribute gives every task the parts of the distributed array it asked for | All tasks together as a list; the gather calls are concatenation in rank order, Alltoallv moves the parts of the buffers given by the counts, and the receiving loop reads the buffer piece by piece with numpy's slicing and broadcasting. Proof: sender and receiver compute the same ascending list of common indices (C10, C12), so the buffer holds, job by job, the global values of the positions written. Refuted where several boxes meet several boxes, and with wrapping. |
| C105 | Lensing deflections follow great circles and transport polarization in parallel | One position over the reals; the great circle is specified by vectors (cos d times the position plus sin d times the tangent), parallel transport by the components of the tangent in the frames at both ends. Proved for gradients shorter than the distance to the nearest pole; refuted over the pole (inverse sine) and for the rotation applied by lens_map_curved, which is the square of the right one. |
| C106 | Wrapping at the poles keeps directions, and convergence and potential belong together | One position over the reals; coefficient by coefficient. |
| C107 | The matched filter returns the flux of a source, its uncertainty, and nothing does better | The flat-sky harmonic transforms of uharm are those of C92's model, profiles are real functions of the modes. Every chain of transforms becomes a convolution with the real-space kernel of the profile product; the flux follows at the source, the peak by the triangle inequality, the variance from the covariance of stationary noise written as a sum over modes, optimality by Cauchy-Schwarz. Refuted for pixels of other than mean area. |
| C108 | Matched filters for varying depth, and for several maps at once, return the fluxes | The same kernels; the square of the beam kernel appears through hprof_rpow. Exactness for white, dual and several maps, and for the correlated models under the conditions named in the theorems; refuted in general for these by maps of two pixels. |
| C109 | Real-space powers of harmonic profiles | Shift and convolution theorems of the two-dimensional transform. |
| C110 | The source finder groups sources by strength, keeps the best profile of each pixel and solves for the fluxes | snr_split over the reals with the grouping function of C74 and any argsort; the loop over profiles at one pixel by induction; solve_mapsys as matrices, with the shapes np.linalg.solve accepts before and after numpy 2. |
| C111 | nearest_ind finds nearest elements; dedup removes exactly the repeats | The search as a count over sorted lists, any argsort for the order, Python's negative indices. Refuted for empty arrays and for sorted arrays of one element (index -1). |
| C112 | Weighted quantiles are ordered, bounded and scale free; the weighted median generalises the median | One row of weighted_quantile for any argsort. The quantile lies between the two elements around the position, from which bounds and monotonicity follow; positions for equal weights are computed. Refuted for weights of zero and repeated values, and medmean for fewer than two elements cut. |
| C113 | Box functions describe boxes | Boxes as functions of the axis without order of the sides; corners by binary expansion. Refuted for descending boxes in bounding_box, box_overlap and relative widen_box, for dimensions other than two in box_overlap, for zero widths in pad_box, and for the documented equality of box2contour and box2corners. |
| C114 | unwrap_range undoes wrapping | Floor arithmetic over the rationals. Refuted for whole periods (the range becomes empty). |
| C115 | broadcast_shape follows the broadcasting rule; transpose_inds transposes | The fold over shapes by induction against a declarative definition of broadcasting; index arithmetic. |
| C116 | label_unique labels approximately equal entries | The loop with an invariant about representatives, for any closeness relation; np.isclose with NaN as an option. Refuted: labels are not contiguous since np.isclose is not symmetric, NaN gets -1. |
| C117 | block_mean_filter replaces samples by the mean of their block | Lists; blocks by drop and take of the mirrored array. Refuted for an incomplete last block. |
| C118 | split_outside splits at separators outside groups only | The two loops as they are, with an invariant relating the segments to the state of a scan in one pass, which is the specification. Separators of one character. Refuted for groups that open and close with the same character. |
| C119 | point_in_polygon decides whether points are in polygons | The crossing test without division, the parity over the edges as an exclusive or, from which independence of start and direction and the cutting by diagonals follow; triangles by the signs of the areas; rectangles with their edges. Refuted where a vertex is level with the point. |
| C120 | poly_edge_dist is the distance to the nearest edge | Vectors over the reals, arctan2 as the argument of a complex number. The frame of the edge, the point and the arc in polar form, the maximum of the cosine over the arc. NaN as an option; refuted for repeated vertices. |
| C121 | Healpix pixel numbers, neighbours and edges | Row offsets in closed form, the row of a number from square roots; the neighbours against a separate picture of the sphere in the plane with its columns in half pixels, by linear arithmetic in each of the four quarters. |
| C122 | The priority queue of the distance transform returns the nearest pixel | The binary heap in a list, with the heap order as invariant and counting of entries as permutations. Refuted: the loop of the removal stops one node early, so that a later removal returns an entry that is not the smallest; filling and then emptying the queue sorts. |
| C123 | Distance transforms of healpix maps | The search over the four neighbours for any queue that returns what was put in, by an invariant and a decreasing measure, for both queues; exactness along paths of pixels; the graph of healpix pixels is connected. Refuted for points in the same pixel and for points farther from their pixel's centre than the cap. |
| C124 | Geometries built around boxes and points cover them | One axis at a time as an affine map over the rationals. The offset of the reference is between minus and plus half a pixel; rounding of the extent. Refuted: negative resolutions with descending boxes, bands whose edges are rounded to even rows, the whole sky as a band, band_geometry2 with its default variant, thumbnails of one pixel with a radius. |
| C125 | The areas of pixels add up to the area of the map | Declinations of the edges of the rows as real numbers or NaN; the area against an integral of the cosine. Telescoping sums over the rows, and over the corners for the contour method. Refuted: maps beyond the pole have a positive area and NaN pixels, a missing southern edge gives the area of the rest of the sphere, a missing upper edge the height of the rest; one sample per side. |
| C126 | Padded slices, stamps, tiles and overlaps put pixels where they belong | Slice assignment along one axis with python's negative bounds, by linear arithmetic; lists of rows for the tiles, by induction over rows of tiles. Refuted: stamps at fractional positions across the edge are one pixel short; overlaps that wrap contain everything in between; the box given by the caller is changed. |
| C127 | Derivatives, smoothing and pixel windows of maps | The discrete transforms of C92. Hermitian filters keep maps real, so that filters multiply; derivatives of a trigonometric polynomial and of the heat kernel; windows as integrals of cosines. Refuted: div of grad for even sizes, windows of twice the pixel size, oversampled axes of an odd number of pixels. |
| C128 | Apodization tapers maps towards their edges and around masks | Lines of pixels; the products of slices and profiles against a taper in terms of the distance from both ends. The mask as the profile of the minimum over all bad pixels. Refuted: unknown fills are ignored. |
| C129 | Radial bins are the means over rings | Lists of pixels with radius and value; filtering by the index of the bin is filtering by its edges. Refuted: the pixel farthest from the centre is in no bin. |
| C130 | Neighbourhood boxes contain everything within the radius | Spherical trigonometry over the real numbers: the largest difference in right ascension at distance r is arcsin(sin r/cos dec), bounded by r over the cosine at the edge through its derivative. Rounding by its error. The branch for flat maps always raises and is not modelled. |
| C131 | Maps read from fits files have the values, signs and shapes in the file | The array kept by the file object is a state that reads may change; numbers are byte patterns with a decoding and a swap. Induction over histories of reads and over the pieces of a box; headers as lists of cards. Refuted: the second read of a pixel of a small file has its bytes swapped or its sign flipped back, boxes wider than a turn, headers of more than 36 cards, unsigned bytes. That sections of a file are new arrays is taken from the fits library. |
| C132 | Matrix powers, conditional distributions and correlations | Matrices over the real numbers; the eigenvalues and eigenvectors of np.linalg.eigh are any orthogonal decomposition of the matrix. Two decompositions are connected by a matrix that is zero between different eigenvalues. Blocks of C⁻¹C = 1. Refuted: negative powers of stacks with two leading axes, the right-hand side of solve is overwritten and truncated to whole numbers. |
| C133 | Distributed tile maps are reduced without deadlock or loss | A transition system with a position, a list of tiles and channels for each task; buffered and synchronous sends. Invariant: the tiles and channels are functions of the positions, given by running the plan one operation after the other; the task farthest behind can always go on. Sums and numbers of owners by induction over the plan. reduce and write_map on top of C23. Refuted: tiles that are not in increasing order are written to wrong places. The plan comes from a module outside pixell and is an argument. |
| C134 | The box of pixels around an object contains everything within its radius | Over the real numbers, with the spherical trigonometry of C130: the widths of the pixels at the corners of the preliminary box are smallest at its outer rows. Refuted where those rows are outside the map, and for maps of one row or column, where the code reads outside its arrays. Maps that are not separable are not modelled. |
| C135 | Painting objects gives back all the memory it takes | The heap is a multiset of blocks; undefined behaviour is none. Triples with a frame rule, composed along the code; induction over the histories. Refuted: free_pppf allocates the rows anew before freeing them, so each transposed call loses its work space, and failing assertions lose the pointers. Threads run one after the other; running out of memory is not modelled. |
| C136 | Arrays passed between tasks arrive as they are and in the order of the tasks | Arrays with their order in memory; a channel is a list of messages. Induction over the messages and tasks, index arithmetic for the gathered buffer. Refuted: arrays not stored with the last axis fastest, gathering along the last of several axes, arrays empty along another axis (the tasks hang), and the stand-in for a single task. That mpi4py sends contiguous memory as it is and refuses other arrays is taken from its documentation. |
| C137 | Random coefficients follow the spectrum and do not depend on lmax where they exist | The generator is a stream of real numbers; for the covariance the stream is any sequence of uncorrelated square-integrable random variables of variance one. The kernels of C49 and C50 are used as they are. The l-major order of a smaller lmax is a prefix of that of a larger one. Refuted: several components do not agree between two values of lmax, because the components follow each other in the stream; in single precision a spectrum longer than lmax scales coefficients twice. The matrix root of the spectrum is an argument (C132); the generator itself is not modelled. |
| C138 | Healpix maps and pixell maps are looked up in each other at the right positions | Interpolation, healpy's pixel centres and the angle of transform_meta are functions given from outside; as_euler is any function giving angles of the rotation. Strings are split as Python does. The batches, the loop over spins and the rescaling are followed. Refuted: healpix2map with a rotation and only spin-0 components (pos has no third row), map2healpix with `out` but no nside, and mode "mul32" for small nside. method="harm" is not modelled here. |
| C139 | Maps made tile by tile are the same as made in one go | Cells by arithmetic on the rounded ratio; tiles by recursion over the two lists, with slice_geometry of C01. Refuted: a cell can have nmax+1 things when nmax+1 is a multiple of 3. Axes are linear; coordinates that are not separable are not modelled. |
| C140 | Transforms and their adjoints are adjoint, and map2alm undoes alm2map | ducc's transforms are linear maps given from outside, of which only adjointness is assumed. The loop over spins, the Jacobi iteration, weights, work buffers (shown equal to those of C67) and masks are followed for one leading index. Adjointness by induction over the groups and over the iterations. Refuted: the adjoint of the derivatives (the sign is changed after the transform, in the general method in the caller's map), derivatives in map2alm, niter in the general method, layouts other than triangular with stride 1, coefficients beyond the grid's band limit, and two-dimensional maps with masked pixels. |
| C141 | The python source painter paints every source once, everywhere it reaches | The two passes over sources, offsets and cells are followed as a sequence of visits; the first pass's counts bound the second's indices. Amplitude times beam at a pixel is a function given from outside. Sum over the cell lists by induction. Refuted: cells wider than a third of a turn count a source twice; the radius in pixels is rounded, so pixels within rmax can be missed; maps of ten rows or columns or fewer fail; fewer amplitudes than components differ between the methods. Only op=np.add; the pixel window is not modelled. |
| C142 | Cells of a map go back to the map, and catalogues are matched to the nearest source | Index arithmetic of the two reshapes. For the match the k-d tree is any function returning, in any order, the sources within the chord; the chord is shown to be at most the angle, and vec_angdist to be the angle (C98). Refuted: matches are not mutual, and an empty result has shape (0,). |
| C143 | Small array utilities do what they say for every size | One axis as a list of rationals; shapes as lists. Refuted: deslope with w above 1, repeat_filler for n = 0, and preflat and postflat for negative n. |
| C144 | Numbers are read and named without loss | Text is a list of characters split as Python does, the reading of one number a function given from outside; np.arange over the integers; exact logarithms. Refuted: parse_numbers without a type always fails, ndigit is 2 below 10, and jname forgets the sign within a degree of the equator. |
| C145 | Corners, containment and pixel coordinates of a map are right across the whole sky | The world coordinate of a pixel is linear plus an arbitrary number of turns. Differences of the unwound points differ from the linear ones by whole turns, and both are at most half a turn, so they agree; induction along the points. Refuted: two points around the full sky give width zero; contains is half a pixel off at either edge. |
| C146 | Maps of positions are complete and do not depend on how they are calculated | The world coordinates are a function of row and column; the loop over blocks of rows by induction on the remaining rows. Refuted: Geometry(geometry) always fails. |
| C147 | Spectra survive being written to and read from text files | A text file is a table of numbers rounded to 8 significant digits; a file of one line is read as one row. Columns are packed and unpacked with the orders of C46. Legendre polynomials by their recursion. Refuted: the value at l = 0 is lost with the default scaling, a single multipole cannot be read back, scale_spectrum with l not starting at 0 zeroes the first multipole, read_camb_scalar(expand=False) always fails. |
| C148 | Finding objects in passes gives a catalogue and the map of exactly that catalogue | The finder, the modeller's shapes, the cells of the coarse grid and the widening of masks are arbitrary functions; maps are an arbitrary commutative group. Invariant of the loop by induction on the passes. Not modelled: building the coarse grid, printing. Refuted: the contamination column still counts the objects that are cut, maxiter=0 fails, the argument snrel has no effect. |
| C149 | Objects of several kinds and strengths are each measured and modelled once, by what belongs to them | Measurers are arbitrary functions that keep the number of objects (MeasurerIterative) or act object by object (MeasurerMulti); the groups are those of C74 and C110. Invariant over the groups. Refuted: MeasurerMulti picks the measurer by the number of the group, which is another case's when a case does not occur. |
| C150 | Elliptical beams and their radii convert back and forth, and regularized beams keep what is not small | Real 2x2 matrices; the result of eigh is any that satisfies its guarantee. Trace and determinant fix the eigenvalues, the first eigenvector the angle. regularize_beam for one beam without normalize (which would change the array given). Refuted: combine_beams depends on the order, a beam cut exactly where it falls cannot be regularized, and a beam without small values has its last one replaced. |
| C151 | Scans are divided into sweeps without gaps, and bin edges fit their centres | Rational samples; areas near the extremes by C26, the position of the maximum in each is any that scipy may choose. Bin edges: the square matrix has no kernel (edges that average to zero alternate in sign), so the normal equations are the equations. Refuted: a constant scan fails, and edges need not be in order. |
| C152 | Views of tiled maps have the right tiles at the right places | The maps of C20-C22 with the geometry of tiles from C01, the checks of reshape, and a heap for who shares data with whom. Refuted: negative indices, slices of the pixel axis (they keep their tiles, now with other data), insert of maps with the same tiles gives a view of the inserted map, compatible ignores the wcs, and map_mul of maps with different tiles multiplies unrelated pixels. tiles[i] with a negative i is modelled only as far as the geometry: what reshape does with negative lengths depends on numpy. |
| C153 | Array utilities keep elements, shapes and memory layout consistent | Lists of ints, shapes as lists of lengths, strides as lists of ints with the address of an index as their sum of products, iterators with the number of calls. Induction over axes and rows. Refuted: contains with no values fails, to_Nd to zero axes has one and fails for arrays without elements, outer_stack truncates after a first array of integers, a length-one axis before a broadcast one keeps its zero stride, iscontig looks at strides of length-one axes, and zip2 of nothing never ends. |
| C154 | Conversions of times and scales, numerical derivatives and overlaps of discs are what their names say | Times over the rationals, the rest over the reals. The discs are subsets of the plane, on the sphere in longitude and height (which keeps areas); their Lebesgue measure is an integral whose antiderivative is checked. Polynomials by their Taylor expansion. NaN is none. The Bessel function is arbitrary. Refuted: discs of more than 90 degrees, distances given as ints, airy at negative arguments, chords beyond half a turn, D of abs, constant arrays. The approximations for radii below tol_flat and distances below tol_tiny are not bounded. The Bessel function of airy is Poisson's integral; its series near zero is compared with it to fourth order. |
| C155 | The python side of the alm routines: remembered spectra, output arrays and filters | Arrays are views of memory with an address and strides. The cache by the invariant that each entry is right for both orders of its two addresses, on top of C51; out and fill_gauss by showing that an array whose axes can be joined has element number ravel(i) at index i, on top of C50 and for all schedules. Refuted: views of the same rows with different strides share their cache entry, out and alm arguments whose axes cannot be joined are left as they were because reshape copies them, and an out of single precision is overrun. |
| C156 | Radial profiles and their harmonics are inverses of each other | Real numbers; ducc0 is its specification: spherical harmonics of order zero, and weights that integrate polynomials of degree below the number of rings (CCRule). The Legendre polynomials are shown to be orthogonal from Bonnet's recursion (Lemmas/Legendre). np.interp is modelled; on the grid it returns the samples. Refuted: the last radius is never used (ncut is one too small when r[-1] is on the grid), so on the whole sphere the other pole is missing. In floating point ceil may round either way there. Profiles off the grid are interpolated; the error of that is not bounded. |
| C157 | Random maps have the covariance and the power spectrum asked for | Real and complex numbers, with the discrete transforms of C92 and the matrix powers of C132. The normal numbers are any random variables with unit second moments and no correlations, on any probability space; expectations are Bochner integrals. A map is a real linear combination of these numbers; the covariance is the sum of products of the weights, and the power follows from the orthogonality of the modes in two dimensions. Not covered: scalar=False, where the components are rotated. Refuted: between whole multipoles the power is not the interpolated spectrum, because the roots are interpolated. |
| C158 | Smoothing and expanding power spectra keeps constants and bounds | Real numbers; the transforms of _convolute_sym are proved to be a cyclic convolution. Averages by comparing sums term by term. The roll of spec2flat_corr by reindexing the transform. Refuted: weights given as an array are never used and all entries become NaN, a spectrum of one multipole and a step of width one give NaN at l=0, maps of one row or column raise, and for odd sizes the correlation function is moved by one pixel (the power can be negative). Oversampling, exp other than 1, and the correlation function itself (C149 and spec2corr) are not part of it. |
| C159 | Profiles, spectra and draws of the unified harmonic transform | Real and complex numbers with the transforms of C92 and the draws of C157. Distances of pixels are any even function of their offset (the flat sky). A real map reflected has the conjugate transform, so taking the real part of the transform keeps the even part of the map. The distortion is shown to be the largest ratio of cosines between the corners. Refuted: for odd sizes the centre n//2-1 makes the wrapped profile lopsided; maps whose corners lie beyond the poles, as for the usual full sky, get a negative distortion and are taken as flat; hrand divides by the pixel area although the transforms are in physical units; for a profile without component axes hrand takes the square root of the array of modes as a matrix. Curved mode: only the profile functions; hprof2harm always raises there, because alm_info.get_map is not implemented. |
| C160 | Delensing a flat map undoes its lensing | Positions are any normed group, maps any functions of pixels, interpolation any function that gives back the pixels; the error of the whole is bounded by induction over the steps (Picard iteration, without needing the limit), and the limit by Banach's fixed point theorem. For pixel maps, interpol.map_coordinates as in C88, with the kernels that need no prefilter. Refuted: an invertible displacement with slope 2 (the iteration runs away), and a displacement by half a pixel (linear and cubic interpolation lose small scales). deriv=True is not modelled. |
| C161 | Curved lensing does not depend on how it is cut into bands, and its seeds and spins are respected | Rational numbers for the bands, with slice_geometry of C01; what is computed for a row is any function of its position. The components with the rotation of C102; the coefficients with the layouts and matrix products of C50 and the draws of C137. Refuted: a step of one row raises, tiny bands at the end are made by the code that is to avoid them, the rotation ignores the spins, the coefficient l=lmax, m=0 is complex and too small, correlated spectra mix the seeds, and lens_map_flat always raises (there is no mode "wrap") and would pad one pixel too little. |
| C162 | The flat-sky wavelet transform gives back the map | Real and complex numbers, the transforms of C92 and the quadrant copies of C44 with the phase of fft.shift added. The scales are any list of shapes, norms and filters; the effect of both transforms on each mode is found by induction over the scales. Refuted: wave2map shifts the output of all earlier scales again with each smaller scale (a wave comes back moved by half a pixel), and get_ls applies the phase of the shift to the multipoles themselves, so that the filters of smaller scales see multipoles that are too small and the squared filters no longer add up to one (a wave comes back doubled). Not modelled: fl, scales and fill_value (in flat mode any fill_value gives NaN), and ores (which always raises, since nlevel is the length of geometries, None at that point). |
| C163 | Boosting a map follows T_obs(z_obs) = A·T_rest(z), and deboosting undoes it | Real numbers. Sky maps are functions of the angle from the direction of travel and the azimuth around it; the interpolation and the synthesis of the boost fields are taken as exact, and one component of spin zero is followed. The proofs use the group law of C100 and the inverses of C101. Refuted: demodulate_map after modulate_map leaves a factor (1-β²)/(1-β²cos²θ), because both factors are taken at the same direction; lin2lin without dipole is not undone by lin2lin (an exact computation at speed 3/5 with powers of two); other monopoles than T_cmb; modulation without aberration overwrites the caller's map. |
| C164 | The union of two maps contains both, and inserted maps land where they belong | Rational numbers, one component, the boxes and slices of C08/C09 and the union geometry of C13. The value a map has at a place of the sky is stated as a relation that does not mention pixel offsets. Refuted: a union that closes around the sky has the same place twice and is not summed there; insert ignores its wrap argument. |
| C165 | Thumbnails are local, keep densities and stay positive | Real numbers, order 1 without oversampling (the settings of thumbnails_ivar), one component; the position in the map of a thumbnail pixel is arbitrary. Uses the boxes of C117 and the apodization of C128. Refuted: the apodization reaches inside the radius by up to a pixel, and since its width is counted in the smaller pixels along both axes it covers the center, or raises, when pixels are not square. |
| C166 | Reference points and matrices of geometries, and the extent of the sky | Rational numbers for the linear part; the projections are those of the FITS standard (paper II), stated in the specification over real numbers. Refuted: fix_wcs counts the first pixel as 0, fix_cdelt drops rotations, and the extent of tan does not reach as far as its comment says. recenter_cyl_ra always raises (the wcs is not passed on). |
| C167 | Transforms at logarithmic steps are Fourier transforms | Real numbers, integrals of Mathlib; scipy's fht and ifht are arbitrary operators on sampled functions, exact for the function at hand where the claim needs it. The Fourier transform in the plane is taken in polar coordinates and the Bessel functions by their integrals. Refuted: krange of FFTLog swaps the range without inverting it. Not modelled: FFTLog.fft with bias as an integral. |
| C168 | Polarization angles and areas follow a change of coordinates | Real numbers; the change of coordinates is any map that moves unit vectors by an orthogonal matrix near the position and may jump by whole turns. The angle is the limit of the one of transform_meta for small offsets (the code uses 5e-7). Refuted: rows are dropped or replaced when pol or mag is given. Not modelled: refraction and the other non-rigid parts of horizontal coordinates. |
| C169 | Interpolation on a mesh and its refinement | Rational numbers, tuples of zeros and ones as sets, one output at a time; build sees the function and the interpolator through its test of two meshes, with fuel for the outer loop. Refuted: the error between the points tested, tests not repeated after other dimensions were refined, numbers of outputs not divisible by four, the box of outputs, the tuple returned on failure, and the samples at the far corner for ip_grad. Not modelled: maxtime; grad_forward always raises (too many indices) and is unused. |
| C170 | Catalogs of point sources survive being written and read | Rational numbers; a row of text is the list of its numbers, and files are what the readers look at (columns, kinds of columns). Refuted: read_sauron for other than three components and without the optional columns, FITS tables with other columns in read, units that differ between readers, weights for each component in radial_bin. |
| C171 | Maps prepared for drawing: ranges, tiles, names, canvases and curves | Rational numbers, lists of characters, functions of row and column. Refuted: reversed and empty color ranges, limits ignored for blank maps, names without extension, lines across gaps of pruned curves. Not modelled: PIL's drawing itself. |
| C172 | Maps are found again under the name they were written to, and names may carry a selection | Names are lists of characters; a stored file is its format and whether it is compressed; selections are lists of slices, indices and ellipses acting on dimensions with their wcs. Refuted: names with colons, ".npy", other compressed names, and selections of components in read_map_geometry. |
| C173 | Sizes, Fourier-space geometries and spline resampling are consistent with positions on the sky | Real numbers for wavenumbers and extents, rational ones for the rest; corners of pixels are arbitrary functions. Refuted: lrmap with oversampling, pixshapemap of rotated maps, pixshapebounds without separability, spline resampling with corner=False. Not modelled: the interpolation itself (C88), NaN in pixshapemap. |
| C174 | Function bases, beam profiles, spectra, dice and periods have their textbook values | Real numbers, one sample or signal at a time; the loops as they are; legval, np.linalg.solve and rfft by their definitions; a division by zero or NaN is none. Refuted: equal samples, integer arrays, operators on nothing, profiles that vanish at the centre, constant signals, periods of less than three samples. Not modelled: find_period_exact (Powell's method). |
| C175 | Patterns made from printf formats match the outputs of the formats | The regular expression for formats is modelled with its backtracking, as the list of matches in the order tried; the expression made is modelled by its meaning. Printf is specified for d, i, u, o, x, f and s. Refuted: formats without names, percent signs, slashes, %.0f, %g, %F, formats without conversions. Not modelled: brackets and hidden files in globs, unicode digits and letters. |
| C176 | Variance wavelets tell how noise transforms, and wavelet transforms honour their arguments | Real numbers. The profile of a scale of VarButter before the Hankel transform; the state of a basis after its construction; the choice of resolutions; the loop over scales with NaN as none. The statement about noise is proved for scales of full size in flat mode, for any filter that is the transform of the squared response. Refuted: one scale, trimmed bases, a lower bound alone, ores, geometry, fill values in flat mode. Not modelled: the Hankel transform and interpolation between its samples. |
| C177 | Multimaps are lists of maps with any number of components | The flat array of C64; iteration by __getitem__ until an IndexError; one axis of components with the broadcasting of an assignment; keywords of calls as lists of names. Refuted: negative positions, empty multimaps, full with components, lmap, modlmap and pixmap, arguments not passed on. |
| C178 | Arrays in named pools of memory do not overlap and keep their contents | The pools of C52 with names, and memory as a function from addresses to bytes. Histories are an inductive relation with the list of arrays in use; the system gives out memory that is not in use. Proved by an invariant over all histories. Refuted: arrays without axes, size(), names of methods, unknown attributes. Not modelled: the GPU, views of other types. |
| C179 | geometry2 builds windows of a full sky with the pixels the variant asks for | The projection CAR with the reference at the origin, in degrees and rational numbers: parse_variant, expand_res, pixelize_1d (C16), crop_geometry with subinds (C84), the final move of the reference (C124). Rewinding of angles by sky2pix is left out; the statement about boxes across the end of the sky holds for both turns. Refuted: pixel centres at the ends of the sky in ra, the shape, the sky covered by any, rules with one free end, boxes across the end of the sky. |
| C180 | Fourier interpolation and non-uniform transforms evaluate, transpose and invert the same sums | Arrays of any dimension as functions on products of finite sets, positions and values real and complex; ducc0.nufft by the sums it documents, without its error. Inversion by the conjugate gradients of C40 on the normal equations, ended by the error or a not-a-number. Proved from the orthogonality of the modes and the termination of C40. Refuted: zeros, complex arrays with the default, axes in another order, other periodicities, the precision, negative npre. |
| C181 | Resampling arrays by Fourier methods keeps signals and gives the shapes asked for | One axis of complex values with the reshaping of C44 between transforms; shapes as lists. Proved from the sums over the kept frequencies, for both parities. Refuted: lengths of one, cosines with an odd number of samples, real round trips, complex rows, axes other than the last, a single axis number, bins along two axes, factors close to one, make_equispaced. Not modelled: the padding of the border, values of bins (C44 has downsampling). |
| C182 | Coordinate systems described by texts are centred as they say, and moving objects are followed | Texts as lists of characters with the splitting of Python; number conversion, ephemeris and sky conversions are parameters; the rotations are those of C97 and the loop over systems that of C99. Shapes of times as lists. interpol_pos for any interpolation that is continuous and exact at its nodes. Refuted: objects with a single time, times of two axes, the name Sidelobe, all conversions between horizon and sky, steps of dt, single times, objects crossing the end of the range of longitudes. |
| C183 | Arrays are broadcast around exempted axes, counted by rows and averaged robustly | Arrays as shapes with elements by index; indexing with new axes and np.broadcast_to for equal numbers of axes. Shapes from C115, blocks from C31, medians from C69. Refuted: places beyond the broadcast axes of an array, boolean weights, no samples, medmean2 of at most five samples. Negative block sizes and more exempted axes than there are axes are not modelled. |
| C184 | Labels grow to the closest region and object finders report every detected object with its own significance | Flat pixels with labels as numbers, distances in any linear order as in C80, significances rational; ndimage.label by a specification of its result, the other functions of ndimage as lists. Matched filters, fluxes and the fallback position of FinderMulti are not modelled. Proved by descent to the edge of a region, which is also shown for cylindrical maps of at most half a turn. Refuted: pixels far inside a region, objects across the ends, significances of FinderMulti beside a strong object and of FinderSimple with a penalty, positions beside a negative hole. |
| C185 | Maps change only when they or maps sharing their memory are changed in place | A store of pixel memory and wcs objects with maps referring to both, and programs as lists of steps. Invariants over all programs: references are valid, pixels of a map are distinct, and without views and conversions no wcs is shared. Linear wcs, two axes, windows with unit steps (C01 has all slices). Refuted: shifting a conversion in place moves the sky positions of the original; shifting a wrapped map or a window moves the pixels only; a single offset moves both axes of the wcs. Functions with an output argument are not modelled. |
| C186 | The older Doppler boosts agree with the exact ones to second order, and Newton's method finds the temperature | Model/OldAber: planck, inv_planck as an iteration, apply_modulation for one pixel of a component, the rotations of polarization in apply_aberration, Aberrator and aberrate, and the oldest functions as real functions of the angle from the direction of travel. Newton's method is monotone because the Planck spectrum is strictly convex (sinh(y)/y increases), and its limit is a fixed point; the modulation is compared with the exact one by a second-order expansion with little-o remainder. Refuted: stacks of maps (modulation of the second temperature, rotation along the wrong axis), the sign of tiny terms of polarization, U computed from the rotated Q in aberrate, the amplitude of remap taken at the rest-frame angle, the sign of the speed in distortion. |
| C187 | Coordinate grids: lines are cut at jumps, drawn once each, and labelled where they cross the edges | Model/GridLines: calc_line_segs on lists of points (none for points that are not numbers) with any length function and np.median, the positions of grid lines in calc_gridinfo, and the labels of a curve in calc_label_pos. The cut is specified by pieces that concatenate to the line; labels by points of a step. Refuted: one NaN point stops all cutting, repeated points cause cuts everywhere, a latitude beyond the pole for steps that do not divide 180, the meridian of zero twice or a line past the full turn, labels off the curve at the upper edge, double and missing labels. |
| C188 | Colour schemes are what their descriptions say, and colours given directly are carried over | Model/ColorScheme: the parsing of descriptions over lists of characters, with float() as a parameter and hexadecimal digits only; reverse on one channel, with the drivers of C75; one pixel of direct mode for each driver, with NaN, infinities and 32-bit nint; and the two OpenMP loops as programs of statements, one thread per pixel, run in an arbitrary order, with the private variables the directives name. Refuted: one control point, reversed steps, equal drivers, invalid channels other than the first, and direct_colorcap, whose hue, amp and color are shared between threads and which darkens white. Reading and writing of single variables is atomic and in program order in the model; alpha and NaN of direct_colorcap are left out. |
| C189 | Cutouts are centred on their position and lie inside the map, and the areas of rows are exact | Model/Cutout: the range, the check of the edges and the slice of cutout for given pixel coordinates over the rationals with numpy's rounding, and get_pixsize_rect over the reals. Areas are compared with the integral of the cosine over the part of the row on the sky. Refuted: odd sizes half-way between pixels, the padding at the upper edge, refused cutouts that fit, paths, falling declinations and rows beyond the poles. sindex, corner and the computation of npix from a width are left out. |
| C190 | Contours are at the levels asked for and drawn where the map crosses them | Model/Contours: calc_contours for texts with float() as a parameter, the bins and the edge detection of the Fortran subroutine, and the sorting and its undoing in draw_contours with a width of one. A level separates two values if it is above the lower one and not above the higher one. Refuted: single levels, the last row and column, pixels where several levels are crossed, and NaN. The widening of contours and lists of numbers with contour_type are left out. |
| C191 | Products of small matrices along chosen axes | Model/MatMul: matmul and matmul_sym on arrays with any number of axes, through the flattening and expansion of C77 and the Fortran loops over the matrices of the first array; sizes that do not fit are errors, and the output starts with arbitrary values. For vectors the general statement is proved for any two axes in rising order; for matrices the second times the transpose of the first is proved, and refuted as a product. Refuted: unsymmetric matrices in matmul_sym, falling axes, one matrix for many vectors. Element types are left out. |
| C192 | The images made of maps, their colour ranges, names and options | Model/PlotLoop: the loops of plot_iterator over maps and components with the index into the colour ranges, names in the default format, the order in which options override each other, and counted options parsed without defaults. Proved for all shapes, ranks and names. Refuted: colour ranges with rgb and more than three components and with symmetric below the first row, names of several maps, and the toggling of the grid by option texts. Reading and drawing, layers, other formats of names and the argument parser itself are left out; the logarithm in the number of digits is exact. |
| C193 | Rotating spherical harmonic coefficients | Model/RotAlm: rotate_alm as a loop over the leading indices with the library as a function of the angles that depends on the rotation alone (RotatesBy, which vectors satisfy); the predefined Euler angles; the angles prof2alm uses; the choice of library and of the number of threads. Refuted: the number of threads given by the caller where OMP_NUM_THREADS is set. The transform of a profile in prof2alm is left out. |
| C194 | Bunches of arrays, joined tables and flattened views | Model/Tables: bunch.concatenate on lists of keys and values with the type of the first value, merge_arrays on named columns, and flatview as writes to an array in memory through a permutation of its elements (that of C77) or to a copy that is written back. Refuted: fractions under a whole number, texts longer than the first, different keys, tables with one row, and views that are not for writing. Texts among numbers, other types and exceptions in the body of a view are left out. |
| C195 | Masked pixels are filled from the nearest good ones | Model/Inpaint: inpaint with method "nearest" on a grid of pixels, with the distances of scipy as squares, the nearest point of a list as any function that gives one, and the copy of the map with its order in memory. Proved: the nearest good pixel is always at the border of the mask, by a step from it towards the masked pixel. Refuted: maps with two leading axes swapped in memory keep their masked values, because they are written to a copy; without masked pixels the result depends on distances that have no meaning. Other methods of interpolation are not modelled. |
| C196 | Plotted maps are oriented as on the sky, and masked as asked | Model/PlotMap: the flips of enplot.get_map for one axis, on the geometry of C84 (submap) and C01 (slices), and the masking of values with infinities and not-a-number. Refuted: sub with ra1 < ra2 gives mirror images; colour images of one map are masked together; minus infinity cannot be masked and infinity masks both. Python expressions, stamps and files are not modelled. |
| C197 | Maps turned to the origin, gnomonic geometries and inverse variance maps | Model/Centered: get_rotated_pixels and centered_map with the rotation of C97 and linear axes in radians without wrapping, the reference pixel of gnomonic geometries, and the blocks of rows that tasks of ivar_hp_to_cyl fill, with their sum. Refuted: centered_map takes the number of components for the number of rows and puts a wrong pixel at the origin; gnomonic geometries that are not square have exchanged reference coordinates. Interpolation and the polarisation angle are not modelled here. |
| C198 | Annotations are drawn where they belong | Model/Annotate: the pixel of an annotation, which are skipped, the ends of lines with utils.unwind (C19), and the outlines that make up a rectangle. Refuted: positions are cut, not rounded; lines that begin left of a narrow map are drawn a turn to the right of it; lines on plain maps wider than 360 pixels move by 360 pixels; rectangles thinner than their lines stop the plot (PIL refuses corners in the wrong order). Circles, texts and the drawing of lines by PIL are not modelled. |
| C199 | Unions, tables interpolated row by row, masked medians and reference levels | Model/RefLevel: union by repeated np.union1d (as C71), np.interp on rational tables for each row with the dtype of the table, maskmed along one axis with NaN as a value, and the two passes of get_ref with its thinning. Refuted: a single array is returned as it is; tables of whole numbers give steps; NaN as mask value masks nothing; equal positive values give the default. The period of interp and numpy.ma for NaN beside masked values are not modelled. |
| C200 | Timing of blocks of code | Model/Timing: programs as trees of work, exceptions, try and marked or shown blocks, run on numbered clocks with the bunches of a Bench; what should be counted is defined without any state, by recursion on the program. Refuted: show does not use the clock it is given; blocks in blocks of the same name are counted once for each level. Threads and the format of the printed lines are not modelled. |
| C201 | Environment variables, replaced text and fractional offsets | Model/Settings: the environment as a function from names to values, str.replace on lists of characters for patterns that are not empty, and the remainder of hasoff on rational numbers. Proved by induction on the calls and on the length of the text. Refuted: replace raises if the pattern is there but equal to its replacement. regreplace and empty patterns are not modelled. |
| C202 | Splitting of file paths | Model/Paths: os.path.normpath of POSIX systems as a stack of components, and what splitting its result at slashes gives. The place a path leads to is defined without it, by following the parts one by one, without links. Refuted: the root, and paths that begin with exactly two slashes, have parts without a name. Splitting the text at slashes is taken as given. |
| C203 | Plotted stamps | Model/PlotStamps: the first sources of a file, the corner of a stamp rounded to whole pixels with ties to even, and its box as in C126 (stampBox of Model/MapPlace). Refuted: stamps with an odd number of pixels are a pixel off for every other pixel of the map, so that those of one pixel do not show the source. Negative numbers of stamps and the filling of stamps outside the map are not part of the claim. |
| C204 | Merging of finished plots | Model/MergePlots: standardize_images and merge_plots for one coordinate on images with pixels of any type and any rule for pixels over pixels, with the info objects of plots as references, because a copy of a Bunch shares them. Refuted: the bounds of the first plot are replaced by those of the result, so that it moves. The arithmetic of PIL is not modelled. |
| C205 | Printing of database tables | Model/ShowTable: show and format_result on rows of texts, with the rows of the query and its limit clause given; a second limit is a syntax error of the database. Refuted: the limit 0 raises for every table with rows, and queries whose limit is written in mixed case raise. Queries with a limit only in an inner query, negative limits and the database itself are not modelled. |

## Modelled and unmodelled parts of the code

Generated from the citations in `Verif/Model` and `Verif/Spec`: a function counts as modelled when a definition cites
lines inside it.  The comments of the definitions say what was simplified; the functions listed as not modelled are outside
every theorem.

* `pixell/aberration.py` (18 of 21 functions). Modelled: boost_map, deboost_map, aberrate_map, deaberrate_map, modulate_map, demodulate_map, Aberrator.__init__, Aberrator.__call__, Modulator.__init__, Modulator.__call__, calc_boost_1d, beta2lmax, interpol_map, rotate_pol, apply_modulation, _modulate_T2lin, _modulate_lin2T, fast_rewind. Not modelled: fully, calc_boost_field, sky2pix.
* `pixell/analysis.py` (42 of 55 functions). Modelled: matched_filter_constcov, matched_filter_white, matched_filter_constcorr_lowcorr, matched_filter_constcorr_smoothivar, matched_filter_constcorr_dual, NmatConstcov.__init__, NmatConstcov.matched_filter, NmatConstcov.simulate, NmatConstcorr.__init__, NmatConstcorr.matched_filter, NmatConstcorr.simulate, NmatWavelet.__init__, NmatWavelet.matched_filter, FinderSimple.__call__, FinderMulti.__call__, FinderMultiSafe.__call__, FinderIterative.__init__, FinderIterative.__call__, MeasurerSimple.__init__, MeasurerSimple.__call__, MeasurerMulti.__init__, MeasurerMulti.__call__, MeasurerIterative.__init__, MeasurerIterative.__call__, ModellerPerfreq.__init__, ModellerPerfreq.__call__, ModellerPerfreq.amplitudes, ModellerScaled.__init__, ModellerScaled.__call__, ModellerScaled.amplitudes, ModellerMulti.__init__, ModellerMulti.__call__, ModellerMulti.amplitudes, sanitize_kappa, solve_mapsys, get_flat_sky_correction, dtype_concat, merge_arrays, rpow, snr_split, get_ref, make_circle_labels. Not modelled: Nmat.matched_filter, Nmat.simulate, Finder.__call__, Measurer.__call__, Modeller.__call__, Modeller.amplitudes, FinderSimple.__init__, FinderMulti.__init__, FinderMultiSafe.__init__, rmul, rop, safe_pow, get_central_radius.
* `pixell/array_ops.py` (4 of 6 functions). Modelled: get_core, roll_rows, matmul, wrap_mm_m. Not modelled: find_contours, ang2rect.
* `pixell/bench.py` (5 of 5 functions). Modelled: Bench.__init__, Bench.mark, Bench.show, Bench.add, Bench.print.
* `pixell/bunch.py` (14 of 26 functions). Modelled: Bunch.__init__, Bunch.__getattr__, Bunch.__setattr__, Bunch.__getitem__, Bunch.__setitem__, Bunch.__delattr__, Bunch.copy, Bunch.__repr__, read_hdf, read_hdf_recursive, write_hdf, write_hdf_recursive, split_hdf_path, concatenate. Not modelled: Bunch.__delitem__, Bunch.__contains__, Bunch.__dir__, Bunch.__iter__, Bunch.__len__, Bunch.keys, Bunch.items, Bunch.iteritems, Bunch.update, read, write, is_hdf_path.
* `pixell/cgrid.py` (5 of 10 functions). Modelled: calc_line_segs, prune_bad_segs, calc_gridinfo, calc_label_pos, calc_bounds. Not modelled: fix_wcs, draw_grid, expand_image, get_font, draw_labels.
* `pixell/colorize.py` (5 of 11 functions). Modelled: Colorscheme.__init__, Colorscheme.reverse, colorize_scalar_python, colorize_direct_python, colorize_direct_fortran. Not modelled: colorize, colorize_scalar_fortran, colorize_direct_colorcap_fortran, to_mpl_colormap, mpl_register, mpl_setdefault.
* `pixell/coordinates.py` (19 of 22 functions). Modelled: transform, transform_meta, transform_raw, transform_euler, hor2cel, cel2hor, tele2hor, hor2tele, euler_mat, euler_rot, recenter, decenter, nohor, getsys, get_handedness, getsys_full, ephem_pos, interpol_pos, make_mapping. Not modelled: transform_astropy, tele2bore, bore2tele.
* `pixell/curvedsky.py` (48 of 67 functions). Modelled: pad_spectrum, rand_alm_healpy, rand_alm, alm2map, alm2map_adjoint, alm2map_pos, map2alm, alm_info.__init__, alm_info.lm2ind, alm_info.get_map, get_method, quad_weights, profile2harm, harm2profile, prof2alm, apply_minfo_theta_lim, fill_gauss, prepare_ps, rand_alm_white, almxfl, alm2cl, rotate_alm, alm2map_2d, alm2map_cyl, alm2map_general, map2alm_2d, map2alm_cyl, map2alm_general, alm2map_raw_2d, alm2map_raw_cyl, alm2map_raw_general, map2alm_raw_2d, map2alm_raw_cyl, map2alm_raw_general, jacobi_inverse, nalm2lmax, get_ring_info, get_ring_info_healpix, flip2slice, flip_geometry, flip_array, pad_geometry, analyse_geometry, get_ducc_geo, get_ducc_maxlmax, calc_locinfo, map2buffer, buffer2map. Not modelled: rand_map, map2alm_adjoint, alm2map_healpix, map2alm_healpix, alm_info.nl, alm_info.nm, alm_info.transpose_alm, alm_info.alm2cl, alm_info.lmul, alm_info.__repr__, npix2nside, prepare_healmap, filter, transfer_alm, minres_inverse, get_ring_info_radial, prepare_alm, prepare_raw, dangerous_dtype.
* `pixell/device.py` (31 of 59 functions). Modelled: AllocAligned.alloc, Mempool.__init__, Mempool.alloc, Mempool.totsize, Mempool.free, Mempool.reset, ArrayPoolCpu.array, ArrayPoolCpu.empty, ArrayPoolCpu.full, ArrayPoolCpu.zeros, ArrayPoolCpu.ones, ArrayPoolCpu.alloc_raw, ArrayPoolCpu.as_allocator, ArrayPoolGpu.array, ArrayPoolGpu.empty, ArrayPoolGpu.full, ArrayPoolGpu.zeros, ArrayPoolGpu.ones, ArrayPoolGpu.alloc_raw, ArrayPoolGpu.as_allocator, ArrayMultipool.__init__, ArrayMultipool.want, ArrayMultipool.size, ArrayMultipool.totsize, ArrayMultipool.free, ArrayMultipool.reset, ArrayMultipool.__getitem__, ArrayMultipool.__getattr__, ArrayMultipool.__delattr__, ArrayMultipool.__repr__, round_up. Not modelled: Device.__init__, Device.get, Device.ptr, Device.synchronize, Device.garbage_collect, Device.memuse, Device.copy, Device.time, DeviceCpu.__init__, DeviceCpu.get, DeviceCpu.synchronize, DeviceCpu.garbage_collect, DeviceCpu.memuse, DeviceCpu.copy, DeviceGpu.__init__, DeviceGpu.get, DeviceGpu.synchronize, DeviceGpu.garbage_collect, DeviceGpu.memuse, DeviceGpu.copy, AllocCpu.alloc, AllocGpu.__init__, AllocGpu.alloc, AllocAligned.__init__, Mempool.__repr__, cuda_memcpy, getptr, anypy.
* `pixell/enmap.py` (171 of 277 functions). Modelled: ndmap.__new__, ndmap.__array_finalize__, ndmap.__array_wrap__, ndmap.copy, ndmap.preflat, ndmap.geometry, ndmap.resample, ndmap.project, ndmap.__getitem__, submap, subgeo, subinds, slice_geometry, Geometry.__init__, Geometry.npix, Geometry.__len__, Geometry.__iter__, Geometry.__getitem__, Geometry.__repr__, Geometry.nopre, Geometry.with_pre, Geometry.submap, Geometry.scale, Geometry.downgrade, Geometry.copy, Geometry.sky2pix, Geometry.pix2sky, Geometry.l2pix, Geometry.pix2l, corners, box, enmap, empty, zeros, ones, full, posmap, posmap_old, posaxes, pixmap, pix2sky, sky2pix, pix2l, l2pix, skybox2pixbox, pixbox2skybox, contains, project, pixbox_of, extract, extract_pixbox, insert, insert_at, map_union, overlap, neighborhood_pixboxes, at, _arghelper, rand_map, rand_gauss_harm, rand_gauss_iso_harm, massage_spectrum, extent_subgrid, extent_cyl, area_intermediate, area_cyl, area_contour, pixsize, pixshapemap, pixshapes_cyl, pixsizemap, pixsizemap_contour, pixshapebounds, laxes, lrmap, lpixsize, lpixshape, fft, ifft, dct, idct, fft_adjoint, ifft_adjoint, idct_adjoint, dct_adjoint, map2harm, harm2map, queb_rotmat, rotate_pol, map_mul, smooth_gauss, inpaint, calc_window, apply_window, unapply_window, samewcs, geometry2, _geometry_crval, fullsky_geometry2, band_geometry2, geometry, fullsky_geometry, band_geometry, thumbnail_geometry, union_geometry, recenter_cyl, recenter_geo, spec2flat, spec2flat_corr, smooth_spectrum, calc_ps2d, _convolute_sym, multi_pow, get_downgrade_offset, downgrade, downgrade_fft, upgrade_fft, upgrade, downgrade_geometry, crop_geometry, distance_transform, labeled_distance_transform, distance_from, grow_mask, shrink_mask, pad, find_blank_edges, autocrop, padcrop, grad, div, laplace, apod, apod_profile_lin, apod_profile_cos, apod_mask, lwcs, lbin, _bin_helper, padslice, tile_maps, stamps, write_map, read_map, read_map_geometry, read_map_dtype, write_map_geometry, write_fits_geometry, read_fits_header, read_fits_geometry, read_fits_dtype, write_hdf, read_hdf, read_helper, ndmap_proxy_fits.__init__, ndmap_proxy_fits.__getitem__, fix_endian, get_stokes_flips, shift, fftshift, ifftshift, resample, resample_fft, spin_helper, spin_pre_helper, padtiles, Padtiler.__init__, Padtiler._tbound, Padtiler.read, Padtiler.write, Padtiler._it_helper. Not modelled: ndmap.__repr__, ndmap.__str__, ndmap.__reduce__, ndmap.__setstate__, ndmap.sky2pix, ndmap.pix2sky, ndmap.l2pix, ndmap.pix2l, ndmap.contains, ndmap.corners, ndmap.box, ndmap.pixbox_of, ndmap.posmap, ndmap.posaxes, ndmap.pixmap, ndmap.laxes, ndmap.lmap, ndmap.lform, ndmap.modlmap, ndmap.modrmap, ndmap.lbin, ndmap.rbin, ndmap.area, ndmap.pixsize, ndmap.pixshape, ndmap.pixsizemap, ndmap.pixshapemap, ndmap.lpixsize, ndmap.lpixshape, ndmap.extent, ndmap.npix, ndmap.extract, ndmap.extract_pixbox, ndmap.insert, ndmap.insert_at, ndmap.at, ndmap.argmax, ndmap.autocrop, ndmap.apod, ndmap.stamps, ndmap.distance_from, ndmap.distance_transform, ndmap.labeled_distance_transform, ndmap.plain, ndmap.padslice, ndmap.center, ndmap.downgrade, ndmap.upgrade, ndmap.fillbad, ndmap.to_healpix, ndmap.to_flipper, ndmap.__getslice__, ndmap.submap, ndmap.subinds, ndmap.write, scale_geometry, get_unit, npix, argmax, argmin, rand_gauss, extent, extent_intermediate, area, pixshape, lmap, modlmap, center, modrmap, map2harm_adjoint, harm2map_adjoint, create_wcs, upgrade_geometry, distance_transform_healpix, labeled_distance_transform_healpix, distance_from_healpix, grad_pix, _widen, lform, rbin, radial_average, to_healpix, to_flipper, from_flipper, write_fits, read_fits, read_hdf_geometry, read_hdf_dtype, read_npy, fix_python3, ndmap_proxy.__init__, ndmap_proxy.ndim, ndmap_proxy.geometry, ndmap_proxy.npix, ndmap_proxy.__str__, ndmap_proxy.__repr__, ndmap_proxy.__getslice__, ndmap_proxy.__getitem__, ndmap_proxy.submap, ndmap_proxy.stamps, ndmap_proxy_fits.__repr__, ndmap_proxy_hdf.__init__, ndmap_proxy_hdf.__getitem__, ndmap_proxy_hdf.__repr__, fractional_shift, fillbad.
* `pixell/enplot.py` (20 of 47 functions). Modelled: plot_iterator, define_arg_parser, parse_args, extract_arg, get_map, extract_stamps, draw_map_field, parse_range, parse_list, get_color_range, get_num_digits, split_file_name, calc_contours, draw_contours, draw_annotations, standardize_images, merge_images, merge_plots, hwexpand, hwstack. Not modelled: Printer.__init__, Printer.write, Printer.push, Printer.time, plot, pshow, get_plots, write, check_args, get_cache, draw_colorbar, draw_map_field_mpl, map_to_color, calc_gridinfo, draw_grid, draw_grid_labels, parse_annotations, prepare_map_field, makefoot, contour_widen, draw_ellipse, show, show_ipython, show_tk, show_wx, show_qt, _show_helper.
* `pixell/fft.py` (28 of 44 functions). Modelled: numpy_FFTW.__call__, ducc_FFTW.do_dct, ducc_FFTW.__call__, fft, ifft, rfft, irfft, dct, idct, redft00, chebt, ichebt, fft_len, ind2freq, int2rfreq, freq2ind, rfreq2ind, shift, resample, resample_fft, interpol_nufft, u2nu, nu2u, iu2nu, nufft, inufft, u2nu_plan.eval, _nufft_helper. Not modelled: numpy_FFTW.__init__, ducc_FFTW.__init__, _check_ducc_r2r, numpy_empty_aligned, set_engine, get_engine, asfcarray, empty, fftfreq, rfftfreq, inu2u, nufft_adjoint, inufft_adjoint, u2nu_plan.__init__, fft_flat, ifft_flat.
* `pixell/interpol.py` (11 of 12 functions). Modelled: map_coordinates, spline_filter, build, Interpolator.__init__, ip_ndimage.__call__, ip_linear.__init__, ip_linear.__call__, ip_grad.__init__, ip_grad.__call__, lin_derivs_forward, grad_forward. Not modelled: get_core.
* `pixell/lensing.py` (12 of 14 functions). Modelled: lens_map, delens_map, delens_grad, displace_map, lens_map_flat, phi_to_kappa, kappa_to_phi, lens_map_curved, rand_alm, offset_by_grad, offset_by_grad_helper, pole_wrap. Not modelled: kappa_to_phi, rand_map.
* `pixell/memory.py` (0 of 11 functions). Not modelled: current, resident, max, fallback, linux_current, linux_resident, linux_max, mac_current, mac_resident, mac_max, get_mac_taskinfo.
* `pixell/mpiutils.py` (1 of 10 functions). Modelled: FakeCommunicator.Alltoallv. Not modelled: _unbuf, FakeCommunicator.__init__, FakeCommunicator.Allreduce, FakeCommunicator.Allgather, FakeCommunicator.Allgatherv, FakeCommunicator.Barrier, FakeCommunicator.allreduce, FakeCommunicator.allgather, FakeCommunicator.allgatherv.
* `pixell/multimap.py` (34 of 59 functions). Modelled: ndmaps.__new__, ndmaps.__array_finalize__, ndmaps.__repr__, ndmaps.__str__, ndmaps.__array_wrap__, ndmaps.contig, ndmaps.pre, ndmaps.npixs, ndmaps.ntot, ndmaps.nmap, ndmaps.copy, ndmaps.maps, ndmaps.posmap, ndmaps.pixmap, ndmaps.pixsize, ndmaps.lmap, ndmaps.modlmap, ndmaps.modrmap, _map_view.__init__, _map_view.__len__, _map_view.__getitem__, _map_view.__setitem__, multimap, _geo_helper, full, posmap, pixmap, lmap, mean, median, max, min, var, std. Not modelled: zeros, empty, modlmap, modrmap, pixsize, pixsizemap, samegeos, nopre, map_mul, fft, ifft, dct, idct, fft_adjoint, ifft_adjoint, idct_adjoint, dct_adjoint, map2harm, harm2map, map2harm_adjoint, harm2map_adjoint, queb_rotmat, rotate_pol, write_map, read_map.
* `pixell/old_aberration.py` (13 of 17 functions). Modelled: boost_map, Aberrator.aberrate, apply_aberration, apply_modulation, calc_boost_1d, planck, inv_planck, remap, distortion, aberrate, aber_angle, mod_amplitude, aber_deriv. Not modelled: Aberrator.__init__, Aberrator.modulate, Aberrator.boost, calc_boost.
* `pixell/pointsrcs.py` (29 of 30 functions). Modelled: sim_objects, is_equi, radial_bin, sim_srcs, sim_srcs_python, eval_srcs_loop, sim_srcs_dist_transform, expand_beam, nsigma2rmax, build_src_cells, build_src_cells_helper, cellify, uncellify, crossmatch, read, read_nemo, read_simple, read_dory_fits, read_dory_txt, read_fits, format_sauron, write_sauron, read_sauron, write_sauron_fits, read_sauron_fits, write_sauron_txt, read_sauron_txt, translate_dtype_keys, src2param. Not modelled: radial_sum.
* `pixell/powspec.py` (13 of 13 functions). Modelled: sym_compress, sym_expand, sym_expand_camb_full_lens, compressed_order, expand_inds, scale_spectrum, scale_camb_scalar_phi, read_spectrum, read_phi_spectrum, read_camb_scalar, read_camb_full_lens, write_spectrum, spec2corr.
* `pixell/reproject.py` (16 of 24 functions). Modelled: thumbnails, thumbnails_ivar, map2healpix, healpix2map, rot2euler, inv_euler, restrict_nside, centered_map, ivar_hp_to_cyl, gnomonic_pole_wcs, gnomonic_pole_geometry, get_rotated_pixels, cutout, get_pixsize_rect, distribute, populate. Not modelled: healpix_from_enmap_interp, healpix_from_enmap, enmap_from_healpix, enmap_from_healpix_interp, rotate_map, rect_box, rect_geometry, postage_stamp.
* `pixell/resample.py` (7 of 7 functions). Modelled: resample, resample_bin, downsample_bin, upsample_bin, resample_fft, resample_fft_simple, make_equispaced.
* `pixell/sqlite.py` (2 of 14 functions). Modelled: show, format_result. Not modelled: SQL.__init__, SQL.execute, SQL.close, SQL.tables, SQL.columns, SQL.show, SQL.__repr__, SQL.__enter__, SQL.__exit__, tables, columns, info.
* `pixell/tilemap.py` (34 of 57 functions). Modelled: zeros, full, from_tiles, from_active_tiles, TileMap.__new__, TileMap.__array_finalize__, TileMap.__getitem__, TileMap.with_tiles, TileView.__init__, TileView.__getitem__, TileView.__setitem__, TileView.__iter__, make_binop, map_mul, samegeo, geometry, TileGeometry.__init__, TileGeometry.grid2ind, TileGeometry.ind2grid, TileGeometry.copy, TileGeometry.pre, TileGeometry.nactive, TileGeometry.size, TileGeometry.tiles, TileGeometry.__repr__, TileGeometry.compatible, _TileGeomHelper.__init__, _TileGeomHelper.__getitem__, to_enmap, redistribute, tree_reduce, get_active_distributed, reduce, write_map. Not modelled: empty, TileMap.__repr__, TileMap.__str__, TileMap.__array_wrap__, TileMap.__getslice__, TileMap.contig, TileMap.pre, TileMap.ntile, TileMap.nactive, TileMap.copy, TileMap.tiles, TileMap.active_tiles, TileMap.active, TileMap.lookup, TileMap.nactive, TileMap.ntile, TileMap.tile_shape, TileMap.insert, TileView.ndim, TileView.shape, TileView.__len__, insert, _parse_active.
* `pixell/uharm.py` (20 of 24 functions). Modelled: UHT.__init__, UHT.map2harm, UHT.harm2map, UHT.harm2map_adjoint, UHT.map2harm_adjoint, UHT.quad_weights, UHT.rprof2hprof, UHT.lprof2hprof, UHT.hprof2harm, UHT.hmul, UHT.hrand, UHT.harm2powspec, UHT.sum_hprof, UHT.hprof_rpow, profile2harm_flat_2d, harm2profile_flat_2d, beam2res, beam2rmax, res2lmax, estimate_distortion. Not modelled: UHT.npix, UHT.hprof2rprof, UHT.mean_hprof, profile2harm_flat.
* `pixell/utils.py` (219 of 286 functions). Modelled: l2ang, ang2l, D, listsplit, find, find_any, nearest_ind, contains, common_vals, union, inverse_order, complement_inds, unmask, unwind, rewind, cumsplit, mask2range, repeat_filler, deslope, ctime2mjd, mjd2djd, djd2mjd, mjd2jd, jd2mjd, ctime2djd, djd2ctime, ctime2jd, jd2ctime, mjd2ctime, medmean, medmean2, maskmed, moveaxes, search, weighted_quantile, partial_flatten, partial_expand, addaxes, flatview.__init__, flatview.__enter__, flatview.__exit__, dedup, interpol, FourierInterpolator.__init__, FourierInterpolator.__call__, _ip_get_mode, interp, bin_multi, bincount, grid, cumsum, pixwin_1d, nearest_product, decomp_basis, find_period_fourier, find_sweeps, equal_split, range_sub, range_union, range_normalize, range_cut, compress_beam, expand_beam, combine_beams, regularize_beam, to_Nd, preflat, postflat, between_angles, hasoff, fix_zero_strides, greedy_split, greedy_split_simple, cov2corr, corr2cov, eigsort, nodiag, bounding_box, unpackbits, box2corners, box2contour, box_slice, box_area, box_overlap, widen_box, pad_box, unwrap_range, sum_by_id, pole_wrap, allreduce, allgather, allgatherv, send, recv, resize_array, redistribute, sbox_intersect, sbox_intersect_1d, sbox_div, sbox_mul, sbox_flip, sbox2slice, sbox_size, sbox_fix, sbox_wrap, gcd, lcm, uncat, ang2rect, rect2ang, angdist, vec_angdist, rotmatrix, label_unique, transpose_inds, rescale, split_by_group, split_outside, find_equal_groups, find_equal_groups_fast, label_multi, pathsplit, minmax, broadcast_shape, broadcast_shape, broadcast_arrays, point_in_polygon, poly_edge_dist, block_mean_filter, block_reduce, block_expand, parse_ints, parse_floats, parse_numbers, triangle_wave, planck, iplanck_T, dplanck, graybody, tsz_spectrum, flux_factor, noise_flux_factor, edges2bins, bins2edges, linbin, expbin, bin_data, bin_expand, is_int_valued, solve, eigpow, build_conditional, nint, format_to_glob, format_to_regex, ndigit, build_legendre, build_cossin, uvec, ubash, count_variable_basis, list_combination_iter, expand_slice, split_slice, split_slice_simple, slice_downgrade, outer_stack, tform_to_profile, RadialFourierTransform.__init__, RadialFourierTransform.real2harm, RadialFourierTransform.harm2real, RadialFourierTransform.unpad, RadialFourierTransform.lind, RadialFourierTransform.rind, profile_to_tform_hankel, FFTLog.__init__, FFTLog.fft, FFTLog.ifft, FFTLog.unpad, to_sexa, from_sexa, format_sexa, jname, ang2chord, chord2ang, crossmatch, real_dtype, default_M, default_dot, CG.__init__, CG.step, CG.save, CG.load, Minres.__init__, Minres.step, nditer, without_inds, only_inds, cache_get, replace, primes, res2nside, nside2res, split_esc, getenv, setenv, iscontig, zip2, dicedist, distpow, airy, lairy, airy_lmax, airy_area, disk_overlap, disk_overlap_curved, _disk_overlap_curved_main, _disk_overlap_curved_tiny, infer_bin_edges. Not modelled: lines, touch, streq, asfarray, common_inds, dict_apply_listfun, fallback, argmax, mjd2ctime, moveaxis, weighted_median, delaxes, nowarn.__enter__, nowarn.__exit__, interpolator, SplineInterpolator.__init__, SplineInterpolator.__call__, _ip_prepare, mkdir, symlink, find_period, find_period_exact, read_lines, loadtxt, atleast_3d, atleast_Nd, same_array, date2ctime, reduce, tuplify, sbox_fix0, ctime2date, tofinite, parse_box, calc_beam_area, gnfw, tsz_profile_raw, tsz_profile_los, tsz_profile_los_exact, tsz_tform, ceil, floor, Printer.__init__, Printer.write, Printer.push, Printer.time, contains_any, load_ascii_table, _SliceEval.__getitem__, _get_slice_class.__getitem__, parse_slice, fix_dtype_mpi4py, native_dtype, decode_array_if_necessary, encode_array_if_necessary, chararray_slice, complex_dtype, ascomplex, astuple, first_importable, glob, regreplace, remove_nan, without_nan, getaddr, call_help, arg_help.
* `pixell/wavelets.py` (25 of 52 functions). Modelled: Butterworth.__init__, Butterworth.__call__, Butterworth.get_variance_basis, Butterworth.kernel, Butterworth._finalize, ButterTrim.kernel, ButterTrim._finalize, DigitalButterTrim.__call__, DigitalButterTrim._finalize, CosineNeedlet.__init__, CosineNeedlet.__call__, VarButter.__init__, VarButter._kernel_helper, WaveletTransform.__init__, WaveletTransform.shape, WaveletTransform.map2wave, WaveletTransform.wave2map, WaveletTransform.get_ls, WaveletTransform._prepare_filter, HaarTransform.__init__, HaarTransform.map2wave, HaarTransform.wave2map, trim_kernel, digitize, make_wavelet_geometry_flat. Not modelled: Butterworth.with_bounds, ButterTrim.__init__, ButterTrim.with_bounds, ButterTrim.__call__, ButterTrim.get_variance_basis, DigitalButterTrim.__init__, DigitalButterTrim.with_bounds, DigitalButterTrim.get_variance_basis, DigitalButterTrim.kernel, AdriSD.__init__, AdriSD.with_bounds, AdriSD.n, AdriSD.__call__, AdriSD.get_variance_basis, AdriSD._finalize, CosineNeedlet.n, VarButter.n, VarButter.lmaxs, VarButter.with_bounds, VarButter.__call__, VarButter._finalize, WaveletTransform.wcs, WaveletTransform.geometry, WaveletTransform.nlevel, WaveletTransform.get_variance_transform, WaveletTransform._prepare_filters, make_wavelet_geometry_curved.
* `pixell/wcsutils.py` (29 of 43 functions). Modelled: projection, pixelization, explicit, expand_res, is_compatible, is_cyl, is_separable, get_proj, scale, default_extent, parse_variant, pixelize_1d, recenter_cyl_x, plain, car, cea, mer, arc, sin, zea, air, tan, build, validate, finalize, _apply_zenithal_ref, angdist, fix_wcs, fix_cdelt. Not modelled: streq, describe, equal, nobcheck, is_plain, parse_system, is_azimuthal, default_crval, default_variant, extent2bounds, is_periodic, recenter_cyl_ra, fix_wcs, fix_cdelt.
* `cython/cmisc.pyx` (2 of 4 functions). Modelled: _lmul_dp, _lmul_sp. Not modelled: _lmatmul_dp, _lmatmul_sp.
* `cython/cmisc_core.c` (9 of 12 functions). Modelled: alm2cl_sp, alm2cl_dp, transpose_alm_dp, transpose_alm_sp, lmul_dp, lmatmul_dp, lmatmul_sp, name, rewind_inplace. Not modelled: lmul_sp, transfer_alm_dp, transfer_alm_sp.
* `cython/distances_core.c` (27 of 34 functions). Modelled: distance_from_points_simple, distance_from_points_bubble, distance_from_points_bubble_separable, allocate_cell, fill_cell, finish_cell, cell_solve_until, find_relevant_cells, fetch_edge, distance_from_points_cellgrid, build_healpix_info, get_healpix_neighs, get_healpix_neighs, distance_from_points_bubble_healpix, pointheap_new, pointheap_free, pointheap_push, pointheap_pop, distance_from_points_heap_healpix, find_edges, find_edges_labeled, find_edges_healpix, find_edges_labeled_healpix, isqrt, pix2y_healpix, ravel_healpix, unravel_healpix. Not modelled: distance_from_points_simple_separable, dist_vincenty_helper, pointvec_new, pointvec_push, init_cell, free_healpix_info, get_xoff.
* `cython/srcsim_core.c` (26 of 35 functions). Modelled: estimate_bounding_box, sim_objects, measure_amax, build_prof_info, prof_info_lookup, measure_rmax, measure_rmax, assign_cells, pixbox2cellbox, wrap_box, process_cell, insert_map, merge_cell, evaluate_profile, binary_search, equi_search, calc_grad, calc_pix_shape_general, calc_pix_shape_separable, calc_pix_shape, estimate_bounding_box, intlist_new, intlist_push, calloc_pppf, free_pppf, radial_sum. Not modelled: sum_map, assign_cells, process_cell, paint_object, extract_map, paint_object, calc_dist, reduce_amps, wrap.
* `fortran/array_ops.F90` (4 of 5 functions). Modelled: matmul_multi_sym, matmul_multi, find_contours, roll_rows. Not modelled: ang2rect.
* `fortran/colorize.f90` (3 of 3 functions). Modelled: remap, direct, direct_colorcap.
* `fortran/interpol.F90` (7 of 11 functions). Modelled: spline_filter1d, get_weight_length, calc_weights, calc_weights_deriv, map_border, interpol, interpol_deriv. Not modelled: sinc, dsinc, interpol_old, interpol_deriv_old.

Together 953 of 1427 functions.

## Where the code does not do what is claimed

Every `_refuted` theorem is a proof, with a concrete input, that the model of the code violates the claim.  With its comment:

* `C101_modulate_refuted`: **C101_modulate_refuted.** With a monopole T0 other than the standard one, "lin2T" does not undo "T2lin": every pixel ends up off by (T0-T_cmb)/unit (_modulate_lin2T subtracts utils.T_cmb and not T0).
* `C103_rewind_refuted`: **C103_rewind_refuted.** "Make the x pixel 0:nphi, assuming it's at most one period away" is false as called: with the default ref every pixel in the first half of the sky is moved out of 0:nphi. (Periodic interpolation afterwards hides this.)
* `C103_ydouble_refuted`: **C103_ydouble_refuted.** The documented boundary condition of full-sky maps, map[Ny,x]=map[Ny-1,x+Nx/2], is violated by the doubled map: the row after the last one is a mirrored copy of the first row and not a shifted copy of the last one.
* `C50_stride_refuted`: C50 fails for layouts with a stride: the C code ignores it. With lmax = 1, stride 2 the coefficient (1,0) at position 2 is not multiplied, while the unused position 1 is.
* `C50_sp_bounds_refuted`: C50 fails in single precision for every longer filter: in every triangular layout the loop reads and writes behind the end of the arrays.
* `C50_sp_inplace_refuted`: ... and with an in-place product, even in plain sequential order, coefficients inside the array get wrong values: lmax = mmax = 1, a 1×1 "matrix" that multiplies l = 0,1,2 by 2, 3, 5. The coefficient (1,1) becomes 3·5 instead of 3.
* `C51_stride_refuted`: C51 fails for a layout with a stride, which the C code ignores: lmax = 1, mmax = 0, stride 2, one thread, an alm that is 1 at the position of (1,0) and 0 elsewhere has the spectrum zero at l = 1.
* `C155_cache_stride_refuted`: C155, spectra, fails when the strides differ. With `x` an array of two rows of four numbers, `alm2cl(x[:,None,:2], x[None,:,::2])` returns at [1,0] the spectrum at [0,1]: the rows of the two views start at the same addresses, but are not the same rows. This is shown here for lmax=1, mmax=0: the spectrum at [1,0] for l=1 is that of 6 and 3, not that of 2 and 7.
* `C155_fill_refuted`: C155, random numbers, fails for every other array: `reshape(-1)` copies it, the numbers go to the copy, and the array keeps what it had.
* `C155_lmul_out_refuted`: C155, lmul into `out`, fails for every out whose axes before the last cannot be joined: `out.reshape` copies it, the result goes to the copy, and out keeps what it had.
* `C155_out_dtype_refuted`: C155, lmul into `out`, fails for an out of single precision with alms of double precision, if its last axis is contiguous: it is not rejected, and the C routine, which is told to work with doubles, writes past the end of the row of `n` numbers of eight bytes: there is a coefficient whose bytes end behind it, whatever the layout.
* `C198_pixel_refuted`: C198, refuted: they are not drawn at the nearest pixel, but always on the side of the first one if they are in the second half of a pixel; and everything up to a whole pixel outside the map is drawn on its first row or column.
* `C198_left_refuted`: C198, refuted: a line that begins left of the map is moved one turn to the right. If the map is so narrow that it does not reach there, no column of it is crossed by the line that is drawn, although the line should end in it.
* `C198_plain_refuted`: C198, refuted for maps without coordinates, whose pixels count as degrees: a line that begins between columns 360 and 720 is drawn 360 columns too far to the left.
* `C198_thin_refuted`: C198, refuted for rectangles thinner than their lines: they stop the plot.
* `C128_unknown_refuted`: An unknown fill is not an error: the map is returned as it is, whatever the widths.
* `C153_contains_refuted`: **C153 refuted (no values).** With no values contains does not say that nothing is contained: it fails, for every array that is not empty.
* `C153_toNd_refuted`: **C153 refuted (no axes).** to_Nd to zero axes gives an array with one axis, for every array that has any.
* `C153_toNd_empty_refuted`: **C153 refuted (no elements).** Joining axes of an array without elements fails when the empty axis is not one of them.
* `C153_outer_refuted`: **C153 refuted (integers first).** After a first array of integers no value that is not whole survives.
* `C153_strides_refuted`: **C153 refuted (broadcast axes).** A length-one axis before a broadcast one keeps its zero stride.
* `C153_contig_refuted`: **C153 refuted (axes of length one).** An array whose elements follow each other in C order is not contiguous for iscontig if an axis of length one has another stride, such as the zero that None-indexing gives it.
* `C153_zip_refuted`: **C153 refuted (nothing to zip).** zip2 of no arguments never ends: it yields an empty row every time, however many are asked for.
* `C143_deslope_refuted`: **C143 refuted (deslope).** With `w` above 1 the beginning and the end are not matched up: the slope is measured between the centres of the two groups of `w` entries, but applied as if they were the first and the last entry. A straight line is not removed: its first two entries have another mean than its last two.
* `C143_repeat_refuted`: **C143 refuted (nothing to fill).** An array 0 elements long is not formed: `repeat_filler(d, 0)` fails for every `d`.
* `C143_flat_refuted`: **C143 refuted (negative n).** `preflat(a, -m)` is to flatten all but the last `m` axes; it flattens all of them, for every array and every `m` of at least 1. `postflat(a, -1)` of an array with three axes leaves it as it is.
* `C144_parse_refuted`: **C144 refuted (no type given).** `parse_numbers(s)`, with its default `dtype=None`, fails for every string.
* `C144_ndigit_refuted`: **C144 refuted (numbers of one digit).** `ndigit` is 2 for every number below 10.
* `C144_jname_refuted`: **C144 refuted (names near the equator).** Objects half a degree north and half a degree south of the equator get the same name.
* `C178_scalar_refuted`: C178: arrays without axes cannot be made from values.
* `C178_size_refuted`: C178: size() raises as soon as there is a pool.
* `C178_attr_refuted`: C178: a pool called "size", like the other names of methods, is made and found as an item but not as an attribute; and an unknown name gives a KeyError, so that hasattr and getattr with a default raise.
* `C77_empty_refuted`: C77 fails for an array whose kept axes include an empty one: partial_flatten raises (`reshape` cannot infer the length).
* `C174_legendre_refuted`: When all samples are equal every row but the first is NaN.
* `C174_cossin_refuted`: For an array of integers the values are stored as integers: the sine of 1 becomes 0.
* `C174_ubash_refuted`: The only operator on vectors of length zero has a matrix, but ubash fails.
* `C174_profile_normalized_refuted`: A beam that vanishes at its centre, such as one with b(0)=3 and b(1)=-1, cannot be normalized.
* `C174_short_refuted`: Shorter periods, between two and not quite three samples, are not found: the estimate raises an exception.
* `C174_period_refuted`: A constant signal has every period, but the estimate divides by zero.
* `C183_place_refuted`: **C183_place_refuted.** For a place past the broadcast axes of an array the new axes go among its last npost ones: element (i,j,k) of the result is then a[i,j], not a[i,k], without an error; and shapes that can be broadcast so raise if the lengths differ.
* `C183_bool_refuted`: **C183_bool_refuted.** For boolean weights the result is boolean too: any number of hits counts once, although np.bincount counts them; and no samples at all raise, although minlength asks for zeros.
* `C183_short_refuted`: **C183_short_refuted.** With the default fraction medmean2 raises for every array of at most five samples, and for six to fourteen it takes no means at all: it is the median of the samples.
* `C150_combine_refuted`: **C150 refuted (order of beams).** The combination depends on the order in which the beams are given: for the beams `[[1,0],[0,4]]` and `[[5,4],[4,5]]` it is one beam in one order and another in the other.
* `C150_length_refuted`: **C150 refuted (length).** A beam cut exactly where it falls below the cutoff cannot be regularized: the call fails.
* `C150_flat_refuted`: **C150 refuted (no small values).** "replace small values": in a beam that has none the last value is replaced, by one that is small. With n values 1 the last one becomes the cutoff.
* `C150_start_refuted`: **C150 refuted (small start).** A beam that starts at or below the cutoff keeps all its small values, however many there are; only the last of the `n` values is replaced, whatever it is, by the cutoff times the maximum.
* `C29_linbin_size_refuted`: C29 fails for linbin with `bsize`: the bins run past the end of the data unless the size divides it.
* `C29_expbin_refuted`: C29 fails for expbin: with fewer than `nmin` points (8 by default) it never returns, however long it runs and whatever the candidate edges.
* `C29_bins2edges_refuted`: C29 fails for bins2edges: it takes the last edge from the second bin, so three bins lose their last edge and a single bin raises.
* `C31_large_offset_refuted`: If the offset exceeds the axis, elements are counted twice (here the single element appears in both the first and the last block).
* `C163_monopole_refuted`: **C163_monopole_refuted.** With any other monopole T0 the defaults do not undo each other: every direction of the deboosted map is off by (T0-T_cmb)/unit.
* `C163_demodulate_refuted`: **C163_demodulate_refuted.** demodulate_map does not undo modulate_map (nor deboost_map boost_map, both with aberrate=False): the two factors are evaluated at the same direction, so every pixel is left multiplied by (1-β²)/(1-β²cos²θ), which is less than one everywhere but at the two poles of the motion.
* `C163_lin2lin_refuted`: **C163_lin2lin_refuted.** Without dipole (the default), "lin2lin" is not undone by "lin2lin": at every frequency there are a monopole T0 = T_cmb and a map for which deboosting gives other values back.
* `C163_inplace_refuted`: **C163_inplace_refuted.** boost_map with aberrate=False, modulate_map and demodulate_map overwrite the caller's map with the result; with aberration the caller's map is kept.
* `C113_bounding_refuted`: C113 fails for descending boxes (as those of right ascension): the bounding box of [3,1] and [6,5] is [3,5], which contains neither.
* `C113_contour_refuted`: C113: the documentation says that box2contour with two points for each edge equals box2corners; it has twice as many points in two dimensions.
* `C113_overlap_refuted`: C113 fails when the first box descends in some dimension: the overlap is zero with every box, also with itself.
* `C113_overlap_ndim_refuted`: Documented for boxes of any dimension, but only two dimensions are possible.
* `C113_pad_refuted`: C113 fails for a box of zero width, for example around one point: it is not padded.
* `C113_widen_refuted`: C113 fails for relative margins (the default) and descending dimensions: the box shrinks.
* `C114_full_circle_refuted`: C114 fails for a whole period: the documentation promises range[1] > range[0], but the range becomes empty.
* `C80_bubble_refuted`: C80 refuted for arbitrary points: if two points lie in one pixel, the later one replaces the earlier one even if that is closer.
* `C170_components_refuted`: **C170_components_refuted.** read_sauron does not know the number of components: a catalog of temperatures only is read as one of three components, silently, the fluxes being mixed up with signal to noise ratios and with each other.
* `C170_case_refuted`: **C170_case_refuted.** What can be written without case and contam cannot always be read: there are catalogs of three components with one, two and three fields for which read_sauron raises.
* `C170_auto_refuted`: **C170_auto_refuted.** A FITS catalog with other columns is never read with format="auto", although read_fits reads it: AttributeError is not among the errors caught. A simple catalog with eight columns or more of numbers is taken for one of dory.
* `C170_units_refuted`: **C170_units_refuted.** The readers do not agree on units: the position p degrees comes back in radians from some formats and in degrees from others, so that src2param is right for the latter only, and converts twice for the former.
* `C170_weights_refuted`: **C170_weights_refuted.** With weights for each component radial_bin raises.
* `C197_centered_refuted`: C197, refuted: what centered_map puts at the origin. It is the pixel with the row `ncomp/2` and the column `ny/2`, whatever the map, because the number of components has become the first length. It is the middle of the map only for `ncomp+1` rows and `ny+1` columns.
* `C197_gnomonic_refuted`: C197, refuted: gnomonic geometries have their reference position in the middle only if they are square; otherwise it is off by half the difference of height and width, and beyond the right edge if the map is more than twice as high as wide.
* `C188_single_refuted`: C188 fails: the documented form "v1:c1" with one control point is refused, whatever the value and the code. So is any description without a comma that has a colon, and any that has an empty part, as after a final comma.
* `C188_step_refuted`: C188 fails for schemes with a step: the value at the step keeps the colour of its left side, in the scheme and in its reverse.
* `C188_drivers_refuted`: C188 fails: the drivers differ for exactly those values that are at least half a unit above a whole one below 255.
* `C188_invalid_refuted`: C188 fails: only the first channel is checked. A NaN in another channel leaves the pixel opaque with both drivers, with a channel that is not defined; and an infinite first channel is transparent with one driver and opaque with the other.
* `C188_race_refuted`: C188 fails: hue, amp and color are shared. For any two pixels there is an order of their threads, each finishing its pixel, that leaves the first with the colour of the second.
* `C188_white_refuted`: C188 fails: capping changes colours within range. White, with all channels 1, becomes the gray 148.
* `C190_single_refuted`: C190 fails for a single level: a number alone gives all its multiples in the range of colours, zero among them, not the level.
* `C190_edge_refuted`: C190 fails in the last row and column, where no contour is drawn whatever the map; so a map of one row or one column has none.
* `C190_steep_refuted`: C190 fails for steep maps: where the next pixel is beyond several levels, only the lowest is drawn, whatever the others; and a level crossed in one direction is not drawn if another one is crossed in the other.
* `C190_nan_refuted`: C190 fails at NaN, which counts as lower than all levels: the first contour is drawn along its edge wherever the map is at or above the first level.
* `C97_radius_refuted`: C97, return_r: the radius returned is the distance from the axis; it is the length of the vector only in the equatorial plane.
* `C97_restore_refuted`: C97 fails when the same array of centers is used again: with restore=True and a center array of four rows, the call changes the caller's array, and the same call made again moves the center somewhere else.
* `C66_refuted`: C66 is false for larger offsets: a single wrap does not bring the column back into the row, and roll_rows writes outside of it, for every row that is not empty.
* `C69_blank_refuted`: C69 is false for a map that is blank throughout: instead of an empty map there is an IndexError. With the default value="auto" this happens for every constant map.
* `C69_auto_strip_refuted`: C69, refuted for value "auto" on a map that is blank along one side only: because the product of the blank heights and widths decides, the blank last row, whose own median would crop it, is not found.
* `C69_auto_refuted`: With value="auto" a constant map fails.
* `C189_odd_refuted`: C189 fails: half-way between pixels, every odd number of pixels gives one more or one fewer.
* `C189_pad_refuted`: C189 fails: for every padding and even size there is an accepted position whose cutout ends closer than the padding to the upper edge; without padding it is cut off, and has a row too few.
* `C189_near_refuted`: C189 fails: for every padding and even size there is a position whose cutout keeps the padding but is refused.
* `C189_path_refuted`: C189 fails for maps given by their path: whenever a map would give a cutout, the path raises.
* `C189_falling_refuted`: C189 fails for maps whose declination falls with the row: every row on the sky gets the area of the strip of the whole sky, from pole to pole.
* `C189_beyond_refuted`: C189 fails for rows beyond a pole: they get an area, although none of it is on the sky.
* `C94_enmap_refuted`: C94 fails for enmap.dct and enmap.idct with normalize=True: the round trip multiplies every map by the same factor, less than one, for every size.
* `C94_adjoint_refuted`: C94: dct_adjoint is not the adjoint of enmap.dct, for any map with at least three columns: the two inner products differ for the maps with a one in pixel (0,1) and in pixel (0,0).
* `C94_numpy_refuted`: C94: with the numpy engine dct computes none of the eight transforms: the array with 1 and −1 at the second and last place gives zeros, but its transform is not zero. For all lengths from three.
* `C96_rows_refuted`: C96 fails for two-dimensional arrays, although the transform is documented to be along the last dimension: the factor two goes to the inner rows rather than the inner columns. In the first row every inner coefficient is half of what it should be; in an inner row the first and the last are twice what they should be.
* `C160_diverge_refuted`: **C160_diverge_refuted.** That the inverse of the lensing exists is not enough: with the displacement -2x on a line, lensing twice gives back every map, but the iteration runs away from the undisplaced gradient 2x, the more the more steps, and delens_map does not undo lens_map for any number of steps.
* `C160_halfpixel_refuted`: **C160_halfpixel_refuted.** "delens_map(lens_map(imap, dpos), dpos) = imap for well-behaved fields" is false for the most well-behaved field there is, a displacement by half a pixel everywhere: with linear interpolation a map of alternating columns is lost completely, and with cubic convolution a map with a single bright column does not come back.
* `C154_curved_refuted`: **C154 refuted (large discs).** Discs of more than 90 degrees radius that overlap on both sides have no overlap for disk_overlap_curved: the result is NaN.
* `C154_curved_int_refuted`: **C154 refuted (whole numbers).** With the distance 0 given as an int, small discs do not overlap themselves.
* `C154_airy_refuted`: **C154 refuted (the other side).** Airy beams are symmetric and not negative, but airy is negative at every x below -2, whatever the Bessel function.
* `C154_chord_refuted`: **C154 refuted (more than half a turn).** Beyond half a turn chord2ang gives another angle, and beyond a whole one the chord is negative.
* `C154_deriv_refuted`: **C154 refuted (absolute value).** D of abs is 0 everywhere, also where the derivative is 1.
* `C154_rescale_refuted`: **C154 refuted (constant).** A constant array cannot be rescaled.
* `C81_dh_refuted`: C81 refuted for the Driscoll-Healy grid: a map with the north pole in its first row and the south pole one row past its last is found to be a DH grid, but with the rows shifted by one: the first row of the map would be put before the first ring.
* `C81_equal_area_refuted`: C81 refuted for other cylindrical projections: a full-sky equal-area map (here 3 rows, with lambda = 3/pi, so that the pole is at 60 in the plane and row y is at the latitude whose sine is its coordinate over 60) is taken for the F1 grid and sent to the 2d transform, although the latitude of its first row is not that of the grid's first ring.
* `C82_quad_refuted`: C82 refuted: on a band of the F1 grid with declination decreasing (the order ducc wants, so nothing is flipped) quad_weights returns the weights in reverse: row 0 of the map, which is ring 1 of the grid, gets the weight of ring 2.
* `C82_area_refuted`: C82 refuted for maps that are on none of ducc's grids: the pixel areas are reversed even when the map is not flipped, so on a band with declination decreasing map2alm weights the rows in the wrong order.
* `C82_dh_refuted`: C82 refuted for a Clenshaw-Curtis map without its last ring: it is taken for a DH grid and gets no weights at all.
* `C83_limit_refuted`: C83, refuted: for every table with distinct offsets and a limit that removes its first ring but not its second one, the first ring kept gets the offset of the ring that was removed.
* `C120_repeated_refuted`: C120 fails for polygons with a repeated vertex, as for one closed by repeating the first: the distance is NaN for every point.
* `C11_stride_refuted`: With a stride that does not divide the wrapping length the second turn starts one stride too early, at a negative index.
* `C11_stride_nowrap_refuted`: The same without wrapping, for a strided box that starts before the array.
* `C11_cap_refuted`: A cap larger than the wrapping length makes pieces overlap.
* `C110_split_empty_refuted`: C110: snr_split of no sources raises.
* `C110_split_weak_refuted`: The documented bound on the weakest element of a group does not hold for the values themselves: with the defaults, a source of 1 sigma is in the group of one of 6 sigma.
* `C110_solve_refuted`: C110 fails for a kappa that is not symmetric.
* `C110_numpy2_refuted`: C110 fails with numpy 2, which the package does not exclude: solving for the fluxes raises unless the height of the map equals the number of maps.
* `C184_interior_refuted`: Labelled pixels far from the edge of their region lose their label, so that FinderSimple reports the rim of a large object instead of its peak.
* `C184_ends_refuted`: An object across the ends of a map of the whole sky is found as two.
* `C184_multi_refuted`: FinderMulti gives a weak object beside a strong one the snr of the flank of the strong one.
* `C184_penalty_refuted`: With a penalty that varies, the snr that FinderSimple reports is one of a pixel that is below its own limit.
* `C184_hole_refuted`: The centre of mass is one of squares, so that a negative hole within the radius pulls the position away from the object.
* `C131_reread_refuted`: C131 refuted: reading the same pixel of a small file twice through one proxy gives 1 the first time and 256 the second time, because the bytes are swapped in place in the array kept by the file.
* `C131_resign_refuted`: C131 refuted also where the bytes need no swapping: U changes its sign with every read.
* `C131_pixbox_refuted`: C131 refuted for boxes wider than a turn: the columns read a second time have their bytes the wrong way round.
* `C131_header_refuted`: C131 refuted: for longer headers every keyword that comes after the 36th card only is missing.
* `C131_dtype_refuted`: C131 refuted: bytes have no sign in fits files, but are announced as signed.
* `C93_real_refuted`: C93 fails for real arrays of even length: the alternating array is shifted by half a sample to zero, for every even length; so two half steps are not a whole one, and shifting back does not restore the array.
* `C175_glob_refuted`: Formats without names are not recognized: `map_%d` becomes the pattern `map_%d`, which does not match the output `map_3`; and `%%`, which stands for one percent sign, stays double.
* `C175_glob_slash_refuted`: A value with a slash in it gives a file name that the glob does not match.
* `C175_regex_refuted`: Formats without names are copied as they are: the expression made from `%d` does not match the output `3`.
* `C175_regex_f0_refuted`: The expression made from `%(x).0f` matches only texts with a period, and not the output `3`.
* `C175_regex_g_refuted`: The expression made from `%(x)g` does not match the outputs `1e+20` (there is no period before the exponent) and `-1.5e-07` (the sign belongs to the other branch of the alternative).
* `C175_regex_other_refuted`: `%(x)F` fails instead of giving an expression, and a format without conversions is not escaped: `a.b` also matches `axb`.
* `C44_odd_up_refuted`: C44 fails for every odd smaller length: going up, the coefficient of the highest positive frequency `c/2` is put at the negative frequency `-(c/2+1)`, and its own slot stays zero.
* `C44_odd_down_refuted`: C44 fails for every odd smaller length: going down to an odd length, the slot of the highest positive frequency is filled from the negative frequency `-(c/2+1)`. With c = 1 the mean is replaced by the coefficient of frequency -1.
* `C124_signed_refuted`: C124 refuted for signed resolutions: with a descending box and a negative resolution the map runs upwards from the first corner, away from the second.
* `C124_band_refuted`: C124 refuted: a band is not the declination range (-cut, cut). With pixel edges at the whole degrees a cut of 9 degrees gives the rows from -10 to 8; with pixel centres there a cut of 10 gives the rows from -10 to 9; the whole sky fails an assertion, or lacks the row at the pole.
* `C124_band2_refuted`: C124 refuted for band_geometry2: with its default variant it fails for all arguments; and a single number, which the error message allows, gives no rows.
* `C124_thumb_refuted`: C124 refuted for thumbnails of one pixel with a radius: the step is infinite.
* `C145_corners_refuted`: **C145 refuted (few points).** With `npoint=2` the two corners of a map of the full sky are the same point.
* `C145_contains_refuted`: **C145 refuted (the edge).** In every map, a point a quarter pixel before the centre of the first pixel is in that pixel but not "contained", and a point three quarters of a pixel beyond the centre of the last pixel is in no pixel but "contained".
* `C146_geometry_refuted`: **C146 refuted (geometry from a geometry).** `Geometry(geo)` - "either a Geometry object or a shape, wcs pair" - fails for every object: the check looks at the argument `wcs`, which is absent. With an object and a wcs, the wcs is ignored.
* `C179_fejer1_refuted`: C179: so the default does not have a pixel centre at the ends of the sky in ra, as it should, at any resolution; fullsky_geometry does.
* `C179_shape_refuted`: C179: with the default or "cc", one cannot ask for a shape: whatever is asked for, there are as many columns as rows, but for one, and "cc" also loses a row.
* `C179_wildcard_refuted`: C179: a rule with one free end always raises, for every resolution, along each axis.
* `C179_any_refuted`: C179: so, unless the resolution divides the circle, "any" leaves out a part of the sky: at 7 degrees, ra = 179 is in no column.
* `C179_wrap_refuted`: C179: a box across the end of the full sky in ra loses the part beyond it: of the 20 columns from ra = 190 to 170 there are 10, on one side or the other, depending on the turn.
* `C187_nan_refuted`: **C187_nan_refuted.** A single point that is not a number keeps a line from being cut anywhere, however long its jumps.
* `C187_repeated_refuted`: **C187_repeated_refuted.** A line that stands still for half of its steps is cut at every other step, however short: here a step of one pixel between points that are repeated.
* `C187_latitudes_refuted`: **C187_latitudes_refuted.** For every other step a line is drawn beyond the north pole.
* `C187_longitudes_refuted`: **C187_longitudes_refuted.** The meridians are not drawn once each at equal distances: if the step divides 360 degrees the first one is drawn again at 360 degrees with the same label, and otherwise a line is drawn past the full turn, between two others.
* `C187_labels_refuted`: **C187_labels_refuted.** A step that leaves the last pixel without reaching the coordinate n is labelled at n, which is off the step.
* `C187_twice_refuted`: **C187_twice_refuted.** Labels are not one per crossing: a curve with a point exactly on the edge is labelled twice at the same place, and a step across the whole image once although it crosses two edges.
* `C60_refuted`: C60 fails in general: the running label is multiplied by the number of distinct values of the previous column instead of the current one, so rows (0,"c") and (1,"a") of two columns with 2 and 3 distinct values collide.
* `C55_bunch_refuted`: C55 fails for Bunch.write with a group: everything that was in the file is lost, whatever it was.
* `C56_refuted`: C56 fails for a key containing "/": it comes back as a nested Bunch.
* `C123_same_pixel_refuted`: C123 refuted for several points in one pixel: the later one replaces the earlier one even if that is closer, there and everywhere else. Both methods.
* `C123_cap_refuted`: C123 refuted for the cap: a point farther than `rmax` from the centre of its pixel is recorded with its distance, above `rmax`. Both methods.
* `C71_find_any_refuted`: C71, refuted for an empty request: find_any raises.
* `C71_complement_inds_refuted`: C71 fails for the empty list: complement_inds([], n), which should be all of `0 … n-1`, raises because `np.array([])` is not an array of integers.
* `C71_unmask_refuted`: C71 fails for unmask with the default axis on arrays with further axes: the rows of a two-dimensional array selected by a mask cannot be put back (`axis` only works when it is the last one).
* `C195_unmasked_refuted`: C195, refuted where nothing is masked: the map is returned as it is only if scipy's distances, which have no meaning then, happen to be 1 somewhere. Otherwise every map, whatever its values, becomes zero.
* `C195_layout_refuted`: C195, refuted for maps with two leading axes of more than one component that are swapped in memory, such as `np.swapaxes(map,0,1)`: the filled values are written to a copy and lost, so that every masked pixel keeps its value.
* `C88_zero_refuted`: With the `zero` border, once a cell is outside the grid all further cells are lost, although they may be on the grid. A one-dimensional point at `-1/2` gets zero instead of half the first value; a point between two rows, exactly on the last column, gets half the value.
* `C90_spline3_refuted`: The default cubic spline: the derivative weights of a point do not add up to zero, unless it is half-way between two grid points (or on one), so constant arrays have a non-zero derivative: at every such point, for every border and length.
* `C90_order5_refuted`: Splines of order 5: the derivative is zero for every array and position, although the interpolated values change.
* `C90_integer_refuted`: Cubic convolution at the grid points: the derivative is zero for every array, although the interpolated curve has slope `(d[i+1] - d[i-1])/2` to the right of the point.
* `C90_trans_refuted`: With fewer components than axes (such as one map with two axes) the routine accesses its work array out of bounds, for all values; with two components and two axes the result is wrong.
* `C34_empty_refuted`: C34 fails for arrays with an empty axis: nditer still yields indices although there is no element.
* `C34_repeated_axis_refuted`: C34: the same axis given twice (here 1 and -1) makes the generator run forever.
* `C35_collect_refuted`: C35 fails for collected results: the generator hands out one list object, so `list(count_variable_basis(bases))` is a list of zero vectors, for all bases.
* `C35_empty_refuted`: C35: an empty list among the choices raises instead of giving no combinations.
* `C36_refuted`: C36 fails in general: an escaped escape character disappears, and an empty last token is lost.
* `C37_empty_array_refuted`: C37 fails for an empty index array: it is taken for an ellipsis, so selecting nothing selects everything.
* `C148_contam_refuted`: **C148 refuted (contamination).** The column contam is not the contribution of the other objects of the catalogue relative to the object's own: it is worked out before objects are cut and still counts them. Here one object is left, alone, with a contamination of 6 percent.
* `C148_maxiter_refuted`: **C148 refuted (no pass).** With maxiter = 0 the call fails, for all maps.
* `C148_snrel_refuted`: **C148 refuted (snrel).** The argument snrel has no effect: asking for objects of at least the strongest one's S/N (snrel = 1) gives the same catalogue as asking for any other fraction, whatever the finder does with its own snrel.
* `C149_measurer_refuted`: **C149 refuted (cases that do not occur).** MeasurerMulti picks the measurer by the number of the group, not by the case: a catalogue with only objects of case 1 is measured with the measurer for case 0.
* `C116_contiguous_refuted`: C116: the documentation says that the labels count contiguously from 0. np.isclose compares with the size of its second argument, so that a later entry can take over an earlier one: label 0 is not used here. NaN gets the label -1.
* `C117_partial_block_refuted`: C117 fails for the last block of a length that the width does not divide: samples of the previous block, mirrored, enter its mean.
* `C161_bands_refuted`: **C161_bands_refuted.** A step of one row makes lens_map_curved fail, on a map of any height: the adjusted size of the bands is zero.
* `C161_tiny_refuted`: **C161_tiny_refuted.** "Adjust bsize so we don't get any tiny blocks at the end" is false: 100 rows in steps of 10 rows would be ten equal bands; after the adjustment there are twelve, and the last one has a single row.
* `C161_pol_refuted`: **C161_pol_refuted.** The spin argument of lens_map_curved, for example [0,1,2] for five components, is used for the transform but not for the rotation: with spin=[0,1] a vector field is rotated by twice the angle, and with spin=[0,1,2] the vector components are not rotated at all.
* `C161_rand_refuted`: **C161_rand_refuted.** The coefficient with l=lmax and m=0 is not real, and its real part is too small by √2: the code sets the imaginary part of the first lmax coefficients to zero, but there are lmax+1 of them.
* `C161_seeds_refuted`: **C161_seeds_refuted.** "Separate seeds for cmb and phi" is false for correlated spectra: with the same phi_seed, another seed gives another potential. (The root of the spectrum is symmetric and mixes both.) And with seed equal to phi_seed the noise of the potential and of the first CMB component are the same.
* `C161_flat_refuted`: **C161_flat_refuted.** lens_map_flat returns no map for any input: it asks for the interpolation mode "wrap", which there is not (the border condition has that name).
* `C161_flat_pad_refuted`: **C161_flat_pad_refuted.** The padding of lens_map_flat, which is to make wrapping unnecessary, is one pixel too narrow: on an axis of n pixels (n≥1) a position half a pixel after the last pixel gets none.
* `C105_pole_refuted`: **C105_pole_refuted.** A gradient that leads straight over the pole ends on the wrong side: at every distance from the pole and for every longer gradient (up to half a turn) the longitude is not changed, so that the position is mirrored.
* `C105_lens_rotation_refuted`: **C105_lens_rotation_refuted.** So the polarization is not the parallel-transported one: for every position off the equator and every gradient to the east (shorter than the distance to the pole), pure Q=1 is rotated wrongly.
* `C106_lens_range_refuted`: **C106_lens_range_refuted.** Beyond that range the result of lensing.pole_wrap is not between the poles.
* `C167_krange_refuted`: **C167_krange_refuted.** krange does not give the wavenumbers asked for: the range is swapped but not inverted. For krange=[1,4] all wavenumbers are at most 1.
* `C127_div_grad_refuted`: For an even number of rows it is not: the gradient of the map whose rows alternate is zero, its Laplacian is not.
* `C127_window_refuted`: For a window of twice the pixel size the window is zero at the highest frequency of an even number of rows: a map of alternating rows is lost, and cannot be told from the empty map.
* `C127_oversample_refuted`: The middle pixel of an odd number of pixels is torn apart: for oversample = 2 one half is at the highest frequency and the other half at the lowest, and their mean is next to zero. Two pixels are shifted the wrong way, and one pixel is an error.
* `C172_colon_refuted`: **C172_colon_refuted.** write_map uses the whole name, read_map the part before a colon: a map written under a name with one is looked for in another file.
* `C172_npy_refuted`: **C172_npy_refuted.** read_map reads ".npy" files, but write_map writes a fits file under such a name, which read_map cannot read.
* `C172_gz_refuted`: **C172_gz_refuted.** The geometry of a compressed map under another name ending in ".gz" cannot be read, although the map can.
* `C172_geometry_sel_refuted`: **C172_geometry_sel_refuted.** For a map with a leading dimension the selection of a component, or of some of them, is an error or is applied to the rows; the leading dimension is kept even if it was indexed; and one slice after an ellipsis is an error. All of these work in read_map.
* `C126_stamps_refuted`: C126 refuted for stamps at fractional positions across the edge of the map: they are one pixel short, so that the stamps cannot be joined in one array.
* `C126_overlap_refuted`: C126 refuted for maps that do not go around: a box that reaches the far end of the map by wrapping is kept with everything in between.
* `C126_overlap_argument_refuted`: C126 refuted: a box given as an array is changed by the call.
* `C173_lrmap_refuted`: **C173_lrmap_refuted.** lrmap with oversampling has as many columns as without, and not those of a real transform of the oversampled map.
* `C173_pixshape_refuted`: **C173_pixshape_refuted.** On a map turned by 45 degrees the differences are taken along the diagonal of the pixel: here all pixels have width zero, although their area |∂(dec,ra)/∂(i,j)| is 2.
* `C173_bounds_refuted`: **C173_bounds_refuted.** For other maps two numbers come back in place of four, heights and widths taken together.
* `C173_spline_refuted`: **C173_spline_refuted.** With corner=False the positions disagree: the first pixel should stay where it is, and its value does, but the wcs of the result puts it elsewhere, by 1 - nin/nout input pixels.
* `C164_union_refuted`: **C164_union_refuted.** Maps that meet around the sky are not summed: the union of the ring with the two pixels across its end is five pixels wide; its first and last pixel are the same place (360 degrees apart), where both maps have a pixel, and have the values 1 and 10 instead of 11.
* `C164_insert_wrap_refuted`: **C164_insert_wrap_refuted.** insert ignores its wrap argument: told not to wrap, it still writes the part of a map beyond the edge to the other side; insert_at obeys.
* `C70_zero_refuted`: C70 refuted for radius zero: as distances are never negative, growing by zero gives an empty mask and shrinking by zero a full one.
* `C70_monotone_refuted`: C70 refuted for the default method: adding True pixels to a mask can make the grown mask smaller. On a map with pixels of 45 by 60 degrees, grown by arccos(0.3) = 72.5 degrees: with only the middle pixel True the corner pixel (2,2), 69.3 degrees away, is reached; with two further True pixels it is not.
* `C80_exact_refuted`: C80 refuted for the default method: on the same map, with rmax = arccos(0.3) and the middle pixel and two opposite corners False, the transform at (2,2) is `rmax` although the False middle pixel is closer.
* `C191_product_refuted`: C191 fails for two matrices: matmul does not return `A B`.
* `C191_unsymmetric_refuted`: C191 fails for matmul_sym and a matrix that is not symmetric: it is transposed.
* `C191_order_refuted`: C191 fails for axes given in falling order: with the matrices of three vectors along axes 1 and 0 no product is computed (Fortran is handed arrays that do not fit).
* `C191_broadcast_refuted`: C191 fails for one matrix and several vectors: they are not broadcast, and all products but the first are whatever was in memory.
* `C132_stack_refuted`: C132 refuted for negative powers of stacks with two leading axes: the second of the one-by-one matrices 1 and 1/100 has the inverse 0 with rlim = 1/10, though it is its own largest eigenvalue.
* `C132_solve_refuted`: C132 refuted: the solution is written into the caller's right-hand side: 2 x = 1 leaves 1/2 in it.
* `C132_solve_int_refuted`: C132 refuted: with whole numbers on the right-hand side the solution of 2 x = 1 is 0.
* `C107_area_refuted`: The flux is wrong in a pixel whose area differs from the mean: a pixel of half the mean area makes it four times too large.
* `C109_odd_refuted`: For a beam that is not symmetric the first power is not the profile: only its real-space real part survives.
* `C108_lowcorr_refuted`: C108 fails for correlated noise of varying depth: with a beam of two pixels, inverse variances 1 and 4 and noise only on the larger scale, the flux is 9/10 of the true one.
* `C108_corr_refuted`: C108 fails for the correlated noise model of several maps, even with constant depth, when their beams differ: the off-diagonal elements of kappa are too large by √2 in this case of two maps with two pixels, so that rho is not kappa·F.
* `C53_refuted`: C53 fails: after the workload (10,20) and a reset, the workload (20,20) requests memory in every round for ever, whatever addresses the allocator returns.
* `C204_first_refuted`: C204 refuted: merging changes the first plot. If the bounds that hold all plots begin before those of the first one, what it shows is moved by the difference, whatever it shows, and later merges use it there.
* `C169_grad_refuted`: **C169_grad_refuted.** At the last corner of a two-dimensional mesh ip_grad does not give the sample.
* `C169_outputs_refuted`: **C169_outputs_refuted.** A function whose number of outputs is not a multiple of four cannot be interpolated: build raises at the first test.
* `C169_return_refuted`: **C169_return_refuted.** With return_status but not return_obox the result has three parts on success and four on failure, so that the caller cannot unpack it before knowing the status.
* `C169_accuracy_refuted`: **C169_accuracy_refuted.** "Constructs an interpolator object that has the required accuracy inside the provided bounding box": the function is only looked at in ten points before build stops, whatever it is in between. Here the error is 1, where 1/10 was asked for.
* `C169_recheck_refuted`: **C169_recheck_refuted.** With two inputs build can stop although the interpolator it returns fails the test along the first one: dimensions found good are not tested again after others were refined.
* `C169_obox_refuted`: **C169_obox_refuted.** The box of the outputs does not contain all values found: its upper end is that of the last mesh only. Here the function was 1 at a point of the mesh returned, but the box ends at 6/7.
* `C136_send_refuted`: C136 refuted for arrays with the first axis fastest in memory, such as a transposed matrix: the elements arrive in other places.
* `C136_gaps_refuted`: C136 refuted for arrays with gaps, such as every other column: the sender raises, and the receiver, which has been told to expect the array, waits for ever; an array that is sent afterwards does not arrive either.
* `C136_any_refuted`: C136 refuted for receiving from any task: with two tasks that have each sent an array, the data may be looked for in the messages of the other one, where the shape comes first, and the call fails.
* `C136_allgather_refuted`: C136 refuted for allgather of arrays with the first axis fastest.
* `C136_gatherv_refuted`: C136 refuted for the last of several axes, even with a single task: [[0,1],[2,3]] gathered along the columns is transposed.
* `C136_gatherv_hang_refuted`: C136 refuted for arrays that are empty along another axis: the task with such an array raises as soon as another task has data, and the other tasks wait for it.
* `C136_fake_refuted`: C136 refuted for the communicator that stands in for a single task: gathering raises for every array that is not empty.
* `C177_empty_refuted`: C177: a multimap without maps cannot be made.
* `C177_negative_refuted`: C177: a negative position is not counted from the end. If all maps have the same shape, `maps[-k]` is for k ≥ 2 the map after the one meant, for every number of maps: `maps[-2]` is the last one.
* `C177_full_refuted`: C177: with several components, full raises as soon as one map has another number of columns than there are components, for every value, also a single number.
* `C177_full_columns_refuted`: C177: and if the numbers agree, column x of every component gets the value that was given for component x.
* `C177_methods_refuted`: C177: the methods lmap and modlmap of a multimap raise, whatever its maps; and so does pixmap if there are any.
* `C177_arguments_refuted`: C177: posmap(safe=False) gives the safe positions, and modrmap(corner=True) the distances of the centres: for any two different answers of the function for a single map, the multimap gives the wrong one.
* `C64_negative_refuted`: Negative positions, which lists accept, fail: the last map (if it has any pixels) cannot be read as `maps[-1]`.
* `C180_zero_refuted`: **C180_zero_refuted.** nufft of samples that are all zero is not zero but not-a-number, for all points and any epsilon: so are the coefficients of each component that is zero.
* `C180_complex_refuted`: **C180_complex_refuted.** interpol_nufft with its default complex=False drops the imaginary part of a complex array.
* `C180_axes_refuted`: **C180_axes_refuted.** With the axes given in another order, the coordinates are not taken in that order: inds[0] is still used along the first axis of the array.
* `C180_periodicity_refuted`: **C180_periodicity_refuted.** With a periodicity other than the lengths of the array, interpolation does not give the samples back.
* `C180_precision_refuted`: **C180_precision_refuted.** The precision is not that of the data: double-precision coefficients evaluated at single-precision positions are first rounded to single precision, and single-precision ones at double-precision positions are handled in double precision. The data has no influence on the precision at all.
* `C180_npre_refuted`: **C180_npre_refuted.** A negative `npre` counts from the end in the class (`npre % arr.ndim`) and for splines, but Fourier interpolation fails for every one.
* `C32_below_refuted`: C32 as documented fails for direction "below" (the default): 9 = 3·3 is a product of 2s and 3s not exceeding 10 but the result is 8; and `fft_len(5)` is 4 although 5 itself is an allowed length.
* `C38_format_refuted`: C38 fails for the formatted form of angles smaller than a degree: minus half a degree is printed as plus half a degree.
* `C186_stack_refuted`: **C186_stack_refuted.** The temperature of a second map in a stack is not modulated like that of the first: it is short of f·(A-1)²·T0 and of the dipole (A-1)·T0.
* `C186_tiny_refuted`: **C186_tiny_refuted.** Polarization has no preferred sign, but with tiny=True the modulation of -Q is not minus that of Q.
* `C186_stack_rotate_refuted`: **C186_stack_rotate_refuted.** For a stack of maps the two differ although Aberrator.boost is documented as equivalent to boost_map: boost_map fails for a stack of one or two maps, and for more it mixes the second and third map of the stack, the temperatures included, where Aberrator mixes Q and U of each map.
* `C186_pol_refuted`: **C186_pol_refuted.** aberrate does not rotate the polarization: U is computed from the Q already rotated, so it is wrong whenever the rotation changes Q; of pure Q the fraction sin⁴ of the squared intensity is lost.
* `C186_distortion_refuted`: **C186_distortion_refuted.** distortion should be the change of the local scale by remap, which reads the map at aber_angle(theta,-beta); it has the wrong sign of the speed, and agrees only without a boost or at right angles to it.
* `C186_amplitude_refuted`: **C186_amplitude_refuted.** remap reads the map at the right place, but its amplitude is computed from the angle in the rest frame instead of the observed one: it is the Doppler factor only at the poles or without a boost.
* `C122_order_refuted`: C122 refuted: with a push between pops, a higher value (4) comes out before a lower one (3) that was in the queue all the time: 1, 2, 3, 4 in, 1 out, 5 in, 2 out, 4 out, 3 out, 5 out.
* `C24_large_pad_refuted`: The condition on the padding is needed: with padding as large as the tile the weights add up to 27/25.
* `C202_parts_refuted`: C202 refuted for paths that lead to the root, and for all that begin with exactly two slashes: there is a part without a name.
* `C125_area_refuted`: C125 refuted for a map beyond the pole, in a projection whose declinations go on there: its area is not zero.
* `C125_area_nan_refuted`: C125 refuted for a map whose southern edge has no declination because it is beyond the pole: the area is that of the rest of the sphere to the north of the map.
* `C125_pixel_refuted`: C125 refuted: a row beyond the pole has no size, not size zero.
* `C125_extent_refuted`: C125 refuted for the extent of a map whose upper edge is missing because it is beyond the pole: the height is that of the rest of the sphere to the south of the map, and negative.
* `C125_contour_refuted`: C125 refuted for one sample per side: the area is zero.
* `C16_periodic_half_refuted`: It fails from 100000 pixels on: the comparison `np.allclose(ra2-ra1, w)` has a relative tolerance of 1e-5, so a pixel that is not a duplicate is dropped.
* `C16_adjust_refuted`: With `adjust` and half-pixel offsets the pixels are not centred on the interval: the new extent is computed with `o1+o2` instead of `o1-o2`.
* `C16_pixelization_refuted`: The default full-sky CAR variant drops the duplicated column, but `crpix` is computed as if it were still there: every pixel is half a pixel from where pixelize_1d put it.
* `C16_pixelization_shape_refuted`: When a shape is given, the number of columns is taken from the number of rows.
* `C192_rgb_refuted`: C192 fails with rgb and six or more components: the second image, of components 3 to 5, has the colour ranges of components 1 to 3.
* `C192_symmetric_refuted`: C192 fails with symmetric: the image of component (1,1) of a matrix of at least two maps has the colour range of the component (1,0), which is the one before.
* `C192_maps_refuted`: C192 fails for several maps: slices of one file, files that differ in the extension, and, with a common output directory, files of different directories get the same names, so that written images replace each other.
* `C192_toggle_refuted`: C192 fails for `-g`, which is to toggle the grid: in one text it leaves the grid on, given twice it removes it, and in two texts it leaves it on.
* `C196_sub_refuted`: C196, refuted for parts of maps: right ascension, stored as usual from high to low, increases to the right in the plot of any box `ra1:ra2` with `ra1 < ra2`, also if the ends are left out (-180 and 180 degrees): plotting the part of the map with everything in it gives its mirror image.
* `C196_rgb_mask_refuted`: C196, refuted for several colour images from one map: a pixel that has the mask's value in all three components of the first image is not masked in it if any component of another image has a different value there.
* `C196_infinite_refuted`: C196, refuted for infinite masks: masking minus infinity masks nothing, and masking infinity masks minus infinity too.
* `C171_quantile_refuted`: C171 (quantiles, refuted). Quantiles below one half can give reversed limits, and the median of three values too; an explicit minimum can be above the maximum found or equal to it, so that colors divide by zero; and a map without finite values ignores the minimum given.
* `C171_tiles_refuted`: C171 (tiling, refuted). No maps at all, or a given number of rows of zero, divide by zero; with too little room tiling raises.
* `C171_name_refuted`: C171 (names, refuted). The parts are documented to give the name back. A name without extension, one with only `.gz` and one in the root directory do not: what comes back is another file.
* `C171_prune_refuted`: C171 (curves, refuted). "Remove segments that contain NaN or where both points are outside": the points are removed and what is left is one curve, so that a line is drawn across the gap that is in no part of the curve: here from one side of the map to the other, over a point that could not be computed, and between two far away points whose own lines never meet the map.
* `C203_middle_refuted`: C203 refuted for stamps with a middle pixel: a source in the middle of a pixel is not in that of the stamp but in the next one if the parity of its pixel is wrong; a stamp of one pixel is then not that of the source.
* `C119_level_refuted`: C119 fails when a vertex is level with the point: the centre of a diamond is declared outside, a point far from it inside.
* `C139_distribute_refuted`: C139 fails: a cell can have more than nmax things, for every nmax with nmax+1 a multiple of 3; and for nmax=0 there is a division by zero.
* `C47_combined_refuted`: C47 fails with `combined=True`: for every symmetric matrix the round trip doubles all off-diagonal elements (the halved value computed by sym_expand is not used).
* `C47_empty_refuted`: A matrix of size zero is compressed to an empty list, which cannot be expanded (np.max of nothing raises).
* `C156_round_refuted`: C156, round trip, fails on the whole sphere: profile2harm leaves out the last radius, the other pole, and coefficient `l` is off by the weight of the pole times the profile there times `(-1)^l`.
* `C156_last_refuted`: C156, the last sample, is never used on such a grid: profiles that differ only there have the same harmonics.
* `C129_lost_refuted`: But not every pixel is counted: in all maps at least the pixel farthest from the centre is in no bin, and there is no bin at all if all pixels are closer than one bin width.
* `C137_scales_refuted`: C137 refuted for several components: with the same numbers and a larger lmax the second component is made of other numbers, for all values of lmax. Here two uncorrelated components with constant spectrum, and the coefficient (0,0).
* `C137_single_refuted`: C137 refuted in single precision where the spectrum goes beyond lmax: lmax is 1 and the spectrum has three values, with roots s0, s1 and s2. The coefficient (1,1) is scaled twice: by s1/√2 and by s2/√2.
* `C157_between_refuted`: C157: between whole lengths this is false: the roots are interpolated, and the power of the interpolated roots is lower.
* `C25_sub_refuted`: An empty range in `a` upsets the bookkeeping: the result contains points outside `a`.
* `C104_redistribute_refuted`: **C104_redistribute_refuted.** With several input and several output boxes the sender and the receiver go through the pairs of boxes in different orders, and values end up in wrong places: turning the columns of [[0,1],[10,11]] into rows gives [0,10] and [1,11].
* `C104_wrap_refuted`: **C104_wrap_refuted.** With wrapping, asking for the columns 2:6 of a sky of four columns raises an exception: the wrapped intersection is divided by the output box without taking the wrapping into account.
* `C199_union_refuted`: C199 refuted for one array: if it is not in rising order, or has a value twice, neither is mended; no arrays raise.
* `C199_interp_refuted`: C199 refuted for tables of whole numbers: between two neighbours that differ by one the result is the lower one all along, although the line is not.
* `C199_maskmed_refuted`: C199 refuted for NaN as the mask value: nothing is ignored, and one NaN makes the result NaN, whatever else there is.
* `C199_ref_refuted`: C199 refuted: if the positive values are all equal the reference level is not that value but the default, as if there were none.
* `C166_fix_refuted`: **C166_fix_refuted.** fix_wcs can leave the reference point more than half a sky from a pixel of the map, which it is there to prevent: it takes the first pixel to be pixel 0, but reference pixels count from 1. The reference point of this map of the whole sky is at pixel 179, and the last of the 360 pixels is at 181°.
* `C166_cdelt_refuted`: **C166_cdelt_refuted.** A rotation is dropped without notice; one by 90° leaves steps of zero, so that all pixels have the same position.
* `C166_tan_refuted`: **C166_tan_refuted.** The full-sky geometry of tan does not go down to 0.158° above the horizon, as its comment says: a direction 10° above the horizon is outside the map.
* `C138_scalar_refuted`: C138 fails: healpix2map raises an IndexError for every map with an axis of components that all have spin zero, as with spin=[0], as soon as a rotation is asked for; map2healpix handles the same case.
* `C138_out_refuted`: C138 fails: map2healpix with method="spline" raises an error when the output array is passed and nside is not.
* `C138_nside_refuted`: C138 fails: with mode="mul32" and nside below 9.24 the value is cut off instead of rounded up, so that the output is coarser than the map.
* `C181_row_refuted`: **C181_row_refuted.** For a complex array of two axes resampled along the last one the imaginary part is lost.
* `C181_one_refuted`: **C181_one_refuted.** A single sample resampled to four is not constant but 1, 0, -1, 0: the mean is put at frequency -1.
* `C181_odd_refuted`: **C181_odd_refuted.** One period of a cosine over three samples resampled to six is not a cosine: the second sample is 0 instead of cos(60°) = 1/2.
* `C181_real_refuted`: **C181_real_refuted.** For real arrays the same round trip loses data: 1, -1 resampled to four samples and back is 1/2, … .
* `C181_axes_refuted`: **C181_axes_refuted.** resample_fft asked to resample the first of two axes to the length of the second does nothing.
* `C181_axis_number_refuted`: **C181_axis_number_refuted.** The example of the documentation of fft.resample, resample(a, 10, -1), raises, as does any call with a single number as axis; the other example, with a tuple, gives the documented shape.
* `C181_bin_refuted`: **C181_bin_refuted.** Halving the first axis and doubling the second one by bins does nothing to the shape, because the steps are given to the axes in opposite orders; with the axes given it works. The factor 3/4 does nothing, and 3/2 doubles.
* `C181_factor_refuted`: **C181_factor_refuted.** For long arrays this is a difference: 200000 samples resampled by 1.000005 should be 200001.
* `C181_equispaced_refuted`: **C181_equispaced_refuted.** make_equispaced never gives a result: it calls interpol with a keyword it does not have.
* `C193_threads_refuted`: C193 fails for the number of threads: a number given by the caller is ignored wherever OMP_NUM_THREADS is set.
* `C12_slice_empty_refuted`: For the empty box obtained by flipping `[0,0,1]` it selects the whole array instead.
* `C12_mul_refuted`: If the first box runs backwards, the second one is applied to the wrong end.
* `C201_found_refuted`: C201 refuted for a replacement equal to the pattern: replace raises "Pattern not found" although it is there.
* `C185_astype_refuted`: Shifting a converted map in place moves the sky positions of the map it was made of, whose pixels stay.
* `C185_wrap_refuted`: Shifting a map in place moves the pixels but not the sky positions of another map of the same pixels.
* `C185_window_refuted`: Shifting a window in place shifts pixels in the map it is part of, whose sky positions stay.
* `C185_number_refuted`: Shifting by a single number shifts the pixels along x and the sky positions along both axes.
* `C205_zero_refuted`: C205 refuted for the limit 0: it raises for every table that has rows, instead of printing dots.
* `C205_word_refuted`: C205 refuted for queries whose limit is written in another way: they raise, because a second limit is added.
* `C62_refuted`: C62 is false whenever the block size divides ny - 1: the last row is left out although all its positions are finite, and is reported as masked. In particular for a map of a single row and for the default block size and 1001 rows.
* `C140_deriv_adjoint_refuted`: C140 refuted, derivatives: alm2map_adjoint with deriv is not the adjoint of alm2map with deriv, although ducc's transforms are adjoint to each other.
* `C140_deriv_map_refuted`: C140 refuted, derivatives: alm2map_adjoint with deriv changes the map it should only read.
* `C140_decflip_refuted`: C140 refuted, derivatives in map2alm: no entry of the array given to the transform is the map with the sign of its first component alone changed.
* `C140_niter_refuted`: C140 refuted, iterations: with the general method map2alm does not do the number of Jacobi iterations asked for.
* `C140_layout_refuted`: C140 refuted, layouts: for the rectangular layout the general method of alm2map reads other coefficients than those of the layout, and so do all methods for a layout with a stride other than 1.
* `C140_band_refuted`: C140 refuted, band limit: coefficients beyond the band limit of the grid keep what was in the array before.
* `C02_refuted`: A negative start below `-n` is not clamped: `slice(-7,2)` of a length-5 axis selects `[0,1]` in Python, but `expand_slice` yields `slice(-2,2)`, i.e. also pixels -2 and -1.
* `C02_refuted_negative_step`: With a negative step a start beyond the end is not clamped to the last pixel either.
* `C01_empty_slice_refuted`: ... but when nothing is selected the length can be *negative* instead of zero: slicing a length-5 geometry with `5:3` gives length -2.
* `C40_alias_refuted`: C40 fails for a preconditioner that returns its argument, such as `M = lambda x: x`: direction and residual are then one array, the first update of the residual overwrites the direction, the second direction is not conjugate to the first, and the 2×2 system that takes two steps with the default preconditioner is not solved after two.
* `C147_scale_refuted`: **C147 refuted (given multipoles).** With `l` given and not starting at 0, as for a spectrum from l = 2 on, the first multipole is set to zero.
* `C147_monopole_refuted`: **C147 refuted (monopole).** With the default options the value at l = 0 is not written: whatever it was, it is read back as zero.
* `C147_single_refuted`: **C147 refuted (one multipole).** A spectrum with a single multipole is written to a file of one line, which cannot be read back: the line is taken for one row.
* `C147_camb_refuted`: **C147 refuted (expand=False).** `read_camb_scalar(fname, expand=False)` fails for every file.
* `C158_defined_refuted`: C158: false with the default weights for the spectrum of only a monopole, and at the monopole for a step of width one.
* `C158_flat_refuted`: C158: maps of one row or one column raise an IndexError, although their modes have lengths.
* `C158_corr_refuted`: C158: false for an odd number of columns: uncorrelated pixels get power -1/2 at the first mode of three.
* `C89_nearest_refuted`: With the `nearest` border the filter does not match the continuation of the coefficients, and the cubic spline misses the data at the edge.
* `C89_zero_refuted`: With the `zero` border too.
* `C89_reflect_refuted`: `border="reflect"` is accepted by `map_coordinates` as another name of `mirror`, but in spline mode the prefilter does not know it.
* `C118_quotes_refuted`: C118 fails for groups that open and close with the same character, as quotes: they never close.
* `C27_greedy_split_refuted`: C27 fails for greedy_split as it is called by default: with `costfun=max` and `nowork=None` every call with at least two groups and some data raises (Python 3 cannot compare `None` with a number).
* `C134_box_refuted`: C134. The claim fails where the rows beyond the radius are not in the map: the size of the pixels is then measured in the last row. An object 30° from the pole in the last row, with a radius of 60°: the pixel on the other side of the pole, 60° away, is not in the box.
* `C134_single_refuted`: C134. For maps of a single row or column the size of the pixels is read from memory outside the coordinates of the map.
* `C141_twice_refuted`: **C141 refuted (counted twice).** On a map whose cells are wider than a third of a turn, which happens to every full-sky map for beams that reach further than about ten pixels since the cells are made as wide as the narrowest pixel looked at near the poles asks for, a source is listed twice in the same cell, and painted there with twice its amplitude: 12 columns are one turn, the cells have 5 columns, and the source in column 2 is listed twice for the cell of columns 5 to 9 (with the padding: column 7, cell of columns 10 to 14). A pixel there that should get 1 gets 2.
* `C141_empty_refuted`: **C141 refuted (empty area).** A box without extent along either axis does not give an empty grid: the call fails, whatever the sources.
* `C141_small_refuted`: **C141 refuted (small maps).** `sim_srcs(method="python")` fails on every map with at most ten rows or at most ten columns, whatever the sources: the pixels looked at to find the smallest one, `5:-5:10`, are none.
* `C141_reach_refuted`: **C141 refuted (reach).** The beam is not painted out to `rmax`: the radius in pixels is rounded, and a pixel that is nearer than `rmax` but in a cell that the rounded radius does not touch gets nothing, while the pixel on the other side, at the same distance, is painted. Pixels of size 1, `rmax` 1.4, a source in column 5.4 and row 5: column 4 (at distance 1.4) is painted and column 7 of the mirror image (source in column 5.6, distance 1.4) is not.
* `C141_amps_refuted`: **C141 refuted (components).** A catalogue with one amplitude per source and a map of three components: method "c" paints the first component only, method "python" adds the same amplitude to all three; with two amplitudes method "python" fails.
* `C142_mutual_refuted`: **C142 refuted (mutual matches, shape).** "Each source in one catalog is associated with the closest source in the other": two sources of the first catalogue can get the same source of the second, though for that one only one of them is the nearest. And when nothing matches, the result has shape (0,), not (0,2).
* `C135_transpose_refuted`: C135. The transposed operation loses its work space on every call: whatever the limit, there is a history of successful calls for the same arguments after which more blocks than that are live.
* `C135_error_refuted`: C135. A call that ends with an exception loses the pointers it has collected.
* `C86_equi_refuted`: **C86 refuted (equal spacing).** The fast lookup compares the distance with the number of samples instead of the last sample, so a profile with three samples 2 apart is cut at distance 3: there the search gives 1 and the fast lookup 0.
* `C86_is_equi_refuted`: **C86 refuted (recognising equal spacing).** Samples at `0, 1, 3/2, 3` pass the test for equal spacing, which only looks at the second and the last one, and the profile is then evaluated at the wrong place.
* `C86_tail_refuted`: **C86 refuted (everything above the cutoff is painted).** The extent ends at the last sample above the cutoff, although the profile is still above it for a while: with samples 1, 1, 0 at 0, 1, 2 and a cutoff of one half the extent is 1, and at 5/4 the profile is 3/4.
* `C86_table_refuted`: **C86 refuted (the extent depends on the length of the catalogue).** The table holds the index of the last relevant sample where the code expects the index after it. For samples 1, 1/10, 0 and a cutoff of 1/10 a short catalogue paints the object to the second sample and a long one only to the first.
* `C86_bounds_refuted`: **C86 refuted (memory safety).** If the profile falls by more than ten from its first to its second sample, a faint object in a long catalogue makes the code read the element before the array of distances.
* `C87_last_refuted`: **C87 refuted (the last bin).** With bin edges that are not equally spaced the last bin stays as it was, whatever is in the map: the search is told that there is one edge fewer.
* `C85_around_refuted`: **C85 refuted (around the sky).** On a map 10 pixels wide with cells of 8, an object in column 9 whose box reaches 2 columns to the right, and so covers columns 0 and 1 around the sky, is not painted there.
* `C85_op_refuted`: **C85 refuted (the operation).** `pointsrcs.sim_objects(..., op="max")` does not return the maximum: the operation asked for is dropped and the contributions are added. One object of amplitude 1 on a map that is 2 everywhere gives 3.
* `C111_nearest_refuted`: C111 fails for a sorted array of one element: the index is -1.
* `C111_nearest_empty_refuted`: C111: an empty array raises.
* `C111_dedup_empty_refuted`: C111: dedup of an empty array raises.
* `C112_medmean_refuted`: C112 fails when fewer than two elements are to be cut: nothing is left, and the mean is NaN.
* `C112_zero_weight_refuted`: C112 fails for masked elements: one with weight zero determines the median.
* `C112_order_refuted`: C112 fails for repeated values: the quantile depends on the order in which they are given.
* `C59_refuted`: C59 fails for the key "_dict": deleting it from a Bunch that does not contain it raises nothing and destroys the Bunch, losing all its contents.
* `C57_refuted`: C57 fails for a dictionary that is empty at the start: it stays empty, and every call computes.
* `C58_refuted`: C58 fails for a matrix and its transpose, which start at the same address: the second spectrum of ((M,M),(M,Mᵀ)) comes out as the first.
* `C54_refuted`: C54 fails when reads work on views of data kept in memory: the second read of a pixel applies the sign and the byte order once more, so it differs from the first whenever this changes the pixel.
* `C84_reversed_refuted`: C84, refuted for boxes given against the direction of the pixels: the box with the same ends, which should select the same pixels in reverse order, selects the pixels one further along, for every such box on every map.
* `C84_inclusive_refuted`: C84, refuted for mode inclusive: a box from the middle of pixel 0 to 0.7 pixels past the middle of pixel 3 reaches into pixel 4, which is not selected.
* `C84_exclusive_refuted`: C84, refuted for mode exclusive: a box that starts inside pixel 1 selects pixel 1.
* `C151_constant_refuted`: **C151 refuted (no movement).** A scan that stands still is not one sweep: the call fails, for every tolerance.
* `C151_order_refuted`: **C151 refuted (order of the edges).** For centres in increasing order the edges need not be: for 0, 1, 2, 10, 11 the last bin goes from 17.5 down to 4.5.
* `C182_object_refuted`: **C182_object_refuted.** With a single time, like the default one, a system like cel:Moon/0_0 cannot be used, for any object, position and base: the two points have arrays of different shapes.
* `C182_times_refuted`: **C182_times_refuted.** With times in an array of two axes, no position can be transformed to a system with a reference position, for all lengths of at least two and one. Other systems have no such restriction.
* `C182_case_refuted`: **C182_case_refuted.** Names of systems can be written in any case, but Sidelobe is unknown although sidelobe is not.
* `C182_horizon_refuted`: **C182_horizon_refuted.** No position can be transformed between a system fixed to the ground and one fixed to the sky, in either direction.
* `C182_step_refuted`: **C182_step_refuted.** They are not at most dt apart, as documented: for every dt there are times for which they are 1.95 dt apart.
* `C182_single_refuted`: **C182_single_refuted.** The position at a single time is not-a-number.
* `C182_track_refuted`: **C182_track_refuted.** An object that crosses the end of the range of longitudes is lost: with any continuous interpolation there is a time at which it is reported at longitude 0 although it is never further than three degrees from longitude 180.
* `C194_whole_refuted`: C194 fails if the first value of a key is a whole number: later numbers lose their fractions.
* `C194_text_refuted`: C194 fails for texts: later ones are cut to the length of the first.
* `C194_keys_refuted`: C194 fails for bunches with different keys: keys that the first lacks are dropped, keys that another lacks raise; and for no bunches.
* `C194_row_refuted`: C194 fails for a table with one row joined to a longer one: it is repeated for every row, without an error; and for a column that two tables have.
* `C194_readonly_refuted`: C194 fails for views that are not for writing: if numpy flattens without a copy, what is written to the flattened array is written to the array all the same; otherwise it is not.
* `C165_margin_refuted`: **C165_margin_refuted.** Up to the radius itself the apodization is not outside: with square pixels of size one, radius 1 and apodization 3/5 around 1/5, the place at distance 1 is interpolated from a pixel inside the apodization.
* `C165_pixels_refuted`: **C165_pixels_refuted.** With pixels that are not square even the center of a thumbnail is apodized, or the call fails: the width of the apodization is counted in the smaller pixels along both axes. Radius 5, apodization 2 and pixels of 1/2 by 4: along x the part has 5 pixels and the apodization 4, more than half. With pixels of 1/4 by 4 the apodization is wider than the part and apod raises an exception.
* `C152_negative_refuted`: **C152 refuted (negative indices).** `tile_geom.tiles[-1]` is not the geometry of the last tile: whenever the map is at least one tile high, it has no rows or a negative number of them.
* `C152_active_refuted`: **C152 refuted (negative indices of active tiles).** `active_tiles[-1]` is not the last active tile: negative indices fail, for every map.
* `C152_slice_refuted`: **C152 refuted (slices of the pixel axis).** A slice of the last axis is not a plain array: it still has tiles, which are not those of the map. If the first two active tiles have as many pixels, then the map without the first of them gives the data of the second under the number of the first.
* `C152_alias_refuted`: **C152 refuted (the result is the inserted map).** If both maps have the same active tiles, writing to the result of insert writes to imap, for all maps and values.
* `C152_compatible_refuted`: **C152 refuted (compatible maps of different places).** Geometries whose pixels are at different places are reported as strictly compatible.
* `C152_mul_refuted`: **C152 refuted (product of different tiles).** With different active tiles map_mul neither fails nor multiplies tile by tile: for a matrix that has tile 0 and a vector that has tile 1 the product has tile 0, made of tile 0 of the matrix and tile 1 of the vector.
* `C22_mul_refuted`: The general claim fails: a product keeps the left factor in tiles the right factor lacks, where the dense product is zero.
* `C79_empty_refuted`: An empty map asked for one tile stays empty (numpy broadcasting of the comparison).
* `C79_modern_refuted`: Current numpy cannot compare the lists at all when their lengths differ (and neither is one).
* `C23_order_refuted`: Without the order condition the data of different tiles is mixed up: a single rank with tiles listed as 1, 0 gets tile 1's data in tile 0.
* `C200_clock_refuted`: C200 refuted for shown blocks with a clock: the time is that of the standard clock, not of the one given, whenever they differ.
* `C200_total_refuted`: C200 refuted for blocks inside blocks of the same name, as in recursive functions: time is counted once for each level, so that the total is more than the time that has passed.
* `C168_shape_refuted`: **C168_shape_refuted.** "Returns an array with the same shape as the input" fails once pol or mag is given: from four rows pol=True keeps three and loses the magnification; from position, angle and magnification mag=True loses the angle; and a third row is not taken for a magnification, which is then replaced instead of multiplied.
* `C133_write_refuted`: C133 refuted: one task with the tiles 1 and 0, in this order, of a map of one row and two columns with the values 10 and 20 writes the map with 20 and 10.
* `C159_round_refuted`: C159: on maps of odd size it does not: next to the centre of a row of three pixels half of the profile is missing.
* `C159_rprof_refuted`: C159: nor is the transform at the origin the sum of the profile over the pixels around the centre.
* `C159_auto_refuted`: C159: for maps with pixels centred on the poles, such as the usual full-sky geometry, whose corners lie beyond the poles, the flat sky is chosen whatever distortion is allowed, although the poles have a scale of zero.
* `C159_hrand_refuted`: C159: it has not, unless the pixels have area 1: for every size of map and white noise of any level.
* `C159_scalar_refuted`: C159: for a profile given as an array of modes only, the squared factors of the modes are not the profile over the pixel area, for any array with two or more rows and values above zero: the array itself was taken for a matrix.
* `C162_shift_refuted`: C162, refuted as stated: a wave that only the first scale responds to, with full response, does not come back in place. It is moved to the right by half of (the pixel of each later scale minus the pixel of the map), summed over the later scales.
* `C162_ls_refuted`: C162, refuted: for every scale with fewer columns than the map, the multipole it uses for the lowest wave along the rows is smaller than the true one.
* `C162_response_refuted`: C162, refuted: two scales whose filters satisfy f0² + f1² = 1 as functions of the multipole, the first with a smaller map, do not give the map back: cos(2πkx/n) is multiplied by f0(l')² + 1 - f0(l)², where l is the multipole of the wave and l' the reduced one.
* `C162_half_pixel_refuted`: The longest wave of the row of 16 pixels comes back moved by half a pixel, although the responses add up to one.
* `C162_double_refuted`: A row of 8 pixels, its multipoles |k|, a first scale of 6 pixels that passes multipoles below 1, and a second that passes the rest: the longest wave comes back doubled.
* `C176_one_scale_refuted`: C176: with a single scale the basis passes everything, but the variance basis removes the low multipoles: at multipole 0 its filter is 0 where that of the basis is 1.
* `C176_trim_refuted`: C176: the variance basis of the trimmed basis is that of the untrimmed one. Its first scale has power at every multipole, also at those from trimCut on where the filter of the trimmed basis is zero.
* `C176_bounds_refuted`: C176: a basis with a lower bound only is fine and waits for the upper one, but its variance basis cannot be made.
* `C176_ores_refuted`: C176: the argument ores cannot be used: every value raises.
* `C176_geometry_refuted`: C176: the geometry that the documentation asks the output map of wave2map to have is never the geometry of the transform: its second part is the shape again and not the coordinate system.
* `C176_fill_refuted`: C176: in flat mode every fill value is replaced by NaN.
* `C91_butter_refuted`: C91 fails for the untrimmed Butterworth basis with cut-offs: at every multipole above the first cut-off some power is lost (only for the trimmed one nothing is lost).
* `C91_needlet_refuted`: C91 fails for cosine needlets at the largest multipole: for every list of increasing peaks all filters vanish at lmax = lpeaks[-1], so this multipole is removed from every map (likewise everything below the first peak).
* `C14_refuted`: Projecting a 10-pixel map to 5 pixels with the same WCS returns 10 pixels.
* `C15_fix_wcs_refuted`: It fails for `crval = 90`: all pixels move by 90 degrees.

## Axioms of each theorem

As printed by `#print axioms` for the theorems named in MANIFEST.json.

* propext, Classical.choice, Quot.sound: C01_area, C01_empty_slice_refuted, C01_length, C01_stride_offset, C01_unit_step, C02_expand_slice_partial, C02_zero_step, C03_compose, C03_compose_numpy, C03_flip_flip, C04_crop, C04_crop_geometry, C04_sky, C04_wrap_partial, C04_wrap_refuted, C04_wrap_zero_upper_fails, C05_compose, C05_inverse, C05_shift, C06_centers, C06_compose, C06_edges, C06_extent, C06_inverse, C07_downgrade, C07_flux, C07_geometry, C07_geometry_agrees, C07_geometry_roundtrip, C07_roundtrip, C07_roundtrip_offset, C07_too_small, C08_extract, C08_extract_fill, C09_insert, C09_insert_extract, C09_noOverlap, C09_roundtrip, C100_boost_compose, C100_boost_inverse, C100_order, C100_solid_angle, C101_dplanck, C101_linear_units, C101_modulate_partial, C101_modulate_refuted, C101_plain, C101_planck_inverse, C102_aberration, C102_complex, C102_group, C103_rewind, C103_rewind_refuted, C103_ydouble, C103_ydouble_refuted, C104_redistribute_partial, C105_declination_partial, C105_lens_rotation, C105_lens_rotation_refuted, C105_offset_partial, C105_pole_refuted, C105_rotation, C106_flat_offset, C106_kappa, C106_lens_pole_wrap, C106_lens_range_refuted, C106_pole_wrap, C107_area_refuted, C107_flux, C107_optimal, C107_peak, C107_variance, C108_corr_partial, C108_corr_refuted, C108_dual, C108_high_acc, C108_lowcorr_partial, C108_lowcorr_refuted, C108_multi, C108_smooth_partial, C108_white, C109_first, C109_odd_refuted, C109_square, C10_empty, C10_intersect, C110_best, C110_fluxes, C110_sanitize, C110_solve, C110_solve_refuted, C110_split, C110_split_empty_refuted, C110_split_weak_refuted, C111_dedup, C111_nearest, C111_nearest_empty_refuted, C111_nearest_refuted, C111_nearest_sorted, C112_bounds, C112_median, C112_medmean_partial, C112_medmean_refuted, C112_monotone, C112_order_refuted, C112_scale, C112_zero_weight_refuted, C113_bounding_boxes_partial, C113_bounding_points, C113_contour_corners, C113_contour_on_edge, C113_contour_refuted, C113_corners, C113_overlap_ndim_refuted, C113_overlap_partial, C113_overlap_refuted, C113_overlap_symm_partial, C113_pad_partial, C113_pad_refuted, C113_pad_twice, C113_widen_partial, C113_widen_refuted, C114_full_circle_refuted, C114_unwrap, C115_broadcast, C115_comm, C115_pad_place, C116_contiguous_refuted, C116_exact, C116_label, C116_tolerance, C117_block, C117_extreme, C117_idempotent, C117_partial_block_refuted, C118_join, C118_plain, C118_quotes_refuted, C118_split, C119_cut, C119_level_refuted, C119_rectangle, C119_reverse, C119_rotate, C119_translate, C119_triangle_partial, C11_pieces, C11_wrap_partial, C120_edge, C120_poly_partial, C120_repeated_refuted, C121_edges, C121_edges_labeled, C121_isqrt, C121_neighs, C121_ravel, C121_rows, C121_symm, C121_unravel, C121_valid, C123_connected, C123_exact, C123_one, C123_search, C124_band2, C124_band2_refuted, C124_band_partial, C124_band_refuted, C124_box_res, C124_box_shape, C124_compatible, C124_middle, C124_point, C124_recentre, C124_ref, C124_signed_refuted, C124_thumb_center, C124_thumb_extent, C124_thumb_refuted, C125_area, C125_area_nan, C125_area_nan_refuted, C125_area_refuted, C125_contour, C125_contour_pixel, C125_contour_refuted, C125_contour_sum, C125_contour_swapped, C125_extent, C125_extent_refuted, C125_fullsky, C125_pixel, C125_pixel_nan, C125_pixel_refuted, C125_plain, C125_sum, C126_argmax, C126_overlap, C126_overlap_wrap_partial, C126_padslice, C126_padslice_wcs, C126_stamps, C126_stamps_refuted, C126_tiles, C126_wrap, C127_div_adjoint, C127_div_grad_partial, C127_div_grad_refuted, C127_grad, C127_interp, C127_laplace, C127_oversample_partial, C127_oversample_refuted, C127_pixwin, C127_smooth_complement, C127_smooth_compose, C127_smooth_heat, C127_smooth_mean, C127_window_partial, C127_window_refuted, C128_crossfade, C128_crossfade_periodic, C128_error, C128_mask, C128_profile, C128_taper, C128_taper_range, C128_unknown_refuted, C129_between, C129_bins, C129_lost_refuted, C129_total, C12_div, C12_fix, C12_flip, C12_mul_partial, C12_slice, C130_box, C130_pixels, C130_tight, C131_pixbox_partial, C131_shape, C131_stokes, C132_add, C132_conditional, C132_conditional_zero, C132_corr, C132_corr_le, C132_cov, C132_inv, C132_merged, C132_nat, C132_nodiag, C132_pinv, C132_solve_int_refuted, C132_solve_partial, C132_solve_refuted, C132_sqrt, C132_stack_partial, C132_stack_refuted, C132_symm, C132_unique, C133_from_tiles, C133_progress, C133_reduce_partial, C133_reduced, C133_schedule, C133_terminates, C133_write_partial, C134_box_partial, C134_box_refuted, C134_single_refuted, C134_smallest, C135_error_refuted, C135_history, C135_paint_partial, C135_transpose_refuted, C136_allgather, C136_gatherv_empty, C136_gatherv_hang_refuted, C136_gatherv_partial, C137_covariance, C137_scales, C137_scales_refuted, C137_single_refuted, C138_healpix2map_partial, C138_inverse, C138_map2healpix, C138_nside_partial, C138_nside_refuted, C138_out_refuted, C138_scalar_refuted, C138_systems, C139_distribute_partial, C139_distribute_refuted, C139_pointwise, C139_populate_partial, C13_rejects, C13_union, C140_alm2map, C140_alm2map_adjoint, C140_buffer, C140_buffer_out, C140_decflip, C140_decflip_refuted, C140_deriv_adjoint_partial, C140_deriv_adjoint_refuted, C140_deriv_map, C140_deriv_map_refuted, C140_exact, C140_general_adjoint, C140_general_fails, C140_map2alm_2d_adjoint, C140_map2alm_cyl_adjoint, C140_map2alm_general_adjoint, C140_niter_refuted, C141_cells, C141_empty_refuted, C141_once, C141_paint_partial, C141_reach_refuted, C141_small_refuted, C141_twice_refuted, C142_crossmatch, C142_mutual_refuted, C143_between, C143_deslope_partial, C143_deslope_refuted, C143_downgrade, C143_step, C144_jname_partial, C144_jname_refuted, C144_ndigit_partial, C144_ndigit_refuted, C144_parse_partial, C144_parse_refuted, C144_range, C145_contains_partial, C145_contains_refuted, C145_corners_partial, C145_corners_refuted, C145_sky2pix, C146_posmap, C146_row, C147_camb_partial, C147_camb_refuted, C147_columns, C147_corr, C147_inds, C147_monopole_refuted, C147_roundtrip_partial, C147_scale, C147_scale_refuted, C147_single_refuted, C148_contam_refuted, C148_finder, C148_limit, C148_maxiter_refuted, C148_snrel_refuted, C149_iterative, C149_measurer_partial, C149_modeller, C14_project_partial, C150_combine_partial, C150_combine_refuted, C150_compress, C150_expand, C150_flat_refuted, C150_length_refuted, C150_regularize_partial, C150_start_refuted, C151_constant_refuted, C151_edges, C151_order_refuted, C151_sweeps, C152_alias_refuted, C152_compatible_refuted, C152_full, C152_geometry, C152_insert_partial, C152_iter, C152_mul_partial, C152_mul_refuted, C152_negative_refuted, C152_slice_refuted, C153_contains_partial, C153_contig_partial, C153_contig_refuted, C153_inds, C153_outer_partial, C153_outer_refuted, C153_resize, C153_strides_partial, C153_toNd_empty_refuted, C153_toNd_refuted, C153_zip_partial, C154_airy, C154_airy_peak, C154_airy_refuted, C154_chord_partial, C154_chord_refuted, C154_curved_int_refuted, C154_curved_partial, C154_curved_refuted, C154_deriv_partial, C154_deriv_refuted, C154_lairy, C154_overlap, C154_rescale_partial, C154_rescale_refuted, C154_scales, C154_times, C155_cache_partial, C155_cache_stride_refuted, C155_fill_partial, C155_filter, C155_lmul_out_partial, C156_grid, C156_interp, C156_last_refuted, C156_lmax, C156_round_partial, C156_round_refuted, C156_synthesis, C157_between_refuted, C157_cov, C157_iso, C157_iso_whole, C157_pixel, C157_power, C158_bounds, C158_const, C158_conv, C158_corr, C158_corr_partial, C158_corr_refuted, C158_defined_refuted, C158_flat, C158_flat_refuted, C158_gauss, C158_kernel, C158_linear, C158_massage, C158_weight_nan, C158_weight_refuted, C159_auto, C159_auto_refuted, C159_distortion, C159_extent, C159_hrand, C159_hrand_refuted, C159_lprof, C159_mean, C159_parseval, C159_round, C159_round_refuted, C159_rprof, C159_rprof_partial, C159_rprof_refuted, C159_scalar_refuted, C15_fix_wcs_centered, C15_fix_wcs_partial, C15_fix_wcs_refuted, C15_fix_wcs_shift, C15_recenter, C15_recenter_ref, C160_delens, C160_diverge_refuted, C160_halfpixel_refuted, C160_roll, C160_transpose, C160_undisplaced, C161_band_size, C161_bands, C161_bands_refuted, C161_flat_pad_refuted, C161_flat_refuted, C161_pol_partial, C161_pol_refuted, C161_rand_partial, C161_rand_refuted, C161_seeds_partial, C161_seeds_refuted, C161_tiny_refuted, C162_double_refuted, C162_exact_partial, C162_fits, C162_half_pixel_refuted, C162_ls, C162_ls_refuted, C162_mid, C162_modes, C162_response_refuted, C162_shift_refuted, C162_white, C163_compose, C163_demodulate_refuted, C163_dipole, C163_doppler, C163_inplace_refuted, C163_inverse_partial, C163_lin2lin, C163_lin2lin_refuted, C163_lmax, C163_monopole_refuted, C163_observed, C164_insert_at, C164_insert_wrap_refuted, C164_union_partial, C164_union_refuted, C165_density, C165_local_partial, C165_margin_partial, C165_margin_refuted, C165_pixels_refuted, C165_positive, C166_cdelt_partial, C166_cdelt_refuted, C166_extent, C166_fix_refuted, C166_recenter, C166_tan_refuted, C167_fftlog, C167_fftlog_grid, C167_fftlog_round, C167_fourier, C167_grid, C167_krange_refuted, C167_range, C167_round, C168_angle, C168_chain, C168_columns, C168_magnification, C168_polarization, C168_shape_refuted, C169_accuracy_refuted, C169_between, C169_build_partial, C169_exact, C169_grad_partial, C169_grad_refuted, C169_linear, C169_nodes, C169_obox_refuted, C169_outputs_refuted, C169_recheck_refuted, C16_adjust_partial, C16_adjust_refuted, C16_count, C16_periodic_edge, C16_periodic_half_partial, C16_periodic_half_refuted, C16_pixelization_partial, C16_pixelization_refuted, C16_res_divides, C16_res_exact, C16_res_free, C16_res_half_free, C16_res_sign, C170_case_refuted, C170_components_refuted, C170_decimals, C170_fits, C170_text, C170_units_refuted, C170_weights_refuted, C171_bounds, C171_default, C171_dims, C171_limits, C171_name_partial, C171_name_refuted, C171_parse, C171_paste, C171_prune_lines, C171_prune_partial, C171_prune_refuted, C171_quantile_partial, C171_quantile_refuted, C171_symmetric, C171_tiles, C171_tiles_refuted, C172_colon_refuted, C172_geometry_sel_partial, C172_geometry_sel_refuted, C172_gz_refuted, C173_bounds_partial, C173_bounds_refuted, C173_extent, C173_lform, C173_lpixsize, C173_pixshape_partial, C173_pixshape_refuted, C173_spline_partial, C173_spline_refuted, C173_subgrid, C174_cossin_partial, C174_cossin_refuted, C174_decomp, C174_dice, C174_graybody, C174_legendre, C174_legendre_poly, C174_legendre_refuted, C174_noise_factor, C174_period_partial, C174_period_range, C174_period_refuted, C174_profile_normalized_partial, C174_profile_normalized_refuted, C174_profile_transform, C174_short_refuted, C174_tsz_form, C174_tsz_null, C174_ubash_partial, C174_ubash_refuted, C175_glob_partial, C175_glob_refuted, C175_glob_slash_refuted, C175_regex_f0_refuted, C175_regex_g_refuted, C175_regex_other_refuted, C175_regex_partial, C175_regex_refuted, C176_bounds_partial, C176_bounds_refuted, C176_convolution, C176_fill_refuted, C176_one_scale_refuted, C176_ores_default, C176_ores_refuted, C176_profile, C176_scales_partial, C176_trim_refuted, C176_variance, C177_iter, C177_negative_refuted, C177_reduce, C178_array, C178_attr_refuted, C178_contents, C178_disjoint, C178_zeros, C179_any, C179_any_refuted, C179_box, C179_cc_partial, C179_downgrade, C179_fejer1_partial, C179_fejer1_refuted, C179_point, C179_safe, C179_shape_refuted, C179_wildcard_refuted, C179_window, C179_wrap_refuted, C17_compatible_iff, C17_equivalence, C17_tol_mono, C17_tol_not_transitive, C180_adjoint, C180_axes_refuted, C180_complex_refuted, C180_exact, C180_grid, C180_least_squares, C180_npre_refuted, C180_nufft, C180_periodic, C180_periodicity_refuted, C180_precompute, C180_roundtrip, C180_samples, C180_zero_refuted, C181_agree, C181_axes_refuted, C181_bin_partial, C181_bin_refuted, C181_constant_partial, C181_exact, C181_factor_partial, C181_factor_refuted, C181_odd_refuted, C181_one_refuted, C181_real_refuted, C181_roundtrip, C181_row_partial, C181_row_refuted, C181_samples, C181_shape_partial, C182_back, C182_case_refuted, C182_centre, C182_nodes, C182_object_partial, C182_object_refuted, C182_pole, C182_single_refuted, C182_step_partial, C182_step_refuted, C182_times_refuted, C182_track_refuted, C183_bincount, C183_bool_refuted, C183_broadcast, C183_count, C183_medmean, C183_short_refuted, C184_circle, C184_cylindrical, C184_distance, C184_hole_refuted, C184_interior_refuted, C184_labels_partial, C184_multi_refuted, C184_penalty_refuted, C184_safe, C184_simple_partial, C184_threshold, C185_astype_refuted, C185_independent, C185_new, C185_number_refuted, C185_pure, C185_set, C185_shift, C185_shifted, C185_wcs_partial, C185_window_refuted, C185_wrap_refuted, C186_amplitude_refuted, C186_angle, C186_converges, C186_distortion_refuted, C186_newton, C186_plain, C186_pol_refuted, C186_rotate, C186_slope, C186_stack_refuted, C186_stack_rotate_refuted, C186_thermo, C186_tiny_refuted, C187_cut, C187_entering, C187_inside, C187_labels_partial, C187_labels_refuted, C187_latitudes_partial, C187_latitudes_refuted, C187_longitudes, C187_longitudes_refuted, C187_nan_refuted, C187_plain, C187_repeated_refuted, C187_twice_refuted, C188_accepted, C188_codes, C188_colorcap_partial, C188_constant, C188_description, C188_direct, C188_drivers_refuted, C188_invalid_refuted, C188_race_refuted, C188_reverse, C188_step_refuted, C188_threads, C188_white_refuted, C189_area_partial, C189_beyond_refuted, C189_cutout_partial, C189_falling_refuted, C189_given, C189_near_refuted, C189_odd_refuted, C189_pad_refuted, C189_path_refuted, C189_total, C18_congruent, C18_idempotent, C18_rewind, C18_unique, C190_colour_partial, C190_drawn_partial, C190_list, C190_nan_refuted, C190_single_refuted, C190_steep_refuted, C190_uniform, C191_broadcast_refuted, C191_matrix_partial, C191_order_refuted, C191_product_refuted, C191_sym, C191_unsymmetric_refuted, C191_vector, C192_maps_refuted, C192_names, C192_ranks, C192_symmetric_partial, C192_symmetric_refuted, C193_direction, C193_each, C193_galactic, C193_inverse, C194_concat_partial, C194_keys_refuted, C194_row_refuted, C194_text_refuted, C194_view, C194_whole_refuted, C195_all, C195_layout_refuted, C195_nearest_partial, C195_unmasked_refuted, C196_infinite_refuted, C196_mask, C196_orientation, C196_rgb_mask_partial, C196_rgb_mask_refuted, C196_sub_partial, C196_sub_refuted, C197_centered_refuted, C197_gnomonic_refuted, C197_ivar, C197_rotated, C197_tasks, C198_left_refuted, C198_line, C198_pixel_partial, C198_pixel_refuted, C198_plain_refuted, C198_rect_partial, C198_skip, C199_interp_partial, C199_interp_refuted, C199_maskmed_partial, C199_maskmed_refuted, C199_ref_partial, C199_ref_range, C199_ref_refuted, C199_union_partial, C199_union_refuted, C19_congruent, C19_continuous, C19_reference, C19_unchanged, C200_clock_refuted, C200_history, C200_line, C200_lines, C200_times_partial, C200_total_partial, C200_total_refuted, C201_found_partial, C201_found_refuted, C201_hasoff, C201_replace, C202_parts_partial, C202_parts_refuted, C202_place, C203_middle_partial, C203_middle_refuted, C203_stamps_partial, C204_first_refuted, C204_merge, C205_empty, C205_show_partial, C205_word_refuted, C205_zero_refuted, C20_partition, C20_sizes, C20_total, C21_buffer, C21_history, C21_inactive, C21_set_get, C22_add_sub, C22_binop_partial, C22_inplace_partial, C22_same_tiles, C23_default, C23_redistribute_partial, C24_large_pad_refuted, C24_read, C24_reconstruct, C24_unity, C24_weighted_mean, C24_workers, C25_cut_partial, C25_sub_partial, C25_union, C26_lengths, C26_mask2range, C27_cumsplit, C27_cumsplit_join, C27_cumsplit_sorted, C27_greedy_simple, C27_greedy_split_partial, C27_greedy_split_refuted, C27_listsplit, C27_no_groups, C28_balance, C28_heaviest, C29_expbin_partial, C29_expbin_terminates_partial, C29_linbin, C30_roundtrip, C30_total, C31_bin_resample, C31_bin_total, C31_expand_reduce, C31_idempotent, C31_large_offset_refuted, C31_reduce, C31_total, C32_above, C32_below_partial, C32_fft_len_above, C32_fft_len_below_partial, C33_primes, C34_axes, C34_nditer, C35_list_combination, C35_seen, C37_ellipsis, C37_empty_array_refuted, C37_simple, C38_format_partial, C38_format_refuted, C38_round_trip, C39_all, C39_closest, C39_first, C40_affine, C40_alias_refuted, C40_optimal, C40_orthogonal, C40_terminates, C41_optimal, C41_orthogonal, C41_residual, C41_terminates, C42_error, C42_exact, C43_empty, C43_roundtrip, C44_axis, C44_even, C44_map, C44_odd_down_refuted, C44_odd_up_refuted, C44_partial, C44_slots, C44_up_down, C45_back, C45_order, C45_real, C45_round_trip, C46_components, C46_diagonal, C46_distinct, C46_full, C46_stable_prefix, C47_back, C47_combined_partial, C47_combined_refuted, C47_empty_refuted, C47_round_trip, C48_nalm, C48_rectangular, C48_triangular, C49_round_trip, C49_transfer, C49_transpose, C50_bounds_dp, C50_lmatmul_dp, C50_lmul, C50_sp_bounds_refuted, C50_sp_inplace_refuted, C50_stride_refuted, C51_schedule, C51_stride_refuted, C52_arenas, C52_mempool, C53_exact, C53_new_partial, C53_refuted, C54_first, C54_partial, C54_refuted, C55_bunch_refuted, C55_history, C55_write, C56_partial, C56_refuted, C58_partial, C58_refuted, C58_strides, C59_copy, C59_delete, C59_partial, C59_reserved, C60_contiguous, C60_distinct_partial, C60_refuted, C61_partition, C61_spin_helper, C62_default, C62_partial, C62_refuted, C62_rows, C63_partition, C63_phi0, C63_selected, C63_symmetric, C63_table, C63_theta, C64_full, C64_get, C64_negative_refuted, C64_partition, C64_pixel, C64_set, C65_convolve, C65_distpow, C66_partial, C66_rows_partial, C67_buffer, C67_geometry, C67_output_buffer, C67_round_trip, C68_dot, C69_auto, C69_auto_edges, C69_auto_refuted, C69_auto_strip_refuted, C69_axis, C69_blank_refuted, C69_crop_partial, C69_edges, C69_edges_total, C69_keeps, C69_median, C69_pixel, C70_grow_exact, C70_grow_sound, C70_monotone_partial, C70_monotone_refuted, C71_common_inds, C71_common_vals, C71_complement_inds_partial, C71_find, C71_find_any, C71_find_missing, C71_inverse_order, C71_unmask_partial, C71_unmask_refuted, C72_bin_multi, C72_sum_by_id, C72_total, C74_fast, C74_find_equal_groups, C75_control, C75_drivers_differ, C75_fortran, C75_python, C76_triangle_wave, C77_flatten, C77_roundtrip, C78_fullsky_dec, C78_fullsky_ra, C79_with_tiles_partial, C80_bubble, C80_bubble_exact, C80_cellgrid_partial, C80_cellgrid_sound, C80_cylindrical, C80_exact, C80_exact_refuted, C80_simple, C80_transform_sound, C80_transform_total, C80_vincenty, C81_columns, C81_dh_refuted, C81_equal_area_refuted, C81_fullsky, C81_rows_partial, C82_area_partial, C82_area_refuted, C82_dh_refuted, C82_quad_partial, C82_quad_refuted, C82_transform, C83_cylindrical, C83_limit_partial, C83_limit_refuted, C84_cap, C84_ceil, C84_edges, C84_exclusive_refuted, C84_inclusive_refuted, C84_reversed_refuted, C84_round, C84_subgeo, C84_submap, C84_touch, C84_whole, C85_add, C85_adjoint, C85_around_refuted, C85_max, C85_min, C85_op_refuted, C85_paint, C85_registered, C85_transpose, C86_beyond, C86_bounds_refuted, C86_equi_partial, C86_equi_refuted, C86_extent, C86_is_equi_refuted, C86_profile, C86_table_le, C86_table_partial, C86_table_refuted, C86_table_small, C86_tail_refuted, C87_bins_partial, C87_equi_partial, C87_last_refuted, C88_adjoint, C88_border, C88_constant, C88_grid, C88_linear, C88_spline_needs_filter, C88_unity, C88_value, C88_zero_partial, C88_zero_refuted, C89_accuracy, C89_adjoint, C89_eps, C89_exact, C89_filter_adjoint, C89_grid, C89_interior_partial, C89_nearest_refuted, C89_poles, C89_reflect_refuted, C89_zero_refuted, C90_deriv_partial, C90_integer_refuted, C90_integer_wrong, C90_order5_refuted, C90_spline3_refuted, C90_trans_partial, C90_trans_refuted, C90_value, C90_weights, C91_butter_loss, C91_butter_refuted, C91_butterworth, C91_digital, C91_digital_lossless, C91_levels, C91_needlet_lmaxs, C91_needlet_partial, C91_needlet_refuted, C91_reconstruct, C91_too_narrow, C91_trim_lossless, C91_trim_round_trip, C91_trim_support, C91_trimmed, C92_adjoint, C92_harm, C92_harm_adjoint, C92_inverse, C92_power, C92_unnormalized, C93_compose, C93_compose_real_partial, C93_deriv, C93_real_partial, C93_real_refuted, C93_roll, C93_roll_real, C94_adjoint_refuted, C94_enmap_refuted, C94_numpy_refuted, C94_roundtrip, C94_roundtrip2, C95_default, C95_half, C95_roundtrip, C96_chebt, C96_ichebt, C96_redft00, C96_rows_inverse_partial, C96_rows_refuted, C97_ang, C97_decenter, C97_radius_refuted, C97_recenter, C97_rect, C97_restore_refuted, C97_rot_dot, C97_rot_inverse, C97_rotation, C97_tele, C98_angdist, C98_metric, C98_vec, ClTrace_of_assignment, noiseCov_power.
* propext, Quot.sound: C04_pad, C113_bounding_refuted, C115_transpose, C11_cap_refuted, C11_stride_nowrap_refuted, C11_stride_refuted, C11_wrapLength, C122_pop, C122_pop_partial, C122_push, C122_sorted, C126_overlap_full, C126_overlap_refuted, C126_padslice_error, C12_size, C131_header_refuted, C131_pixbox_refuted, C131_reads_partial, C131_reread_refuted, C131_resign_refuted, C133_write_refuted, C140_band_refuted, C141_amps_partial, C141_amps_refuted, C142_cellify, C142_roundtrip, C143_flat_partial, C143_flat_refuted, C143_repeat_partial, C143_repeat_refuted, C146_geometry_partial, C149_measurer_refuted, C152_components, C153_contains_refuted, C153_strides_refuted, C153_toNd_partial, C155_fill_refuted, C155_lmul_out_refuted, C155_out_dtype_refuted, C170_auto, C170_auto_refuted, C171_dims_given, C171_stack, C172_geometry_partial, C172_npy_refuted, C172_read_back_partial, C172_selection, C173_lrmap_partial, C173_lrmap_refuted, C177_full_columns_refuted, C177_full_partial, C177_full_refuted, C177_methods_refuted, C178_reuse, C180_npre_partial, C180_precision_partial, C182_horizon_partial, C182_horizon_refuted, C184_ends_refuted, C188_single_refuted, C190_edge_refuted, C192_components, C192_options, C192_rgb_partial, C192_rgb_refuted, C194_merge_partial, C198_thin_refuted, C204_first_partial, C20_grid, C22_mul_refuted, C23_order_refuted, C25_normalize, C29_edges2bins, C29_expbin_refuted, C29_linbin_size_partial, C29_linbin_size_refuted, C32_below_refuted, C34_repeated_axis_refuted, C35_collect_refuted, C36_split_esc_partial, C40_memory, C40_residual, C40_resume, C40_resume_middle, C42_fixed, C46_diag_not_stable, C57_partial, C60_same, C61_empty, C66_refuted, C68_error, C68_join, C68_none, C70_contains, C70_dual, C70_zero_refuted, C71_complement_inds_refuted, C72_clip_inside, C73_cumsum, C73_uncat, C77_empty_refuted, C79_empty_refuted, C80_edges, C85_around_partial, C99_there_and_back.
* propext: C02_refuted, C104_redistribute_refuted, C104_wrap_refuted, C110_numpy2_refuted, C122_order_refuted, C123_cap_refuted, C123_same_pixel_refuted, C131_dtype_partial, C131_header_partial, C136_allgather_refuted, C136_any_refuted, C136_gaps_refuted, C136_gatherv_refuted, C136_send, C136_send_refuted, C140_layout_refuted, C152_active_refuted, C152_compatible_partial, C153_zip_refuted, C170_weights_partial, C173_shift, C176_geometry_refuted, C177_arguments_refuted, C177_empty_refuted, C178_attr_partial, C178_scalar_refuted, C178_size_refuted, C178_zeros_reset, C183_place_refuted, C194_readonly_refuted, C201_history, C25_sub_fails, C25_sub_refuted, C29_bins2edges_partial, C29_bins2edges_refuted, C31_unit, C34_empty_refuted, C35_empty_refuted, C39_first_group_order, C48_default, C50_sp_partial, C57_refuted, C59_refuted, C61_pre, C71_find_any_refuted, C71_find_empty, C79_modern_refuted, C80_bubble_refuted, C85_inside, C99_ends.
* no axioms: C02_refuted_negative_step, C111_dedup_empty_refuted, C126_overlap_argument_refuted, C12_mul_refuted, C12_slice_empty_refuted, C131_dtype_refuted, C140_band_partial, C140_layout_partial, C146_geometry_refuted, C14_refuted, C169_return_refuted, C16_pixelization_shape_refuted, C180_precision_refuted, C181_axis_number_refuted, C181_equispaced_refuted, C192_toggle_refuted, C193_threads_refuted, C36_refuted, C55_bunch_overwrites.
