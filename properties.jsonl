{"id": "C01", "title": "Slicing a map keeps data and geometry aligned", "statement": "For a map axis of length n and a slice a:b:s with bounds in range and s=+1 or -1, the geometry returned by slice_geometry has exactly as many pixels as the slice selects, and its pixel i sits at the sky coordinate of the input pixel that numpy slicing puts at index i. For a general nonzero step, output pixel i covers exactly the area of the |s| consecutive input pixels start+i*s .. start+(i+1)*s.", "quantifier": "all axis lengths, all in-range start/stop pairs, all nonzero integer steps, all linear WCS parameters (crval, cdelt != 0, crpix) over the rationals", "why_tests_cant": "A test fixes one map and a handful of slices; off-by-one and half-pixel errors appear only for particular sign/parity combinations.", "anchors": ["pixell/enmap.py:slice_geometry", "pixell/enmap.py:ndmap.__getitem__"]}
{"id": "C02", "title": "expand_slice agrees with Python slice semantics", "statement": "For a positive or negative step and start/stop that are None or lie within [-n, n], expand_slice(slice, n) selects the same list of indices as Python's own slice on a sequence of length n.", "quantifier": "all n, all optional start/stop, all steps (including negative)", "why_tests_cant": "The boundary behaviour differs per sign of start, stop and step; sampling misses corner combinations such as start >= n with negative step.", "anchors": ["pixell/utils.py:expand_slice"]}
{"id": "C03", "title": "Slicing geometries composes", "statement": "Slicing a geometry with a:b:s and then c:d:t yields the same WCS as slicing once with the composed slice, so repeated cutouts never drift.", "quantifier": "all pairs of in-range slices with positive or negative steps and all linear WCS", "why_tests_cant": "Composition must hold for every pair of slices; tests check a single chain.", "anchors": ["pixell/enmap.py:slice_geometry"]}
{"id": "C04", "title": "Padding preserves sky positions and is undone by cropping", "statement": "After padding an axis with (p,q) pixels the pixel that was at i is at i+p with the same sky coordinate and value, the new length is n+p+q, the added pixels hold the fill value, and slicing off the padding gives back the original data and geometry.", "quantifier": "all axis lengths, all non-negative pad widths, all data, all linear WCS", "why_tests_cant": "Every pad width including zero must behave; zero is a well known slice corner case (-0:).", "anchors": ["pixell/enmap.py:pad", "pixell/enmap.py:padcrop", "pixell/curvedsky.py:pad_geometry"]}
{"id": "C05", "title": "Shifting a map moves data and geometry together", "statement": "enmap.shift by an integer offset rolls the pixels cyclically and moves the WCS by the same amount, so for every pixel that did not wrap around the (value, sky position) pair is unchanged; shifting by a and then b equals shifting by a+b, and shifting by -a undoes shifting by a.", "quantifier": "all data lengths, all integer offsets (positive, negative, larger than the map)", "why_tests_cant": "Composition law over all pairs of offsets is universally quantified.", "anchors": ["pixell/enmap.py:shift"]}
{"id": "C06", "title": "Rescaling a WCS preserves pixel edges", "statement": "wcsutils.scale by a factor f maps old edge coordinate e (in units where pixel edges are at half-integers) to new edge coordinate f*e for the same sky position; scaling by f and then 1/f is the identity, and scaling by f then g equals scaling by f*g.", "quantifier": "all nonzero rational scale factors, all linear WCS, all sky positions", "why_tests_cant": "Edge alignment under arbitrary factors is an algebraic law.", "anchors": ["pixell/wcsutils.py:scale", "pixell/enmap.py:scale_geometry", "pixell/enmap.py:downgrade_geometry"]}
{"id": "C07", "title": "Downgrading averages whole blocks and undoes upgrading", "statement": "downgrade(map,f) gives in each output pixel the average of exactly the f input pixels it covers and drops only the incomplete tail; downgrade(upgrade(m,f),f) = m; the total flux sum is multiplied by exactly 1/f when f divides the length; and the downgraded geometry places output pixel i over input pixels i*f..(i+1)*f.", "quantifier": "all lengths, all positive integer factors, all data", "why_tests_cant": "Remainders modulo f and the offset handling make the boundary case input-dependent.", "anchors": ["pixell/enmap.py:downgrade", "pixell/enmap.py:upgrade", "pixell/enmap.py:get_downgrade_offset", "pixell/utils.py:block_reduce", "pixell/utils.py:block_expand"]}
{"id": "C08", "title": "Extracting a pixel box returns the right pixels", "statement": "extract_pixbox with any integer pixel box returns an array of the size of the box whose pixel j holds the input pixel at box.start+j (taken modulo the sky circumference on the wrapping axis) if that pixel exists and the fill value otherwise.", "quantifier": "all map widths, all wrap circumferences not smaller than the map, all integer boxes (partly or totally outside, wrapping any number of times), all data", "why_tests_cant": "The number of pieces a box breaks into is unbounded and depends on the input; piecewise copying must be right for all of them.", "anchors": ["pixell/enmap.py:extract_pixbox", "pixell/enmap.py:extract", "pixell/utils.py:sbox_wrap"]}
{"id": "C09", "title": "Inserting is the inverse of extracting", "statement": "Extracting a box and inserting it back (reverse mode) leaves the map unchanged; inserting arbitrary data changes exactly the pixels of the map covered by the box, and a following extract returns the inserted data on the part of the box that overlaps the map when the box covers no pixel twice.", "quantifier": "all maps, all boxes, all inserted data", "why_tests_cant": "Frame condition (nothing else changes) must hold for all positions of the box.", "anchors": ["pixell/enmap.py:insert_at", "pixell/enmap.py:insert", "pixell/enmap.py:extract_pixbox"]}
{"id": "C10", "title": "Slice-box intersection is set intersection", "statement": "sbox_intersect of two strided index boxes lists exactly the indices contained in both, or reports an empty result when there is none.", "quantifier": "all pairs of integer slice boxes with arbitrary nonzero steps of either sign", "why_tests_cant": "The result depends on gcd/lcm arithmetic of arbitrary steps and offsets.", "anchors": ["pixell/utils.py:sbox_intersect", "pixell/utils.py:sbox_intersect_1d"]}
{"id": "C11", "title": "Wrapping a slice box covers each element once at the right place", "statement": "sbox_wrap splits a box into pieces such that every index of the box whose wrapped position is inside the cap appears in exactly one piece, paired with its own position in the box, and nothing else appears.", "quantifier": "all boxes, wrap lengths, caps and steps", "why_tests_cant": "Number of pieces is unbounded and the loop's invariant depends on the step.", "anchors": ["pixell/utils.py:sbox_wrap"]}
{"id": "C12", "title": "Slice-box algebra", "statement": "sbox_size is the number of indices in the box, sbox_flip lists the same indices in reverse order and is an involution up to normalisation, sbox_mul composes boxes the way nested slicing does, sbox_div inverts sbox_mul, and sbox2slice selects exactly the box's indices from an array containing it.", "quantifier": "all integer boxes with nonzero step", "why_tests_cant": "These are algebraic laws over all integers, with sign-dependent branches.", "anchors": ["pixell/utils.py:sbox_size", "pixell/utils.py:sbox_flip", "pixell/utils.py:sbox_mul", "pixell/utils.py:sbox_div", "pixell/utils.py:sbox2slice", "pixell/utils.py:sbox_fix"]}
{"id": "C13", "title": "The union geometry contains every input on one pixel grid", "statement": "union_geometry of any non-empty list of grid-compatible geometries is a geometry in which every input pixel lies at an integer in-bounds position with unchanged sky coordinate, and no smaller bounding box has this property.", "quantifier": "all non-empty lists of geometries sharing a pixel grid", "why_tests_cant": "List length and offsets are unbounded; minimality is universally quantified.", "anchors": ["pixell/enmap.py:union_geometry", "pixell/enmap.py:pixbox_of"]}
{"id": "C14", "title": "Projecting to a geometry yields that geometry", "statement": "enmap.project(map, shape, wcs) always returns a map with the requested pixel shape.", "quantifier": "all input shapes and all requested shapes, both when the WCS is the same and when it differs", "why_tests_cant": "The shortcut taken for equal WCS must be right for all shapes, not just the tested pair.", "anchors": ["pixell/enmap.py:project"]}
{"id": "C15", "title": "Recentering a cylindrical WCS does not move pixels", "statement": "recenter_cyl_x returns a WCS that assigns the same sky coordinate to every pixel; fix_wcs returns a WCS equivalent to the input whose reference lies on the other side but with sky coordinates unchanged modulo 360 degrees.", "quantifier": "all cylindrical linear WCS and all reference pixels", "why_tests_cant": "Must hold for every pixel position and parameter value.", "anchors": ["pixell/wcsutils.py:recenter_cyl_x", "pixell/wcsutils.py:fix_wcs"]}
{"id": "C16", "title": "One-dimensional pixelisation covers the requested interval", "statement": "pixelize_1d(w,n or res,offsets) returns a pixel row whose end pixels sit at the requested fractional offset from the interval ends, whose spacing times count spans the interval exactly, and whose periodic variant has no duplicated end point.", "quantifier": "all interval widths, pixel counts, and end offsets in {0,1/2}", "why_tests_cant": "Pixel counts and offset combinations are unbounded; end points are where implementations go wrong.", "anchors": ["pixell/wcsutils.py:pixelize_1d", "pixell/wcsutils.py:pixelization", "pixell/wcsutils.py:parse_variant"]}
{"id": "C17", "title": "WCS compatibility means a common pixel grid", "statement": "is_compatible (with zero tolerance) is true exactly when the two linear WCS have the same pixel size and every pixel centre of one is at an integer pixel coordinate of the other; it is an equivalence relation.", "quantifier": "all pairs and triples of linear WCS over the rationals with nonzero pixel size", "why_tests_cant": "Equivalence and iff statements quantify over all WCS pairs.", "anchors": ["pixell/wcsutils.py:is_compatible", "pixell/enmap.py:pixbox_of"]}
{"id": "C18", "title": "Rewinding angles", "statement": "rewind(a,ref,period) lies in [ref-period/2, ref+period/2) and differs from a by an integer multiple of the period; it is idempotent, and equal for inputs that are equal modulo the period.", "quantifier": "all rational angles, references and positive periods", "why_tests_cant": "Range and congruence must hold for all reals, including values many periods away.", "anchors": ["pixell/utils.py:rewind"]}
{"id": "C19", "title": "Unwinding angles", "statement": "unwind changes every element by an integer multiple of the period and afterwards consecutive elements never differ by more than half a period; sequences that already satisfy this (and start at the reference) are unchanged.", "quantifier": "all sequences of any length, all positive periods", "why_tests_cant": "Requires induction along an arbitrary sequence.", "anchors": ["pixell/utils.py:unwind"]}
{"id": "C20", "title": "Tile geometry partitions the map", "statement": "For any map shape and tile shape, each pixel lies in exactly one tile, the tile sizes are positive and add up to the map size, and grid2ind and ind2grid are inverse on the tile grid.", "quantifier": "all positive map shapes and tile shapes", "why_tests_cant": "The incomplete last tile depends on arbitrary remainders.", "anchors": ["pixell/tilemap.py:geometry", "pixell/tilemap.py:TileGeometry"]}
{"id": "C21", "title": "Tile view reads back what was written and nothing else moves", "statement": "Setting tile i of a tiled map and reading tile j returns the written data for i=j and the previous data otherwise; inactive tiles read as None and cannot be written.", "quantifier": "all active lists without duplicates, all tile sizes, all data, all sequences of writes", "why_tests_cant": "A frame condition over arbitrary histories.", "anchors": ["pixell/tilemap.py:TileView", "pixell/tilemap.py:TileMap"]}
{"id": "C22", "title": "Arithmetic on tiled maps equals arithmetic on dense maps", "statement": "For two compatible tiled maps with arbitrary active tiles, combining them with a binary operation and expanding the result to a dense map gives the same values as expanding both (missing tiles are zero) and combining the dense maps.", "quantifier": "all sets of active tiles, all data, all binary operations offered", "why_tests_cant": "Needs all combinations of overlap of active sets and every operator.", "anchors": ["pixell/tilemap.py:make_binop", "pixell/tilemap.py:TileMap.with_tiles"]}
{"id": "C23", "title": "Redistributing tiles over MPI ranks conserves the map", "statement": "redistribute leaves on each rank, for each tile active there, the sum over all ranks of that tile's data; every tile of the input is delivered.", "quantifier": "all numbers of ranks, all assignments of active tiles to ranks before and after, all data", "why_tests_cant": "Distributed behaviour for arbitrary rank counts and orders cannot be enumerated.", "anchors": ["pixell/tilemap.py:redistribute", "pixell/utils.py:uncat"]}
{"id": "C24", "title": "Padded tiling reconstructs the map", "statement": "Padtiler cuts a map into overlapping tiles; feeding the unmodified tiles back gives the original map, i.e. the crossfade weights sum to one at every pixel.", "quantifier": "all map sizes, tile sizes and paddings with 2*pad <= tile size, all data", "why_tests_cant": "Partition of unity must hold at every pixel for all sizes, including incomplete last tiles.", "anchors": ["pixell/enmap.py:Padtiler", "pixell/enmap.py:padtiles"]}
{"id": "C25", "title": "Range arithmetic is set arithmetic", "statement": "range_union, range_normalize, range_sub and range_cut on lists of half-open integer ranges have these effects: range_sub returns disjoint ranges whose points are those of the first list that are not in the second, range_union the points of the given ranges as sorted disjoint ranges, range_normalize drops exactly the empty ranges, and range_cut keeps the point set while leaving no cut strictly inside a range.", "quantifier": "all lists of ranges of any length", "why_tests_cant": "Interleavings of ranges are unbounded.", "anchors": ["pixell/utils.py:range_sub", "pixell/utils.py:range_union", "pixell/utils.py:range_normalize", "pixell/utils.py:range_cut"]}
{"id": "C26", "title": "mask2range lists the runs of a mask", "statement": "mask2range returns sorted, disjoint, non-touching, non-empty ranges whose points are exactly the indices where the mask is true.", "quantifier": "all boolean sequences", "why_tests_cant": "Quantifies over all masks of any length.", "anchors": ["pixell/utils.py:mask2range"]}
{"id": "C27", "title": "Splitting work is a partition", "statement": "equal_split, greedy_split, greedy_split_simple, cumsplit and listsplit return groups that contain every input element exactly once (or, for listsplit/cumsplit, concatenate back to the input).", "quantifier": "all weight lists, all group counts, all separators", "why_tests_cant": "Holds for arbitrary lists and counts.", "anchors": ["pixell/utils.py:equal_split", "pixell/utils.py:greedy_split", "pixell/utils.py:greedy_split_simple", "pixell/utils.py:cumsplit", "pixell/utils.py:listsplit"]}
{"id": "C28", "title": "Greedy splitting is balanced", "statement": "In the grouping produced by greedy_split_simple the heaviest group exceeds the lightest by at most the largest single weight.", "quantifier": "all non-negative weight lists and group counts", "why_tests_cant": "A bound for every input; a greedy algorithm's guarantee is an inductive fact.", "anchors": ["pixell/utils.py:greedy_split", "pixell/utils.py:greedy_split_simple"]}
{"id": "C29", "title": "Linear and exponential bins tile the index range", "statement": "linbin returns contiguous bins covering exactly [0,n); expbin terminates and returns contiguous bins each at least nmin wide; edges2bins and bins2edges are inverse.", "quantifier": "all n, bin counts and minimum widths", "why_tests_cant": "Termination and coverage for all parameters.", "anchors": ["pixell/utils.py:linbin", "pixell/utils.py:expbin", "pixell/utils.py:edges2bins", "pixell/utils.py:bins2edges"]}
{"id": "C30", "title": "Binning after expanding is the identity", "statement": "bin_data(bins, bin_expand(bins, v)) = v for contiguous non-empty bins, and bin_data averages exactly the samples in each bin.", "quantifier": "all contiguous non-empty bins and all values", "why_tests_cant": "All bin layouts and data.", "anchors": ["pixell/utils.py:bin_data", "pixell/utils.py:bin_expand"]}
{"id": "C31", "title": "Block reduction and expansion", "statement": "block_reduce(block_expand(a)) = a; block_reduce averages each full block and the shorter last block when inclusive; the weighted sum over blocks is the total of the data; upsample_bin and downsample_bin have the same inverse property.", "quantifier": "all lengths, block sizes, offsets, and data", "why_tests_cant": "Incomplete first and last blocks for arbitrary remainders.", "anchors": ["pixell/utils.py:block_reduce", "pixell/utils.py:block_expand", "pixell/resample.py:downsample_bin", "pixell/resample.py:upsample_bin"]}
{"id": "C32", "title": "nearest_product returns the nearest product", "statement": "nearest_product(n,factors,'below') is the largest product of the given factors not exceeding n, so fft_len picks the longest efficient length.", "quantifier": "all n >= 1 and all factor lists with factors >= 2", "why_tests_cant": "Optimality over all inputs.", "anchors": ["pixell/utils.py:nearest_product", "pixell/fft.py:fft_len"]}
{"id": "C33", "title": "primes returns the prime factorisation", "statement": "primes(n) is an ascending list of primes whose product is n.", "quantifier": "all n >= 1", "why_tests_cant": "Universally quantified number-theoretic fact.", "anchors": ["pixell/utils.py:primes"]}
{"id": "C34", "title": "nditer visits every index exactly once", "statement": "nditer(shape) yields every multi-index of an array of that shape exactly once, in row-major order, and nothing else.", "quantifier": "all shapes of any dimensionality (including zero-length axes)", "why_tests_cant": "Dimensionality and lengths are unbounded.", "anchors": ["pixell/utils.py:nditer", "cython/cmisc.pyx:nditer"]}
{"id": "C35", "title": "count_variable_basis enumerates all digit combinations", "statement": "Iterating count_variable_basis(bases) visits every digit vector below the bases exactly once in lexicographic order; list_combination_iter yields every combination of the listed items once; the collected results stay valid after iteration.", "quantifier": "all basis lists", "why_tests_cant": "Unbounded number of digits and bases; aliasing shows only when results are stored.", "anchors": ["pixell/utils.py:count_variable_basis", "pixell/utils.py:list_combination_iter"]}
{"id": "C36", "title": "split_esc inverts escaped joining", "statement": "Splitting a string on a separator after escaping separators and escape characters in each token and joining gives back the tokens.", "quantifier": "all token lists and all separator/escape characters", "why_tests_cant": "All strings, including those containing the escape character.", "anchors": ["pixell/utils.py:split_esc"]}
{"id": "C37", "title": "split_slice distributes indices over axis groups", "statement": "split_slice(sel, ndims) assigns to each group of axes at most its number of consuming indices; concatenated, the groups contain the original index expressions in order, and too many indices is an error.", "quantifier": "all index tuples (with at most one Ellipsis and any None) and all group sizes", "why_tests_cant": "Unbounded tuples; interplay of None and Ellipsis.", "anchors": ["pixell/utils.py:split_slice", "pixell/utils.py:split_slice_simple"]}
{"id": "C38", "title": "Sexagesimal conversion round trip", "statement": "from_sexa(to_sexa(x)) = x with minutes and seconds in [0,60), and the formatted form keeps the sign of the angle.", "quantifier": "all rational angles, including those between -1 and 0 degrees", "why_tests_cant": "All values; sign handling near zero is measure-zero in random tests.", "anchors": ["pixell/utils.py:to_sexa", "pixell/utils.py:from_sexa", "pixell/utils.py:format_sexa"]}
{"id": "C39", "title": "Greedy crossmatching yields a valid maximal matching", "statement": "crossmatch in mode 'closest' returns pairs that are each within the radius, use every point at most once, and leave no unmatched pair within the radius; the matching is stable with respect to distance.", "quantifier": "all candidate pair lists and distances", "why_tests_cant": "Depends on arbitrary conflict structure between candidates.", "anchors": ["pixell/utils.py:crossmatch"]}
{"id": "C40", "title": "Conjugate gradients keeps its residual and can be resumed", "statement": "After any number of steps the solver's residual equals b - A x, the step leaves the residual orthogonal to the previous one (M = identity, symmetric A), and saving the state and loading it in a fresh solver continues with identical iterates.", "quantifier": "all linear operators, right-hand sides, step counts, and save points", "why_tests_cant": "Invariant over an unbounded iteration and every crash point.", "anchors": ["pixell/utils.py:CG"]}
{"id": "C41", "title": "Minres keeps its residual", "statement": "After any number of steps the Minres residual equals b - A x and the auxiliary product equals A p.", "quantifier": "all linear operators, right-hand sides and step counts", "why_tests_cant": "Invariant over unbounded iterations.", "anchors": ["pixell/utils.py:Minres"]}
{"id": "C42", "title": "Jacobi inversion error recursion", "statement": "For linear forward and backward operators, if y = forward(x) then after niter iterations the error equals (I - B A)^(niter+1) applied to -x; in particular an exact inverse is recovered exactly and a fixed point is never left.", "quantifier": "all linear operators and all iteration counts", "why_tests_cant": "Quantifies over operators and iteration counts.", "anchors": ["pixell/curvedsky.py:jacobi_inverse"]}
{"id": "C43", "title": "Haar wavelet transform is lossless", "statement": "wave2map(map2wave(m)) = m for every map and number of levels.", "quantifier": "all maps, all level counts, all offsets chosen by the reference point", "why_tests_cant": "Induction over number of levels and arbitrary incomplete blocks.", "anchors": ["pixell/wavelets.py:HaarTransform"]}
{"id": "C44", "title": "Fourier resampling keeps each coefficient at its frequency", "statement": "Resampling in Fourier space moves the coefficient of every frequency representable in both grids to the slot of the same frequency in the output; up- then down-sampling is the identity.", "quantifier": "all input and output lengths, even and odd", "why_tests_cant": "Parity-dependent index arithmetic for all lengths.", "anchors": ["pixell/fft.py:resample_fft", "pixell/resample.py:resample_fft", "pixell/enmap.py:resample_fft"]}
{"id": "C45", "title": "Frequency index conversions are inverse", "statement": "freq2ind(ind2freq(i)) = i for every valid index and both follow the standard FFT frequency order.", "quantifier": "all array lengths and indices, all positive sample rates", "why_tests_cant": "Parity and wraparound for all lengths.", "anchors": ["pixell/fft.py:ind2freq", "pixell/fft.py:freq2ind"]}
{"id": "C46", "title": "Compressed symmetric order enumerates each component pair once", "statement": "compressed_order(n,scheme) has exactly n distinct unordered index pairs for every scheme; for a full count every unordered pair appears once; for 'stable' the order for n is a prefix of the order for n+1.", "quantifier": "all n and all three schemes", "why_tests_cant": "All n, including partial ones.", "anchors": ["pixell/powspec.py:compressed_order"]}
{"id": "C47", "title": "sym_compress and sym_expand are inverse", "statement": "sym_expand(sym_compress(M)) = M for every symmetric matrix, with and without the combined flag.", "quantifier": "all matrix sizes and all symmetric matrices", "why_tests_cant": "All sizes and entries.", "anchors": ["pixell/powspec.py:sym_compress", "pixell/powspec.py:sym_expand"]}
{"id": "C48", "title": "alm layout is a bijection", "statement": "alm_info maps each (l,m) with 0<=m<=min(l,mmax), l<=lmax to a distinct index below nelem, filling the array without gaps in the triangular layout with mmax=lmax and stride 1; nalm2lmax inverts the element count.", "quantifier": "all lmax, mmax <= lmax, strides", "why_tests_cant": "Injectivity over all l,m pairs.", "anchors": ["pixell/curvedsky.py:alm_info", "pixell/curvedsky.py:nalm2lmax"]}
{"id": "C49", "title": "Transferring and transposing alms", "statement": "transfer_alm copies each (l,m) present in both layouts to its place and leaves everything else untouched, so transferring to a larger layout and back is the identity; transpose_alm is a permutation sending the k-th coefficient in m-major order to the k-th slot in l-major order.", "quantifier": "all layouts and coefficients", "why_tests_cant": "All layout pairs and all coefficients; loop-carried output indices.", "anchors": ["cython/cmisc.pyx:transfer_alm", "cython/cmisc_core.c:transpose_alm_dp", "pixell/curvedsky.py:transfer_alm"]}
{"id": "C50", "title": "Per-l multiplication touches only valid coefficients", "statement": "lmul multiplies coefficient (l,m) by lfun[l] (zero beyond the length of lfun) and matrix lmul computes the per-l matrix product; no write ever falls outside the addressed coefficients, in single and double precision alike.", "quantifier": "all layouts, filter lengths (shorter or longer than lmax+1) and matrix sizes", "why_tests_cant": "Out-of-range writes depend on relations between lengths and show up as silent corruption.", "anchors": ["cython/cmisc_core.c:lmul_dp", "cython/cmisc_core.c:lmatmul_dp", "cython/cmisc_core.c:lmatmul_sp"]}
{"id": "C51", "title": "Power spectra do not depend on the thread schedule", "statement": "alm2cl gives C_l = (a_l0 b_l0 + 2 Re sum_{m>=1} a_lm conj b_lm)/(2l+1) whatever the number of threads and whatever the assignment of m values to threads.", "quantifier": "all thread counts, all dynamic schedules, all lmax/mmax, all coefficients", "why_tests_cant": "The number of schedules is unbounded and not controllable from a test.", "anchors": ["cython/cmisc_core.c:alm2cl_dp", "cython/cmisc_core.c:alm2cl_sp"]}
{"id": "C52", "title": "Memory pool never hands out overlapping memory", "statement": "Between two resets all buffers handed out by a Mempool are aligned, have the requested size, lie inside a live arena and are pairwise disjoint, for any sequence of alloc/reset/free calls.", "quantifier": "all histories of pool operations, all sizes and alignments", "why_tests_cant": "History property.", "anchors": ["pixell/device.py:Mempool", "pixell/device.py:AllocAligned", "pixell/device.py:round_up"]}
{"id": "C53", "title": "Memory pool reaches a steady state", "statement": "If the same sequence of allocations is repeated with a reset in between, the pool eventually serves it without requesting new memory.", "quantifier": "all allocation sequences, starting from any reachable pool state", "why_tests_cant": "Liveness over unbounded repetition.", "anchors": ["pixell/device.py:Mempool.alloc", "pixell/device.py:Mempool.reset"]}
{"id": "C54", "title": "Reading a map file lazily is repeatable", "statement": "Indexing a lazily opened FITS map twice with the same selection returns the same data both times, whatever reads happen in between.", "quantifier": "all histories of reads, all selections, with and without sign flips", "why_tests_cant": "History property; single-read tests cannot see state corruption.", "anchors": ["pixell/enmap.py:ndmap_proxy_fits"]}
{"id": "C55", "title": "HDF writes replace only what they name", "statement": "Writing a map to an address in an existing HDF file replaces that group and leaves the others unchanged, and reading any group returns what was last written there; the same is expected of Bunch.write with a group.", "quantifier": "all histories of writes and reads to any set of groups", "why_tests_cant": "History property over arbitrary sequences of writes.", "anchors": ["pixell/enmap.py:write_hdf", "pixell/bunch.py:write_hdf", "pixell/bunch.py:read_hdf"]}
{"id": "C56", "title": "Nested Bunch HDF round trip", "statement": "Reading a Bunch written to HDF returns an equal (arbitrarily nested) Bunch.", "quantifier": "all finite nested bunches", "why_tests_cant": "Unbounded nesting.", "anchors": ["pixell/bunch.py:write_hdf_recursive", "pixell/bunch.py:read_hdf_recursive"]}
{"id": "C57", "title": "cache_get computes a key once", "statement": "cache_get(cache,key,op) with a dictionary cache returns op() and computes it at most once per key during any history of calls.", "quantifier": "all call histories, starting from an empty or filled cache", "why_tests_cant": "History property; the empty cache is a falsy value.", "anchors": ["pixell/utils.py:cache_get"]}
{"id": "C58", "title": "Memoised cross spectra are the right spectra", "statement": "calc_ps2d with its cross-spectrum cache and alm2cl with its address-keyed cache return for every output component the spectrum of the corresponding inputs.", "quantifier": "all collections of array views (including views sharing start addresses)", "why_tests_cant": "Aliasing patterns between views are unbounded.", "anchors": ["pixell/enmap.py:calc_ps2d", "cython/cmisc.pyx:alm2cl"]}
{"id": "C59", "title": "Bunch behaves like a dictionary", "statement": "For any history of item and attribute assignments, deletions, updates and copies, item access, membership, length and iteration order of a Bunch agree with a plain dictionary, and attribute access agrees with item access for names that are not reserved.", "quantifier": "all operation histories and key names", "why_tests_cant": "History property.", "anchors": ["pixell/bunch.py:Bunch"]}
{"id": "C60", "title": "label_multi labels distinguish exactly the distinct combinations", "statement": "label_multi assigns two positions the same label if and only if they agree in every input array.", "quantifier": "all lists of equally long arrays", "why_tests_cant": "All combinations; collisions need specific index structure.", "anchors": ["pixell/utils.py:label_multi", "pixell/utils.py:label_unique"]}
{"id": "C61", "title": "spin_helper partitions the components", "statement": "spin_helper(spins,n) yields consecutive intervals covering components 0..n exactly once, of width 1 for spin 0 and width 2 otherwise, cycling through the spins; when this is impossible it raises.", "quantifier": "all spin lists and all component counts", "why_tests_cant": "All counts; remainders at the end.", "anchors": ["pixell/enmap.py:spin_helper"]}
{"id": "C62", "title": "Blocked position evaluation covers every row", "statement": "calc_locinfo processes every row of the map exactly once, whatever the block size.", "quantifier": "all map heights and block sizes", "why_tests_cant": "Boundary between blocks depends on height modulo block size (default 1000).", "anchors": ["pixell/curvedsky.py:calc_locinfo"]}
{"id": "C63", "title": "HEALPix ring table", "statement": "get_ring_info_healpix(nside) lists 4*nside-1 rings whose pixel counts sum to 12*nside^2, are symmetric between the hemispheres, and whose offsets are the running sums.", "quantifier": "all nside >= 1", "why_tests_cant": "All nside.", "anchors": ["pixell/curvedsky.py:get_ring_info_healpix"]}
{"id": "C64", "title": "Multimaps store and return each map", "statement": "multimap(maps).maps[i] equals maps[i]; writing one member leaves the others unchanged; views address disjoint parts of the buffer that fill it.", "quantifier": "all lists of maps of any sizes", "why_tests_cant": "All lists.", "anchors": ["pixell/multimap.py:multimap", "pixell/multimap.py:ndmaps"]}
{"id": "C65", "title": "distpow is repeated convolution", "statement": "distpow(dist,n) equals the n-fold convolution of the distribution with itself, with total mass equal to the n-th power of the mass.", "quantifier": "all finite distributions, all n >= 1", "why_tests_cant": "Binary exponentiation must be right for all bit patterns of n.", "anchors": ["pixell/utils.py:distpow"]}
{"id": "C66", "title": "Row rolling is a cyclic shift", "statement": "roll_rows moves each row cyclically by its offset, for every offset.", "quantifier": "all row lengths and offsets", "why_tests_cant": "Offsets larger than the row are rare in tests.", "anchors": ["fortran/array_ops.F90:roll_rows"]}
{"id": "C67", "title": "Preparing a buffer for SHT is reversible", "statement": "buffer2map(map2buffer(m,flip,pad),flip,pad) = m, the buffer geometry assigns the same sky position to the same data, and the padding is zero.", "quantifier": "all maps, flips and non-negative paddings", "why_tests_cant": "All flip/pad combinations.", "anchors": ["pixell/curvedsky.py:map2buffer", "pixell/curvedsky.py:buffer2map", "pixell/curvedsky.py:flip_geometry"]}
{"id": "C68", "title": "split_hdf_path separates file and group", "statement": "For a path made of a file name whose last component contains a dot and group components without dots, split_hdf_path returns exactly this file and group; joined with '/', they give back the path.", "quantifier": "all path component lists", "why_tests_cant": "All strings.", "anchors": ["pixell/bunch.py:split_hdf_path"]}
{"id": "C69", "title": "Blank-edge cropping is exact and minimal", "statement": "autocrop removes exactly the leading and trailing rows and columns that are entirely blank: the kept box starts and ends with a non-blank line and all removed lines are blank.", "quantifier": "all maps", "why_tests_cant": "All patterns of blank pixels.", "anchors": ["pixell/enmap.py:find_blank_edges", "pixell/enmap.py:autocrop"]}
{"id": "C70", "title": "Masks grow and shrink consistently", "statement": "grow_mask(m,r) contains m (for r>0), shrink_mask(m,r) is contained in m, both are monotone in m, and shrinking is the complement of growing the complement.", "quantifier": "all masks, radii, and metric spaces", "why_tests_cant": "All masks and metrics.", "anchors": ["pixell/enmap.py:grow_mask", "pixell/enmap.py:shrink_mask"]}
{"id": "C71", "title": "Index inversion helpers", "statement": "inverse_order inverts any permutation, common_inds returns the indices of the common elements, complement_inds the remaining indices, find locates each element, and unmask scatters values back so that masking recovers them.", "quantifier": "all permutations and arrays without duplicates", "why_tests_cant": "All permutations.", "anchors": ["pixell/utils.py:inverse_order", "pixell/utils.py:common_inds", "pixell/utils.py:complement_inds", "pixell/utils.py:find", "pixell/utils.py:unmask"]}
{"id": "C72", "title": "Accumulating by identifier conserves the sum", "statement": "sum_by_id and bin_multi accumulate every sample exactly once into the bin of its identifier.", "quantifier": "all identifier and value arrays", "why_tests_cant": "All arrays.", "anchors": ["pixell/utils.py:sum_by_id", "pixell/utils.py:bin_multi"]}
{"id": "C73", "title": "cumsum gives packed-buffer offsets", "statement": "cumsum(a) lists the running sums starting at zero, with endpoint=True including the total, so that consecutive offsets delimit consecutive pieces of length a[i].", "quantifier": "all integer lists", "why_tests_cant": "All lists; used as offsets in every packed buffer.", "anchors": ["pixell/utils.py:cumsum", "pixell/utils.py:uncat"]}
{"id": "C74", "title": "find_equal_groups partitions by equality", "statement": "find_equal_groups lists, for every distinct value, exactly the indices holding it.", "quantifier": "all arrays", "why_tests_cant": "All arrays.", "anchors": ["pixell/utils.py:find_equal_groups"]}
{"id": "C75", "title": "Colour mapping is bounded interpolation", "statement": "colorize in scalar mode gives each finite value a colour between the colours of its two neighbouring control points, clamps at the ends, maps control values to their own colour, and makes NaN transparent.", "quantifier": "all sorted control tables with distinct values and all inputs", "why_tests_cant": "All inputs.", "anchors": ["pixell/colorize.py:colorize_scalar_python"]}
{"id": "C76", "title": "Triangle wave", "statement": "triangle_wave has the documented period, stays in [-1,1] and is linear on each quarter period.", "quantifier": "all rational inputs and positive periods", "why_tests_cant": "All inputs.", "anchors": ["pixell/utils.py:triangle_wave"]}
{"id": "C77", "title": "block transposition, flattening and shape helpers are inverse", "statement": "partial_expand(partial_flatten(a)) = a: flattening selected axes and expanding back is the identity on indices.", "quantifier": "all shapes and axis selections", "why_tests_cant": "All dimensionalities.", "anchors": ["pixell/utils.py:partial_flatten", "pixell/utils.py:partial_expand"]}
{"id": "C78", "title": "The full-sky geometry covers the sky exactly once", "statement": "fullsky_geometry places the rows symmetrically about the equator with the outermost pixel centres (CC) or pixel edges (Fejer1) exactly at the poles, and the columns make exactly one turn with no two columns at the same right ascension.", "quantifier": "all numbers of rows and columns, both variants", "why_tests_cant": "The half-pixel bookkeeping depends on parity and variant for every size.", "anchors": ["pixell/enmap.py:fullsky_geometry"]}
{"id": "C79", "title": "Expanding a tiled map to other tiles keeps its data", "statement": "with_tiles returns a map with the requested tiles added (or, if strict, exactly the requested tiles in the requested order), in which every tile the map had before has its old data and every new one is zero.", "quantifier": "all active lists before and after, all data", "why_tests_cant": "Needs every combination of old and new tile lists, including empty ones.", "anchors": ["pixell/tilemap.py:TileMap.with_tiles", "pixell/tilemap.py:TileGeometry.copy"]}
{"id": "C80", "title": "The distance transform is the distance to the nearest False pixel", "statement": "distance_transform(mask, rmax) is zero in every False pixel and elsewhere the great-circle distance to the closest False pixel of the whole map (not only to the edge pixels it looks at), or rmax if there is none; no method ever reports less than the true distance.", "quantifier": "all masks, all cylindrical maps, all rmax, all methods", "why_tests_cant": "The argument that only edge pixels matter is geometric and concerns every mask; the propagation methods visit pixels in a data-dependent order.", "anchors": ["pixell/enmap.py:distance_transform", "pixell/enmap.py:distance_from", "cython/distances_core.c:distance_from_points_cellgrid"]}
{"id": "C81", "title": "Recognised harmonic-transform grids have the right rows and columns", "statement": "When analyse_geometry reports that a map fits a known full-sky grid, every row of the map, after the flip and padding it reports, sits at the colatitude of the row of that grid with the same number, no two rows share one, and the columns make one full turn with the reported padding; get_method then never selects the fast path for a map that does not fit.", "quantifier": "all linear cylindrical geometries (row count, step, offset, orientation), all tolerances", "why_tests_cant": "Recognition is by rounding row offsets; a wrong case sends a user's map silently to a transform of another grid.", "anchors": ["pixell/curvedsky.py:analyse_geometry", "pixell/curvedsky.py:get_ducc_geo", "pixell/curvedsky.py:get_method"]}
{"id": "C82", "title": "Every row gets its own quadrature weight", "statement": "The quadrature weights used by map2alm and returned by quad_weights are, row for row in the order of the map itself, the weights of the rows of the recognised grid.", "quantifier": "all geometries that are recognised, both orientations, all paddings", "why_tests_cant": "Padding and flipping combine for every position of the map on the grid; a swap gives plausible but wrong coefficients.", "anchors": ["pixell/curvedsky.py:quad_weights", "pixell/curvedsky.py:map2alm", "pixell/curvedsky.py:map2alm_cyl"]}
{"id": "C83", "title": "Ring tables address each pixel once, also after limiting in colatitude", "statement": "The ring table of a cylindrical map gives each pixel of the map exactly one ring and place; limiting a table to a range of colatitudes keeps exactly the rings in the range, each with its own pixel count, first longitude and position in the map.", "quantifier": "all map sizes, all tables, all limits", "why_tests_cant": "Every ring, every limit; the tests never pass theta_min.", "anchors": ["pixell/curvedsky.py:get_ring_info", "pixell/curvedsky.py:apply_minfo_theta_lim", "pixell/curvedsky.py:alm2map_healpix", "pixell/curvedsky.py:map2alm_healpix"]}
{"id": "C84", "title": "A coordinate box selects the right pixels", "statement": "submap, subgeo and subinds select, in the default mode, exactly the pixels between the ends of a box whose ends are pixel edges, robustly against rounding errors and in either direction of the box; boxes that touch select adjoining pixels without overlap or gap; modes inclusive and exclusive include or exclude every partly selected pixel; capping keeps exactly the pixels of the map; and the result of submap has at every pixel the position and value of the selected pixel.", "quantifier": "all maps, boxes (either direction, also outside the map or wrapping around the sky), modes and tolerances", "why_tests_cant": "Rounding at each end depends on direction and mode; only a proof covers all offsets of a box against the grid.", "anchors": ["pixell/enmap.py:submap", "pixell/enmap.py:subgeo", "pixell/enmap.py:subinds", "pixell/enmap.py:skybox2pixbox"]}
{"id": "C85", "title": "Objects are painted once on every pixel they reach, for every schedule", "statement": "sim_objects gives every pixel the old value merged with amplitude times profile of exactly the objects whose box touches the pixel's block of the map, each object once and in catalogue order, whatever the interleaving of the threads; no pixel of an object's box is missed, also across the edge where the map wraps around the sky; the operation asked for (add, max, min) is the one applied; and the transposed operation is the adjoint of painting for every distribution of work over threads.", "quantifier": "all maps, catalogues, profiles, cell sizes, operations, thread interleavings and work distributions", "why_tests_cant": "Thread interleavings and positions relative to cell boundaries cannot be enumerated.", "anchors": ["pixell/pointsrcs.py:sim_objects", "cython/srcsim_core.c:sim_objects", "cython/srcsim_core.c:assign_cells", "cython/srcsim_core.c:process_cell", "cython/srcsim_core.c:reduce_amps"]}
{"id": "C86", "title": "Object profiles are interpolated linearly and painted out to the cutoff", "statement": "The profile of an object is the straight line between its samples, the same with the search and with the fast lookup for equally spaced samples; an object is painted at least as far out as its profile reaches the cutoff vmin, independently of how many objects there are in the catalogue.", "quantifier": "all profiles (also changing sign), amplitudes, cutoffs, distances and catalogue lengths", "why_tests_cant": "The extent depends on a precomputed table that is only used for long catalogues; tests use short ones.", "anchors": ["cython/srcsim_core.c:evaluate_profile", "cython/srcsim_core.c:binary_search", "cython/srcsim_core.c:equi_search", "cython/srcsim_core.c:measure_rmax", "cython/srcsim_core.c:build_prof_info", "pixell/pointsrcs.py:is_equi"]}
{"id": "C87", "title": "Radial sums count each pixel once in the bin of its distance", "statement": "radial_sum adds to every bin of an object the pixels around it whose distance is between the edges of the bin, each pixel once, also when the surroundings reach around the map.", "quantifier": "all maps, objects, bin edges and distances", "why_tests_cant": "Every bin, edge case and wrap; only sample profiles are tested.", "anchors": ["pixell/pointsrcs.py:radial_sum", "pixell/pointsrcs.py:radial_bin", "cython/srcsim_core.c:radial_sum", "cython/srcsim_core.c:wrap_box"]}
{"id": "C88", "title": "Interpolation is a weighted mean of neighbours, and its transpose is its adjoint", "statement": "map_coordinates gives at each point the tensor-product sum of the kernel weights times the neighbouring samples, indices outside the grid being mapped back by the border rule; constants are reproduced everywhere and, for interpolating kernels, the data at the grid points. trans=True is the exact transpose of this operation, for any number of points and any order in which the parallel threads add their contributions, and never writes outside the array.", "quantifier": "all array shapes and dimensions, positions, values, borders and kernels, and all orders of the atomic updates", "why_tests_cant": "Ranges over all positions and shapes and over all thread schedules; dot-product tests sample one.", "anchors": ["pixell/interpol.py:map_coordinates", "fortran/interpol.F90:interpol", "fortran/interpol.F90:calc_weights", "fortran/interpol.F90:map_border"]}
{"id": "C89", "title": "The spline prefilter makes spline interpolation pass through the data, and has an adjoint", "statement": "With the default prefilter, spline interpolation of order 2 to 5 returns the data at every grid point to within the stated tolerance (1e-13 per axis) for each border; and interpolation with trans=True including the transposed filter is the adjoint of interpolation including the filter.", "quantifier": "all array shapes and dimensions, values, orders and borders", "why_tests_cant": "A statement about all arrays of all lengths, including those shorter than the filter's tail.", "anchors": ["pixell/interpol.py:map_coordinates", "pixell/interpol.py:spline_filter", "fortran/interpol.F90:spline_filter1d"]}
{"id": "C90", "title": "The derivative of an interpolated array is its derivative", "statement": "map_coordinates(deriv=True) gives the partial derivatives of the interpolated value with respect to the position along each axis, for every kernel of order two or more, and trans=True its adjoint.", "quantifier": "all array shapes and dimensions, values, positions, borders and kernels", "why_tests_cant": "A derivative is a limit over all nearby positions; finite differences at sample positions cannot settle it.", "anchors": ["pixell/interpol.py:map_coordinates", "fortran/interpol.F90:interpol_deriv", "fortran/interpol.F90:calc_weights_deriv"]}
{"id": "C91", "title": "A wavelet basis shares out every multipole, and a map is recovered from its wavelet maps", "statement": "At every multipole up to lmax the squared filters of all scales add up to 1, also after each scale is cut at its own lmaxs, so that map2wave followed by wave2map returns every harmonic coefficient up to lmax when the harmonic transforms of the wavelet maps are exact. The digitized filters are 0 or 1 with exactly one equal to 1.", "quantifier": "all multipoles, numbers of scales, steps, shapes, trims and tolerances, peak lists, coefficients and thread orders of the filter loop", "why_tests_cant": "A partition of unity over all multipoles and parameter choices; tests compare one map with its reconstruction to a tolerance.", "anchors": ["pixell/wavelets.py:Butterworth", "pixell/wavelets.py:ButterTrim", "pixell/wavelets.py:DigitalButterTrim", "pixell/wavelets.py:CosineNeedlet", "pixell/wavelets.py:WaveletTransform.map2wave", "pixell/wavelets.py:WaveletTransform.wave2map"]}
{"id": "C92", "title": "The Fourier transforms of a map are each other's inverse, their adjoints are adjoints, and polarization survives", "statement": "With a normalization, ifft(fft(m)) = m and fft(ifft(f)) = f; unitary normalization keeps inner products and \"phys\" multiplies them by the pixel area; fft_adjoint and ifft_adjoint are the adjoints of fft and ifft; harm2map(map2harm(m)) = m and the reverse, and their _adjoint versions are their adjoints, for every spin list and sign convention; both raise for the same numbers of components.", "quantifier": "all map sizes, values, pixel areas, normalizations, wavenumbers, spin lists and numbers of components", "why_tests_cant": "Inverse and adjoint identities between linear maps of any size; tests compare random maps to a tolerance.", "anchors": ["pixell/enmap.py:fft", "pixell/enmap.py:ifft", "pixell/enmap.py:map2harm", "pixell/enmap.py:harm2map", "pixell/enmap.py:map2harm_adjoint", "pixell/enmap.py:queb_rotmat", "pixell/enmap.py:spin_helper"]}
{"id": "C93", "title": "Shifting by a number of samples adds up", "statement": "fft.shift by a whole number of samples is a cyclic roll; shifting by s and then by t is shifting by s + t, for any real s and t, so shifting back restores the array; deriv gives the derivative with respect to the shift.", "quantifier": "all lengths, arrays, real shifts", "why_tests_cant": "A group law over real-valued shifts and all arrays.", "anchors": ["pixell/fft.py:shift"]}
{"id": "C94", "title": "Cosine and sine transforms are undone by their inverses", "statement": "For each of the eight types, idct(dct(x, type), type, normalize=True) = x and the reverse, along one or two axes; enmap.idct(enmap.dct(m)) = m; dct_adjoint is the adjoint of enmap.dct; the result does not depend on the engine.", "quantifier": "all types, lengths from 1 (2 for DCT-I), arrays and axes", "why_tests_cant": "Orthogonality of the cosines for every length; tests try one length.", "anchors": ["pixell/fft.py:dct", "pixell/fft.py:idct", "pixell/enmap.py:dct", "pixell/enmap.py:idct", "pixell/enmap.py:dct_adjoint", "pixell/fft.py:numpy_FFTW"]}
{"id": "C95", "title": "A real array is recovered from half of its Fourier coefficients", "statement": "rfft returns the first n//2+1 coefficients, from which the others follow; irfft(rfft(x), n=len(x), normalize=True) = x for every length; without n exactly the even lengths come back, the odd ones one sample short.", "quantifier": "all lengths and real arrays", "why_tests_cant": "A statement for both parities and all lengths.", "anchors": ["pixell/fft.py:rfft", "pixell/fft.py:irfft"]}
{"id": "C96", "title": "The Chebyshev transform gives Chebyshev coefficients along the last axis", "statement": "chebt returns the coefficients of the Chebyshev series that takes the given values at the Chebyshev points, along the last axis; ichebt evaluates the series there; the two undo each other; redft00 is the DCT-I.", "quantifier": "all lengths from 2, all arrays, any number of leading rows", "why_tests_cant": "The interpolation identity ranges over all arrays and lengths and is stated with the Chebyshev polynomials themselves.", "anchors": ["pixell/fft.py:chebt", "pixell/fft.py:ichebt", "pixell/fft.py:redft00"]}
{"id": "C97", "title": "Rotations of the sphere are rotations, undone by their inverses, and recentering puts the center where asked", "statement": "ang2rect and rect2ang are each other's inverse; every euler_mat keeps inner products and orientation; rotating by the reversed negated angles gives every position back; recenter moves the center to the pole or to the given position; decenter undoes recenter, hor2tele undoes tele2hor; calls do not change their arguments.", "quantifier": "all angles, axes, positions, centers in both forms, restore flags", "why_tests_cant": "Identities of trigonometric functions over all real angles.", "anchors": ["pixell/utils.py:ang2rect", "pixell/utils.py:rect2ang", "pixell/utils.py:rotmatrix", "pixell/coordinates.py:euler_mat", "pixell/coordinates.py:euler_rot", "pixell/coordinates.py:recenter", "pixell/coordinates.py:decenter", "pixell/coordinates.py:tele2hor"]}
{"id": "C98", "title": "The angular distance is the angle on the sphere", "statement": "angdist is the angle between the two directions in both conventions; it is symmetric, between 0 and pi, zero only for equal directions, and not changed by rotations; vec_angdist is the angle between two vectors of any length.", "quantifier": "all positions, conventions, rotations and non-zero vectors", "why_tests_cant": "An identity between formulas over all positions, including coincident and opposite ones.", "anchors": ["pixell/utils.py:angdist", "pixell/utils.py:vec_angdist"]}
{"id": "C99", "title": "Transforming to another coordinate system ends and can be undone", "statement": "For every pair of coordinate systems transform_raw's loop ends, visiting at most five systems; the way back visits the same systems in reverse, so that if every single step is undone by the opposite step, transforming there and back gives the position back, also with reference points.", "quantifier": "all pairs of systems, all step functions with inverses, all reference points", "why_tests_cant": "A termination and inverse statement about a loop whose branches depend on both systems.", "anchors": ["pixell/coordinates.py:transform_raw", "pixell/coordinates.py:nohor"]}
{"id": "C100", "title": "A Doppler boost is undone by the opposite boost, and boosts compose by adding velocities", "statement": "calc_boost_1d maps directions to directions, with positive amplitude; with -beta it gives the direction back and the inverse amplitude; two boosts are one boost with the relativistic sum of the speeds; the aberration keeps the order of directions, fixes the poles, moves everything else towards the direction of travel, and changes solid angles by the inverse square of the amplitude.", "quantifier": "all directions, all speeds below that of light", "why_tests_cant": "Identities between rational and square-root functions over continuous ranges, and a derivative.", "anchors": ["pixell/aberration.py:calc_boost_1d"]}
{"id": "C101", "title": "Planck spectra, their inverse and derivative belong together, and modulations can be undone", "statement": "iplanck_T undoes planck and conversely; dplanck is the derivative of planck; \"lin2T\" with the inverse amplitude undoes \"T2lin\" for every monopole temperature; without a boost \"T2lin\" is the change to linearized units; the plain modulation multiplies the whole temperature, monopole included when the dipole is asked for.", "quantifier": "all positive temperatures, intensities, frequencies, amplitudes, units, spins, dipole flags", "why_tests_cant": "Inverse functions and derivatives over continuous ranges.", "anchors": ["pixell/utils.py:planck", "pixell/utils.py:iplanck_T", "pixell/utils.py:dplanck", "pixell/aberration.py:apply_modulation", "pixell/aberration.py:_modulate_T2lin", "pixell/aberration.py:_modulate_lin2T"]}
{"id": "C102", "title": "Rotations of polarization act as a group", "statement": "rotate_pol multiplies Q+iU by the phase of spin times angle and leaves other components alone; rotations add up, zero changes nothing, the opposite rotation undoes, the polarized intensity is kept.", "quantifier": "all angles, spins, component pairs, maps", "why_tests_cant": "Trigonometric identities for all angles.", "anchors": ["pixell/enmap.py:rotate_pol", "pixell/aberration.py:rotate_pol"]}
{"id": "C103", "title": "The periodic extension of full-sky maps follows the documented boundary condition", "statement": "fast_rewind moves a pixel coordinate at most one period away into 0:nphi by whole periods; the doubled map used for boundary=\"fullsky\" continues a map over the pole, map[Ny,x]=map[Ny-1,x+Nx/2].", "quantifier": "all coordinates, periods, map sizes and contents", "why_tests_cant": "For all maps and coordinates.", "anchors": ["pixell/aberration.py:fast_rewind", "pixell/aberration.py:interpol_map"]}
{"id": "C104", "title": "redistribute gives every task the parts of the distributed array it asked for", "statement": "When the input arrays of all tasks are slices of one global array, redistribute returns on every task, for each of its output boxes, the values of the global array wherever some input box covers them and zero elsewhere; with wrap, indices that differ by the wrap length are the same pixel.", "quantifier": "all numbers of tasks, all lists of boxes per task with all strides and directions, overlapping or not, all contents", "why_tests_cant": "It quantifies over all layouts of boxes over all tasks; a test covers a few layouts on one process.", "anchors": ["pixell/utils.py:redistribute", "pixell/utils.py:sbox_intersect", "pixell/utils.py:sbox_div"]}
{"id": "C105", "title": "Lensing deflections follow great circles and transport polarization in parallel", "statement": "offset_by_grad moves a position along the great circle in the direction of the gradient by the gradient's length, for every position and gradient; lens_map_curved rotates polarization by the angle between the frames along that great circle.", "quantifier": "all positions, gradients of any length and direction", "why_tests_cant": "Spherical trigonometry over all positions; near the poles the answer depends on the branch of an inverse sine that a small test never meets.", "anchors": ["pixell/lensing.py:offset_by_grad", "pixell/lensing.py:offset_by_grad_helper", "pixell/lensing.py:lens_map_curved"]}
{"id": "C106", "title": "Wrapping at the poles keeps directions, and convergence and potential belong together", "statement": "pole_wrap returns the same direction with a latitude between the poles; the fast form of offset_by_grad too; kappa_to_phi undoes phi_to_kappa except for the monopole.", "quantifier": "all latitudes and longitudes, all gradients, all coefficients", "why_tests_cant": "For all real latitudes, over any number of turns.", "anchors": ["pixell/utils.py:pole_wrap", "pixell/lensing.py:pole_wrap", "pixell/lensing.py:phi_to_kappa", "pixell/lensing.py:kappa_to_phi"]}
{"id": "C107", "title": "The matched filter returns the flux of a source, its uncertainty, and nothing does better", "statement": "For noise with a constant power spectrum, filtering the beam-smoothed map of one source of flux F gives rho/kappa=F at its pixel, the largest value of rho is there, kappa is the variance of rho under the stated noise, and no unbiased linear estimate of the flux has smaller variance than 1/kappa.", "quantifier": "all map sizes, beams, noise spectra, source positions and fluxes, all linear estimates", "why_tests_cant": "Optimality ranges over all estimators; unbiasedness over all beams, spectra and positions.", "anchors": ["pixell/analysis.py:matched_filter_constcov", "pixell/analysis.py:NmatConstcov.matched_filter", "pixell/uharm.py:UHT"]}
{"id": "C108", "title": "Matched filters for varying depth, and for several maps at once, return the fluxes", "statement": "rho=kappa*F at the pixel of a source for white noise of any depth, for the dual noise model, for the correlated models, and for several maps with a noise covariance between them.", "quantifier": "all depth maps, noise spectra, beams, numbers of maps, map sizes, positions and fluxes", "why_tests_cant": "For all depth maps and spectra; the approximations made for some models hold only in special cases that tests tend to choose.", "anchors": ["pixell/analysis.py:matched_filter_white", "pixell/analysis.py:matched_filter_constcorr_dual", "pixell/analysis.py:matched_filter_constcorr_lowcorr", "pixell/analysis.py:matched_filter_constcorr_smoothivar", "pixell/analysis.py:NmatConstcov.matched_filter", "pixell/analysis.py:NmatConstcorr.matched_filter"]}
{"id": "C109", "title": "Real-space powers of harmonic profiles", "statement": "hprof_rpow returns the harmonic profile of the power of the real-space profile: the first power is the profile itself, the second its convolution with itself.", "quantifier": "all map sizes, areas, symmetric profiles", "why_tests_cant": "For all profiles.", "anchors": ["pixell/uharm.py:UHT.hprof_rpow"]}
{"id": "C110", "title": "The source finder groups sources by strength, keeps the best profile of each pixel and solves for the fluxes", "statement": "snr_split puts every source in one group, strongest first, within a factor 1/sntol of one another; FinderMulti keeps the profile with the highest S/N in each pixel; solve_mapsys returns the fluxes with kappa*flux=rho; sanitize_kappa raises the diagonal only.", "quantifier": "all lists of S/N ratios, tolerances, numbers of profiles, kappa matrices", "why_tests_cant": "For all lists and matrices.", "anchors": ["pixell/analysis.py:snr_split", "pixell/analysis.py:FinderMulti.__call__", "pixell/analysis.py:solve_mapsys", "pixell/analysis.py:sanitize_kappa"]}
{"id": "C111", "title": "nearest_ind finds nearest elements; dedup removes exactly the repeats", "statement": "nearest_ind returns a valid index of an element nearest to each value (the lowest of equally near ones); dedup removes consecutive repeats only and loses no value.", "quantifier": "all arrays, sorted or not, all values", "why_tests_cant": "For all arrays and all values, including ties and the smallest arrays.", "anchors": ["pixell/utils.py:nearest_ind", "pixell/utils.py:dedup"]}
{"id": "C112", "title": "Weighted quantiles are ordered, bounded and scale free; the weighted median generalises the median", "statement": "weighted_quantile lies between the smallest and the largest value, does not decrease with the quantile, does not depend on the scale of the weights, gives the median for equal weights, ignores elements of weight zero and does not depend on the order of the elements; medmean is the mean of the middle part.", "quantifier": "all arrays, non-negative weights, quantiles, orders of ties", "why_tests_cant": "For all arrays and weights.", "anchors": ["pixell/utils.py:weighted_quantile", "pixell/utils.py:weighted_median", "pixell/utils.py:medmean", "pixell/utils.py:search"]}
{"id": "C113", "title": "Box functions describe boxes", "statement": "bounding_box contains all boxes and is the smallest such; box2corners lists each corner once; box2contour lies on the edges and contains all corners; box_overlap is the area of the intersection, symmetric; pad_box and widen_box move both sides outwards by the padding for ascending and descending axes.", "quantifier": "all boxes, dimensions, margins", "why_tests_cant": "For all boxes, also descending ones as used for right ascension.", "anchors": ["pixell/utils.py:bounding_box", "pixell/utils.py:box2corners", "pixell/utils.py:box2contour", "pixell/utils.py:box_slice", "pixell/utils.py:box_area", "pixell/utils.py:box_overlap", "pixell/utils.py:widen_box", "pixell/utils.py:pad_box"]}
{"id": "C114", "title": "unwrap_range undoes wrapping", "statement": "unwrap_range returns an equivalent ascending range shorter than one period that straddles 0 if possible.", "quantifier": "all ranges and periods", "why_tests_cant": "For all ranges.", "anchors": ["pixell/utils.py:unwrap_range"]}
{"id": "C115", "title": "broadcast_shape follows the broadcasting rule; transpose_inds transposes", "statement": "broadcast_shape returns the common shape of the arguments padded with ones at the given place, and raises exactly if two differ in an axis without being one; transpose_inds maps flat indices to those of the transposed array and back.", "quantifier": "all lists of shapes, all places, all indices", "why_tests_cant": "For all shapes.", "anchors": ["pixell/utils.py:broadcast_shape", "pixell/utils.py:transpose_inds"]}
{"id": "C116", "title": "label_unique labels approximately equal entries", "statement": "All entries with the same label have approximately the same value, labels count contiguously from 0, and for exact comparison two entries get the same label exactly if they are equal.", "quantifier": "all arrays and tolerances", "why_tests_cant": "For all arrays; closeness is not transitive.", "anchors": ["pixell/utils.py:label_unique"]}
{"id": "C117", "title": "block_mean_filter replaces samples by the mean of their block", "statement": "All samples in each bin of the given width are replaced by the mean of the samples in that bin; applying it again changes nothing.", "quantifier": "all arrays and widths", "why_tests_cant": "For all lengths and widths.", "anchors": ["pixell/utils.py:block_mean_filter"]}
{"id": "C118", "title": "split_outside splits at separators outside groups only", "statement": "split_outside splits a string exactly at the separators outside matching groups; joining the parts with the separator gives the string back.", "quantifier": "all strings, separators of one character, group characters", "why_tests_cant": "For all strings and nestings.", "anchors": ["pixell/utils.py:split_outside", "pixell/utils.py:split_by_group"]}
{"id": "C119", "title": "point_in_polygon decides whether points are in polygons", "statement": "point_in_polygon is true for points inside and false for points outside; the answer does not depend on the first vertex, the direction of the list or common shifts, and agrees with every cutting of the polygon into triangles.", "quantifier": "all points, all polygons", "why_tests_cant": "For all points and polygons, including points level with vertices.", "anchors": ["pixell/utils.py:point_in_polygon"]}
{"id": "C120", "title": "poly_edge_dist is the distance to the nearest edge", "statement": "poly_edge_dist is the least angle between the point and the points of the great circle arcs between consecutive vertices, the last and the first included.", "quantifier": "all points and polygons on the sphere", "why_tests_cant": "For all points and polygons; over the real numbers.", "anchors": ["pixell/utils.py:poly_edge_dist"]}
{"id": "C121", "title": "Healpix pixel numbers, neighbours and edges", "statement": "Rows and columns of a healpix map correspond one to one to the pixel numbers 0 to 12\u00b7nside\u00b2\u22121; the neighbours of a pixel used by the distance transforms are exactly the four pixels that share an edge with it; being neighbours is mutual; the edges of a mask are the pixels outside it that touch it.", "quantifier": "all nside, all pixels, all masks", "why_tests_cant": "For every nside and every pixel, polar caps and their seams included.", "anchors": ["cython/distances_core.c:get_healpix_info", "cython/distances_core.c:unravel_healpix", "cython/distances_core.c:get_healpix_neighs", "cython/distances_core.c:find_edges_healpix"]}
{"id": "C122", "title": "The priority queue of the distance transform returns the nearest pixel", "statement": "After any sequence of insertions and removals the queue contains the entries put in and not yet taken out, and each removal returns the one with the smallest distance.", "quantifier": "all sequences of insertions and removals", "why_tests_cant": "For every history of the queue.", "anchors": ["cython/distances_core.c:pointheap_push", "cython/distances_core.c:pointheap_pop"]}
{"id": "C123", "title": "Distance transforms of healpix maps", "statement": "distance_from_points_healpix finishes for all points and caps; every pixel gets the distance to the point given as its domain, or rmax and no domain; no pixel could be improved by the point of a pixel it touches; pixels connected to their closest point through pixels closest to the same point get the exact distance, so that with one point all are exact.", "quantifier": "all nside, points, caps, distance functions, both methods", "why_tests_cant": "For all sets of points and orders of visits.", "anchors": ["pixell/enmap.py:distance_from_healpix", "cython/distances_core.c:distance_from_points_bubble_healpix", "cython/distances_core.c:distance_from_points_heap_healpix"]}
{"id": "C124", "title": "Geometries built around boxes and points cover them", "statement": "geometry given a box and a shape covers exactly the box; given a box and a resolution it starts at the first corner and ends within half a pixel of the second; a reference point is the centre of a pixel, and then two geometries of the same resolution share their pixels; given a point this is the middle of the map; band_geometry covers the declinations asked for; thumbnails have odd sides and (0,0) at the centre of their middle pixel.", "quantifier": "all boxes, points, resolutions, shapes and references", "why_tests_cant": "For all positions of the corners relative to the pixels.", "anchors": ["pixell/enmap.py:geometry", "pixell/enmap.py:band_geometry", "pixell/enmap.py:band_geometry2", "pixell/enmap.py:thumbnail_geometry", "pixell/enmap.py:geometry2", "pixell/wcsutils.py:car"]}
{"id": "C125", "title": "The areas of pixels add up to the area of the map", "statement": "area of a cylindrical map is that of the part of the sphere between its edges, 4\u03c0 for the whole sky; the sizes in pixsizemap are the areas of the parts of the sphere covered by the pixels and add up to area; the product of the two sides in extent or in pixshapemap is the area; the contour methods agree with the cylindrical ones.", "quantifier": "all cylindrical maps, rows upwards or downwards, with or without pixels at the poles", "why_tests_cant": "For all resolutions and positions of the rows; over the real numbers.", "anchors": ["pixell/enmap.py:area_cyl", "pixell/enmap.py:extent_cyl", "pixell/enmap.py:pixshapes_cyl", "pixell/enmap.py:pixsizemap", "pixell/enmap.py:area_contour", "pixell/enmap.py:pixsizemap_contour"]}
{"id": "C126", "title": "Padded slices, stamps, tiles and overlaps put pixels where they belong", "statement": "padslice returns a map of the size of the box with the map's values at their positions and the fill value elsewhere, for all boxes, and keeps the coordinates; stamps have the shape asked for; tile_maps contains each tile at its place; overlap is the common region of a map and a box, also around the sphere, and leaves its arguments alone; argmax returns the first pixel with the largest value.", "quantifier": "all maps, boxes inside, outside or across the edges, all tilings", "why_tests_cant": "For all positions of the boxes relative to the map.", "anchors": ["pixell/enmap.py:padslice", "pixell/enmap.py:stamps", "pixell/enmap.py:tile_maps", "pixell/enmap.py:overlap", "pixell/enmap.py:argmax"]}
{"id": "C127", "title": "Derivatives, smoothing and pixel windows of maps", "statement": "grad and laplace are the derivatives of the band-limited function through the pixels; div is minus the adjoint of grad and the divergence of the gradient is the Laplacian; smooth_gauss solves the heat equation, variances add, a negative sigma gives the complement, and the mean is kept; unapply_window undoes apply_window; oversampled wavenumbers cover Fourier space evenly.", "quantifier": "all real maps of all sizes, all pixel steps, beams, windows and powers", "why_tests_cant": "For all maps, even and odd sizes; over the real numbers.", "anchors": ["pixell/enmap.py:grad", "pixell/enmap.py:div", "pixell/enmap.py:laplace", "pixell/enmap.py:smooth_gauss", "pixell/enmap.py:apply_window", "pixell/enmap.py:unapply_window", "pixell/enmap.py:calc_window", "pixell/enmap.py:laxes", "pixell/utils.py:pixwin_1d"]}
{"id": "C128", "title": "Apodization tapers maps towards their edges and around masks", "statement": "apod multiplies the excess of the map over its fill value by a profile that rises from 0 outside the map to 1 at the given width, on all four edges, and leaves the middle as it is; widths larger than the map and unknown fills are errors; crossfading leaves periodic maps unchanged; apod_mask is 0 in bad pixels, 1 at a distance of at least the width from them, and the profile of the distance in between.", "quantifier": "all maps, widths, profiles, fills and masks", "why_tests_cant": "For all maps and widths, overlapping edges included.", "anchors": ["pixell/enmap.py:apod", "pixell/enmap.py:apod_profile_lin", "pixell/enmap.py:apod_profile_cos", "pixell/enmap.py:apod_mask"]}
{"id": "C129", "title": "Radial bins are the means over rings", "statement": "rbin and lbin return for each bin the number, mean value and mean radius of the pixels between its edges; every pixel is counted in exactly one bin; constants stay constants.", "quantifier": "all maps, radii and bin sizes", "why_tests_cant": "For all distributions of radii.", "anchors": ["pixell/enmap.py:_bin_helper", "pixell/enmap.py:rbin", "pixell/enmap.py:lbin"]}
{"id": "C130", "title": "Neighbourhood boxes contain everything within the radius", "statement": "neighborhood_pixboxes returns for each position a box of pixels that contains every pixel of the map whose centre is within the given distance on the sphere, also near and around the poles and across the border in right ascension, and not more rows than needed.", "quantifier": "all positions, radii and cylindrical maps", "why_tests_cant": "For all positions on the sphere; over the real numbers.", "anchors": ["pixell/enmap.py:neighborhood_pixboxes"]}
{"id": "C131", "title": "Maps read from fits files have the values, signs and shapes in the file", "statement": "read_map converts U from the IAU to the COSMO convention where the header says IAU or nothing and leaves all other components alone; every read through a delayed map returns the values in the file whatever was read before; reading a pixel box gives the same as extracting it from the whole map; the geometry, header and type read without the data are those of the file.", "quantifier": "all headers, histories of reads through one proxy, pixel boxes and shapes", "why_tests_cant": "A sign or byte order is only wrong from the second read on, or for boxes wider than the sky.", "anchors": ["pixell/enmap.py:get_stokes_flips", "pixell/enmap.py:ndmap_proxy_fits", "pixell/enmap.py:fix_endian", "pixell/enmap.py:read_helper", "pixell/enmap.py:read_fits_header", "pixell/enmap.py:read_fits_geometry", "pixell/enmap.py:write_fits_geometry", "pixell/enmap.py:read_fits_dtype"]}
{"id": "C132", "title": "Matrix powers, conditional distributions and correlations", "statement": "eigpow gives the matrix power whatever eigenvectors are found: products for whole exponents, the inverse or pseudo-inverse for -1, the square root for 1/2, exponents add; each matrix of a stack is treated as if alone. build_conditional gives the mean and covariance of the unknown variables given the known ones. cov2corr and corr2cov are inverse and correlations are at most 1. solve solves the systems and leaves its arguments alone.", "quantifier": "all symmetric matrices of all sizes, exponents, limits, sets of known variables, and stacks of systems", "why_tests_cant": "For all matrices, repeated and zero eigenvalues included; over the real numbers.", "anchors": ["pixell/utils.py:eigpow", "pixell/utils.py:build_conditional", "pixell/utils.py:cov2corr", "pixell/utils.py:corr2cov", "pixell/utils.py:eigsort", "pixell/utils.py:nodiag", "pixell/utils.py:solve"]}
{"id": "C133", "title": "Distributed tile maps are reduced without deadlock or loss", "statement": "tree_reduce ends on all tasks whatever the order in which they run and whether sends wait for their receives, and then each tile is in exactly one task and is the sum over all tasks; reduce collects on the root task exactly the tiles active anywhere, each the sum over the tasks; write_map writes the sum over the tasks of their maps; from_tiles keeps the tiles.", "quantifier": "all numbers of tasks, interleavings of their steps, plans fit for the tiles, and distributions of tiles", "why_tests_cant": "Deadlocks and overtaken messages depend on the schedule; the interleavings cannot be enumerated.", "anchors": ["pixell/tilemap.py:tree_reduce", "pixell/tilemap.py:reduce", "pixell/tilemap.py:get_active_distributed", "pixell/tilemap.py:write_map", "pixell/tilemap.py:from_tiles", "pixell/tilemap.py:from_active_tiles"]}
{"id": "C134", "title": "The box of pixels around an object contains everything within its radius", "statement": "The box of pixels in which sim_objects and radial_sum look at an object contains every pixel of the map whose centre is within the radius of the object, up to whole turns in right ascension, also near the edges of the map and the poles; it is computed from the coordinates of the map alone.", "quantifier": "all separable maps, objects in them and radii", "why_tests_cant": "For all positions, pixel shapes and radii; over the real numbers.", "anchors": ["cython/srcsim_core.c:estimate_bounding_box", "cython/srcsim_core.c:calc_grad", "cython/srcsim_core.c:calc_pix_shape_separable"]}
{"id": "C135", "title": "Painting objects gives back all the memory it takes", "statement": "However often sim_objects is called and with whatever arguments, it frees every block of memory it allocates, frees none twice and none of others, so the memory in use does not grow over a history of calls.", "quantifier": "all histories of calls, numbers of cells, objects per cell, components and threads, both directions, and failing calls", "why_tests_cant": "Histories of any length; a single call shows nothing.", "anchors": ["cython/srcsim_core.c:sim_objects", "cython/srcsim_core.c:assign_cells", "cython/srcsim_core.c:calloc_pppf", "cython/srcsim_core.c:free_pppf", "cython/srcsim_core.c:intlist_push", "cython/srcsim_core.c:process_cell", "cython/srcsim.pyx:sim_objects"]}
{"id": "C136", "title": "Arrays passed between tasks arrive as they are and in the order of the tasks", "statement": "An array sent with utils.send arrives at utils.recv with the same shape and the same elements at the same places, one after the other in the order sent. utils.allgather gives every task the array of task k at index k, and utils.allgatherv the arrays of all tasks one after the other along the given axis, where tasks with nothing to give are left out.", "quantifier": "all arrays, memory layouts, axes, numbers of tasks and sequences of messages", "why_tests_cant": "Depends on the layout in memory and on the sizes on all tasks; needs all numbers of tasks.", "anchors": ["pixell/utils.py:send", "pixell/utils.py:recv", "pixell/utils.py:allgather", "pixell/utils.py:allgatherv", "pixell/mpiutils.py:FakeCommunicator"]}
{"id": "C137", "title": "Random coefficients follow the spectrum and do not depend on lmax where they exist", "statement": "curvedsky.rand_alm gives coefficients whose covariance is the given spectrum, half in the real and half in the imaginary part and all in the real part for m = 0, and which are uncorrelated otherwise. With the same seed, coefficients for a lower and a higher lmax agree for all l they have in common.", "quantifier": "all spectra, numbers of components, values of lmax, layouts of the coefficients, precisions and sequences of random numbers", "why_tests_cant": "Statements about distributions and about pairs of calls for all lmax; tests look at a few seeds with tolerances.", "anchors": ["pixell/curvedsky.py:rand_alm", "pixell/curvedsky.py:rand_alm_white", "pixell/curvedsky.py:fill_gauss", "pixell/curvedsky.py:prepare_ps", "pixell/curvedsky.py:pad_spectrum", "cython/cmisc_core.c:lmatmul_sp"]}
{"id": "C138", "title": "Healpix maps and pixell maps are looked up in each other at the right positions", "statement": "reproject.map2healpix and healpix2map with method=\"spline\" give every output pixel the value of the input at the position which the coordinate rotation takes to the centre of the output pixel, with polarization turned into the new coordinates, whatever the batch size; with extensive=True the value per area is kept. rot=\"b,a\" undoes rot=\"a,b\". restrict_nside gives an nside of the kind asked for that is not below its argument.", "quantifier": "all maps, pixels, spins, numbers of components, rotations, batch sizes and values of nside", "why_tests_cant": "Needs all positions and rotations; tests compare a few maps with tolerances, and never reach the second batch.", "anchors": ["pixell/reproject.py:map2healpix", "pixell/reproject.py:healpix2map", "pixell/reproject.py:rot2euler", "pixell/reproject.py:inv_euler", "pixell/reproject.py:restrict_nside", "pixell/coordinates.py:transform_euler"]}
{"id": "C139", "title": "Maps made tile by tile are the same as made in one go", "statement": "reproject.distribute divides N things into cells of at most nmax. reproject.populate gives every pixel of the map the value the function finds for it in a tile of at most the size asked for, so that for a function of position the map does not depend on the tiles.", "quantifier": "all map sizes, linear coordinate axes, tile sizes and functions", "why_tests_cant": "All sizes, and ties in the rounding of their ratios.", "anchors": ["pixell/reproject.py:distribute", "pixell/reproject.py:populate", "pixell/enmap.py:slice_geometry"]}
{"id": "C140", "title": "Transforms and their adjoints are adjoint, and map2alm undoes alm2map", "statement": "alm2map gives each group of components the synthesis of its own coefficients with its own spin at the map's pixels, whatever was in the map. alm2map_adjoint is the adjoint of alm2map, and map2alm_adjoint that of map2alm, for all methods, spins, layouts, weights, numbers of iterations and derivatives; the array that is only read does not change, and the one that is written is overwritten. With exact weights on a full sky map2alm returns the coefficients given to alm2map for every number of iterations.", "quantifier": "all coefficients, maps, spins, flips, paddings, masks, weights and numbers of iterations", "why_tests_cant": "Identities between linear operators on all maps; tests take a few random maps of small size.", "anchors": ["pixell/curvedsky.py:alm2map", "pixell/curvedsky.py:alm2map_adjoint", "pixell/curvedsky.py:map2alm", "pixell/curvedsky.py:map2alm_adjoint", "pixell/curvedsky.py:alm2map_raw_cyl", "pixell/curvedsky.py:map2alm_raw_cyl", "pixell/curvedsky.py:jacobi_inverse", "pixell/curvedsky.py:map2buffer"]}
{"id": "C141", "title": "The python source painter paints every source once, everywhere it reaches", "statement": "build_src_cells lists, for every cell of its grid and in catalogue order, exactly the sources (or copies of them a turn away) whose surroundings meet the cell, each once. sim_srcs(method=\"python\") adds to every pixel smul times the sum over all sources of amplitude times beam out to rmax, for maps of any size and any number of components, and paints the same amplitudes as method \"c\".", "quantifier": "all maps, catalogues, cell sizes, wrap lengths and radii", "why_tests_cant": "Coverage of all pairs of pixel and source under all roundings of the cell size; tests paint a few sources on one map.", "anchors": ["pixell/pointsrcs.py:build_src_cells", "pixell/pointsrcs.py:build_src_cells_helper", "pixell/pointsrcs.py:sim_srcs_python", "pixell/pointsrcs.py:eval_srcs_loop", "pixell/pointsrcs.py:sim_srcs"]}
{"id": "C142", "title": "Cells of a map go back to the map, and catalogues are matched to the nearest source", "statement": "Entry [i,j,r,s] of cellify is pixel [i*ry+r,j*rx+s], and uncellify undoes cellify up to the cut to whole cells. pointsrcs.crossmatch associates every source that has a source of the other catalogue within the tolerance with the nearest one, and no others; the result always has shape [nmatch,2].", "quantifier": "all map and cell sizes; all catalogues, tolerances, safety factors and orders of the k-d tree's answers", "why_tests_cant": "Statements about every pixel and about every pair of sources on the sphere.", "anchors": ["pixell/pointsrcs.py:cellify", "pixell/pointsrcs.py:uncellify", "pixell/pointsrcs.py:crossmatch"]}
{"id": "C143", "title": "Small array utilities do what they say for every size", "statement": "slice_downgrade gives the mean of every started block; deslope matches up the beginning and the end of a row for every w and removes straight lines; repeat_filler gives n entries going back and forth through the array, for every n; between_angles tells whether the angle is in the range up to whole periods; preflat and postflat join the first or last n axes, and for negative n all but the others.", "quantifier": "all arrays, steps, widths, lengths, angles, ranges, shapes and signed n", "why_tests_cant": "Index arithmetic for all lengths and signs; tests use one or two arrays.", "anchors": ["pixell/utils.py:slice_downgrade", "pixell/utils.py:deslope", "pixell/utils.py:repeat_filler", "pixell/utils.py:between_angles", "pixell/utils.py:preflat", "pixell/utils.py:postflat"]}
{"id": "C144", "title": "Numbers are read and named without loss", "statement": "parse_ints and parse_numbers read back any list of numbers written with commas and expand every start:stop:step in place to the numbers it stands for; ndigit is the number of digits of a number; two objects with the same jname are within a second of time and a second of arc of each other.", "quantifier": "all lists, ranges, numbers and positions", "why_tests_cant": "Round trips over all strings and a separation statement about all pairs of positions.", "anchors": ["pixell/utils.py:parse_numbers", "pixell/utils.py:parse_ints", "pixell/utils.py:ndigit", "pixell/utils.py:jname"]}
{"id": "C145", "title": "Corners, containment and pixel coordinates of a map are right across the whole sky", "statement": "corners gives two coordinates that differ by exactly the width of the map, however the coordinates jump by a turn in between and for every number of points; sky2pix undoes pix2sky for every pixel within half a turn of the middle, whatever turn the coordinate is on; contains is true exactly for the points that are inside some pixel.", "quantifier": "all linear (cylindrical) axes, map sizes, numbers of points, turns and points", "why_tests_cant": "Continuity across the wrap for all widths and sub-pixel positions; tests take a few geometries and pixel centres.", "anchors": ["pixell/enmap.py:corners", "pixell/enmap.py:sky2pix", "pixell/enmap.py:pix2sky", "pixell/enmap.py:contains"]}
{"id": "C146", "title": "Maps of positions are complete and do not depend on how they are calculated", "statement": "posmap gives every pixel its own declination and its own right ascension up to whole turns, for every block size, and the fast calculation for separable coordinates is the same as the slow one. A Geometry can be made from a shape and a wcs or from another geometry, and its leading axes can be dropped and replaced.", "quantifier": "all coordinate systems given as functions of the pixel, map sizes and block sizes", "why_tests_cant": "Coverage of all rows for all block sizes; tests compare one map.", "anchors": ["pixell/enmap.py:posmap", "pixell/enmap.py:posaxes", "pixell/enmap.py:Geometry"]}
{"id": "C147", "title": "Spectra survive being written to and read from text files", "statement": "A spectrum matrix that write_spectrum writes and read_spectrum reads back with the same options has the same shape, is symmetric and agrees to the digits written. Scaling a spectrum and undoing it changes nothing. read_camb_scalar puts each column at its place. spec2corr is the Legendre sum of the spectrum.", "quantifier": "all numbers of components and multipoles, spectra, packing orders and scaling options", "why_tests_cant": "The packing, padding and scaling must invert each other for all shapes; a test reads a few files.", "anchors": ["pixell/powspec.py:read_spectrum", "pixell/powspec.py:write_spectrum", "pixell/powspec.py:expand_inds", "pixell/powspec.py:scale_spectrum", "pixell/powspec.py:scale_camb_scalar_phi", "pixell/powspec.py:read_camb_scalar", "pixell/powspec.py:spec2corr"]}
{"id": "C148", "title": "Finding objects in passes gives a catalogue and the map of exactly that catalogue", "statement": "FinderIterative returns a model map that is the sum over the objects in the catalogue it returns. Each object was found with the limit asked for in the map minus objects found before it. Areas in which more than grid_max objects were found are masked from then on, and in the end such an area keeps only objects contaminated by at most 1/grid_dominance. The contamination is that by the other objects of the catalogue.", "quantifier": "all finders, modellers, maps, numbers of passes and grids", "why_tests_cant": "Depends on the whole history of passes, with an arbitrary finder in each.", "anchors": ["pixell/analysis.py:FinderIterative"]}
{"id": "C149", "title": "Objects of several kinds and strengths are each measured and modelled once, by what belongs to them", "statement": "MeasurerIterative measures each object once, strongest group first, in the map minus the model of the stronger groups, keeps the order of the catalogue and returns the model of its result. MeasurerMulti and ModellerMulti treat each object with the measurer or modeller of its own case.", "quantifier": "all catalogues, cases, measurers, modellers and maps", "why_tests_cant": "Ranges over all groupings and orders of a catalogue.", "anchors": ["pixell/analysis.py:MeasurerIterative", "pixell/analysis.py:MeasurerMulti", "pixell/analysis.py:ModellerMulti"]}
{"id": "C150", "title": "Elliptical beams and their radii convert back and forth, and regularized beams keep what is not small", "statement": "compress_beam and expand_beam are inverse to each other up to half turns and the naming of the two axes. combine_beams does not depend on the order of the beams. regularize_beam keeps the values above the cutoff, has the length asked for, and the ratio of two regularized beams is constant where both are extrapolated.", "quantifier": "all ellipses, choices of eigenvectors, beams, cutoffs and lengths", "why_tests_cant": "Holds for all matrices and eigenvectors; tests try a few angles.", "anchors": ["pixell/utils.py:compress_beam", "pixell/utils.py:expand_beam", "pixell/utils.py:combine_beams", "pixell/utils.py:regularize_beam"]}
{"id": "C151", "title": "Scans are divided into sweeps without gaps, and bin edges fit their centres", "statement": "find_sweeps divides all samples of a scan into consecutive sweeps that turn where the scan turns. infer_bin_edges gives the only edges for which every centre is the middle of its bin and the two bins asked for have equal width, and they are in order when the centres are.", "quantifier": "all scans, tolerances, choices among equal maxima, numbers of bins and centres", "why_tests_cant": "Ranges over scans of any length and shape and systems of any size.", "anchors": ["pixell/utils.py:find_sweeps", "pixell/utils.py:infer_bin_edges"]}
{"id": "C152", "title": "Views of tiled maps have the right tiles at the right places", "statement": "The geometry of every tile puts its pixels where the full map has them. Iterating over the tiles is the same as indexing them, tiles and components can be taken in either order, and indices count from either end. A slice of the pixel axis is a plain array. insert gives the tiles of one map where it has them and those of the other elsewhere, as a map of its own. Only maps with the same geometry are compatible, and map_mul multiplies pixel by pixel.", "quantifier": "all tilings, active tiles, components, indices, maps and writes", "why_tests_cant": "Ranges over all tilings and all orders of active tiles; tests use a few.", "anchors": ["pixell/tilemap.py:TileView.__getitem__", "pixell/tilemap.py:TileView.__iter__", "pixell/tilemap.py:TileMap.__getitem__", "pixell/tilemap.py:_TileGeomHelper.__getitem__", "pixell/tilemap.py:full", "pixell/tilemap.py:insert", "pixell/tilemap.py:TileGeometry.compatible", "pixell/tilemap.py:map_mul", "pixell/tilemap.py:samegeo"]}
{"id": "C153", "title": "Array utilities keep elements, shapes and memory layout consistent", "statement": "contains says for each element whether it is one of the values. without_inds and only_inds divide a sequence into two parts. to_Nd keeps the number of elements and has the number of axes asked for. resize_array keeps the values that fit. outer_stack varies each array along its own axis. fix_zero_strides leaves no zero stride on an axis of length one and never changes which element an index stands for. iscontig is true exactly when the elements follow each other in memory. zip2 calls all its arguments equally often and ends when one of them does.", "quantifier": "all arrays, shapes, strides, indices and iterators", "why_tests_cant": "Must hold for every shape, layout and history of calls; tests try a few.", "anchors": ["pixell/utils.py:contains", "pixell/utils.py:without_inds", "pixell/utils.py:only_inds", "pixell/utils.py:to_Nd", "pixell/utils.py:resize_array", "pixell/utils.py:outer_stack", "pixell/utils.py:fix_zero_strides", "pixell/utils.py:iscontig", "pixell/utils.py:zip2"]}
{"id": "C154", "title": "Conversions of times and scales, numerical derivatives and overlaps of discs are what their names say", "statement": "Conversions between unix time and the Julian dates, between multipoles and angles, nside and resolution, angle and chord undo each other and mean what they say. D gives derivatives to second order in eps. rescale takes the smallest and largest value to the ends of the range. disk_overlap is the area of the intersection of two discs, disk_overlap_curved that on the sphere, lairy the overlap of an aperture with itself, and multiplied by airy_area it is a beam that is one in its centre.", "quantifier": "all real times, scales, angles, polynomials, radii and distances", "why_tests_cant": "Areas and integrals are compared with their definitions for all real arguments; tests sample a few.", "anchors": ["pixell/utils.py:ctime2mjd", "pixell/utils.py:mjd2ctime", "pixell/utils.py:l2ang", "pixell/utils.py:ang2l", "pixell/utils.py:res2nside", "pixell/utils.py:nside2res", "pixell/utils.py:ang2chord", "pixell/utils.py:chord2ang", "pixell/utils.py:D", "pixell/utils.py:rescale", "pixell/utils.py:disk_overlap", "pixell/utils.py:disk_overlap_curved", "pixell/utils.py:lairy", "pixell/utils.py:airy", "pixell/utils.py:airy_area"]}
{"id": "C155", "title": "The python side of the alm routines: remembered spectra, output arrays and filters", "statement": "alm2cl gives at every index the spectrum of the two alms there, also when it takes it from an earlier pair. lmul with out fills the array it is given, whatever its layout in memory, and rejects arrays it cannot use. rand_alm_white with alm fills that array. almxfl with a function multiplies each coefficient by the value at its l, and filters compose.", "quantifier": "all alms, broadcast shapes, strides, filters, numbers of threads and schedules", "why_tests_cant": "Wrong results need particular layouts of memory; tests use fresh contiguous arrays.", "anchors": ["cython/cmisc.pyx:alm2cl", "cython/cmisc.pyx:lmul", "pixell/curvedsky.py:fill_gauss", "pixell/curvedsky.py:rand_alm_white", "pixell/curvedsky.py:almxfl", "pixell/curvedsky.py:alm2cl"]}
{"id": "C156", "title": "Radial profiles and their harmonics are inverses of each other", "statement": "harm2profile gives the sum of (2l+1)/(4 pi) bl[l] P_l(cos r), as spec2corr does. profile2harm finds the coefficients of a band-limited profile exactly from its samples on an equidistant grid, up to its default lmax.", "quantifier": "all coefficients, numbers of radii, and multipoles", "why_tests_cant": "Exactness of a quadrature for all polynomials of a degree is not something samples show.", "anchors": ["pixell/curvedsky.py:profile2harm", "pixell/curvedsky.py:harm2profile", "pixell/curvedsky.py:get_ring_info_radial", "pixell/powspec.py:spec2corr"]}
{"id": "C157", "title": "Random maps have the covariance and the power spectrum asked for", "statement": "A map of rand_map with scalar=True has between any two pixels the covariance of a stationary map with the given power matrices, and in physical units its expected power at each mode is the given spectrum: at the length of the wave vector for isotropic spectra, and averaged over opposite modes for spectra in two dimensions.", "quantifier": "all map sizes, numbers of components, covariances that are not negative, and all distributions of uncorrelated numbers of unit variance", "why_tests_cant": "An expectation over all draws cannot be read off any number of draws.", "anchors": ["pixell/enmap.py:rand_map", "pixell/enmap.py:rand_gauss_harm", "pixell/enmap.py:rand_gauss_iso_harm", "pixell/enmap.py:spec2flat", "pixell/enmap.py:multi_pow"]}
{"id": "C158", "title": "Smoothing and expanding power spectra keeps constants and bounds", "statement": "smooth_spectrum is a weighted average over the evenly continued spectrum: constants stay, bounds hold, it is linear and gives numbers. spec2flat keeps the bounds of a spectrum and is zero beyond its end. massage_spectrum keeps covariances positive. spec2flat_corr returns the cosine transform of the correlation function.", "quantifier": "all spectra, kernels, weights, widths and map sizes", "why_tests_cant": "Bounds have to hold for every spectrum; tests use one smooth spectrum and even map sizes.", "anchors": ["pixell/enmap.py:smooth_spectrum", "pixell/enmap.py:_convolute_sym", "pixell/enmap.py:massage_spectrum", "pixell/enmap.py:spec2flat", "pixell/enmap.py:spec2flat_corr"]}
{"id": "C159", "title": "Profiles, spectra and draws of the unified harmonic transform", "statement": "rprof2hprof is the Fourier transform of the profile around a pixel and hprof2rprof undoes it; lprof2hprof cuts or fills with zeros, alike in both modes; mean_hprof is the mean over modes; the power of a map summed over modes is its mean square; hrand draws maps with the power of the profile; in the mode auto the flat sky is used exactly when no two rows of the map differ in scale by more than max_distortion.", "quantifier": "all map sizes, profiles, spectra, declination ranges, and all distributions of uncorrelated numbers of unit variance", "why_tests_cant": "Expectations and suprema over all rows of a map; odd and even sizes differ.", "anchors": ["pixell/uharm.py:UHT", "pixell/uharm.py:profile2harm_flat_2d", "pixell/uharm.py:harm2profile_flat_2d", "pixell/uharm.py:estimate_distortion", "pixell/uharm.py:beam2rmax", "pixell/uharm.py:beam2res"]}
{"id": "C160", "title": "Delensing a flat map undoes its lensing", "statement": "lens_map gives each pixel the value of the map at its displaced position. delens_map(lens_map(m, g), g) = m up to the error of the interpolation and an error that falls geometrically with nstep if the displacement has slope below one; delens_grad finds the undisplaced gradient then. lens_map(trans=True) is the transpose.", "quantifier": "all maps, displacement fields, interpolations, pixel sizes, numbers of steps and schedules of the threads", "why_tests_cant": "Convergence of an iteration for every field is a limit; tests run three steps on one field.", "anchors": ["pixell/lensing.py:lens_map", "pixell/lensing.py:delens_map", "pixell/lensing.py:delens_grad", "pixell/lensing.py:displace_map"]}
{"id": "C161", "title": "Curved lensing does not depend on how it is cut into bands, and its seeds and spins are respected", "statement": "The map of lens_map_curved is the same for every delta_theta, the bands are about as large as asked for, components are rotated according to their spin. rand_alm with phi_seed draws coefficients with the given spectra, real for m=0, where the potential depends on phi_seed only and the CMB on seed only. lens_map_flat lenses a periodic map.", "quantifier": "all map heights, step sizes, spins, angles, spectra, layouts and random numbers", "why_tests_cant": "Failures are confined to particular heights, degrees and spins that the tests do not use.", "anchors": ["pixell/lensing.py:lens_map_curved", "pixell/lensing.py:rand_alm", "pixell/lensing.py:lens_map_flat", "pixell/utils.py:_ip_get_mode"]}
{"id": "C162", "title": "The flat-sky wavelet transform gives back the map", "statement": "For a flat-sky WaveletTransform whose filters satisfy sum of F\u00b2 = 1 as functions of the multipole, wave2map(map2wave(m)) is m for every map. Each wavelet map is large enough for all the multipoles its filter passes, its filter is evaluated at the true multipoles, its mean multipole lies within the multipoles it passes, and its coefficients have the units of the power spectrum: white noise gives the same variance, the power, at every scale.", "quantifier": "all map sizes, pixel sizes, filters, numbers of scales, sizes of the wavelet maps, maps and pixels", "why_tests_cant": "The documentation says that flat-sky transforms should be exact; the errors depend on the sizes of all the scales, and no test covers the flat mode.", "anchors": ["pixell/wavelets.py:WaveletTransform.map2wave", "pixell/wavelets.py:WaveletTransform.wave2map", "pixell/wavelets.py:WaveletTransform.get_ls", "pixell/wavelets.py:WaveletTransform._prepare_filter", "pixell/wavelets.py:make_wavelet_geometry_flat", "pixell/enmap.py:resample_fft"]}
{"id": "C163", "title": "Boosting a map follows T_obs(z_obs) = A\u00b7T_rest(z), and deboosting undoes it", "statement": "boost_map sees what was at z in the rest frame at z_obs with amplitude A, for the z_obs and A of calc_boost_1d; the amplitude at an observed direction is the Doppler factor \u221a(1-\u03b2\u00b2)/(1-\u03b2\u00b7cos\u03b8). deboost_map undoes boost_map with the opposite mode, demodulate_map undoes modulate_map, lin2lin undoes lin2lin, boosts in one direction add up as velocities, an empty map boosted with dipole is the CMB dipole, and the caller's map is left as it was. The number of multipoles of the boost fields grows with the speed only.", "quantifier": "all speeds below that of light, directions, maps, modes, monopoles, frequencies and units", "why_tests_cant": "Tests compare one map at one speed; the inverse and the composition are statements about all speeds and directions, and fail only away from the tested settings.", "anchors": ["pixell/aberration.py:boost_map", "pixell/aberration.py:deboost_map", "pixell/aberration.py:modulate_map", "pixell/aberration.py:demodulate_map", "pixell/aberration.py:apply_modulation", "pixell/aberration.py:Modulator", "pixell/aberration.py:Aberrator", "pixell/aberration.py:beta2lmax"]}
{"id": "C164", "title": "The union of two maps contains both, and inserted maps land where they belong", "statement": "map_union(map1, map2) of two maps with compatible coordinates is a map that contains every pixel of both at its place in the sky and whose values are the sums of the two maps, a map counting as zero where it has no pixel; it extends no further than the maps do. insert_at(omap, pix, imap) changes exactly the pixels [y:y+ny,x:x+nx]; insert follows its wrap argument.", "quantifier": "all maps, offsets, sizes, values, combining operations and wrapping lengths", "why_tests_cant": "Tests try one pair of overlapping maps; the claim is about every offset, including maps that meet around the sky.", "anchors": ["pixell/enmap.py:map_union", "pixell/enmap.py:insert", "pixell/enmap.py:insert_at", "pixell/enmap.py:extract_pixbox", "pixell/enmap.py:union_geometry"]}
{"id": "C165", "title": "Thumbnails are local, keep densities and stay positive", "statement": "thumbnails_ivar gives thumbnails of positive numbers for maps of positive numbers, never above the largest value (of the density, if extensive); a map of constant density gives thumbnails of that density, whatever the sizes of the pixels; within the radius r each pixel is interpolated from the pixels of the map around it and is not touched by the apodization, which only affects the margin outside.", "quantifier": "all maps, positions, radii, apodization widths, pixel sizes and projections of the thumbnail", "why_tests_cant": "The margin depends on how positions, radius and pixel size round, for each axis and declination.", "anchors": ["pixell/reproject.py:thumbnails", "pixell/reproject.py:thumbnails_ivar", "pixell/enmap.py:neighborhood_pixboxes", "pixell/enmap.py:apod"]}
{"id": "C166", "title": "Reference points and matrices of geometries, and the extent of the sky", "statement": "recenter_geo leaves every pixel where it is and puts the reference point in the middle, only for cylindrical geometries unless told otherwise; fix_wcs leaves no pixel more than half a sky from the reference point; fix_cdelt leaves pixels where they are; the extents pixelization uses for the full sky are exactly those of the projections.", "quantifier": "all geometries, modes, widths, matrices, projections and directions of the sky", "why_tests_cant": "Positions of all pixels and all directions; the failures need a rotation or a particular reference pixel.", "anchors": ["pixell/enmap.py:recenter_geo", "pixell/enmap.py:recenter_cyl", "pixell/wcsutils.py:fix_wcs", "pixell/wcsutils.py:fix_cdelt", "pixell/wcsutils.py:default_extent", "pixell/wcsutils.py:is_separable"]}
{"id": "C167", "title": "Transforms at logarithmic steps are Fourier transforms", "statement": "RadialFourierTransform.real2harm gives the two-dimensional Fourier transform of a radial profile, harm2real its inverse; the n points kept by unpad lie in the range asked for, at equal steps of the logarithm, with radii inverse to multipoles. FFTLog.fft is the Fourier transform of a function of the positive numbers, ifft undoes it; its points cover the range asked for, of positions or wavenumbers.", "quantifier": "all profiles and functions, ranges, numbers of points, paddings, directions and indices", "why_tests_cant": "Identities between integrals of arbitrary functions; tests can sample one profile.", "anchors": ["pixell/utils.py:RadialFourierTransform", "pixell/utils.py:FFTLog", "pixell/utils.py:profile_to_tform_hankel"]}
{"id": "C168", "title": "Polarization angles and areas follow a change of coordinates", "statement": "The angle transform adds to the angle of polarization is such that the direction on the sky stays the same in the healpix convention, between systems of either handedness; transforming in two steps adds the same angle as in one. The magnification is the factor by which the change enlarges areas of the coordinates. The result has the shape of the input.", "quantifier": "all changes of coordinates that move the sky rigidly, all positions away from the poles, angles, handednesses and numbers of rows", "why_tests_cant": "The angle is a limit of differences, across jumps of the longitude; signs for pairs of systems are easily wrong and a test compares against the same convention.", "anchors": ["pixell/coordinates.py:transform", "pixell/coordinates.py:transform_meta", "pixell/coordinates.py:get_handedness"]}
{"id": "C169", "title": "Interpolation on a mesh and its refinement", "statement": "ip_linear is multilinear interpolation in any number of dimensions: it gives the samples at the points of the mesh, functions linear in each coordinate everywhere, and inside the box values between the samples. ip_grad gives linear functions and the samples. build returns an interpolator as accurate as asked for, for functions of any number of inputs and outputs, with the range of values found and its status.", "quantifier": "all meshes, numbers of dimensions, samples, positions, functions, error limits and starting meshes", "why_tests_cant": "The accuracy of refinement is a claim about all points between those tested, and about the order in which dimensions are refined.", "anchors": ["pixell/interpol.py:build", "pixell/interpol.py:ip_linear", "pixell/interpol.py:ip_grad", "pixell/interpol.py:lin_derivs_forward", "pixell/utils.py:grid"]}
{"id": "C170", "title": "Catalogs of point sources survive being written and read", "statement": "A catalog written as text or FITS and read back is the same up to the decimals written, for any number of components and fields, with or without the optional columns. read finds the format of any file one of the readers can read. All readers return positions in the same unit. Radial bins take weights for each component.", "quantifier": "all catalogs, numbers of components and fields, file contents and shapes", "why_tests_cant": "The layout of a row depends on the numbers of components and fields, and dispatch on which errors the readers raise for arbitrary files.", "anchors": ["pixell/pointsrcs.py:read", "pixell/pointsrcs.py:write_sauron", "pixell/pointsrcs.py:read_sauron", "pixell/pointsrcs.py:format_sauron", "pixell/pointsrcs.py:src2param", "pixell/pointsrcs.py:radial_bin"]}
{"id": "C171", "title": "Maps prepared for drawing: ranges, tiles, names, canvases and curves", "statement": "Explicit color limits are used as given, the last one for all further components; otherwise the limits are quantiles of the finite values with the lower below the upper. Tiling places each map in exactly one tile of a nearly square grid and stacking keeps its pixels. A file name is split so that its parts give it back. Images drawn with different margins are placed over each other so that equal positions coincide. Curves of the grid are drawn where they are and nowhere else.", "quantifier": "all maps, limits, quantiles, numbers of maps, rows and columns, file names, boxes and curves", "why_tests_cant": "Properties of every size, ordering and name; the special cases (no values, equal values, no extension, gaps) are where they fail.", "anchors": ["pixell/enplot.py:get_color_range", "pixell/enplot.py:hwexpand", "pixell/enplot.py:hwstack", "pixell/enplot.py:split_file_name", "pixell/enplot.py:standardize_images", "pixell/cgrid.py:calc_bounds", "pixell/cgrid.py:prune_bad_segs"]}
{"id": "C172", "title": "Maps are found again under the name they were written to, and names may carry a selection", "statement": "A map written with write_map under any name can be read under the same name with read_map, and its geometry with read_map_geometry. What follows a colon in a name is a selection applied to the map read; read_map_geometry with a selection gives the geometry of what read_map gives.", "quantifier": "all file names, and all selections by slices, indices and ellipses on maps of any number of dimensions", "why_tests_cant": "The properties range over all names and selections; the functions have each their own list of endings and way to slice.", "anchors": ["pixell/enmap.py:write_map", "pixell/enmap.py:read_map", "pixell/enmap.py:read_map_geometry", "pixell/enmap.py:slice_geometry"]}
{"id": "C173", "title": "Sizes, Fourier-space geometries and spline resampling are consistent with positions on the sky", "statement": "lform puts each Fourier coefficient at the pixel whose coordinate is its wavenumber; fftshift and ifftshift are inverse; pixels in Fourier space have the area (2\u03c0)\u00b2 over that of the map. extent has the area of the map as its product. pixshapemap and pixshapebounds give heights and widths of pixels for all projections. resample with splines takes values from the same place on the sky the result says they are at.", "quantifier": "all map sizes, odd and even, signs and sizes of pixels, projections, offsets and oversamplings", "why_tests_cant": "Off-by-one errors depend on the parity of sizes and on conventions for corners; tests use few sizes and projections.", "anchors": ["pixell/enmap.py:lform", "pixell/enmap.py:lwcs", "pixell/enmap.py:lrmap", "pixell/enmap.py:lpixsize", "pixell/enmap.py:extent_subgrid", "pixell/enmap.py:pixshapemap", "pixell/enmap.py:pixshapebounds", "pixell/enmap.py:resample", "pixell/enmap.py:fftshift", "pixell/enmap.py:ifftshift", "pixell/wcsutils.py:scale"]}
{"id": "C174", "title": "Function bases, beam profiles, spectra, dice and periods have their textbook values", "statement": "build_legendre gives the Legendre polynomials of the samples moved to [-1,1], build_cossin the sines and cosines of the multiples of x. ubash gives the matrix of any linear operator and decomp_basis the coefficients in a basis. tform_to_profile gives the profile with the given transform, one at the centre if normalized. graybody, tsz_spectrum, flux_factor and noise_flux_factor follow from the Planck spectrum. dicedist counts the outcomes of dice. find_period_fourier finds the period of a periodic signal.", "quantifier": "all samples, orders, operators, bases, transforms, frequencies, temperatures, numbers of dice and faces, and signals", "why_tests_cant": "Recurrences, integrals and counts over all orders and inputs; tests compare a few values with another implementation.", "anchors": ["pixell/utils.py:build_legendre", "pixell/utils.py:build_cossin", "pixell/utils.py:ubash", "pixell/utils.py:uvec", "pixell/utils.py:decomp_basis", "pixell/utils.py:tform_to_profile", "pixell/utils.py:graybody", "pixell/utils.py:tsz_spectrum", "pixell/utils.py:flux_factor", "pixell/utils.py:noise_flux_factor", "pixell/utils.py:dicedist", "pixell/utils.py:find_period_fourier"]}
{"id": "C175", "title": "Patterns made from printf formats match the outputs of the formats", "statement": "The glob format_to_glob makes from a printf format and the regular expression format_to_regex makes from it match every text that the format can produce.", "quantifier": "all formats and all values formatted with them", "why_tests_cant": "Formats, flags, widths and values are unbounded, and what matches depends on backtracking.", "anchors": ["pixell/utils.py:format_to_glob", "pixell/utils.py:format_to_regex"]}
{"id": "C176", "title": "Variance wavelets tell how noise transforms, and wavelet transforms honour their arguments", "statement": "The transform returned by get_variance_transform applied to a map of variances gives the variance of every wavelet coefficient of independent noise with these variances, for every basis that has a variance basis. The bases can be made with any of their bounds missing. WaveletTransform uses the resolutions ores it is given, has the geometry of its maps, and map2wave computes exactly the scales asked for and fills the others with fill_value.", "quantifier": "all bases, multipoles, numbers of scales, sizes of maps, variances, selections of scales and fill values", "why_tests_cant": "A statement about the second moments of all noise fields and about all multipoles; tests look at one realization or one basis.", "anchors": ["pixell/wavelets.py:VarButter", "pixell/wavelets.py:Butterworth.get_variance_basis", "pixell/wavelets.py:ButterTrim.get_variance_basis", "pixell/wavelets.py:WaveletTransform", "pixell/wavelets.py:WaveletTransform.get_variance_transform", "pixell/wavelets.py:WaveletTransform.map2wave"]}
{"id": "C177", "title": "Multimaps are lists of maps with any number of components", "statement": "Iterating over the maps of a multimap gives each of them once, in order, and reductions give one value for each map. Negative positions count from the end. full gives every pixel of every component of every map the value for that map and component. The methods of a multimap give what the functions of the same name give for each map, with the same arguments.", "quantifier": "all lists of maps, positions, numbers of components, values and arguments", "why_tests_cant": "Positions, shapes and numbers of components are unbounded, and some broadcast by accident.", "anchors": ["pixell/multimap.py:ndmaps", "pixell/multimap.py:multimap", "pixell/multimap.py:full", "pixell/multimap.py:mean", "pixell/multimap.py:lmap", "pixell/multimap.py:pixmap"]}
{"id": "C178", "title": "Arrays in named pools of memory do not overlap and keep their contents", "statement": "For every history of making pools, making arrays in them, writing to arrays, resetting, emptying and deleting pools: all arrays made since the last reset of their pool have the size asked for, are aligned, share no byte with each other or with arrays of other pools, and contain what was last written to them. Arrays of emptied or deleted pools stay valid. array gives a copy of its argument and zeros gives zeros, for all shapes. Pools can be reached as items and attributes by their names, and size gives the memory in use.", "quantifier": "all histories of any length with any number of pools, names, sizes, alignments and addresses given by the system", "why_tests_cant": "A statement about all histories and all addresses the system may return; overlaps show up only for some of them.", "anchors": ["pixell/device.py:ArrayPoolCpu", "pixell/device.py:ArrayMultipool", "pixell/device.py:Mempool", "pixell/device.py:AllocAligned"]}
{"id": "C179", "title": "geometry2 builds windows of a full sky with the pixels the variant asks for", "statement": "geometry2 with only a resolution gives the full sky, with pixel centres or edges at the poles and at the ends of the sky as the variant says; any gives full skies for all resolutions; with only a shape it gives this shape. safe is downgrade-safe: averaging the pixels of a geometry gives the pixels of the geometry built at the lower resolution. With a box or a centre the result is a window of the full sky with its corners within a pixel of those of the box, or with the centre in its middle, for all boxes. All rules of the characters 0, h and * are accepted.", "quantifier": "all resolutions that divide the sky, factors, variants and rules, shapes, boxes and centres", "why_tests_cant": "Resolutions, factors and boxes are unbounded; half-pixel shifts and missing columns appear in whole families of them.", "anchors": ["pixell/enmap.py:geometry2", "pixell/wcsutils.py:pixelization", "pixell/wcsutils.py:parse_variant", "pixell/wcsutils.py:expand_res", "pixell/enmap.py:crop_geometry"]}
{"id": "C180", "title": "Fourier interpolation and non-uniform transforms evaluate, transpose and invert the same sums", "statement": "Fourier interpolation of an array of any dimension gives its samples at the samples, is periodic, and is exact at all positions for signals with the frequencies representable by the samples; an interpolator gives the same whatever it precomputes. nufft_adjoint is the adjoint of inufft, and nufft inverts inufft in the sense of least squares, with a number of steps bounded by the number of coefficients. Complex arrays, zeros, any order of the axes, and any precision of data and positions are handled as for uniform transforms.", "quantifier": "all dimensions, lengths, coefficients, positions, numbers of points and tolerances", "why_tests_cant": "Positions and coefficients are continuous and dimensions unbounded; convergence is a statement about all points.", "anchors": ["pixell/fft.py:interpol_nufft", "pixell/fft.py:u2nu", "pixell/fft.py:nu2u", "pixell/fft.py:iu2nu", "pixell/fft.py:u2nu_plan", "pixell/utils.py:FourierInterpolator"]}
{"id": "C181", "title": "Resampling arrays by Fourier methods keeps signals and gives the shapes asked for", "statement": "resample and fft.resample to n samples give arrays with n samples along the axes asked for and the other lengths unchanged; resampling to a multiple of the length keeps the samples, to more samples and back gives the array, and signals slow enough for both lengths, such as constants and cosines, are resampled exactly. Both functions agree. Resampling by bins multiplies the lengths by the factors.", "quantifier": "all lengths, parities, numbers of axes, axes arguments, factors and complex or real values", "why_tests_cant": "Lengths, factors and signals are unbounded; the wrong cases depend on parity and on the order of axes.", "anchors": ["pixell/resample.py:resample", "pixell/resample.py:resample_fft", "pixell/resample.py:resample_fft_simple", "pixell/resample.py:resample_bin", "pixell/resample.py:make_equispaced", "pixell/fft.py:resample"]}
{"id": "C182", "title": "Coordinate systems described by texts are centred as they say, and moving objects are followed", "statement": "transform to base:lon_lat:sys/lon_lat:sys puts the first position where the second one is, or at the pole if there is none, whatever the systems, the case of their names and the shape of the times; objects of the ephemeris can be used like positions; back and forth gives the positions back. All systems can be transformed to each other. interpol_pos gives the position of an object at all times asked for, from positions computed at most dt apart.", "quantifier": "all numbers, systems, objects, positions, shapes of times, tracks of objects and time intervals", "why_tests_cant": "Texts, positions and tracks are unbounded; the failing cases depend on shapes and on the end of the range of angles.", "anchors": ["pixell/coordinates.py:getsys_full", "pixell/coordinates.py:transform", "pixell/coordinates.py:transform_raw", "pixell/coordinates.py:hor2cel", "pixell/coordinates.py:cel2hor", "pixell/coordinates.py:interpol_pos"]}
{"id": "C183", "title": "Arrays are broadcast around exempted axes, counted by rows and averaged robustly", "statement": "broadcast_arrays returns every array with its first npre and last npost axes unchanged and the others broadcast to the common shape, new axes added at the place asked for, None passed through. bincount gives for each row the sum of the weights with each number, whatever their type, and zeros where there are none. medmean2 is not moved by outliers in less than half of its blocks, for arrays of any length.", "quantifier": "all numbers of arrays, shapes, exempted axes and places; all rows, weights and types; all samples, fractions and block sizes", "why_tests_cant": "Shapes, places and numbers of samples are unbounded; some places silently give the wrong elements.", "anchors": ["pixell/utils.py:broadcast_arrays", "pixell/utils.py:bincount", "pixell/utils.py:medmean2"]}
{"id": "C184", "title": "Labels grow to the closest region and object finders report every detected object with its own significance", "statement": "labeled_distance_transform gives every unlabelled pixel the distance and the label of the closest labelled pixel up to rmax, and labelled pixels distance zero and their own label. The finders report one object per group of connected pixels above the threshold, sorted from the strongest on; its significance is the largest of the group, its case the one that attains it, and its position within the radius of its peak. The strongest pixel is always reported with a relative threshold. Objects across the end of a map of the whole sky are reported once.", "quantifier": "all maps, labels, distances, radii, thresholds, penalties, numbers of cases and significances", "why_tests_cant": "Maps and labels are unbounded; lost labels and borrowed significances appear only for large or neighbouring objects.", "anchors": ["pixell/enmap.py:labeled_distance_transform", "pixell/analysis.py:FinderSimple", "pixell/analysis.py:FinderMulti", "pixell/analysis.py:FinderMultiSafe", "pixell/analysis.py:make_circle_labels", "cython/distances_core.c:find_edges_labeled"]}
{"id": "C185", "title": "Maps change only when they or maps sharing their memory are changed in place", "statement": "In every program that makes maps, copies, converts, wraps and views them, takes windows of them, computes with them, sets pixels and shifts them: operations not in place change neither pixels nor sky positions of any existing map; setting a pixel sets exactly the pixels that are the same memory; copies, conversions, results and shifted maps have pixels of their own. shift moves each pixel cyclically by the offsets together with its sky position. Changing a map that is a copy or conversion leaves the other one with its pixels at their sky positions.", "quantifier": "all programs of any length with any number of maps, shapes, windows, values and offsets", "why_tests_cant": "A statement about all sequences of operations; which maps share pixels or a wcs object depends on the whole history.", "anchors": ["pixell/enmap.py:ndmap", "pixell/enmap.py:shift", "pixell/enmap.py:samewcs", "pixell/enmap.py:slice_geometry"]}
{"id": "C186", "title": "The older Doppler boosts agree with the exact ones to second order, and Newton's method finds the temperature", "statement": "old_aberration.apply_modulation with all its terms is the intensity of the boosted black body in linearized units up to terms smaller than the square of the change of temperature; inv_planck started anywhere decreases towards the temperature asked for and never falls below it after the first step; boost_map and Aberrator rotate polarization as a spin-2 field and agree with each other, also for stacks of maps; aber_angle is undone by the opposite speed and aber_deriv is its derivative; remap's amplitude is the Doppler factor; distortion is the change of local scale by remap; aberrate keeps the polarized intensity.", "quantifier": "all positive constants, frequencies, temperatures, starting points and numbers of iterations; all angles and speeds below that of light; all maps, components and rotation angles", "why_tests_cant": "Convergence from every start, an error term of an expansion and derivatives are statements about continuous ranges; tests compare one map.", "anchors": ["pixell/old_aberration.py:apply_modulation", "pixell/old_aberration.py:inv_planck", "pixell/old_aberration.py:planck", "pixell/old_aberration.py:apply_aberration", "pixell/old_aberration.py:Aberrator", "pixell/old_aberration.py:remap", "pixell/old_aberration.py:distortion", "pixell/old_aberration.py:aberrate", "pixell/old_aberration.py:aber_angle"]}
{"id": "C187", "title": "Coordinate grids: lines are cut at jumps, drawn once each, and labelled where they cross the edges", "statement": "calc_line_segs cuts a line where a step is longer than steplim times the median step and nowhere else, keeps every point, and extends the pieces straight towards the cuts; with steplim of at least one at most half of the steps are cut. calc_gridinfo draws each line at a multiple of the step in the box (or on the sky) once, labelled within half a turn. calc_label_pos puts a label at every crossing of an edge of the image, on the curve, and one at the first point of a curve that stays inside.", "quantifier": "all lines, also with points that are not numbers; all step lengths, limits, boxes, steps and image sizes", "why_tests_cant": "Tests draw a few grids; which lines are cut, repeated or labelled off the curve depends on every combination of step, box and point positions.", "anchors": ["pixell/cgrid.py:calc_line_segs", "pixell/cgrid.py:calc_gridinfo", "pixell/cgrid.py:calc_label_pos"]}
{"id": "C188", "title": "Colour schemes are what their descriptions say, and colours given directly are carried over", "statement": "Colorscheme of a text v1:c1,...,vn:cn has exactly these control points, sorted by value, whatever their order; a code alone is a constant colour; codes of six digits are opaque and those of eight give the opacity; what is accepted has at least two points with four channels from 0 to 255 each. reverse gives 1-v the colour of v, and twice gives the scheme back. colorize with mode direct carries RGB and RGBA values over to 0 to 255, sets a missing opacity to 255 and makes invalid pixels transparent, the same with both drivers and however the threads run. direct_colorcap keeps colours in range and scales stronger ones to the strength 1.", "quantifier": "all descriptions, numbers of control points, values, colours, drivers, and orders in which threads execute their statements", "why_tests_cant": "Texts, values and above all the interleavings of threads are unbounded; a data race shows up only in some runs.", "anchors": ["pixell/colorize.py:Colorscheme", "pixell/colorize.py:colorize", "pixell/colorize.py:colorize_direct_python", "fortran/colorize.f90:direct", "fortran/colorize.f90:direct_colorcap"]}
{"id": "C189", "title": "Cutouts are centred on their position and lie inside the map, and the areas of rows are exact", "statement": "reproject.cutout gives npix by npix pixels of the map, with the position within half a pixel of their middle and at least pad pixels from the edges, or nothing if there is no such cutout; a path gives the same as the map it names. get_pixsize_rect gives every row of a cylindrical map the exact solid angle of its pixels, also where they reach beyond a pole, and the pixels of a map covering the sky have 4 pi together.", "quantifier": "all map sizes, positions, numbers of pixels and paddings; all row heights, offsets and directions of declination", "why_tests_cant": "Rounding of half-way positions, edges and directions are combinations over unbounded sizes and real positions.", "anchors": ["pixell/reproject.py:cutout", "pixell/reproject.py:get_pixsize_rect"]}
{"id": "C190", "title": "Contours are at the levels asked for and drawn where the map crosses them", "statement": "calc_contours of the text base:step gives all values base+n*step in the range of colours, in order, with negative steps as fractions of the range; numbers with commas between them are the levels themselves. draw_contours draws a level in exactly those pixels that it separates from the next pixel in one of the two directions, with the colour of its place in the list of levels, in whatever order they are given; NaN gives no contours.", "quantifier": "all levels in any order, ranges, steps, map sizes and maps, also with values that are not numbers", "why_tests_cant": "Maps, levels and their order are unbounded; missing and spurious contours depend on edges, steep places and NaN.", "anchors": ["pixell/enplot.py:calc_contours", "pixell/enplot.py:draw_contours", "pixell/array_ops.py:find_contours", "fortran/array_ops.F90:find_contours"]}
{"id": "C191", "title": "Products of small matrices along chosen axes", "statement": "matmul(A,B,axes) multiplies the matrix along the two given axes of A with the vector at the same place along the first of these axes of B, for every place, whatever the other axes; for matrices B it gives their product; matmul_sym does the same for symmetric matrices of the same size; one matrix applies to all vectors.", "quantifier": "all arrays with any number of axes and any sizes, axes anywhere and counted from either end, all contents of uninitialised memory", "why_tests_cant": "Shapes, positions of the axes and values are unbounded; products that read uninitialised memory or transpose a matrix look plausible on single examples.", "anchors": ["pixell/array_ops.py:matmul", "pixell/array_ops.py:wrap_mm_m", "fortran/array_ops.F90:matmul_multi", "fortran/array_ops.F90:matmul_multi_sym"]}
{"id": "C192", "title": "The images made of maps, their colour ranges, names and options", "statement": "plot makes one image for each component of each map, each on exactly one MPI rank, drawn with the colour range of that component; with rgb each three components make an image with their ranges; with symmetric only the components on and above the diagonal are drawn, with their ranges; no two images have the same name; keywords override option texts, later texts override earlier ones, and -g toggles the grid.", "quantifier": "all numbers of maps, ranks and components, all shapes, names, prefixes and option texts", "why_tests_cant": "Shapes, numbers of ranks and texts are unbounded; ranges of wrong components and clashing names show only with several components or maps.", "anchors": ["pixell/enplot.py:plot_iterator", "pixell/enplot.py:define_arg_parser", "pixell/enplot.py:parse_args", "pixell/enplot.py:get_num_digits"]}
{"id": "C193", "title": "Rotating spherical harmonic coefficients", "statement": "rotate_alm rotates every map of coefficients once by the given angles, changes the passed array only if asked to, and uses the preferred available library; rotating by the negative angles in the opposite order undoes it, and so do the predefined angles between galactic and equatorial coordinates; prof2alm turns the pole to the given direction and keeps distances from it; the number of threads is the one given.", "quantifier": "all coefficients with any leading axes, all angles and directions, all libraries that rotate, all environments", "why_tests_cant": "Angles and coefficients are real numbers without bound; a wrong order or sign of one angle is invisible for small or special angles.", "anchors": ["pixell/curvedsky.py:rotate_alm", "pixell/curvedsky.py:euler_angs", "pixell/curvedsky.py:prof2alm"]}
{"id": "C194", "title": "Bunches of arrays, joined tables and flattened views", "statement": "bunch.concatenate turns a list of bunches into a bunch with, for each key, the values of all bunches in order and unchanged; merge_arrays joins tables into one with all their columns; what is written to a flattened view ends up at the right place of the array whether or not the view is a copy, and a view that is not for writing leaves the array as it is.", "quantifier": "all lists of bunches with whole numbers, numbers and texts, all tables, all arrays, orders of axes, modes and sequences of writes", "why_tests_cant": "Lists, values and sequences of writes are unbounded; values are changed only when types differ, and copies depend on the memory layout.", "anchors": ["pixell/bunch.py:concatenate", "pixell/analysis.py:merge_arrays", "pixell/utils.py:flatview"]}
{"id": "C195", "title": "Masked pixels are filled from the nearest good ones", "statement": "inpaint fills every masked pixel of every component with the value of the nearest unmasked pixel of the map in that component and leaves all others as they are; a map without masked pixels is returned as it is, and one without good pixels becomes zero.", "quantifier": "all map sizes, masks, values and leading axes, and all memory layouts of the map", "why_tests_cant": "Masks are arbitrary sets of pixels; that it is enough to look at the pixels bordering the mask is a statement about all of them.", "anchors": ["pixell/enmap.py:inpaint", "pixell/enmap.py:ndmap.copy", "pixell/enmap.py:ndmap.preflat"]}
{"id": "C196", "title": "Plotted maps are oriented as on the sky, and masked as asked", "statement": "Plots show declination increasing upwards and right ascension increasing to the left however the map is stored, unless the user slices it the other way; this also holds for the part of the map given by sub. mask makes exactly the values equal to it within the tolerance transparent, in colour images where all three components have it, and it can be infinite.", "quantifier": "all maps with any direction and length of axes, boxes, slices, masks, tolerances, values and numbers of components", "why_tests_cant": "Directions of axes, boxes and slices combine in many ways, and values are unbounded.", "anchors": ["pixell/enplot.py:get_map", "pixell/enmap.py:submap"]}
{"id": "C197", "title": "Maps turned to the origin, gnomonic geometries and inverse variance maps", "statement": "get_rotated_pixels puts the given position of the source at the given position of the target; centered_map puts the middle of the map at the origin; gnomonic geometries have their reference position in the middle; ivar_hp_to_cyl gives the same map for every number of MPI tasks, conserves the total inverse variance of each healpix pixel and masks bad ones.", "quantifier": "all shapes with or without leading axes, pixel sizes and positions, numbers of tasks, rows and heights of blocks, all values", "why_tests_cant": "Positions are real numbers, shapes and numbers of tasks unbounded; a wrong middle is invisible for special shapes.", "anchors": ["pixell/reproject.py:centered_map", "pixell/reproject.py:get_rotated_pixels", "pixell/reproject.py:gnomonic_pole_wcs", "pixell/reproject.py:ivar_hp_to_cyl"]}
{"id": "C198", "title": "Annotations are drawn where they belong", "statement": "Annotations of plots are drawn at the pixel nearest to their position; lines and rectangles join the positions given, also if they begin outside the map; the pixels of a rectangle are those in it less than its line width from the edge, whatever the order of its corners; annotate_maxrad skips exactly those that are at least that far from the image.", "quantifier": "all positions, map sizes, pixel sizes, line widths and radii", "why_tests_cant": "Positions and sizes are unbounded; lines vanish or move only if they begin outside the map or on wide maps.", "anchors": ["pixell/enplot.py:draw_annotations", "pixell/utils.py:unwind"]}
{"id": "C199", "title": "Unions, tables interpolated row by row, masked medians and reference levels", "statement": "union of arrays has every value of any of them once and in rising order; interp gives for every row of a table the broken line through its points at every position; maskmed gives the median of the values that differ from the mask value, and the mask value if there are none; get_ref gives the typical level of the upper half of the positive values and the default only if nothing is positive.", "quantifier": "all numbers and lengths of arrays, tables and positions, all values including NaN, all mask values and defaults", "why_tests_cant": "Values and lengths are unbounded; one array, tables of whole numbers, NaN as mask value and constant levels are easy to leave out.", "anchors": ["pixell/utils.py:union", "pixell/utils.py:interp", "pixell/utils.py:maskmed", "pixell/analysis.py:get_ref"]}
{"id": "C200", "title": "Timing of blocks of code", "statement": "After any run of blocks marked with bench.mark and bench.show, nested or in sequence, with exceptions raised and caught anywhere, n, t_tot and t of each name are the number of its blocks, the sum of their times and the time of the last that ended, on the clock given; exceptions pass through; show prints one line for each of its blocks with their last time, mean and number; the total of a name is at most the time that has passed.", "quantifier": "all programs of nested and repeated blocks, names, clocks, durations and places of exceptions, and all histories of programs on one Bench", "why_tests_cant": "Programs, their nesting and the places where they raise are unbounded; tests time a few blocks with a clock that cannot be foreseen.", "anchors": ["pixell/bench.py:Bench.mark", "pixell/bench.py:Bench.show", "pixell/bench.py:Bench.add", "pixell/bench.py:Bench.print"]}
{"id": "C201", "title": "Environment variables, replaced text and fractional offsets", "statement": "After any sequence of calls of setenv each variable has the value of the last call that was to set it, None deletes it, keep leaves what is there, and getenv gives the default exactly for variables that are not set; replace replaces all occurrences from the left and raises exactly if there is none; hasoff tells whether a value is an integer plus the offset to the tolerance.", "quantifier": "all histories of calls, names and values, all texts and patterns, all values, offsets and tolerances", "why_tests_cant": "Histories, texts and numbers are unbounded.", "anchors": ["pixell/utils.py:setenv", "pixell/utils.py:getenv", "pixell/utils.py:replace", "pixell/utils.py:hasoff"]}
{"id": "C202", "title": "Splitting of file paths", "statement": "Going through the parts that pathsplit gives leads to the same place as the path; the parts are names, with the root only in front and no way back after a name.", "quantifier": "all paths with any number of slashes, empty parts, dots and double dots, and all directories one starts from", "why_tests_cant": "Paths are unbounded, and double dots cancel at any depth.", "anchors": ["pixell/utils.py:pathsplit"]}
{"id": "C203", "title": "Plotted stamps", "statement": "Plotting stamps gives one for each of the first sources of the file, in its order, as many as asked for; each has the size asked for along both axes, holds its source and has it in the middle, in the middle pixel if there is one.", "quantifier": "all files, positions, sizes and numbers of stamps, all maps from positions to pixels", "why_tests_cant": "Positions and sizes are unbounded; whether a stamp is off depends on the parity of pixels.", "anchors": ["pixell/enplot.py:extract_stamps", "pixell/enmap.py:stamps"]}
{"id": "C204", "title": "Merging of finished plots", "statement": "merge_plots gives a plot with the bounds that hold those of all plots, which shows at each position what the plots show there, later ones over earlier ones, and leaves the plots it is given as they are, so that merging them again gives the same.", "quantifier": "all numbers of plots, images, bounds and positions, all ways in which pixels cover each other, and repeated merges", "why_tests_cant": "Sizes and numbers of plots are unbounded; the change of the first plot shows only in what is done with it later.", "anchors": ["pixell/enplot.py:merge_plots", "pixell/enplot.py:standardize_images", "pixell/bunch.py:Bunch.copy"]}
{"id": "C205", "title": "Printing of database tables", "statement": "show prints the first rows of a table or query in columns as wide as their longest fields, with fields at the right, as many rows as the limit says, and dots after them exactly if there are more; a limit in the query takes the place of the limit given, however it is written.", "quantifier": "all tables, numbers of rows and columns, lengths of fields, limits and ways of writing a limit in the query", "why_tests_cant": "Rows, fields and limits are unbounded; the dots depend on rows that are not printed.", "anchors": ["pixell/sqlite.py:show", "pixell/sqlite.py:format_result"]}
