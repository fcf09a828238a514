# Formal model of SMIL: design

The project under study is the C++ image library in `/repo` (SMIL).  Nothing of it is
built or run; the model below was written from the text of the sources.  The model is a
set of total, executable Lean 4 functions under `lean/Verif/`; every definition carries a
comment with the file and lines it renders.  Theorems that state the listed properties
live in files called `Verif/Props*.lean`, apart from the lemmas.

## Trusted base

* Lean 4.33.0's kernel, and the axioms `propext`, `Classical.choice`, `Quot.sound` only
  (checked with `#print axioms` on every property theorem, the result is in `AXIOMS.md`; no own axioms,
  no `sorry`, no `native_decide`, no `bv_decide`).
* The reading of the C++ text into Lean (the model).  Where a definition simplifies the
  code, its comment says so.
* C++ features taken as given: conversions to a narrower integer type are modular
  (gcc/clang behaviour, and the standard since C++20); arithmetic on types narrower than
  `int` is performed in `int`; vectors, maps, sets and queues of the standard library
  behave as specified.

## Conventions

* A pixel type is `PT` (signedness and number of bits); values are integers in its range
  (`Px t`).  `Px t` is a bounded linear order; operators that only use `min`/`max`
  (dilation, flooding, ...) are modelled over an arbitrary bounded linear order.
* An image is width, height, depth and the flat list of pixels in memory order; `at?`
  reads a pixel by coordinates and is `none` outside.
* Queue based algorithms work on offsets; buffers are functions on offsets updated
  pointwise, and the offsets produced are proved to be inside the image.
* Undefined behaviour (out of range access, use of freed memory, oversized shift,
  division by zero, uninitialised read, infinite recursion) is a separate outcome of the
  model (`Option`/`Except` style results), never a default value.
* If the code does not have the property, the negation is proved with a concrete witness
  (theorem names contain `_fails` or `_bug`), and the part that holds is proved under the
  exact guard with the suffix `_partial`.

## Properties: what is modelled and how it is proved

| id | model | proof |
|----|-------|-------|
| C01 | offset/coordinate arithmetic of `BaseImage` and `ImageBox` | div/mod algebra, bijection; off-by-one of `isOffsetInImage` shown by witness |
| C02 | `ImageBox` cursor with all `setReference`/`shift` overloads | invariant over move sequences for the right overloads, witnesses for the wrong ones |
| C03 | state machine of `Image` (dims, buffer, line table) | invariant by induction over histories; witness for `setSize` after non-allocating `setSize` |
| C04 | lists of slots per signal and signals per slot | invariant by induction over histories; witness for `disconnectAll` |
| C05 | buffer pool as state machine with freed set | invariant over histories without `clear`; double-free witness |
| C06 | `addLine`/`subLine` kernels on `Px t` | exact clamp for unsigned types; witness for signed |
| C07 | `addNoSat`, `subNoSat`, `mulNoSat` | modular arithmetic; witness for `mulNoSat` |
| C08 | `invLine`, `supLine`, `infLine` | algebra over all types |
| C09 | `supLine`, `infLine`, `absDiffLine` | lattice laws, lifted to images |
| C10 | comparison kernels, `_compare_base`, `test`, `compare` | case analysis |
| C11 | per line loops of the image function classes incl. aliasing | induction over lines; size check branch |
| C12 | `applyLookup`, generic and array based | refinement to a finite-map spec; witness for the uninitialised last entry |
| C13 | channel copies on multichannel images | round trips |
| C14 | operators of `MultichannelType` | order theory; witness for `!=` |
| C15 | `histogram` array and map versions | counting; witnesses |
| C16 | `threshold` | case analysis |
| C17 | `processImage` run splitting and measure functors | fold refinement |
| C18 | `computeBlobs`, `drawBlobs` | scanner invariant, coverage; witness for last pixel |
| C19 | blob measures and area threshold | from C18 |
| C20 | flips and rotations as index maps on the pixel buffer | index algebra; witness for the 90 degree case |
| C21 | `shiftLine`, `translate`, `copy`, `crop`, `addBorder` | index algebra; out-of-guard shift is UB |
| C22 | `StrElt` operations | list/set reasoning |
| C23 | `homothety` | induction on n |
| C24 | `rotatePoint` with its tables | modular arithmetic; witness for negative steps |
| C25 | generic line algorithm (shift each line, combine) | loop refinement to pointwise sup/inf |
| C26 | specialised kernels | refinement to the same spec |
| C27 | thread programs as atomic row steps, any interleaving between barriers | commuting/independence argument over all schedules |
| C28-C31 | spec level operators obtained from C25 | adjunction and Galois connection theory; witness on odd slices |
| C32, C33 | residues, granulometry (`GranCdf`: its cumulated form, with rationals) | from C28-C31 and exactness of `sub` |
| C34 | FIFO stacks + level index | refinement to a stable priority queue, over histories |
| C35, C36 | marker/mask/status flooding with the queue | invariants; bottleneck path characterisation |
| C37, C38 | composed operators | from C35 |
| C39 | two-level BFS labelling | invariants, connectivity |
| C40 | neighbour value count | direct |
| C41-C43 | flooding state machines | invariants by induction on steps |
| C44-C46 | graph with adjacency map | invariants, Prim exchange argument, reachability |
| C47 | boundary scan | fold invariant; witness for duplicated edges |
| C48 | four scans of `distCross` | scan lemma, L1 distance |
| C49 | Meijster phases | lower envelope invariant |
| C50 | level by level BFS | BFS invariant |
| C51 | union-find area opening; the max-tree is compared in C63 | invariant relating roots to threshold components |
| C52 | hit-or-miss and thinning | pointwise, termination measure |
| C53 | arrow kernels | pointwise |
| C54 | rank filters | sorted list facts |
| C55, C56 | packed words | bit level algebra with `BitVec 64`/`Nat.testBit`; witnesses for shifts |
| C57, C58 | byte level writers and readers | round trip by list reasoning; UB witness for malformed/ASCII input |
| C59 | merge table of extinction flooding | invariant over merges |
| C60 | freezer stack | induction over nesting |

| C61 | line pointers of multichannel images | address algebra; witness for addition after increment |
| C62 | search of the threshold of Otsu, in exact arithmetic | loop invariant; maximality of the variance |
| C63 | max-tree: construction by flooding, criteria, lookup of the filtered levels | ghost tree with ancestors and children; nodes are the components of level sets |
| C64 | van Herk recursion on lines, families of digital lines | block maxima invariant; each pixel on exactly one line; UB and unwritten pixels as theorems |
| C65 | opening of Morard: stack of runs per line, families of lines | invariant of the stack; greatest level of the runs; overflow of the stack and wrong families as theorems |
| C66 | `lblSkiz`: dilations of labels and complements, wrapping sum, volume test; `inflBasins`, `inflZones` | invariant on the length of paths from labels; termination by volume; the memory of a new image read by `inflZones` as theorem |
| C67 | `bresenhamPoints` (four slopes, straight cases, range), `drawLine`, `profile`, `drawRectangle`, `drawBox`, `drawCircle`, `drawDisc`, `drawSphere`; stores outside of the tables or of the buffer are UB | invariant of the error term gives the rounded ordinate; sets of painted points compose; exceptions as theorems |
| C68 | `matTranspose` (table of axes, `setPixel`), `matMultiply` with promoted products and sums (signed overflow is UB), `matMultiply(a, b, a)` | writes at distinct offsets; sums modulo the number of values; associativity and transposed product from the specification |
| C69 | the indices of `DImageCompare.hpp` over rationals (the code uses double), `distanceHamming`, `distanceHausdorff` (the square, before `sqrt`) with the loops and boxes of blob offsets | partition of the pixels into TP/FP/FN/TN; union bound for the triangle inequality; invariant of the two minimum tables; the computed distance is that of the boundaries, so the property fails for objects that differ inside (partial) |
| C70 | `skiz`, `skeleton`, `extinctionValues`, `pruneSkiz` of `DSkeleton.hpp`; `HMT_hL`, `HMT_hM` | one thinning by a template of either list keeps the components of the set and of its complement on the hexagonal grid (`HexTopo`: maps that move each removed point to a neighbour, compatible with the adjacency), then induction over rounds; volume for the end of the loops; the erosion loop of `skeleton` omits level 0 and stops at the first empty level, so the property fails for squares and single pixels; `skiz` for one slice, `skeleton` and `extinctionValues` for unsigned inputs, elements with the origin for the latter |
| C71 | `minimaLabeled`, `watershed` without markers, both `waterfall` of `DMorphoWatershed.hpp` | composition of C38, C39 and C42; the invariant of the flooding is extended: markers that touch no other marker stay off the line, every pixel off the line is joined to its marker off the line, every line pixel touches two labels off the line; the filled relief is the dual reconstruction (C35) read as a least height over paths, its minima are found by taking the lowest pixel of a plateau; induction over levels. Fails at the maximum of the type and at the last level (everything on the line), and for elements of size 2 |
| C72 | `fastMinima`, `fastMaxima` (`fastExtrema`) of `DMorphoExtrema.hpp`, `arrowPropagate` of `DMorphoArrow.hpp`, pixels as bit vectors of a signed or unsigned type | the queue ends (pixels without the value + length of the queue decreases); invariant of the scan: every pixel at 1 is reached from a beaten pixel by steps of equal value and its arrows lead to 1; composition with C53 for the two arrow images. Fails for more neighbours than bits (cube on 8 bits), for a neighbour on the sign bit, for sizes other than 1, in place, for elements without neighbours; the output size is not checked (undefined); threads not modelled |
| C73 | `hMinima`, `hMaxima`, `hMinimaLabeled`, `hMaximaLabeled`, `maximaLabeled` of `DMorphoExtrema.hpp` | the reconstruction (C35) is read as a greatest level over paths; the plateau of a regional maximum of the reconstruction is what its summit reaches, so its regional maxima are the peaks of dynamic above `h`; the order dual gives the minima; composition with C38 and C39. Fails where bottom + `h` reaches the maximum of the type (a constant image near it has no minimum), and for labelled extrema with elements of size 2 |
| C74 | `geoDilate`, `geoErode` of `DMorphoGeodesic.hpp` | by induction over the steps: after `n` of them the image is the greatest level carried by `n` steps of the element below the mask; the sets of pixels reached at a level grow until they pause, so as many steps as there are pixels give the reconstruction (C35). **Fails** when the mask is also the output: the first infimum overwrites it and the result is the ordinary dilation |
| C75 | `asfOpen`, `asfClose` of `DMorphoFilter.hpp`, `asBuildOpen`, `asBuildClose` of `DMorphoGeodesic.hpp` | the algebra of decreasing families of openings and increasing families of closings over any preorder, applied to the loop of the code; the laws of the families are those of C31, C33 and C37. The filters by reconstruction need a symmetric element with its origin and an unsigned type |
| C76 | `horizConvolve`, `vertConvolve`, `convolve` of `DImageConvolution.hpp` | the three loops of a line with every read and write checked; means over the rationals (`wSum / wTotal`), truncated towards zero. Exact arithmetic instead of `double` |
| C77 | `gaussianFilter` of `DImageConvolution.hpp` | same means along three axes, weights are any positive rationals (the code has values of `exp`). Exact arithmetic instead of `double`: the rounding of `sumV / sumK` just below an integer is not modelled |
| C78 | `resize` of `DImageTransform.hpp`, method closest | positions over the rationals; the mutual recursion of the 2D and 3D functions is modelled with a bound on the calls that no bound satisfies for 3D images. Exact arithmetic instead of `double`; `resize3DClosest` is only reachable in that recursion |
| C79 | `resize`, methods bilinear and trilinear, `scale` | coefficients and reads of the code against sums of hat functions over the rationals. Exact arithmetic instead of `double` |
| C80 | `stretchHist` (three overloads), `stretchHistLine` | linear map over the rationals, clamped and rounded; infinities and NaN of the division by zero are cases of the model, the conversion of a NaN is undefined. Exact arithmetic instead of `double` |
| C81 | `histogramRange`, `enhanceContrast` | the two loops over the array of counts, with the conversions to `size_t` of the code. Exact arithmetic instead of `double` |
| C82 | `IncrementThresholds`, `otsuThresholdValues(hist, n)`, `otsuThreshold(imIn, imOut, n)` | the vectors of thresholds, frequencies and means and the map whose size bounds the enumeration; the loop has a bound on its number of turns, shown to be enough. Exact arithmetic instead of `double`; the masked version is not modelled |
| C83 | `distanceGeodesic` | both loops over the hierarchical queue of C34, with the search of the least neighbour; the conversion of a `float` out of range is a separate outcome. Same type for input and output (the code only compiles then); output distinct from the inputs; types above 16 bits, where `float` rounds, are left out of the theorem |
| C84 | `labelWithArea`, `labelWithVolume`, `labelWithMaxima`, `labelWithMean` | on top of the labelling of C39 and the blobs of C40; the image of labels made inside starts with arbitrary pixels, which are used when `label` refuses. Measures are rationals instead of `double`; `label` is called once instead of twice |
| C85 | `genericCovariance`, `measCovariance`, `measAutoCovariance` | the loops over pairs with checked reads; integer products as C++ evaluates them (overflow of `int` is a separate outcome); `Image<float>` as rationals with the saturated subtraction of the code. **Fails** for centred covariances: `ImDtTypes<float>::min()` is the smallest positive number, everything below the mean is cut there. Exact arithmetic instead of `double` and `float` |
| C86 | `measEntropy`, `blobsEntropy` | `measEntropyFunc` on the frequencies; the version with a mask on the array of the histogram, as C15. **Fails** for images that are not allocated (-99), with a mask for 32 bit images with pixels far apart and for masks of another size. Real numbers instead of `double` |
| C87 | `measBarycenter`, `centerMoments`, `measMoments`, `blobsBarycenter`, `blobsMoments`, `blobsInertiaMatrix` | sums as exact integers, quotients as rationals, division by zero and reading an empty vector as separate outcomes. **Fails**: the axes of the matrix of an image of one slice are exchanged, centred moments of signed images without positive mass are zero. Rationals instead of `double` |
| C88 | `arrowMin`, `arrowMinStep` | as C53, with the running minimum, the reset of the bits and the addition of the bit. **Fails**: pixels above all neighbours (`arrowMinStep`), elements with points in other slices, outputs with fewer bits than points. Input and output distinct; the element is used once whatever its size |
| C89 | `cast`, `expand` (three overloads), `sCurve` | integer differences in the promoted type, conversions of `double` to a type that cannot hold the value as undefined behaviour. **Fails** for `cast` to signed types, `expand` with two ranges on signed types or with bounds in the wrong order, `sCurve` without a pivot and on 32 bits. Rationals, and real numbers for the sigmoid, instead of `double` |
| C90 | `ultimateOpen`: `compute_contrast`, `compute_max`, `ComputeDeltaUO` | recursion over the nodes with fuel; the pages of results as a function. The height of the root leaves out the first pixel, which is proved not to matter. The default stop size `height - 1` leaves out the openings by the sizes `height - 1` and `height`, as in the code. **Fails** (all results 0) when `height - 1` is a multiple of the size of the indicator type, and for 32 bit images |
| C91 | `geodesicDiameter`, `geodesicElongation`, `geodesicTortuosity`, `geodesicExtremities`, `geodesicMeasure`, `labelFlatZones`, `geodesicPathOpening` with the functions behind them | `double` are rationals and `sqrt` any function that is positive on positive numbers; the vectors are functions; squared distances are compared in the search of the first pixel. The conversion to the output type is undefined when the value does not fit. `geodesicUltimatePathOpening` is not modelled. **Fails** as a diameter on a 2×2 block, on images of maximum 1, on components of one pixel (extremities, tortuosity), for `dzOverDx` (applied to `y`), in place, for images with all levels of their type |
| C92 | `blobsMeanVal`, `blobsValueList`, `blobsModeVal`, `blobsMedianVal`, `blobsBoundBox` (grey images and labels) with their functors and `processImage(im, blobs, onlyNonZero)` | `double` are rationals; the square root of the standard deviation is not taken. Blobs come from `computeBlobs` on a label image. **Fails** for values that are not positive (mode and median), and for an image smaller than the blobs (sizes are not compared, the pixels are read outside of the image) |
| C93 | `labelWithoutFunctor2Partitions` | Symmetric element with a point apart from the origin; labels are natural numbers up to the maximum `M` of the type. **Fails** for pixels that are zero in the first image (no label), after `M - 2` regions (numbers start again) and for a second image of another size in the mode that resizes |
| C94 | `areaClosing` (method `unionfind`), `geodesicPathClosing` | As C51 and C91. Inversion is defined for unsigned types and signed types up to 16 bits. **Fails** for `geodesicPathClosing` into an image of another type, for negative `INT32` pixels (undefined behaviour), for hexagonal elements and size 0 as C51 |
| C95 | `grayLevelZMSize` (`Size`, `Compute2D`, `ComputeBinary` with method 0, the twelve features) | Values 0 to 255, at most 255 levels; `double` are rationals (the rounding to levels is never at a half, so it is exact in `double` too); fewer than 2^31 pixels and entries. `grayLevelZMDistance` is not modelled. **Fails**: sizes too large by one, greatest zones counted as one pixel of the next level, out-of-bounds write if the greatest size occurs at the last level, levels modulo 256 for larger values; the features are not normalised (`Sum` is always 1) |
| C96 | `SharedImage<T>` (constructors, destructor, `operator=`, `attach`, `detach`, `clone`, `setSize`), `Image<T>::getSlice`, `Image<T>::clone` on a view | The heap of C03; a pointer is a block and an offset. Viewers and events are left out. `NumpyInt` and the other interfaces are not modelled. **Fails** for assignments from a view of the same data or without data (`C96_assign_ub`, for every such state), for `setSize` and `clone` through `Image<T>&`, and for slices of images that are not allocated |
| C97 | `zhangSkeleton` with its copies (C21) | Sizes without wrapping; input and output distinct. The specification is on sets of points of the plane, with no reference to buffers. **Fails** for components that are squares of 2 × 2 (`C97_vanish_bug`), for products that overflow or wrap (`C97_product_bug`, the bound 1290 is sharp) and for every signed image (`C97_signed_ub`). `zhangThinning` is an alias; `imageThinning` and `skDongLinHuang` are not modelled |
| C98 | `PBMImageFileHandler<T>::read` with `readNetPBMFileInfo` | Sizes below `2^64`; `char` is signed and `>>` rounds down (as all compilers do). The positive ASCII theorem is partial: values must be followed by white space. **Fails** for digits without separators (`C98_unseparated_bug`) and for truncated files (`C98_truncated_bug`) |
| C99 | `bitAnd`, `bitOr`, `bitXOr`, `logicAnd`, `logicOr`, `logicXOr` and their line functions | Types of at least one bit; integers of two's complement. Specification: bit `k` is the parity of the quotient by `2^k`. `inv` of signed types of 32 bits is undefined (C08) |
| C100 | `toArray`, `fromArray`, `toCharArray`, …, `toIntVector`, `fromIntVector`, `toString`, `fromString` | Conversions are modular; `char` is signed; an overrun of an array is `none`. **Fails** for narrower elements (`C100_narrow_bug`) |
| C101 | `drawRectangles` with `drawRectangle` (C67) and `blobsBoundBox` (C92) | The map is the list of its entries in the order of the keys; coordinates fit in `int`; rectangles in the image. **Fails**: empty maps (`C101_empty_ub`), later vectors with less than four numbers (`C101_short_ub`), boxes of several slices (`C101_slices_error`) |
| C102 | `graphToMosaic` with `labelizeNodes` (C46), `applyLookup` (C12), `mosaicToGraph` (C47), `removeHighEdges` (C44) | Nodes are integers; the range constructor of `std::map` keeps the first pair of a key. **Fails**: nodes without edges throw (`C102_isolated_throws`), mosaics of one zone are refused (`C102_single_bug`), node types wider than the pixel type (`C102_wide_bug`); provisos of C12 for the maximum of `UINT8` and `UINT16` |
| C103 | `kuwaharaFilter` | Sums, means and variances are exact rationals instead of `double`; a radius that is not negative; `v * v` is computed in the promoted pixel type. **Fails**: `UINT16` values above 46340 overflow `int` (`C103_overflow_ub`), variances of 9999999 or more leave the square of the previous pixel (`C103_variance_bug`) |
| C104 | `sigmaFilter`, out of place and in place | Exact rationals instead of `double`; the square root is removed by comparing squares (`C104_deviation`). **Fails**: `0 / 0` converted to the pixel type (`C104_alone_ub`, `C104_negative_ub`), overflow of squares (`C104_overflow_ub`), in place (`C104_inplace_bug`) |
| C105 | `measCrossCorrelation` with `equLine` | Exact rationals instead of `double`; `dx * len` does not wrap; unfreed lines left out. **Fails**: factor max² (`C105_scale_bug`), division by zero when normalised (`C105_normalized_bug`), displacements longer than the image (`C105_steps_ub`, `C105_default_ub`), overflow for `UINT16` (`C105_overflow_ub`) |
| C106 | `distV0` over the erosion (C25) and the saturated addition (C06) | The loop is run with fuel; a run which has not ended is an outcome of its own. `vol` is an exact sum. **Fails**: no zero pixel loops for ever (`C106_no_zero_endless`), elements without the origin (`C106_origin_bug`), negative pixels (`C106_signed_bug`) |
| C107 | `Core::registerObject`, `unregisterObject`, `getAllocatedMemory`, `getImageIndex`, `deleteAllImages`, `setNumberOfThreads`, `kill`, constructors and destructor of `BaseObject` | Objects are numbered; use of a dead object, erasure of an absent element and double deletion are undefined outcomes. Signals and viewers are left out; without OpenMP take one processor. **Fails**: shared images (`C107_shared_bug`, `C107_copy_shared_bug`), `kill` (`C107_kill_bug`), threads and cores (`C107_threads_bug`) |
| C108 | `labelFunctFast`, `fastLabel`, `lambdaFastLabel` over the erosion (C25) and `label` (C39) | The two passes as they are, threads left out (the lines of a slice are distinct). The planar lemma (`Planar.lean`): numbers on the steps of the grid that vanish around every unit square are differences of a potential, hence the boundary of a connected set along one part of its complement is connected. **Fails**: several values (`C108_grey_bug`), slices (`C108_slices_bug`, `C108_slices_ub`), elements (`C108_vertical_bug`, `C108_size_bug`), `C108_lambda_bug`, `C108_in_place_endless`, `C108_one_line_ub` |
| C109 | `getFileExtension`, `getHandlerForFile`, `read`, `read` of a list, `write`, `write` of a list, for `Image<UINT8>` without Curl, over the readers and writers of C57 and C98 and `copy` (C21) | Names are lists of bytes, each leads to a file; opening may fail. The PNG, JPEG and TIFF libraries are parameters (`C109_stack` holds for any format that reads back what it writes). **Fails**: `C109_repeat_bug`, `C109_scheme_bug`, `C109_spill_bug` |
| C110 | `drawGraph`, over `blobsBarycenter` (C87), `computeBlobs` (C18) and `drawLine` (C67) | The coordinates are rationals: with sums below 2^53 the quotient of doubles has the same integer part. `int(d)` of a missing or too large number is undefined (`none`). **Fails**: `C110_alias_bug`, `C110_slice_bug` |
| C111 | `ComputeLambda`, `ComputeBinaryPathOpening` with its eight scans, `ImBinaryPathOpening`, `ImPathOpeningBruteForce` | The array `Lambda` is a function of direction and point; every access is checked (`none` outside); sizes for which `W * H * 8` overflows an `int`, and volumes, are undefined. The ultimate version is not modelled. **Fails**: `C111_short_bug`, `C111_signed_bug`, `C111_volume_ub`, `C111_brute_bug` |
| C112 | `UpdateLambdaV`, `UpdateLambdaH`, `UpdateLambdaD1`, `UpdateLambdaD2`, `ImPathOpening`, `ImPathClosing` | The entries of `Lambda`, `IsAlreadyPush` and the queues are kept direction by direction, since a step of a direction touches only its own entries; the two interleaved loops of an update are therefore two runs. Pushes outside of the array of queues and points outside of the image are `none`; a queue that receives entries while it is emptied is `none` too, and the theorems exclude it. What is missing: the last orientation, whose first lengths are wrong in the code. **Fails**: `C112_level_bug`, `C112_diagonal_bug`, `C112_lost_bug`, `C112_inplace_bug`, `C112_closing_type_bug` |
| C113 | `InitPixelHeap`, `InsertInPixelHeap`, `RemoveFromPixelHeap`, `FillExtremum`, `SmallRegionalMinima`, `VincentAreaClosing`, `ImAreaClosing_PixelQueue` | The arrays are functions of the index; writes past the end of `heap`, `Queue` and `fill_list`, and a removal from an empty heap, are `none`. Input and output have the same type. What is missing: that the result is the area closing on the images where the code does not fail. **Fails**: `C113_decrease_bug`, `C113_overflow_bug`, `C113_empty_bug`, `C113_volume_bug`, `C113_inplace_bug` |
| C114 | `splitString`, `splitLines` | Strings are lists of characters; sizes wrap modulo 2^64, `find_first_of` and `substr` as specified by the standard (trusted), with the exception of `substr` as `none` |
| C115 | `WindowPoints` (`index`, `coords`, `translate`, `inWindow`) | Every `off_t` expression is checked for overflow (`none`), division towards zero; the messages are left out |
| C116 | `MaxTreeFilterMin`, `MaxTreeFilterDirect`, `MaxTreeFilterMax`, `MaxTreeFilterSubtractive` | The tree is an input whose order is a hypothesis (`AMTree.OK`); its construction (`MaxTreeFlood`) and the attributes are not modelled, the attribute values are rationals. **Fails**: `C116_max_bug`, `C116_subtractive_bug` |
| C117 | `PixelDownSort`, `Link1`, `GreyAreaOpening`, `ImAreaOpening_UnionFind`, `ImAreaClosing_UnionFind` | `opening` holds exact integers (the bound of `C117_range` shows that they fit for sizes below 2^29); writes outside `SortPixels` are `none`. `PixelUpSort`, `LinkX` and `Link2` are never called and are left out. **Fails**: `C117_size0_bug`, `C117_slices_bug`, `C117_closing_bug` |
| C118 | `ImAreaOpening_PixelQueue` | As C113; the results of `inv` are `RES_OK` since the sizes are equal; same type for input and output. **Fails**: `C118_increase_bug`, `C118_undefined_bug`, `C118_volume_bug`, `C118_int32_bug` |
| C119 | `Diedge`, the edits of `Digraph`, `labelizeNodes` of the addon | The file is a copy of DGraph.hpp with other names and the flag `oriented`, so the model is that of C44 with the flag; same guards. `sortEdges` and `digraphMST` have the text of `Graph` and are not stated again; `computeMST` (DDigraph.hpp:576-579) calls `graphMST` with the digraph, which lacks the types that `graphMST` names. **Fails**: `C119_reverse_bug` |
| C120 | `nodeValues` under the edits and `sortEdges` of `Graph` and `Digraph` | The sorted list is arbitrary. **Fails** as a map on the nodes: `C120_sort_bug`, `C120_remove_bug` |

## File layout

Each area has a model file, a file of lemmas and a file of property theorems (`Props...`).

| area | model | lemmas | properties |
|------|-------|--------|------------|
| pixels, coordinates | Pix, Coords, Img | ArithLemmas | PropsCoords, PropsArith |
| memory, signals, pools, freezer | ImageMem, Signals, Pool, Sched | ImageMemLemmas | PropsMem, PropsSignals, PropsPool |
| line kernels, image loops | LineArith, ImageOps, ImgOps | ArithLemmas | PropsArith, PropsImageOps |
| lookups, channels | Lookup, Channels | in the same files | PropsLookup, PropsChannels |
| measures, histograms, Otsu | Scan, Measures, Histogram, Otsu | MeasureLemmas, HistogramLemmas | PropsMeasures, PropsHistogram, PropsOtsu |
| blobs | Blob | BlobLemmas | PropsBlob, PropsBlobMeasures |
| transformations, windows | Transform | TransformLemmas | PropsTransform, PropsWindow |
| structuring elements | StrElt | StrEltLemmas | PropsStrElt, PropsHomothety, PropsCompositeSE |
| dilation, erosion and filters | Morpho, Kernels, MorphoTop, Residues | MorphoSpec, Morpho*Lemmas, Kernel*, MorphoAlgebra | PropsMorpho, PropsMorphoAlgebra |
| hierarchical queue, reconstruction | HierarQ, Build, BuildTop | HierarQLemmas, Build* | PropsHierarQ, PropsBuild |
| labels, neighbours, rank | Label, Neigh | LabelLemmas | PropsLabel, PropsNeigh |
| watershed, extinction | Flood, Watershed, Extinction | Watershed*, Extinction* | PropsWatershed, PropsExtinction |
| graphs, mosaics | Graph, GraphMst, GraphLabel, Mosaic | GraphLemmas, MosaicLemmas | PropsGraph, PropsMosaic |
| distances | Distance, DistGeneric | DistanceLemmas | PropsDistance, PropsDistGeneric |
| area opening, hit-or-miss, arrows | AreaOpen, HitOrMiss, Arrow | their Lemmas | PropsAreaOpen, PropsHitOrMiss, PropsArrow |
| max-tree | MaxTree | MaxTreeLemmas, MaxTreeFlood, MaxTreeUse | PropsMaxTree, PropsMaxTreeMore |
| line dilations | FastLine, FastLineOps | FastLineLemmas, FastLineRuns, FastLineFams, FastLineUse | PropsFastLine, PropsFastLineMore, PropsFastLineBugs |
| line openings | Morard | MorardLemmas, MorardRuns, MorardUse | PropsMorard, PropsMorardBugs |
| zones of influence | Skiz | SkizSpec, SkizLemmas | PropsSkiz, PropsSkizBugs |
| drawing | Draw | DrawSpec, DrawLemmas, DrawShapes | PropsDraw, PropsDrawBugs |
| matrices | Matrix | MatrixLemmas | PropsMatrix |
| similarity | Compare | CompareLemmas | PropsCompare, PropsHausdorff, PropsCompareBugs |
| skeletons | Skeleton | HexTopo, SkeletonLemmas | PropsSkeleton, PropsSkeletonBugs |
| watershed without markers, waterfall | Waterfall | WaterfallLemmas | PropsWaterfall |
| fast extrema | FastExtrema | FastExtremaLemmas | PropsFastExtrema |
| Extrema of a given height | HExtrema | HExtremaLemmas | PropsHExtrema |
| Geodesic operators, alternate sequential filters | GeoOps | GeoOpsLemmas, AsfLemmas | PropsGeoOps |
| convolutions | Convolve | ConvolveLemmas | PropsConvolve |
| resizing | Resize | ResizeLemmas | PropsResize |
| histogram stretching, contrast | Stretch | StretchLemmas | PropsStretch, PropsContrast |
| Otsu's method, several thresholds | OtsuMulti | OtsuMultiLemmas, OtsuMultiInv, OtsuMultiCuts, OtsuMultiLut | PropsOtsuMulti |
| Geodesic distance | GeoDist | GeoDistLemmas | PropsGeoDist |
| Labelling with a measure | LabelWith | LabelWithLemmas | PropsLabelWith |
| Covariance | Covariance | CovarianceLemmas | PropsCovariance |
| Entropy | Entropy | EntropyLemmas | PropsEntropy |
| Barycentre, moments, inertia | Inertia | InertiaLemmas | PropsInertia |
| Arrows to the lowest neighbours | ArrowMin | | PropsArrowMin |
| Changes of scale | Expand | | PropsExpand |
| Ultimate opening | Ultimate | UltimateLemmas, UltimateTree | PropsUltimate |
| Geodesic measures | GeoMeas | GeoMeasLemmas, GeoMeasRun, GeoMeasPts | PropsGeoMeas |
| Values of blobs | BlobVals | – | PropsBlobVals |
| Labelling of two partitions | LabelTwo | – | PropsLabelTwo |
| Closings by inversion | DualClose | – | PropsDualClose |
| Zone matrix | ZoneMatrix | ZoneMatrixLemmas | PropsZoneMatrix |
| Shared images | SharedIm | SharedImLemmas | PropsSharedIm |
| Zhang skeleton | Zhang | ZhangTopo, ZhangLemmas | PropsZhang |
| Bitmaps | Pbm | | PropsPbm |
| Bits, arrays | BitOps | | PropsBitOps |
| Rectangles of a map | DrawRects | | PropsDrawRects |
| Graph to mosaic | GraphMosaic | | PropsGraphMosaic |
| Kuwahara filter | Kuwahara | | PropsKuwahara |
| Sigma filter | Sigma | | PropsSigma |
| Cross correlation | CrossCorr | | PropsCrossCorr |
| Distance by erosions | DistV0 | | PropsDistV0 |
| Registry | CoreReg | | PropsCoreReg |
| Fast labelling | FastLabel | FastLabelLemmas, Planar | PropsFastLabel |
| Stacks of files | IOStack | | PropsIOStack |
| Drawing a graph | DrawGraph | | PropsDrawGraph |
| Path openings | PathOp | PathOpSpec, PathOpLemmas | PropsPathOp |
| Grey path openings | PathOpFast | PathOpFastLemmas | PropsPathOpFast |
| Area closing by pixel queue | PixelHeap | PixelHeapLemmas | PropsPixelHeap |
| Strings | SplitString | (SplitString) | PropsSplitString |
| Points of a window | WindowPts | (WindowPts) | PropsWindowPts |
| Max-tree filters of the area openings | MTFilter | (MTFilter) | PropsMTFilter |
| Union-find area opening of the addon | GreyUF | GreyUFLemmas | PropsGreyUF |
| Area opening by pixel queue | PixelOpen | - | PropsPixelOpen |
| Digraph of the addon | Digraph | - | PropsDigraph |
| Values of the nodes | Graph, Digraph | - | PropsGraphVals |
| Cumulated granulometry | GranCdf | - | PropsGranCdf |
| Variants of operators (one image, lists, size of the output) | – | – | PropsVariants |
| bits, files | BitArr, IOFile | BitArrLemmas, IOLemmas | PropsBitArr, PropsIO, PropsIOSafe, PropsVtk |

## How the statements are kept honest

* Specifications (pixel at a point, path, connected component, multiset of pixels, order statistic,
  least pass, spanning tree, ...) are separate small definitions at the level of images and points. They do not
  call the functions they specify.
* Beside the theorems, `example`s evaluate the model on concrete non-trivial cases that meet the hypotheses.
* `FINDINGS.md` lists the theorems showing where the code departs from the property. In such cases the
  property is marked `partial` in `MANIFEST.json`: the theorem with suffix `_partial` has the guard
  that excludes the departures.
* `seeded/LOG.jsonl` records the seeded faults: edits of the model made in a scratch copy, the theorems that then
  failed, and what was tightened when none did.

## Simplifications common to several models

* Sizes and offsets are unbounded naturals unless the overflow matters for the property (the bit arrays, `crop`, `translate`,
  the headers of files, the sizes of homotheties).
* Quantities that the code keeps in `double` are integers or rationals; the measures agree as long as
  sums stay below 2^53.
* Parallel loops whose iterations write distinct cells and do not read them are run in order; the dilation loops,
  which read lines written by others only through a barrier, are modelled with all interleavings (C27).
* A fresh buffer holds arbitrary values (`raw`), over which the theorems quantify.
* Iteration over `std::map` and `std::set` is in key order; `std::sort` and `priority_queue` return any result that
  their contract allows, or one fixed such result where the comparison is a total order.
* Recursion depth is not bounded (`updateCriteria`, `processMaxTree`); the 20 pages of nodes of the max-tree are.

## Not modelled

GUI, bindings, third party codecs (PNG, JPEG, TIFF), the streams of the PBM reader beyond `getline`, `>>` and `read`, SIMD code generation (the plain loops are modelled), the addons,
text drawing, `copyPattern`,
the criteria HA and HWA and `ultimateOpenMSER` of the max-tree,
the rank overloads of
`watershedExtinctionGraph`, the circle operators and the trigonometry of FastLineSoille.hpp and FastLineMorard.hpp, timing.
