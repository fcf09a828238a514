# Where the code departs from the properties

Each line is a theorem of the model (a witness, or a statement about every input of a kind).
The text is the comment of the theorem.

* `C01_default_depth_bug` (PropsCoords.lean): With the default third argument a 2D image has no valid coordinates at all.
* `C01_isOffsetInImage_bug` (PropsCoords.lean): `isOffsetInImage` accepts one offset too many: the pixel count itself.
* `C02_setReferencePt_bug` (PropsCoords.lean): On a 5x3 image `setReference(IntPoint(0,1,0))` reports offset 3 instead of 5.
* `C02_shiftXYZ_bug` (PropsCoords.lean): On a 5x3 image `shift(0,1,0)` from the origin reports offset 25 instead of 5.
* `C03_clone_ub` (PropsMem.lean): Cloning an allocated image into an image of the same size which is not allocated copies to a null pointer.
* `C03_drain_bug` (PropsMem.lean): `drain` without deleting the source leaves the source with pointers to tables owned by the target; reallocating the source then frees them, and destroying the target frees them again.
* `C03_setSize_bug` (PropsMem.lean): A `setSize(4,3,1,true)` after `setSize(4,3,1,false)` reports success and leaves the image unallocated.
* `C04_dangling_bug` (PropsSignals.lean): After `disconnectAll` and destruction of the slot, a trigger runs a destroyed slot.
* `C04_disconnectAll_bug` (PropsSignals.lean): After `disconnectAll` the slot is still run by the signal although it does not list it.
* `C05_clear_bug` (PropsPool.lean): The code's defect: whenever a buffer is available, `clear` (hence also `initialize`) followed by the destructor deletes a buffer twice.
* `C05_limit_hangs` (PropsPool.lean): At the limit `getBuffer` waits forever while holding the lock.
* `C05_releaseAll_bug` (PropsPool.lean): `releaseAllBuffers` makes a buffer available that a user still holds, so the next `getBuffer` hands it out a second time.
* `C06_add_fails` (PropsArith.lean): Hence the clamp statement without a guard on the operand is false.
* `C06_add_int32_ub` (PropsArith.lean): On `INT32` images adding a negative value is undefined behaviour (signed overflow).
* `C06_add_signed_bug` (PropsArith.lean): On `INT8` images adding `-1` to `5` saturates to 127: the saturation test wraps.
* `C06_sub_signed_bug` (PropsArith.lean): On `INT8` images subtracting `-1` from `5` gives `-128`.
* `C07_mulNoSat_bug` (PropsArith.lean): The documented wrap-around does not happen in `mulNoSat`: 16*16 on `UINT8` is 255, while the residue of 256 is 0.
* `C08_inv_int32_ub` (PropsArith.lean): On `INT32` images inversion of a negative pixel is undefined behaviour.
* `C09_absDiff_signed_bug` (PropsArith.lean): On signed types the distance may not fit: `absDiff(-100, 100)` is `-56` on `INT8`.
* `C100_narrow_bug` (PropsBitOps.lean): **C100**, the exceptions: the strings and character arrays of images of 16 bits keep only the low bytes, and the integers of images of unsigned numbers of 32 bits are negative above `2^31`.
* `C101_empty_ub` (PropsDrawRects.lean): The map of a label image without labels is empty: its first element is read although there is none.
* `C101_short_ub` (PropsDrawRects.lean): Only the first vector is measured: a shorter one later is read beyond its end.
* `C102_isolated_throws` (PropsGraphMosaic.lean): If a node never had an edge the function throws.
* `C102_single_bug` (PropsGraphMosaic.lean): A mosaic of one zone: its graph is empty and `graphToMosaic` refuses it.
* `C102_wide_bug` (PropsGraphMosaic.lean): A graph with a node type wider than the pixel type: the pixels 44 and 45 are not nodes, but the nodes 300 and 301 are taken for them.
* `C103_overflow_ub` (PropsKuwahara.lean): With `UINT16` pixels a value greater than 46340 is enough for undefined behaviour: the product of two `UINT16` is an `int`.
* `C103_variance_bug` (PropsKuwahara.lean): Contrasted `UINT16` images: the four variances at the second pixel are greater than the initial `Min`, 9999999, and the square of the previous pixel is kept. The means of its squares are 10000; the result is 0.
* `C104_alone_ub` (PropsSigma.lean): With a radius of zero, `excludeOutlier` and a part greater than one: the mean of no pixel is written, `0 / 0` converted to the pixel type.
* `C104_inplace_bug` (PropsSigma.lean): In place, the second pixel is computed from the new value of the first.
* `C104_negative_ub` (PropsSigma.lean): A negative `sigma` without a minimal number: no pixel is near, and `0 / 0` is converted.
* `C104_overflow_ub` (PropsSigma.lean): With `UINT16` pixels a value greater than 46340 is enough for undefined behaviour.
* `C105_default_ub` (PropsCrossCorr.lean): The default number of steps is too large for the diagonal of an image of four columns and two lines, and for the direction of the slices of a plane image.
* `C105_normalized_bug` (PropsCrossCorr.lean): Two distinct values, normalised: no pixel has both, so the first entry is zero and every entry is divided by zero.
* `C105_overflow_ub` (PropsCrossCorr.lean): `UINT16`: the product of two maxima overflows.
* `C105_scale_bug` (PropsCrossCorr.lean): An image with one value: all pairs go from it to itself, and the entries are 65025 instead of 1.
* `C105_steps_ub` (PropsCrossCorr.lean): Too many steps: as soon as a displacement exceeds the number of slices, or of lines or columns with pairs left in the outer directions, the lengths wrap and the image is read beyond its end.
* `C106_origin_bug` (PropsDistV0.lean): Without the origin in the element a zero pixel may get a distance which is not zero: the last pixel here.
* `C106_signed_bug` (PropsDistV0.lean): Negative pixels: they are not set to one, the volume of the loop vanishes although no pixel is zero, and the saturated addition gives the largest value.
* `C107_copy_shared_bug` (PropsCoreReg.lean): The copy of a shared image takes its name and is missing in the list of the images.
* `C107_kill_bug` (PropsCoreReg.lean): `kill` with objects in the registry of a library which is not kept alive deletes the instance twice: the destructor of the last object calls `kill` again.
* `C107_shared_bug` (PropsCoreReg.lean): A shared image is registered as an image by the constructor of `Image`, takes the name "SharedImage" afterwards and is therefore left in the list of the images by its destructor: from then on, after any program, the list holds a dead object and both `getAllocatedMemory` and `deleteAllImages` are undefined.
* `C107_threads_bug` (PropsCoreReg.lean): `getNumberOfCores` gives the number of threads; no threads at all are accepted; the reset does not bring back the number of threads at the start.
* `C108_grey_bug` (PropsFastLabel.lean): With two non-zero values: two zones side by side get one label, `label` gives two.
* `C108_lambda_bug` (PropsFastLabel.lean): `lambdaFastLabel` joins zones that differ by more than lambda.
* `C108_one_line_ub` (PropsFastLabel.lean): An image of one line: the erosion by the square reads a second line.
* `C108_size_bug` (PropsFastLabel.lean): With an element of size two: pixels of value zero are labelled.
* `C108_slices_bug` (PropsFastLabel.lean): With several slices: the wrong lines are filled and a non-zero pixel is left without a label.
* `C108_slices_ub` (PropsFastLabel.lean): An image with more slices than lines: the second pass goes out of the array of the lines.
* `C108_vertical_bug` (PropsFastLabel.lean): With an element that does not hold the pixels on the same line: its columns are not told apart.
* `C109_repeat_bug` (PropsIOStack.lean): C109 fails when two names lead to the same file: the slices of the last one come back twice, and the call succeeds.
* `C109_scheme_bug` (PropsIOStack.lean): C109 fails for names with `file://`, which `read` understands and `write` does not: the image is written to another file than the one that is read.
* `C109_spill_bug` (PropsIOStack.lean): C109 fails as "slice `z` is file `z`" when a file of the list has several slices: they appear where a smaller file follows. Here the second file has one pixel.
* `C110_alias_bug` (PropsDrawGraph.lean): **C110, a node outside the pixel type**: the key of the map is a pixel, so the node 257 of a graph drawn on a `UINT8` mosaic is taken for the region 1. No region has the value 257, and the segment is drawn.
* `C110_slice_bug` (PropsDrawGraph.lean): **C110, volumes**: the third coordinate of the centres is dropped. Two regions of the second slice are joined by a segment drawn on the first one.
* `C111_brute_bug` (PropsPathOp.lean): **C111, the grey path opening by thresholds**: `ImPathOpeningBruteForce` stores the lengths in the image that it thresholds at the next level. Whatever the image, the levels it gives are less than `W + H`.
* `C111_brute_row_bug` (PropsPathOp.lean): **C111**, for instance: four pixels of value 200 in a row form a path of four pixels at the level 200. The result is at most 4.
* `C111_short_bug` (PropsPathOp.lean): **C111, one pixel too short**: with three pixels in all, a criterion of four keeps them, although no path has four pixels.
* `C111_signed_bug` (PropsPathOp.lean): **C111, signed pixels**: a negative pixel is converted to an `UINT32`, and is above every threshold.
* `C111_volume_ub` (PropsPathOp.lean): **C111**, volumes: the buffer of the threshold has the size of a slice and receives all the pixels.
* `C112_closing_type_bug` (PropsPathOpFast.lean): **C112, a closing with a wider output**: the second `inv` is that of the output. A constant image of bytes with value 250 becomes 65531 in an image of 16 bits.
* `C112_diagonal_bug` (PropsPathOpFast.lean): **C112, the last orientation**: the row 5, 0, 5 holds no path of three pixels that are not zero. The opening of criterion three gives 4 to two pixels: `Lambda[6]` begins with `W - x + y` and `Lambda[7]` with `H + x - y`, each has the value of the other.
* `C112_inplace_bug` (PropsPathOpFast.lean): **C112**, in place: the output is filled with zeros before the input is read, and stays so.
* `C112_level_bug` (PropsPathOpFast.lean): **C112, one level too low**: every pixel that is not zero becomes smaller, even in a constant image with a criterion of one pixel.
* `C112_lost_bug` (PropsPathOpFast.lean): **C112, a lost path**: the exchanged values can be too small as well. The last row and the pixel above its end form a path of five pixels of value 5; with the criterion five the corner where it turns becomes 0.
* `C113_decrease_bug` (PropsPixelHeap.lean): **C113 fails.** A closing never makes a pixel smaller; here the pixel of value 1 becomes 0: the search for minima does not look below the last pixel of the row before the last.
* `C113_empty_bug` (PropsPixelHeap.lean): **C113 fails.** A pixel is removed from an empty heap: on a constant column of two pixels, and on any image of fewer pixels than the size, as here.
* `C113_inplace_bug` (PropsPixelHeap.lean): **C113 fails in place.** Whatever the image, when the closing in place returns, all the pixels are zero: the output is filled with zeros before the input is read.
* `C113_overflow_bug` (PropsPixelHeap.lean): **C113 fails.** On this image of six pixels the queue of six entries overflows: pixels of a zone that is not a minimum are entered twice.
* `C113_volume_bug` (PropsPixelHeap.lean): **C113 fails on volumes.** The second slice keeps a minimum of one pixel.
* `C116_max_bug` (PropsMTFilter.lean): **C116 fails for the decision Max.** The node 1 does not satisfy the criterion, but its child 2 does, so that the node 1 keeps its level 1. Its other child 3 is removed: it should take the level 1 of its parent, the greatest level of an ancestor with a kept descendant; it gets the level 0 of the root.
* `C116_subtractive_bug` (PropsMTFilter.lean): **C116 fails for the decision Subtractive.** When all the nodes satisfy the criterion nothing should change; the level of the root is subtracted from every node.
* `C117_closing_bug` (PropsGreyUF.lean): `ImAreaClosing_UnionFind` is undefined on every plane image: the second inversion is made on the 32-bit pixels of the output, where `max() - v - min()` overflows for each value the opening gives.
* `C117_size0_bug` (PropsGreyUF.lean): Size 0 is accepted: a pixel of value 1 gets -1, which is no grey value.
* `C117_slices_bug` (PropsGreyUF.lean): In a volume only the first slice is opened: the second one, of constant value 5, becomes 0.
* `C118_increase_bug` (PropsPixelOpen.lean): **C118 fails.** An opening never makes a pixel greater; here the pixel of value 1 becomes 2.
* `C118_int32_bug` (PropsPixelOpen.lean): **C118 fails for `INT32`.** The opening is undefined as soon as a pixel is not negative: the inversion overflows.
* `C118_undefined_bug` (PropsPixelOpen.lean): **C118 fails.** The opening is undefined on images of fewer pixels than the size, and when the queue overflows.
* `C118_volume_bug` (PropsPixelOpen.lean): **C118 fails on volumes.** The second slice keeps a maximum of one pixel.
* `C119_reverse_bug` (PropsDigraph.lean): **C119 fails.** The edge from `v` to `u` cannot be added beside the one from `u` to `v`, whatever the history: the digraph does not change.
* `C11_autoresize_bug` (PropsImageOps.lean): With automatic resizing (the default) a second *input* of another size is reallocated and its contents are lost: the operation then reads uninitialised pixels, for every non empty first image and every order.
* `C11_subConst_bug` (PropsImageOps.lean): `sub(im, value, out)` does not check sizes: with a smaller output it writes outside.
* `C120_remove_bug` (PropsGraphVals.lean): Likewise `removeNode`, whatever the graph, leaves the value of the node that it removes.
* `C120_sort_bug` (PropsGraphVals.lean): **C120 fails as a map from the nodes.** A node without edges is lost by `sortEdges`, and its value stays in the map of the values; added again without a value, the node has the old one.
* `C12_max_bug` (PropsLookup.lean): **C12**, table version: a pixel of value 255 that is not a key reads the uninitialised last cell of the table instead of the default.
* `C12_narrow_key_bug` (PropsLookup.lean): **C12**, generic version: with a key type narrower than the pixel type, `find` converts the pixel and 257 is looked up as 1.
* `C12_negative_bug` (PropsLookup.lean): **C12**, generic version: only the upper bound of the values is tested; -1 is accepted for an unsigned output and written as 255.
* `C13_split3D_bug` (PropsChannels.lean): **C13** fails for multichannel images of several slices: only the first slice is copied, two images with different second slices split to the same stack.
* `C14_equ_bug` (PropsChannels.lean): **C14** fails for `equ` and `diff` of RGB images: `equ` is computed channel by channel and `diff` on whole pixels, so two pixels agreeing on one channel give a colour that is neither and their results are not complementary.
* `C14_int_bug` (PropsChannels.lean): **C14** fails for the comparison with an `int` outside the channel type: black is neither `== 256` nor `!= 256`.
* `C14_lt_bug` (PropsChannels.lean): **C14** fails for the strict orders: `a <= b` and `a` different from `b`, yet not `a < b`; and `!(a < b)` is not `a >= b`.
* `C14_ne_bug` (PropsChannels.lean): **C14** fails for `!=`: two different pixels that agree on one channel are neither `==` nor `!=`.
* `C14_sup_bug` (PropsChannels.lean): **C14** fails for `sup` and `inf` of `COLOR_UINT8_3`/`COLOR_32`: on pixels that are not strictly ordered in every channel they return their second operand, so `sup` is neither an upper bound nor commutative, even when `b <= a`.
* `C15_bins_mask_bug` (PropsContrast.lean): **C15**, the map with a mask and bins: the mask is not used, all the pixels are counted.
* `C15_fullrange_bug` (PropsHistogram.lean): The full range histogram of an image of zeros has a single entry.
* `C15_signed_bins_bug` (PropsHistogram.lean): The bin of zero of a signed image is twice as wide as the others.
* `C15_unallocated_bug` (PropsHistogram.lean): The histogram of an image that is not allocated reads an empty vector.
* `C15_wide_bug` (PropsHistogram.lean): A 32 bit image with pixels at both ends of the range writes out of bounds.
* `C16_reversed_bug` (PropsHistogram.lean): A pixel equal to one of two reversed thresholds is outside of the wrapped range on both sides: with thresholds 200 and 50 the pixel 200, at the first one, is not selected.
* `C17_emptybox_bug` (PropsMeasures.lean): The bounding box of an all-zero image is inside out.
* `C17_median_wide_bug` (PropsMeasures.lean): Values of 2^31 or more come first: the median of 1, 2^31 and 2^31 + 1 is the largest.
* `C17_median_zero_bug` (PropsMeasures.lean): The median of an image where 7 pixels of 8 are zero is 9, although zeros are not excluded.
* `C17_minpos_bug` (PropsMeasures.lean): The position reported for the least non-zero pixel is a pixel of value zero.
* `C17_mode_bug` (PropsMeasures.lean): So is the mode; and with `onlyNonZero` the mode of an all-zero image is not initialised.
* `C18_empty_bug` (PropsBlob.lean): **C18**, arbitrary maps: a blob without sequences is dereferenced.
* `C18_last_pixel_bug` (PropsBlob.lean): **C18 fails** for every image whose last pixel is not zero: the test `offset + size >= pixCount` (DBlob.hpp:167 and 223) should be `>`. Drawing answers `RES_ERR` and leaves out the whole blob of that value.
* `C18_unsorted_bug` (PropsBlob.lean): **C18**, arbitrary maps (blobs can be built by hand in Python): only the last sequence of a blob is checked, a blob out of order is written past the end of the image.
* `C19_race_bug` (PropsBlobMeasures.lean): **C19, data race**: before the last loop the lookup map has no entry for the label 0, so on any image with a pixel of label 0 `lut[pl[i]]` (DBlobOperations.hpp:119) inserts into the shared `std::map` inside the parallel loop, without a lock.
* `C19_single_label_bug` (PropsBlobMeasures.lean): **C19, one label**: a labelled image with one label value is taken for a binary one. Three pixels carry the label 5, so it should be kept by the threshold 2; one pixel is lost and the others get 255.
* `C20_rotate_bug` (PropsTransform.lean): **C20 fails** for `n % 4 = 1` on every image that is not square: the column is computed as `w - 1 - j` instead of `h - 1 - j` (DImageTransform.hpp:622) and some pixel is written outside the buffer.
* `C20_rotate_negative_bug` (PropsTransform.lean): **C20 fails** for negative `n` that are not multiples of 4: `count % 4` is negative, no case of the `switch` applies, and `RES_OK` is returned with the output resized to the input but never written.
* `C21_crop_bug` (PropsWindow.lean): **C21**: `crop(im, 5, 0, 0, 4, 1, 1)` on an image of width 3 answers an error and leaves an uninitialised image of width 4.
* `C21_inplace_bug` (PropsWindow.lean): **C21 fails** in place for vectors pointing down: the lines read have been overwritten. A column translated by one pixel downwards becomes constant. A horizontal shift in place breaks the promise of `restrict`.
* `C21_translate_bug` (PropsWindow.lean): **C21 fails** for the other vectors: `lineLen - dx` is an unsigned difference (DLineArith.hpp:107, 111) and the loops run outside the lines.
* `C23_noOrigin_bug` (PropsHomothety.lean): Without the origin the exact sums are not what `homothety` gives: it keeps the smaller sums.
* `C23_operator_bug` (PropsMorphoAlgebra.lean): The operator clause of C23 is false in general on bounded images, even with the origin in the element: the intermediate point may fall outside.
* `C23_zero_bug` (PropsHomothety.lean): A size of zero is not the identity: the unsigned bound wraps and the element grows `2^32 - 1` times.
* `C24_hS2_bug` (PropsCompositeSE.lean): The couple `HMT_hS2` is not disjoint: the point `(0,-1)` is required both in the foreground and in the background, whereas with the indices of the hexagonal grid it would be disjoint.
* `C24_negative_bug` (PropsCompositeSE.lean): C24 fails for negative steps: one step back sends the right neighbour to the origin instead of the lower right neighbour, and two steps back read before the table.
* `C24_nrot_zero_bug` (PropsCompositeSE.lean): C24: `nrot = 0` divides by zero.
* `C25_noCenter_bug` (PropsMorpho.lean): `SquSE().noCenter()` keeps the type of the square: the centre is still used, so the result is not the dilation by the points of the element.
* `C25_one_line_ub` (PropsMorpho.lean): Images of a single line: the vertical, square, cross, cube and hexagon kernels index a line that does not exist (undefined behaviour), for every image, so the claim of C25 cannot hold.
* `C25_wide_ub` (PropsMorpho.lean): An element wider than the image: the line shift has a negative length, undefined behaviour.
* `C28_slices_bug` (PropsMorphoAlgebra.lean): On the second slice of a 3D image an adjunction does not hold for hexagonal elements: the parity correction of the lines is dropped by the dilation on odd slices while the transposition used by the erosion always applies it.
* `C32_signed_bug` (PropsMorphoAlgebra.lean): On signed images the gradient saturates: it is not the difference.
* `C33_constant_bug` (PropsGranCdf.lean): A constant image: no number in the result.
* `C33_endless_bug` (PropsGranCdf.lean): **C33 fails: the loop may run for ever.** Without a maximal size, let `p` be a pixel such that all the pixels that steps of the element reach from it have at least a value `v` greater than the least value of the image. Then the erosions never become as low as the least value, and no number of turns ends the loop.
* `C33_nan_bug` (PropsGranCdf.lean): **C33, the cumulated form fails** exactly when the last opening removes nothing: the values are then quotients of zeros.
* `C34_signed_bug` (PropsHierarQ.lean): On signed types the queue is broken in both orders: with the normal order the first pop looks at the level of 127 (the largest value, not the largest level); in reverse order the search for the next level stops at that level. Both end in `front()` of an empty queue.
* `C35_size_bug` (PropsBuild.lean): **C35 fails** for elements of size 2: `geoBuild` jumps over a gap of the mask, `build` does not.
* `C37_buildOpen_inplace_bug` (PropsBuild.lean): **C37 fails** for `buildOpen` in place: it returns the erosion.
* `C37_fillHoles_inplace_bug` (PropsBuild.lean): **C37 fails** for `fillHoles` in place: the supremum of marker and mask overwrites the mask, and an image without any hole is filled with the maximum.
* `C37_hBuild_inplace_bug` (PropsBuild.lean): **C37 fails** for `hBuild` and `hDualBuild` in place, for the same reason.
* `C38_inplace_bug` (PropsBuild.lean): **C38 fails** in place: the result depends only on uninitialised memory.
* `C38_saturated_bug` (PropsBuild.lean): **C38 fails** at saturated values: in a constant image at the maximum every pixel belongs to a regional minimum, but none is marked.
* `C39_asymmetric_bug` (PropsLabel.lean): **C39 needs symmetry**: with the element {(-1, 0)} the two equal pixels are counted twice and no pixel has the label 1.
* `C39_error_code_bug` (PropsLabel.lean): Rejected images: the return value is an error code converted to `size_t`, not the documented zero.
* `C39_inplace_bug` (PropsLabel.lean): **C39 fails in place**: the element is replaced by the default one; with a horizontal segment the two lines are two components, in place they are one.
* `C39_lambda_zero_bug` (PropsLabel.lean): `lambdaLabel` labels zero pixels that a component reaches.
* `C39_origin_bug` (PropsLabel.lean): `labelWithoutFunctor` with an element reduced to its origin finds nothing at all.
* `C39_overflow_bug` (PropsLabel.lean): **C39 fails silently** when the number of components reaches the maximum of the label type (no message is printed for exactly the maximum, DMorphoLabel.hpp:552): two separate components carry the label 1.
* `C39_wrap` (PropsLabel.lean): **C39**, labels that do not fit: the component number `i` (from zero) always gets `i % (M - 1) + 1`, where `M` is the maximum of the label type.
* `C40_hex_bug` (PropsNeigh.lean): **C40 fails** on the hexagonal grid for a point whose shift on odd lines goes beyond the rightmost point of the element: at the last pixel of the odd line the value counted comes from the next line (here the pixel of value 3), while the neighbourhood has one value.
* `C40_inplace_bug` (PropsNeigh.lean): **C40** fails on every accepted image when input and output are the same: `_exec` calls itself with the same arguments for ever.
* `C40_left_bug` (PropsNeigh.lean): **C40** fails when every point of the element is to the left of the origin: the middle loop runs past the end of the line.
* `C41_minima_bug` (PropsWatershed.lean): **C41 fails** for `basins(imIn, imBasins, se)`: the element is used for the minima but not for the flooding. With a horizontal segment each line should be flooded on its own; the second pixel of the first line gets the label of the second line.
* `C41_signed_bug` (PropsWatershed.lean): **C41 fails** on signed types: the first removal reads an empty queue.
* `C42_bit_bug` (PropsWatershed.lean): **C42 fails** for binary pixels, where the status values coincide (`STAT_LABELED = STAT_WS_LINE`, `STAT_CANDIDATE = 0`): everything is on the line.
* `C42_line_label_bug` (PropsWatershed.lean): **C42 fails** for its last clause: the pixel on the line carries the label of one of the two basins in the basin image.
* `C44_loop_bug` (PropsGraph.lean): Why the second guard: removing the edges of a node with a loop erases from the vector that is being iterated over.
* `C44_min_weight_bug` (PropsGraph.lean): The documentation of `addEdge` announces the smaller of the two weights for an edge that exists; the weight does not change.
* `C44_sort_bug` (PropsGraph.lean): After a removal `sortEdges` turns the removed edge into a loop at node 0, which becomes a node, and the nodes without edges are lost.
* `C44_zero_bug` (PropsGraph.lean): Why the first guard: once an edge has been removed, `addEdge(0, 0)` finds the removed one and adds nothing.
* `C45_single_bug` (PropsGraph.lean): With one node: without an edge the map is empty and its first element is read; with a loop the tree has no node at all.
* `C46_isolated_bug` (PropsGraph.lean): The shortest way to it: one node.
* `C46_isolated_throws` (PropsGraph.lean): If a node never had an edge `labelizeNodes` throws.
* `C47_parallel_bug` (PropsMosaic.lean): Without an image of edge values there is one edge for every pair of neighbouring pixels of different regions: parallel edges.
* `C47_single_bug` (PropsMosaic.lean): A mosaic of one region gives a graph without nodes.
* `C48_cross3d_bug` (PropsDistance.lean): With an output type of 32 bits `1 + infinite` is 0: without any zero pixel, the second row of the result is 0 and the first 1.
* `C49_deep_bug` (PropsDistance.lean): The third pass works in vectors of the length of a row: it writes beyond them when the image is deeper than wide.
* `C49_overflow_bug` (PropsDistance.lean): In `UINT16` a column without zero pixel makes the code square 65535 in an `int`: the overflow is undefined behaviour.
* `C49_slice_bug` (PropsDistance.lean): A slice without zero pixel: (1, 0, 1) is at squared distance 2 from the only zero pixel, and the result is 1 (the square of the maximum, 255, is 1 modulo 256).
* `C49_uint32_bug` (PropsDistance.lean): In `UINT32` the sum of 1 and the maximum is 0: pixels above the first zero of a column become zero themselves.
* `C49_wrap_bug` (PropsDistance.lean): In `UINT8` the squared distances above 255 are taken modulo 256: a pixel that is not zero gets 0.
* `C50_no_zero_bug` (PropsDistGeneric.lean): In an image without zero pixel every distance comes out as zero.
* `C50_size_bug` (PropsDistGeneric.lean): With an element of size 2 the erosion uses size 2 and the propagation size 1: the result `0 1 1 2 3` is neither the distance for steps of length 1 (`0 1 2 3 4`) nor the one for steps of length 2 (`0 1 1 2 2`).
* `C51_hex_bug` (PropsAreaOpen.lean): With a hexagonal element the odd lines are not corrected: a component of two neighbours is taken for two components of one pixel, and removed.
* `C51_inplace_bug` (PropsAreaOpen.lean): In place, the histogram is made on the image already filled with zeros: `1 2 3 4 1 7` gives `2 2 3 1 1 7` instead of `1 2 3 3 1 1`.
* `C51_size0_bug` (PropsAreaOpen.lean): Size 0 is accepted, and the opening is then not even anti-extensive: a pixel of value 1 gets 255.
* `C52_empty_bug` (PropsHitOrMiss.lean): An element without points leaves the image it should write as it was, so that a template with an empty foreground looks at the complement of the image instead of being satisfied: the pixel on the right of an unset pixel is found only if it is itself unset.
* `C52_inplace_bug` (PropsHitOrMiss.lean): In place (`imOut` is `imIn`) the second erosion reads the result of the first: on `255 255 0 255 255 255` the transform is empty instead of marking the fourth pixel.
* `C52_inplace_list_bug` (PropsHitOrMiss.lean): In place the version for lists first erases the input: nothing is ever found.
* `C53_border_bug` (PropsArrow.lean): With `>` and the default border value 0, arrows leave the image on both sides.
* `C53_inplace_bug` (PropsArrow.lean): In place (same type, element with a kernel type) the result does not depend on the input: the copy that is read has the size of the input and arbitrary contents.
* `C53_ninth_bug` (PropsArrow.lean): With an 8 bit output the comparison with the ninth point of the square is lost: the arrows towards the last neighbour are never set.
* `C53_size_bug` (PropsArrow.lean): With an output of the same type, an element of size 2 gives the arrow image of the arrow image (here for a generic horizontal segment and `<`), not the comparison with the points of the homothetic element.
* `C54_empty_bug` (PropsNeigh.lean): **C54**: `median` and `rank` are undefined as soon as one neighbourhood is empty (first element of an empty vector).
* `C54_rank_one_bug` (PropsNeigh.lean): **C54 fails** for the percentile 1 on every accepted image: `n * 1.0` is `n`, one past the end of the sorted values.
* `C55_copyIdx_bug` (PropsBitArr.lean): C55 fails for a copy that starts inside a line: the index of the source is ignored. The line `01` copied from its second pixel gives `0`.
* `C55_overflow_bug` (PropsBitArr.lean): C55 fails for larger images: the position is computed modulo `2^32`, so that in an image of 65 columns pixel `(0, 2^25)` uses the bit of pixel `(0, 0)`.
* `C56_border_bug` (PropsBitArr.lean): C56 fails for a border 1 as soon as the length is not a multiple of 64: here a line of 10 zeros shifted by -1 has its last pixel 0.
* `C56_multiple_bug` (PropsBitArr.lean): C56 fails for every shift by a multiple of 64 smaller than the line: the code shifts a word by 64, which is undefined.
* `C56_right_bug` (PropsBitArr.lean): C56 fails for a line of 65 pixels shifted by -1: pixel 64 is moved to pixel 0, and the pixels in between are lost.
* `C57_pgm_name_bug` (PropsIO.lean): C57 fails for a PGM file whose name contains a line feed: the second line of the name is taken for the dimensions.
* `C57_vtk_letter_bug` (PropsIOSafe.lean): C57 fails for VTK when the first byte of the data is a letter: the first line of data is taken for a line of the header. The image of one pixel of value 65 is read as what the memory held.
* `C57_vtk_newline_bug` (PropsIOSafe.lean): C57 fails for VTK when the first byte of the data is 10: the reader accesses an empty vector.
* `C57_vtk_type_bug` (PropsIOSafe.lean): C57 fails for VTK for the pixel types other than UINT8 and UINT16: no type is written, and the reader takes a third word where there are two.
* `C58_bmp8_bug` (PropsIOSafe.lean): C58 fails for BMP files of 8 bits whose header says 0 for the number of colours, the usual way to announce 256: whatever the content of such a file, when it holds a first row, the table of size 0 is read.
* `C58_pgm_ascii_bug` (PropsIOSafe.lean): C58 fails for every text PGM file (type P2) with at least one pixel: the last pixels are written as integers of four bytes, beyond the end of the image (or the maximum is 0 and divides).
* `C58_pgm_hang` (PropsIOSafe.lean): A PGM file that ends inside its comments is read for ever.
* `C58_raw_bit_bug` (PropsIO.lean): C57, C58 fail for RAW files of binary images: `sizeof(Bit) = 1`, so that `w * h` bytes are read and written in a buffer of `8 * ⌈w / 64⌉ * h` bytes, too small for every width above 8.
* `C58_vtk_ascii_bug` (PropsIOSafe.lean): C58 fails for a VTK text file without colour line: the pixels are divided by a null coefficient.
* `C58_vtk_blank_bug` (PropsIOSafe.lean): C58 fails for a VTK file with an empty line in its header: `bufElems[0]` of an empty vector.
* `C59_asym_bug` (PropsExtinction.lean): **C59 fails** for a neighbourhood that is not symmetric: two basins that touch are not merged.
* `C59_nomarker_bug` (PropsExtinction.lean): **C59 fails** without markers: an uninitialised offset is read.
* `C59_rank_bug` (PropsExtinction.lean): **C59 fails** for the ranks when the output type cannot hold the number of labels: the label `2^ob` is not ranked and keeps its extinction value.
* `C59_return_bug` (PropsExtinction.lean): **C59 fails** for the returned code: the flooding succeeds, the output holds the extinction values, and `watershedExtinction` returns `RES_ERR`.
* `C59_reuse_bug` (PropsExtinction.lean): **C59 fails** when an object is used for a second flooding of the same image: the areas of the first one are still there.
* `C61_conversion_bug` (PropsChannels.lean): **C61** fails for the conversions: an addressed pixel converts (`operator double`, and through it `int`, `bool`, ...) from its unused array, so it always gives 0, whatever the pixel contains.
* `C61_plus_bug` (PropsChannels.lean): **C61** fails: after `p++`, `p + n` counts the increment twice: it is one pixel too far.
* `C62_signed_bug` (PropsOtsu.lean): With negative values the search goes through the values around the end of the type.
* `C62_threshold_bug` (PropsOtsu.lean): The class found by the search is made of the values up to the threshold, but the threshold itself is then put with the values above: an image of two values becomes uniformly white.
* `C62_variance_bug` (PropsOtsu.lean): The variance is returned as a value of the pixel type, which cannot hold it.
* `C63_disconnected_bug` (PropsMaxTreeMore.lean): With a horizontal element the lines are not joined. Only the line of the minimum is treated, the pixels of the other line get 0, although their component has the two pixels asked for and must be kept.
* `C63_uint32_ub` (PropsMaxTreeMore.lean): For `UINT32` the number of grey levels is computed as 0 and the table of labels has no cell: every call writes outside of it, whatever the image.
* `C64_flat_bug` (PropsFastLineBugs.lean): **C64 fails** for flat slopes with `dx * dy < 0` (angles between 0 and 45 degrees): `ComputeBresenhamLineNX` stops at the first pixel with `y = 0` (line 164), so that a run of several pixels on the border of the image is cut. With an image of 5 x 3 pixels and the angle 26 (`dx = 4`, `dy = -2`), the pixel (2, 0) is not written.
* `C64_open_bug` (PropsFastLineBugs.lean): As a consequence `lineOpen` is not an opening in these directions: a value that the output held before the call stays, and the opening of a black image is not black.
* `C64_posdiag_bug` (PropsFastLine.lean): The ascending diagonal: every pixel is right but the last one of the first column, which keeps what the output held before (line 459 begins with `height - 2`).
* `C64_steep_bug` (PropsFastLineBugs.lean): The same for steep slopes, `ComputeBresenhamLineNY`, line 234: with `dx = -2` and `dy = 4` the pixel (0, 2) is not written.
* `C64_width_ub` (PropsFastLineMore.lean): Lines of 1 or of `2 * r + 1` pixels: the loop on `h2` (line 274) runs below 0 and leaves the array, for all pixels. The same for columns (line 326).
* `C65_border_bug` (PropsMorardBugs.lean): **C65 fails** to be the opening by the segment of `2 * r + 1` pixels that `open` and `lineOpen` compute: the erosion of these ignores what is outside of the image, so that two pixels at the end of a line are kept by a segment of three. On the line 5, 5, 0, 0 the function `lineOpen` gives 5, 5, 0, 0 and `imFastLineOpen` gives 0, 0, 0, 0.
* `C65_missed_bug` (PropsMorardBugs.lean): **C65 fails** for slopes with `dx * dy < 0` other than the diagonal: as in C64, `ComputeBresenhamLineNX` leaves pixels of the border aside (line 258). They keep what the output held before: the opening can exceed the image.
* `C65_posdiag_row_bug` (PropsMorardBugs.lean): **C65 fails** on the diagonal `dx = dy` for images of one line too: the first line starts at `y = -1` and has one pixel, for which `ComputeLinePosDiag` returns 0. One pixel out of the image is written, and nothing else.
* `C65_posdiag_ub` (PropsMorard.lean): **C65 fails** on the diagonal `dx = dy` (135 degrees): `ComputeLinePosDiag` does not increment `x` after the first pixel of a line (lines 127-129), so that each line may be one pixel too long. On every 2D image with at least two lines a pixel behind the image is read (and written).
* `C65_stack_ub` (PropsMorard.lean): **C65 fails** on lines of more than 256 pixels with more than 256 values: the stack has 256 nodes (line 516), and nothing checks it. On every image of one line that begins with 257 rising pixels (for instance a ramp of 16 bits) the 257th node is written behind the array.
* `C65_stale_bug` (PropsMorardBugs.lean): **C65 fails** for flat slopes and short runs: the loop `do ... while (nx > 0)` of `LineOpeningDiag` calls `EndProcess` once more after a line without any pixel (lines 435-440), and this call fills the last line with the lowest value on the stack. On an image of 5 x 2 pixels, with `dx = 4`, `dy = 1` and runs of three pixels, the pixel (2, 0) is on the run 3, 4, 5 and becomes 2.
* `C65_volume_bug` (PropsMorardBugs.lean): **C65 fails** on volumes: only the first slice is treated.
* `C66_inflBasins_bug` (PropsSkizBugs.lean): **C66 fails** when `se` is not the default element: the opening by the default square removes the basin of the third particle; at that particle, every result has another value than the number of the particle.
* `C66_inflZones_empty_bug` (PropsSkizBugs.lean): **C66 fails** for `inflZones`: whatever the input is, the result is empty if the memory of the new image happens to hold great values.
* `C66_inflZones_ub` (PropsSkizBugs.lean): **C66 fails** for `inflZones`: the result depends on the memory of an image that is never written. For one white particle, which has no border, everything is marked if that memory holds zeros.
* `C67_bresenhamLine_bug` (PropsDrawBugs.lean): **C67** (exception). `bresenhamLine` passes the largest coordinates as (excluded) bounds: it never lists the end with the larger abscissa of an oblique line, and lists nothing at all for a vertical or horizontal line that is not on the axis, DDraw.cpp:34-39.
* `C67_bresenhamLine_fails` (PropsDrawBugs.lean): The same as above: the list is never a segment from one end to the other.
* `C67_circle_midpoint_bug` (PropsDrawBugs.lean): **C67** (exception). The circle is not that of the midpoint algorithm: the decision variable starts from `(5 - 4 r) / 4` with the increments of the version doubled (`3 - 2 r`), so that the circle is too small. For the radius 6, the point below `(2, 6)` is chosen although `(2, 6)` is closer to the circle.
* `C67_drawLine_ub` (PropsDrawBugs.lean): **C67** (exception). A vertical line in a column of the image which starts or ends above the first line reads the table of the lines at a negative index: `bresenhamPoints` only checks the abscissa of vertical lines, DImageDraw.h:86.
* `C67_drawLine_wrap_bug` (PropsDrawBugs.lean): **C67** (exception). A horizontal line that ends on the right of the image continues at the start of the next line: `bresenhamPoints` only checks the ordinate of horizontal lines, DImageDraw.h:98.
* `C67_profile_order_bug` (PropsDrawBugs.lean): **C67** (exception). The profile of a horizontal line read from right to left is given from left to right, although that of a slightly inclined line is given from right to left.
* `C67_profile_ub` (PropsDrawBugs.lean): **C67** (exception). `profile` does not check the slice: out of range it reads outside of the tables.
* `C67_rectangle_clip_bug` (PropsDrawBugs.lean): **C67** (exception). A rectangle that leaves the image on the left is drawn with its full width, so too far to the right; one that leaves it on the right continues on the next line, DImageDraw.hpp:142-147.
* `C67_rectangle_empty_bug` (PropsDrawBugs.lean): **C67** (exception). A rectangle of height zero at the top of the image is painted down to the bottom: `y0 + height - 1` wraps around.
* `C67_rectangle_ub` (PropsDrawBugs.lean): **C67** (exception). A rectangle that leaves the image at the bottom right writes after the end of the pixels, and one that starts below the image reads the table of the lines outside of its bounds, even if it is not to be filled.
* `C68_inplace_bug` (PropsMatrix.lean): **C68** (exception). With the first matrix as output, the values already written are used as factors.
* `C68_uint16_ub` (PropsMatrix.lean): **C68** (exception). Two `UINT16` pixels are multiplied as `int`, which overflows.
* `C69_accuracy_bug` (PropsCompareBugs.lean): **C69** (exception). The same object with two different nonzero values: precision and recall are one, the accuracy one half.
* `C69_complement_bug` (PropsCompare.lean): **C69** (exception to the documented complements). The documented ratios of sensitivity and miss rate, and of specificity and fall out, have sum one; the computed indices always have a greater sum.
* `C69_constant_bug` (PropsCompareBugs.lean): **C69** (exception). An image with a single value is not binary: a perfect result on an image that is all object, or all background, has precision, recall and specificity zero.
* `C69_hausdorff_bug` (PropsCompareBugs.lean): **C69** (exception). A square and the same square without its centre: the computed distance is zero, the Hausdorff distance of the objects is one.
* `C69_hausdorff_slices_bug` (PropsCompareBugs.lean): **C69** (exception). In 3D, an object made of whole slices has no boundary for this function: two disjoint slices are at distance zero; their Hausdorff distance is one.
* `C69_negative_bug` (PropsCompareBugs.lean): **C69** (exception). With negative values, accepted as binary, the precision can exceed one.
* `C69_resize_bug` (PropsCompareBugs.lean): **C69** (exception). With `autoResizeImages`, images of different sizes are not refused: the second is resized, and the result depends on the memory it gets.
* `C70_prune_hex_bug` (PropsSkeletonBugs.lean): **C70**, a defect: the default element is hexagonal, and `pruneSkiz` does not shift its points on the odd lines: the centre has a larger and a smaller neighbour on the grid, and is kept.
* `C70_prune_inplace_bug` (PropsSkeleton.lean): **C70**, a defect: in place, `pruneSkiz` first erases its input; the result is always empty.
* `C70_skeleton_bug` (PropsSkeleton.lean): **C70**, a defect: the image itself is not one of the levels, and the loop stops at the first level that adds nothing, although the next ones may. As soon as the first erosion is left unchanged by the opening (any large square or hexagon, any object that the first erosion removes) the result is empty.
* `C70_skeleton_empty_bug` (PropsSkeletonBugs.lean): **C70**, the defect on a segment of seven pixels and on a single pixel: the third erosion of the segment is its middle, which the opening removes, and the opening removes the single pixel, so that both belong to the skeleton; the result of the code is empty.
* `C71_last_level_bug` (PropsWaterfall.lean): **C71 fails** at the top of the hierarchy: when one zone is left (no pixel on the line), the next step does not keep it but sets the relief to the maximum and puts every pixel on the line.
* `C71_one_zone_bug` (PropsWaterfall.lean): **C71 fails**, instance: a relief with one zone; its watershed is empty, the first level of its waterfall is full.
* `C71_size_bug` (PropsWaterfall.lean): **C71 fails** for elements of size 2: `minima` and the flooding use the points of the element, `label` its homothetic. The two minima below get one label and no line separates them.
* `C71_top_bug` (PropsWaterfall.lean): **C71 fails** when the whole image is at the maximum of the type: it has a regional minimum, yet everything is on the line.
* `C72_alone_bug` (PropsFastExtrema.lean): **C72 fails** for an element without neighbours: the output is 0 everywhere although each pixel is a regional minimum and maximum on its own.
* `C72_bits_bug` (PropsFastExtrema.lean): **C72 fails** for elements with more neighbours than bits: with 8 bit pixels and the cube (26 neighbours) the lower neighbour in the next slice is not seen, and the first pixel, which is no minimum, is marked.
* `C72_inplace_bug` (PropsFastExtrema.lean): **C72 fails** in place: the output is filled with 0 before the input is read, so whatever the image every pixel is marked.
* `C72_sign_bug` (PropsFastExtrema.lean): **C72 fails** for signed types when a neighbour uses the sign bit: with `INT8` pixels and the square, the arrow of the centre to its equal at the lower right makes a negative value, `arrowP[offset] > 0` does not hold and the plateau of value 5, which has a lower neighbour, stays marked in part.
* `C72_size_bug` (PropsFastExtrema.lean): **C72 fails** for elements of another size than 1: with size 2 the arrow images are computed twice, the second time on the first arrow image, and a ramp, whose only minimum is its first pixel, is marked everywhere.
* `C73_saturated_bug` (PropsHExtrema.lean): **C73 fails** near the maximum: if no pixel is `h` below it, nothing is marked, although the lowest pixels of the image are the bottom of a basin that no path leaves downwards at all.
* `C73_saturated_instance_bug` (PropsHExtrema.lean): **C73 fails**, instances: a hole of depth 55 in an image at 255 is not an `h`-minimum for `h = 55`, nor is the whole of a constant image; the same shapes 10 lower are.
* `C73_size_bug` (PropsHExtrema.lean): **C73 fails** for elements of size 2: `minima` and the reconstruction use the points of the element, `label` its homothetic, and two basins get one label.
* `C74_mask_bug` (PropsGeoOps.lean): **C74 fails** when the mask is also the output: the first infimum overwrites the mask, the result is the ordinary dilation of the infimum.
* `C76_centre_bug` (PropsConvolve.lean): **C76 fails** for kernels whose sum is not 1: only the borders are divided by the weights.
* `C76_even_kernel_bug` (PropsConvolve.lean): **C76 fails**: an even kernel loses its last weight.
* `C76_inplace_bug` (PropsConvolve.lean): **C76 fails** for `vertConvolve` into its own input: pixels already written are read again.
* `C76_left_border_bug` (PropsConvolve.lean): **C76 fails** for kernels that are not symmetric: the left border is divided by the weights of the right one. A constant image is changed, and may even have no result.
* `C76_narrow_bug` (PropsConvolve.lean): **C76 fails** when the lines are shorter than twice the radius of the kernel: the loops on the borders leave the line, for every image and every kernel.
* `C76_sizes_bug` (PropsConvolve.lean): **C76 fails**: sizes are not checked. Images without pixels are accepted, no error is ever reported, and an output of another size that is not resized has no defined result.
* `C78_depth_bug` (PropsResize.lean): **C78 fails** for images with several slices: the functions for 2D and 3D call each other for ever.
* `C78_inplace_bug` (PropsResize.lean): **C78 fails** in place: the method is lost, and a binary image gets new values.
* `C78_one_bug` (PropsResize.lean): **C78 fails** when the new width or the new height is 1, even for an image that already has that size: 0/0 or infinity times 0 is converted to an integer.
* `C79_depth_bug` (PropsResize.lean): **C79 fails** for the 2D call on an image with several slices: the depth is that of the output, and an output with one slice has no result.
* `C79_scale_one_bug` (PropsResize.lean): **C79 fails** for images of width 1 or height 1: whatever the factors, `scale` keeps that dimension and has no result.
* `C80_constant_bug` (PropsStretch.lean): **C80** does not hold on any constant image: the overloads that take the range of the image are undefined.
* `C80_int32_bug` (PropsStretch.lean): The default range of a 32 bit signed output overflows: the call is undefined whatever the image.
* `C80_point_bug` (PropsStretch.lean): **C80** does not hold with two equal bounds: the coefficient is a division by zero and any pixel at the bound makes a NaN, whose conversion is undefined.
* `C80_wrap_bug` (PropsStretch.lean): Bounds in decreasing order are fine on 8 bits but wrap on a 32 bit unsigned type: `[10, 0]` to `[0, 10]` should send `10` to `0` and `5` to `5`.
* `C81_constant_bug` (PropsContrast.lean): **C81** does not hold on constant images: `enhanceContrast` is undefined on all of them.
* `C81_crossed_bug` (PropsContrast.lean): With a large saturation the two ends pass each other and the contrast is reversed: at 80 %, `0 1 2 3` gives `255 255 0 0`. They can also meet, and then the call divides by zero: `0 1 2` at 70 %.
* `C81_signed_bug` (PropsContrast.lean): On signed types the array is read with the index of another value. Two pixels `0 10` at the default saturation: the ends cross and the contrast is reversed. On negative values the array is read out of bounds.
* `C81_size_bug` (PropsContrast.lean): An output of another size that may not be resized is left as it is, and the call reports success.
* `C81_wide_bug` (PropsContrast.lean): On 32 bit types the array has no cell, or its size overflows.
* `C82_label_bug` (PropsOtsuMulti.lean): The labels are not the classes of the search: the threshold itself, which the search puts in the lower class, gets the label of the class above, and the variance returned after the thresholds is taken for one more threshold. On `1, 2, 4` one threshold, 2, makes the classes `1, 2` and `4`; the output has three labels.
* `C82_variance_bug` (PropsOtsuMulti.lean): The variance is returned as a value of the pixel type, which cannot hold it.
* `C82_zero_bug` (PropsOtsuMulti.lean): Without any threshold the loop never ends: `IncrementThresholds` returns `true` for ever, and changes nothing.
* `C82_zeros_bug` (PropsOtsuMulti.lean): An image of zeros is not written at all: the table is empty and the error of `applyLookup` is not looked at.
* `C83_overflow_bug` (PropsGeoDist.lean): C83: a distance that does not fit in the type is converted from `float` all the same, which is undefined: a line of 257 pixels.
* `C83_stale_bug` (PropsGeoDist.lean): C83: what the output held before is taken for a distance on the pixels of the object that do not touch the background: the third pixel is at distance two, and keeps its nine.
* `C84_bounds_bug` (PropsLabelWith.lean): **C84**, the same with automatic resizing: the labels take the size of the larger image, and the measured image is read outside of its buffer.
* `C84_max_bug` (PropsLabelWith.lean): **C84**, the maximum of the type is refused although it fits: a component with a pixel of value 255.
* `C84_mean_bug` (PropsLabelWith.lean): **C84**, means are compared with the maximum of the labels, not of the output: a mean of 300 in a `UINT16` image is refused with `UINT8` labels.
* `C84_return_bug` (PropsLabelWith.lean): **C84**, what is returned: the documentation says the number of labels, or zero for an error. Two components are labelled and zero is returned, as when the result is refused.
* `C84_size_bug` (PropsLabelWith.lean): **C84**, an image of labels of another size, without automatic resizing: `label` refuses it, its error code passes for a number of labels, and the measure is taken on whatever the new image of labels holds.
* `C85_centered_bug` (PropsCovariance.lean): **C85**, centring: the saturated subtraction of `float` images cuts at the smallest positive number, so what lies below the mean counts for (almost) nothing. No entry of the centred covariance of any two images is ever zero or negative.
* `C85_centered_witness_bug` (PropsCovariance.lean): The two pixels 0 and 2 have mean 1: the centred products at distance one have the mean `-1`, the code finds `1 / 2 ^ 126`.
* `C85_clamp_bug` (PropsCovariance.lean): **C85**, steps of more than one pixel: the displacement is cut at the border. In a line of four pixels with steps of two, the entries for the displacements four and six, which no pair of pixels has, are the product for the displacement three.
* `C85_overflow_bug` (PropsCovariance.lean): **C85**, 16 bit pixels: the product is an `int`, 65535 squared overflows.
* `C85_unallocated_bug` (PropsCovariance.lean): **C85**, centring images that are not allocated reads the first entry of an empty vector; without centring they are refused.
* `C85_zero_bug` (PropsCovariance.lean): **C85**, normalisation of a covariance with first entry zero: no entry is a number.
* `C86_mask_size_bug` (PropsEntropy.lean): **C86**, a mask of another size with automatic resizing: what the resized mask happens to hold decides.
* `C86_unallocated_bug` (PropsEntropy.lean): **C86**, images that are not allocated: the error code is returned as if it were an entropy.
* `C86_wide_bug` (PropsEntropy.lean): **C86**, 32 bit images with pixels at both ends of the range: the array of the histogram is too small for the version with a mask, the other one gives one bit.
* `C87_empty_bug` (PropsInertia.lean): **C87**, an image that is not allocated: the moments are an empty vector, centring it reads its first entry.
* `C87_inertia2_axes_bug` (PropsInertia.lean): **C87**, the matrix of an image of one slice has its axes exchanged: for pixels on a horizontal line the moment of inertia about the direction of the line is given as two, that about the direction across it as zero. With a second, empty slice the matrix is the right one.
* `C87_labels_bug` (PropsInertia.lean): Equal shapes with different labels have different moments when only the label image is given.
* `C87_nan_bug` (PropsInertia.lean): **C87**, an image of zeros has no barycentre: the coordinates are not numbers.
* `C87_negative_bug` (PropsInertia.lean): **C87**, signed pixels: as soon as the mass is not positive all the centred moments are zero. Here they should be `-4, 0, 0, 0, -4, 0`.
* `C88_bits_bug` (PropsArrowMin.lean): **C88**, types with fewer bits than points: the arrows of the other points are lost (here the ninth neighbour is the lowest).
* `C88_peak_bug` (PropsArrowMin.lean): **C88**: where every neighbour is lower than the pixel, `arrowMinStep` sets the bits of all of them.
* `C88_slices_bug` (PropsArrowMin.lean): **C88**, elements with points in other slices: the neighbour in the next slice is read in the same one. The pixel 5 below the pixel 7 is not seen.
* `C89_cast_signed_bug` (PropsExpand.lean): **C89**, signed output types: the conversion of the scaled value to the type is undefined as soon as the image has a pixel of greatest value, because the least value is only added afterwards.
* `C89_expand3_reversed_bug` (PropsExpand.lean): **C89**, bounds of the input in the wrong order: they are accepted, and the pixels at `inMax` do not get `outMax`: with the ranges [200, 100] and [10, 50] the pixels of value 100 get 5.
* `C89_expand3_signed_bug` (PropsExpand.lean): **C89**, `expand` with two ranges and signed types: below a negative `inMin` every pixel gets zero, out of `[0, outMin]` and not in order: -10 goes to -20 and -50 to 0.
* `C89_expand_wrap_bug` (PropsExpand.lean): **C89**, the range of the output in the wrong order: a decreasing map for the small types (`C89_expand_partial`), undefined behaviour for 32 bits.
* `C89_scurve_pivot_bug` (PropsExpand.lean): **C89**, `sCurve` without a pivot: the centre is half of the width of the range, which is not the median and is below every pixel of an image whose greatest value is less than three times the least; no pixel then gets less than half of the greatest value, whatever the positive ratio.
* `C89_scurve_wrap_bug` (PropsExpand.lean): **C89**, `sCurve` on 32 bits: the difference with the pivot is computed modulo 2^32, so that the pixels below the pivot are pushed to the greatest value: with the coefficient 2 (values 0 to 2, ratio 1) and the pivot 1, a pixel of value 0 gets at least 254 and one of value 1 gets 127.
* `C90_uint32_ub` (PropsUltimate.lean): For `UINT32` every call writes outside of the table of labels.
* `C90_wrap_bug` (PropsUltimate.lean): With an indicator of type `UINT8` and the default size, an image of 257 lines gives 0 everywhere, whatever its contents: the height less 1 is converted to 0, and no component is smaller than that.
* `C91_flat_zone_pixel_bug` (PropsGeoMeas.lean): **C91**, `labelFlatZones` with the tortuosity reads coordinates that were never set when a zone has one pixel.
* `C91_in_place_bug` (PropsGeoMeas.lean): **C91**, in place: the output is filled with zeros before the input is read.
* `C91_levels_bug` (PropsGeoMeas.lean): **C91**, a path opening of an image with all the levels of its type, or of any image whose number of levels is 0 in the type: no level is looked at, the output is constant.
* `C91_longer_than_needed_bug` (PropsGeoMeas.lean): **C91**, the length may exceed what is needed: in a block of four pixels all pixels are neighbours, so that no walk needs more than one step of length `√2`, and `1 + √2 < 3`; the result is 3, since `DistMax` is also compared with distances that are lowered later.
* `C91_low_maximum_bug` (PropsGeoMeas.lean): **C91**, an image with the values 0 and 1: half of the maximum is 0, so that the background belongs to the set.
* `C91_scale_bug` (PropsGeoMeas.lean): **C91**, `dzOverDx` stretches the steps in `y`, not those in `z`.
* `C91_single_pixel_bug` (PropsGeoMeas.lean): **C91**, a component of one pixel: its second extremity is written to the first pixel of the image; its tortuosity depends on its position.
* `C91_zero_length_bug` (PropsGeoMeas.lean): **C91**, a path opening by a length of 0 is not anti-extensive: the greatest level is written everywhere.
* `C92_median_bug` (PropsBlobVals.lean): **C92**, median, exception: two thirds of the pixels of the blob are zero but the median is 7.
* `C92_mode_bug` (PropsBlobVals.lean): **C92**, mode, exception: most pixels of the blob are zero but the mode is 7.
* `C92_size_bug` (PropsBlobVals.lean): **C92**, sizes: nothing compares the image with the one of the blobs. With fewer pixels, values are read outside of the image; with another width, the box is that of other pixels.
* `C93_resize_bug` (PropsLabelTwo.lean): **C93**, exception: in the mode that resizes, a second image of another size is not refused.
* `C93_wrap_bug` (PropsLabelTwo.lean): **C93**, exception: with a label type of maximum 4 the third region has the label 1 again, although the type has the values 3 and 4.
* `C93_zero_bug` (PropsLabelTwo.lean): **C93**, exception: pixels that are zero in the first image never get a label, although they are regions of the second, while zeros of the second image do.
* `C94_int32_ub` (PropsDualClose.lean): On `INT32` images with a negative pixel the inversion is undefined behaviour.
* `C94_types_bug` (PropsDualClose.lean): **C94**, exception: an `UINT8` image closed into an `UINT16` image is inverted in two different types, so that the values are larger by 65280.
* `C95_flat_ub` (PropsZoneMatrix.lean): A flat image, here of one white pixel, makes the program write out of bounds at any number of levels tried.
* `C95_one_level_ub` (PropsZoneMatrix.lean): With one level, an image with a pixel of the level always makes the program write out of bounds.
* `C95_size_bug` (PropsZoneMatrix.lean): The features are not those of the zones: the emphasis of the small sizes is 3/2, not 1 + 1/4 + 1.
* `C95_types_bug` (PropsZoneMatrix.lean): In a larger type the levels are kept modulo 256: a pixel of level 256 is taken for a black one.
* `C96_assign_ub` (PropsSharedIm.lean): Assigning a view to itself, or to another view of the same data, makes the end of the view free the data of its owner, who still holds them.
* `C96_clone_ub` (PropsSharedIm.lean): Cloning an image into a view without data copies to a null pointer, into a view of fewer pixels behind its data.
* `C96_setSize_bug` (PropsSharedIm.lean): `setSize` through `Image<T>&` changes the size of a view but neither its data nor its tables: the line 2 of a view of 4 lines is outside.
* `C96_slice_ub` (PropsSharedIm.lean): Of an image of a size that is not allocated, the slice is read through a null pointer.
* `C97_product_bug` (PropsZhang.lean): Exception to **C97**: the products of three neighbours overflow an `int` for pixels of 16 bits of value 1291 and above: the behaviour is undefined. For unsigned pixels of 32 bits the products wrap: a pixel of value 65536 between others of the same value is removed although the same shape with the value 1 keeps it.
* `C97_signed_ub` (PropsZhang.lean): Exception to **C97**: for signed pixels the border is filled with the least value, which is not zero; the last column of the border is visited, and the neighbours of its last pixel are read beyond the end of the buffer. The behaviour is undefined for every image.
* `C97_vanish_bug` (PropsZhang.lean): Exception to **C97**: a component may vanish. The square of 2 × 2 pixels is removed by the first phase, so that a non-empty image may have an empty skeleton.
* `C98_truncated_bug` (PropsPbm.lean): A file of eight columns whose second row is missing: the row is filled with the bits of the first one, and the read succeeds; with no row at all, the byte which is tested was never written.
* `C98_unseparated_bug` (PropsPbm.lean): The file `P1 / 2 1 / 10`, whose pixels are 1 and 0: the digits are read as the number ten, and the second pixel takes the value of the first.
* `C99_order_bug` (PropsBitOps.lean): **C99**, the exceptions: the bounds of `C99_order` are not the infimum and the supremum on grey images, and on signed images they are not bounds.
