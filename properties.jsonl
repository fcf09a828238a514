{"id": "C01", "title": "Offset/coordinate conversions are inverse bijections", "statement": "For an image of size (w,h,d), getOffsetFromCoords maps every in-image (x,y,z) to an offset smaller than the pixel count, getCoordsFromOffset maps it back to (x,y,z), every offset below the pixel count is hit exactly once, and out-of-image coordinates are rejected.", "quantifier": "all image sizes w,h,d >= 1, all coordinates, all offsets", "why_tests_cant": "The size space is unbounded and the div/mod formulas can agree on small or square images and disagree on others.", "anchors": ["Core/include/DBaseImage.h:getOffsetFromCoords", "Core/include/DBaseImage.h:getCoordsFromOffset", "Core/include/DBaseImage.h:isCoordsInImage", "Core/include/DCommon.h:ImageBox"]}
{"id": "C02", "title": "A navigation cursor shows the pixel it was moved to", "statement": "After positioning an image cursor (ImageBox) at a point, or shifting it by a vector that keeps it in the image, the offset it reports is the offset of the coordinates it reports.", "quantifier": "all sizes, all start points, all sequences of setReference/shift calls", "why_tests_cant": "Needs every size and every sequence of moves; wrong stride formulas coincide with the right one on square images or on the first slice.", "anchors": ["Core/include/DCommon.h:ImageBox::setReference", "Core/include/DCommon.h:ImageBox::shift"]}
{"id": "C03", "title": "Image memory life cycle is consistent", "statement": "After any sequence of setSize/allocate/deallocate/clone calls, an image that reports itself allocated owns exactly width*height*depth pixels, its line table addresses pairwise disjoint rows lying inside the buffer, and the memory reported by the library equals the sum over live images; a successful setSize(w,h,d,allocate=true) leaves the image allocated at that size.", "quantifier": "all histories of size/allocation calls with arbitrary sizes", "why_tests_cant": "Property of call histories; tests exercise a handful of fixed sequences.", "anchors": ["Core/include/private/DImage.hxx:setSize", "Core/include/private/DImage.hxx:allocate", "Core/include/private/DImage.hxx:restruct", "Core/include/private/DImage.hxx:deallocate"]}
{"id": "C04", "title": "Signal/slot registration stays symmetric and never calls a dead slot", "statement": "After any history of connect/disconnect/disconnectAll/slot destruction, a slot is listed by a signal exactly when the signal is listed by the slot, a trigger runs each connected slot exactly once in connection order, and no destroyed slot is ever run.", "quantifier": "all histories of connection operations over any set of signals and slots", "why_tests_cant": "Dangling-pointer bugs need a specific history; tests cannot enumerate histories.", "anchors": ["Core/include/DSignal.h:Signal", "Core/include/DSlot.h:BaseSlot", "Core/src/DSlot.cpp"]}
{"id": "C05", "title": "A pooled buffer is never handed to two users at once and never freed twice", "statement": "Over any history of getBuffer/releaseBuffer/clear/initialize and destruction of the buffer pool, two outstanding buffers are distinct, released buffers become available again, and each allocated buffer is freed exactly once.", "quantifier": "all histories of pool operations, any maximum number of buffers", "why_tests_cant": "A property of histories; double frees need the pool to be cleared and destroyed in a particular order.", "anchors": ["Core/include/private/DBufferPool.hpp:BufferPool"]}
{"id": "C06", "title": "Saturated addition and subtraction clamp", "statement": "add(im1,im2) and sub(im1,im2) give, at each pixel, the exact integer sum/difference clamped to the range of the pixel type; the same for a constant second operand.", "quantifier": "all pixel types, all pairs of pixel values", "why_tests_cant": "For 32-bit types the value space cannot be enumerated, and the saturation test itself is written with wrapping arithmetic.", "anchors": ["Base/include/private/DLineArith.hpp:addLine", "Base/include/private/DLineArith.hpp:subLine", "Base/include/private/DImageArith.hpp:add", "Base/include/private/DImageArith.hpp:sub"]}
{"id": "C07", "title": "Non-saturated arithmetic wraps and is invertible", "statement": "addNoSat, subNoSat and mulNoSat compute the exact result modulo the number of values of the pixel type, hence subNoSat(addNoSat(a,b),b)=a.", "quantifier": "all integer pixel types, all values", "why_tests_cant": "Value space of 16/32-bit types; one case (mulNoSat) reuses the saturating kernel.", "anchors": ["Base/include/private/DLineArith.hpp:addNoSatLine", "Base/include/private/DLineArith.hpp:subNoSatLine", "Base/include/private/DImageArith.hpp:mulNoSat"]}
{"id": "C08", "title": "Inversion is an order-reversing involution with De Morgan laws", "statement": "inv(inv(f))=f, f<=g implies inv(g)<=inv(f), inv(sup(f,g))=inf(inv f,inv g) and inv(inf(f,g))=sup(inv f,inv g), for signed and unsigned types.", "quantifier": "all pixel types, all images", "why_tests_cant": "All values of all types; signed types rely on intermediate promotion and truncation.", "anchors": ["Base/include/private/DLineArith.hpp:invLine", "Base/include/private/DLineArith.hpp:supLine", "Base/include/private/DLineArith.hpp:infLine"]}
{"id": "C09", "title": "sup and inf make images a distributive lattice with subtraction residue", "statement": "sup/inf are commutative, associative, idempotent, absorbing, mutually distributive, with inf(f,g)<=f<=sup(f,g); absDiff(f,g)=sub(sup(f,g),inf(f,g)).", "quantifier": "all images of the same size and all values", "why_tests_cant": "Universally quantified algebra over all values.", "anchors": ["Base/include/private/DLineArith.hpp:supLine", "Base/include/private/DLineArith.hpp:infLine", "Base/include/private/DLineArith.hpp:absDiffLine"]}
{"id": "C10", "title": "Comparison images partition the pixels", "statement": "low/equ/grt give 'max where true, 0 where false'; at each pixel exactly one of low, equ, grt is true; lowOrEqu/grtOrEqu/diff are the complements; compare(op) then selects trueval/falseval accordingly and an unknown operator is an error leaving the output unchanged.", "quantifier": "all pixel values, all operators strings, all true/false images or constants", "why_tests_cant": "All values and all operator strings.", "anchors": ["Base/include/private/DLineArith.hpp:grtLine", "Base/include/private/DImageArith.hpp:compare", "Base/include/private/DImageArith.hpp:_compare_base", "Base/include/private/DImageArith.hpp:test"]}
{"id": "C11", "title": "Pixelwise operations are pixelwise and check sizes first", "statement": "A pixelwise image operation on images of the same size writes at each pixel the scalar operation of the input pixels at that position and nothing else, even if the output is one of the inputs; with different sizes (automatic resize off) it returns an error and leaves the output unchanged.", "quantifier": "all images, all aliasing patterns, all sizes", "why_tests_cant": "Must hold for every size including widths that are not a multiple of the vector size and all aliasing patterns.", "anchors": ["Base/include/private/DBaseImageOperations.hxx", "Base/include/private/DBaseLineOperations.hpp", "Core/include/DBaseImage.h:CHECK_SAME_SIZE"]}
{"id": "C12", "title": "Lookup maps every pixel through the table", "statement": "applyLookup(im,map,default) writes map[v] where v is in the map and default elsewhere, for every pixel value including the maximum of the type, and refuses tables whose values do not fit the output type.", "quantifier": "all images, all tables, all default values, all integer types", "why_tests_cant": "The failing value (type maximum absent from the table) is one among 65536 and reads uninitialised memory, which a test may not notice.", "anchors": ["Base/include/private/DImageArith.hpp:applyLookup"]}
{"id": "C13", "title": "Channel split and merge are inverse", "statement": "splitChannels then mergeChannels gives back the multichannel image; mergeChannels then splitChannels gives back the stack of slices; copyToChannel changes only the named channel.", "quantifier": "all multichannel images, all channel indices", "why_tests_cant": "All image contents and sizes.", "anchors": ["Base/include/private/DImageArith.hpp:copyChannel", "Base/include/private/DImageArith.hpp:splitChannels", "Base/include/private/DImageArith.hpp:mergeChannels"]}
{"id": "C14", "title": "Multichannel comparisons are coherent", "statement": "On colour pixels a!=b holds exactly when a==b does not; <= is the channelwise partial order and sup/inf are its join and meet.", "quantifier": "all pairs of colour pixels", "why_tests_cant": "2^48 pairs.", "anchors": ["Core/include/private/DMultichannelTypes.hpp:operator!=", "Core/include/private/DMultichannelTypes.hpp:operator<"]}
{"id": "C15", "title": "The histogram counts pixels", "statement": "histogram(im)[v] is the number of pixels of value v (inside the mask if one is given), with one entry for each value of the requested range, so the entries sum to the number of pixels considered.", "quantifier": "all images, masks, types, full-range and value-range requests", "why_tests_cant": "All images; corner cases are constant images equal to the type minimum.", "anchors": ["Base/include/private/DImageHistogram.hpp:histogram", "Base/include/private/DImageHistogram.hpp:histogramMap"]}
{"id": "C16", "title": "Threshold is an interval indicator", "statement": "threshold(im,lo,hi,t,f) writes t where lo<=v<=hi and f elsewhere; with lo>hi it writes t exactly where v is outside the open interval described by the documentation.", "quantifier": "all images, thresholds and output values", "why_tests_cant": "All values and threshold pairs including reversed ones.", "anchors": ["Base/include/private/DImageHistogram.hpp:threshold", "Base/include/private/DLineHistogram.hpp:threshLine"]}
{"id": "C17", "title": "Global measures are what they say", "statement": "area is the number of non-zero pixels, vol the sum, minVal/maxVal/rangeVal the extreme values, valueList the strictly increasing list of the values present, medianVal a value having at least half of the pixels on each side; measures agree whichever way the non-zero runs are split.", "quantifier": "all images", "why_tests_cant": "All images; run-splitting logic depends on the layout of zeros.", "anchors": ["Base/include/private/DMeasures.hpp", "Base/include/private/DBaseMeasureOperations.hpp:processImage"]}
{"id": "C18", "title": "Blobs partition the labelled pixels and draw back to the image", "statement": "computeBlobs lists, for each non-zero value, runs that are inside single lines, disjoint, and cover exactly the pixels of that value; drawBlobs of these blobs on a zero image gives the image back.", "quantifier": "all label images", "why_tests_cant": "All images; the run scanner state machine and the end-of-image bound must be right for every layout.", "anchors": ["Base/include/private/DBlob.hpp:computeBlobs", "Base/include/private/DBlob.hpp:drawBlobs"]}
{"id": "C19", "title": "Blob area/volume and area thresholds agree with the pixels", "statement": "blobsArea gives the pixel count of each blob; areaThreshold keeps exactly the blobs whose pixel count compares with the given threshold and leaves the others out.", "quantifier": "all label images and thresholds", "why_tests_cant": "All images.", "anchors": ["Base/include/private/DBlobMeasures.hpp", "Base/include/private/DBlobOperations.hpp:areaThreshold"]}
{"id": "C20", "title": "Flips are involutions and rotations compose", "statement": "horizFlip and vertFlip are involutions; rotateX90(n) reads each output pixel from the rotated input position, the rotated image has swapped width/height for odd n, and four quarter turns are the identity.", "quantifier": "all images of all (also non square) sizes, all n", "why_tests_cant": "Index formula errors are invisible on square images.", "anchors": ["Base/include/private/DImageTransform.hpp:horizFlip", "Base/include/private/DImageTransform.hpp:vertFlip", "Base/include/private/DImageTransform.hpp:rotateX90"]}
{"id": "C21", "title": "Translation, copy, crop and border are exact windows", "statement": "translate(dx,dy,dz) puts the input pixel (x,y,z) at (x+dx,y+dy,z+dz) and the border value where no input pixel arrives, for every vector; copy/crop/addBorder move exactly the pixels of the window and leave/define the others as documented.", "quantifier": "all images, vectors and windows", "why_tests_cant": "All vectors including those longer than the image, where the line shifter computes with unsigned lengths.", "anchors": ["Base/include/private/DImageTransform.hpp:translate", "Base/include/private/DImageTransform.hpp:copy", "Base/include/private/DImageTransform.hpp:crop", "Base/include/private/DImageTransform.hpp:addBorder", "Base/include/private/DLineArith.hpp:shiftLine"]}
{"id": "C22", "title": "A structuring element is a set closed under transposition", "statement": "A structuring element holds no duplicate point; transpose is an involution on the point set; noCenter removes exactly the origin; adding the points of one element to another gives the union; the built-in shapes are symmetric.", "quantifier": "all structuring elements built by any sequence of point additions", "why_tests_cant": "All point sequences.", "anchors": ["Morpho/include/DStructuringElement.h", "Morpho/src/DStructuringElement.cpp:addPoint", "Morpho/src/DStructuringElement.cpp:transpose", "Morpho/src/DStructuringElement.cpp:noCenter"]}
{"id": "C23", "title": "Homothety gives the Minkowski multiple", "statement": "se.homothety(n) contains exactly the sums of n points of se (square grid); for the square it is the full (2n+1)x(2n+1) square; the resulting operator equals n successive applications.", "quantifier": "all structuring elements containing the origin, all n >= 1", "why_tests_cant": "All sizes n.", "anchors": ["Morpho/src/DStructuringElement.cpp:homothety"]}
{"id": "C24", "title": "Rotating a composite structuring element is a group action", "statement": "Rotating by a then b steps equals rotating by a+b; eight steps (six on the hexagonal grid) is the identity, also for negative steps.", "quantifier": "all composite elements made of unit neighbours, all step counts", "why_tests_cant": "All integers of steps; negative ones hit a modulo of a negative number.", "anchors": ["Morpho/src/DCompositeSE.cpp:rotatePoint", "Morpho/src/DCompositeSE.cpp:rotate"]}
{"id": "C25", "title": "Dilation and erosion are local max/min over the structuring element", "statement": "dilate(f,se)(p) is the maximum of f over the points p - b, b in se, lying in the image (type minimum if none), erode(f,se)(p) the minimum over p + b; on hexagonal grids the row-parity correction is applied.", "quantifier": "all images, all sizes, all structuring elements with at least one point", "why_tests_cant": "Must hold at every border configuration and for every structuring element.", "anchors": ["Morpho/include/private/DMorphoBase.hpp:dilate", "Morpho/include/private/DMorphoBase.hpp:erode", "Morpho/include/private/DMorphImageOperations.hxx"]}
{"id": "C26", "title": "Specialised dilation algorithms agree with the generic one", "statement": "For horizontal, vertical, depth, square, cross, hexagonal and cube elements the dedicated in-place algorithms give the same image as the generic definition, at every size of the element.", "quantifier": "all images of all sizes, all element sizes", "why_tests_cant": "Line/block recurrences have boundary cases for every height; equality must hold for all.", "anchors": ["Morpho/include/private/DMorphImageOperations.hxx:_exec_single_vertical_segment", "Morpho/include/private/DMorphImageOperations.hxx:_exec_single_hexagonal_SE", "Morpho/include/private/DMorphImageOperations.hxx:_exec_single_cross"]}
{"id": "C27", "title": "Multithreaded in-place dilation is schedule independent", "statement": "The vertical/cross kernels give the same image for any number of threads and any interleaving of the threads between barriers.", "quantifier": "all images, thread counts, and all interleavings of thread steps", "why_tests_cant": "Races show up only under particular schedules.", "anchors": ["Morpho/include/private/DMorphImageOperations.hxx:_exec_single_vertical_segment", "Morpho/include/private/DMorphImageOperations.hxx:_exec_single_cross"]}
{"id": "C28", "title": "Dilation and erosion form an adjunction", "statement": "dilate(f,se) <= g everywhere iff f <= erode(g,se) everywhere.", "quantifier": "all images f,g of the same size, all structuring elements, square and hexagonal grids, every slice", "why_tests_cant": "Universally quantified over pairs of images; parity corrections must match exactly in both directions on every row and slice.", "anchors": ["Morpho/include/private/DMorphoBase.hpp:dilate", "Morpho/include/private/DMorphoBase.hpp:erode", "Morpho/src/DStructuringElement.cpp:transpose"]}
{"id": "C29", "title": "Dilation commutes with sup, erosion with inf, both are increasing", "statement": "dilate(sup(f,g))=sup(dilate f,dilate g), erode(inf(f,g))=inf(erode f,erode g), f<=g implies dilate f<=dilate g and erode f<=erode g; with the origin in se, erode f<=f<=dilate f.", "quantifier": "all images and structuring elements", "why_tests_cant": "All images.", "anchors": ["Morpho/include/private/DMorphoBase.hpp:dilate", "Morpho/include/private/DMorphoBase.hpp:erode"]}
{"id": "C30", "title": "Erosion is the dual of dilation under inversion", "statement": "erode(f,se)=inv(dilate(inv(f),transpose(se))).", "quantifier": "all images, types and structuring elements", "why_tests_cant": "All images; border values must be dual too.", "anchors": ["Morpho/include/private/DMorphoBase.hpp:dilate", "Morpho/include/private/DMorphoBase.hpp:erode"]}
{"id": "C31", "title": "Opening and closing are morphological filters", "statement": "open is anti-extensive, increasing and idempotent; close is extensive, increasing and idempotent; they are dual.", "quantifier": "all images and structuring elements", "why_tests_cant": "Idempotence and ordering for all images; fails on particular slices when the parity corrections do not match.", "anchors": ["Morpho/include/private/DMorphoFilter.hpp:open", "Morpho/include/private/DMorphoFilter.hpp:close"]}
{"id": "C32", "title": "Residues are exact and non-negative", "statement": "gradient, topHat and dualTopHat equal the true integer differences (no saturation occurs) and topHat(f)+open(f)=f, close(f)=f+dualTopHat(f).", "quantifier": "all images and structuring elements (containing the origin for gradient)", "why_tests_cant": "All images.", "anchors": ["Morpho/include/private/DMorphoResidues.hpp"]}
{"id": "C33", "title": "Granulometric volumes decrease", "statement": "Openings by growing convex (iterated) elements form a decreasing family, each absorbs the smaller ones, so the volumes removed at each step are non-negative and add up to at most vol(f) (C33_family, C33_granulometry_partial); the first i volumes of measGranulometry add up to what the opening of size i*stepSize removes (C33_steps_partial). The cumulated form, which is the default, is a distribution function: values between 0 and 1 that never decrease and end at 1, each the part removed by the opening of its size (C33_cdf_partial). When the last opening removes nothing, as on a constant image, the values are quotients of zeros (C33_nan_bug, C33_constant_bug). Without a maximal size the loop ends when, by steps of the element inside of the image, every pixel leads to a pixel of least value (C33_ends_partial), and never ends when some pixel leads only to values above the least one, for instance with a horizontal element on rows of different values (C33_endless_bug).", "quantifier": "all images, all numbers of steps", "why_tests_cant": "All images and steps.", "anchors": ["Morpho/include/private/DMorphoMeasures.hpp:measGranulometry"]}
{"id": "C34", "title": "The hierarchical queue is a stable priority queue", "statement": "Over any history of push/pop, pop returns the element of best level (lowest, or highest in reverse order) and, among equal levels, the one pushed first; size counts the elements; pushing a better level than the current one is honoured.", "quantifier": "all histories of push/pop with levels in the type range, both orders", "why_tests_cant": "Histories are unbounded; errors appear only for specific level sequences.", "anchors": ["Morpho/include/private/DMorphoHierarQ.hpp:HierarchicalQueue", "Morpho/include/private/DMorphoHierarQ.hpp:FIFO_Queue"]}
{"id": "C35", "title": "build is morphological reconstruction", "statement": "build(marker,mask,se) at p is the maximum over paths from p of the minimum of the mask along the path with the marker at its end, i.e. the largest image between inf(marker,mask) and mask reachable by geodesic dilation; it equals geoBuild.", "quantifier": "all markers, masks, connected neighbourhoods, sizes", "why_tests_cant": "The queue algorithm visits pixels in data-dependent order; only a proof covers every order.", "anchors": ["Morpho/include/private/DMorphoGeodesic.hpp:build", "Morpho/include/private/DMorphoGeodesic.hpp:processBuildHierarchicalQueue", "Morpho/include/private/DMorphoGeodesic.hpp:geoBuild"]}
{"id": "C36", "title": "Reconstruction is an algebraic opening of the marker lattice", "statement": "build is increasing in both arguments, idempotent, between inf(marker,mask) and mask; dualBuild is its dual under inversion.", "quantifier": "all markers and masks", "why_tests_cant": "All pairs of images.", "anchors": ["Morpho/include/private/DMorphoGeodesic.hpp:build", "Morpho/include/private/DMorphoGeodesic.hpp:dualBuild"]}
{"id": "C37", "title": "fillHoles, h-reconstruction and reconstruction openings inherit the laws", "statement": "fillHoles is extensive and idempotent and leaves no regional minimum away from the border; buildOpen is anti-extensive, idempotent and above open.", "quantifier": "all images", "why_tests_cant": "All images.", "anchors": ["Morpho/include/private/DMorphoGeodesic.hpp:fillHoles", "Morpho/include/private/DMorphoGeodesic.hpp:buildOpen", "Morpho/include/private/DMorphoGeodesic.hpp:hBuild"]}
{"id": "C38", "title": "minima and maxima mark exactly the regional extrema", "statement": "minima(f) is max on the pixels of the plateaus without lower neighbour and 0 elsewhere (dually maxima).", "quantifier": "all images", "why_tests_cant": "Plateaus of every shape; saturating values are corner cases.", "anchors": ["Morpho/include/private/DMorphoExtrema.hpp:minima", "Morpho/include/private/DMorphoExtrema.hpp:maxima"]}
{"id": "C39", "title": "Labelling identifies connected components", "statement": "label gives zero exactly on zero pixels, two non-zero pixels get the same label iff they are joined by a path of pixels of equal value, labels are 1..n in raster order of first pixel and n is returned.", "quantifier": "all images with fewer components than the label type can hold, all symmetric neighbourhoods", "why_tests_cant": "All shapes of components.", "anchors": ["Morpho/include/private/DMorphoLabel.hpp:label", "Morpho/include/private/DMorphoLabel.hpp:labelFunctGeneric"]}
{"id": "C40", "title": "neighbors counts distinct values", "statement": "neighbors(f,se)(p) is the number of distinct values of f over the in-image neighbourhood of p.", "quantifier": "all images and elements", "why_tests_cant": "All images.", "anchors": ["Morpho/include/private/DMorphoLabel.hpp:neighbors"]}
{"id": "C41", "title": "basins partitions the image by minimax flooding", "statement": "basins terminates, keeps the markers, labels every pixel connected to a marker, uses only marker labels, and gives each pixel the label of a marker from which it can be reached at the least possible pass height.", "quantifier": "all images, markers, neighbourhoods", "why_tests_cant": "Flooding order is data dependent.", "anchors": ["Morpho/include/private/DMorphoWatershed.hpp:basins", "Morpho/include/private/DMorphoWatershed.hpp:BaseFlooding"]}
{"id": "C42", "title": "Watershed lines separate different basins", "statement": "In the result of watershed, two neighbouring pixels that are not on the line carry the same label; markers keep their labels; the line image marks exactly the unlabelled line pixels.", "quantifier": "all images, markers, symmetric neighbourhoods", "why_tests_cant": "Flooding order is data dependent.", "anchors": ["Morpho/include/private/DMorphoWatershed.hpp:watershed", "Morpho/include/private/DMorphoWatershed.hpp:WatershedFlooding"]}
{"id": "C43", "title": "Each flooding pixel is queued at most once", "statement": "During basins/watershed/build every pixel is pushed at most the number of times that was preallocated, so the queue never overflows and the algorithm stops.", "quantifier": "all inputs", "why_tests_cant": "All images; overflow is memory corruption.", "anchors": ["Morpho/include/private/DMorphoWatershed.hpp:BaseFlooding::initialize", "Morpho/include/private/DMorphoHierarQ.hpp:preallocate"]}
{"id": "C44", "title": "Graph edits keep nodes, edges and adjacency consistent", "statement": "After any sequence of addNode/addEdge/removeNode/removeEdge, the adjacency lists index exactly the edges incident to each node, addEdge with checking never creates parallel edges, and removal removes exactly the named items.", "quantifier": "all edit histories", "why_tests_cant": "Histories are unbounded.", "anchors": ["Core/include/private/DGraph.hpp:Graph"]}
{"id": "C45", "title": "graphMST returns a minimum spanning tree", "statement": "On a connected graph the result spans the same nodes, is a tree, uses edges of the graph, and has minimal total weight.", "quantifier": "all connected weighted graphs", "why_tests_cant": "All graphs.", "anchors": ["Core/include/private/DGraph.hpp:graphMST"]}
{"id": "C46", "title": "labelizeNodes gives equal labels exactly to connected nodes", "statement": "Two nodes of the graph get the same label iff a path of edges joins them.", "quantifier": "all graphs", "why_tests_cant": "All graphs.", "anchors": ["Core/include/private/DGraph.hpp:labelizeNodes", "Core/include/private/DGraph.hpp:propagateLabel"]}
{"id": "C47", "title": "mosaicToGraph builds the region adjacency graph", "statement": "The graph has a node per region value, one edge per pair of adjacent regions, and with edge values the weight is the minimum over the common boundary.", "quantifier": "all mosaics, value images, neighbourhoods", "why_tests_cant": "All images.", "anchors": ["Morpho/include/private/DMorphoGraph.hpp:mosaicToGraph"]}
{"id": "C48", "title": "City-block distance is exact", "statement": "distance with a cross element gives at each pixel min(max of type, L1 distance to the nearest zero pixel of its slice).", "quantifier": "all images of all sizes, all output types", "why_tests_cant": "All images; propagation recurrences must be exact everywhere.", "anchors": ["Morpho/include/private/DMorphoDistance.hpp:distCross"]}
{"id": "C49", "title": "Chessboard and Euclidean distances are exact", "statement": "distance with a square element gives the chessboard distance, distanceEuclidean the squared Euclidean distance to the nearest zero pixel.", "quantifier": "all images and sizes", "why_tests_cant": "Meijster's lower envelope logic has data-dependent control flow.", "anchors": ["Morpho/include/private/DMorphoDistance.hpp:distSquare", "Morpho/include/private/DMorphoDistance.hpp:distanceEuclidean"]}
{"id": "C50", "title": "Generic distance is the neighbourhood graph distance", "statement": "distance with any other element gives the length of a shortest neighbour path to a zero pixel (as long as it fits the output type).", "quantifier": "all images and symmetric elements", "why_tests_cant": "All images.", "anchors": ["Morpho/include/private/DMorphoDistance.hpp:distGeneric"]}
{"id": "C51", "title": "areaOpen removes exactly the small bright components", "statement": "areaOpen(f,n)(p) is the largest level t<=f(p) such that the component of {f>=t} containing p has at least n pixels (the image minimum if there is none); it is an opening; the union-find and max-tree implementations agree.", "quantifier": "all images, all n, all neighbourhoods", "why_tests_cant": "Union-find/max-tree states are data dependent.", "anchors": ["Morpho/include/private/DMorphoMaxTree.hpp:areaOpen", "Advanced/include/private/AreaOpening/DAreaOpenUnionFind.hpp:areaOpen"]}
{"id": "C52", "title": "Hit-or-miss finds exactly the template positions", "statement": "hitOrMiss(f,fg,bg)(p) is max iff all foreground points fall on the set and all background points off the set (binary images, outside counted as border); thin removes and thick adds exactly these points; thin is anti-extensive, thick extensive; fullThin/fullThick terminate at a fixed point.", "quantifier": "all binary images, all composite elements", "why_tests_cant": "All images.", "anchors": ["Morpho/include/private/DHitOrMiss.hpp"]}
{"id": "C53", "title": "Arrow images encode the comparison with each neighbour", "statement": "arrow(f,op)(p) has bit k set iff neighbour k of p is in the image and the comparison holds.", "quantifier": "all images and elements", "why_tests_cant": "All images.", "anchors": ["Morpho/include/private/DMorphoArrow.hpp"]}
{"id": "C54", "title": "Rank filters return an order statistic of the neighbourhood", "statement": "median(f)(p)/rank(f)(p) is an element of the sorted in-image neighbourhood at the requested rank.", "quantifier": "all images, elements, percentiles in [0,1]", "why_tests_cant": "All images.", "anchors": ["Morpho/include/private/DMorphoFilter.hpp:median", "Morpho/include/private/DMorphoFilter.hpp:rank"]}
{"id": "C55", "title": "Packed bit images behave as arrays of bits", "statement": "In a binary image, writing pixel (x,y,z) changes that pixel only; bitwise line operations and fills act on each pixel; distinct pixels use distinct bits.", "quantifier": "all sizes, all positions, all contents", "why_tests_cant": "All widths, in particular not multiples of 64.", "anchors": ["NSTypes/Bit/include/DBitArray.h", "NSTypes/Bit/include/DImage_Bit.h", "NSTypes/Bit/include/DLineArith_Bit.h"]}
{"id": "C56", "title": "Shifting a packed bit line is a translation", "statement": "Shifting a binary line by dx moves pixel i to i+dx and fills with the border, for every length, shift and border value.", "quantifier": "all line lengths and shifts, both borders", "why_tests_cant": "Carry logic depends on length mod 64 and shift mod 64.", "anchors": ["NSTypes/Bit/include/DLineArith_Bit.h:bitShiftLeft", "NSTypes/Bit/include/DLineArith_Bit.h:bitShiftRight"]}
{"id": "C57", "title": "Writing then reading a file returns the image", "statement": "For RAW, PGM (binary), BMP (8 bit and RGB) and VTK, reading the file produced by write gives back the same size and pixels.", "quantifier": "all images of dimensions accepted by the format", "why_tests_cant": "All sizes (row padding, byte order) and contents.", "anchors": ["IO/src/DImageIO_BMP.cpp", "IO/src/DImageIO_PBM.cpp", "IO/include/private/DImageIO_RAW.hpp", "IO/include/private/DImageIO_VTK.hpp"]}
{"id": "C58", "title": "Reading a file never touches memory outside the image", "statement": "Whatever the bytes of a file, the readers write only inside the image they allocated and read only inside their tables.", "quantifier": "all byte strings", "why_tests_cant": "Malformed files are unbounded.", "anchors": ["IO/src/DImageIO_BMP.cpp:BMPImageFileHandler<UINT8>::read", "IO/src/DImageIO_PBM.cpp:PGMImageFileHandler<UINT8>::read"]}
{"id": "C59", "title": "Extinction merging conserves area and kills each basin once", "statement": "In extinction flooding every merge makes exactly one of the two basins absorbed, the surviving basin gets the sum of the measures, and after flooding a connected image exactly one basin is left.", "quantifier": "all sequences of merges", "why_tests_cant": "Merge order is data dependent.", "anchors": ["Morpho/include/private/DMorphoWatershedExtinction.hpp"]}
{"id": "C60", "title": "Freezing an image suppresses and then restores updates", "statement": "While an image is frozen no modification event is emitted; when the (nested) freezes end the previous update state is back and the image has been refreshed if updates are enabled.", "quantifier": "all nestings of freezers and modifications", "why_tests_cant": "Histories.", "anchors": ["Core/include/DBaseImage.h:ImageFreezer"]}
{"id": "C61", "title": "Line pointers of multichannel images behave like pointers", "statement": "For the line pointers of multichannel images, (p+a)[b] is the pixel p[a+b], p++ moves by one pixel, a store through p[i] is read back and touches no other pixel, and a pixel read through p[i] converts to a number like a stored pixel.", "quantifier": "all pointers, all displacements, all memory contents", "why_tests_cant": "Tests use freshly created pointers; the defect needs a pointer that has been incremented before being added to.", "anchors": ["Core/include/private/DMultichannelTypes.hpp:MultichannelArray", "Core/include/private/DMultichannelTypes.hpp:MultichannelArrayItem"]}
{"id": "C62", "title": "Otsu's threshold maximises the variance between classes", "statement": "otsuThresholdValues(im, 1) returns the first threshold for which the variance between the class of the values up to it and the class of the values above it is the greatest over all thresholds; otsuThreshold then separates these two classes.", "quantifier": "all images", "why_tests_cant": "The search changes the size of the histogram map it iterates on (operator[] inserts), so the set of thresholds it visits depends on the image; the maximum is over all thresholds.", "anchors": ["Base/include/private/DImageHistogram.hpp:otsuThresholdValues", "Base/include/private/DImageHistogram.hpp:IncrementThresholds"]}
{"id": "C63", "title": "Max-tree openings and closings are attribute filters", "statement": "areaOpen, heightOpen and widthOpen by max-tree give each pixel the largest level at which the connected component of the pixel has the required number of pixels, lines or columns; the closings are the dual with lower components; the openings are anti-extensive, increasing and idempotent, and areaOpen gives the same image as the union-find areaOpening.", "quantifier": "all images, all symmetric structuring elements including hexagonal ones, all sizes", "why_tests_cant": "The tree is built by an interleaving of pushes, node creations below and above the current level and re-insertions that depends on the whole image; correctness is a statement about all level sets and their components.", "anchors": ["Morpho/include/private/DMorphoMaxTree.hpp:MaxTree2", "Morpho/include/private/DMorphoMaxTree.hpp:attributeOpen", "Morpho/include/private/DMorphoMaxTree.hpp:heightClose"]}
{"id": "C64", "title": "Line dilations are maxima over digital segments", "statement": "lineDilate_Soille gives each pixel the greatest value of the segment of half-length r around it along the digital line of its direction; lineErode_Soille is the dual; lineOpen and lineClose are openings and closings; squareDilate_Soille gives the greatest value of the square of half-side r and equals dilate with SquSE(r).", "quantifier": "all 2D images, all directions, all radii, all contents of the working arrays, in place or not", "why_tests_cant": "The van Herk recursion has three cases of line length, with two exceptional lengths where it leaves its arrays; whether every pixel lies on exactly one of the Bresenham lines is a statement about all sizes and slopes.", "anchors": ["Advanced/include/private/FastLine/FastLineSoille.hpp:DilateHorLine", "Advanced/include/private/FastLine/FastLineSoille.hpp:DilateLine", "Advanced/include/private/FastLine/FastLineSoille.hpp:ComputeBresenhamLinePX", "Advanced/include/private/FastLine/FastLineSoille.hpp:ImageGrayDilateLine", "Advanced/include/private/FastLine/FastLineSoille.hpp:squareDilate"]}
{"id": "C65", "title": "Line openings keep the levels of long runs", "statement": "imFastLineOpen gives each pixel the greatest level that some run of at least 2r+1 consecutive pixels of its digital line through it stays above (a shorter line counts as a whole); the result is anti-extensive, increasing, idempotent and decreasing in r, and the openings of different lengths form a granulometry.", "quantifier": "all 2D images, all directions, all radii, all contents of the stack and of the table of offsets, in place or not", "why_tests_cant": "The algorithm processes a line in one pass with a stack of 256 nodes; its result depends on all profiles of all lengths, and the overflow of the stack, the reads behind the image on one diagonal and the last call on stale variables only show for particular sizes, slopes and profiles.", "anchors": ["Advanced/include/private/FastLine/FastLineMorard.hpp:BuildOpeningFromPoint", "Advanced/include/private/FastLine/FastLineMorard.hpp:EndProcess", "Advanced/include/private/FastLine/FastLineMorard.hpp:ComputeLinePosDiag", "Advanced/include/private/FastLine/FastLineMorard.hpp:LineOpeningDiag", "Advanced/include/private/FastLine/FastLineMorard.hpp:ImFastLineOpen"]}
{"id": "C66", "title": "Zones of influence follow the nearest label", "statement": "lblSkiz stops, and gives each pixel of the mask the label of its nearest labelled pixels (in steps of the element, inside of the mask) when they agree; the two label images together tell the pixels with one nearest label from those in between; labelled pixels keep their label and pixels without a path stay at zero. inflBasins puts every particle into its own basin, and inflZones marks the pixels between basins.", "quantifier": "all unsigned images, all label images, all masks, all elements, all sizes", "why_tests_cant": "The labels are propagated with wrapping sums until a volume does not grow any more; the number of iterations is unbounded, and ties, wrapped sums and the memory of new images only show for particular label values and layouts.", "anchors": ["Morpho/include/private/DMorphoWatershed.hpp:lblSkiz", "Morpho/include/private/DMorphoWatershed.hpp:inflBasins", "Morpho/include/private/DMorphoWatershed.hpp:inflZones"]}
{"id": "C67", "title": "Drawing paints exactly the shape inside of the image", "statement": "bresenhamPoints lists a digital segment from the first end to the second (single steps, at most half a pixel from the true line, both ends included); drawLine paints its points inside of the image and nothing else, profile reads the values along it; drawRectangle and drawBox paint the rectangle or box (or its sides) clipped by the image, drawDisc and drawSphere the exact ball, drawCircle a closed curve with eight symmetries within one pixel of the circle.", "quantifier": "all images, all integer coordinates, sizes and radii, all values", "why_tests_cant": "Tests compare a few drawn images; the error terms, the clipping at every side and the wrap of unsigned sizes depend on every combination of coordinates, and a store past the end of a line is silent.", "anchors": ["Base/include/DImageDraw.h:bresenhamPoints", "Base/src/DDraw.cpp:bresenhamLine", "Base/include/private/DImageDraw.hpp:drawLine", "Base/include/private/DImageDraw.hpp:drawRectangle", "Base/include/private/DImageDraw.hpp:drawBox", "Base/include/private/DImageDraw.hpp:drawCircle", "Base/include/private/DImageDraw.hpp:drawSphere", "Base/include/private/DImageDraw.hpp:drawDisc", "Base/include/private/DMeasures.hpp:profile"]}
{"id": "C68", "title": "Transposition permutes the coordinates and matMultiply is the modular matrix product", "statement": "matTranspose permutes the sizes and moves every pixel to the permuted coordinates, for each of the five orders; an order followed by its inverse gives the image back; unknown orders are refused. For UINT8, INT8, INT16 and UINT32 images with an output other than the inputs, matMultiply gives the matrix product modulo the number of values of the type; the product is associative and the transpose of a product is the product of the transposes in the other order; wrong sizes and depths are refused.", "quantifier": "all images of all sizes, all orders, all pixel values, all contents of new memory", "why_tests_cant": "Tests multiply a few small matrices of small values; the permutation of sizes and strides, the wrap of every partial sum and the promotion to int depend on all sizes, values and types.", "anchors": ["Base/include/private/DImageMatrix.hpp:matTranspose", "Base/include/private/DImageMatrix.hpp:matMultiply", "Core/include/private/DImage.hpp:setPixel"]}
{"id": "C69", "title": "Similarity indices are the documented ratios, and the distances are distances", "statement": "For two binary images of the same size, Jaccard, precision, recall, specificity, fall out, miss rate, overlap and F-score are the documented ratios of the true and false positives and negatives (with the half added to both counts): they lie in (0, 1], are one exactly when the matching errors are absent, and exchange precision and recall with the images. indexRuzicka is the ratio of the sums of minima and maxima, indexAccuracy the ratio of agreeing pixels, distanceHamming the number of different pixels and a metric, distanceHausdorff the Hausdorff distance of the two objects.", "quantifier": "all images of all sizes, all pixel values and types, all thresholds", "why_tests_cant": "Tests compare a few pairs of images; the counts depend on every pair of values, including negative ones, and the Hausdorff distance on every pair of shapes, also those that differ only inside.", "anchors": ["Base/include/private/DImageCompare.hpp:indexJaccard", "Base/include/private/DImageCompare.hpp:indexRuzicka", "Base/include/private/DImageCompare.hpp:indexAccuracy", "Base/include/private/DImageCompare.hpp:indexPrecision", "Base/include/private/DImageCompare.hpp:indexFScore", "Base/include/private/DImageCompare.hpp:distanceHamming", "Base/include/private/DImageCompare.hpp:distanceHausdorff"]}
{"id": "C70", "title": "The skeleton by influence zones keeps the topology; the morphological skeleton is the union of the residues", "statement": "On a binary image, skiz returns a thin set drawn off the objects whose complement has exactly one connected zone for each connected object, containing it, whose components are those of the background, and which has no free end inside the image. skeleton is the supremum of the residues of the openings of the successive erosions, extinctionValues the last level with a residue at each pixel; pruneSkiz keeps the values without both a larger and a smaller neighbour.", "quantifier": "all images of all sizes and all shapes of objects; all structuring elements; all numbers of levels; all pixel types", "why_tests_cant": "Homotopy is a statement on all the paths of the image before and after; a test on some shapes cannot exclude a template order that breaks a line, merges two zones or removes a component in another configuration.", "anchors": ["Morpho/include/private/DSkeleton.hpp:skiz", "Morpho/include/private/DSkeleton.hpp:skeleton", "Morpho/include/private/DSkeleton.hpp:extinctionValues", "Morpho/include/private/DSkeleton.hpp:pruneSkiz", "Morpho/include/DCompositeSE.h:HMT_hL", "Morpho/include/DCompositeSE.h:HMT_hM"]}
{"id": "C71", "title": "The watershed without markers has one zone for each regional minimum; the waterfall only merges zones", "statement": "watershed(imIn, imOut) draws a line such that the regional minima are off the line, every zone off the line contains exactly one regional minimum, and every pixel of the line touches two different zones or is enclosed by the line. A step of waterfall replaces the relief by the lowest height at which a path leads to the line: the new relief is above the old one, equal to it on the line, and each of its minima contains a pixel of the line and a whole minimum of the old relief, so that the hierarchy only merges zones.", "quantifier": "all images of all sizes, all symmetric neighbourhoods, all numbers of levels", "why_tests_cant": "Which pixel gets on the line depends on the order of the whole flooding; that no zone is lost, split or left without minimum is a statement on all the paths of all images and on all the levels of the hierarchy.", "anchors": ["Morpho/include/private/DMorphoWatershed.hpp:watershed", "Morpho/include/private/DMorphoWatershed.hpp:waterfall", "Morpho/include/private/DMorphoExtrema.hpp:minimaLabeled"]}
{"id": "C72", "title": "fastMinima and fastMaxima mark exactly the regional extrema", "statement": "fastMinima writes the maximum of the type on the pixels of the regional minima of the image (plateaus without lower neighbour, also those at the maximum of the type) and 0 on all others; fastMaxima does so for the regional maxima. arrowPropagate ends and gives its value exactly to the pixels that a path of arrows reaches from the start.", "quantifier": "all images of all sizes, all signed and unsigned pixel types, all symmetric structuring elements, all arrow images", "why_tests_cant": "Whether a pixel is marked depends on all the paths of equal value that lead to it, of any length, and on which bit of the arrow image stands for which neighbour: tests on a few images with one element cannot see the neighbours whose bit does not exist or is the sign.", "anchors": ["Morpho/include/private/DMorphoExtrema.hpp:fastExtrema", "Morpho/include/private/DMorphoExtrema.hpp:fastMinima", "Morpho/include/private/DMorphoExtrema.hpp:fastMaxima", "Morpho/include/private/DMorphoArrow.hpp:arrowPropagate"]}
{"id": "C73", "title": "hMinima and hMaxima mark exactly the basins deeper and the peaks higher than the given height", "statement": "hMinima(imIn, h, imOut) marks a pixel exactly when it can be reached, without rising by more than h, from a pixel from which no path leads lower without rising by more than h (the bottom of a basin deeper than h). Two marked pixels are joined by marked pixels exactly when one bottom leads to both, two bottoms in different parts are separated by more than h on every path, a larger height gives fewer basins, and height 0 gives the regional minima. hMaxima does the same for peaks. hMinimaLabeled, hMaximaLabeled and maximaLabeled give one label to each part.", "quantifier": "all images of all sizes, all heights, all symmetric structuring elements, all unsigned pixel types", "why_tests_cant": "The depth of a basin is a minimum over all paths of any length that leave it; tests compare a few images where the basins are visible, and cannot show that none is missed, split or merged, nor that saturation never changes the answer.", "anchors": ["Morpho/include/private/DMorphoExtrema.hpp:hMinima", "Morpho/include/private/DMorphoExtrema.hpp:hMaxima", "Morpho/include/private/DMorphoExtrema.hpp:hMinimaLabeled", "Morpho/include/private/DMorphoExtrema.hpp:hMaximaLabeled", "Morpho/include/private/DMorphoExtrema.hpp:maximaLabeled"]}
{"id": "C74", "title": "geoDilate brings each level exactly as far as its size and its mask allow", "statement": "At each pixel geoDilate(imIn, imMask, imOut, se) gives the highest level that a path of se.size steps brings from a pixel where the input reaches it, without the mask being below that level along the path (the least value of the order if there is none). Size 0 gives the infimum, the result never exceeds the mask, grows with the size, is never above build(imIn, imMask, imOut, se), and equals it as soon as the size is at least the number of pixels. geoErode is the dual.", "quantifier": "all images of all sizes, all masks, all structuring elements and sizes, all pixel types (all unsigned ones for the comparison with build)", "why_tests_cant": "The statement is about all paths of a given length in all masks; tests compare a few outputs with stored ones, never with an independent definition, and cannot tell a result that stops one step early.", "anchors": ["Morpho/include/private/DMorphoGeodesic.hpp:geoDilate", "Morpho/include/private/DMorphoGeodesic.hpp:geoErode", "Morpho/include/private/DMorphoGeodesic.hpp:build"]}
{"id": "C75", "title": "Alternate sequential filters are increasing, idempotent and absorb the smaller ones", "statement": "asfOpen, asfClose, asBuildOpen and asBuildClose succeed on every allocated image, are increasing and idempotent, a filter of size m applied after the same filter of a smaller size n gives the filter of size m alone, and the result lies between the opening and the closing of the same size. The two filters by reconstruction are moreover levelings: between two neighbours they create no contour, reverse none and heighten none.", "quantifier": "all images of all sizes, all sizes of filter, all structuring elements and pixel types (symmetric elements with their origin and unsigned types for the filters by reconstruction)", "why_tests_cant": "Idempotence of a product of 2n filters that do not commute is an algebraic fact, and a wrong order or a skipped size still produces plausible images; tests can only try it on a few of them.", "anchors": ["Morpho/include/private/DMorphoFilter.hpp:asfOpen", "Morpho/include/private/DMorphoFilter.hpp:asfClose", "Morpho/include/private/DMorphoGeodesic.hpp:asBuildOpen", "Morpho/include/private/DMorphoGeodesic.hpp:asBuildClose"]}
{"id": "C76", "title": "Convolutions are weighted means, borders included", "statement": "horizConvolve and vertConvolve with a symmetric, non-negative kernel of odd length and sum 1 give at every pixel the integer part of the weighted mean of the pixels around it, near the borders the mean of those inside the image; convolve is the vertical pass followed by the horizontal one. The result keeps within the bounds of the image, constant images are unchanged, and the operators are increasing. Kernels wider than the image, of even length, not symmetric or not normalised, images of different sizes and vertical convolutions in place depart from it.", "quantifier": "all images, all such kernels of at most one weight more than the lines, all pixel types", "why_tests_cant": "The borders use partial sums of the weights of the opposite side: tests with the usual normalised symmetric kernels cannot tell for which kernels and widths this is right, and reads past the line rarely crash.", "anchors": ["Base/include/private/DImageConvolution.hpp:horizConvolve", "Base/include/private/DImageConvolution.hpp:vertConvolve", "Base/include/private/DImageConvolution.hpp:convolve"]}
{"id": "C77", "title": "The Gaussian filter is a separable weighted mean", "statement": "gaussianFilter with a positive radius gives the weighted mean along x, then y, then z, each renormalised over the pixels inside the image; for any positive weights the result keeps within the bounds of the image, constant images are unchanged, the filter is increasing, and an image with one slice is only filtered along x and y. A radius that is not positive has no result; unallocated images and images of different sizes are refused.", "quantifier": "all images of all sizes, all positive radii and weights, all pixel types", "why_tests_cant": "Conversions out of range and divisions by zero happen, if at all, for particular weights, sizes and values; only a proof over all of them shows there are none.", "anchors": ["Base/include/private/DImageConvolution.hpp:gaussianFilter", "Base/include/private/DImageConvolution.hpp:Convolve"]}
{"id": "C78", "title": "Resizing with the closest method takes the nearest pixel and creates no value", "statement": "resize with method closest sets every pixel of the result to the pixel of the image nearest to the corresponding position: all values come from the image, the operation commutes with every pixelwise operation, corners are kept and an image resized to its own size is unchanged; auto is closest exactly for binary images, unknown methods and unallocated images are refused. Images with several slices (endless mutual recursion), a new width or height of 1 (0/0 converted to an integer) and in-place calls (the method is lost) depart from it.", "quantifier": "all images with one slice, all new widths and heights other than 1, all pixel types", "why_tests_cant": "Which source pixel is the nearest depends on the ratio of all pairs of sizes; tests sample a few ratios.", "anchors": ["Base/include/private/DImageTransform.hpp:resize2DClosest", "Base/include/private/DImageTransform.hpp:resize3DClosest", "Base/include/private/DImageTransform.hpp:ImageResizeFunc::resize"]}
{"id": "C79", "title": "Linear resizing and scaling interpolate", "statement": "resize with methods bilinear and trilinear gives at every pixel the integer part of the linear interpolation of the image at the corresponding position, all reads inside the image; the result stays within the bounds of the image, the operation is increasing, pixels whose position is that of a pixel of the image are copied (corners, identity). scale rounds every dimension to the nearest integer. Images of width or height 1 and the 2D call on an image with several slices into an output with one depart from it.", "quantifier": "all images, all new sizes other than 1 (the depth of an image with one slice stays 1), all scale factors giving at least 3/2 pixels, all pixel types", "why_tests_cant": "The last pixels of the axes are a special case of the code, met for particular pairs of sizes, where a wrong test reads outside of the buffer without visible effect.", "anchors": ["Base/include/private/DImageTransform.hpp:resizeBilinear", "Base/include/private/DImageTransform.hpp:resizeTrilinear", "Base/include/private/DImageTransform.hpp:scale"]}
{"id": "C80", "title": "Stretching the histogram is a clamped, rounded linear map", "statement": "stretchHist sends every pixel v to outMin + (v - inMin) (outMax - outMin) / (inMax - inMin), brought into the range of the output type and rounded to the nearest integer; with ordered bounds it is increasing, sends the bounds to the bounds and the values between them between them. Without input bounds, on an image that is not constant, the result has exactly the range requested (that of the type by default). Equal bounds, hence constant images, are undefined behaviour.", "quantifier": "all images, all pairs of pixel types, all bounds whose differences do not overflow", "why_tests_cant": "Constant images and bounds at the ends of 32 bit types are rarely in the tests, and undefined conversions often give plausible values.", "anchors": ["Base/include/private/DImageHistogram.hpp:stretchHist", "Base/include/private/DLineHistogram.hpp:stretchHistLine"]}
{"id": "C81", "title": "histogramRange leaves out at most the fraction requested, enhanceContrast keeps the order", "statement": "histogramRange returns a range inside that of the image; in cumulative mode the left end is the last value such that at most percent % of the pixels are not above it, the right end likewise, so each side leaves out at most percent % of the pixels; otherwise the counts of single values are compared with percent % of the largest. Below 50 % the range of an image that is not constant is proper, and enhanceContrast is increasing with a result that reaches both ends of the type. Constant images, larger saturations, signed and 32 bit types depart from it.", "quantifier": "all unsigned 8 and 16 bit images, all saturations", "why_tests_cant": "It is about the counts on both sides of a threshold for every image; the ends meet or cross only for particular distributions.", "anchors": ["Base/include/private/DImageHistogram.hpp:histogramRange", "Base/include/private/DImageHistogram.hpp:enhanceContrast"]}
{"id": "C82", "title": "Otsu's method with several thresholds finds the best classes", "statement": "For an allocated image of non-negative values and K thresholds, 1 <= K <= the greatest value, the search of otsuThresholdValues ends and returns increasing thresholds, below the greatest value, whose K+1 classes have the greatest variance between them that any K integers can give; among equals it returns the first thresholds in the order of the dictionary. otsuThreshold(imIn, imOut, K) then writes at each pixel the rank of the first returned value above it. That last part departs from the classes: the threshold itself goes to the upper class, the variance is used as one more threshold, an image of zeros is not written at all; with K = 0 the search never ends.", "quantifier": "all pixel types up to 32 bits, all allocated images of non-negative values, all K from 1 to the greatest value, all competing cuts (any integers in any order)", "why_tests_cant": "The optimality is against every choice of K integers, and the search enumerates configurations with running updates of frequencies and means over a map that grows during the enumeration and whose size bounds the enumeration: a test can compare a few images against a brute force search, not show that no configuration is skipped.", "anchors": ["Base/include/private/DImageHistogram.hpp:549-733", "Base/include/private/DImageHistogram.hpp:792-817"]}
{"id": "C83", "title": "The geodesic distance is the least length of a walk in the mask", "statement": "distanceGeodesic gives each pixel the least number of steps, from neighbour to neighbour by the structuring element, of a walk that starts on a zero pixel of the input inside the mask and then goes through pixels of the object (input and mask positive); pixels that no such walk reaches, and pixels outside of the mask, get zero. The code only does so when the output image already holds zeros on the object: otherwise what it held is taken for a distance. A distance greater than the largest value of the type makes the behaviour undefined.", "quantifier": "all images, masks and symmetric elements, all unsigned types of at most 16 bits, all walks", "why_tests_cant": "The claim compares the result with all walks of all lengths in all masks; the loop takes its pixels from a priority queue and looks at all neighbours again for each, so its correctness rests on an invariant about the levels in the queue. A test that starts from a fresh output never sees the dependence on its former content.", "anchors": ["Morpho/include/private/DMorphoDistance.hpp:620-808"]}
{"id": "C84", "title": "Labelling with a measure writes on each component the measure of that component", "statement": "labelWithArea, labelWithVolume, labelWithMaxima and labelWithMean write on each pixel of a connected component of equal non-zero values the number of pixels of the component, the sum, the maximum or the mean (fraction dropped) of the other image on it, and zero elsewhere, provided all measures are smaller than the largest value of the type of the labels and there are fewer components than that value. Otherwise nothing is written. The documentation promises the number of labels as result and zero for an error: zero is returned on success, a measure equal to the largest value is refused although it fits, an image of labels without component gives an error, means are compared with the wrong type, and an image of labels of another size is not refused.", "quantifier": "all images, labels and types, all symmetric elements, all components of all shapes", "why_tests_cant": "The claim composes the labelling, the collection of runs and the measures over every component of every image; which values are refused depends on the types, and the case of two sizes reads an image that was never written.", "anchors": ["Morpho/include/private/DMorphoLabel.hpp:674-864", "Base/include/private/DImageArith.hpp:1900-1980"]}
{"id": "C85", "title": "The covariance at a displacement is the mean of the products of the pairs of pixels", "statement": "Entry len of measCovariance is the mean, over all pairs of pixels at the displacement len*(dx,dy,dz), of the product of the pixel of the first image and the pixel of the second; there are as many entries as steps requested or as fit in the image, plus one; the normalised vector is the same divided by its first entry; the first entry of the auto-covariance is the mean of the squares and bounds the others. Centring is expected to subtract the means. In the code the saturated subtraction of float images cuts everything below the mean to the smallest positive number, so centred covariances are never negative; displacements beyond the image repeat the last one; 16 bit products overflow.", "quantifier": "all images, sizes, directions, numbers of steps and pixel types", "why_tests_cant": "The claim relates each entry to the set of all pairs of pixels at a displacement, for every size and direction; the loss of the negative parts is a property of all pairs of images (no entry is negative), and existing tests only print the values.", "anchors": ["Base/include/private/DMeasures.hpp:940-1219", "Base/include/private/DLineArith.hpp:147-157", "Core/include/private/DTypes.hpp:104-107"]}
{"id": "C86", "title": "The entropy is Shannon's, depends only on the partition into equal values, and is bounded by the number of values", "statement": "measEntropy of an image is -sum p log2 p over the frequencies p of its values, with a mask over the values where the mask is not zero, and for blobs over the values on the pixels of each label. It lies between 0, reached exactly by images with one value, and log2 of the number of different values, and is unchanged by any operation that maps pixels one by one and keeps different values different. In the code an image that is not allocated has entropy -99, the version with a mask breaks down for 32 bit images with pixels far apart, and a mask of another size is resized and read uninitialised.", "quantifier": "all images, masks, labellings and pixel types", "why_tests_cant": "The value is a sum over all the values of an image; that it depends on the frequencies only and is extremal exactly on constant images is a statement about all images, and the tests compare two digits on one image.", "anchors": ["Base/include/private/DMeasures.hpp:1229-1341", "Base/include/private/DBlobMeasures.hpp:328-344"]}
{"id": "C87", "title": "Barycentres are weighted means, centred moments are moments about them, and inertia matrices are quadratic forms of the distances", "statement": "measBarycenter is the mean of the coordinates weighted by the values and lies in the convex hull of the non-zero pixels; centred moments are the sums of v(x-bx)(y-by) and so on; the matrix of blobsInertiaMatrix for images of several slices is symmetric and gives for every direction u the sum of v |u x (p-o)|^2, o being the origin or the barycentre of the blob, which is never negative with unsigned pixels. In the code the matrix for images of one slice, although as documented, has its axes exchanged with respect to the other one; centred moments of signed images vanish as soon as the mass is not positive; the barycentre of an image of zeros is not a number; centring the moments of an image that is not allocated reads an empty vector; given only labels, the moments are multiplied by the label.", "quantifier": "all images, labellings, directions and pixel types", "why_tests_cant": "The identities (the parallel axis theorem, the form for every direction) quantify over all images and real directions; the tests compare moments of one image.", "anchors": ["Base/include/private/DMeasures.hpp:655-697", "Base/include/private/DMeasures.hpp:843-939", "Base/include/private/DBlobMeasures.hpp:216-326", "Base/include/private/DBlobOperations.hpp:137-222"]}
{"id": "C88", "title": "The arrows of arrowMin point to the lowest neighbours, those of arrowMinStep to the lowest among the neighbours that are not lower", "statement": "After arrowMin, bit k of a pixel is set exactly when neighbour k is not above the pixel and no neighbour is below it, ties included; with the default border no arrow of a pixel below the maximum leaves the image. After arrowMinStep, bit k is set exactly when neighbour k is not below the pixel and no other such neighbour is below it, where such a neighbour below the border value exists. In the code, a pixel above all its neighbours gets the arrows of all of them from arrowMinStep, neighbours in other slices are read in the same slice, and arrows beyond the bits of the output are lost.", "quantifier": "all images, border values, element of at most 64 points in one slice, square and hexagonal grids", "why_tests_cant": "Bits are accumulated by additions and reset when a lower neighbour appears; that no order of values leaves a stale bit or carries into another one is a statement about all value sequences, and there is no test of these functions.", "anchors": ["Morpho/include/private/DMorphoArrow.hpp:332-615"]}
{"id": "C89", "title": "Changes of scale are affine, keep the order and reach the bounds", "statement": "cast applies the affine map between the ranges of the two pixel types, keeps the order, sends the least and greatest value of one type to those of the other, and casting to a wider unsigned type and back gives the image back. expand applies the affine map from the range of the image (or of its type) to the requested range and reaches both bounds; expand with two ranges is the broken line through the origin, the two given points and the greatest values, each piece staying in its range. sCurve applies a sigmoid that keeps the order and is half the greatest value, with slope ratio times height over range, at the pivot. In the code, cast to signed types has undefined behaviour for the upper half of the values, expand with two ranges sends everything below a negative lower bound to zero and accepts bounds in the wrong order, sCurve without a pivot is centred at half the width of the range instead of the median, and on 32 bit images pushes the pixels below the pivot to the greatest value.", "quantifier": "all images, pixel types, ranges, pivots and ratios", "why_tests_cant": "Monotonicity, exactness at both ends and absence of overflow hold for every value and every pair of types and ranges; there is no test of these functions and examples with 8 bit values do not show the conversions that overflow.", "anchors": ["Base/include/private/DImageArith.hpp:1450-1755"]}
{"id": "C90", "title": "The ultimate opening gives the greatest step of the openings by height", "statement": "ultimateOpen on the max-tree gives every pixel joined to the minimum the greatest difference between two levels around it whose components have heights below the stop size that fall by at most delta at a time, and as indicator one more than the height of the first such level that exceeds the residues below; these two conditions determine both results. Without delta this is the greatest difference between successive openings by height at the pixel, the indicator being one more than the greatest size that attains it, or 0 where there is no step. In the code the default stop size is converted to the indicator type, so that with a UINT8 indicator an image of 257 lines gives 0 everywhere; 32 bit images write outside of the tables of the tree.", "quantifier": "all images of unsigned 8 or 16 bit pixels, symmetric elements, stop sizes and deltas", "why_tests_cant": "The recursion over the tree keeps five running values to avoid computing the openings; that it gives the maximum over all sizes holds for every image and tree shape, and there is no test of it.", "anchors": ["Morpho/include/private/DMorphoMaxTree.hpp:421-635"]}
{"id": "C91", "title": "Geodesic measures follow walks inside the components; the path opening keeps long components", "statement": "geodesicDiameter, geodesicElongation, geodesicTortuosity and geodesicExtremities give 0 outside of the set of the pixels of at least half of the maximum and, on every component of the set (26 neighbours), a measure built on one plus the length of a walk inside the component, from a pixel farthest from the barycentre; every pixel of the component has a walk that is not longer, and the length lies between 1 + r*h and 1 + R*(h+1) where h steps are needed and r, R bound the length of a step. Extremities mark exactly the two ends of this walk. labelFlatZones does the same for the flat zones of every slice. geodesicPathOpening gives every pixel the greatest level, at most its value, that is the least level of the image or whose component around the pixel has the requested length. In the code the length of a 2x2 block is 3 instead of 1+sqrt(2), 0/1 images count their background as object, a component of one pixel writes its second extremity to pixel 0, dzOverDx stretches y, images with all levels of their type give a constant path opening.", "quantifier": "all images, dimensions, scales, lengths and any function in place of the square root that is positive on positive numbers", "why_tests_cant": "The breadth-first propagation computes lengths in an order that depends on the shape; bounds that hold for every component shape and every scale need an invariant of the queue.", "anchors": ["Advanced/include/private/GeodesicThinning/GeodesicPathOpening.hpp:93-245", "Advanced/include/private/GeodesicThinning/GeodesicPathOpening.hpp:426-909", "Advanced/include/private/GeodesicThinning/GeodesicPathOpening.hpp:931-1104"]}
{"id": "C92", "title": "Values, mean, mode, median and box of every blob", "statement": "For every label, blobsMeanVal gives the mean of the values on the pixels of the label and the mean of the squares of the deviations from it (before the square root); blobsValueList the values, each once and in increasing order; blobsModeVal a most frequent value, the first to reach its count in raster order; blobsMedianVal a value with more than half of the values at or below it and at most half below; blobsBoundBox (of a grey image or of the labels) the least box that holds the pixels concerned. In the code the mode and the median ignore values that are not positive (zero when there are no others), and the size of the image is not compared with that of the blobs.", "quantifier": "all label images, grey images, pixel types and labels", "why_tests_cant": "The blobs are read as runs of pixels and the measures are updated incrementally run by run; agreement with a definition on the set of pixels needs an induction on the runs for every shape of label.", "anchors": ["Base/include/private/DBlobMeasures.hpp:146-260", "Base/include/private/DMeasures.hpp", "Base/include/private/DBaseMeasureOperations.hpp:240-296"]}
{"id": "C93", "title": "Labelling of the intersections of two partitions", "statement": "labelWithoutFunctor2Partitions gives the same label to two pixels exactly if a path of neighbours joins them on which neither image changes, and returns the number of such regions; the regions are numbered in the order of their first pixels. In the code pixels that are zero in the first image (but not those that are zero in the second) have no label, the numbers start again at 1 after max - 2 regions although the type has two more, and in the mode that resizes a second image of another size is read outside of its buffer.", "quantifier": "all pairs of images, symmetric elements, label types", "why_tests_cant": "Connectivity is a property of all paths; the propagation order of the queue differs for each pair of partitions.", "anchors": ["Morpho/include/private/DMorphoLabel.hpp:447-525"]}
{"id": "C94", "title": "The area closing and the path closing are the duals of the openings", "statement": "areaClosing gives every pixel the smallest level, not below its value, for which at least n pixels are joined to it without going above the level (or the greatest value of its component if this has fewer than n pixels); it is extensive, increasing and idempotent, and unlike areaOpening it can be used in place. geodesicPathClosing gives every pixel the smallest level of the image, at least its value, that is the greatest level of the image or whose component around the pixel of the pixels at or below it has the requested length. In the code an output of another type than the input is inverted in its own type, so that the values are shifted; inversion of negative INT32 pixels is undefined behaviour.", "quantifier": "all images, symmetric elements of a square grid, sizes, lengths, scales", "why_tests_cant": "The closing is never computed as such but through the complement: the claim concerns lower level sets of every image and every connectivity.", "anchors": ["Advanced/include/private/AreaOpening/DAreaOpen.hpp:92-113", "Advanced/include/private/GeodesicThinning/GeodesicPathOpening.hpp:1118-1142"]}
{"id": "C95", "title": "The texture features are sums over the size zones of the image", "statement": "grayLevelZMSize quantises the pixels to N levels, takes the connected components of every upper level set of every slice, and returns twelve sums over them (emphases of small and large sizes, of low and high levels, non-uniformities) that depend only on the level and the number of pixels of each component. In the code the sizes are one too large, the components of the greatest size count as single pixels of the next level, and if one of these belongs to the last level (always with one level, and for flat images) the matrix is written out of bounds.", "quantifier": "all images of values 0 to 255, all numbers of levels up to 255", "why_tests_cant": "The components are found by a flood over a queue and counted into a matrix whose width is the greatest size found in a first pass; the claim is about the components of every level of every image, and the out-of-bounds write goes unnoticed in a test.", "anchors": ["Addons/ZoneMatrix/include/private/GLSZM.hpp:29-213", "Addons/ZoneMatrix/include/private/GLSZM.hpp:345-489", "Addons/ZoneMatrix/include/private/GLSZM.hpp:537-545"]}
{"id": "C96", "title": "A shared image neither frees nor outgrows the data it uses", "statement": "Whatever the history of creation, copy, attach, detach, assignment and destruction of shared images, the data they are attached to are never freed nor changed by them, their line tables are their own, correct, and freed exactly once, a detached one has no size and no pointer, and a slice of a 3D image is a view of exactly its pixels. In the code an assignment from a view of the same data (for instance self-assignment) or from a view without data makes the destructor free the data of the owner; setSize and clone through a reference to Image change the size without changing data and tables.", "quantifier": "all histories of operations on any number of views and external buffers", "why_tests_cant": "The claim concerns ownership over every interleaving of operations; a wrong free shows up, if at all, long after the operation that caused it.", "anchors": ["Core/include/private/DSharedImage.hpp:49-204", "Core/include/private/DImage.hxx:145-152", "Core/include/private/DImage.hxx:172-179", "Core/include/private/DImage.hxx:334-379", "Core/include/private/DImage.hxx:511-519"]}
{"id": "C97", "title": "The skeleton of Zhang and Suen keeps the topology", "statement": "zhangSkeleton ends; its result is the input thinned by turns of the two phases of Zhang and Suen until neither removes anything; the pixels kept keep their values; two points of the skeleton are 8-connected in it exactly when they were in the input, and the holes and the outside (4-connected) stay what they were: none appears, disappears or merges; the skeleton of the skeleton is the skeleton. In the code a component may vanish (a square of 2 x 2 pixels), the products of three neighbours overflow for pixels above 1290, and signed images make it read beyond its buffer.", "quantifier": "all unsigned images with pixels at most 1290 (all UINT8 images) for the positive part; all signed images for the undefined behaviour", "why_tests_cant": "Parallel removal keeps connectivity only by an argument over all configurations of neighbouring pixels, which a few test images do not meet; termination and idempotence are for every image.", "anchors": ["Addons/ZhangSkel/include/private/DZhangSkel.hpp:335-525"]}
{"id": "C98", "title": "Bitmap files are read bit for bit", "statement": "Reading a PBM file gives the image whose pixels are the maximum of the type where the bit is one and zero where it is zero: the rows of a binary file start at a byte, the bits of a byte are taken from the most significant one, and the comments before the dimensions and the bytes after the data are ignored; the other NetPBM types are refused. In the code, digits of an ASCII file which are not separated (the format allows it) are read as one number, missing rows repeat the last byte without an error, and a file without data tests an uninitialised byte.", "quantifier": "all widths, heights, comment lines, contents and pixel types", "why_tests_cant": "The bits at the ends of rows depend on the width modulo eight and the header is free in its comments; a few files cannot cover them, and the sign of char matters for the shift.", "anchors": ["IO/include/private/DImageIO_PBM.hpp:92-146", "IO/src/DImageIO_PBM.cpp:40-115"]}
{"id": "C99", "title": "Bitwise and logical operators", "statement": "bitAnd, bitOr and bitXOr combine the bits of the pixels one by one, for signed types too; with inv as complement they make a Boolean algebra (De Morgan, absorption, distributivity, bitXOr twice with the same image is the identity); on unsigned images bitAnd <= inf <= sup <= bitOr, and they agree with inf and sup on images of zero and the maximum; logicAnd, logicOr and logicXOr give one where the condition holds and zero elsewhere.", "quantifier": "all images, pixel types, aliasing patterns and pixel values", "why_tests_cant": "The laws are over all pairs and triples of values of every type; signed types promote and convert back.", "anchors": ["Base/include/private/DLineArith.hpp:484-542", "Base/include/private/DImageArith.hpp:901-1031"]}
{"id": "C100", "title": "Exchanges with arrays, vectors and strings", "statement": "toIntVector, toIntArray, toCharArray, toString, toArray and their inverses keep the order of the pixels; writing to elements with as many bits or more and reading back gives the image; the integers are the values unless the type is UINT32; a vector or string of another length changes nothing. In the code nothing is reported in that case, arrays which are too short are overrun, and strings keep only the low bytes of images of 16 bits.", "quantifier": "all images, pixel types, lengths and contents", "why_tests_cant": "Round trips must hold for every value of every pair of types, including those which change sign in the array.", "anchors": ["Core/include/private/DImage.hxx:382-459"]}
{"id": "C101", "title": "Rectangles of a map and boxes of blobs are drawn", "statement": "drawRectangles draws the rectangles of the map in the order of the keys: each point takes the value of the greatest key whose rectangle (its sides, or all of it if filled) contains it, and the other points keep their values; applied to the boxes that blobsBoundBox gives for a label image of one slice it draws, for each label, the sides of the smallest rectangle around its pixels. In the code an empty map (an image without labels) is undefined behaviour, only the first vector of coordinates is measured, and the boxes of images of several slices are refused.", "quantifier": "all maps of rectangles in the image, all label images, all values", "why_tests_cant": "Overlapping rectangles depend on the order of the map; the composition with the boxes of the blobs is over all labellings.", "anchors": ["Base/include/private/DImageDraw.hpp:183-218", "Base/include/private/DBlobMeasures.hpp:238-260"]}
{"id": "C102", "title": "A graph is turned back into a mosaic; cutting the graph of a mosaic merges zones", "statement": "graphToMosaic replaces every pixel which is a node by the least node of its component in the graph (the nodes joined by active edges), so two such pixels get the same value exactly when a path of edges joins them, and the other pixels get zero. For the graph of a mosaic cut with removeHighEdges at a value, two zones are merged exactly when they are joined by contacts whose edge value is at most this value, and the merged zone takes its least label. In the code a node that never had an edge makes the function throw, a mosaic of one zone is refused, and nodes that do not fit the pixel type are wrapped.", "quantifier": "all graphs obtained by edits, all mosaics, all edge values, all thresholds", "why_tests_cant": "The merging is a transitive closure over arbitrarily long chains of zones.", "anchors": ["Morpho/include/private/DMorphoGraph.hpp:352-400", "Core/include/private/DGraph.hpp:471-495"]}
{"id": "C103", "title": "The Kuwahara filter returns the mean of the least varied corner square", "statement": "kuwaharaFilter gives each pixel of a 2D image the mean, truncated, of one of the four squares of side radius + 1 that have the pixel as a corner (clipped by the image), the first one with the least variance in the order up-left, up-right, down-right, down-left. The result lies between the least and the greatest value of the window of side 2 radius + 1, so a flat window keeps its value. This holds without condition for 8-bit pixels; for wider types the squares of the values must not overflow and one of the four variances must be less than 9999999, otherwise the square of the previous pixel is used.", "quantifier": "all 2D images, all radii, all pixel values", "why_tests_cant": "The choice depends on four means and variances at each pixel, with clipping at the borders and, in the code, a state left by the previous pixel.", "anchors": ["Addons/Filters/include/private/filterKuwahara/filterKuwahara.hpp:7-103"]}
{"id": "C104", "title": "The sigma filter averages the pixels of the window that are like the pixel", "statement": "sigmaFilter gives each pixel of a 2D image the mean, truncated, of the pixels of its clipped window of side 2 radius + 1 whose value differs from its own by at most sigma standard deviations of the window, when they make at least the given part of the window; otherwise the mean of the window, without the pixel itself if asked. The result lies between the bounds of the window; with sigma zero and no minimal part the image is unchanged. The code is undefined for one pixel windows without the pixel itself, for a negative sigma without minimal part and for squares that overflow, and in place it reads pixels that it has already replaced.", "quantifier": "all 2D images, all radii, all nonnegative sigma, all parts", "why_tests_cant": "The set of averaged pixels depends on the variance of each window and on its clipping.", "anchors": ["Addons/Filters/include/private/filterSigma/filterSigma.hpp:6-85"]}
{"id": "C105", "title": "The cross correlation of two phases is a frequency of pairs", "statement": "measCrossCorrelation returns, for each step from zero to the given number (by default the largest size less one), the part of the pairs of pixels at that displacement that go from the first to the second value. In the code each pair counts for the square of the maximum of the pixel type, which overflows for UINT16; the normalised version of two distinct values divides by zero; and displacements longer than the image, which the default number of steps can reach, wrap and read beyond the image.", "quantifier": "all images, all values, all directions and numbers of steps", "why_tests_cant": "The vector is a count over all pairs at all displacements, for images of any size.", "anchors": ["Addons/Chabardes/include/private/DMeasures.hpp:134-195", "Base/include/private/DLineArith.hpp:341-356"]}
{"id": "C106", "title": "The distance by successive erosions counts the steps to the nearest zero pixel", "statement": "distV0 ends exactly when every pixel can reach a zero pixel by steps through the structuring element inside the image, within as many turns as the greatest of these distances; its result is at each pixel the least number of steps to a zero pixel, divided by the size of the element and rounded up, clipped at the largest value of the pixel type. Images that are not allocated or of another size are refused. In the code an image without a zero pixel loops for ever, an element without its origin gives distances which are wrong, and negative pixels break the stopping test and the saturated sum.", "quantifier": "all images of non-negative values of every pixel type, all accepted structuring elements containing the origin, all sizes, all walks", "why_tests_cant": "Termination and equality with a shortest path concern unboundedly many turns of the loop and all image sizes.", "anchors": ["Morpho/include/private/DMorphoDistance.hpp:983-1005", "Base/include/private/DLineArith.hpp:125-136"]}
{"id": "C107", "title": "The registry lists the living objects and images, each once", "statement": "Whatever objects a program makes, copies, registers, unregisters and destroys, the library lists exactly the registered living objects, each once and in the order of their registration, and among them the images; the index of an image is its place in the list, the allocated memory is the sum of the sizes of the listed images, deleteAllImages destroys exactly them, and the number of threads is the last one accepted and never exceeds the number of processors. In the code a shared image is listed as an image, changes its name and stays in the list after its destruction, so that getAllocatedMemory and deleteAllImages use a dead object; copies of shared images are missing; killing a library which is not kept alive deletes it twice; getNumberOfCores returns the number of threads and zero threads are accepted.", "quantifier": "all sequences of operations on all objects", "why_tests_cant": "The invariant concerns all interleavings of constructions, copies, renamings and destructions of any number of objects.", "anchors": ["Core/src/DCoreInstance.cpp:81-215", "Core/include/DBaseObject.h:49-99", "Core/include/private/DInstance.hpp:39-77", "Core/include/private/DSharedImage.hpp:57-86"]}
{"id": "C108", "title": "fastLabel gives the labels of label on two-valued images of one slice", "statement": "On an image of one slice and at least two lines whose pixels are zero or one same value, with a symmetric neighbourhood that holds the four pixels beside and is held in the 3 by 3 square (square, cross, hexagon), fastLabel returns the number of connected components and the image of labels that label returns: zero exactly on the zero pixels, equal labels exactly on connected pixels, numbered in raster order. The reason is planar: following the boundary pixels of a component always leads from any start of a run back to an earlier boundary pixel. Outside these conditions it fails: several non-zero values, several slices, other elements, an element of size two, lambdaFastLabel, in place (endless recursion), one line or more slices than lines (outside of the arrays).", "quantifier": "all unsigned pixel types, all image sizes, all two-valued images, all such elements, all label types", "why_tests_cant": "The two passes label only boundaries and runs; that no component gets two labels depends on the shape of every possible component with its holes, and no finite set of images covers them.", "anchors": ["Morpho/include/private/DMorphoLabel.hpp:179-353", "Morpho/include/private/DMorphoLabel.hpp:619-672", "Morpho/include/private/DMorphImageOperations.hxx:89-117"]}
{"id": "C109", "title": "The extension chooses the format, and a stack of files holds the slices of a volume", "statement": "The format of a file is chosen by what follows the last dot of its name, whatever the case of the letters; other names are refused without touching a file. Reading a list of files gives an image with the width and height of the first file and one slice per file, slice z being file z (cut, or completed with zeros, when its size differs). Writing a volume over a list of names, one per slice, and reading the list gives the volume back, and no other file changes; with another number of names nothing is written. Names must lead to different files (C109_repeat_bug: the last slice comes back several times) and must not begin with file://, which read removes and write does not (C109_scheme_bug). A file of several slices spills into the following slices (C109_spill_bug). A file that cannot be opened leaves the files before it replaced (C109_write_stops).", "quantifier": "all volumes of UINT8 within the sizes of the formats, all lists of names, all states of the files", "why_tests_cant": "Lists of files of any length and size, names of any form, mixed formats and files shared by several names cannot be enumerated.", "anchors": ["IO/src/DCommonIO.cpp:119-126", "IO/include/private/DImageIO.hxx:64-220", "IO/include/private/DImageIO.hpp:44-80", "Base/include/private/DImageTransform.hpp:83-132"]}
{"id": "C110", "title": "A graph drawn on its mosaic: one segment per edge, between the centres of its regions", "statement": "drawGraph leaves the picture as it is except for one digital segment per edge, in the given value, that joins the centres of the two regions of the mosaic: the means of the coordinates of their pixels, rounded down. Loops, edges of the background (value 0) and edges whose end is not a region draw nothing. The centres are inside the image, so nothing is written outside it and no error stops the drawing half way. Images that are not allocated, or of another size, are refused. A node that is not a value of the pixels of the mosaic is taken for another region (C110_alias_bug), and on volumes everything is drawn on the first slice (C110_slice_bug).", "quantifier": "all mosaics of all pixel types and sizes up to 2^31 on a side, all lists of edges whose nodes are values of the pixels, all pictures and values", "why_tests_cant": "Regions of any shape, graphs of any size with loops and dangling nodes, and the rounding of every mean cannot be enumerated.", "anchors": ["Morpho/include/private/DMorphoGraph.hpp:403-434", "Base/include/private/DBlobMeasures.hpp:208-213"]}
{"id": "C111", "title": "Binary path openings keep the pixels that lie on a long enough path", "statement": "ImBinaryPathOpening keeps exactly the pixels above the threshold that lie on a path of pixels above the threshold with enough pixels, in one of the four orientations (down, right, and the two diagonals), each step going to one of three neighbours. It is an opening: nothing is added, a larger image keeps more, a larger criterion keeps less, and doing it again changes nothing. The number of pixels required is one less than documented (C111_short_bug), negative pixels are above every threshold (C111_signed_bug), volumes write outside a buffer (C111_volume_ub). ImPathOpeningBruteForce should stack the binary openings of all the thresholds; it thresholds the lengths instead of the image, and its results are less than W + H whatever the image (C111_brute_bug).", "quantifier": "all plane images with unsigned pixels and W + H < 65536, W * H * 8 < 2^31, all criteria and thresholds", "why_tests_cant": "The number of paths grows exponentially with their length; the equality with the scan in eight orders needs an induction over the scan of every size, including the diagonal scan of any rectangle.", "anchors": ["Addons/PathOpening/include/MorphoPathOpening/morphoPathOpening.hpp:54-266", "Addons/PathOpening/include/MorphoPathOpening/morphoPathOpening.hpp:999-1040", "Addons/PathOpening/include/DMorphoPathOpening.h:14-23"]}
{"id": "C112", "title": "The fast grey path opening keeps the longest paths exact from level to level", "statement": "ImPathOpening computes, for each pixel, the highest grey level at which it lies on a path of Lenght pixels of at least this level. From one level to the next it updates the lengths with queues: each update, in each of the eight directions, turns the exact lengths of the level L - 1 into the exact lengths of the level L, visits no point outside of the image and leaves the queues empty (C112_update). The result is less than the value of the pixel, or zero, and is at least M whenever a path of Lenght pixels above M in one of the first three orientations goes through the pixel. The code falls short of the claim: the result is one level too low (C112_level_bug), the first lengths of the last orientation are exchanged so that paths appear (C112_diagonal_bug) or disappear (C112_lost_bug), in place the input is erased first (C112_inplace_bug), volumes are undefined (C112_errors). ImPathClosing is the same between two inversions: one level too high (C112_closing_partial), and wrong with a wider output (C112_closing_type_bug).", "quantifier": "all plane images of bytes with W * H * 8 < 2^31, all criteria, all output types", "why_tests_cant": "The exactness of incremental lengths depends on the order of all the queues at each of the 255 levels; it needs an invariant for every image, not a comparison on examples.", "anchors": ["Addons/PathOpening/include/MorphoPathOpening/morphoPathOpening.hpp:268-810", "Addons/PathOpening/include/DMorphoPathOpening.h:47-77"]}
{"id": "C113", "title": "The heap of the area closing by pixel queue is a priority queue; the closing itself is not always one", "statement": "The heap of pixels used by ImAreaClosing_PixelQueue is a priority queue: through any sequence of insertions and removals from an empty heap, each removal gives a pixel inserted and not yet removed, of least grey value, and the run is undefined exactly when the array overflows or a pixel is removed from an empty heap (C113_queue); the pixels of a list inserted and then removed come out sorted (C113_sorted). When the closing returns, each pixel of the first slice has the value of a pixel of the first slice of the input, and the other slices are copied (C113_values_partial). The code falls short of an area closing: a pixel may become smaller, since the search for minima does not look below the last pixel of the row before the last (C113_decrease_bug), the queue overflows (C113_overflow_bug), the empty heap is read on images of fewer pixels than the size and on others (C113_empty_bug), the other slices of a volume are not closed (C113_volume_bug), in place the result is zero everywhere (C113_inplace_bug).", "quantifier": "all sequences of operations on the heap, all keys and capacities; all images, types and sizes", "why_tests_cant": "The order of a heap depends on all the operations before; and the failures of the closing are accesses outside of arrays, which a test may pass without notice.", "anchors": ["Addons/PathOpening/include/FastAreaOpening/AreaOpeningPixelQueue.hpp:36-392"]}
{"id": "C114", "title": "splitString cuts a string exactly at the delimiters", "statement": "For every string and every set of delimiters splitString returns the parts of the string between the delimiters: no part holds a delimiter and exactly one delimiter stands between two parts, which determines the parts (C114_split). There is one part more than delimiters, so that empty parts are kept (C114_number), and the lines of splitLines joined by line ends are the text (C114_lines). The arithmetic on size_t that starts from next = -1 and subtracts from npos never leaves the string, so that substr never throws.", "quantifier": "all strings of fewer than 2^64 - 1 characters, all delimiters", "why_tests_cant": "The first and the last turn rely on the wrapping of size_t and on npos; the claim is about all positions of delimiters, also adjacent ones and those at the ends.", "anchors": ["Core/src/DString.cpp:37-56"]}
{"id": "C115", "title": "WindowPoints converts between indices and coordinates without error", "statement": "In a window of fewer than 2^63 points index and coords are inverse bijections between the points and the numbers from 0 to w*h*d - 1 (C115_bijection). inWindow holds exactly for the points and for their indices, and is false, not undefined, for the other numbers, negative ones included (C115_inWindow). translate moves a point and brings each coordinate back to the nearest one of the window (C115_translate); a move that stays inside is exact (C115_inside). A window of width or height zero is a division by zero (C115_zero).", "quantifier": "all windows of positive size with w*h*d < 2^63, all indices and moves that fit 64 bits", "why_tests_cant": "Remainders of negative numbers, clamping and overflow concern all sizes and all 64-bit numbers.", "anchors": ["Addons/MorphoExtras/include/private/WindowPoints.hpp:76-138"]}
{"id": "C116", "title": "The decisions of the max-tree filters of the addon", "statement": "On a max-tree whose nodes lie level after level, with parents at lower levels, the decision Direct gives each node the greatest level of a kept node among it and its ancestors (C116_direct), and Min the greatest level of a node kept together with all its ancestors (C116_min); a root is always kept. Max, as coded, keeps the level of each node that has a kept descendant and gives the others the Direct value (C116_max). Min is below Direct, Direct below Max, and no pixel is raised (C116_image). For an attribute that does not grow from parent to child, as the area, the three are the same (C116_increasing). For other attributes Max is wrong: a removed child of a restored node takes the level of a lower ancestor and becomes darker than its surroundings (C116_max_bug). Subtractive lowers the whole image by the level of the root (C116_subtractive_bug).", "quantifier": "all trees of 256 levels satisfying the stated order, all attributes, all thresholds, all nodes and pixels", "why_tests_cant": "The claim concerns all shapes of trees and the order in which the passes visit the nodes; the error of Max needs siblings with different outcomes, and only the area is ever tested.", "anchors": ["Addons/PathOpening/include/FastAreaOpening/AreaOpeningMaxTree.hpp:598-722"]}
{"id": "C117", "title": "The union-find area opening of the addon is the area opening", "statement": "On a plane image and for a size at least 1, ImAreaOpening_UnionFind gives at each pixel the greatest level not above the pixel whose 4-connected component has at least that many pixels, or the least value of the image part when none has (C117_open_partial): the same specification as for areaOpening (C51). Its counting sort writes every pixel once, inside its array, by decreasing value and in raster order among equal ones (C117_sort). The sums of Link1 stay above -(4 lambda + 1) (C117_range). Size 0 gives values that are no grey values (C117_size0_bug), in a volume the slices after the first become 0 (C117_slices_bug), and the closing is undefined on every image, since the second inversion overflows in the 32-bit output (C117_closing_bug).", "quantifier": "all plane images of 8-bit pixels, all sizes at least 1", "why_tests_cant": "Correctness rests on an invariant of a forest under path compression in which large components are deliberately not merged; it concerns all images and all orders of equal pixels.", "anchors": ["Addons/PathOpening/include/FastAreaOpening/AreaOpeningUnionFind.hpp:57-229", "Addons/PathOpening/include/DFastAreaOpening.h:106-120"]}
{"id": "C118", "title": "The area opening by pixel queue is the dual of the closing, in place too", "statement": "ImAreaOpening_PixelQueue gives the inverse of the area closing by pixel queue of the inverted image, and is undefined when that closing is; unlike the closing (C113_inplace_bug) it may be called in place, since the closing reads a new image (C118_dual). Each pixel of the first slice has the value of a pixel of the first slice of the input, and the other slices are copied (C118_values_partial). It inherits the faults of the closing: a pixel may become greater (C118_increase_bug), the call is undefined on images of fewer pixels than the size and when the queue overflows (C118_undefined_bug), the other slices of a volume are not opened (C118_volume_bug); on INT32 images it is undefined as soon as a pixel is not negative (C118_int32_bug).", "quantifier": "all images, sizes and pixel types, in place or not", "why_tests_cant": "Duality concerns all images and types, and the failures are accesses outside of arrays and overflows which a test may pass without notice.", "anchors": ["Addons/PathOpening/include/DFastAreaOpening.h:41-56", "Addons/PathOpening/include/FastAreaOpening/AreaOpeningPixelQueue.hpp:338-392"]}
{"id": "C119", "title": "The directed graph of the addon has no directions", "statement": "Digraph keeps its edges as Graph does: after any history of edits it is what the edits mean when an edge has two ends and no direction, although its member oriented stays true (C119_edits_partial, under the guards of C44). Reversing any of the edges in a history, added or removed, changes neither the nodes, nor the edges of each node by index, nor, when each node has an edge, the labels of labelizeNodes, which are those of the components without directions (C119_direction). So an edge and its reverse cannot both be in a digraph when existence is checked: adding the second changes nothing (C119_reverse_bug).", "quantifier": "all histories of edits, all graphs, all choices of edges to reverse", "why_tests_cant": "That a flag is ignored by every operation, through any sequence of edits, is a relation between pairs of runs.", "anchors": ["Addons/Digraph/include/private/DDigraph.hpp:135-142", "Addons/Digraph/include/private/DDigraph.hpp:216-334", "Addons/Digraph/include/private/DDigraph.hpp:382-499", "Addons/Digraph/include/private/DDigraph.hpp:605-639"]}
{"id": "C120", "title": "The value of a node of a graph is the one last given to it", "statement": "After any defined sequence of edits and sorts of a Graph, getNodeValues gives for each node the value of the last addNode with a value since the last clear, and nothing when there was none (C120_values); the same holds for Digraph (C120_digraph). The map is not tied to the set of nodes: sortEdges loses the nodes without edges and keeps their values, which come back when the node is added without a value (C120_sort_bug), and removeNode keeps the value too (C120_remove_bug).", "quantifier": "all sequences of edits and sorts, all nodes and values", "why_tests_cant": "It concerns every interleaving of ten kinds of edits, none of which may touch the values of other nodes.", "anchors": ["Core/include/private/DGraph.hpp:248-268", "Core/include/private/DGraph.hpp:333-350", "Core/include/private/DGraph.hpp:377-383"]}
