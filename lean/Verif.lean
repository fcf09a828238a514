import Verif.AreaOpen
import Verif.AreaOpenLemmas
import Verif.ArithLemmas
import Verif.Arrow
import Verif.ArrowMin
import Verif.AsfLemmas
import Verif.BitArr
import Verif.BitArrLemmas
import Verif.BitOps
import Verif.Blob
import Verif.BlobLemmas
import Verif.BlobVals
import Verif.Build
import Verif.BuildLemmas
import Verif.BuildSpec
import Verif.BuildTop
import Verif.BuildTrace
import Verif.Channels
import Verif.Compare
import Verif.CompareLemmas
import Verif.Convolve
import Verif.ConvolveLemmas
import Verif.Coords
import Verif.CoreReg
import Verif.Covariance
import Verif.CovarianceLemmas
import Verif.CrossCorr
import Verif.Digraph
import Verif.DistGeneric
import Verif.DistV0
import Verif.Distance
import Verif.DistanceLemmas
import Verif.Draw
import Verif.DrawGraph
import Verif.DrawLemmas
import Verif.DrawRects
import Verif.DrawShapes
import Verif.DrawSpec
import Verif.DualClose
import Verif.Entropy
import Verif.EntropyLemmas
import Verif.Expand
import Verif.Extinction
import Verif.ExtinctionFlood
import Verif.ExtinctionLemmas
import Verif.FastExtrema
import Verif.FastExtremaLemmas
import Verif.FastLabel
import Verif.FastLabelLemmas
import Verif.FastLine
import Verif.FastLineFams
import Verif.FastLineLemmas
import Verif.FastLineOps
import Verif.FastLineRuns
import Verif.FastLineUse
import Verif.Flood
import Verif.GeoDist
import Verif.GeoDistLemmas
import Verif.GeoMeas
import Verif.GeoMeasLemmas
import Verif.GeoMeasPts
import Verif.GeoMeasRun
import Verif.GeoOps
import Verif.GeoOpsLemmas
import Verif.GranCdf
import Verif.Graph
import Verif.GraphLabel
import Verif.GraphLemmas
import Verif.GraphMosaic
import Verif.GraphMst
import Verif.GreyUF
import Verif.GreyUFLemmas
import Verif.HExtrema
import Verif.HExtremaLemmas
import Verif.HexTopo
import Verif.HierarQ
import Verif.HierarQLemmas
import Verif.Histogram
import Verif.HistogramLemmas
import Verif.HitOrMiss
import Verif.HitOrMissLemmas
import Verif.IOFile
import Verif.IOLemmas
import Verif.IOStack
import Verif.ImageMem
import Verif.ImageMemLemmas
import Verif.ImageOps
import Verif.Img
import Verif.ImgOps
import Verif.Inertia
import Verif.InertiaLemmas
import Verif.KernelCross
import Verif.KernelDil
import Verif.KernelHex
import Verif.KernelLemmas
import Verif.KernelLoops
import Verif.KernelVert
import Verif.Kernels
import Verif.Kuwahara
import Verif.Label
import Verif.LabelLemmas
import Verif.LabelTwo
import Verif.LabelWith
import Verif.LabelWithLemmas
import Verif.LineArith
import Verif.Lookup
import Verif.MTFilter
import Verif.Matrix
import Verif.MatrixLemmas
import Verif.MaxTree
import Verif.MaxTreeFlood
import Verif.MaxTreeLemmas
import Verif.MaxTreeUse
import Verif.MeasureLemmas
import Verif.Measures
import Verif.Morard
import Verif.MorardLemmas
import Verif.MorardRuns
import Verif.MorardUse
import Verif.Morpho
import Verif.MorphoAlgebra
import Verif.MorphoLemmas
import Verif.MorphoSpec
import Verif.MorphoTop
import Verif.MorphoTopLemmas
import Verif.Mosaic
import Verif.MosaicLemmas
import Verif.Neigh
import Verif.Otsu
import Verif.OtsuMulti
import Verif.OtsuMultiCuts
import Verif.OtsuMultiInv
import Verif.OtsuMultiLemmas
import Verif.OtsuMultiLut
import Verif.PathOp
import Verif.PathOpFast
import Verif.PathOpFastLemmas
import Verif.PathOpLemmas
import Verif.PathOpSpec
import Verif.Pbm
import Verif.Pix
import Verif.PixelHeap
import Verif.PixelHeapLemmas
import Verif.PixelOpen
import Verif.Planar
import Verif.Pool
import Verif.PropsAreaOpen
import Verif.PropsArith
import Verif.PropsArrow
import Verif.PropsArrowMin
import Verif.PropsBitArr
import Verif.PropsBitOps
import Verif.PropsBlob
import Verif.PropsBlobMeasures
import Verif.PropsBlobVals
import Verif.PropsBuild
import Verif.PropsChannels
import Verif.PropsCompare
import Verif.PropsCompareBugs
import Verif.PropsCompositeSE
import Verif.PropsContrast
import Verif.PropsConvolve
import Verif.PropsCoords
import Verif.PropsCoreReg
import Verif.PropsCovariance
import Verif.PropsCrossCorr
import Verif.PropsDigraph
import Verif.PropsDistGeneric
import Verif.PropsDistV0
import Verif.PropsDistance
import Verif.PropsDraw
import Verif.PropsDrawBugs
import Verif.PropsDrawGraph
import Verif.PropsDrawRects
import Verif.PropsDualClose
import Verif.PropsEntropy
import Verif.PropsExpand
import Verif.PropsExtinction
import Verif.PropsFastExtrema
import Verif.PropsFastLabel
import Verif.PropsFastLine
import Verif.PropsFastLineBugs
import Verif.PropsFastLineMore
import Verif.PropsGeoDist
import Verif.PropsGeoMeas
import Verif.PropsGeoOps
import Verif.PropsGranCdf
import Verif.PropsGraph
import Verif.PropsGraphMosaic
import Verif.PropsGraphVals
import Verif.PropsGreyUF
import Verif.PropsHExtrema
import Verif.PropsHausdorff
import Verif.PropsHierarQ
import Verif.PropsHistogram
import Verif.PropsHitOrMiss
import Verif.PropsHomothety
import Verif.PropsIO
import Verif.PropsIOSafe
import Verif.PropsIOStack
import Verif.PropsImageOps
import Verif.PropsInertia
import Verif.PropsKuwahara
import Verif.PropsLabel
import Verif.PropsLabelTwo
import Verif.PropsLabelWith
import Verif.PropsLookup
import Verif.PropsMTFilter
import Verif.PropsMatrix
import Verif.PropsMaxTree
import Verif.PropsMaxTreeMore
import Verif.PropsMeasures
import Verif.PropsMem
import Verif.PropsMorard
import Verif.PropsMorardBugs
import Verif.PropsMorpho
import Verif.PropsMorphoAlgebra
import Verif.PropsMosaic
import Verif.PropsNeigh
import Verif.PropsOtsu
import Verif.PropsOtsuMulti
import Verif.PropsPathOp
import Verif.PropsPathOpFast
import Verif.PropsPbm
import Verif.PropsPixelHeap
import Verif.PropsPixelOpen
import Verif.PropsPool
import Verif.PropsResize
import Verif.PropsSharedIm
import Verif.PropsSigma
import Verif.PropsSignals
import Verif.PropsSkeleton
import Verif.PropsSkeletonBugs
import Verif.PropsSkiz
import Verif.PropsSkizBugs
import Verif.PropsSplitString
import Verif.PropsStrElt
import Verif.PropsStretch
import Verif.PropsTransform
import Verif.PropsUltimate
import Verif.PropsVariants
import Verif.PropsVtk
import Verif.PropsWaterfall
import Verif.PropsWatershed
import Verif.PropsWindow
import Verif.PropsWindowPts
import Verif.PropsZhang
import Verif.PropsZoneMatrix
import Verif.Residues
import Verif.Resize
import Verif.ResizeLemmas
import Verif.Scan
import Verif.Sched
import Verif.SharedIm
import Verif.SharedImLemmas
import Verif.Sigma
import Verif.Signals
import Verif.Skeleton
import Verif.SkeletonLemmas
import Verif.Skiz
import Verif.SkizLemmas
import Verif.SkizSpec
import Verif.SplitString
import Verif.StrElt
import Verif.StrEltLemmas
import Verif.Stretch
import Verif.StretchLemmas
import Verif.Transform
import Verif.TransformLemmas
import Verif.Ultimate
import Verif.UltimateLemmas
import Verif.UltimateTree
import Verif.Waterfall
import Verif.WaterfallLemmas
import Verif.Watershed
import Verif.WatershedLemmas
import Verif.WatershedLine
import Verif.WindowPts
import Verif.Zhang
import Verif.ZhangLemmas
import Verif.ZhangTopo
import Verif.ZoneMatrix
import Verif.ZoneMatrixLemmas
