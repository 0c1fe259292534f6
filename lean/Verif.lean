import Verif.Lemmas.Alm
import Verif.Lemmas.Angles
import Verif.Lemmas.Axes
import Verif.Lemmas.Bins
import Verif.Lemmas.Blocks
import Verif.Lemmas.CellFront
import Verif.Lemmas.CellGrid
import Verif.Lemmas.CellReach
import Verif.Lemmas.Convolve
import Verif.Lemmas.Dct
import Verif.Lemmas.DistMap
import Verif.Lemmas.DistSound
import Verif.Lemmas.Extract
import Verif.Lemmas.Finders
import Verif.Lemmas.FlatFourier
import Verif.Lemmas.Groups
import Verif.Lemmas.Index
import Verif.Lemmas.Interpol
import Verif.Lemmas.Iter
import Verif.Lemmas.Legendre
import Verif.Lemmas.ListExtra
import Verif.Lemmas.MapFilter
import Verif.Lemmas.Mask2Range
import Verif.Lemmas.Matched
import Verif.Lemmas.Nufft
import Verif.Lemmas.Num
import Verif.Lemmas.Number
import Verif.Lemmas.Padtile
import Verif.Lemmas.Powspec
import Verif.Lemmas.PySeq
import Verif.Lemmas.Ranges
import Verif.Lemmas.SBox
import Verif.Lemmas.SBoxWrap
import Verif.Lemmas.Sharing
import Verif.Lemmas.Sht
import Verif.Lemmas.Solvers
import Verif.Lemmas.Sort
import Verif.Lemmas.Sphere
import Verif.Lemmas.Spline
import Verif.Lemmas.Splits
import Verif.Lemmas.SrcSim
import Verif.Lemmas.Tiles
import Verif.Lemmas.TilesDense
import Verif.Lemmas.Wavelets
import Verif.Model.Aberration
import Verif.Model.Alm
import Verif.Model.AlmWrap
import Verif.Model.Angles
import Verif.Model.Annotate
import Verif.Model.Apod
import Verif.Model.ArrShape
import Verif.Model.ArrUtil
import Verif.Model.ArrayPool
import Verif.Model.Axes
import Verif.Model.Basis
import Verif.Model.BcArrays
import Verif.Model.Beams
import Verif.Model.Bins
import Verif.Model.Blocks
import Verif.Model.Boost
import Verif.Model.BoxGeom
import Verif.Model.Broadcast
import Verif.Model.CatFiles
import Verif.Model.Centered
import Verif.Model.ColorScheme
import Verif.Model.Contours
import Verif.Model.Coordinates
import Verif.Model.Crop
import Verif.Model.Cutout
import Verif.Model.Dct
import Verif.Model.Delens
import Verif.Model.Discs
import Verif.Model.Distance
import Verif.Model.Ducc
import Verif.Model.EdgeDist
import Verif.Model.Finders
import Verif.Model.FitsMap
import Verif.Model.FlatFourier
import Verif.Model.Formats
import Verif.Model.Fourier
import Verif.Model.GeoBuild
import Verif.Model.GeoUtil
import Verif.Model.Geometry
import Verif.Model.Geometry2
import Verif.Model.GridLines
import Verif.Model.Healpix
import Verif.Model.HealpixSearch
import Verif.Model.Index
import Verif.Model.Inpaint
import Verif.Model.Interpol
import Verif.Model.InterpolDeriv
import Verif.Model.Iter
import Verif.Model.Iterative
import Verif.Model.Lensing
import Verif.Model.LogFourier
import Verif.Model.MapFilter
import Verif.Model.MapNames
import Verif.Model.MapOps
import Verif.Model.MapPlace
import Verif.Model.MapSizes
import Verif.Model.MapUnion
import Verif.Model.MatMul
import Verif.Model.MatPow
import Verif.Model.Match
import Verif.Model.Matched
import Verif.Model.Mempool
import Verif.Model.MergePlots
import Verif.Model.MeshInterp
import Verif.Model.MpiArr
import Verif.Model.MultiPre
import Verif.Model.Multimap
import Verif.Model.Neighborhood
import Verif.Model.Nufft
import Verif.Model.Num
import Verif.Model.Number
import Verif.Model.OldAber
import Verif.Model.Padtile
import Verif.Model.Paths
import Verif.Model.PixArea
import Verif.Model.PlotLoop
import Verif.Model.PlotMap
import Verif.Model.PlotPrep
import Verif.Model.PlotStamps
import Verif.Model.Polygon
import Verif.Model.Populate
import Verif.Model.Powspec
import Verif.Model.Profile1d
import Verif.Model.RadialBin
import Verif.Model.RandAlm
import Verif.Model.RandMap
import Verif.Model.Ranges
import Verif.Model.Redistribute
import Verif.Model.RefLevel
import Verif.Model.RefPoint
import Verif.Model.Reproject
import Verif.Model.Resample
import Verif.Model.RotAlm
import Verif.Model.SBox
import Verif.Model.Settings
import Verif.Model.Sharing
import Verif.Model.ShowTable
import Verif.Model.Sht
import Verif.Model.ShtOps
import Verif.Model.Solvers
import Verif.Model.Sort
import Verif.Model.SpecIO
import Verif.Model.SpecSmooth
import Verif.Model.SplinePoles
import Verif.Model.SplitText
import Verif.Model.Splits
import Verif.Model.SrcBox
import Verif.Model.SrcCells
import Verif.Model.SrcMem
import Verif.Model.SrcSim
import Verif.Model.Stats
import Verif.Model.Store
import Verif.Model.Submap
import Verif.Model.Sweeps
import Verif.Model.SysText
import Verif.Model.Tables
import Verif.Model.Thumbs
import Verif.Model.TileViews
import Verif.Model.Tiles
import Verif.Model.Timing
import Verif.Model.TransMeta
import Verif.Model.TreeReduce
import Verif.Model.Uharm
import Verif.Model.WaveFlat
import Verif.Model.WaveVar
import Verif.Model.Wavelets
import Verif.Props.Aberration
import Verif.Props.Airy
import Verif.Props.Alm
import Verif.Props.AlmWrap
import Verif.Props.Angles
import Verif.Props.Annotate
import Verif.Props.Apod
import Verif.Props.ArrShape
import Verif.Props.ArrUtil
import Verif.Props.ArrayPool
import Verif.Props.Axes
import Verif.Props.Basis
import Verif.Props.BcArrays
import Verif.Props.Beams
import Verif.Props.Bins
import Verif.Props.Blocks
import Verif.Props.Boost
import Verif.Props.BoxGeom
import Verif.Props.Broadcast
import Verif.Props.Bubble
import Verif.Props.CatFiles
import Verif.Props.Cellgrid
import Verif.Props.Centered
import Verif.Props.ColorScheme
import Verif.Props.Colorize
import Verif.Props.Contours
import Verif.Props.Coordinates
import Verif.Props.Crop
import Verif.Props.Cutout
import Verif.Props.Dct
import Verif.Props.Delens
import Verif.Props.Discs
import Verif.Props.Distance
import Verif.Props.Ducc
import Verif.Props.EdgeDist
import Verif.Props.Extract
import Verif.Props.Finder
import Verif.Props.Finders
import Verif.Props.FitsMap
import Verif.Props.FlatFourier
import Verif.Props.Formats
import Verif.Props.Fourier
import Verif.Props.GeoBuild
import Verif.Props.GeoUtil
import Verif.Props.Geometry2
import Verif.Props.GridLines
import Verif.Props.Groups
import Verif.Props.Hdf
import Verif.Props.Healpix
import Verif.Props.HealpixNeigh
import Verif.Props.HealpixSearch
import Verif.Props.Index
import Verif.Props.Inpaint
import Verif.Props.Interpol
import Verif.Props.InterpolDeriv
import Verif.Props.Iter
import Verif.Props.Iterative
import Verif.Props.Labels
import Verif.Props.LensCurved
import Verif.Props.Lensing
import Verif.Props.LogFourier
import Verif.Props.MapFilter
import Verif.Props.MapNames
import Verif.Props.MapPlace
import Verif.Props.MapSizes
import Verif.Props.MapUnion
import Verif.Props.Masks
import Verif.Props.MatMul
import Verif.Props.MatPow
import Verif.Props.Match
import Verif.Props.Matched
import Verif.Props.MatchedVar
import Verif.Props.Mempool
import Verif.Props.MergePlots
import Verif.Props.MeshInterp
import Verif.Props.MpiArr
import Verif.Props.MultiPre
import Verif.Props.Multimap
import Verif.Props.Neighborhood
import Verif.Props.Nufft
import Verif.Props.Number
import Verif.Props.OldAber
import Verif.Props.PQueue
import Verif.Props.PadShift
import Verif.Props.Padtile
import Verif.Props.Paths
import Verif.Props.PixArea
import Verif.Props.Pixelize
import Verif.Props.PlotLoop
import Verif.Props.PlotMap
import Verif.Props.PlotPrep
import Verif.Props.PlotStamps
import Verif.Props.Polygon
import Verif.Props.Populate
import Verif.Props.Powspec
import Verif.Props.Profile1d
import Verif.Props.RadialBin
import Verif.Props.RandAlm
import Verif.Props.RandMap
import Verif.Props.Ranges
import Verif.Props.Redistribute
import Verif.Props.RefLevel
import Verif.Props.RefPoint
import Verif.Props.Reproject
import Verif.Props.Resample
import Verif.Props.RotAlm
import Verif.Props.SBoxAlgebra
import Verif.Props.Settings
import Verif.Props.Sharing
import Verif.Props.ShowTable
import Verif.Props.Sht
import Verif.Props.ShtOps
import Verif.Props.Slicing
import Verif.Props.Solvers
import Verif.Props.SpecIO
import Verif.Props.SpecSmooth
import Verif.Props.Spline
import Verif.Props.SplineAdj
import Verif.Props.SplinePoles
import Verif.Props.SplitText
import Verif.Props.Splits
import Verif.Props.SrcBox
import Verif.Props.SrcCells
import Verif.Props.SrcMem
import Verif.Props.SrcProf
import Verif.Props.SrcSim
import Verif.Props.Stats
import Verif.Props.Store
import Verif.Props.Submap
import Verif.Props.Sweeps
import Verif.Props.SysText
import Verif.Props.Tables
import Verif.Props.Thumbs
import Verif.Props.TileViews
import Verif.Props.Tiles
import Verif.Props.Timing
import Verif.Props.TransMeta
import Verif.Props.TreeReduce
import Verif.Props.Uharm
import Verif.Props.WaveFlat
import Verif.Props.WaveVar
import Verif.Props.Wavelets
import Verif.Props.Wcs
import Verif.Spec.PySeq
