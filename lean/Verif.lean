import Verif.Cache.Props
import Verif.Cache.Race
import Verif.Cache.Handle
import Verif.Cache.Faults
import Verif.Pool.Props
import Verif.Pool.Ordered
import Verif.TQueue.Props
import Verif.Log.Props
import Verif.BBox.Props
import Verif.Block.Props
import Verif.Edge.Props
import Verif.Graph.Apply
import Verif.Line.Props
import Verif.Integral.Props
import Verif.Utm.Props
import Verif.Conv.Props
import Verif.View.Subdivide
import Verif.View.Props
import Verif.Quad.Tree
import Verif.Core.VarArray
import Verif.Core.StringUtils
import Verif.Stats.Acc
import Verif.Math.Functions
import Verif.Core.Progress
import Verif.Image.Grassfire
import Verif.Core.Stopwatch
import Verif.Blob.Props
import Verif.Blob.ThreadedProps
import Verif.Core.SettingsProps
import Verif.Carto.ChipperProps
import Verif.Math.SkylineProps
import Verif.Math.InverseProps
import Verif.Math.TransformProps
import Verif.Image.WarpProps
import Verif.IP.MatchIOProps
import Verif.IP.NamesProps
import Verif.Stereo.CorrelationProps
import Verif.Stereo.SubdivideProps
import Verif.Image.Rescale
import Verif.Stereo.SGMProps
import Verif.Geom.SpatialTreeAddProps
import Verif.Geom.SpatialTreeClosest
import Verif.Geom.Frames.Heap
import Verif.Geom.Frames.Inv
import Verif.Geom.Frames.Ops
import Verif.Geom.Frames.Del
import Verif.Geom.Frames.Walk
import Verif.Geom.Frames.ATrans
import Verif.Geom.Frames.Transform
import Verif.Geom.Frames.Store
import Verif.Geom.Frames.Reach
import Verif.Geom.Frames.Merge
import Verif.Geom.Frames.StoreInv
import Verif.Geom.Frames.Traverse
import Verif.Geom.Frames.Lookup
import Verif.Geom.Frames.MergeStore
import Verif.Geom.Frames.History
import Verif.Geom.Frames.TreeProps
import Verif.Geom.Frames.TransformProps
import Verif.Geom.Frames.StoreProps
import Verif.BA.TracksProps
import Verif.BA.RelationProps
import Verif.Ransac.Props
import Verif.Opt.NelderMeadProps
import Verif.Opt.LMProps
import Verif.Opt.DescentProps
import Verif.Opt.SwarmProps
import Verif.Opt.NewtonProps
import Verif.Mask.Props
import Verif.DMap.CrossProps
import Verif.DMap.MaskProps
import Verif.DMap.SampleProps
import Verif.DMap.Props
import Verif.Camera.StereoProps
import Verif.Camera.TriangulateProps
import Verif.Camera.CahvProps
import Verif.Camera.QuatProps
import Verif.Camera.AxisProps
import Verif.Camera.PinholeProps
import Verif.Camera.PinProject
import Verif.Camera.PinOps
import Verif.Camera.PinStereo
import Verif.Camera.EulerProps
import Verif.Camera.AdjustedProps
import Verif.Bathy.SnellProps
import Verif.Bathy.StereoProps
import Verif.Bathy.DataProps
import Verif.Interp.PieceProps
import Verif.Interp.LagrangeProps
import Verif.Interp.SmoothProps
import Verif.Interp.TlcProps
import Verif.Interp.PoseProps
import Verif.Interp.GridProps
import Verif.Georef.GeoTransProps
import Verif.Georef.SampleProps
import Verif.Datum.Examples
import Verif.FileIO.ManagerRun
import Verif.Core.ThreadId
import Verif.Camera.RpcLensProps
import Verif.Camera.LensProps
import Verif.Geom.Poly.AreaProps
import Verif.Geom.DPoly.Erase
import Verif.Geom.DPoly.ClipProps
import Verif.Geom.DPoly.FileProps
import Verif.IPMatch.Props
import Verif.CDF.Props
import Verif.FillHoles.Props
import Verif.Sphere.Props
import Verif.Erode.Props
import Verif.Sparse.Props
import Verif.NoData.Props
import Verif.Inpaint.Props
import Verif.Stereo.ParabolaProps
import Verif.Composite.Masks
import Verif.Composite.Draft
import Verif.Composite.Blend
import Verif.DiskPyr.Props
import Verif.Stereo.CensusProps
import Verif.Otsu.Convert
import Verif.Peaks.Props
import Verif.Window.Props
import Verif.Dist.Props
import Verif.Spline.Props
import Verif.Orient.Props
import Verif.Orient.HistProps
import Verif.VecUtil.Props
import Verif.BoxFilter.Props
import Verif.Linescan.Props
import Verif.Bayer.Props
import Verif.MatText.Props
import Verif.Paths.Props
import Verif.Surface.FillProps
import Verif.Surface.NormalsProps
import Verif.Colormap.Props
import Verif.Opacity.Props
import Verif.Pose.Props
import Verif.DatumCheck.Props
