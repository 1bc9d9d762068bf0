import Verif.Props.TubeAccess
import Verif.Props.TubeBuild
import Verif.Props.TubeOps
import Verif.Props.Integral
import Verif.Props.Tree
import Verif.Props.Deriv
import Verif.Props.Eval
import Verif.Props.CN
import Verif.Props.Delay
import Verif.Props.Static
import Verif.Props.Picard
import Verif.Props.TubeEval
import Verif.Props.Boxes
import Verif.Props.Sep
import Verif.Props.Sivia
import Verif.Props.Paving
import Verif.Props.TubePaving
import Verif.Props.Traj
import Verif.Props.Thick
import Verif.Props.Data
import Verif.Props.Geometry
import Verif.Props.TPlane
import Verif.Props.Graham
import Verif.Props.TDomain
import Verif.Props.Serialize
import Verif.Props.Tube2
import Verif.Props.SetItv
import Verif.Props.Polygon
import Verif.Props.PolyTube
import Verif.Props.EvalItv
import Verif.Props.Func
import Verif.Props.TubeMisc
import Verif.Props.Function
import Verif.Props.Simplify
import Verif.Props.Linobs
import Verif.Props.Action
import Verif.Props.Box2
import Verif.Props.Paving2
import Verif.Props.Convert
import Verif.Props.SepProj
import Verif.Props.Network
import Verif.Props.Degree
import Verif.Props.Lohner
import Verif.Props.PolySynth
import Verif.Props.SepPolar
import Verif.Props.InPolygon
import Verif.Props.SepPaving
import Verif.Props.CtcHull
import Verif.Props.SepPolarXYT
import Verif.Props.SepDiskExists
import Verif.Props.ThickPaving
import Verif.Props.ThickPavingFile
import Verif.Props.ThickPavingInter
import Verif.Props.TrajVec
import Verif.Props.TubeVec
import Verif.Props.CtcCN
import Verif.Props.PicardEnds
import Verif.Props.EvalVec
import Verif.Props.Wall
import Verif.Paving.TPlaneMap
import Verif.Props.TPlaneProof
import Verif.Props.Zeros
import Verif.Props.TPlaneSummary
import Verif.Props.Linobs2
import Verif.Props.Wrap2
import Verif.Props.Observations
import Verif.Props.DerivBest
import Verif.Props.FromFun
import Verif.Props.Colors
import Verif.Props.Restrict
import Verif.Props.Dispatch
import Verif.Props.Life
import Verif.Props.DomMem
import Verif.Props.Component
import Verif.Props.Names
import Verif.Props.Sweep
import Verif.Props.Raster
import Verif.Props.FunText
import Verif.Props.CapdTube
import Verif.Props.Rand
import Verif.Props.Envelope
import Verif.Props.Figure
import Verif.Props.PairProj
import Verif.Props.SliceOps
import Verif.Props.Assign
import Verif.Props.TrajLife
import Verif.Props.Lissajous
import Verif.Props.FastSivia
import Verif.Props.TrajOps
import Verif.Props.VecParts
import Verif.Props.Extreme
import Verif.Props.EqualB
import Verif.Props.VecIntegral
import Verif.Props.PavLife
import Verif.Props.PavCopy
import Verif.Props.TrajFun
import Verif.Props.VecBuild
import Verif.Props.Redermor
import Verif.Props.LissLoad
import Verif.Props.C2Matrix
import Verif.Props.C2Vector
import Verif.Props.ThickPt
import Verif.Props.ThickBoxOps
import Verif.Props.ThickTests
import Verif.Props.PrimStep
