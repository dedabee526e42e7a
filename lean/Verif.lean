import Verif.Py
import Verif.Dict
import Verif.Val
import Verif.Run.Chunks
import Verif.Trans.Model
import Verif.Trans.States
import Verif.Trans.Query
import Verif.Trans.Props
import Verif.Trans.Methods
import Verif.Trans.Shear
import Verif.Trans.Filter
import Verif.Run.Mixture
import Verif.Run.Sim
import Verif.Bin.Model
import Verif.Bin.Triangle
import Verif.Bin.Tent
import Verif.Bin.Props
import Verif.Bin.Octant
import Verif.Bin.Orient
import Verif.Bin.Average
import Verif.Sim.Events
import Verif.Sim.Stf
import Verif.Sim.StfExact
import Verif.Sim.Fourier
import Verif.Sim.Trig
import Verif.Bin.Weights
import Verif.Meth.Gen
import Verif.Meth.Dims
import Verif.Parse.Units
import Verif.Parse.Nested
import Verif.Parse.World
import Verif.Meth.Json
import Verif.Util.Reduce
import Verif.Util.Fit
import Verif.Util.FitParams
import Verif.Util.Collection
import Verif.Dist.Czjzek
import Verif.Signal.Ops
import Verif.Signal.Apod
import Verif.Obj.Isotope
import Verif.Obj.History
import Verif.Obj.Lists
import Verif.Bin.TwoD
import Verif.Bin.TwoDProps
import Verif.Bin.TwoDBounds
import Verif.Bin.Average2D
import Verif.Freq.Attr
import Verif.Freq.Tables
import Verif.Freq.Wigner
import Verif.Freq.WignerNear
import Verif.Freq.TrigNear
import Verif.Freq.Rotation
import Verif.Freq.Cartesian
import Verif.Freq.Tensors
import Verif.Freq.Spin
import Verif.Freq.Second
import Verif.Freq.System
import Verif.Freq.Near
import Verif.Freq.View
import Verif.Freq.Spinning
import Verif.Freq.Sidebands
import Verif.Bin.Mirror
import Verif.Freq.Octants
import Verif.Freq.Inversion
import Verif.Freq.Aligned
import Verif.Freq.Pole
import Verif.Freq.Channel
import Verif.Signal.Json
import Verif.Util.FitStep
import Verif.Trans.Correlation
import Verif.Util.Residual
import Verif.Meth.Saved
import Verif.Bin.Powder
import Verif.Bin.Sphere
import Verif.Freq.Lineshape
import Verif.Bin.Sharp
import Verif.Freq.SharpLine
import Verif.Freq.PowderPattern
import Verif.Freq.Core
import Verif.Bin.Ridge
import Verif.Freq.Isotropic
import Verif.Meth.Plain
import Verif.Signal.Shear
import Verif.Dist.Grid
import Verif.Util.Table
import Verif.Run.Select
import Verif.Freq.OnePulse
import Verif.Freq.OnePulseSpin
import Verif.Freq.SidebandSep
import Verif.Freq.Satellite
import Verif.Signal.Equal
import Verif.Bin.Near2D
import Verif.Freq.NearMagic
import Verif.Freq.CoreNear
import Verif.Freq.RunMap
import Verif.Freq.SphereTurn
import Verif.Freq.Tilted
import Verif.Freq.Turned
import Verif.Freq.Exact
import Verif.Freq.Laws
import Verif.Freq.Signs
import Verif.Freq.Order
import Verif.Freq.Parts
import Verif.Bin.Project
import Verif.Freq.Project
import Verif.Run.Image
import Verif.Freq.Units
import Verif.Freq.SignsAll
import Verif.Freq.Liquid
import Verif.Run.Cone
import Verif.Freq.Positive
import Verif.Run.Weights
import Verif.Meth.Equal
import Verif.Trans.Layout
import Verif.Meth.SSB
import Verif.Freq.Gravity
import Verif.Sim.Memory
import Verif.Freq.Moments
import Verif.Freq.Folding
import Verif.Freq.Slow
import Verif.Freq.GravitySpin
import Verif.Meth.Ppm
import Verif.Freq.PpmPowder
import Verif.Freq.SourceSpin
import Verif.Freq.Decimals
import Verif.Freq.AnyTilt
import Verif.Freq.TiltedMaps
import Verif.Freq.SourcePowder
import Verif.Parse.Export
import Verif.Run.Given
import Verif.Signal.Broaden
import Verif.Dist.Random
import Verif.Parse.Shared
import Verif.Util.FitShared
import Verif.Freq.SourceSpinRun
import Verif.Meth.EqualSim
import Verif.Bin.Positive2D
import Verif.Freq.PositiveMap
import Verif.Bin.Bounded
import Verif.Freq.Bounded
import Verif.Bin.Bounded2D
import Verif.Freq.BoundedMap
import Verif.Freq.BoundedEach
