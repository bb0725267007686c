import Verif.Lemmas.Domain
import Verif.Lemmas.FieldSwap
import Verif.Lemmas.FwdAD
import Verif.Lemmas.JetSwap
import Verif.Lemmas.Measure
import Verif.Lemmas.NestedAD
import Verif.Lemmas.NestedCalls
import Verif.Lemmas.NestedShapes
import Verif.Lemmas.NestedSys
import Verif.Lemmas.Normal
import Verif.Lemmas.Quadrature
import Verif.Lemmas.QuatAD
import Verif.Lemmas.Quaternions
import Verif.Lemmas.RSystems
import Verif.Lemmas.RevAD
import Verif.Lemmas.SolveAD
import Verif.Lemmas.Steihaug
import Verif.Lemmas.TR
import Verif.Model.BC
import Verif.Model.Batch
import Verif.Model.BcAD
import Verif.Model.Calc
import Verif.Model.CalcExtra
import Verif.Model.CalcShapes
import Verif.Model.Crossing
import Verif.Model.Domain
import Verif.Model.ElmAD
import Verif.Model.FloatDisk
import Verif.Model.FloatOde
import Verif.Model.FloatOps
import Verif.Model.FloatQuad
import Verif.Model.FloatQuat
import Verif.Model.FloatSphere
import Verif.Model.FloatSpline
import Verif.Model.FloatTR
import Verif.Model.FwdAD
import Verif.Model.HysteresisRun
import Verif.Model.Integrate
import Verif.Model.Mumag3
import Verif.Model.MumagAD
import Verif.Model.NestedAD
import Verif.Model.Network
import Verif.Model.NodeX
import Verif.Model.Notebooks
import Verif.Model.Objects
import Verif.Model.Ode
import Verif.Model.Opt
import Verif.Model.QuatAD
import Verif.Model.QuatTypes
import Verif.Model.Quaternions
import Verif.Model.RFun
import Verif.Model.RShapes
import Verif.Model.RevAD
import Verif.Model.Sampling
import Verif.Model.Schedule
import Verif.Model.Spline
import Verif.Model.SplineAD
import Verif.Model.Surface
import Verif.Model.TR
import Verif.Model.TRRun
import Verif.Model.TrainAD
import Verif.Model.TrainLoop
import Verif.Model.TrainStep
import Verif.Model.Training
import Verif.Model.Utils
import Verif.Num.Alg
import Verif.Num.Fl
import Verif.Num.XR
import Verif.Props.AxisAngle
import Verif.Props.BC
import Verif.Props.Batch
import Verif.Props.BatchMean
import Verif.Props.BcAD
import Verif.Props.Box
import Verif.Props.BoxConv
import Verif.Props.BoxNormal
import Verif.Props.Calc
import Verif.Props.CalcExtra
import Verif.Props.CalcShapes
import Verif.Props.Crossing
import Verif.Props.CrossingNotebook
import Verif.Props.Cuboid
import Verif.Props.DiskConv
import Verif.Props.ElmPoisson
import Verif.Props.Energies
import Verif.Props.Exact
import Verif.Props.Exact2
import Verif.Props.FloatBox
import Verif.Props.FloatCsg
import Verif.Props.FloatDisk
import Verif.Props.FloatDomain
import Verif.Props.FloatOde
import Verif.Props.FloatQuad
import Verif.Props.FloatQuat
import Verif.Props.FloatR
import Verif.Props.FloatSolid
import Verif.Props.FloatSphere
import Verif.Props.FloatSpline
import Verif.Props.FloatTR
import Verif.Props.FwdAD
import Verif.Props.GradConv
import Verif.Props.HalfOptimal
import Verif.Props.Harmonic
import Verif.Props.HysteresisRun
import Verif.Props.Includes
import Verif.Props.Integrate
import Verif.Props.Isometry
import Verif.Props.JointSampling
import Verif.Props.Krylov
import Verif.Props.LossGradient
import Verif.Props.LossObjective
import Verif.Props.LossWitness
import Verif.Props.MLP
import Verif.Props.Magnetisation
import Verif.Props.Mumag3
import Verif.Props.MumagAD
import Verif.Props.MumagBox
import Verif.Props.MumagField
import Verif.Props.MumagPot2
import Verif.Props.MumagPotential
import Verif.Props.MumagStray
import Verif.Props.NanGradient
import Verif.Props.NanTraining
import Verif.Props.NestedAD
import Verif.Props.Network
import Verif.Props.Newton
import Verif.Props.Nodes
import Verif.Props.Objects
import Verif.Props.Ode
import Verif.Props.OdeConv
import Verif.Props.OdeRk4
import Verif.Props.OdeTime
import Verif.Props.Opt
import Verif.Props.Order
import Verif.Props.Pacman
import Verif.Props.Polygon
import Verif.Props.QuadConv
import Verif.Props.QuadError
import Verif.Props.Quadrature
import Verif.Props.QuatAD
import Verif.Props.QuatExp
import Verif.Props.QuatPow
import Verif.Props.QuatTypes
import Verif.Props.Quaternions
import Verif.Props.RShapes
import Verif.Props.RSmooth
import Verif.Props.RSystems
import Verif.Props.RevAD
import Verif.Props.RotationGroup
import Verif.Props.Round
import Verif.Props.Sampling
import Verif.Props.Schedule
import Verif.Props.Shapes
import Verif.Props.Spline
import Verif.Props.SplineAD
import Verif.Props.SplineApprox
import Verif.Props.SplineIndep
import Verif.Props.SplineSmooth
import Verif.Props.Stack
import Verif.Props.Steihaug
import Verif.Props.StrayConv
import Verif.Props.SurfConv
import Verif.Props.Surface
import Verif.Props.TR
import Verif.Props.TRConv
import Verif.Props.TRInexact
import Verif.Props.TRLinear
import Verif.Props.TRLocal
import Verif.Props.TRRun
import Verif.Props.TrainAD
import Verif.Props.TrainLoop
import Verif.Props.Training
import Verif.Props.Transforms
import Verif.Props.Uniform
import Verif.Props.UniformBnd
import Verif.Props.UniformLine
import Verif.Props.Utils
import Verif.Spec.Box
import Verif.Spec.FwdAD
import Verif.Spec.Geometry
import Verif.Spec.NestedAD
import Verif.Spec.Quadrature
import Verif.Spec.QuatAD
import Verif.Spec.Region
import Verif.Spec.RevAD
import Verif.Spec.Rotation
import Verif.Spec.Solid
import Verif.Spec.Surface
import Verif.Spec.TR

/-! Root of the formal model of MagPI: imports every module. -/
