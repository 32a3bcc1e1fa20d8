import Verif.Props.Cache
import Verif.Props.TransformCache
import Verif.Props.Stochastic
import Verif.Props.Sample
import Verif.Props.Params
import Verif.Props.Names
import Verif.Props.Transforms
import Verif.Props.Implicit
import Verif.Props.KernelList
import Verif.Props.KernelFun
import Verif.Props.PSD
import Verif.Props.Polynomial
import Verif.Props.Bandwidth
import Verif.Props.KernelMat
import Verif.Props.Nystrom
import Verif.Props.RandomFeatures
import Verif.Props.Time
import Verif.Props.Factory
import Verif.Props.Cast
import Verif.Props.Methods
import Verif.Props.Level
import Verif.Props.Variance
import Verif.Props.KPCA
import Verif.Props.LSSVM
import Verif.Props.Trainable
import Verif.Props.Data
import Verif.Props.Train
import Verif.Props.Monitor
import Verif.Props.Optimizer
import Verif.Props.Net
import Verif.Props.MultiView
import Verif.Props.ViewScale
import Verif.Props.Port
import Verif.Props.Stiefel
import Verif.Props.CacheLevels
import Verif.Props.Subloss
import Verif.Props.CacheKeys
import Verif.Props.PSDMore
import Verif.Props.Preimage
import Verif.Props.Settings
import Verif.Props.Eigs
import Verif.Props.Solve
import Verif.Props.PPCA
import Verif.Props.Refinements
import Verif.Props.Exact
import Verif.Props.LSSVMTrain
import Verif.Props.Recon
import Verif.Props.MVPredict
import Verif.Props.PSDStat
import Verif.Props.Stacked
import Verif.Props.HParams
import Verif.Props.Bias
import Verif.Props.NN
import Verif.Props.Deep
import Verif.Props.DeepGrad
import Verif.Props.RFLimit
import Verif.Props.Refit
import Verif.Props.Draw
import Verif.Props.Grassmann
import Verif.Props.Assign
import Verif.Props.Halves
import Verif.Props.Classes
import Verif.Props.ClassesOffered
import Verif.Props.NystromSel
import Verif.Props.Autograd
import Verif.Props.Errors
import Verif.Props.SampleGrad
import Verif.Props.Handles
import Verif.Props.Restore
import Verif.Props.Cases
import Verif.Props.Cases2
import Verif.Props.Cases3
import Verif.Props.Cases4
import Verif.Props.Cases5
import Verif.Props.Cases6
import Verif.Props.NaN
import Verif.Props.Parts
import Verif.Props.Announced
import Verif.Props.Order
import Verif.Props.Units
import Verif.Props.Regular
import Verif.Props.Repeat
import Verif.Props.Crash
import Verif.Props.Watch
import Verif.Props.Tuning
import Verif.Props.Rotate
import Verif.Props.LeaveOut
import Verif.Props.Nested
import Verif.Props.Geometry
import Verif.Props.PreimageFun
import Verif.Props.PPCALik
import Verif.Props.Growth
import Verif.Props.NysBound
import Verif.Props.Stability
import Verif.Props.Constant
import Verif.Props.Figures
import Verif.Props.Holder
import Verif.Props.Script
import Verif.Props.Retract
import Verif.Props.Generate
import Verif.Props.Report
import Verif.Props.PSDTable
import Verif.Props.PolyDegree
import Verif.Props.Strict
import Verif.Props.Describe
import Verif.Props.Influence
import Verif.Props.Apart
import Verif.Props.Messages
import Verif.Props.LSSVMDescent
import Verif.Props.Metrics
import Verif.Props.Groups
import Verif.Props.Momentum
import Verif.Props.PrintCache
import Verif.Props.Threads
import Verif.Props.Interrupt
import Verif.Props.Repro
import Verif.Props.RidgeBias
import Verif.Props.RidgeInf
import Verif.Props.Comps
import Verif.Props.BestPred
import Verif.Props.Selection
import Verif.Props.Identity
import Verif.Props.TrainerSet
import Verif.Props.RFRate
import Verif.Props.RFFit
import Verif.Props.Fair
import Verif.Props.Outputs
