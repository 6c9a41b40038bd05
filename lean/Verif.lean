import Verif.Base.Res
import Verif.Model.Misc
import Verif.Model.Ieee
import Verif.Props.Ieee
import Verif.Props.Misc
import Verif.Model.RawVec
import Verif.Props.RawVec
import Verif.Base.Upd
import Verif.Model.RawMat
import Verif.Props.RawMat
import Verif.Props.Mat
import Verif.Base.Fn
import Verif.Model.LE
import Verif.Props.LE
import Verif.Props.LU
import Verif.Props.Tridiag
import Verif.Props.Det
import Verif.Props.Sweep
import Verif.Model.Pex
import Verif.Props.Pex
import Verif.Model.FFT
import Verif.Props.FFT
import Verif.Model.IP
import Verif.Props.IPSeg
import Verif.Props.IPSpline
import Verif.Props.IPHermite
import Verif.Props.IPLagrange
import Verif.Props.IPMisc
import Verif.Model.NURBS
import Verif.Props.NURBS
import Verif.Props.NURBSCurve
import Verif.Model.Container
import Verif.Props.Container
import Verif.Model.Stat
import Verif.Props.Stat
import Verif.Model.Graph
import Verif.Props.Graph
import Verif.Model.Parse
import Verif.Props.Parse
import Verif.Model.OneD
import Verif.Props.OneD
import Verif.Model.ODE
import Verif.Props.ODE
import Verif.Props.ODERK
import Verif.Props.ODEMore
import Verif.Props.Adams
import Verif.Model.Complex
import Verif.Props.Complex
import Verif.Model.LP
import Verif.Props.LP
import Verif.Model.LCP
import Verif.Props.LCP
import Verif.Model.RRT
import Verif.Props.RRT
import Verif.Model.GA
import Verif.Props.GA
import Verif.Model.PSO
import Verif.Props.PSO
import Verif.Model.NM
import Verif.Props.NM
import Verif.Model.Rand
import Verif.Props.Rand
import Verif.Model.RANSAC
import Verif.Props.RANSAC
import Verif.Model.GNG
import Verif.Props.GNG
import Verif.Model.Cluster
import Verif.Props.Cluster
import Verif.Model.LEGen
import Verif.Props.LEGen
import Verif.Props.LQ
import Verif.Props.MP
import Verif.Model.Eig
import Verif.Props.Eig
import Verif.Props.SVD
import Verif.Props.Hess
import Verif.Model.LEMore
import Verif.Props.Chol
import Verif.Props.LEIter
import Verif.Props.Lyap
import Verif.Props.Spec
import Verif.Props.Hotelling
import Verif.Props.MPInv
import Verif.Props.Penrose
import Verif.Props.MPSVD
import Verif.Model.Mva
import Verif.Props.Mva
import Verif.Model.SF
import Verif.Props.SF
import Verif.Props.Fresnel
import Verif.Props.Gamma
import Verif.Props.Series
import Verif.Model.PexEq
import Verif.Props.PexEq
import Verif.Props.DKA
import Verif.Model.OptDM
import Verif.Props.OptDM
import Verif.Props.OptDMMore
import Verif.Model.NLE
import Verif.Props.NLE
import Verif.Model.Direct
import Verif.Props.Direct
import Verif.Model.QPASM
import Verif.Props.CholMore
import Verif.Props.LPMore
import Verif.Props.QPASM
import Verif.Model.PDIP
import Verif.Props.PDIP
import Verif.Model.LCPIP
import Verif.Props.LCPIP
import Verif.Model.CMat
import Verif.Props.CMat
import Verif.Model.MegiddoDyer
import Verif.Props.MegiddoDyer
import Verif.Props.MegiddoDyerMore
import Verif.Model.GMM
import Verif.Props.GMMMath
import Verif.Props.GMM
import Verif.Props.GMMMore
import Verif.Model.BesselTab
import Verif.Model.Bessel
import Verif.Props.Bessel
import Verif.Props.BesselAcc
import Verif.Props.BesselJ
import Verif.Props.BesselI
import Verif.Props.BesselMiller
import Verif.Model.MatMore
import Verif.Props.MatMore
import Verif.Model.Distrib
import Verif.Props.Distrib
import Verif.Props.FresnelCF
import Verif.Model.IPSec
import Verif.Props.IPSec
import Verif.Model.CVec
import Verif.Props.CVec
import Verif.Model.EigBisec
import Verif.Props.EigBisec
import Verif.Model.SingVal
import Verif.Props.SingVal
import Verif.Props.Power
import Verif.Model.EigVec
import Verif.Props.EigVec
import Verif.Model.Text
import Verif.Props.Text
import Verif.Model.DataMore
import Verif.Props.DataMore
import Verif.Model.ClusterLS
import Verif.Props.ClusterLS
import Verif.Model.ClusterMethod
import Verif.Props.ClusterMethod
import Verif.Model.MatQuad
import Verif.Props.MatQuad
import Verif.Model.VecList
import Verif.Props.VecList
import Verif.Model.ParseText
import Verif.Props.ParseText
import Verif.Model.ClusterMore
import Verif.Props.ClusterMore
import Verif.Model.Life
import Verif.Props.Life
import Verif.Model.Work
import Verif.Props.Work
import Verif.Model.Phase
import Verif.Props.Phase
import Verif.Props.Rand2
import Verif.Model.LEMPLU
import Verif.Props.LEMPLU
import Verif.Model.RawMore
import Verif.Props.RawMore
import Verif.Model.ParseMem
import Verif.Props.ParseMem
import Verif.Props.SmoothStep
import Verif.Props.Gaps
import Verif.Model.PexCExp
import Verif.Props.PexCExp
import Verif.Model.ClusterMem
import Verif.Props.ClusterMem
import Verif.Model.TreeMem
import Verif.Props.TreeMem
import Verif.Model.GraphMem
import Verif.Props.GraphMem
import Verif.Model.RRTMem
import Verif.Props.RRTMem
import Verif.Model.DirectMem
import Verif.Props.DirectMem
import Verif.Model.GMMMem
import Verif.Props.GMMMem
import Verif.Model.MDMem
import Verif.Props.MDMem
import Verif.Model.Links
import Verif.Props.Links
import Verif.Model.SeqMem
import Verif.Props.SeqMem
import Verif.Model.Obj
import Verif.Props.Obj
import Verif.Model.ODEUser
import Verif.Props.ODEUser
import Verif.Model.NURBSNN
import Verif.Props.NURBSNN
import Verif.Model.MDFile
import Verif.Props.MDFile
import Verif.Model.ObjArith
import Verif.Props.ObjArith
import Verif.Model.ObjMul
import Verif.Props.ObjMul
import Verif.Model.ObjDRC
import Verif.Props.ObjDRC
import Verif.Model.ObjPart
import Verif.Props.ObjPart
import Verif.Model.Img
import Verif.Props.Img
import Verif.Model.ObjMisc
import Verif.Props.ObjMisc
import Verif.Model.MeanVar
import Verif.Props.MeanVar
import Verif.Props.NMAffine
import Verif.Model.Silh
import Verif.Props.Silh
import Verif.Model.SplinePrm
import Verif.Props.SplinePrm
import Verif.Model.ODESym
import Verif.Props.ODESym
