import Verif.Props.Scatter
import Verif.Props.DFTComm
import Verif.Props.Comm
import Verif.Props.GSpace
import Verif.Props.Lattice
import Verif.Props.LatArr
import Verif.Props.FFT
import Verif.Props.Dist
import Verif.Props.Containers
import Verif.Props.KPts
import Verif.Props.Crystal
import Verif.Props.SymmGroup
import Verif.Props.Pot
import Verif.Props.PotGrad
import Verif.Props.PotXC
import Verif.Props.Occup
import Verif.Props.Mixing
import Verif.Props.SCF
import Verif.Props.Davidson
import Verif.Props.DavidsonPar
import Verif.Props.Logger
import Verif.Props.Config
import Verif.Props.Nonloc
import Verif.Props.Loc
import Verif.Props.TDDFT
import Verif.Props.Ewald
import Verif.Props.QECell
import Verif.Props.QEInp
import Verif.Props.QEParse
import Verif.Props.GWMel
import Verif.Props.GWChi
import Verif.Props.GWEps
import Verif.Props.GWFix
import Verif.Props.Sigma
import Verif.Props.SigmaStatic
import Verif.Props.SigmaMaps
import Verif.Props.SigmaGPP
import Verif.Props.SigmaExact
import Verif.Props.BGWMat
import Verif.Props.H5
import Verif.Props.SigmaHP
import Verif.Props.BGWInp
import Verif.Props.KSWfn
import Verif.Props.UPF
import Verif.Props.CheckArgs
import Verif.Props.Wavefun
import Verif.Props.RhoFile
import Verif.Props.EigPrec
import Verif.Props.Delta
import Verif.Props.EosFit
import Verif.Props.VcoulShift
import Verif.Props.VcoulMC
import Verif.Props.VcoulFold
import Verif.Props.ScfArgs
import Verif.Props.Fmt
import Verif.Props.Printer
import Verif.Props.VxcOut
import Verif.Props.LogFile
import Verif.Props.PwCli
import Verif.Props.Atoms
import Verif.Props.GArr
import Verif.Props.KLists
import Verif.Props.DistBuf
import Verif.Props.GkCoords
import Verif.Props.Trans
import Verif.Props.SymmMix
import Verif.Props.TransPot
import Verif.Props.TransScf
import Verif.Props.Gauge
import Verif.Props.Rot
import Verif.Props.Sampling
import Verif.Props.RotPot
import Verif.Props.TDNorm
import Verif.Props.RotScf
import Verif.Props.EpsFile
import Verif.Props.LatNorm
import Verif.Props.Mesh
import Verif.Props.TDAcc
import Verif.Props.KSEnergy
import Verif.Props.PotCurve
import Verif.Props.KSVar
import Verif.Props.PotCore
import Verif.Props.GWGauge
import Verif.Props.Super
import Verif.Props.VNbhd
import Verif.Props.SuperEn
import Verif.Props.Wedge
import Verif.Props.PotDist
import Verif.Props.MixDist
import Verif.Props.HamDist
import Verif.Props.RandInit
import Verif.Props.ScfDist
import Verif.Props.ScfGrp
import Verif.Props.SpinScf
import Verif.Props.KMap
import Verif.Props.Coll
import Verif.Props.GwRun
import Verif.Props.TimerReport
import Verif.Props.Ufunc
import Verif.Props.SymKept
import Verif.Props.WedgeScf
import Verif.Props.SigmaVec
import Verif.Props.TimeRev
import Verif.Props.GWTrans
import Verif.Props.VcoulTab
import Verif.Props.GWOrder
import Verif.Props.EZero
import Verif.Props.GWRev
import Verif.Props.MixErr
import Verif.Props.TDProp
import Verif.Props.TDMoved
import Verif.Props.TDConj
import Verif.Props.TDBack
