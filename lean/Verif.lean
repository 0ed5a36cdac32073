import Verif.Props.IexParams
import Verif.Props.IexInternal
import Verif.Props.IexIons
import Verif.Props.Colloc
import Verif.Props.Advect
import Verif.Props.Equil
import Verif.Props.Interp
import Verif.Props.IexColumn
import Verif.Props.IexJac
import Verif.Props.IexBatch
import Verif.Props.IexBead
import Verif.Props.Uncertainty
import Verif.Props.Fouling
import Verif.Props.GacColumn
import Verif.Props.GacJac
import Verif.Props.GacPhys
import Verif.Props.GacInfluent
import Verif.Props.GacState
import Verif.Props.GacFit
import Verif.Props.GacRunAll
import Verif.Props.GacUncert
import Verif.Props.Tools
import Verif.Props.Extra
import Verif.Props.Ecm
import Verif.Props.LeadLag
import Verif.Props.Pac
import Verif.Props.PacSol
import Verif.Props.PacStudy
import Verif.Props.GacInput
import Verif.Props.Corr
import Verif.Props.PacBead
import Verif.Props.GacCapacity
import Verif.Props.DsFit
import Verif.Props.FindMin
import Verif.Props.IsoFit
import Verif.Props.IexRestart
import Verif.Props.RIex
import Verif.Props.RWeb
import Verif.Props.RIexWeb
import Verif.Props.ShinyGac
import Verif.Props.RColloc
import Verif.Props.Balance
import Verif.Props.PacHsdm
import Verif.Props.RPac
import Verif.Props.RGac
import Verif.Props.RIexApp
import Verif.Props.GacGrid
import Verif.Props.LeadLagInit
import Verif.Props.Analyze
import Verif.Props.FullScale
import Verif.Props.GacForce
import Verif.Props.IexFiles
import Verif.Props.Stationary
import Verif.Props.IexUnique
import Verif.Props.Undershoot
import Verif.Props.GacUnique
import Verif.Props.PacLimit
import Verif.Props.GacLine
import Verif.Props.CarbonUndershoot
import Verif.Props.GacRun
import Verif.Props.FirstEffluent
import Verif.Props.IexChecks
import Verif.Props.IexScale
import Verif.Props.GacScale
import Verif.Props.BatchLimit
import Verif.Props.EcmRoot
import Verif.Props.EcmZones
import Verif.Props.Reference
import Verif.Props.EcmFit
import Verif.Props.GacSearch
import Verif.Props.GacRelative
import Verif.Props.GacReference
import Verif.Props.IexOrder
import Verif.Props.IexTimes
import Verif.Props.IexSplit
import Verif.Props.PacDose
import Verif.Props.BatchDose
import Verif.Props.IexBlend
import Verif.Props.BatchFall
import Verif.Props.PacFall
import Verif.Props.Ahead
import Verif.Props.Slowing
import Verif.Props.PacRead
import Verif.Props.ColumnLimit
import Verif.Props.WaterLimit
import Verif.Props.GacLimit
import Verif.Props.BinaryLimit
import Verif.Props.GacMixture
import Verif.Props.RServer
import Verif.Props.IonLimit
import Verif.Props.IonMobility
import Verif.Props.RGraph
import Verif.Props.ColumnInput
import Verif.Props.ColumnRamp
import Verif.Props.ColumnCycle
import Verif.Props.RField
import Verif.Props.GacWaver
import Verif.Props.MixWaver
import Verif.Props.IonWaver
import Verif.Props.MixCycle
import Verif.Props.IonCycle
import Verif.Props.LongMean
import Verif.Props.MixFollow
import Verif.Props.IonFollow
import Verif.Props.Square
import Verif.Props.LeadSteady
import Verif.Props.LeadSampled
import Verif.Props.Cases
import Verif.Props.CarbonSquare
import Verif.Props.PoreModel
import Verif.Props.MoreCases
import Verif.Props.GacFactor
import Verif.Props.NoPresat
import Verif.Props.GacIdentify
