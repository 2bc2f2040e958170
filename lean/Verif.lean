import Verif.Base
import Verif.Behavior
import Verif.CasesPlan
import Verif.CasesRun
import Verif.Catalog
import Verif.ChangeLemmas
import Verif.Descriptors
import Verif.DescriptorsLemmas
import Verif.ExtractLemmas
import Verif.ExtractSpec
import Verif.Faults
import Verif.FaultsLemmas
import Verif.FaultsReads
import Verif.FaultsSpec
import Verif.InterruptLemmas
import Verif.LegacyArchive
import Verif.LegacyArchiveFile
import Verif.LegacyArchiveRead
import Verif.LegacyArchiveRun
import Verif.LegacyArchiveWrites
import Verif.LegacyBcast
import Verif.LegacyCatalog
import Verif.LegacyChange
import Verif.LegacyDir100
import Verif.LegacyFaults
import Verif.LegacyFree
import Verif.LegacyFreeLemmas
import Verif.LegacyLayoutAny
import Verif.LegacyList
import Verif.LegacyListing
import Verif.LegacyMove
import Verif.LegacyMoveLayout
import Verif.LegacyMoveLemmas
import Verif.LegacyMoveRun
import Verif.LegacyOverrun
import Verif.LegacyPadding
import Verif.LegacyPrefix
import Verif.LegacyProgram
import Verif.LegacyProgramCreate
import Verif.LegacyProgramLemmas
import Verif.LegacyProgramSpec
import Verif.LegacyRunLemmas
import Verif.LegacyRunSpec
import Verif.LegacyRunTotal
import Verif.LegacyScan
import Verif.LegacyScanLemmas
import Verif.LegacyScanSpec
import Verif.LegacySplit
import Verif.LegacySplitLemmas
import Verif.LegacySplitSpec
import Verif.LegacyThree
import Verif.ListingSpec
import Verif.Main
import Verif.MainSpec
import Verif.ManyLemmas
import Verif.ManyRuns
import Verif.March
import Verif.MarchLemmas
import Verif.Move
import Verif.MoveArchive
import Verif.MoveLemmas
import Verif.MoveObjects
import Verif.MoveRun
import Verif.MoveSpec
import Verif.Num
import Verif.Objects
import Verif.OpenFiles
import Verif.Plan
import Verif.PlanBundles
import Verif.PlanLemmas
import Verif.PlanSpec
import Verif.PropsAgain
import Verif.PropsBehavior
import Verif.PropsBench
import Verif.PropsBoth
import Verif.PropsCatalog
import Verif.PropsChange
import Verif.PropsComplete
import Verif.PropsCut
import Verif.PropsDescriptors
import Verif.PropsExit
import Verif.PropsExtract
import Verif.PropsFaults
import Verif.PropsFits
import Verif.PropsHole
import Verif.PropsHoleExact
import Verif.PropsInterrupt
import Verif.PropsLegacyAgain
import Verif.PropsLegacyBcast
import Verif.PropsLegacyBytes
import Verif.PropsLegacyCatalog
import Verif.PropsLegacyChange
import Verif.PropsLegacyCheck
import Verif.PropsLegacyCrash
import Verif.PropsLegacyCrashDemo
import Verif.PropsLegacyDemo
import Verif.PropsLegacyDir100
import Verif.PropsLegacyEnds
import Verif.PropsLegacyExact
import Verif.PropsLegacyFaults
import Verif.PropsLegacyFormat
import Verif.PropsLegacyFree
import Verif.PropsLegacyGap
import Verif.PropsLegacyHang
import Verif.PropsLegacyHole
import Verif.PropsLegacyLayout
import Verif.PropsLegacyList
import Verif.PropsLegacyLongLink
import Verif.PropsLegacyMixed
import Verif.PropsLegacyOld
import Verif.PropsLegacyOrder
import Verif.PropsLegacyOverrun
import Verif.PropsLegacyPlaces
import Verif.PropsLegacyProgram
import Verif.PropsLegacyRoom
import Verif.PropsLegacyRun
import Verif.PropsLegacyScan
import Verif.PropsLegacyShape
import Verif.PropsLegacySplit
import Verif.PropsLegacyStrict
import Verif.PropsLegacyWritten
import Verif.PropsListing
import Verif.PropsMain
import Verif.PropsMany
import Verif.PropsMarch
import Verif.PropsMarchExact
import Verif.PropsMisnamed
import Verif.PropsMove
import Verif.PropsObjects
import Verif.PropsOpenFiles
import Verif.PropsOutcome
import Verif.PropsPadding
import Verif.PropsPart
import Verif.PropsPlaces
import Verif.PropsPlan
import Verif.PropsProtocol
import Verif.PropsReads
import Verif.PropsRepeat
import Verif.PropsRun
import Verif.PropsScan
import Verif.PropsScanExact
import Verif.PropsSerialize
import Verif.PropsShort
import Verif.PropsShrink
import Verif.PropsSilent
import Verif.PropsSlow
import Verif.PropsTar
import Verif.PropsTarExact
import Verif.PropsTarRefuse
import Verif.PropsText
import Verif.PropsWire
import Verif.PropsWireRun
import Verif.Protocol
import Verif.ProtocolBoss
import Verif.ProtocolInv
import Verif.ProtocolSpec
import Verif.ProtocolStep
import Verif.Scan
import Verif.ScanLemmas
import Verif.ScanPrune
import Verif.ScanSpec
import Verif.Serialize
import Verif.Tar
import Verif.TarLemmas
import Verif.TarRead
import Verif.TarRecover
import Verif.TarRoom
import Verif.TarSpec
import Verif.Wire
import Verif.WireLemmas
import Verif.WireProgress
import Verif.WireSpec
import Verif.WriteBench
