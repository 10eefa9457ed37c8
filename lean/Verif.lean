import Verif.Model.Exchange
import Verif.Spec
import Verif.Examples
import Verif.Lemmas.Ledger
import Verif.Props.Ledger
import Verif.Lemmas.Trace
import Verif.Props.Orders
import Verif.Lemmas.Fill
import Verif.Props.Matching
import Verif.Lemmas.Margin
import Verif.Lemmas.MarginStep
import Verif.Lemmas.Line
import Verif.Props.Margin
import Verif.Lemmas.Config
import Verif.Props.Config
import Verif.Lemmas.Risk
import Verif.Props.Risk
import Verif.Lemmas.Prices
import Verif.Props.Prices
import Verif.Lemmas.Tracker
import Verif.Props.Tracker
import Verif.Lemmas.Build
import Verif.Props.Build
import Verif.Lemmas.Safety
import Verif.Props.Safety
import Verif.Model.Loader
import Verif.Lemmas.Loader
import Verif.Props.Loader
import Verif.Lemmas.Validate
import Verif.Props.Validate
import Verif.Lemmas.Calls
import Verif.Props.Calls
import Verif.Reference
import Verif.Lemmas.Reference
import Verif.Props.Reference
import Verif.Conformance
import Verif.Lemmas.NoPanic
import Verif.Props.NoPanic
import Verif.Lemmas.Panics
import Verif.Props.Panics
import Verif.Lemmas.Desync
import Verif.Props.Desync
import Verif.Lemmas.Dust
import Verif.Props.Dust
import Verif.Lemmas.Rounding
import Verif.Props.Rounding
import Verif.Lemmas.Cash
import Verif.Lemmas.Roundtrip
import Verif.Props.Cash
import Verif.Props.Roundtrip
import Verif.Lemmas.Ratios
import Verif.Props.Ratios
import Verif.Model.Moments
import Verif.Lemmas.Moments
import Verif.Props.Moments
import Verif.Relabel
import Verif.Lemmas.Relabel
import Verif.Props.Relabel
import Verif.Props.Start
import Verif.Lemmas.Leverage
import Verif.Props.Leverage
import Verif.Model.Performance
import Verif.SpecReal
import Verif.Lemmas.Performance
import Verif.Props.Performance
import Verif.Lemmas.Solvency
import Verif.Props.Solvency
import Verif.Model.Machine
import Verif.Lemmas.Machine
import Verif.Lemmas.Bound
import Verif.Lemmas.NoOverflow
import Verif.Lemmas.Exposure
import Verif.Lemmas.ExposureStep
import Verif.Lemmas.NoOverflowStep
import Verif.Lemmas.Rounds
import Verif.Lemmas.InRange
import Verif.Props.Overflow
import Verif.Model.Float
import Verif.SpecFloat
import Verif.Lemmas.Float
import Verif.Lemmas.Quantize
import Verif.Props.Float
import Verif.Props.Quantize
import Verif.Lemmas.Solo
import Verif.Props.Solo
import Verif.Model.Clone
import Verif.Lemmas.Clone
import Verif.Props.Clone
import Verif.Model.Clock
import Verif.Props.Clock
import Verif.Lemmas.Duo
import Verif.Lemmas.DuoStep
import Verif.Props.Bracket
import Verif.Model.DRatio
import Verif.Props.DRatio
import Verif.Props.Custom
import Verif.Returns
import Verif.Lemmas.Returns
import Verif.Lemmas.ReturnsLoop
import Verif.Props.Returns
import Verif.Model.Drawdown
import Verif.SpecDrawdown
import Verif.Props.Drawdown
import Verif.Props.Optimism
import Verif.Model.Single
import Verif.SpecSingle
import Verif.Lemmas.Single
import Verif.Props.Single
import Verif.SpecBatch
import Verif.Props.Batch
import Verif.SpecTerms
import Verif.Lemmas.Terms
import Verif.Props.Terms
import Verif.Model.Amount
import Verif.Props.Amounts
import Verif.SpecSolvent
import Verif.Props.Solvent
import Verif.Props.WindDown
import Verif.Lemmas.Split
import Verif.Props.Split
import Verif.SpecAudit
import Verif.Props.Audit
import Verif.SpecClean
import Verif.Lemmas.Clean
import Verif.Props.Clean
import Verif.SpecTraded
import Verif.Lemmas.Traded
import Verif.Props.Traded
import Verif.Model.MachineTracker
import Verif.Lemmas.MachineTracker
import Verif.Props.MachineTracker
import Verif.Model.Release
import Verif.SpecRelease
import Verif.Lemmas.Release
import Verif.Lemmas.ReleaseLimits
import Verif.Lemmas.ReleaseDebug
import Verif.Lemmas.ReleaseRoom
import Verif.Props.Release
import Verif.SpecWait
import Verif.Lemmas.Wait
import Verif.Props.Wait
import Verif.Model.MomentsF64
import Verif.SpecMoments
import Verif.Lemmas.MomentsF64
import Verif.Lemmas.VarianceF64
import Verif.Lemmas.SqrtF64
import Verif.Lemmas.LawsF64
import Verif.Props.MomentsF64
import Verif.SpecTime
import Verif.Lemmas.Time
import Verif.Props.Time
import Verif.Model.Sample32
import Verif.SpecSample
import Verif.Lemmas.Sample32
import Verif.Props.Sample32
import Verif.Lemmas.RelativeF64
import Verif.Lemmas.ShapeF64
import Verif.Props.ShapeF64
import Verif.Model.Bookkeeping
import Verif.SpecBookkeeping
import Verif.Lemmas.Bookkeeping
import Verif.Lemmas.BookkeepingMemory
import Verif.Lemmas.BookkeepingKeeps
import Verif.Props.Bookkeeping
import Verif.SpecPriority
import Verif.Props.Priority
import Verif.SpecDecimals
import Verif.Props.Decimals
import Verif.SpecReasons
import Verif.Lemmas.Reasons
import Verif.Props.Reasons
import Verif.SpecParts
import Verif.Props.Parts
import Verif.SpecUnits
import Verif.Props.Units
import Verif.SpecTrips
import Verif.Props.Trips
import Verif.Model.Report
import Verif.SpecReport
import Verif.Props.Report
import Verif.SpecThin
import Verif.Lemmas.Thin
import Verif.Props.Thin
import Verif.Props.Costs
import Verif.SpecAmount
import Verif.Props.Arithmetic
import Verif.SpecRestart
import Verif.Lemmas.Restart
import Verif.Props.Restart
import Verif.Model.Stats32
import Verif.SpecStats
import Verif.Lemmas.Stats32
import Verif.Props.Stats32
import Verif.Props.Amend
import Verif.Model.Drawdown32
import Verif.SpecDrawdown32
import Verif.Lemmas.Drawdown32
import Verif.Props.Drawdown32
import Verif.Props.OwnMoney
import Verif.Props.Margined
import Verif.Model.DRatioF64
import Verif.SpecDRatio
import Verif.Lemmas.DRatioF64
import Verif.Props.DRatioF64
import Verif.SpecGap
import Verif.Lemmas.Gap
import Verif.Props.Gap
import Verif.SpecCut
import Verif.Props.Cut
import Verif.SpecKeen
import Verif.Props.Keen
import Verif.SpecMoves
import Verif.Props.Moves
import Verif.SpecAverage
import Verif.Props.Average
import Verif.SpecFavour
import Verif.Props.Favour
import Verif.SpecAgain
import Verif.Props.Again
import Verif.SpecPath
import Verif.Props.Path
import Verif.SpecQueue
import Verif.Props.Queue
import Verif.Props.Slippage
import Verif.SpecMarket
import Verif.Lemmas.TwoSided
import Verif.Props.TwoSided
import Verif.SpecOpposed
import Verif.Props.Opposed
import Verif.Model.Example
import Verif.SpecExample
import Verif.Props.Example
import Verif.SpecBetter
import Verif.Props.Better
import Verif.SpecLever
import Verif.Props.Lever
import Verif.SpecFlow
import Verif.Props.Flow
import Verif.SpecBlind
import Verif.Props.Blind
import Verif.Props.BlindPerformance
import Verif.SpecUndated
import Verif.Lemmas.Undated
import Verif.Props.Undated
import Verif.SpecDual
import Verif.Lemmas.Dual
import Verif.Props.Dual
import Verif.Props.Worth
import Verif.SpecLife
import Verif.Props.Life
import Verif.SpecLots
import Verif.Props.Lots
import Verif.SpecAlone
import Verif.Props.Alone
import Verif.SpecLives
import Verif.Props.LifeSum
import Verif.SpecHold
import Verif.Props.Hold
import Verif.SpecBystander
import Verif.Props.Bystander
import Verif.SpecAsleep
import Verif.Props.Asleep
import Verif.SpecClientId
import Verif.Props.ClientId
import Verif.SpecFair
import Verif.Props.Fair
import Verif.SpecSlip
import Verif.Props.Slip
import Verif.SpecFlatter
import Verif.Props.Flatter
import Verif.SpecReplay
import Verif.Props.Replay
import Verif.SpecFairInverse
import Verif.Props.FairInverse
import Verif.SpecRich
import Verif.Props.Rich
