import Verif.Lemmas.Access
import Verif.Lemmas.Aside
import Verif.Lemmas.AsideRun
import Verif.Lemmas.Backed
import Verif.Lemmas.Basic
import Verif.Lemmas.Between
import Verif.Lemmas.Builders
import Verif.Lemmas.Calendar
import Verif.Lemmas.Change
import Verif.Lemmas.ClaimOk
import Verif.Lemmas.Claims
import Verif.Lemmas.ClaimsRun
import Verif.Lemmas.Clients
import Verif.Lemmas.Codec
import Verif.Lemmas.Conserve
import Verif.Lemmas.Credit
import Verif.Lemmas.Credited
import Verif.Lemmas.Currency
import Verif.Lemmas.Decrease
import Verif.Lemmas.Delegate
import Verif.Lemmas.Demo
import Verif.Lemmas.DemoExec
import Verif.Lemmas.DemoHonest
import Verif.Lemmas.DemoIncentive
import Verif.Lemmas.DemoLedger
import Verif.Lemmas.DemoOrderly
import Verif.Lemmas.Deter
import Verif.Lemmas.Disguise
import Verif.Lemmas.Distribution
import Verif.Lemmas.Divide
import Verif.Lemmas.DivideTo
import Verif.Lemmas.Dividend
import Verif.Lemmas.Early
import Verif.Lemmas.Earned
import Verif.Lemmas.Earnings
import Verif.Lemmas.Effects
import Verif.Lemmas.Even
import Verif.Lemmas.Exact
import Verif.Lemmas.ExactExec
import Verif.Lemmas.Exit
import Verif.Lemmas.Extend
import Verif.Lemmas.Failure
import Verif.Lemmas.Fair
import Verif.Lemmas.FullHistory
import Verif.Lemmas.Gifts
import Verif.Lemmas.Group
import Verif.Lemmas.GroupRun
import Verif.Lemmas.GroupTotal
import Verif.Lemmas.History
import Verif.Lemmas.Honest
import Verif.Lemmas.Idl
import Verif.Lemmas.Incentive
import Verif.Lemmas.Income
import Verif.Lemmas.Inversion
import Verif.Lemmas.Kept
import Verif.Lemmas.Layout
import Verif.Lemmas.Ledger
import Verif.Lemmas.Life
import Verif.Lemmas.Lifetime
import Verif.Lemmas.Live
import Verif.Lemmas.Live2
import Verif.Lemmas.Local
import Verif.Lemmas.Memory
import Verif.Lemmas.Order
import Verif.Lemmas.Origin
import Verif.Lemmas.Outsider
import Verif.Lemmas.Outstake
import Verif.Lemmas.Owed
import Verif.Lemmas.Pace
import Verif.Lemmas.Pair
import Verif.Lemmas.Payout
import Verif.Lemmas.PoolOps
import Verif.Lemmas.Preserve
import Verif.Lemmas.Privileges
import Verif.Lemmas.Prolong
import Verif.Lemmas.Ranges
import Verif.Lemmas.Ratio
import Verif.Lemmas.Recorded
import Verif.Lemmas.Redelegate
import Verif.Lemmas.Reduce
import Verif.Lemmas.Refresh
import Verif.Lemmas.Rename
import Verif.Lemmas.RenameExec
import Verif.Lemmas.Rent
import Verif.Lemmas.RoundTrip
import Verif.Lemmas.Run
import Verif.Lemmas.SMapLemmas
import Verif.Lemmas.Scale
import Verif.Lemmas.ScaleRun
import Verif.Lemmas.Schedule
import Verif.Lemmas.Share
import Verif.Lemmas.Shift
import Verif.Lemmas.ShiftExec
import Verif.Lemmas.Slots
import Verif.Lemmas.Solvency
import Verif.Lemmas.SolvencyMoves
import Verif.Lemmas.SolvencyOps
import Verif.Lemmas.SolvencyStep
import Verif.Lemmas.SolvencySums
import Verif.Lemmas.Split
import Verif.Lemmas.SplitExec
import Verif.Lemmas.Stakeless
import Verif.Lemmas.Steps
import Verif.Lemmas.Superpose
import Verif.Lemmas.Tables
import Verif.Lemmas.Time
import Verif.Lemmas.Trade
import Verif.Lemmas.TradeDeposit
import Verif.Lemmas.TradeRun
import Verif.Lemmas.Transactions
import Verif.Lemmas.Transfer
import Verif.Lemmas.Twin
import Verif.Lemmas.TwinGain
import Verif.Lemmas.TwinRun
import Verif.Lemmas.TwinStep
import Verif.Lemmas.Weaker
import Verif.Lemmas.WfLemmas
import Verif.Lemmas.WindUp
import Verif.Lemmas.WorldEffects
import Verif.Lemmas.Yearly
import Verif.Model.Arith
import Verif.Model.Builders
import Verif.Model.Clients
import Verif.Model.Codec
import Verif.Model.Errors
import Verif.Model.Idl
import Verif.Model.Layout
import Verif.Model.Processor
import Verif.Model.Runtime
import Verif.Model.SMap
import Verif.Model.State
import Verif.Model.Transactions
import Verif.Model.Tree
import Verif.Props.Access
import Verif.Props.Aside
import Verif.Props.Between
import Verif.Props.Builders
import Verif.Props.Calendar
import Verif.Props.Claim
import Verif.Props.Claims
import Verif.Props.Clients
import Verif.Props.Create
import Verif.Props.Credited
import Verif.Props.Currency
import Verif.Props.Dates
import Verif.Props.Deter
import Verif.Props.Disguise
import Verif.Props.Distribution
import Verif.Props.Divide
import Verif.Props.Dividend
import Verif.Props.Dust
import Verif.Props.Early
import Verif.Props.Earnings
import Verif.Props.Errors
import Verif.Props.Even
import Verif.Props.Exact
import Verif.Props.Exit
import Verif.Props.Expirations
import Verif.Props.Extend
import Verif.Props.Failure
import Verif.Props.Fair
import Verif.Props.Filling
import Verif.Props.Flexible
import Verif.Props.Further
import Verif.Props.Gifts
import Verif.Props.Group
import Verif.Props.GroupTotal
import Verif.Props.Harder
import Verif.Props.Honest
import Verif.Props.Idl
import Verif.Props.Incentive
import Verif.Props.Income
import Verif.Props.Layout
import Verif.Props.Ledger
import Verif.Props.Life
import Verif.Props.Lifetime
import Verif.Props.Live
import Verif.Props.Local
import Verif.Props.Lookup
import Verif.Props.Memory
import Verif.Props.Order
import Verif.Props.Origin
import Verif.Props.Outsider
import Verif.Props.Outstake
import Verif.Props.Pace
import Verif.Props.Pair
import Verif.Props.Payout
import Verif.Props.Penalty
import Verif.Props.Privileges
import Verif.Props.Prolong
import Verif.Props.Ranges
import Verif.Props.Ratio
import Verif.Props.Redelegate
import Verif.Props.Reduce
import Verif.Props.Rename
import Verif.Props.Rent
import Verif.Props.Rewards
import Verif.Props.Runtime
import Verif.Props.Scale
import Verif.Props.Schedule
import Verif.Props.Share
import Verif.Props.Shift
import Verif.Props.Slots
import Verif.Props.Solvency
import Verif.Props.Split
import Verif.Props.Stake
import Verif.Props.Stakeless
import Verif.Props.Superpose
import Verif.Props.Tables
import Verif.Props.Time
import Verif.Props.Trade
import Verif.Props.Transactions
import Verif.Props.Twice
import Verif.Props.WindUp
import Verif.Props.Yearly
import Verif.Spec.Access
import Verif.Spec.Aside
import Verif.Spec.Builders
import Verif.Spec.Claims
import Verif.Spec.Codec
import Verif.Spec.Currency
import Verif.Spec.Delegate
import Verif.Spec.Deter
import Verif.Spec.Disguise
import Verif.Spec.Distribution
import Verif.Spec.Divide
import Verif.Spec.Dividend
import Verif.Spec.Early
import Verif.Spec.Earnings
import Verif.Spec.Even
import Verif.Spec.Exact
import Verif.Spec.Extend
import Verif.Spec.Failure
import Verif.Spec.Filling
import Verif.Spec.Gifts
import Verif.Spec.Group
import Verif.Spec.Honest
import Verif.Spec.Idl
import Verif.Spec.Incentive
import Verif.Spec.Income
import Verif.Spec.Kept
import Verif.Spec.Layout
import Verif.Spec.Ledger
import Verif.Spec.Life
import Verif.Spec.Live
import Verif.Spec.Local
import Verif.Spec.Memory
import Verif.Spec.Order
import Verif.Spec.Origin
import Verif.Spec.Outsider
import Verif.Spec.Outstake
import Verif.Spec.Pace
import Verif.Spec.Payout
import Verif.Spec.Privileges
import Verif.Spec.Prolong
import Verif.Spec.Ranges
import Verif.Spec.Ratio
import Verif.Spec.Redelegate
import Verif.Spec.Reduce
import Verif.Spec.Rename
import Verif.Spec.Rent
import Verif.Spec.Rewards
import Verif.Spec.Scale
import Verif.Spec.SearchTree
import Verif.Spec.Share
import Verif.Spec.Shift
import Verif.Spec.Slots
import Verif.Spec.Solvency
import Verif.Spec.Split
import Verif.Spec.Stake
import Verif.Spec.Stakeless
import Verif.Spec.Superpose
import Verif.Spec.Tables
import Verif.Spec.Terms
import Verif.Spec.Time
import Verif.Spec.Trade
import Verif.Spec.Transactions
import Verif.Spec.WindUp
import Verif.Spec.World
import Verif.Validation.Tests
