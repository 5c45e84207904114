# Formal model of mplx-rewards

Properties are listed in `properties.jsonl` (C01 …), their status in `MANIFEST.json`.
The Lean project is `lean/`; `lake build` there builds every module.

## Layout of the Lean project

| module | content |
|---|---|
| `Verif/Model/Arith` | error type, u64/u128 checked arithmetic, day arithmetic, `LockupPeriod` |
| `Verif/Model/SMap` | fixed-capacity ordered map (the contract of the sokoban red-black tree) |
| `Verif/Model/Tree` | node-arena search tree and the `find_max_value_limited_by_key` loop on it |
| `Verif/Model/State` | `Mining`, `Pool` and the methods of `state/mining.rs`, `state/reward_pool.rs` |
| `Verif/Model/Runtime` | accounts, world, account parsing, SPL transfer, create_account |
| `Verif/Model/Processor` | the twelve `process_*` functions, `exec`, transactions, histories |
| `Verif/Model/Codec` | Borsh encoding of instructions, generated clients' encodings |
| `Verif/Model/Transactions` | transactions: calls with raw bytes mixed with other programs' actions, all or nothing |
| `Verif/Model/Clients` | account lists built by the crate and by the generated clients |
| `Verif/Model/Layout` | byte layout of the account headers |
| `Verif/Model/Errors` | error codes and messages |
| `Verif/Model/Idl` | the published interface description and the meaning of its types |
| `Verif/Model/Builders` | the builders of the generated JavaScript and Rust clients |
| `Verif/Spec/*` | small specifications, written without the model's helpers |
| `Verif/Lemmas/*` | helper lemmas |
| `Verif/Props/*` | the property theorems, non-vacuity examples and counterexamples |
| `Verif/Validation/Tests` | the repository's own unit and integration tests replayed on the model by evaluation: tests of the model, not proofs |

## What is modelled and how

*Numbers.* `Nat` with explicit range checks: `safe_add`/`safe_mul` fail at 2^64 (2^128), `safe_sub` fails below 0,
`safe_div` fails on 0, `u64::try_from` fails at 2^64.  Raw `+` in `end_timestamp` panics at 2^64
(`overflow-checks = true` in the workspace profile).

*Ordered maps.* `RedBlackTree<u64, V, CAP>` is a strictly sorted association list with a capacity.  Inserting a new key
into a full map does nothing (sokoban returns `None`, the program ignores it).  The capacity test of the shipped binary
(`tests/rewards/fixtures/mplx_rewards.so`) was checked by disassembly: a new key is refused when the size is already
50 / 365 / 1095.  The model takes the three capacities as a parameter (`Caps`), `Caps.deployed` is the shipped value.
The lookup loop of `state/mod.rs` is additionally modelled on arbitrary node arenas (any shape of search tree).

*State methods.* One Lean function per Rust method; `&mut` becomes a returned value; loops become structural recursion
keeping the two phases of the code (collect dates, then remove).

*Accounts.* A world maps addresses to accounts (owner program, lamports, data length, typed content).  Content is typed
(zero, pool, mining, token account, mint, other) instead of bytes.  The program reads any account it owns as a mining or a
pool without checking a discriminator; reading a pool account as a mining is modelled by two *arbitrary* functions of the
environment (view and write-back) constrained only by the byte layout of the three leading keys, so every theorem holds
whatever the overlay does.  Account parsing (`AccountLoader`), signer, owner and key checks, the order of the checks,
`RefCell` aliasing panics, privilege checks of cross-program calls and the runtime's read-only check are modelled.
The SPL token transfer, `initialize_account` and the system `create_account` are modelled from their published behaviour.

*Addresses.* Program-derived addresses are arbitrary functions of the environment; collision-freeness is a hypothesis
(`Env.PdaInjective`) named in the theorems that need it.

*Histories.* A history is a list of events (`Event`): an instruction with an arbitrary list of accounts, submitted by anyone
directly or through another program; clock advance; removal of an account without lamports; and an arbitrary outside change
that respects the runtime's ownership rules (`ExtOk`).  A failed instruction changes nothing.  A transaction is a list of
instructions, all or nothing (`runTx`; C36): one that succeeds is the sequence of its instructions, one that fails is no event.
The clock never goes back.

### Which function is modelled where

| code (`programs/rewards/src`) | model |
|---|---|
| `utils.rs`: `safe_*`, `LockupPeriod`; `state/mod.rs`: constants | `Model/Arith` |
| `state/mod.rs`: tree types | `Model/SMap` (contract) |
| `state/mod.rs`: `find_max_value_limited_by_key` | `Model/Tree` (`findMaxLoop`), `SMap.findMaxLt` (C43: they agree) |
| `state/mod.rs`: `AccountType` conversions | `accountType` numbers in `Mining.init`, `Pool.init`; `Model/Layout` |
| `state/mining.rs`: all methods | `Model/State`, namespace `Mining` |
| `state/reward_pool.rs`: all methods | `Model/State`, namespace `Pool` |
| `from_bytes`, `from_bytes_mut` of both | `loadMining`, `loadPool` (`Model/Runtime`), headers as bytes in `Model/Layout` |
| `utils.rs`: `AccountLoader`, `find_*`, `create_mining_address`, `create_account`, `initialize_account`, `spl_transfer`, delegate helpers | `Model/Runtime`, `Model/Processor` |
| `asserts.rs`: `assert_account_key`, `assert_and_get_pool_and_mining`, `assert_account_owner`, `assert_account_len` | `assertKey`, `getPoolAndMining`, inline in `processInitializePool` and `processClaim`; the other functions of this file are called nowhere |
| `instructions/*.rs`, `instructions/penalties/*.rs`, `instructions/mod.rs` | `Model/Processor` |
| `instruction.rs`: enum and builders | `Ix` (`Model/Processor`), `Model/Codec`, `Model/Clients` |
| `entrypoint.rs`, `error.rs` | `Model/Codec` (`entrypoint`), `Model/Errors` |
| `/repo/clients` (generated Rust and JavaScript): data encodings, account lists, builders, account decoders, errors | `Model/Codec`, `Model/Clients`, `Model/Builders`, `Model/Layout`, `Model/Errors` |
| `/repo/idls/mplx_rewards.json`: instructions, accounts, types, errors | `Model/Idl` |

### Vocabulary of the theorems

| name | meaning |
|---|---|
| `Wf` | every program-owned account is a zeroed account, an initialized pool or a mining with a sorted table, at the right address; every reachable world is `Wf` |
| `Genesis` | the program owns no initialized account yet |
| `CleanEvent`, `Reachable` | events in which no pool account is passed where a mining is expected (possible only as the old delegate of ChangeDelegate and in CloseMining, with the deposit authority's signature); states reached from a genesis by them |
| `RunsWith C` | histories all of whose events satisfy `C` |
| `Orderly` (C09, C10, C52–C55, C60) | the conditions under which the books balance: delegates are up to date when stake is added to or taken from them, locked stake is not withdrawn or extended, tables have room, nothing happens in the first second of a day, … Each is needed: a `_false` run beside the theorem violates only it |
| `Ledger`, `LedgerRuns` (C51) | the list of individual stakes the staking program has in mind, and histories in which it reports operations on such stakes |
| `HonestRun` (C63–C65, C69) | ledger histories in which delegates are brought up to date first and the vault is left alone |
| `Sealed`, `Spares` | the vault changes by this program only; a mining is writable in no instruction |
| `CarefulEvent` (C72) | no penalty or closing, own stake not changed in the first second of a day, delegated stake changed only when up to date |
| `Outside`, `NotSignedBy`, `NotDrawn` (C73) | the pool's authorities / a wallet / owner and SPL delegate of a token account do not sign |
| `Independent`, `SameOutcome` (C74) | two instructions for stakers of a pool without a common mining / two states with the same accounts, balances and future totals |
| `Refreshable`, `due`, `WithdrawOk` … `FillOk` (C75) | the conditions of the operations on the numbers stored before: the mining can be brought up to date / whole tokens due then / each operation's own conditions |
| `UpToDate`, `SameAsTwo`, `OnlyUpToDate` (C76, C77) | the mining has consumed all visible rewards and expirations / one instruction succeeds and does the same as two others in a row / all that happened is that a pool and a mining were brought up to date |
| `Happens`, `NeverClosed` (C78) | an instruction is executed successfully in a history / a mining is never closed in a history |
| `TokensFree`, `PoolUpToDate`, `OnlyMoreExpires` (C80) | a stake is flexible or its lock is over / no expiration up to today is left in the pool's table / two states differ only in how much the pool's table has for one day |
| `delegated`, `SameForStaker` (C81) | what a delegate, if any, gets of an amount / two states differ only in the pool's total and in the minings of the delegates |
| `SameDay`, `SameDays` (C82) | two moments of one day, neither exactly midnight / the same events in the same order, every instruction on the same day in both lists |
| `Listed`, `Writable`, `SameResult` (C83) | in the account list of an instruction / in it as writable / same error, or success with the same return data and listed accounts |
| `Unrelated`, `outcome`, `Call`, `runCalls`, `part`, `picked` (C84) | neither list names what the other may write / world and result of an instruction / an instruction with its time / several of them / the calls, and results, of one of two groups |
| `WellTyped`, `JsNames`, `RustNames`, `CpiNames`, `Fixed` (C85) | the input of a JS builder has the declared types / what is passed to a builder are the accounts of these names / accounts with a fixed address |
| `RoomInPool`, `RoomInMining`, `Alike`, `AtLeast`, `takesPart` (C86, C87) | the tables have room for a new expiry date / the events of two histories correspond, and the same instructions succeed / as much for as long / stake taking part in a distribution |
| `takesStake`, `takenOn`, `Delegated`, `TakenFromPool`, `TakesLess`, `OnlyFrom` (C92, C93) | a withdrawal or a slash / what it takes from its mining / the stake named has a delegate / what it takes from the pool's total / another event that takes no more, or nothing / the event concerns one mining only |
| `amountOf`, `DepositInto`, `DepositTo`, `Avoids`, `SameBut`, `AllSameBut` (C94) | the amount of a deposit / a successful deposit for this period into one of these minings / ... delegated to this mining / no instruction names these accounts / the same events except for lamports of these accounts |
| `ClaimOf`, `SameOrTokens`, `UpToClaims`, `Unharmed` (C95) | a claim from one mining / the same account, or two token accounts / two histories that differ only in claims from one mining / no penalty and no closing of that mining |
| `Instead`, `DelegatedInstead`, `SameElsewhere`, `Deposits` (C96) | two minings with the same stake, some of it delegated in the first and the owner's in the second / two worlds that differ only in this / the same events, but for what other programs see in one account / a successful deposit with its pool, mining and delegate |
| `addTokens`, `gifted`, `tokensTogether`, `Fits`, `creates`, `giftsAfter`, `giftEvent`, `Undisturbed` (C97) | the content of an account, a world, after lamports and tokens have been sent to it / sums below 2^64 / where an instruction creates an account / the gifts after an instruction (CloseMining pays a mining's out) / an event that neither fails nor creates, closes or removes an account with a gift |
| `Outweighs`, `TakesMore` (C98, C99) | from a time on, a deposit weighs on no day more than an earlier one / an instruction takes on every day at least as much as another |
| `accountCount`, `mustSign`, `passedOn`, `Sufficient` (C100) | how many accounts an instruction takes / which have to sign / which are passed on as writable / the privileges suffice |
| `TimesStake`, `TimesStakes`, `TimesWorld`, `timesIx`, `TimesEvent`, `stakeIn` (C102) | a mining / a pool / all of them with `c` times the stake / the same instruction or event with `c` times the stake / the stake with which a mining takes part in a distribution |
| `SameOutlook`, `SameStanding`, `RoomInTable` (C103) | two pools with the same budget and the same total stakes from today on / two minings with the same stake from today on / there is room in the mining's table for a new expiry date |
| `gap`, `RatioFill a b`, `SameCalendar`, `SameButRewards` (C104) | the difference of two numbers / two events that differ only in that the amounts filled are in the proportion `a` to `b` / two pools with the same distribution days until the same end / two worlds with the same pools and stakes |
| `Along`, `TxSucceeds`, `Possible`, `Meets`, `TxRuns`, `allEvents`, `alone` (C105) | a condition on all actions of a transaction / histories of transactions / the events of what takes effect / an event as a transaction of its own |
| `Shares` (C106) | a relation between the earning stake of a mining and the total stake whenever tokens are distributed |
| `Gains` (C107) | from now on an extended stake weighs on every day at least as much as before |
| `AffairOf`, `UpToAffairs`, `Unclosed`, `SameHolder` (C108) | a claim from a mining or a penalty on it; histories that differ in nothing else; events that do not close the mining; minings that can differ in stake and rewards |
| `PenaltyOn`, `CarefulOrPenalty` (C109) | a penalty on a mining; events as in `CarefulEvent` or such penalties |
| `daysAhead`, `OffMidnight`, `EveryDay` (C110) | days a budget has to last; no distribution in the first second of a day; a recorded distribution for every day of a period |
| `Ledger.weight`, `dividendBy`, `DividendRuns` (C111) | a staker's part of the stakes of a ledger; what it is due from a distribution; the sum of these along an honest history |
| `SharedFill`, `AlikeThree` (C123) | events that are the same but for a filling divided in two; three histories of such events in which the same instructions succeed |
| `NoStake`, `LeavesBare` (C125) | neither own nor delegated stake; an event that leaves the mining in this state and does not close it |
| `KeepsToken` (C126) | an event that does not remove the pool account and, if from outside, leaves the mint of the token accounts at derived addresses as it is |
| `ownOwed`, `names`, `roundings`, `Regular` (C127) | what a mining is owed for its own stake, credited or not; an instruction names a mining; how often it rounds; it is no penalty, names the mining's pool and is not in the second of midnight |
| `NothingOverdue`, `PoolSwept`, `Sweeps`, `daysPassed` (C128) | no expiration due by today is left in the pool's table; an instruction that removes them; midnights between two moments |
| `beginsStake`, `stakesBegun`, `KeepsOpen` (C129) | successful deposits and extensions for a mining; a clean event that does not close it |
| `earnsWith`, `HoldsAtMost`, `OutstakedEvent` (C122) | the stake an account earns with on a day; that one holds at most a / b times the stake of another whenever rewards are distributed; a history in which that is so, with the care of C72 for both |
| `RentPaying`, `RentRule`, `RentCare`, `RentEvent` (C121) | an account with too few lamports for its size; what the runtime allows of it; what the sender of an instruction takes care of; a history in which everybody does |
| `Redelegates` (C120) | a successful change of the delegate of a given amount, with its pool, mining, old and new delegate |
| `ReadsBytes`, `OrdinaryPools`, `OrdinaryEvent` (C118) | a pool account read as a mining shows what its bytes say; all pools have fields of the proper size, a mint whose last eight bytes are not all zero and a deposit authority that is no account of the program; ... and no change of delegate names a pool as the old delegate |
| `PaysFor` (C117) | a filling of the pool brings at least the given amount for each day by which it moves the end of distribution |
| `UpToGroup`, `InPlaceOf`, `AmongThem`, `NoneClosed` (C114) | two histories that differ in what a group of stakers arranges among themselves; an instruction on another member's stake on the same terms; claims, penalties and delegations moved inside the group; no member's mining is closed |
| `KeptEvent` (C02) | an event that removes neither the mining nor its pool |
| `SameEvent`, `goesThrough` (C86–C89, C92, C93) | the same event, or any two actions of other programs / an instruction succeeds, or the event is none |
| `LargerFill`, `OtherFill`, `Straight`, `claimedFrom`, `SameStake`, `SameStakes` (C88, C89) | the same event but for a larger filling / but for any other filling / the arguments of ChangeDelegate and CloseMining that the program does not check are right, accounts in use are not removed / what a mining has been paid from a pool / minings, pools, that differ in their rewards only |
| `Renaming` (C90) | an exchange of all addresses that keeps the zero address, extended to accounts, instructions, events and the environment |
| `later…`, `NoMixUp`, `InCalendar` (C91) | everything some days later / no pool is passed as a mining and no mining as a pool / the dates stay within 64 bits |
| `CanLeave`, `Leaver` (C69) | a staker with a mining without stake and a token account |
| `RightKind`, `Reason` (C70) | pools and minings stand where they should; what each error claims |
| `weightOn`, `earningOn`, `entitlement`, `owed` | stake on a day; the same with delegated stake; rewards of the recorded distributions, times 10^16 |

## How the properties are proved

* C01–C03, C17–C24, C27, C28, C33–C39: inversion of the processors: from "the call succeeded" derive exactly what changed.
  Specifications are stated with `weightOn` (stake on a day), token/lamport sums, not with the model's helpers.
* C02 over histories: as long as nothing new becomes visible, index and unclaimed tokens of a mining that has just been paid stay as they are (`runs_kept`, by induction).
* C04, C05, C16, C26: induction over the expiration table; the specification `entitlement` sums over recorded
  distributions the index increment times the stake of that day.
* C06–C08: entitlement before/after an operation.  C07 and C08 are false of the code; the negations are proved with
  concrete runs and the true parts (`_partial`) under the condition that the delegate is up to date.
* C09, C10, C25: one inductive invariant over histories (`Orderly` events) for any finite set of minings; every side condition
  of `Orderly` is shown necessary by a run that violates the property.
* C11, C15, C30–C32, C40, C44: invariants by induction over histories.
* C12, C13, C14, C41, C42, C43, C45: arithmetic and list induction.
* C46–C50: encoders/decoders as total functions on byte lists, round-trip theorems.
* C51: refinement to an abstract ledger of stakes.
* C52–C55: liveness after orderly histories, from the same invariant as C09 and C10 (`Books`); counterexamples without it.
* C57–C59: the converse of the processors' inversion: with the right accounts every check passes; counterexample for
  prefunded addresses.
* C60: sums of fills, distributions and claims along an orderly history against the same invariant.
* C61: induction over arbitrary clean histories that spare one mining; each distribution adds its own income.
* C62: the refinement of C51 gives the sum of stakes; the rest is floor arithmetic.
* C63, C64: every honest history (conditions on the stakes only) is matched by an orderly history with the same outcome; the
  ledger of C51 gives the amounts that the liveness theorems need.
* C65: induction over the stakes of the ledger; each withdrawal (C64) leaves the history honest.
* C66: invariant: a full history never changes (all histories); with the accounts of C60 the later payouts are bounded.
* C67: invariant `budget ≥ a × days left` along all histories without fills; counterexample at midnight by evaluation.
* C68: incomes (C61) are linear in the stake on each day, summed along the history by induction.
* C69: induction over the stakers; solvency (C63) at each step makes the claim succeed, closing leaves the history honest.
* C70: `Spec/Failure.lean` lists the accounts of each instruction and says for each error what is wrong; a small calculus for failing computations goes through all state methods and processors.
* C71: the case `panic` of C70; the ranges of C44 rule out the unchecked arithmetic.
* C72: every successful careful instruction changes `paid + owed` of the mining by its income less roundings (from C01, C04, C06, C61); induction over the history.
* C73: which change needs whose signature, from the effects of every instruction (as for C27, C28); credited rewards never fall because refreshing only adds; induction over the history.
* C74: an instruction for a staker determines the new minings, the payment and the change of the pool's total from the minings it is given and the history of the index alone (two executions compared); the rest from the frames. Both conditions are shown to be needed by reachable counterexamples (a shared delegate that is not up to date, the last place in the pool's table).
* C75: bringing a mining up to date is solved exactly (the result is an explicit function of the stored data, the conditions are explicit), then each operation step by step; for the processors the inversion lemmas give one direction and the liveness lemmas the other.
* C76, C77: each operation is solved as an explicit function of the stored data (from C75), the functions are composed, and the second bringing up to date is shown to do nothing; the worlds are compared account by account. Counterexamples with a stale delegate.
* C78: the exact effect of InitializePool by inversion; origins by induction over the history backwards from what exists at its end (what exists after an event existed before or was created by it).
* C79: per entry of the description, the described encoding is the Borsh encoding of C46; accounts, account contents and errors by comparison with C48, C49, C50.
* C80: extending solved into its two halves (C75); the first half is a withdrawal if the tokens are free and the pool is up to date, a slash without the pool's table if the lock is running; the second half is the deposit itself.
* C81: from the solved forms of C75 (the delegate occurs neither in the staker's new mining nor in the pool's tables).
* C82: congruence through every operation: the clock is used only as the beginning of its day, in comparisons with midnights (the
  keys of the index history and the ends of locks are midnights) and in the number of whole days until a midnight; the pools that
  pass the authority checks are pools in good order. Histories by induction on the relation of the two lists. `C82_midnight`: a
  claim exactly at midnight, and a second later, in a concrete reachable state.
* C83: every processor commutes with replacing all accounts outside the list by others (`over`, one lemma per function of the
  model), which gives equal outcomes and the frame; read-only accounts by the runtime's check. No hypothesis about the state.
* C84: induction on the mixture; the world of the mixture and the world of one group agree on all accounts that the group names.
* C85: by cases over the instructions, every slot of a builder resolves to the account of its name with the privileges of the client's
  list (`js_value`, `rust_list`, `cpi_list`); the exchange of the flags is a counterexample.
* C56: effect of DecreaseRewards on what is owed (C24 with the reward function of C04).
* C86, C87: the two histories are followed in lockstep.  Every instruction changes the pool's totals by an amount that depends on its
  arguments only (C17, C20–C23) and the budget alike (C11, C12), so the totals always differ by the difference of the two deposits and
  the same amounts are distributed on the same days; what the idle mining earns is C61, and a part that is at most the whole (C10) does
  not get smaller if both grow by the same amount.
* C92, C93: the same lockstep (`compare_more`, `compare_others`), begun by a withdrawal or a slash in one history and a smaller one, or
  nothing, in the other (C20, C21); crediting before the change loses at most roundings.
* C94: the pool after a list of deposits depends on their sum only (`divided`), and a mining that has been credited and given a stake is
  owed what it was owed before plus what that stake earns, which is additive in the stake (`staked_owed`, `earned_plus`); the rest
  of the two histories is literally the same because instructions depend on the accounts they list only (C83).  With a common delegate that is
  up to date the delegate, too, depends on the sum only (`dividedTo`, `Mining.trusted`).
* C89: the two histories are followed in lockstep; by the exact laws of the instructions (C17, C20–C25) everything but the rewards
  depends on everything but the rewards only (`Tied`, kept by every event).
* C90: every function of the model commutes with an exchange of addresses (`Lemmas/Rename`, `Lemmas/RenameExec`), function by
  function; the derivation of addresses is exchanged too, the zero address stays, since the program compares with it.
* C91: every function of the model commutes with moving all dates by whole days (`Lemmas/Shift`, `Lemmas/ShiftExec`); the zero
  end of distribution of an unfilled pool stays.  Reading a pool as a mining is excluded by `NoMixUp`, since the bytes mean other
  things there.
* C88: in addition the budgets and what is recorded for each day are at least as large in the second history, so everything a mining
  gains in one refresh is at least as much (roundings down keep the order), and so is the sum of what it has been paid and has not
  (`Better`, kept by every event).
* C95: the two worlds stay the same but for token accounts, and but for what the mining has been paid and how far it is refreshed
  (`Near`): a refresh changes neither the stake on later days nor the locks still running (`StakeLike`), and after an operation that
  refreshes the mining in both only the unclaimed rewards differ (`Rest`).  The staker's own account follows from C72, since what the
  mining earns by each distribution depends on that stake only.
* C96: every operation and instruction that succeeds in two worlds of which one has some stake of one mining delegated, the other as
  own stake, leads to two such worlds again and pays the same (case analysis over the instructions, then induction over the history);
  the two pairs of deposits lead to two such worlds because refreshing a mining that is up to date changes nothing.
* C97: whatever the program reads of an account does not depend on lamports and token amounts, except in transfers, in creating and in
  closing an account (`Lemmas/Gifts`); each of its writes commutes with the gifts; induction on the history.
* C98, C99: up to the time of the late deposit (withdrawal) the totals of the two histories differ by the known stake (`runs_apart`),
  so the comparison of C86 (C92) applies to the first part; after the late one they differ by what is left of the difference, which
  is of the same sign on every day, so the comparison applies again.
* C100: each processor, applied to a list of accounts, is reduced to the sequence of its checks; with the needed privileges it is the same
  sequence as with all privileges; and the inversion lemmas give these privileges back from a success.
* C101: both processors are reduced to the same checks on the same accounts; without an expiration date `slash` calls `withdraw` without a
  delegate and does nothing else.  The property needs no vocabulary of its own: it compares two runs of the program.
* C102: a simulation relation between the two histories: every operation of the tables, of the pool and of the mining commutes with
  multiplying by `c` (a positive number, so that zero entries stay in correspondence).  Rewards: C72 for both histories, and for every
  distribution `⌊b/(c·t)⌋·(c·x)` differs from `⌊b/t⌋·x` by at most `c·x`.
* C103: a simulation relation between the two histories that mentions the future only; every operation on a pool or a mining changes
  the stake of the days to come by an amount that depends on the instruction alone.  Payments: C72 for both histories.
* C104: with `E = b * budget1 - a * budget2` and `d` the same difference of what one distribution pays, `|d| + |E after| <= |E before| + 2 * max a b`
  for every distribution, by induction over both histories; then C72 for both histories.
* C105: refinement: the history of transactions is simulated, transaction by transaction, by the events of the successful ones.
* C106: what one distribution gives to a share of the stake is bounded on both sides by the share of the tokens; summed over the history, with C72 (paid and owed against earned) and C11 (budget).
* C107: the two histories in lockstep as for C86/C87, where the pool's total grows by at most as much as the staker's weight; the exact change by C22.
* C108: the two worlds stay equal but for one mining and token accounts, by cases over all instructions, with histories by induction: no operation on a pool, on another mining or on a delegate reads the stake of that mining.
* C109: "weighs at most as much on every day ahead, with the same dates ahead" is kept by every operation that is done to both, and by penalties on the first; so the first earns at most as much; the account of a life (C72) turns this into payments.
* C110: invariant of histories, "if every day so far has a recorded distribution, the budget is floor(T/n) * n' + min(T mod n, n')", with n' counted from the dates; a distribution lowers n' by one, a new day does not change it.
* C111: the refinement of C51 (program data agree with the ledger of stakes) combined with the account of C72 in one induction over honest histories, starting before the mining exists ("owed" is 0 until it is created); the parts add up because the ledger's total is the sum over its stakers.
* C112: right after a claim nothing is owed (`pending_consumed`); by induction over an honest history that spares the mining, what is owed grows by the dividends of the ledger (`runs_alone`); the second claim pays it by C01.
* C113: the larger penalty is the smaller one followed by another one (`decrease_split`), so right after it the stake is weaker and less is owed; the relation `Weaker` of C109 is kept by everything that happens afterwards, and the account of C72 gives the amounts.
* C114: what an operation does to the pool depends neither on the data of the mining nor on the delegate's (`StakeOp.twice`), and moving a delegation from one to another leaves the pool as it was; hence the relation `Around` (the same outside the group, the same holders inside) is kept by every event, whether it happens in both histories, in another member's place, or among the members in one of them only.  The induction runs over the two histories.
* C115: by C51 the stake of all minings adds up to the pool's total in both histories; the pool and everybody outside the group are the same by C114, so the rest, the group's, is the same too (`around_earning`).  Hence every distribution gives the group the same, and the accounts of the members (C72) add up to the account of the group.
* C116: after the two deposits the staker's mining is the same, and the pool's total and the delegate's stake differ by the amount (`with_and_without`); from there on in lockstep, where the part of the two together is at most the total (C10), so that it grows when both grow by the same (`compare_pair`).
* C117: the invariant of C67, amount times days to go at most the budget, is kept by fillings that pay for the days they add (`PoolChange.pace`, `runs_pace`).
* C118: C49 says which bytes of a pool are read as which fields of a mining; refreshing only ever raises the unclaimed rewards and the index and keeps the delegated stake (`refresh_never_less`), so the checks of the instructions bound these bytes.
* C119: both extensions take off the same old stake (`extend_changes`), so the two states differ as after two deposits (C86, C87) and `compare_more` and `compare_others` apply.
* C120: a change between others leaves the total share as it is, so C114 applies to the group of staker and delegates, whose minings are untouched since (`moved_between`, `owed_lent`); beginning and ending add to and take from the total share (`moved_to`, `moved_back`), so the comparison of C116 (`compare_pair`) applies.
* C121: the runtime's rent rule is stated apart from `exec`, which does not check it; all changes of lamports and sizes are classified (`Balances`), the rule is checked for each class, and is transitive, hence the transactions and histories.
* C122: the parts of every distribution are compared by the stakes of that day and summed; C72 says what is paid and owed of them.
* C123: the days, the end and the budget of a pool develop by a function of the events (`budgetNext`), which is compared for a budget and its two parts (`daily_shared`, `part_shared`); the differences are summed over the histories as in C104.
* C124: case by case over the effects of the instructions (`Step.credited`), then by induction over the history; a refresh never lowers the credited rewards (`refresh_grows`).
* C125: the loop of `refresh_rewards` with stake 0 credits 0 at every date (`RunOk.bare`); case by case over the effects of the instructions (`Step.bare`), then by induction over the history.
* C126: invariant over all histories (`Vaults`): a token account at any vault address of the pool is the vault of its mint and holds this mint, because only InitializePool creates accounts there; a Claim or FillVault with another mint would need a token account at another vault address.
* C127: every instruction that names a mining refreshes it first, with its own stake still in place; refreshing credits at least what the own stake has earned, but for roundings (`refresh_ownOwed`, from the exact value of refreshing in C05 and C06); distributions only append to the history; then by induction over histories.
* C128: no operation adds other dates to a pool's table than those of locks that begin at that moment (`Step.poolDates`), hence bounds on the dates by induction over histories; dates at midnight between two bounds are counted (`dates_count`, `dates_missing`). `C128_unswept_false` evaluates a history of a year of daily stakes, about two minutes of the build.
* C129: case analysis over the steps of an instruction bounds the length of a mining's table (`Step.table`), then induction over histories (`runs_table`); recording follows from C18.
* C130: as C129, but counting only the dates later than a fixed moment (`lateCount`, `Step.fewLate`); a lock that begins adds such a date only if the moment is less than 365 days ahead, which gives both the bound on the dates (`runs_noneLate`) and the count over the last 365 days (`runs_late`).
* C131: an invariant that counts the entries against the days passed, with one less on a day without an entry (`Paced`), by induction over histories (`runs_paced`).

Properties that turn out to be false of the code get counterexample theorems (names contain `_false`: a concrete history that
violates the claim) next to the `_partial` theorem, which states what is missing.

## Findings about the code

Each is a theorem (counterexample) or visible in the exact law proved.

* Adding delegated stake (DepositMining, new delegate of ChangeDelegate) happens before the delegate is refreshed: the delegate
  is credited for the past with the new stake, and the pool can become insolvent (C07, C09, C26, C60).  A deposit withdrawn in the same second is enough
  (C77), and splitting it gives less (C76).  A mining closed after a claim and opened anew is paid again for the same days (C02).
* Taking delegated stake away (WithdrawMining, old delegate of ChangeDelegate, ExtendStake) happens before the refresh: the
  delegate loses rewards already earned (C08).
* ExtendStake of a stake that has not expired removes the mining's expiration but not the pool's: later the pool's total is too
  small, and distributions or withdrawals can fail for everybody (C10, C22, C52, C53).
* DecreaseRewards refreshes nothing and leaves the pool's total as it is: it also takes rewards already earned, and the rewards of
  the removed stake are lost to everybody (C51, C56, C62).  If locks have ended since the mining was last brought up to date, the
  penalty is taken from the multiplied stake that has ended already, and costs nothing; a staker who claimed before pays it (C95).
* Slash never reduces the delegated stake of the delegate (C51).
* Full tables drop entries silently: a pool's history stops after 1095 distributions and pays nothing more (C14, C66); a mining with
  50 expirations keeps the multiplied stake forever (C18, C10); with 365 expirations in the pool's table a stake never expires for
  the pool, and who comes first decides about the last place (C74).
* A distribution in the first second of a day, and deposits, withdrawals and claims then, are treated differently (C06, C13, C67).
* CloseMining checks neither that the stake is zero nor that the mining is the given pool's (C28, C29, C35); it accepts a pool
  account of the program as a mining.  ChangeDelegate does not check the old delegate (C27–C29, C88).
* Lamports sent in advance to the address of a future mining or vault block its creation for good (C59).
* The generated clients' ExtendStake and CloseMining never succeed, nor do their DepositMining and WithdrawMining with a delegate,
  because accounts are missing the writable mark or are in the wrong place; the description they are generated from says so (C48, C79).
* The generated Rust builders for cross-program calls exchange the two flags of additional accounts: one asked for as writable is
  passed on as signer (C85).
* A delegated deposit counts twice in the total (for the staker and for the delegate), so a staker with more than half of the stake
  earns less after adding a delegated stake (C86), and more after taking one back (C92).  With a full table a longer stake can earn less than a shorter one, and others more (C86, C87);
  a withdrawal of a single token, which makes the pool drop past dates, can then pay (C92), or cost others something (C93); with a full table in
  the mining, an amount deposited there can earn more than the same amount in another mining (C94).
* InitializePool does not ask for the pool's signature: anybody can initialize a fresh account of the program as their pool.
* FillVault accepts the vault itself as source: the budget grows without tokens (C09).
* FillVault with an end before the announced one reports MathOverflow; so does DepositMining with `LockupPeriod::None` and a
  positive amount (C70).  Two errors share one message (C50).
* `spl_transfer` passes on no further signers, so a pool whose deposit authority is an SPL multisig account could never pay a
  reward, nor a fill authority that is one fill the vault (the condition `single` of `ClaimReady`, `FillReady`, `UsableVault`).

## Trusted base

* Lean's kernel.  Axioms, by `#print axioms`: each of the theorems named in MANIFEST.json depends on exactly `propext`, `Classical.choice` and
  `Quot.sound`, except for the following.  Only `propext` and `Quot.sound`: `C36_transaction`, `C43_lookup`, `C43_shape`, `C43_model`, `C46_decode`, `C46_round_trip`, `C46_injective`, `C46_exact_length`, `C46_tag`, `C46_entrypoint`, `C47_client_data`, `C47_entrypoint`, `C48_crate_roles_partial`, `C49_mining_agree`, `C49_pool_agree`, `C49_mining`, `C49_pool`, `C50_clients`, `C79_data`, `C79_mining`, `C79_pool`, `C79_errors`, `C85_js_partial`, `C85_cpi_partial`, `C85_cpi_added_partial`, `C90_instruction`, `C90_history`, `C101_slash_is_withdrawal`, `C105_single`, `C111_proportional`, `C111_together`.
  Only `propext`: `C70_accounts`, `C79_complete`, `C105_transactions`, `C105_reachable`, `C105_atomic`.  None: `C42_table`, `C49_sizes`, `C50_distinct`, `C50_message_false`.
  There are no axioms of our own.
* The reading of the Rust code: every definition cites its lines.
* Behaviour assumed, not verified: sokoban's tree implements an ordered map with the capacity rule above; bytemuck
  casts; Borsh derive; SPL token and system program; the Solana runtime (atomic transactions, read-only check, ownership
  rules, signer privileges); SHA-256 PDA derivation (arbitrary function, injectivity as hypothesis).
* Not modelled: compute budget, rent collection, logging, `WrappedImmutable*` reader API except the address check,
  the test-only code (`tests/`, `#[cfg(test)]`), client code other than encodings, account lists,
  builders, account decoders and error codes.
