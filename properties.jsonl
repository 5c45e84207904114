{"id": "C01", "title": "A claim pays exactly what is owed and zeroes it", "statement": "A successful Claim brings the caller's mining up to date, moves exactly its resulting unclaimed amount from the pool's vault to the given token account, returns that same number as return data, and leaves the mining with unclaimed = 0. No other token account and no other mining changes, and the pool account is not modified.", "quantifier": "every world of accounts, clock value, account list and signer set for which Claim succeeds (in which no pool account is passed in the place of a mining, see C27)", "why_tests_cant": "tests run a handful of claims; the equality of transfer, return data and bookkeeping must hold for every state", "anchors": ["programs/rewards/src/instructions/claim.rs: process_claim", "programs/rewards/src/state/mining.rs: refresh_rewards, Mining::claim", "programs/rewards/src/utils.rs: spl_transfer"]}
{"id": "C02", "title": "Claiming twice pays once", "statement": "After a successful Claim, a second Claim by the same owner at the same or a later time, with no new distribution becoming visible in between, pays 0.", "quantifier": "every state, every pair of claim times with the same visible distribution history", "why_tests_cant": "double payment is a property of all histories, not of one scripted pair of calls", "anchors": ["programs/rewards/src/instructions/claim.rs", "programs/rewards/src/state/mining.rs: update_index"]}
{"id": "C03", "title": "Only the owner can be paid from a mining", "statement": "If Claim succeeds then the mining's recorded owner and the pool's deposit authority both signed, the mining belongs to the given pool, the paying account is the vault address derived from that pool, and the receiving token account is owned by the mining's owner.", "quantifier": "every account list, world and signer set (in which no pool account is passed in the place of a mining, see C27)", "why_tests_cant": "an attacker chooses the accounts; tests only try the intended ones", "anchors": ["programs/rewards/src/instructions/claim.rs", "programs/rewards/src/asserts.rs: assert_account_key"]}
{"id": "C04", "title": "Exact reward formula", "statement": "Refreshing a mining at time t credits, for every distribution visible at t and not yet consumed, the index increase times the weighted stake the mining had on that distribution's day (own stake after expirations up to that day, plus delegated stake) divided by 10^16, with rounding down at most once per expired lock date plus once; the credit never exceeds the exact value and falls short of it by less than (number of expired lock dates + 1).", "quantifier": "every distribution history, every set of pending expirations, every time (in which no pool account is passed in the place of a mining, see C27)", "why_tests_cant": "an equation over unbounded histories and all numeric values, including rounding", "anchors": ["programs/rewards/src/state/mining.rs: refresh_rewards, consume_old_modifiers, update_index", "programs/rewards/src/state/mod.rs: find_max_value_limited_by_key"]}
{"id": "C05", "title": "Refreshing more often never pays more", "statement": "Refreshing at t1 and again at t2 credits at most what a single refresh at t2 credits (and less than it by a bounded rounding loss), and leaves the same stake and index; refreshing twice at one time is the same as once.", "quantifier": "every mining, history and pair of times t1 <= t2", "why_tests_cant": "quantifies over every way of splitting a time span", "anchors": ["programs/rewards/src/state/mining.rs: refresh_rewards"]}
{"id": "C06", "title": "No rewards for days before the stake existed (own stake)", "statement": "Depositing never changes what the depositor's mining earns from distributions that already happened: its entitlement for every already recorded distribution is the same with and without the deposit.", "quantifier": "every pool, mining, amount, lockup and time", "why_tests_cant": "must hold for every point of the day; in fact it fails for a deposit in the first second of a day after that day's distribution", "anchors": ["programs/rewards/src/state/reward_pool.rs: deposit", "programs/rewards/src/state/mining.rs: refresh_rewards", "programs/rewards/src/state/mod.rs: find_max_value_limited_by_key"]}
{"id": "C07", "title": "No rewards for days before the stake existed (delegated stake)", "statement": "Delegating stake to somebody (by deposit, extension or change of delegate) never increases what the delegate is owed for distributions that already happened.", "quantifier": "every delegate mining, however long ago it was last refreshed", "why_tests_cant": "fails only for delegates that have not been refreshed since the last distribution; tests refresh in lock-step", "anchors": ["programs/rewards/src/state/reward_pool.rs: deposit, change_delegate, extend"]}
{"id": "C08", "title": "Removing delegated stake keeps the rewards it already earned", "statement": "Withdrawing, extending or re-delegating never decreases what the delegate is owed for distributions that already happened.", "quantifier": "every delegate mining and amount", "why_tests_cant": "depends on the refresh point of the delegate, which tests do not vary", "anchors": ["programs/rewards/src/state/reward_pool.rs: withdraw, change_delegate, extend"]}
{"id": "C09", "title": "Vault solvency", "statement": "At every moment the pool's vault holds at least the tokens not yet distributed plus everything owed to all minings of the pool (credited or still to be credited from past distributions), so a Claim never fails for lack of funds.", "quantifier": "every history of instructions by any parties, clock advances and outside transfers", "why_tests_cant": "an invariant over unbounded histories and any number of stakers", "anchors": ["programs/rewards/src/state/reward_pool.rs", "programs/rewards/src/state/mining.rs", "programs/rewards/src/instructions/fill_vault.rs", "programs/rewards/src/instructions/claim.rs"]}
{"id": "C10", "title": "Total stake equals the sum of the stakers' stakes", "statement": "On every day from today on, the pool's total weighted stake (after the expirations due by that day) covers the sum over all minings of the pool of their own plus delegated weighted stake on that day.", "quantifier": "every history, every future day, any number of minings", "why_tests_cant": "an aggregate invariant over unbounded histories", "anchors": ["programs/rewards/src/state/reward_pool.rs: deposit, withdraw, extend, slash, change_delegate, consume_old_modifiers"]}
{"id": "C11", "title": "Budget conservation", "statement": "FillVault adds exactly its amount to the budget, DistributeRewards removes exactly the amount it turns into index growth, no other instruction changes the budget; over any history budget + distributed = filled.", "quantifier": "every history (in which no pool account is passed in the place of a mining, see C27)", "why_tests_cant": "conservation over all interleavings of fills and distributions", "anchors": ["programs/rewards/src/instructions/fill_vault.rs", "programs/rewards/src/state/reward_pool.rs: distribute"]}
{"id": "C12", "title": "Daily amount", "statement": "DistributeRewards distributes floor(budget / whole days left) tokens, or the entire budget when less than one whole day is left; it never distributes more than the budget and the amount computation never overflows.", "quantifier": "every budget, end date and clock value", "why_tests_cant": "arithmetic over the full 64-bit range", "anchors": ["programs/rewards/src/state/reward_pool.rs: rewards_to_distribute, distribute"]}
{"id": "C13", "title": "At most one distribution per UTC day", "statement": "If DistributeRewards succeeds and another DistributeRewards for the same pool succeeds on the same UTC day, the second one changes neither budget nor index nor index history.", "quantifier": "every history between the two calls, every pool state", "why_tests_cant": "depends on the whole history (fails when the history is full)", "anchors": ["programs/rewards/src/state/reward_pool.rs: distribute, update_index"]}
{"id": "C14", "title": "Every distribution is recorded and becomes claimable", "statement": "Each distribution that removes tokens from the budget adds an entry dated the beginning of that day to the index history, whose value exceeds the previous one by floor(10^16 * amount / total stake).", "quantifier": "every pool state including a full index history", "why_tests_cant": "fails only after 1095 recorded distributions", "anchors": ["programs/rewards/src/state/reward_pool.rs: update_index, distribute", "programs/rewards/src/state/mod.rs: INDEX_HISTORY_MAX_SIZE"]}
{"id": "C15", "title": "The index only grows and history is immutable", "statement": "Over any history with a non-decreasing clock, entries of the index history are never changed or removed, are ordered by date with non-decreasing values, and the current index never decreases.", "quantifier": "every history (in which no pool account is passed in the place of a mining, see C27)", "why_tests_cant": "history-quantified monotonicity", "anchors": ["programs/rewards/src/state/reward_pool.rs: update_index"]}
{"id": "C16", "title": "A distributed amount is split in proportion to stake", "statement": "For one distribution of r tokens over total stake T a mining with stake s on that day becomes entitled to at most r*s/T, and to no less than r*s/T minus s/10^16 (scaled index rounding); equal stakes get equal entitlements.", "quantifier": "every r, T, s (in which no pool account is passed in the place of a mining, see C27)", "why_tests_cant": "rounding over all values", "anchors": ["programs/rewards/src/state/reward_pool.rs: update_index", "programs/rewards/src/state/mining.rs: update_index"]}
{"id": "C17", "title": "Deposit weights stake by lockup until expiry", "statement": "A successful deposit of a tokens for a period with multiplier k adds a*k to the depositor's and the pool's weighted stake on every day before the expiry day and exactly a from the expiry day on; the expiry day is the beginning of the deposit day plus 5/90/180/365 days; existing stakes are not affected.", "quantifier": "every mining, pool, amount, period and time with room in the expiration tables", "why_tests_cant": "quantifies over all future days and all coexisting stakes", "anchors": ["programs/rewards/src/state/reward_pool.rs: deposit", "programs/rewards/src/utils.rs: LockupPeriod"]}
{"id": "C18", "title": "A stake's expiration is never lost", "statement": "Whenever a deposit succeeds, its expiration is recorded both for the mining and for the pool.", "quantifier": "every state including full expiration tables", "why_tests_cant": "fails only when a 50/365-entry table is full", "anchors": ["programs/rewards/src/state/reward_pool.rs: deposit", "programs/rewards/src/state/mod.rs: MINING_MODIFIERS_TREE_CAPACITY"]}
{"id": "C19", "title": "The None lockup is never accepted", "statement": "No deposit and no extension whose old or new period is None succeeds.", "quantifier": "every state and argument", "why_tests_cant": "must hold for every amount, including 0 where the arithmetic check does not fire", "anchors": ["programs/rewards/src/utils.rs: LockupPeriod", "programs/rewards/src/state/reward_pool.rs: deposit, extend"]}
{"id": "C20", "title": "Withdraw removes exactly the amount", "statement": "A successful withdrawal of a tokens lowers the mining's and the pool's weighted stake on every day from today on by exactly a, lowers the delegate's delegated stake (and the pool's total once more) by exactly a when there is a delegate, and leaves all expirations after today in place.", "quantifier": "every state, amount and time", "why_tests_cant": "all states and days", "anchors": ["programs/rewards/src/state/reward_pool.rs: withdraw"]}
{"id": "C21", "title": "Slash removes stake and its future expiration consistently", "statement": "A successful slash of n tokens (m after weighting) with expiry date lowers the weighted stake of the mining and the pool by m on every day before the expiry day and by n from that day on; without expiry date by m on all days. It fails if no expiration is recorded on that date or m < n.", "quantifier": "every state and argument", "why_tests_cant": "all states and days", "anchors": ["programs/rewards/src/state/reward_pool.rs: slash"]}
{"id": "C22", "title": "Extending a stake replaces it", "statement": "A successful extension of a base stake b by an extra amount e is, for the mining and for the pool, on every day from today on, the same as removing the old stake (weight b*old multiplier before its expiry day, b from then on) and depositing b+e for the new period now.", "quantifier": "every state, day and argument", "why_tests_cant": "the old expiration lies in the future; tests never run up to it", "anchors": ["programs/rewards/src/state/reward_pool.rs: extend, modify_weighted_stake_diffs"]}
{"id": "C23", "title": "Changing the delegate moves exactly the stake", "statement": "A successful change of delegate lowers the old delegate's delegated stake by exactly the staked amount and raises the new delegate's by the same amount; the pool's total is changed by the same differences; passing the same account twice is rejected; nobody's own stake changes.", "quantifier": "every state and amount (in which no pool account is passed in the place of a mining, see C27)", "why_tests_cant": "all states", "anchors": ["programs/rewards/src/state/reward_pool.rs: change_delegate", "programs/rewards/src/instructions/change_delegate.rs"]}
{"id": "C24", "title": "Decrease-rewards penalty removes exactly n, latest expirations first", "statement": "A successful DecreaseRewards of n lowers the mining's weighted stake by exactly n, reduces recorded expirations starting from the latest by a total of min(n, sum of expirations) without ever touching an earlier one while a later one is non-zero, touches nothing else; n larger than the stake is rejected and n = 0 changes nothing.", "quantifier": "every mining and n", "why_tests_cant": "loop over an arbitrary table", "anchors": ["programs/rewards/src/state/mining.rs: decrease_rewards"]}
{"id": "C25", "title": "Expirations never exceed the stake", "statement": "The sum of a mining's recorded expirations never exceeds its weighted stake, so the stake can never become negative when they fall due: preserved by every instruction except withdrawals, slashes or extensions that take stake which is still locked.", "quantifier": "every history (in which no pool account is passed in the place of a mining, see C27)", "why_tests_cant": "invariant over unbounded histories", "anchors": ["programs/rewards/src/state/mining.rs", "programs/rewards/src/state/reward_pool.rs"]}
{"id": "C26", "title": "A claim cannot be blocked", "statement": "In every reachable state of a well-run pool, bringing a mining up to date never fails: index subtraction never underflows, stake never underflows, and the credit fits in 64 bits.", "quantifier": "every reachable state and every later time", "why_tests_cant": "absence of failures over all histories", "anchors": ["programs/rewards/src/state/mining.rs: refresh_rewards"]}
{"id": "C27", "title": "Who may change a pool", "statement": "If an instruction changes an initialized pool account's data then the right authority signed: fill authority for FillVault, distribute authority for DistributeRewards, deposit authority for every other instruction.", "quantifier": "every instruction, account list, world and signer set", "why_tests_cant": "adversarial account lists", "anchors": ["programs/rewards/src/instructions/*", "programs/rewards/src/asserts.rs", "programs/rewards/src/utils.rs: AccountLoader"]}
{"id": "C28", "title": "Who may change a mining", "statement": "If an instruction changes the data of a mining account of a pool then that pool's deposit authority signed, and for Claim, CloseMining and ChangeDelegate the acting mining's owner signed as well.", "quantifier": "every instruction, account list, world and signer set", "why_tests_cant": "adversarial account lists; fails because ChangeDelegate does not verify the old delegate account and CloseMining does not verify the pool", "anchors": ["programs/rewards/src/instructions/change_delegate.rs", "programs/rewards/src/instructions/close_mining.rs", "programs/rewards/src/asserts.rs: assert_and_get_pool_and_mining"]}
{"id": "C29", "title": "Pool isolation", "statement": "An instruction executed for one pool never changes minings that belong to another pool, nor credits them from the wrong pool's index.", "quantifier": "every instruction and account list", "why_tests_cant": "adversarial account lists", "anchors": ["programs/rewards/src/instructions/change_delegate.rs", "programs/rewards/src/instructions/close_mining.rs"]}
{"id": "C30", "title": "Configuration of a pool is immutable", "statement": "Once initialized, a pool's three authorities, reward mint and vault never change and it can never be initialized again, over any history.", "quantifier": "every history (in which no pool account is passed in the place of a mining, see C27)", "why_tests_cant": "history-quantified", "anchors": ["programs/rewards/src/instructions/initialize_pool.rs", "programs/rewards/src/state/reward_pool.rs: RewardPool::initialize"]}
{"id": "C31", "title": "One mining per owner and pool, never overwritten", "statement": "InitializeMining only succeeds at the address derived from owner and pool, creates it with zero stake, zero rewards and no expirations, and fails if something already exists there; owner, pool and bump of a mining never change until it is closed.", "quantifier": "every history (in which no pool account is passed in the place of a mining, see C27)", "why_tests_cant": "history-quantified", "anchors": ["programs/rewards/src/instructions/initialize_mining.rs", "programs/rewards/src/state/mining.rs: Mining::initialize"]}
{"id": "C32", "title": "Every mining account sits at its derived address", "statement": "In every reachable state each initialized mining account lies at the address derived from its recorded owner and pool.", "quantifier": "every history (in which no pool account is passed in the place of a mining, see C27)", "why_tests_cant": "needed because Claim and CloseMining do not re-derive the address", "anchors": ["programs/rewards/src/instructions/initialize_mining.rs", "programs/rewards/src/instructions/claim.rs", "programs/rewards/src/instructions/close_mining.rs"]}
{"id": "C33", "title": "Delegates are minings of the same pool", "statement": "If Deposit, Withdraw, Extend or ChangeDelegate succeeds with a (new) delegate account other than the mining itself, that account is the address derived from the named delegate wallet and the same pool.", "quantifier": "every account list", "why_tests_cant": "adversarial account lists", "anchors": ["programs/rewards/src/utils.rs: verify_delegate_mining_address, get_delegate_mining"]}
{"id": "C34", "title": "CloseMining is safe", "statement": "CloseMining succeeds only if the owner and the pool's deposit authority signed, nothing is delegated to the mining and, after bringing it up to date, nothing is unclaimed; it sends all lamports to the target and erases the data.", "quantifier": "every account list and world (in which no pool account is passed in the place of a mining, see C27)", "why_tests_cant": "all states", "anchors": ["programs/rewards/src/instructions/close_mining.rs"]}
{"id": "C35", "title": "Closing a mining does not strand stake", "statement": "A mining can be closed only when it has no weighted stake left, so the pool's total stake keeps matching the minings.", "quantifier": "every state", "why_tests_cant": "a missing check; tests close only empty minings", "anchors": ["programs/rewards/src/instructions/close_mining.rs"]}
{"id": "C36", "title": "Failed instructions change nothing; successful ones change only writable listed accounts", "statement": "An instruction that fails leaves every account as it was; one that succeeds changes only accounts that were passed as writable.", "quantifier": "every instruction and world", "why_tests_cant": "all error points", "anchors": ["programs/rewards/src/instructions/*", "programs/rewards/src/entrypoint.rs"]}
{"id": "C37", "title": "Lamports are conserved", "statement": "Every instruction leaves the sum of lamports over all accounts unchanged; only initialize and close instructions move lamports (and transfers of wrapped SOL, where the token program moves the lamports along with the tokens).", "quantifier": "every instruction and world", "why_tests_cant": "all account lists including repeated accounts", "anchors": ["programs/rewards/src/instructions/close_mining.rs", "programs/rewards/src/instructions/initialize_mining.rs", "programs/rewards/src/instructions/initialize_pool.rs"]}
{"id": "C38", "title": "Tokens are conserved and only fill and claim move them", "statement": "Every instruction leaves the sum of token amounts unchanged; only FillVault and Claim change any token account balance, and a balance falls only if the account's owner or delegate agreed.", "quantifier": "every instruction and world", "why_tests_cant": "all account lists including repeated accounts", "anchors": ["programs/rewards/src/instructions/fill_vault.rs", "programs/rewards/src/instructions/claim.rs"]}
{"id": "C39", "title": "FillVault exact effect", "statement": "A successful FillVault of r > 0 until date e moves r tokens from the source to the pool's vault, raises the budget by r and sets the end of distribution to the beginning of e's day, which is not before today and not before the previous end; r = 0 is rejected.", "quantifier": "every world and argument", "why_tests_cant": "all values", "anchors": ["programs/rewards/src/instructions/fill_vault.rs"]}
{"id": "C40", "title": "End of distribution is day aligned and never moves back", "statement": "Over any history a pool's end of distribution is a multiple of 86400 and never decreases.", "quantifier": "every history (in which no pool account is passed in the place of a mining, see C27)", "why_tests_cant": "history-quantified", "anchors": ["programs/rewards/src/instructions/fill_vault.rs"]}
{"id": "C41", "title": "The whole budget is eventually distributed", "statement": "If DistributeRewards succeeds, on a day not yet distributed, with less than one day left until the end, the budget becomes 0; daily distribution up to the end exhausts the budget.", "quantifier": "every budget and number of days (in which no pool account is passed in the place of a mining, see C27)", "why_tests_cant": "unbounded number of days", "anchors": ["programs/rewards/src/state/reward_pool.rs: rewards_to_distribute, distribute"]}
{"id": "C42", "title": "Expiry dates are day aligned and exact", "statement": "For every period other than None the expiry is the beginning of the start's UTC day plus 5, 90, 180 or 365 days; it is strictly later than the start; for None there is none; the table of days agrees.", "quantifier": "every start timestamp", "why_tests_cant": "all timestamps including the overflow boundary", "anchors": ["programs/rewards/src/utils.rs: LockupPeriod::end_timestamp, days, multiplier"]}
{"id": "C43", "title": "History lookup is exact for every tree shape", "statement": "Looking up the index for a date returns the value of the latest entry strictly before that date, or nothing if there is none, whatever the shape of the search tree, and terminates.", "quantifier": "every search tree and key", "why_tests_cant": "loop over arbitrary trees", "anchors": ["programs/rewards/src/state/mod.rs: find_max_value_limited_by_key"]}
{"id": "C44", "title": "No silent wrap-around", "statement": "Every number stored by a successful instruction fits its field (64 or 128 bits) and is the exact mathematical result; an operation that would not fit fails instead.", "quantifier": "every history (in which no pool account is passed in the place of a mining, see C27)", "why_tests_cant": "boundaries of the numeric range in every state", "anchors": ["programs/rewards/src/utils.rs: SafeArithmeticOperations", "programs/rewards/src/state/*"]}
{"id": "C45", "title": "Lazy pool expiration equals eager expiration", "statement": "Consuming due expirations removes exactly those dated up to the beginning of today, subtracts exactly their sum, and consuming at t1 then t2 equals consuming at t2.", "quantifier": "every table and times", "why_tests_cant": "loop over arbitrary tables", "anchors": ["programs/rewards/src/state/reward_pool.rs: consume_old_modifiers"]}
{"id": "C46", "title": "Instruction encoding round-trips", "statement": "Decoding the encoding of any instruction gives that instruction back; distinct instructions have distinct encodings; decoding accepts nothing else (no trailing bytes, no unknown tags).", "quantifier": "every instruction value and every byte string", "why_tests_cant": "infinite domain", "anchors": ["programs/rewards/src/instruction.rs: RewardsInstruction", "programs/rewards/src/instructions/mod.rs: process_instruction"]}
{"id": "C47", "title": "Generated clients encode what the program decodes", "statement": "For every instruction and arguments the data bytes produced by the generated Rust and JS clients decode in the program to that instruction with those arguments.", "quantifier": "every instruction and arguments", "why_tests_cant": "infinite domain", "anchors": ["clients/rust/src/generated/instructions/*", "clients/js/src/generated/instructions/*", "programs/rewards/src/instruction.rs"]}
{"id": "C48", "title": "Instruction builders list the accounts the program expects", "statement": "For every instruction the account list built by the crate's builder functions and by the generated clients passes the program's account parsing whenever the named accounts have the required owners and signatures.", "quantifier": "every instruction and choice of accounts", "why_tests_cant": "fails for the generated clients' ExtendStake", "anchors": ["programs/rewards/src/instruction.rs", "clients/rust/src/generated/instructions/extend_stake.rs", "idls/mplx_rewards.json"]}
{"id": "C49", "title": "Account headers decode as clients expect", "statement": "Reading the header bytes of a mining or pool account at the offsets the clients use gives back exactly the fields the program wrote; the header sizes are 144 and 176 bytes and the pool account length 64480 holds the header and both tables (exactly, or with 8760 bytes to spare where 128-bit numbers are 8-aligned).", "quantifier": "every header value", "why_tests_cant": "infinite domain", "anchors": ["programs/rewards/src/state/mining.rs: Mining", "programs/rewards/src/state/reward_pool.rs: RewardPool, WrappedRewardPool::LEN", "clients/js/src/generated/accounts/*", "clients/rust/src/generated/accounts/*"]}
{"id": "C50", "title": "Error codes are unambiguous", "statement": "Distinct program errors have distinct codes, equal to the codes in the generated clients.", "quantifier": "every pair of errors", "why_tests_cant": "finite but must be exhaustive", "anchors": ["programs/rewards/src/error.rs", "clients/rust/src/generated/errors/mplx_rewards.rs"]}
{"id": "C51", "title": "Stakes tracked by an honest staking program are tracked exactly", "statement": "If the deposit authority only reports operations on real stakes (deposit, withdraw after expiry, slash, change delegate, extend after expiry), then on every day each mining's weighted stake equals the sum over its stakes of amount times current multiplier, its delegated stake equals the sum of amounts delegated to it, and the pool's total equals the sum of both over all minings.", "quantifier": "every history of honest operations, any number of stakers and stakes", "why_tests_cant": "refinement to an abstract ledger over unbounded histories", "anchors": ["programs/rewards/src/state/reward_pool.rs", "programs/rewards/src/state/mining.rs"]}
{"id": "C52", "title": "A distribution cannot be blocked", "statement": "As long as some staker's stake is earning, the distribute authority can distribute the day's rewards: the instruction succeeds with the right accounts, whatever happened before.", "quantifier": "every history", "why_tests_cant": "depends on the consistency of totals after unbounded histories", "anchors": ["programs/rewards/src/instructions/distribute_rewards.rs", "programs/rewards/src/state/reward_pool.rs: distribute, consume_old_modifiers"]}
{"id": "C53", "title": "Unlocked stake can be withdrawn", "statement": "A withdrawal of an amount not exceeding the unlocked stake of a mining succeeds with the right accounts, whatever happened before.", "quantifier": "every history, every amount", "why_tests_cant": "depends on the consistency of totals after unbounded histories", "anchors": ["programs/rewards/src/instructions/withdraw_mining.rs", "programs/rewards/src/state/reward_pool.rs: withdraw"]}
{"id": "C54", "title": "Stake can be deposited and extended", "statement": "A deposit, and an extension of a flexible or expired stake, succeeds with the right accounts as long as all amounts and dates fit into 64 bits, whatever happened before.", "quantifier": "every history, every amount and lockup", "why_tests_cant": "depends on the consistency of totals after unbounded histories", "anchors": ["programs/rewards/src/instructions/deposit_mining.rs", "programs/rewards/src/instructions/extend_stake.rs", "programs/rewards/src/state/reward_pool.rs: deposit, extend"]}
{"id": "C55", "title": "The delegate can be changed", "statement": "A change of delegate succeeds with the right accounts as long as the old delegate's recorded stake covers the amount and all amounts fit into 64 bits, whatever happened before.", "quantifier": "every history, every amount", "why_tests_cant": "depends on the consistency of totals after unbounded histories", "anchors": ["programs/rewards/src/instructions/change_delegate.rs", "programs/rewards/src/state/reward_pool.rs: change_delegate"]}
{"id": "C56", "title": "A penalty does not take rewards already earned", "statement": "DecreaseRewards lowers the stake from now on; what the mining is owed for distributions already made does not change.", "quantifier": "every state, every penalty", "why_tests_cant": "fails when the mining has not been refreshed since the last distribution", "anchors": ["programs/rewards/src/instructions/penalties/decrease_rewards.rs", "programs/rewards/src/state/mining.rs: decrease_rewards"]}
{"id": "C57", "title": "The vault can always be filled", "statement": "The fill authority can put any positive amount they own into the pool's vault, to be distributed until any day that is neither past nor before the end announced earlier, as long as the amounts fit into 64 bits: the instruction succeeds with the right accounts in every reachable state.", "quantifier": "every reachable state, every amount and end date", "why_tests_cant": "liveness over all states", "anchors": ["programs/rewards/src/instructions/fill_vault.rs", "programs/rewards/src/utils.rs: spl_transfer"]}
{"id": "C58", "title": "A mining can be closed right after a claim", "statement": "A CloseMining with the right accounts that follows a successful Claim of the same mining in the same second succeeds, unless other stakers delegate to it; in particular the check for unclaimed rewards cannot fail.", "quantifier": "every reachable state, every mining (in which no pool account is passed in the place of a mining, see C27)", "why_tests_cant": "needs the exact effect of refreshing twice", "anchors": ["programs/rewards/src/instructions/close_mining.rs", "programs/rewards/src/instructions/claim.rs", "programs/rewards/src/state/mining.rs: refresh_rewards"]}
{"id": "C59", "title": "Pools and minings can be created", "statement": "Anyone who pays the rent can create the mining of any staker in any pool, and a pool and its vault from a zeroed account; also again after the mining was closed. Nobody can prevent it.", "quantifier": "every state, every staker, pool and mint", "why_tests_cant": "fails when somebody sends lamports to the derived address in advance", "anchors": ["programs/rewards/src/instructions/initialize_mining.rs", "programs/rewards/src/instructions/initialize_pool.rs", "programs/rewards/src/utils.rs: create_account"]}
{"id": "C60", "title": "A pool never pays out more than it has distributed", "statement": "Over its whole lifetime, what a pool has paid out by claims plus what its stakers are still owed is at most what was distributed, which is at most what was filled; the vault holds exactly what was filled and not yet paid out.", "quantifier": "every history", "why_tests_cant": "needs an invariant over unbounded histories of all stakers", "anchors": ["programs/rewards/src/instructions/claim.rs", "programs/rewards/src/instructions/fill_vault.rs", "programs/rewards/src/instructions/distribute_rewards.rs", "programs/rewards/src/state/mining.rs", "programs/rewards/src/state/reward_pool.rs"]}
{"id": "C61", "title": "Income of an idle staker", "statement": "While no instruction writes to a staker's mining, nothing that other stakers, authorities or outside programs do takes away what the staker has earned, and every distribution adds exactly the floor of tokens per unit of total stake, times the staker's stake of the day (as long as the pool's history of distributions has room).", "quantifier": "every history, every mining (in which no pool account is passed in the place of a mining, see C27)", "why_tests_cant": "needs an invariant over unbounded histories with arbitrary interleaving", "anchors": ["programs/rewards/src/state/reward_pool.rs: distribute", "programs/rewards/src/state/mining.rs: refresh_rewards"]}
{"id": "C62", "title": "Distributed tokens reach the stakers, except for dust", "statement": "A distribution of r tokens over a total stake T credits all stakers together at most r tokens and more than r - T / 10^16 tokens.", "quantifier": "every history, every set of stakers", "why_tests_cant": "needs equality of the pool's total and the sum over all stakers after unbounded histories", "anchors": ["programs/rewards/src/state/reward_pool.rs: distribute", "programs/rewards/src/state/mining.rs"]}
{"id": "C63", "title": "An honestly run pool is solvent and pays", "statement": "If the staking program reports only operations on real stakes and brings delegates up to date before raising their stake, the vault always covers everything undistributed and owed, every claim with the right accounts succeeds, and so does every distribution while there is a stake.", "quantifier": "every honest history, any number of stakers and stakes; failed instructions unrestricted", "why_tests_cant": "links what the staking program does to the internal consistency of the pool over unbounded histories", "anchors": ["programs/rewards/src/state/reward_pool.rs", "programs/rewards/src/state/mining.rs", "programs/rewards/src/instructions/claim.rs", "programs/rewards/src/instructions/distribute_rewards.rs"]}
{"id": "C64", "title": "No honest stake gets stuck", "statement": "In an honestly run pool every part of every existing stake can be withdrawn or slashed, every matured stake can be extended, and every stake can be redelegated, with the right accounts and as long as amounts fit into 64 bits.", "quantifier": "every honest history, every stake in it", "why_tests_cant": "liveness over unbounded histories", "anchors": ["programs/rewards/src/instructions/withdraw_mining.rs", "programs/rewards/src/instructions/extend_stake.rs", "programs/rewards/src/instructions/change_delegate.rs", "programs/rewards/src/instructions/penalties/slash.rs", "programs/rewards/src/state/reward_pool.rs"]}
{"id": "C65", "title": "An honestly run pool can be emptied", "statement": "Once all stakes of an honestly run pool have matured, the deposit authority alone can withdraw all of them, one after the other in the same second, whatever happened before; afterwards the pool's total and every mining's own and delegated stake are zero.", "quantifier": "every honest history, any number of stakes", "why_tests_cant": "liveness of a whole sequence of operations after unbounded histories", "anchors": ["programs/rewards/src/instructions/withdraw_mining.rs", "programs/rewards/src/state/reward_pool.rs: withdraw"]}
{"id": "C66", "title": "A pool rewards at most 1095 days", "statement": "The history of a pool holds at most 1095 distributions. Once it is full it never changes again: further distributions still take tokens from the budget, but no mining is ever owed anything for them; so in an orderly run pool all later payouts together are at most what was owed when it became full.", "quantifier": "every history (in which no pool account is passed in the place of a mining, see C27)", "why_tests_cant": "needs a history of three years", "anchors": ["programs/rewards/src/state/reward_pool.rs: distribute", "programs/rewards/src/state/mining.rs: refresh_rewards"]}
{"id": "C67", "title": "Daily amounts do not fall without a reason", "statement": "After a distribution of an amount a, as long as the pool is not filled and a whole day is left, the amount due on any later day is at least a again, also when days were skipped; on the very next day it is a or a + 1.", "quantifier": "every history after the distribution", "why_tests_cant": "arithmetic over arbitrary gaps and interleavings; fails in the first second of a day", "anchors": ["programs/rewards/src/state/reward_pool.rs: rewards_to_distribute"]}
{"id": "C68", "title": "Equal treatment of stakers", "statement": "Stakers earn in proportion to their stakes: over any period in which a mining's stake is all the time a / b times another's, what the pool comes to owe it is exactly a / b times what it comes to owe the other. Several minings together earn exactly what one mining with the sum of their stakes earns.", "quantifier": "every history in which the minings in question are not written to (in which no pool account is passed in the place of a mining, see C27)", "why_tests_cant": "sums over all distributions of unbounded histories with stakes expiring in between", "anchors": ["programs/rewards/src/state/mining.rs: refresh_rewards", "programs/rewards/src/state/reward_pool.rs: distribute"]}
{"id": "C69", "title": "A pool can be wound up", "statement": "When no stake is left in an honestly run pool, any number of stakers can claim and close their minings one after the other: every instruction succeeds, each is paid the whole tokens they are owed and gets the rent back, the vault loses exactly what is paid and still covers the undistributed tokens, and nothing else changes. If all stakers do so no mining is left.", "quantifier": "every honest history, any number of stakers", "why_tests_cant": "liveness of a whole sequence of operations after unbounded histories", "anchors": ["programs/rewards/src/instructions/claim.rs", "programs/rewards/src/instructions/close_mining.rs"]}
{"id": "C70", "title": "Errors tell the truth", "statement": "An instruction first checks its accounts in the documented order, and the first one that is missing, has a wrong owner, lacks a signature, has a wrong address or is in use determines the error; signature and owner errors arise in no other way. When the accounts are fine and of the right kind and the instruction fails nevertheless, the thing the error names is really wrong: the authority, the staker, the pool, the vault, the delegate, the dates, the amounts or the unclaimed rewards.", "quantifier": "every reachable state, every instruction, every list of accounts (in which no pool account is passed in the place of a mining, see C27)", "why_tests_cant": "quantifies over all ways of failing in all states, including combinations of several mistakes", "anchors": ["programs/rewards/src/asserts.rs", "programs/rewards/src/error.rs", "programs/rewards/src/utils.rs", "programs/rewards/src/instructions/", "programs/rewards/src/state/"]}
{"id": "C71", "title": "No panics", "statement": "In every reachable state an instruction on a pool and minings never aborts the program with a panic, unless no address can be derived for a new account or a lock would end beyond the 64-bit range of seconds.", "quantifier": "every reachable state, every instruction with a pool and minings in their places", "why_tests_cant": "a test can only show single executions without a panic", "anchors": ["programs/rewards/src/state/mining.rs", "programs/rewards/src/state/reward_pool.rs", "programs/rewards/src/utils.rs", "programs/rewards/src/instructions/"]}
{"id": "C72", "title": "The account of a staker over a whole life", "statement": "From the creation of a mining on, what its owner is paid plus what is still owed equals the mining's part of every distribution, by the stake it had on that day; never more, and less only by rounding to whole tokens each time it is brought up to date or a lock expires. This holds whatever deposits, withdrawals, extensions, slashes, redelegations and claims are made in whatever order, unless a penalty is imposed, the own stake changes in the first second of a day or delegated stake changes while the mining is not up to date.", "quantifier": "every history, any interleaving of operations of all stakers (in which no pool account is passed in the place of a mining, see C27)", "why_tests_cant": "sums over all events of unbounded histories", "anchors": ["programs/rewards/src/state/mining.rs: refresh_rewards", "programs/rewards/src/state/reward_pool.rs", "programs/rewards/src/instructions/claim.rs"]}
{"id": "C73", "title": "Nothing without the right signatures", "statement": "As long as none of a pool's three authorities signs, its data and that of all its minings stays the same whatever others do with pools of their own; it only gains empty minings. As long as the owner of a mining does not sign, it is not closed, nothing is paid from it and the rewards credited to it do not become fewer. No token account, vault or other, loses tokens to an instruction that neither its owner nor its SPL delegate signs.", "quantifier": "every history, any number of strangers, pools and instructions, in any order (in which no pool account is passed in the place of a mining, see C27)", "why_tests_cant": "quantifies over all attacks by all strangers, in all states and sequences", "anchors": ["programs/rewards/src/asserts.rs", "programs/rewards/src/utils.rs", "programs/rewards/src/instructions/"]}
{"id": "C74", "title": "The order of stakers does not matter", "statement": "Two instructions for stakers of the same pool (deposit, withdrawal, extension, slash, change of delegate, penalty, claim) executed in the same second that have no mining in common may come in either order: they pay the same amounts, all other accounts and all token balances end up the same, and the pool has the same configuration, budget, index, history and total on every day from then on. The pool's table of expirations must have room for two more dates.", "quantifier": "every state, every pair of such instructions that succeed in both orders (in which no pool account is passed in the place of a mining, see C27)", "why_tests_cant": "compares all interleavings in all states; depends on the arithmetic of both being independent of the pool's total", "anchors": ["programs/rewards/src/state/reward_pool.rs", "programs/rewards/src/state/mining.rs", "programs/rewards/src/instructions/"]}
{"id": "C75", "title": "Exactly when operations succeed", "statement": "Made with the right accounts, each operation succeeds exactly if its conditions on the stored numbers hold, and nothing else can block it. A withdrawal: staker, pool and delegate have the amount on the day. A deposit: the period has terms and the results fit into 64 bits. An extension: the old stake is recorded (if still locked) and can be exchanged for the new one. A change of delegate: the old delegate has the stake, the new one can take it. A slash: the weight can be withdrawn and both tables have the lock. A penalty: the weight covers it. A distribution: there is stake. A claim: the vault has what is due, and exactly that is paid. Closing: nothing is due and nobody delegates to the mining. Filling: the amount is positive and at hand, and the end is neither past nor moved back. Whatever needs a mining up to date also needs its stake to cover its expirations and its rewards to fit.", "quantifier": "every reachable state, every amount, period, date and staker (in which no pool account is passed in the place of a mining, see C27)", "why_tests_cant": "an equivalence: tests can neither show that no further condition exists nor that each is needed in all states", "anchors": ["programs/rewards/src/state/reward_pool.rs", "programs/rewards/src/state/mining.rs", "programs/rewards/src/instructions/"]}
{"id": "C76", "title": "Splitting an amount changes nothing", "statement": "Withdrawing, depositing, moving delegated stake, slashing, imposing a penalty and filling the vault with a + b has exactly the same effect as doing so with a and then with b in the same second: one way succeeds if and only if the other does, and every account ends up the same. The minings of the delegates involved must be up to date, and the amounts in the range of the arithmetic.", "quantifier": "every reachable state, all amounts and their parts (in which no pool account is passed in the place of a mining, see C27)", "why_tests_cant": "compares two executions for all states and all ways to split; rounding or order effects show only for special values", "anchors": ["programs/rewards/src/state/reward_pool.rs", "programs/rewards/src/state/mining.rs", "programs/rewards/src/instructions/"]}
{"id": "C77", "title": "Round trips leave no trace", "statement": "A flexible deposit that is withdrawn at once, a withdrawal that is deposited again, a locked deposit that is slashed completely at once: all that has happened afterwards is that pool and mining are up to date; nobody has gained or lost stake, nothing has been credited that was not due before, and no other account has changed. A flexible deposit can be withdrawn at once. Delegated stake that is moved to another delegate can be moved back, which gives exactly the state before. The minings of the delegates involved must be up to date.", "quantifier": "every reachable state, all amounts, periods and delegates (in which no pool account is passed in the place of a mining, see C27)", "why_tests_cant": "an exploit would be a special state in which a round trip pays; tests try a few", "anchors": ["programs/rewards/src/state/reward_pool.rs", "programs/rewards/src/state/mining.rs", "programs/rewards/src/instructions/"]}
{"id": "C78", "title": "Pools and minings are what was asked for", "statement": "InitializePool turns an account that held no pool into an empty pool with exactly the authorities and the mint asked for, creates its vault as an empty token account of the deposit authority at the derived address, lets the signing payer pay the rent, and changes nothing else. Whatever happened before, every existing pool was created by an InitializePool that its deposit authority signed with the configuration it still has, and every existing mining by an InitializeMining for its owner and pool, and it was not closed since.", "quantifier": "every history from before the first use (in which no pool account is passed in the place of a mining, see C27)", "why_tests_cant": "provenance over unbounded histories with closing, reopening and outside transactions", "anchors": ["programs/rewards/src/instructions/initialize_pool.rs", "programs/rewards/src/instructions/initialize_mining.rs"]}
{"id": "C79", "title": "The published interface description is right", "statement": "Whoever builds a client from idls/mplx_rewards.json gets it right: data built by an entry from arguments of the described types is decoded by the program to the instruction of that name with those arguments in the fields of those names, and every instruction can be sent in this way; the described accounts are those the program expects, in order and with the privileges it needs; an account read field by field as described gives the numbers the program sees in it; and the errors have the described codes, names and messages.", "quantifier": "every entry, all argument values, all account contents", "why_tests_cant": "a test sends single instructions; the claim is about all values of all arguments and all bytes of accounts", "anchors": ["idls/mplx_rewards.json", "programs/rewards/src/instruction.rs", "programs/rewards/src/error.rs", "programs/rewards/src/state/"]}
{"id": "C80", "title": "Extending is withdrawing and depositing again", "statement": "Extending a stake whose tokens are free (flexible, or the lock is over) has exactly the same effect as withdrawing it and depositing it, with the additional amount, for the new period: one way succeeds if and only if the other does, and every account ends up the same (the pool's expirations must be up to date). Extending an undelegated stake whose lock is running is the same as slashing it completely and depositing it again, except that the pool keeps what was to expire with the old lock.", "quantifier": "every reachable state, all amounts, periods and start times (in which no pool account is passed in the place of a mining, see C27)", "why_tests_cant": "compares different code paths for all states; the difference in the second part shows only when the old lock ends", "anchors": ["programs/rewards/src/state/reward_pool.rs", "programs/rewards/src/instructions/extend_stake.rs"]}
{"id": "C81", "title": "The choice of the delegate makes no difference to the staker", "statement": "Depositing, withdrawing or extending with one delegate, with another one, or with none, leaves the staker's mining as exactly the same account: no delegate can cost or bring the staker anything. The pool differs in its total only, by the delegated amount, and apart from the minings of the delegates nothing else differs.", "quantifier": "every reachable state, all amounts and delegates (in which no pool account is passed in the place of a mining, see C27)", "why_tests_cant": "relates two executions for all states and delegates", "anchors": ["programs/rewards/src/state/reward_pool.rs", "programs/rewards/src/state/mining.rs", "programs/rewards/src/instructions/"]}
{"id": "C82", "title": "The time of day does not matter", "statement": "What an instruction does depends on the day only: submitted at another time of the same UTC day it succeeds or fails alike, has the same effect on every account and returns the same amount. Hence a whole history in which everything happens in the same order on the same days, but at other times of the day, ends in exactly the same accounts. The one exception is the very second of midnight, which for claims and distributions belongs to the day before.", "quantifier": "every reachable state, every instruction, all times of all days; every history (in which no pool account is passed in the place of a mining, see C27)", "why_tests_cant": "compares all pairs of moments of a day, in all states and for whole histories", "anchors": ["programs/rewards/src/state/mining.rs: refresh_rewards", "programs/rewards/src/state/reward_pool.rs", "programs/rewards/src/utils.rs: get_curr_unix_ts", "programs/rewards/src/instructions/"]}
{"id": "C83", "title": "Instructions depend on their accounts only", "statement": "In any two states that agree on the accounts in its list, an instruction has the same outcome: the same error, or success with the same return value and the same listed accounts. Accounts that are not listed as writable never change.", "quantifier": "every state (reachable or not), every instruction, every list of accounts", "why_tests_cant": "compares two arbitrary states; a test cannot vary everything else on the chain", "anchors": ["programs/rewards/src/instructions/", "programs/rewards/src/utils.rs: AccountLoader", "programs/rewards/src/asserts.rs"]}
{"id": "C84", "title": "Unrelated instructions do not influence each other", "statement": "If no instruction of one group names an account that an instruction of another group may write to, then in whatever way the two groups are interleaved, every instruction has the same outcome (also the same error) as if the other group did not exist, and every account ends up as its own group alone would have left it. In particular two such instructions can be exchanged.", "quantifier": "every state, any number of instructions in both groups, every interleaving", "why_tests_cant": "all interleavings of unboundedly many instructions", "anchors": ["programs/rewards/src/instructions/"]}
{"id": "C85", "title": "The builders of the clients assemble what the caller names", "statement": "Whoever names the accounts of an instruction to a builder of the generated clients (JS functions, Rust builders, Rust builders for cross-program calls) gets an instruction with exactly these accounts, in the client's order and with the client's privileges; accounts with a fixed address need not be named to the JS and Rust builders, and neither the payer in JS; a Rust builder refuses (panics) exactly if something else is missing; JS hands over a signer for every address that has to sign, and no account hides an argument; additional accounts are appended with the privileges asked for.", "quantifier": "every instruction, every choice of named, omitted and additional accounts", "why_tests_cant": "combinatorially many ways to call the builders; no test passes additional accounts", "anchors": ["clients/js/src/generated/instructions/*", "clients/js/src/generated/shared/index.ts: getAccountMetasAndSigners", "clients/rust/src/generated/instructions/*"]}
{"id": "C86", "title": "Staking more or for longer never earns less", "statement": "If a history is continued in two ways that differ only in one deposit, the second at least as large and as long as the first, and the staker then does nothing while the same things happen around them, then in the end they are owed at least as much with the larger or longer stake (except for roundings of 1/10^16 token per unit of stake and distribution).", "quantifier": "every reachable state, all amounts and periods, every common continuation", "why_tests_cant": "compares two whole histories; every later event changes the shares", "anchors": ["programs/rewards/src/state/reward_pool.rs: deposit, distribute", "programs/rewards/src/state/mining.rs", "programs/rewards/src/instructions/deposit_mining.rs"]}
{"id": "C87", "title": "Nobody gains from somebody else's larger stake", "statement": "If a history is continued in two ways that differ only in one deposit, the second at least as large and as long as the first, then any other staker who does nothing (and is not the delegate) is in the end owed at most as much in the second history as in the first.", "quantifier": "every reachable state, all amounts, periods and delegates, every common continuation", "why_tests_cant": "compares two whole histories; every later event changes the shares", "anchors": ["programs/rewards/src/state/reward_pool.rs: deposit, distribute", "programs/rewards/src/state/mining.rs", "programs/rewards/src/instructions/deposit_mining.rs"]}
{"id": "C88", "title": "Filling a vault with more costs nobody anything", "statement": "Take two histories with the same instructions, of which the same succeed, except that in the second the vaults are filled with at least as many tokens every time (until the same dates). In the end every staker has got at least as much in the second history, counting what they have been paid and what they are still owed, to the last 1/10^16 token. (Callers of ChangeDelegate pass an old delegate of the pool, callers of CloseMining the mining's own pool; the program checks neither.)", "quantifier": "every pair of histories of any length, every pool and mining (in which no pool account is passed in the place of a mining, see C27)", "why_tests_cant": "compares two whole histories with arbitrary amounts; roundings happen at every claim and distribution", "anchors": ["programs/rewards/src/state/reward_pool.rs: fill, distribute", "programs/rewards/src/state/mining.rs", "programs/rewards/src/instructions/"]}
{"id": "C89", "title": "Rewards have no influence on stakes", "statement": "Take two histories with the same instructions, of which the same succeed, except that the vaults are filled with other amounts and until other dates. In the end the same pools and minings exist, with the same owners, authorities, stakes, delegated stakes, expirations and totals; only the rewards differ.", "quantifier": "every pair of histories of any length (in which no pool account is passed in the place of a mining, see C27)", "why_tests_cant": "compares two whole histories, with arbitrary amounts and dates of fillings", "anchors": ["programs/rewards/src/state/reward_pool.rs", "programs/rewards/src/state/mining.rs", "programs/rewards/src/instructions/"]}
{"id": "C90", "title": "No address is privileged", "statement": "If all addresses are exchanged for others (in the accounts, in the list of accounts and in the arguments; likewise the addresses of the programs and the derived ones), every instruction has the same outcome: the same error, or the same return value and the same accounts with their addresses exchanged. The same holds for whole histories. So there is no hidden owner or other address which the program treats in a special way.", "quantifier": "every state, every list of accounts, every instruction, every exchange of addresses that keeps the zero address", "why_tests_cant": "no test can try all addresses; a hard-coded one is never hit by chance", "anchors": ["programs/rewards/src/instructions/", "programs/rewards/src/utils/", "programs/rewards/src/state/"]}
{"id": "C91", "title": "No date is special", "statement": "An instruction executed any number of days later, with all dates in its arguments and in the accounts later by the same number of days, has the same outcome: the same error, or the same return value and the same accounts with later dates. The same holds for whole histories. So there is no date on which the program starts to behave differently. (No pool is passed as a mining or the other way round; the clock is past 1 January 1970 and a year before the end of the 64-bit calendar.)", "quantifier": "every state, every instruction, every number of days", "why_tests_cant": "no test can try all dates; a hard-coded date is never hit by chance", "anchors": ["programs/rewards/src/instructions/", "programs/rewards/src/utils.rs", "programs/rewards/src/state/"]}
{"id": "C92", "title": "Taking stake out never pays", "statement": "If a history is continued in two ways, the first with a withdrawal or a slash of a staker's stake, the second with one that takes no more, or with none at all, and the staker then does nothing while the same things happen around them, then in the end they are owed at most as much in the first history as in the second (except for roundings of 1/10^16 token per unit of stake and distribution).", "quantifier": "every reachable state, all amounts and dates, every common continuation", "why_tests_cant": "compares two whole histories; every later event changes the shares", "anchors": ["programs/rewards/src/state/reward_pool.rs: withdraw, slash, distribute", "programs/rewards/src/state/mining.rs", "programs/rewards/src/instructions/withdraw_mining.rs", "programs/rewards/src/instructions/penalties/slash.rs"]}
{"id": "C93", "title": "Nobody loses by somebody else's withdrawal or penalty", "statement": "If a history is continued in two ways, the first with a withdrawal or a slash of somebody's stake, the second with one that takes no more from the pool, or with none at all, then any other staker who does nothing (and is not the delegate) is in the end owed at least as much in the first history as in the second.", "quantifier": "every reachable state, all amounts, dates and delegates, every common continuation", "why_tests_cant": "compares two whole histories; every later event changes the shares", "anchors": ["programs/rewards/src/state/reward_pool.rs: withdraw, slash, distribute", "programs/rewards/src/state/mining.rs", "programs/rewards/src/instructions/withdraw_mining.rs", "programs/rewards/src/instructions/penalties/slash.rs"]}
{"id": "C94", "title": "How a stake is divided makes no difference", "statement": "Somebody deposits an amount for one period into minings of theirs, not delegated or all delegated to the same delegate: in one deposit or in many, into one mining or into several. Whatever happens afterwards (without these minings taking part) has the same effect on the pool and on everybody else, the delegate included, to the last field, and the minings together are owed the same, except for roundings of up to one token per mining and passed end of a lock-up period. So nobody gains by opening many accounts.", "quantifier": "every reachable state, every list of minings, all amounts and ways of dividing them, every common continuation", "why_tests_cant": "compares whole histories with any number of deposits and accounts", "anchors": ["programs/rewards/src/state/reward_pool.rs: deposit, distribute", "programs/rewards/src/state/mining.rs", "programs/rewards/src/instructions/deposit_mining.rs"]}
{"id": "C95", "title": "When and how often rewards are claimed makes no difference", "statement": "Take two histories from the same state in which the same happens, except that a staker claims at other times, more often, less often or never, and is neither penalized nor closed. Then everybody else is paid the same, all other accounts (but token accounts) are the same to the last field, and the staker earns with the same stake on every day to come. What the staker has been paid plus what they are still owed is the same too, except for roundings of one token for every time their mining was brought up to date and every lock that ended, if their own stake is not changed in the first second of a day and stake delegated to them only when they are up to date.", "quantifier": "every reachable state, any two histories that differ in one staker's claims only (in which no pool account is passed in the place of a mining, see C27); for what the staker earns, the histories are careful as in C72 (own stake not changed in the first second of a day, delegated stake changed only when the mining is up to date); until the history of the pool is full (C66)", "why_tests_cant": "compares whole histories with any number of claims anywhere; every claim changes the state that all later events work on", "anchors": ["programs/rewards/src/instructions/claim.rs", "programs/rewards/src/state/mining.rs: refresh_rewards, claim", "programs/rewards/src/state/reward_pool.rs"]}
{"id": "C96", "title": "Delegated stake is worth as much to the delegate as their own", "statement": "Somebody deposits an amount delegated to a mining that is up to date, and its owner deposits something without a lock-up period. If the amount had not been delegated, and the owner had deposited it in addition, then the pool and all accounts would be the same to the last field, except that in the delegate's mining the same stake is recorded as their own; this stays so whatever happens afterwards in both histories, and everybody, the delegate included, is paid the same.", "quantifier": "every reachable state with an up-to-date delegate, all amounts and periods, every common continuation (in which no pool account is passed in the place of a mining, see C27)", "why_tests_cant": "compares two whole histories with any later events", "anchors": ["programs/rewards/src/state/reward_pool.rs: deposit, distribute", "programs/rewards/src/state/mining.rs", "programs/rewards/src/instructions/deposit_mining.rs"]}
{"id": "C97", "title": "Sending lamports or tokens to accounts changes nothing else", "statement": "Anybody may send any amounts of lamports and tokens to any existing account: pools, minings, vaults, users. Every instruction that would have succeeded still succeeds, everybody is paid the same, and all accounts are the same to the last field, except that they have the gifts in addition. The only instruction that moves a gift is CloseMining, which pays out all lamports of the mining. So nobody can disturb the rewards by sending tokens to a vault.", "quantifier": "every state, every instruction, all amounts sent to any set of accounts; every history in which nothing fails", "why_tests_cant": "gifts may go to any accounts at any time; compares whole histories", "anchors": ["programs/rewards/src/instructions/", "programs/rewards/src/utils.rs", "programs/rewards/src/asserts.rs"]}
{"id": "C98", "title": "Staking earlier never earns less", "statement": "If a history is continued in two ways with the same events, in which one staker makes a deposit (not delegated) at once or only later, the later one weighing no more on any day from then on (so for example the same amount without a lock-up period), and otherwise does nothing, then in the end they are owed at least as much in the first history as in the second (except for roundings), and any other staker who does nothing is owed at most as much, also if the deposits are delegated.", "quantifier": "every reachable state, all amounts, periods and dates, any events between the two times and afterwards", "why_tests_cant": "compares two whole histories; every event between the two times changes the shares", "anchors": ["programs/rewards/src/state/reward_pool.rs: deposit, distribute", "programs/rewards/src/state/mining.rs", "programs/rewards/src/instructions/deposit_mining.rs"]}
{"id": "C99", "title": "Taking stake out later never earns less", "statement": "If a history is continued in two ways with the same events, in which a staker's stake (not delegated) is withdrawn or slashed at once or only later, the later one taking no more, and the staker otherwise does nothing, then in the end they are owed at least as much in the second history as in the first (except for roundings), and any other staker who does nothing is owed at most as much, also if the stake is delegated.", "quantifier": "every reachable state, all amounts and dates, any events between the two times and afterwards", "why_tests_cant": "compares two whole histories; every event between the two times changes the shares", "anchors": ["programs/rewards/src/state/reward_pool.rs: withdraw, slash, distribute", "programs/rewards/src/state/mining.rs", "programs/rewards/src/instructions/withdraw_mining.rs", "programs/rewards/src/instructions/penalties/slash.rs"]}
{"id": "C100", "title": "Exactly the listed accounts, signatures and write privileges are needed", "statement": "Every instruction looks at a fixed number of accounts. It succeeds if and only if it would succeed with all privileges, the authorities at fixed positions have signed, the accounts passed on to other programs (payer and new account, source and destination of a transfer) are writable, and all accounts that change are writable. Further accounts, signatures and write privileges make no difference.", "quantifier": "every state, every instruction, every list of accounts", "why_tests_cant": "all lists of accounts with all combinations of privileges", "anchors": ["programs/rewards/src/instructions/", "programs/rewards/src/utils.rs: AccountLoader", "programs/rewards/src/instruction.rs"]}
{"id": "C101", "title": "A slash without an expiration date is a withdrawal", "statement": "Slashing an amount without giving an expiration date (flexible stake, or stake whose lock has ended) succeeds exactly when the deposit authority could withdraw the same weighted amount from the staker's own mining without a delegate, and leaves all accounts the same to the last field. The native amount given with it has no influence.", "quantifier": "every state, every three accounts, all amounts", "why_tests_cant": "two different instructions compared in all states, with every reason to fail", "anchors": ["programs/rewards/src/state/reward_pool.rs: slash, withdraw", "programs/rewards/src/instructions/penalties/slash.rs", "programs/rewards/src/instructions/withdraw_mining.rs"]}
{"id": "C102", "title": "Only the proportions of the stakes matter", "statement": "Of two histories with the same events, let all amounts of stake be c times as large in the second (deposits, withdrawals, extensions, redelegations, slashes, penalties). Then the same pools and minings exist, with c times the stake, the totals and the scheduled expirations included. Every staker receives the same rewards, except for roundings to whole tokens and 10^(-16) tokens for every distribution and unit of stake. So rewards do not depend on the unit in which stake is counted.", "quantifier": "every factor, every two histories with the same events in which the same instructions succeed, every staker not penalized whose mining is not closed (in which no pool account is passed in the place of a mining, see C27); for what the staker earns, the histories are careful as in C72 (own stake not changed in the first second of a day, delegated stake changed only when the mining is up to date, no penalties); until the history of the pool is full (C66)", "why_tests_cant": "compares two whole histories, for every factor; an example fixes the factor and the amounts", "anchors": ["programs/rewards/src/state/reward_pool.rs", "programs/rewards/src/state/mining.rs"]}
{"id": "C103", "title": "Only the present and the future matter", "statement": "Take two histories of any kind that have led by now to the same budget until the same day and the same stakes on every day from today on: the stakes may have been made at different times and for different periods, and different rewards may have been distributed and paid before. If the same things happen from now on, the pool distributes the same amounts and a staker earns exactly the same; what they are paid and still owed at the end differs only by what they were owed already today and by roundings to whole tokens. So nothing about the past counts except through the present stake: for instance, a stake whose lock-up period has ended earns like one that never had one.", "quantifier": "every two reachable states that agree about the future, every history afterwards in which the same instructions succeed, every staker neither closed nor penalized (in which no pool account is passed in the place of a mining, see C27); for what the staker earns, the histories are careful as in C72 (own stake not changed in the first second of a day, delegated stake changed only when the mining is up to date, no penalties); until the history of the pool is full (C66)", "why_tests_cant": "compares two whole histories with arbitrary different pasts; tests only try a few", "anchors": ["programs/rewards/src/state/reward_pool.rs", "programs/rewards/src/state/mining.rs"]}
{"id": "C104", "title": "Rewards are proportional to the budget", "statement": "Compare two histories that are the same except that every filling of a vault in the second is a fixed multiple b/a of the filling in the first. Then everything distributed by a pool, what is left of its budget, and what every staker has been paid and is owed, are in the same proportion, up to fewer than 2*max(a,b) reward units (in terms of the products b*x and a*y) per distribution day, one unit per payment rounding, and a 10^-16 part of a unit per unit of stake and day. In particular the error never accumulates faster than the number of distributions, however long the history and however large the amounts: what one day's rounding withholds is paid out later.", "quantifier": "every proportion, every two histories that differ only in this proportion, every pool with the same distribution days, every staker neither closed nor penalized (in which no pool account is passed in the place of a mining, see C27); for what the staker earns, the histories are careful as in C72 (own stake not changed in the first second of a day, delegated stake changed only when the mining is up to date, no penalties) and the first one orderly (withdrawals of unlocked stake only, tables not full); until the history of the pool is full (C66)", "why_tests_cant": "compares two whole histories; rounding errors of one distribution influence the budgets of all later ones, so the bound is a statement about all lengths of histories", "anchors": ["programs/rewards/src/state/reward_pool.rs", "programs/rewards/src/state/mining.rs", "programs/rewards/src/instructions/fill_vault.rs"]}
{"id": "C105", "title": "However instructions are grouped into transactions", "statement": "Transactions may contain any number of instructions of this program, as arbitrary bytes, mixed with instructions of other programs that also call this program. A transaction takes effect as a whole, namely exactly like its instructions one after the other, or, as soon as one of them fails, not at all; so every state between transactions is one that a history of single successful instructions leads to, and all other properties hold for it.", "quantifier": "every history of transactions, every grouping, all bytes (in which no pool account is passed in the place of a mining, see C27)", "why_tests_cant": "tests send a few fixed transactions, mostly with one instruction", "anchors": ["programs/rewards/src/entrypoint.rs", "programs/rewards/src/instructions/mod.rs"]}
{"id": "C106", "title": "A steady share of the stake earns the same share of the tokens, whenever they are distributed", "statement": "A staker who at every distribution has the share a/b of the pool's stake gets a/b of the tokens that leave the budget, up to one token whenever they are brought up to date and 10^-16 token per unit of stake and distribution: at most that much if the share is at most a/b, at least that much if it is at least a/b. So for a steady share it makes no difference on which days, how often and in which portions the tokens are distributed, nor how the total stake changes.", "quantifier": "every careful history, every share, every schedule of fillings and distributions (in which no pool account is passed in the place of a mining, see C27); until the history of the pool is full (C66)", "why_tests_cant": "tests distribute to fixed stakes on fixed days", "anchors": ["programs/rewards/src/state/reward_pool.rs", "programs/rewards/src/state/mining.rs", "programs/rewards/src/instructions/distribute_rewards.rs"]}
{"id": "C107", "title": "Extending a stake never earns less", "statement": "Whoever extends a stake (whether its lock is running or not, with or without adding tokens) so that from then on it weighs on every day at least as much as before, is in the end owed at least as much as without the extension if everything else goes on in the same way, up to roundings; and nobody else is owed more.", "quantifier": "every orderly history, every extension, every continuation with the same events", "why_tests_cant": "tests never compare two histories", "anchors": ["programs/rewards/src/state/reward_pool.rs", "programs/rewards/src/instructions/extend_stake.rs"]}
{"id": "C108", "title": "A penalty concerns nobody but the penalized", "statement": "If a staker is penalized (DecreaseRewards) at other times, with other amounts or not at all, and everything else goes on in the same way, then all pools and all minings of everybody else are exactly the same, and everybody else is paid the same: the penalized amount is neither taken out of the pool's total nor given to others.", "quantifier": "every reachable state, any two histories that differ only in penalties on one mining and claims from it (in which no pool account is passed in the place of a mining, see C27)", "why_tests_cant": "tests never compare two histories", "anchors": ["programs/rewards/src/state/mining.rs", "programs/rewards/src/instructions/penalties/decrease_rewards.rs"]}
{"id": "C109", "title": "Being penalized never pays", "statement": "A staker who is penalized any number of times, with everything else the same, ends with a stake that earns at most as much on every later day, and is paid and owed at most what they would be paid and owed without the penalties, up to one token per rounding. (A penalty lowers the weighted stake and its expirations; no later deposit, withdrawal, extension or slashing turns this into an advantage.)", "quantifier": "every reachable state, any two histories of one staker, one with penalties and one without, that otherwise differ only in the staker's claims (in which no pool account is passed in the place of a mining, see C27); for what the staker earns, the histories are careful as in C72 (own stake not changed in the first second of a day, delegated stake changed only when the mining is up to date); until the history of the pool is full (C66)", "why_tests_cant": "tests never compare two histories", "anchors": ["programs/rewards/src/state/mining.rs", "programs/rewards/src/instructions/penalties/decrease_rewards.rs", "programs/rewards/src/state/reward_pool.rs"]}
{"id": "C110", "title": "A budget is spread evenly over the days", "statement": "If a budget of T tokens has to last for n days, is not filled and is distributed every day, then floor(T/n) tokens are distributed on each day, and one more on each of the last T mod n days: when n' days are left, exactly floor(T/n) * n' + min(T mod n, n') tokens are left, and at the end none.", "quantifier": "every budget, number of days and history with a distribution every day (not in the first second of a day), whatever the stakers do; until the history of the pool is full (C66)", "why_tests_cant": "tests distribute a few times with amounts that divide evenly", "anchors": ["programs/rewards/src/state/reward_pool.rs", "programs/rewards/src/instructions/distribute_rewards.rs"]}
{"id": "C111", "title": "A staker gets what the ledger of stakes says", "statement": "In a pool whose staking program reports only operations on real stakes, everything a staker is ever paid plus what is still owed is the sum over all distributions of the tokens distributed, per unit of all stakes on that day, times the staker's own stakes (amount times current multiplier) and the stakes delegated to them: computed from the list of stakes alone, never more, and less only by one token for every time the mining is brought up to date or a lock expires. All dividends of a distribution together never exceed the tokens distributed. Exceptions as in C72: no closing and no penalty, no change of the own stake in the first second of a day, no change of delegated stake while not up to date.", "quantifier": "every honest history, any number of stakers and stakes, from before the mining is created; for what the staker earns, the histories are careful as in C72 (own stake not changed in the first second of a day, delegated stake changed only when the mining is up to date, no penalties); until the history of the pool is full (C66)", "why_tests_cant": "relates sums over whole histories to a ledger that exists nowhere in the program", "anchors": ["programs/rewards/src/state/mining.rs", "programs/rewards/src/state/reward_pool.rs", "programs/rewards/src/instructions/claim.rs"]}
{"id": "C112", "title": "A claim pays the dividends since the last claim", "statement": "In a pool whose staking program reports only operations on real stakes, a claim of a staker whose mining nobody has touched since their last claim pays exactly the dividends of their stakes in between: the sum over the distributions of the tokens distributed, per unit of all stakes on that day, times the staker's own and received stakes on that day, computed from the list of stakes alone, rounded down once to whole tokens. (One more rounding for every lock that has expired since; both claims not in the first second of a day; the pool's history not full.)", "quantifier": "every honest history, any number of other stakers and any operations of theirs between the two claims (in which no pool account is passed in the place of a mining, see C27)", "why_tests_cant": "relates the amount of one payment to a ledger that exists nowhere in the program", "anchors": ["programs/rewards/src/instructions/claim.rs", "programs/rewards/src/state/mining.rs", "programs/rewards/src/state/reward_pool.rs"]}
{"id": "C113", "title": "The larger the penalty, the less is earned", "statement": "Penalize a staker in the same situation by a larger or by a smaller amount, and let the same happen afterwards (claims of the staker at any times, and further penalties in the first case): with the larger penalty the stake never earns more on any day, and the staker is paid and owed at most what they would be with the smaller one, up to one token for every rounding to whole tokens. Exceptions as in C72.", "quantifier": "every reachable state, any two amounts, any two parallel histories of any length (in which no pool account is passed in the place of a mining, see C27); for what the staker earns, the histories are careful as in C72 (own stake not changed in the first second of a day, delegated stake changed only when the mining is up to date); until the history of the pool is full (C66)", "why_tests_cant": "compares two whole histories that differ in one amount", "anchors": ["programs/rewards/src/state/mining.rs:80-110", "programs/rewards/src/instructions/penalties/decrease_rewards.rs", "programs/rewards/src/instructions/claim.rs"]}
{"id": "C114", "title": "Of a group of stakers the others see only what it does as a whole", "statement": "Take any group of stakers and two histories in which the same happens, except for what the members arrange among themselves: which of them makes, extends, is slashed for or withdraws a stake (on the same terms), to which of them a stake delegated within the group is delegated, when they move delegations among themselves, when they claim and how they are penalized. Then every pool with its total stake and its distributions, and the stake, the rewards and the payments of everybody outside the group, are exactly the same in both.", "quantifier": "every reachable state, any group of any size, any two parallel histories of any length (in which no pool account is passed in the place of a mining, see C27)", "why_tests_cant": "compares two whole histories that differ in any number of instructions of any number of stakers", "anchors": ["programs/rewards/src/state/reward_pool.rs:164-440", "programs/rewards/src/instructions/change_delegate.rs", "programs/rewards/src/instructions/deposit_mining.rs", "programs/rewards/src/instructions/withdraw_mining.rs", "programs/rewards/src/instructions/extend_stake.rs"]}
{"id": "C115", "title": "A group earns the same together, however it arranges its stakes", "statement": "In two histories of honest operations that differ only in what the members of a group arrange among themselves (who of them holds a stake, to whom of them it is delegated, when they claim), the group has the same stake to earn with on every day, the sum of its members' parts of the distributions is exactly the same, and what they have been paid and are still owed together differs by no more than the rounding to whole tokens (one for every time a member is brought up to date and for every lock that expires). Members are neither penalized nor closed, do not change their stake in the first second of a day, and are up to date when the stake delegated to them changes.", "quantifier": "every state reached from genesis by honest operations, any group of any size, any two parallel honest histories of any length (in which no pool account is passed in the place of a mining, see C27); for what the staker earns, the histories are careful as in C72 (own stake not changed in the first second of a day, delegated stake changed only when the mining is up to date, no penalties); until the history of the pool is full (C66)", "why_tests_cant": "compares sums over any number of stakers in two whole histories that differ in any number of instructions", "anchors": ["programs/rewards/src/state/reward_pool.rs:164-440", "programs/rewards/src/state/mining.rs:165-240", "programs/rewards/src/instructions/change_delegate.rs", "programs/rewards/src/instructions/claim.rs"]}
{"id": "C116", "title": "Delegating never costs the staker and the delegate together", "statement": "Compare a deposit that is delegated to a mining that is up to date with the same deposit undelegated, in an orderly history that otherwise goes on alike while the two do nothing. In the end staker and delegate together are owed at least as much with the delegation as without (up to 1/10^16 token per unit of their stake and distribution), and so is the delegate alone; the staker alone and every other mining of the pool that does nothing are owed at most as much. So somebody with two minings always does better to delegate from one to the other, at the cost of everybody else.", "quantifier": "every orderly history (withdrawals of unlocked stake only, tables not full), any deposit, any two parallel continuations of any length (in which no pool account is passed in the place of a mining, see C27)", "why_tests_cant": "compares the sums owed in two histories of arbitrary length, where the same stake is counted once or twice", "anchors": ["programs/rewards/src/state/reward_pool.rs:164-240", "programs/rewards/src/instructions/deposit_mining.rs", "programs/rewards/src/state/mining.rs:60-110"]}
{"id": "C117", "title": "Fillings that pay for the days they add do not lower the daily amounts", "statement": "After a distribution of some amount, as long as every later filling brings at least that amount for each day by which it moves the end of distribution, every distribution on a later day, with at least a whole day left and not in the first second of its day, pays out at least that amount again, whether or not days were skipped in between and whatever stakers do. Without the condition this is false: a filling of a single token that moves the end by ninety days lowers the daily amount from 1111 to 69 in the example.", "quantifier": "every well-formed state, any two distributions of one pool with room in its history, any continuation between them of any length with any number of such fillings (in which no pool account is passed in the place of a mining, see C27)", "why_tests_cant": "quantifies over histories of arbitrary length with any number of fillings and skipped days; rounding accumulates", "anchors": ["programs/rewards/src/instructions/distribute_rewards.rs", "programs/rewards/src/instructions/fill_vault.rs", "programs/rewards/src/state/reward_pool.rs:134-162,487-520"]}
{"id": "C118", "title": "What it takes to pass a pool off as a mining", "statement": "Minings and pools are not told apart by every instruction, but a pool can pass for a mining only under narrow conditions. CloseMining closes a pool only if the last eight bytes of its mint's address are all zero, its index is a multiple of 2^64 and its distribute authority signs. Claim pays for a pool only if its deposit authority is itself the address of the paying pool and its distribute authority signs. ChangeDelegate accepts a pool as the old delegate only if the amount is at most the last eight bytes of its index and the first sixteen bytes of its mint's address, as a number, are at most the index of the pool of the call, and it leaves its three authorities as they are. So where all pools are ordinary (no such mint, no deposit authority that is an account of the program) no pool is ever claimed from or closed as a mining, and a history in which nobody names a pool as an old delegate ends exactly like one without type confusion.", "quantifier": "every state, every account list, every pool and its bytes under both alignments; all histories with ordinary pools, of any length", "why_tests_cant": "tests do not pass accounts of the wrong type, and the conditions speak about all addresses and bytes", "anchors": ["programs/rewards/src/instructions/close_mining.rs", "programs/rewards/src/instructions/claim.rs", "programs/rewards/src/instructions/change_delegate.rs", "programs/rewards/src/state/mining.rs", "programs/rewards/src/state/reward_pool.rs"]}
{"id": "C119", "title": "Extending by more or for longer does not earn less", "statement": "If the owner of a stake extends it by at least as many tokens and for at least as long a period (with at least the multiplier) as they could otherwise have done, they are later owed at least as much, except for roundings, when everything else is the same; and the other stakers are owed at most as much.", "quantifier": "pairs of histories of any length that agree except for the extension they begin with, every stake, both amounts and both periods (in which no pool account is passed in the place of a mining, see C27)", "why_tests_cant": "two executions of arbitrary length are compared, for all amounts and periods", "anchors": ["programs/rewards/src/instructions/extend_stake.rs", "programs/rewards/src/state/reward_pool.rs", "programs/rewards/src/state/mining.rs"]}
{"id": "C120", "title": "A change of delegates only moves what the delegated stake earns", "statement": "If a delegation is moved from one delegate to another, both up to date, everything else later is the same as if it had not been moved: all pools, all other minings and payments; the new delegate is owed more and the old one less by exactly the delegated amount times what is paid per unit of stake, and the staker is owed the same up to rounding. Beginning to delegate (or ending it) raises (lowers) what staker and delegate are owed together, except for roundings, and never raises (lowers) what the staker or any other staker is owed.", "quantifier": "pairs of histories of any length that agree except for the change of delegate one of them begins with, every amount, every staker and pair of delegates that are up to date (for beginning and ending: the staker, too) and whose expirations do not exceed their stakes, while the delegates do nothing; beginning and ending for orderly histories (as in C116) without full tables (in which no pool account is passed in the place of a mining, see C27)", "why_tests_cant": "two executions of arbitrary length are compared, for all amounts and stakes", "anchors": ["programs/rewards/src/instructions/change_delegate.rs", "programs/rewards/src/state/reward_pool.rs", "programs/rewards/src/state/mining.rs"]}
{"id": "C121", "title": "The rent rule of the runtime does not get in the way", "statement": "The Solana runtime refuses a transaction that leaves an account with lamports but fewer than make it exempt from rent (unless it was so before and received nothing). No instruction of the program violates this rule, provided that the payer for a new account keeps nothing or enough for an empty account, token accounts are exempt from rent, wrapped lamports apart, and a mining is closed in favour of an account that is exempt or no larger than a mining; the payer's condition is exact. In histories in which everybody else keeps to the rule all pools, minings and vaults stay exempt until they are closed.", "quantifier": "every instruction in every state, every transaction and every history of any length, any minimum balance that grows with the size of accounts", "why_tests_cant": "the rule is enforced by the runtime for every account of a transaction; tests fund their accounts generously", "anchors": ["programs/rewards/src/instructions/close_mining.rs:43-52", "programs/rewards/src/instructions/initialize_mining.rs:26-47", "programs/rewards/src/utils.rs:53-70", "programs/rewards/src/instructions/initialize_pool.rs"]}
{"id": "C122", "title": "Who has more stake on every day earns more", "statement": "Of two stakers of the same pool, let the first hold at most a / b times the stake of the second whenever rewards are distributed, whatever the two deposit, withdraw, extend, delegate or claim in between. Then everything the first is paid and owed, beyond what they were owed at the beginning, is at most a / b times what the second is paid and owed, plus the tokens the second loses to roundings. In particular who has no stake whenever rewards are distributed earns nothing. Exceptions as in C72.", "quantifier": "every history of any length, any two stakers, any ratio (in which no pool account is passed in the place of a mining, see C27); for what the staker earns, the histories are careful as in C72 (own stake not changed in the first second of a day, delegated stake changed only when the mining is up to date, no penalties); until the history of the pool is full (C66)", "why_tests_cant": "two stakers are compared over unbounded histories in which both keep changing their stakes", "anchors": ["programs/rewards/src/state/mining.rs: refresh_rewards", "programs/rewards/src/state/reward_pool.rs: distribute, claim"]}
{"id": "C123", "title": "The rewards from several budgets add up", "statement": "Compare three histories that are the same except that every filling of a vault in the first is divided between the second and the third. Then what the pool distributes and has left in the first is what it distributes and has left in the other two together, up to 4 reward units per distribution day; and a staker is paid and owed in the first what they are paid and owed in the other two together, up to these units, one unit per payment rounding and 10^-16 of a unit (or twice that) per unit of stake and day. So every sponsor's tokens go to the same stakers as if the others did not exist.", "quantifier": "every division of every filling, every three histories that differ only in it, every pool with the same distribution days, every staker (in which no pool account is passed in the place of a mining, see C27); for what the staker earns, the histories are careful as in C72 (own stake not changed in the first second of a day, delegated stake changed only when the mining is up to date, no penalties) and the first one orderly (withdrawals of unlocked stake only, tables not full); until the history of the pool is full (C66)", "why_tests_cant": "three executions of arbitrary length are compared, with rounding errors that must not build up over the days", "anchors": ["programs/rewards/src/state/reward_pool.rs: rewards_to_distribute, distribute", "programs/rewards/src/instructions/fill_vault.rs", "programs/rewards/src/state/mining.rs: refresh_rewards"]}
{"id": "C124", "title": "Credited rewards are paid out or stay credited", "statement": "Rewards once credited to a mining leave it only by being paid in a Claim from this mining. No deposit, withdrawal, extension, slash, penalty, change of delegate, distribution or anything else takes them away, whoever signs it, and a mining to which rewards are credited cannot be closed. So after any history, what was credited at its beginning has been paid or is still credited.", "quantifier": "every well-formed state and mining, orderly or not, every instruction and history by anybody (in which no pool account is passed in the place of a mining, see C27)", "why_tests_cant": "every instruction writes the whole record, and the claim is about all of them in any sequence", "anchors": ["programs/rewards/src/state/mining.rs: refresh_rewards, claim, decrease_rewards", "programs/rewards/src/state/reward_pool.rs: deposit, withdraw, extend, slash, change_delegate", "programs/rewards/src/instructions/close_mining.rs"]}
{"id": "C125", "title": "Nothing is earned without stake", "statement": "A mining with neither stake of its own nor delegated stake is credited nothing by any instruction, whatever has been distributed and for however long it has been left alone. Over any history in which it has no stake after any step, what it is paid and what is credited to it at the end is exactly what was credited to it at the beginning.", "quantifier": "every well-formed state, every mining without stake, every instruction and history by anybody (in which no pool account is passed in the place of a mining, see C27)", "why_tests_cant": "the mining may be years behind the index of its pool, or be brought up to date with the index of another pool", "anchors": ["programs/rewards/src/state/mining.rs: refresh_rewards, consume_old_modifiers, update_index", "programs/rewards/src/state/reward_pool.rs: deposit, withdraw, extend, slash, change_delegate", "programs/rewards/src/instructions/claim.rs"]}
{"id": "C126", "title": "A pool takes and pays one token through one vault", "statement": "Whatever mint and vault accounts are passed, FillVault and Claim of a pool succeed only with the mint the pool was created with and the one vault derived from pool and mint, although the program never compares the mint account with the mint stored in the pool. No instruction for a pool changes the balance of a token account of another mint.", "quantifier": "every history from before the first use, every caller and account list, as long as the pool account is not removed and the token program does not change the mint of the program's vaults (in which no pool account is passed in the place of a mining, see C27)", "why_tests_cant": "an attacker may create any mints and token accounts and pass them in the place of the right ones", "anchors": ["programs/rewards/src/instructions/claim.rs", "programs/rewards/src/instructions/fill_vault.rs", "programs/rewards/src/instructions/initialize_pool.rs", "programs/rewards/src/utils.rs: find_vault_program_address"]}
{"id": "C127", "title": "What one's own stake has earned is paid or stays owed", "statement": "What a mining has earned by its own stake - rewards credited to it and rewards of recorded distributions not credited yet - is after any instruction and any history either paid by claims from this mining or still owed to it, up to one base unit for every rounding (one for each instruction that names the mining, and one for each lock that has expired); a mining that is owed more cannot be closed. Withdrawing, being slashed, extending, getting or losing delegated stake takes none of it away. Excepted are DecreaseRewards on the mining, instructions that name the mining together with another pool, and instructions on it in the very second of midnight a distribution is dated with. While no instruction names the mining, what it is owed does not go down at all.", "quantifier": "every history, every caller, all stakes, dates and rewards (in which no pool account is passed in the place of a mining, see C27)", "why_tests_cant": "the order in which stake operations, distributions and expirations meet decides whether uncredited rewards survive a change of stake", "anchors": ["programs/rewards/src/state/mining.rs: refresh_rewards", "programs/rewards/src/state/reward_pool.rs", "programs/rewards/src/instructions/close_mining.rs", "programs/rewards/src/instructions/claim.rs"]}
{"id": "C128", "title": "The pool's table of expirations does not overflow while due expirations are removed", "statement": "Every expiration recorded in a pool is dated at a midnight at most 365 days from today. A distribution, a withdrawal or a slashing removes every expiration due by that day. From then on the table has at most 365 entries and one for every midnight passed; so with the capacity of 365 entries a pool is created with, on a day on which rewards have been distributed no stake that begins or is extended afterwards meets a full table, and its expiration is recorded in the pool. If nothing of this kind happens for long enough this fails: the stake is counted with its full multiplier and its expiration is not recorded.", "quantifier": "every history, every number of stakers, all lockups and dates (in which no pool account is passed in the place of a mining, see C27)", "why_tests_cant": "a full table takes hundreds of stakes on different dates; whether it can occur depends on all dates that were ever recorded and on when they were removed", "anchors": ["programs/rewards/src/state/reward_pool.rs: deposit, consume_old_modifiers", "programs/rewards/src/utils.rs: LockupPeriod", "programs/rewards/src/state/mod.rs: PoolWeightedStakeDiffs"]}
{"id": "C129", "title": "The first fifty stakes of a staker are recorded in their mining", "statement": "The table of expirations of a mining grows by at most one entry for every stake begun or extended for it, and by nothing else: not by withdrawals, claims, slashings, penalties, being chosen as a delegate or the stakes of others. So, as long as fewer stakes were begun or extended since the mining was created than the table has entries (50), the next deposit is recorded in the mining under the date its lockup ends, with the whole of its extra weight, and so is the next extension.", "quantifier": "every history from the creation of a mining on in which it is not closed, all lockups and dates (in which no pool account is passed in the place of a mining, see C27)", "why_tests_cant": "a test sees one history; the bound concerns every way in which a mining can be written, including as a delegate", "anchors": ["programs/rewards/src/state/mining.rs: refresh_rewards", "programs/rewards/src/state/reward_pool.rs: deposit, extend, slash", "programs/rewards/src/state/mod.rs: MiningWeightedStakeDiffs"]}
{"id": "C130", "title": "Whoever begins fewer than fifty stakes in 365 days has all of them recorded", "statement": "From its creation on, and as long as it is not closed, a mining has no expiration recorded for later than 365 days from today. So it has at most as many expirations still to come as stakes were begun or extended for it during the last 365 days. If these were fewer than the table has entries (50), the next deposit or extension is recorded in the mining under the date its lockup ends, with the whole of its extra weight, however many stakes there were in earlier years: expirations that are over take up no room.", "quantifier": "every history from the creation of a mining on in which it is not closed, all lockups and dates (in which no pool account is passed in the place of a mining, see C27)", "why_tests_cant": "concerns years of use; a test that fills the table and waits sees one pattern of dates", "anchors": ["programs/rewards/src/state/mining.rs: refresh_rewards", "programs/rewards/src/state/reward_pool.rs: deposit, extend, slash", "programs/rewards/src/utils.rs: LockupPeriod", "programs/rewards/src/state/mod.rs: MiningWeightedStakeDiffs"]}
{"id": "C131", "title": "Every distribution of the first 1095 days is recorded", "statement": "The index history of a pool gets at most one entry a day, however often rewards are distributed. So before the 1095th day after its creation it is not full, and on each of the first 1095 days a distribution that takes tokens from the budget is recorded under the date of that day, with the index raised by the tokens per unit of stake. Another distribution on the same day takes nothing, whatever happens in between. Before the 1095th day a staker who is careful as in C72 has been paid or is still owed all that their stake has earned since they joined, but for the roundings.", "quantifier": "every history from the creation of a pool on, any number of distributions (in which no pool account is passed in the place of a mining, see C27)", "why_tests_cant": "a test would have to run through three years of days; the bound concerns every way to call the program in between", "anchors": ["programs/rewards/src/state/reward_pool.rs: distribute", "programs/rewards/src/state/mod.rs: CumulativeIndex", "programs/rewards/src/instructions/distribute_rewards.rs"]}
