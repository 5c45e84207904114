{"claims": [
  {"property": "C01", "status": "proved", "theorems": ["Verif.C01_claim_exact"], "note": "exact payout, vault and user balances, frame over all accounts"},
  {"property": "C02", "status": "partial", "theorems": ["Verif.C02_second_claim_pays_nothing", "Verif.C02_history_partial", "Verif.C02_reopened_false"], "note": "over every history in which the mining stays in being; false if it is closed and opened anew in between (counterexample proved)"},
  {"property": "C03", "status": "proved", "theorems": ["Verif.C03_only_owner_paid"], "note": ""},
  {"property": "C04", "status": "proved", "theorems": ["Verif.C04_refresh_formula", "Verif.C04_credited_by_instruction"], "note": "method and every instruction that credits"},
  {"property": "C05", "status": "proved", "theorems": ["Verif.C05_refresh_twice", "Verif.C05_refresh_idempotent"], "note": ""},
  {"property": "C06", "status": "partial", "theorems": ["Verif.C06_own_stake_partial", "Verif.C06_own_stake_false"], "note": "holds when all recorded distributions are dated before now; false in the very second of midnight (counterexample proved)"},
  {"property": "C07", "status": "partial", "theorems": ["Verif.C07_deposit_partial", "Verif.C07_change_delegate_partial", "Verif.C08_extend_partial", "Verif.C07_delegated_stake_false"], "note": "false of the code: delegated stake is added before the delegate is brought up to date; true part under that condition"},
  {"property": "C08", "status": "partial", "theorems": ["Verif.C08_withdraw_partial", "Verif.C08_change_delegate_partial", "Verif.C08_extend_partial", "Verif.C08_removed_stake_false"], "note": "false of the code: delegated stake is removed before the delegate is brought up to date; true part under that condition"},
  {"property": "C09", "status": "partial", "theorems": ["Verif.C09_solvency_partial", "Verif.C09_false_stale_delegate", "Verif.C09_false_stale_redelegation", "Verif.C09_false_midnight", "Verif.C09_false_early_extension", "Verif.C09_false_self_fill", "Verif.C09_false_other_pool", "Verif.C09_false_outside"], "note": "False as stated: seven histories lead to insolvency. Proved for every history of orderly events (Spec.Orderly), any length, any number of minings, any other pools."},
  {"property": "C10", "status": "partial", "theorems": ["Verif.C10_total_stake_partial", "Verif.C10_false_early_extension", "Verif.C10_false_full_table"], "note": "False as stated: extension before expiry and a full table of expirations break it. Proved for every history of orderly events."},
  {"property": "C11", "status": "proved", "theorems": ["Verif.C11_budget_instruction", "Verif.C11_new_pool", "Verif.C11_budget_history"], "note": "per instruction and over whole histories"},
  {"property": "C12", "status": "proved", "theorems": ["Verif.C12_amount_computable", "Verif.C12_daily_amount"], "note": ""},
  {"property": "C13", "status": "partial", "theorems": ["Verif.C13_one_per_day_partial", "Verif.C13_one_per_day_false"], "note": "false of the code once the index history (1095 entries) is full: counterexample proved; proved while it has room, which is so for the first 1095 days (C131)"},
  {"property": "C14", "status": "partial", "theorems": ["Verif.C14_recorded_partial", "Verif.C14_recorded_false"], "note": "false of the code once the index history is full: counterexample proved; proved while it has room, which is so for the first 1095 days (C131)"},
  {"property": "C15", "status": "proved", "theorems": ["Verif.C15_history_immutable"], "note": ""},
  {"property": "C16", "status": "proved", "theorems": ["Verif.C16_proportional"], "note": "for recorded distributions (history not full, see C14) and minings not ahead of the pool's index"},
  {"property": "C17", "status": "proved", "theorems": ["Verif.C17_deposit"], "note": ""},
  {"property": "C18", "status": "partial", "theorems": ["Verif.C18_expiration_recorded_partial", "Verif.C18_expiration_lost_false"], "note": "needs room in the tables; with a full table the expiration is silently lost (counterexample proved); C128 and C129 say which histories leave room, so that the expiration is recorded"},
  {"property": "C19", "status": "proved", "theorems": ["Verif.C19_none_rejected"], "note": ""},
  {"property": "C20", "status": "proved", "theorems": ["Verif.C20_withdraw"], "note": ""},
  {"property": "C21", "status": "proved", "theorems": ["Verif.C21_slash"], "note": ""},
  {"property": "C22", "status": "partial", "theorems": ["Verif.C22_extend_partial", "Verif.C22_extend_false"], "note": "false of the code for a lock that has not expired: the pool keeps the old expiration (counterexample proved)"},
  {"property": "C23", "status": "proved", "theorems": ["Verif.C23_change_delegate"], "note": ""},
  {"property": "C24", "status": "proved", "theorems": ["Verif.C24_decrease"], "note": ""},
  {"property": "C25", "status": "proved", "theorems": ["Verif.C25_backed", "Verif.C25_false_locked_withdrawal"], "note": "For every history in which withdrawals, slashes and extensions take only unlocked stake and no pool account is passed as a mining; the counterexample shows that the restriction is needed."},
  {"property": "C26", "status": "partial", "theorems": ["Verif.C26_refresh_partial", "Verif.C26_claim_partial", "Verif.C26_false_stale_delegate", "Verif.C26_false_locked_withdrawal"], "note": "Proved for every history of orderly events, for bringing a mining up to date and for the whole Claim instruction; the counterexamples show failures otherwise."},
  {"property": "C27", "status": "partial", "theorems": ["Verif.C27_pool_authority_partial", "Verif.C27_false"], "note": "false as stated: a pool passed as ChangeDelegate's old delegate is overwritten (C27_false); proved when no pool is passed as a mining"},
  {"property": "C28", "status": "partial", "theorems": ["Verif.C28_mining_authority_partial", "Verif.C28_any_arguments_partial", "Verif.C28_false"], "note": "false as stated (C28_false); proved for callers passing the right old delegate and pool, and the part that holds for any arguments"},
  {"property": "C29", "status": "partial", "theorems": ["Verif.C29_isolation_partial", "Verif.C29_false"], "note": "false as stated: C29_false credits a mining from another pool's index; proved for callers passing the right old delegate and pool"},
  {"property": "C30", "status": "proved", "theorems": ["Verif.C30_configuration", "Verif.C30_confused_false"], "note": "over histories without pool-as-mining type confusion (see C27); C30_confused_false shows that with it the configuration can change"},
  {"property": "C31", "status": "proved", "theorems": ["Verif.C31_create", "Verif.C31_identity"], "note": ""},
  {"property": "C32", "status": "proved", "theorems": ["Verif.C32_address"], "note": ""},
  {"property": "C33", "status": "proved", "theorems": ["Verif.C33_delegate"], "note": ""},
  {"property": "C34", "status": "proved", "theorems": ["Verif.C34_close"], "note": "pool argument: see C28_false for why it need not be the mining's own pool"},
  {"property": "C35", "status": "partial", "theorems": ["Verif.C35_close_empty_partial", "Verif.C35_false"], "note": "false as stated (C35_false); proved for minings without stake"},
  {"property": "C36", "status": "proved", "theorems": ["Verif.C36_instruction", "Verif.C36_transaction"], "note": "arbitrary states and account lists, no assumption on contents"},
  {"property": "C37", "status": "proved", "theorems": ["Verif.C37_lamports"], "note": ""},
  {"property": "C38", "status": "proved", "theorems": ["Verif.C38_tokens"], "note": ""},
  {"property": "C39", "status": "proved", "theorems": ["Verif.C39_fill_vault"], "note": ""},
  {"property": "C40", "status": "proved", "theorems": ["Verif.C40_end_of_distribution"], "note": ""},
  {"property": "C41", "status": "proved", "theorems": ["Verif.C41_exhausted", "Verif.C41_even"], "note": ""},
  {"property": "C42", "status": "proved", "theorems": ["Verif.C42_expiry", "Verif.C42_later", "Verif.C42_table", "Verif.C42_fails"], "note": "For every period and timestamp, both directions."},
  {"property": "C43", "status": "proved", "theorems": ["Verif.C43_lookup", "Verif.C43_shape", "Verif.C43_model"], "note": "The loop of find_max_value_limited_by_key on arenas holding a search tree of any shape. That the red-black tree of the dependency is such a search tree is assumed."},
  {"property": "C44", "status": "proved", "theorems": ["Verif.C44_arithmetic", "Verif.C44_instruction", "Verif.C44_history"], "note": "Histories without type confusion (NotPoolAsMining); clock below 2^64."},
  {"property": "C45", "status": "proved", "theorems": ["Verif.C45_consume", "Verif.C45_neutral", "Verif.C45_lazy"], "note": "For every sorted table."},
  {"property": "C46", "status": "proved", "theorems": ["Verif.C46_decode", "Verif.C46_round_trip", "Verif.C46_injective", "Verif.C46_exact_length", "Verif.C46_tag", "Verif.C46_entrypoint"], "note": "Every byte string and every instruction."},
  {"property": "C47", "status": "proved", "theorems": ["Verif.C47_client_data", "Verif.C47_entrypoint"], "note": "Every argument value, every client."},
  {"property": "C48", "status": "partial", "theorems": ["Verif.C48_crate_builders_partial", "Verif.C48_crate_builders_merged_partial", "Verif.C48_crate_roles_partial", "Verif.C48_clients_partial", "Verif.C48_clients_own_stake_partial", "Verif.C48_client_extendStake_false", "Verif.C48_client_closeMining_false", "Verif.C48_client_delegate_false"], "note": "True of the builders in the program crate. False of the generated clients: their ExtendStake and CloseMining never succeed, nor do deposit and withdraw with a delegate; proved for the rest."},
  {"property": "C49", "status": "proved", "theorems": ["Verif.C49_sizes", "Verif.C49_mining_agree", "Verif.C49_pool_agree", "Verif.C49_mining", "Verif.C49_pool", "Verif.C49_pool_as_mining"], "note": "Both possible alignments of u128. The tables after the headers are modelled by their sizes."},
  {"property": "C50", "status": "proved", "theorems": ["Verif.C50_distinct", "Verif.C50_clients", "Verif.C50_message_false"], "note": "Codes are distinct and equal in both clients; two errors share one message text."},
  {"property": "C51", "status": "partial", "theorems": ["Verif.C51_ledger_partial", "Verif.C51_false_slash", "Verif.C51_false_penalty"], "note": "Every honest history (Spec.LedgerRuns: deposits, withdrawals and extensions of matured stakes, slashes, changes of delegate, closing empty minings, anything for other pools) keeps weights, delegated stakes and the total exactly equal to a ledger of stakes. Excluded: slashing a delegated stake and DecreaseRewards (both shown to break the claim by counterexamples), and full tables."},
  {"property": "C52", "status": "partial", "theorems": ["Verif.C52_distribute_partial", "Verif.C52_false_early_extension"], "note": "Proved after every history of orderly events, if less than 2^64 tokens were ever filled; after an early extension distributions can be blocked for good (counterexample)."},
  {"property": "C53", "status": "partial", "theorems": ["Verif.C53_withdraw_partial", "Verif.C52_false_early_extension"], "note": "Proved after every history of orderly events, if the stake recorded as delegated covers the amount; after an early extension the staker's own unlocked stake cannot be withdrawn (counterexample)."},
  {"property": "C54", "status": "partial", "theorems": ["Verif.C54_deposit_partial", "Verif.C54_extend_partial", "Verif.C54_false_locked_withdrawal", "Verif.C54_false_stale_delegate"], "note": "Proved after every history of orderly events, as far as the amounts fit into 64 bits, which depends on how far the delegate is behind (needed: C54_false_stale_delegate); after a withdrawal of locked stake the mining is stuck from the expiry date on (counterexample)."},
  {"property": "C55", "status": "partial", "theorems": ["Verif.C55_redelegate_partial", "Verif.C54_false_locked_withdrawal", "Verif.C54_false_stale_delegate"], "note": "Proved after every history of orderly events, as far as the amounts fit into 64 bits, which depends on how far the new delegate is behind (needed: C54_false_stale_delegate); counterexamples as for C54."},
  {"property": "C56", "status": "partial", "theorems": ["Verif.C56_penalty_partial", "Verif.C56_penalty_false"], "note": "Proved for minings that are up to date, and in general that a penalty never raises what is owed; false otherwise (counterexample)."},
  {"property": "C57", "status": "proved", "theorems": ["Verif.C57_fill_succeeds"], "note": "Every well-formed (hence every reachable) state."},
  {"property": "C58", "status": "proved", "theorems": ["Verif.C58_close_after_claim"], "note": "Every well-formed (hence every reachable) state."},
  {"property": "C59", "status": "partial", "theorems": ["Verif.C59_create_mining_partial", "Verif.C59_create_pool_partial", "Verif.C59_create_again", "Verif.C59_prefunded_false"], "note": "Proved for addresses nobody has sent lamports to; false otherwise (counterexample): one lamport sent in advance to the derived address blocks the creation."},
  {"property": "C60", "status": "partial", "theorems": ["Verif.C60_paid_partial", "Verif.C60_false_stale_delegate"], "note": "Proved for orderly histories in which the vault's tokens are moved only by fills and claims (none of them into the vault itself); false otherwise (counterexample: stake delegated to a mining that is not up to date is paid for past distributions)."},
  {"property": "C61", "status": "proved", "theorems": ["Verif.C61_income"], "note": "Every reachable state and every history without type confusion that spares the mining."},
  {"property": "C62", "status": "partial", "theorems": ["Verif.C62_dust_partial", "Verif.C62_index_orderly", "Verif.C62_false_penalty"], "note": "Proved for the honest histories of C51; false otherwise (counterexample: after DecreaseRewards a third of the distributed tokens is credited to nobody)."},
  {"property": "C63", "status": "proved", "theorems": ["Verif.C63_solvent", "Verif.C63_claim", "Verif.C63_distribute", "Verif.C63_false_not_prompt"], "note": "For every honest history (Spec.HonestRun: the reports of C51, delegates brought up to date before their stake is raised, nothing added in the first second of a day's distribution). A counterexample shows that the condition on delegates is needed."},
  {"property": "C64", "status": "proved", "theorems": ["Verif.C64_withdraw", "Verif.C64_extend", "Verif.C64_redelegate", "Verif.C64_slash", "Verif.C64_slash_locked"], "note": "For every honest history and every stake of its ledger."},
  {"property": "C65", "status": "proved", "theorems": ["Verif.C65_empty"], "note": "For every honest history (Spec.HonestRun) with matured stakes."},
  {"property": "C66", "status": "proved", "theorems": ["Verif.C66_at_most", "Verif.C66_frozen", "Verif.C66_nothing_more"], "note": "C66_at_most and C66_frozen hold for all histories; the bound on later payouts (C66_nothing_more) is for orderly histories, as C60."},
  {"property": "C67", "status": "partial", "theorems": ["Verif.C67_rate_partial", "Verif.C67_false_midnight"], "note": "Proved unless the later distribution is made in the first second of a day, where it is false (counterexample: 1111, then 952)."},
  {"property": "C68", "status": "proved", "theorems": ["Verif.C68_proportional", "Verif.C68_split"], "note": "For all histories in which no instruction has the minings writable (Spec.Spares), until the history of the pool is full."},
  {"property": "C69", "status": "proved", "theorems": ["Verif.C69_wind_up"], "note": "For every honest history (Spec.HonestRun) without remaining stakes and every list of stakers in a position to leave (Spec.CanLeave)."},
  {"property": "C70", "status": "proved", "theorems": ["Verif.C70_accounts", "Verif.C70_reason", "Verif.C70_signature"], "note": "C70_accounts holds in all states; the others in all reachable states for pools and minings in their places (Spec.RightKind). For MathOverflow (except FillVault) and InvalidPrimitiveTypesConversion Spec.Reason only says which instructions raise them; token, system and write-permission errors are described by the instructions that move tokens or create accounts."},
  {"property": "C71", "status": "proved", "theorems": ["Verif.C71_no_panic"], "note": "For all reachable states; with a pool in the place of a mining there is a panic (example beside the theorem)."},
  {"property": "C72", "status": "proved", "theorems": ["Verif.C72_life", "Verif.C72_whole"], "note": "For all histories that spare the mining what the statement excludes (Spec.CarefulEvent), until the history of the pool is full (C66). What is excluded breaks the law: C06_own_stake_false, C07_delegated_stake_false, C08_removed_stake_false, C56_penalty_false."},
  {"property": "C73", "status": "proved", "theorems": ["Verif.C73_authorities", "Verif.C73_owner", "Verif.C73_tokens", "Verif.C73_vault"], "note": "For all histories without type confusion (NotPoolAsMining); C73_authorities also assumes that minings of the pool are not passed as the two unverified arguments of instructions for other pools (Spec.Unconfused), without which C28_false and C29_false apply."},
  {"property": "C74", "status": "proved", "theorems": ["Verif.C74_order", "Verif.C74_false_shared_delegate", "Verif.C74_false_last_slot"], "note": "For all well-formed states. The conditions are needed: with a delegate in common or only one place left in the pool's table the order matters (the two _false theorems, in reachable states)."},
  {"property": "C75", "status": "proved", "theorems": ["Verif.C75_withdraw", "Verif.C75_deposit", "Verif.C75_extend", "Verif.C75_redelegate", "Verif.C75_slash", "Verif.C75_decrease", "Verif.C75_distribute", "Verif.C75_claim", "Verif.C75_close", "Verif.C75_fill"], "note": "In all reachable states (clock a 64-bit number). The right accounts are spelled out by the Ready structures (Spec/Live, Spec/Honest, Spec/Solvency, Spec/Exact); with wrong ones C70 says which error results."},
  {"property": "C76", "status": "proved", "theorems": ["Verif.C76_withdraw", "Verif.C76_deposit", "Verif.C76_redelegate", "Verif.C76_slash", "Verif.C76_decrease", "Verif.C76_fill", "Verif.C76_false_stale_delegate"], "note": "In all reachable states. The ranges are spelled out in each theorem; that delegates must be up to date (Spec.UpToDate) is needed, C76_false_stale_delegate."},
  {"property": "C77", "status": "proved", "theorems": ["Verif.C77_deposit_withdraw", "Verif.C77_deposit_can_be_withdrawn", "Verif.C77_withdraw_deposit", "Verif.C77_deposit_slash", "Verif.C77_redelegate_back", "Verif.C77_false_stale_delegate"], "note": "In all reachable states. C77_deposit_slash is for stakers without delegate (slashing never reduces delegated stake, C51). That delegates must be up to date (Spec.UpToDate) is needed, C77_false_stale_delegate."},
  {"property": "C78", "status": "proved", "theorems": ["Verif.C78_new_pool", "Verif.C78_pool_origin", "Verif.C78_mining_origin"], "note": "C78_new_pool in all well-formed states; the others for all histories without type confusion (CleanEvent) from a state before first use."},
  {"property": "C79", "status": "partial", "theorems": ["Verif.C79_data", "Verif.C79_complete", "Verif.C79_accounts", "Verif.C79_accounts_partial", "Verif.C79_mining", "Verif.C79_pool", "Verif.C79_errors"], "note": "Data, account contents and errors: proved for all values. The part about accounts is false for exactly four instructions, DepositMining, WithdrawMining, ExtendStake and CloseMining (C79_accounts_partial; consequences in C48)."},
  {"property": "C80", "status": "proved", "theorems": ["Verif.C80_free", "Verif.C80_running"], "note": "In all reachable states in which the pool has taken off its expirations up to today (Spec.PoolUpToDate; otherwise the withdrawal would do so and the extension not). C80_running gives the exact difference that the program leaves."},
  {"property": "C81", "status": "proved", "theorems": ["Verif.C81_deposit", "Verif.C81_withdraw", "Verif.C81_extend"], "note": "In all reachable states, if the instruction succeeds with both delegates."},
  {"property": "C82", "status": "proved", "theorems": ["Verif.C82_instruction", "Verif.C82_history", "Verif.C82_midnight"], "note": "C82_instruction in all reachable states, C82_history for all histories without type confusion (CleanEvent). C82_midnight shows that the very second of midnight has to be excepted."},
  {"property": "C83", "status": "proved", "theorems": ["Verif.C83_local", "Verif.C83_written"], "note": "All states, all account lists."},
  {"property": "C84", "status": "proved", "theorems": ["Verif.C84_apart", "Verif.C84_exchange"], "note": "All states, all interleavings."},
  {"property": "C85", "status": "partial", "theorems": ["Verif.C85_js_partial", "Verif.C85_js_no_clash_partial", "Verif.C85_js_runs_partial", "Verif.C85_rust_partial", "Verif.C85_cpi_partial", "Verif.C85_cpi_added_partial", "Verif.C85_cpi_remaining_false"], "note": "Proved for all builders but for one point, which is false: the builders for cross-program calls exchange the flags of additional accounts, writable becomes signer and signer becomes writable."},
  {"property": "C86", "status": "partial", "theorems": ["Verif.C86_more_partial", "Verif.C86_stake_partial", "Verif.C86_delegated_false", "Verif.C86_full_table_false"], "note": "Proved for all orderly histories without full tables, for deposits that are not delegated or differ in the period only; false for delegated deposits, which add to the total twice (C86_delegated_false), and with a full table (C86_full_table_false)."},
  {"property": "C87", "status": "partial", "theorems": ["Verif.C87_others_partial", "Verif.C87_stake_partial", "Verif.C87_full_table_false"], "note": "Proved for all histories, delegated deposits included, in which the pool's table of expirations has room for every new expiry date and its history is not full; false with a full table (C87_full_table_false)."},
  {"property": "C88", "status": "proved", "theorems": ["Verif.C88_filling_more", "Verif.C88_foreign_false"], "note": "Proved for all pairs of histories in which the two arguments that the program does not check are honest; without that it is false (C88_foreign_false): a mining of another pool passed as old delegate lets the filling of one pool cost a member of another."},
  {"property": "C89", "status": "proved", "theorems": ["Verif.C89_stakes_independent"], "note": ""},
  {"property": "C90", "status": "proved", "theorems": ["Verif.C90_instruction", "Verif.C90_history"], "note": ""},
  {"property": "C91", "status": "proved", "theorems": ["Verif.C91_instruction", "Verif.C91_history"], "note": ""},
  {"property": "C92", "status": "partial", "theorems": ["Verif.C92_less_partial", "Verif.C92_delegated_false", "Verif.C92_full_table_false"], "note": "Proved for all orderly histories without full tables, for stake that is not delegated, compared with taking less or nothing; false for delegated stake, which leaves the total twice (C92_delegated_false), and with a full table (C92_full_table_false)."},
  {"property": "C93", "status": "partial", "theorems": ["Verif.C93_others_partial", "Verif.C93_full_table_false"], "note": "Proved for all histories, delegated withdrawals included, in which the pool's table of expirations has room for every new expiry date and its history is not full; false with a full table (C93_full_table_false)."},
  {"property": "C94", "status": "partial", "theorems": ["Verif.C94_divided_partial", "Verif.C94_delegated_partial", "Verif.C94_full_table_false", "Verif.C94_stale_delegate_false"], "note": "Proved for deposits into minings whose tables have room for the expiry date and whose recorded expirations do not exceed their stake, either not delegated or delegated to one mining that is up to date; false with a full table (C94_full_table_false) and for a delegate that is not up to date (C94_stale_delegate_false)."},
  {"property": "C95", "status": "proved", "theorems": ["Verif.C95_others", "Verif.C95_paid", "Verif.C95_penalized_false"], "note": "C95_penalized_false shows that the condition about penalties is needed: claiming before a penalty can make it cost more. C95_paid is for histories that are careful as in C72, until the history of the pool is full (C66)."},
  {"property": "C96", "status": "proved", "theorems": ["Verif.C96_delegated", "Verif.C96_outdated_false"], "note": "C96_outdated_false shows that the delegate has to be up to date: otherwise delegated stake is credited with past rewards."},
  {"property": "C97", "status": "proved", "theorems": ["Verif.C97_instruction", "Verif.C97_history"], "note": "Gifts to an address at which an account is still to be created are excluded: they block its creation (C59_prefunded_false)."},
  {"property": "C98", "status": "partial", "theorems": ["Verif.C98_earlier_partial", "Verif.C98_others_partial", "Verif.C98_delegated_false"], "note": "Proved for all orderly histories without full tables, for deposits that are not delegated (the statement about others also for delegated ones); false for delegated deposits, which add to the total twice (C98_delegated_false), and with a full table (C86_full_table_false: the case without events in between)."},
  {"property": "C99", "status": "partial", "theorems": ["Verif.C99_later_partial", "Verif.C99_others_partial", "Verif.C99_delegated_false"], "note": "Proved for all orderly histories without full tables, for stake that is not delegated (the statement about others also for delegated stake); false for delegated stake, which leaves the total twice (C99_delegated_false), and with a full table (C92_full_table_false: the case without events in between)."},
  {"property": "C100", "status": "proved", "theorems": ["Verif.C100_exact", "Verif.C100_more"], "note": ""},
  {"property": "C101", "status": "proved", "theorems": ["Verif.C101_slash_is_withdrawal"], "note": ""},
  {"property": "C102", "status": "proved", "theorems": ["Verif.C102_stakes", "Verif.C102_rewards"], "note": "For what the staker earns: histories that are careful as in C72 (Spec.CarefulEvent), until the history of the pool is full (C66)."},
  {"property": "C103", "status": "proved", "theorems": ["Verif.C103_no_memory", "Verif.C103_pool"], "note": "For what the staker earns: histories that are careful as in C72 (Spec.CarefulEvent), until the history of the pool is full (C66)."},
  {"property": "C104", "status": "proved", "theorems": ["Verif.C104_budget", "Verif.C104_rewards"], "note": "For what the staker earns: histories that are careful as in C72 (Spec.CarefulEvent), until the history of the pool is full (C66)."},
  {"property": "C105", "status": "proved", "theorems": ["Verif.C105_transactions", "Verif.C105_reachable", "Verif.C105_atomic", "Verif.C105_single"], "note": ""},
  {"property": "C106", "status": "proved", "theorems": ["Verif.C106_at_most", "Verif.C106_at_least", "Verif.C106_whenever"], "note": "Until the history of the pool is full (C66)."},
  {"property": "C107", "status": "partial", "theorems": ["Verif.C107_extend_partial", "Verif.C107_others_partial", "Verif.C107_others_false", "Verif.C107_delegated_false"], "note": "Missing: for the staker, tokens added to delegated stake (C107_delegated_false: false of the code), histories that are not orderly, full tables; for the others, stakes whose lock is running (C107_others_false: false of the code)"},
  {"property": "C108", "status": "proved", "theorems": ["Verif.C108_others"], "note": ""},
  {"property": "C109", "status": "proved", "theorems": ["Verif.C109_penalized"], "note": "For what the staker earns: histories that are careful as in C72 (Spec.CarefulEvent), until the history of the pool is full (C66)."},
  {"property": "C110", "status": "proved", "theorems": ["Verif.C110_even"], "note": "Until the history of the pool is full (C66)."},
  {"property": "C111", "status": "proved", "theorems": ["Verif.C111_refines", "Verif.C111_proportional", "Verif.C111_together"], "note": "For what the staker earns: histories that are careful as in C72 (Spec.CarefulEvent), until the history of the pool is full (C66)."},
  {"property": "C112", "status": "proved", "theorems": ["Verif.C112_between", "Verif.C112_exact"], "note": ""},
  {"property": "C113", "status": "proved", "theorems": ["Verif.C113_harder"], "note": "For what the staker earns: histories that are careful as in C72 (Spec.CarefulEvent), until the history of the pool is full (C66)."},
  {"property": "C114", "status": "proved", "theorems": ["Verif.C114_outside"], "note": ""},
  {"property": "C115", "status": "proved", "theorems": ["Verif.C115_group"], "note": "For what the staker earns: histories that are careful as in C72 (Spec.CarefulEvent), until the history of the pool is full (C66)."},
  {"property": "C116", "status": "proved", "theorems": ["Verif.C116_pair"], "note": ""},
  {"property": "C117", "status": "proved", "theorems": ["Verif.C117_pace", "Verif.C117_thin_false"], "note": "C117_thin_false: the condition on the fillings is needed"},
  {"property": "C118", "status": "proved", "theorems": ["Verif.C118_close", "Verif.C118_claim", "Verif.C118_old_delegate", "Verif.C118_ordinary", "Verif.C118_histories"], "note": "for environments that read a pool account as a mining by its bytes (ReadsBytes, met by the byte-level reading of C49)"},
  {"property": "C119", "status": "partial", "theorems": ["Verif.C119_more_partial", "Verif.C119_others_partial", "Verif.C119_delegated_false", "Verif.C119_running_false"], "note": "the owner's part for orderly histories, without full tables and, if the tokens added differ, without a delegate: false otherwise (C119_delegated_false, C119_running_false, and for full tables as C86_full_table_false); the others' part for all extensions of any stake, running or not, without full tables (C87_full_table_false)"},
  {"property": "C120", "status": "proved", "theorems": ["Verif.C120_between", "Verif.C120_begun", "Verif.C120_ended"], "note": "moving a delegation between two others (C120_between, exact), beginning one (C120_begun) and ending one (C120_ended); the latter two for orderly histories without full tables in the pool, and allowing for roundings"},
  {"property": "C121", "status": "proved", "theorems": ["Verif.C121_rule", "Verif.C121_payer", "Verif.C121_transaction", "Verif.C121_history"], "note": "the rule is stated in Spec/Rent as the runtime checks it (check_rent_state); what senders have to take care of is RentCare"},
  {"property": "C122", "status": "proved", "theorems": ["Verif.C122_more", "Verif.C122_nothing"], "note": "care as in C72; the history of the pool must not have become full (C66)"},
  {"property": "C123", "status": "proved", "theorems": ["Verif.C123_budget", "Verif.C123_rewards"], "note": "care as in C72; the history of the pool must not have become full (C66); for the stakers, the first history is orderly (C09)"},
  {"property": "C124", "status": "proved", "theorems": ["Verif.C124_instruction", "Verif.C124_history", "Verif.C124_paid"], "note": ""},
  {"property": "C125", "status": "proved", "theorems": ["Verif.C125_instruction", "Verif.C125_history"], "note": "stake delegated to a mining that is behind does earn for the past (C07), so an instruction that delegates to it is not covered; for histories, the mining is not closed (closing needs that nothing is credited, C124)"},
  {"property": "C126", "status": "proved", "theorems": ["Verif.C126_vault", "Verif.C126_token"], "note": "assumes collision-free derived addresses, that the pool account is not removed for lack of lamports, and of the SPL token program that it does not change the mint of a token account"},
  {"property": "C127", "status": "proved", "theorems": ["Verif.C127_instruction", "Verif.C127_history", "Verif.C127_unnamed", "Verif.C127_other_pool_false"], "note": "the exceptions named in the statement are real: C56_penalty_false, C06_own_stake_false and C127_other_pool_false (CloseMining does not check that the pool is the one of the mining); for delegated stake the like fails, see C08_removed_stake_false"},
  {"property": "C128", "status": "proved", "theorems": ["Verif.C128_dates", "Verif.C128_sweep", "Verif.C128_since", "Verif.C128_today", "Verif.C128_recorded", "Verif.C128_extended", "Verif.C128_unswept_false"], "note": "C128_unswept_false is the last sentence of the statement, with the deployed capacity; C128_today discharges the side condition RoomInPool of the theorems about stakes in a pool"},
  {"property": "C129", "status": "proved", "theorems": ["Verif.C129_size", "Verif.C129_room", "Verif.C129_recorded", "Verif.C129_extended", "Verif.C129_first", "Verif.C129_first_extended"], "note": "the mining has lamports and is not closed in the history; that the bound of fifty cannot be raised is C18_expiration_lost_false; C129_first discharges the side condition of C18 for the table of the mining"},
  {"property": "C130", "status": "proved", "theorems": ["Verif.C130_dates", "Verif.C130_running", "Verif.C130_room", "Verif.C130_recorded", "Verif.C130_extended"], "note": "the mining has lamports and is not closed in the history; C129 covers the first 365 days of a mining"},
  {"property": "C131", "status": "proved", "theorems": ["Verif.C131_days", "Verif.C131_created", "Verif.C131_room", "Verif.C131_recorded", "Verif.C131_once", "Verif.C131_stakers"], "note": "the pool account has lamports; that the history is full afterwards and further distributions are lost: C13_one_per_day_false, C14_recorded_false, C66"}
]}
