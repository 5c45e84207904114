import Verif.Lemmas.DemoExec
/-!
The repository's own tests, replayed on the model.  These are tests of the model (does it compute what the program is
expected to compute?), not proofs of properties; no property theorem depends on this file.

Unit tests: state/mining.rs:310-376, state/mod.rs:86-101.  Integration tests: programs/rewards/tests/rewards/*.rs; the name
of each test is given above its replay.  The clock of the tests starts at an arbitrary second of a day, here second 100 of
day 20000.  Tests of which nothing is left on the level of the model (sizes of structs, reading back bytes) are left out;
`integration.rs` is commented out in the repository.
-/

namespace Verif.Validation

open Demo

/-- The token account of the fill authority holds 10^10 tokens. -/
def start : Chain :=
  { s0 with world := fun k => if k = 113 then tok 112 10000000000 else world0 k }

/-- All events succeed and the final state passes the check. -/
def passes (es : List Event) (check : World → Bool) : Bool :=
  match run start es with
  | some s => check s.world
  | none => false

/-- All events succeed, and then `e` fails with error `err`. -/
def failsWith (es : List Event) (e : Event) (err : Err) : Bool :=
  match run start es, e with
  | some s, .ix accs i => (match exec env s.now s.world accs i with | .error x => decide (x = err) | .ok _ => false)
  | _, _ => false

/-- All events succeed, and then `e` fails. -/
def fails (es : List Event) (e : Event) : Bool :=
  match run start es, e with
  | some s, .ix accs i => (match exec env s.now s.world accs i with | .error _ => true | .ok _ => false)
  | _, _ => false

def tokens (w : World) (k : Key) (n : Nat) : Bool := hasToken w k fun t => decide (t.amount = n)
def share (w : World) (o n : Nat) : Bool := hasMining w (mine o 100) fun m => decide (m.share = n)
def fromOthers (w : World) (o n : Nat) : Bool := hasMining w (mine o 100) fun m => decide (m.stakeFromOthers = n)
def totalShare (w : World) (n : Nat) : Bool := hasPool w 100 fun p => decide (p.totalShare = n)
def miningDiff (w : World) (o date n : Nat) : Bool :=
  hasMining w (mine o 100) fun m => decide (m.diffs.get date = some n)
def poolDiff (w : World) (date n : Nat) : Bool := hasPool w 100 fun p => decide (p.diffs.get date = some n)

/-- Current time at the start of the tests, and `n` days later. -/
def t0 : Nat := day0 + 100
def later (n : Nat) : Nat := t0 + n * 86400

def setup : List Event := [initPool 100, initMining 100 120, initMining 100 121]

def repeated (n : Nat) (es : List Event) : List Event := (List.replicate n es).flatten

/-! ### Unit tests of `decrease_rewards`, mining.rs:310-376 -/

def threeStakes : Mining :=
  { Mining.zero with share := 3600, diffs := SMap.insert 50 (SMap.insert 50 [] 365 1500) 180 700 }

def decreased (n share at365 at180 : Nat) : Bool :=
  match threeStakes.decreaseRewards n with
  | .ok m => decide (m.share = share ∧ m.diffs.get 365 = some at365 ∧ m.diffs.get 180 = some at180)
  | .error _ => false

-- slighly_decrease_rewards
example : decreased 300 3300 1200 700 = true := by decide
-- moderate_decrease_rewards
example : decreased 2200 1400 0 0 = true := by decide
-- severe_decrease_rewards
example : decreased 3500 100 0 0 = true := by decide

/-! ### Unit test of `find_max_value_limited_by_key`, mod.rs:86-101 -/

def fiveEntries : SMap := [(1, 10), (2, 20), (3, 30), (4, 40), (5, 50)].foldl (fun m e => m.insert 300 e.1 e.2) []

example : fiveEntries.findMaxLt 3 = some 20 ∧ fiveEntries.findMaxLt 6 = some 50 ∧ fiveEntries.findMaxLt 0 = none := by
  decide

/-! ### deposit_mining.rs -/

-- success
example : passes (setup ++ [deposit 100 120 100 .threeMonths 120]) (fun w => totalShare w 200 && share w 120 200) = true := by
  decide +kernel
-- success_with_flex
example : passes (setup ++ [deposit 100 120 100 .flex 120]) (fun w => totalShare w 100 && share w 120 100) = true := by
  decide +kernel
-- delegating_success
example : passes (setup ++ [deposit 100 121 3000000 .oneYear 121])
    (fun w => share w 121 18000000 && fromOthers w 121 0) = true := by decide +kernel
example : passes (setup ++ [deposit 100 121 3000000 .oneYear 121, deposit 100 120 100 .flex 121])
    (fun w => share w 121 18000000 && fromOthers w 121 100 && totalShare w 18000200 && share w 120 100) = true := by
  decide +kernel

/-! ### withdraw_mining.rs -/

-- success
example : passes (setup ++ [deposit 100 120 100 .threeMonths 120, withdraw 100 120 30 120])
    (fun w => totalShare w 170 && share w 120 170) = true := by decide +kernel
-- success_with_5kkk_after_expiring
example : passes (setup ++ [deposit 100 120 5000000000 .threeMonths 120, .tick (100 * 86400), withdraw 100 120 5000000000 120])
    (fun w => totalShare w 0 && share w 120 0) = true := by decide +kernel

/-! ### fill_vault.rs -/

def fillSetup : List Event := setup ++ [deposit 100 120 100 .threeMonths 120]

-- success
example : passes (fillSetup ++ [fill 100 100 (later 100)])
    (fun w => tokens w (vaultOf 100 101) 100 && tokens w 113 9999999900) = true := by decide +kernel
-- zero_amount_of_rewards
example : failsWith fillSetup (fill 100 0 (later 100)) (.custom .rewardsMustBeGreaterThanZero) = true := by decide +kernel
-- only_dao_can_top_up_pool
example : fails fillSetup (.ix [W 100, R 101, W (vaultOf 100 101), S 115, W 113, R 2] (.fillVault 100 (later 100))) = true := by
  decide +kernel
-- rewards_top_up_extend
example : passes (fillSetup ++ [deposit 100 121 50 .threeMonths 121, fill 100 100 (later 100), fill 100 50 (later 150)])
    (fun w => hasPool w 100 fun p => decide (p.distributionEndsAt = later 150 - later 150 % 86400)) = true := by
  decide +kernel
-- rewards_top_up_second_time_with_earlier_distribution_ends_at
example : fails (fillSetup ++ [deposit 100 121 50 .threeMonths 121, fill 100 100 (later 100)]) (fill 100 50 (later 50)) = true := by
  decide +kernel

/-! ### distribute_rewards.rs -/

-- happy_path
example : passes (setup ++ [deposit 100 120 100 .threeMonths 120, fill 100 100 (later 100), distribute 100, claim 100 120 130])
    (fun w => tokens w 130 1) = true := by decide +kernel
-- unauthorised_rewards_distribution_fail
example : fails (setup ++ [deposit 100 120 100 .threeMonths 120, fill 100 100 (later 100)])
    (.ix [W 100, S 115] .distributeRewards) = true := by decide +kernel
-- happy_path_with_flex
example : passes (setup ++ [deposit 100 120 100 .flex 120, fill 100 100 (later 100), distribute 100, claim 100 120 130])
    (fun w => tokens w 130 1) = true := by decide +kernel
-- happy_path_with_flex_continious_distribution
example : passes (setup ++ [deposit 100 120 100 .flex 120, fill 100 100 (later 100)] ++
      repeated 100 [distribute 100, .tick 86400] ++ [claim 100 120 130])
    (fun w => tokens w 130 100) = true := by decide +kernel
-- happy_path_with_flex_continious_distribution_with_two_users
example : passes (setup ++ [deposit 100 120 100 .flex 120, deposit 100 121 100 .flex 121, fill 100 100 (later 100)] ++
      repeated 100 [distribute 100, .tick 86400] ++ [claim 100 120 130, claim 100 121 131])
    (fun w => tokens w 130 49 && tokens w 131 49) = true := by decide +kernel

/-! ### precision.rs -/

-- precision_distribution
example : passes (setup ++ [deposit 100 120 333333316000000 .flex 120, deposit 100 121 17000000 .flex 121,
      fill 100 5000000000 (later 30)] ++ repeated 30 [distribute 100, .tick 86400] ++ [claim 100 121 131])
    (fun w => tokens w 131 254) = true := by decide +kernel

/-! ### claim.rs -/

-- with_two_users
example : passes (setup ++ [deposit 100 120 100 .threeMonths 120, deposit 100 121 100 .threeMonths 121, fill 100 100 (later 1),
      distribute 100, claim 100 120 130, claim 100 121 131])
    (fun w => tokens w 130 50 && tokens w 131 50) = true := by decide +kernel
-- flex_vs_three_months
example : passes (setup ++ [deposit 100 120 100 .threeMonths 120, .tick (91 * 86400), deposit 100 121 100 .threeMonths 121,
      fill 100 1000 (later 92), distribute 100, claim 100 120 130, claim 100 121 131])
    (fun w => tokens w 130 333 && tokens w 131 666) = true := by decide +kernel
-- multiple_consequantial_distributions_for_two_users
example : passes (setup ++ [deposit 100 120 100 .threeMonths 120, deposit 100 121 100 .oneYear 121, fill 100 500 (later 6)] ++
      repeated 5 [distribute 100, claim 100 121 131, .tick 86400] ++ [claim 100 121 131, claim 100 120 130])
    (fun w => tokens w 130 125 && tokens w 131 375) = true := by decide +kernel
-- rewards_after_distribution_are_unclaimable
example : passes (setup ++ [deposit 100 120 100 .threeMonths 120, fill 100 1000 (later 1), distribute 100, claim 100 120 130])
    (fun w => tokens w 130 1000) = true := by decide +kernel
example : passes (setup ++ [deposit 100 120 100 .threeMonths 120, fill 100 1000 (later 1), distribute 100, claim 100 120 130,
      .tick (1000 * 86400), fill 100 100 (later 1001), deposit 100 121 100 .oneYear 121, claim 100 121 131])
    (fun w => tokens w 131 0) = true := by decide +kernel
-- switch_to_flex_is_correct
example : passes (setup ++ [deposit 100 120 100 .threeMonths 120, deposit 100 121 100 .oneYear 121, .tick (91 * 86400),
      fill 100 100 (later 92), distribute 100, claim 100 120 130, claim 100 121 131])
    (fun w => tokens w 130 14 && tokens w 131 85) = true := by decide +kernel
-- two_deposits_vs_one
example : passes (setup ++ [deposit 100 120 100 .oneYear 120, deposit 100 121 50 .oneYear 121, .tick 1,
      deposit 100 121 50 .oneYear 121, fill 100 1000 (later 1), distribute 100, claim 100 120 130, claim 100 121 131])
    (fun w => tokens w 130 499 && tokens w 131 499) = true := by decide +kernel
-- claim_tokens_after_deposit_expiration
example : passes (setup ++ [deposit 100 120 100 .oneYear 120, deposit 100 121 300 .threeMonths 121, fill 100 1000 (later 1),
      distribute 100, .tick (180 * 86400), claim 100 120 130, claim 100 121 131])
    (fun w => tokens w 130 499 && tokens w 131 499) = true := by decide +kernel
-- claim_after_withdraw_is_correct
def withdrawTest : List Event :=
  setup ++ [deposit 100 120 100 .oneYear 120, deposit 100 121 50 .oneYear 121, deposit 100 121 150 .threeMonths 121,
    fill 100 100 (later 1), distribute 100, claim 100 120 130, claim 100 121 131]
def withdrawTest2 : List Event :=
  withdrawTest ++ [.tick (91 * 86400), fill 100 100 (later 92), distribute 100, claim 100 120 130, claim 100 121 131]
def withdrawTest3 : List Event :=
  withdrawTest2 ++ [withdraw 100 121 150 121, .tick 86400, fill 100 100 (later 93), distribute 100, claim 100 120 130,
    claim 100 121 131]
example : passes withdrawTest (fun w => tokens w 130 49 && tokens w 131 49) = true := by decide +kernel
example : passes withdrawTest2 (fun w => tokens w 130 (49 + 57) && tokens w 131 (49 + 42)) = true := by decide +kernel
example : passes withdrawTest3 (fun w => tokens w 130 172 && tokens w 131 124) = true := by decide +kernel
-- with_two_users_with_flex
example : passes (setup ++ [deposit 100 120 100 .flex 120, deposit 100 121 100 .flex 121, fill 100 100 (later 1),
      distribute 100, claim 100 120 130, claim 100 121 131])
    (fun w => tokens w 130 50 && tokens w 131 50) = true := by decide +kernel
-- claim_with_delegate
def delegateTest : List Event := setup ++ [deposit 100 121 3000000 .oneYear 121, deposit 100 120 1000000 .oneYear 121]
example : passes delegateTest
    (fun w => share w 121 18000000 && fromOthers w 121 1000000 && totalShare w 25000000 && share w 120 6000000) = true := by
  decide +kernel
example : passes (delegateTest ++ [fill 100 1000000 t0, distribute 100, claim 100 120 130, claim 100 121 131])
    (fun w => tokens w 130 240000 && tokens w 131 760000) = true := by decide +kernel

/-! ### change_delegate.rs -/

-- change_delegate_to_the_same
example : failsWith (setup ++ [deposit 100 120 6000000 .oneYear 120]) (redelegate 100 120 6000000 120 120)
    (.custom .delegatesAreTheSame) = true := by decide +kernel
-- change_delegate_then_claim
def redelegateTest : List Event :=
  setup ++ [deposit 100 121 3000000 .oneYear 121, deposit 100 120 1000000 .oneYear 120, redelegate 100 120 1000000 120 121]
example : passes redelegateTest
    (fun w => share w 121 18000000 && fromOthers w 121 1000000 && totalShare w 25000000 && share w 120 6000000) = true := by
  decide +kernel
example : passes (redelegateTest ++ [fill 100 1000000 t0, distribute 100, claim 100 120 130, claim 100 121 131])
    (fun w => tokens w 130 240000 && tokens w 131 760000) = true := by decide +kernel

/-! ### close_mining.rs -/

-- success
example : passes (setup ++ [deposit 100 120 100 .threeMonths 120, close 100 120])
    (fun w => decide ((w (mine 120 100)).lamports = 0) && decide (0 < (w 102).lamports)) = true := by decide +kernel
-- close_when_has_stake_from_others
example : failsWith (setup ++ [deposit 100 121 3000000 .oneYear 121, deposit 100 120 100 .threeMonths 121]) (close 100 121)
    (.custom .stakeFromOthersMustBeZero) = true := by decide +kernel
-- close_when_has_unclaimed_rewards
example : failsWith (setup ++ [deposit 100 120 100 .threeMonths 120, fill 100 100 (later 100), distribute 100,
      .tick (100 * 86400)]) (close 100 120) (.custom .rewardsMustBeClaimed) = true := by decide +kernel

/-! ### extend_stake.rs -/

/-- End of the day `n` days after the start of the tests, as `end_timestamp` (utils.rs:249-256) gives it for locks. -/
def endOf (n : Nat) : Nat := later n - later n % 86400

-- restake_before_its_expired
example : passes (setup ++ [deposit 100 120 100 .threeMonths 120, .tick (10 * 86400),
      extend 100 120 .threeMonths .threeMonths t0 100 100 120])
    (fun w => miningDiff w 120 (endOf 90) 0 && miningDiff w 120 (endOf 100) 200 && share w 120 400) = true := by
  decide +kernel
-- restake_for_another_period_after_old_is_expired
example : passes (setup ++ [deposit 100 120 100 .threeMonths 120, .tick (91 * 86400),
      extend 100 120 .flex .oneYear t0 100 100 120])
    (fun w => miningDiff w 120 (endOf (91 + 365)) 1000 && share w 120 1200) = true := by decide +kernel
-- just_prolong_without_adding_tokes
example : passes (setup ++ [deposit 100 120 100 .threeMonths 120, .tick (10 * 86400),
      extend 100 120 .threeMonths .threeMonths t0 100 0 120])
    (fun w => miningDiff w 120 (endOf 90) 0 && miningDiff w 120 (endOf 100) 100 && share w 120 200) = true := by
  decide +kernel
-- restake_after_its_expired_with_no_additional_tokens
example : passes (setup ++ [deposit 100 120 100 .threeMonths 120, .tick (91 * 86400),
      extend 100 120 .flex .threeMonths t0 100 0 120])
    (fun w => miningDiff w 120 (endOf (91 + 90)) 100 && share w 120 200) = true := by decide +kernel
-- restake_in_expiration_day
example : passes (setup ++ [deposit 100 120 100 .threeMonths 120, .tick (90 * 86400),
      extend 100 120 .flex .threeMonths t0 100 0 120])
    (fun w => miningDiff w 120 (endOf (90 + 90)) 100 && share w 120 200) = true := by decide +kernel
-- prolong_with_delegate
def prolongTest : List Event := setup ++ [deposit 100 121 3000000 .oneYear 121, deposit 100 120 100 .threeMonths 121]
example : passes prolongTest (fun w => share w 120 200 && fromOthers w 120 0 && share w 121 18000000 && fromOthers w 121 100 &&
    totalShare w 18000300) = true := by decide +kernel
example : passes (prolongTest ++ [.tick (10 * 86400), extend 100 120 .threeMonths .threeMonths t0 100 0 121])
    (fun w => miningDiff w 120 (endOf 90) 0 && miningDiff w 120 (endOf 100) 100 && share w 120 200) = true := by
  decide +kernel

/-! ### penalties/slash.rs -/

-- one_stake_for_a_date
example : passes (setup ++ [deposit 100 120 150 .sixMonths 120]) (fun w => totalShare w 600 && poolDiff w (endOf 180) 450 &&
    share w 120 600 && miningDiff w 120 (endOf 180) 450) = true := by decide +kernel
example : passes (setup ++ [deposit 100 120 150 .sixMonths 120, slash 100 120 50 200 (some (endOf 180))])
    (fun w => totalShare w 400 && poolDiff w (endOf 180) 300 && share w 120 400 && miningDiff w 120 (endOf 180) 300) = true := by
  decide +kernel
-- another_one_stake_for_a_date
example : passes (setup ++ [deposit 100 120 10000 .threeMonths 120, slash 100 120 5000 10000 (some (endOf 90))])
    (fun w => totalShare w 10000 && poolDiff w (endOf 90) 5000 && share w 120 10000 && miningDiff w 120 (endOf 90) 5000) = true := by
  decide +kernel
-- multiple_stakes_for_a_date_but_one_slashed
def slashTest : List Event :=
  setup ++ [deposit 100 120 200 .oneYear 120, .tick (185 * 86400), deposit 100 120 150 .sixMonths 120, deposit 100 120 100 .flex 120]
example : passes slashTest (fun w => totalShare w 1900 && poolDiff w (endOf 365) 1450 && share w 120 1900 &&
    miningDiff w 120 (endOf 365) 1450) = true := by decide +kernel
example : passes (slashTest ++ [slash 100 120 50 200 (some (endOf 365))]) (fun w => totalShare w 1700 &&
    poolDiff w (endOf 365) 1300 && share w 120 1700 && miningDiff w 120 (endOf 365) 1300) = true := by decide +kernel

end Verif.Validation
