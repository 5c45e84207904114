import Verif.Lemmas.Failure
import Verif.Props.Ranges
/-!
C70 and C71: what the errors say, and that well-formed calls do not panic.
-/

namespace Verif

open Spec

section
variable {env : Env}

/-- C70, accounts.  In every state an instruction first goes through its accounts in the documented order; the first one that is
missing, has another owner, did not sign, has another address or is in use already determines the error. -/
theorem C70_accounts {now : Nat} {w : World} {accs : List AccountInfo} {i : Ix} {e : Err}
    (h : slotError w (slots env i) accs = some e) : exec env now w accs i = .error e := by
  unfold exec
  rw [accounts_first h]
  rfl

/-- C70, reasons.  In every reachable state, when an instruction with a fine list of accounts of the right kind fails, the error
says truly what is wrong (`Reason`; for `MathOverflow` of the stake operations, claims, closings and distributions and for
`InvalidPrimitiveTypesConversion` only which instructions raise them). -/
theorem C70_reason {s : Chain} (hr : Reachable env s) (hn : s.now < 2 ^ 64) {accs : List AccountInfo} {i : Ix} {e : Err}
    (hs : slotError s.world (slots env i) accs = none) (hk : RightKind env s.world accs i)
    (h : exec env s.now s.world accs i = .error e) : Reason env s.now s.world accs i e := by
  have hw := reachable_wf hr
  have hfit := C44_history hr hn
  have := process_reason hw (fun k p hp => (hfit.pools k p hp).tokens) hs hk
  unfold exec at h
  cases hp : process env s.now s.world accs i with
  | error e' =>
    rw [hp] at h
    cases h
    exact this _ hp
  | ok x =>
    rw [hp] at h
    obtain ⟨w', ret⟩ := x
    change ((ensure _ _ : Res Unit) >>= _) = _ at h
    unfold ensure at h
    split at h
    · cases h
    · rename_i hne
      cases h
      simp only [Classical.not_forall] at hne
      obtain ⟨a, ha, hw, -⟩ := hne
      exact ⟨a, ha, hw⟩

/-- C70, signatures and owners: these two errors and `NotEnoughAccountKeys` are raised for the list of accounts and for
nothing else. -/
theorem C70_signature {s : Chain} (hr : Reachable env s) (hn : s.now < 2 ^ 64) {accs : List AccountInfo} {i : Ix} {e : Err}
    (hk : RightKind env s.world accs i)
    (he : e = .missingRequiredSignature ∨ e = .custom .invalidAccountOwner ∨ e = .notEnoughAccountKeys) :
    exec env s.now s.world accs i = .error e ↔ slotError s.world (slots env i) accs = some e := by
  constructor
  · intro h
    cases hs : slotError s.world (slots env i) accs with
    | none =>
      have := C70_reason hr hn hs hk h
      rcases he with rfl | rfl | rfl <;> exact this.elim
    | some e' =>
      rw [C70_accounts hs] at h
      cases h
      rfl
  · exact C70_accounts

/-- C71.  In every reachable state an instruction whose pool is a pool and whose minings are minings does not panic, unless
no address can be derived for the account it creates or a lock would end after the last 64-bit second. -/
theorem C71_no_panic {s : Chain} (hr : Reachable env s) (hn : s.now < 2 ^ 64) {accs : List AccountInfo} {i : Ix}
    (hk : RightKind env s.world accs i) (h1 : ¬ NoAddress env accs i) (h2 : ¬ EndOfTime s.now i) :
    exec env s.now s.world accs i ≠ .error .panic := by
  intro h
  cases hs : slotError s.world (slots env i) accs with
  | none => exact (C70_reason hr hn hs hk h).elim h1 h2
  | some e' =>
    rw [C70_accounts hs] at h
    cases h
    clear hk h1 h2 hr hn
    generalize slots env i = l at hs
    induction l generalizing accs with
    | nil => cases hs
    | cons x t ih =>
      cases accs with
      | nil => cases hs
      | cons a r =>
        unfold slotError at hs
        split at hs
        · exact ih hs
        · cases x <;> cases hs

end

/-! ### Concrete cases -/

open Demo

/-- Executable version of `RightKind` for instructions that create nothing. -/
def rightKindB (w : World) (accs : List AccountInfo) (i : Ix) : Bool :=
  (poolArg accs i).all (fun k => hasPool w k fun _ => true) &&
  (miningArg accs i).all (fun k => hasMining w k fun m => decide (m.accountType = 2)) &&
  (delegateArg accs i).all (fun k => hasMining w k fun m => decide (m.accountType = 2)) &&
  (oldDelegateArg accs i).all (fun k => hasMining w k fun m => decide (m.accountType = 2))

theorem rightKindB_sound {w : World} {accs : List AccountInfo} {i : Ix} (h : rightKindB w accs i = true) :
    RightKind Demo.env w accs i := by
  simp only [rightKindB, Bool.and_eq_true, Option.all_eq_true] at h
  obtain ⟨⟨⟨h1, h2⟩, h3⟩, h4⟩ := h
  have key : ∀ {k}, hasMining w k (fun m => decide (m.accountType = 2)) = true → ∃ m, Proper Demo.env w k m := by
    intro k h
    obtain ⟨m, hm, e⟩ := hasMining_sound h
    exact ⟨m, hm, of_decide_eq_true e⟩
  refine ⟨fun k hk => ?_, fun k hk => .inl (key (h2 k hk)), fun k hk => key (h3 k hk), fun k hk => key (h4 k hk)⟩
  obtain ⟨p, hp, -⟩ := hasPool_sound (h1 k hk)
  exact .inl ⟨p, hp⟩

/-- The instruction has a fine list of accounts of the right kind and fails with `x`. -/
def failsWith (s : Chain) (e : Event) (x : Err) : Bool :=
  match e with
  | .ix accs i => decide (slotError s.world (slots Demo.env i) accs = none) && rightKindB s.world accs i &&
    (match exec Demo.env s.now s.world accs i with | .ok _ => false | .error y => decide (y = x))
  | _ => false

theorem failsWith_sound {s : Chain} {accs : List AccountInfo} {i : Ix} {x : Err} (h : failsWith s (.ix accs i) x = true) :
    slotError s.world (slots Demo.env i) accs = none ∧ RightKind Demo.env s.world accs i ∧
    exec Demo.env s.now s.world accs i = .error x := by
  simp only [failsWith, Bool.and_eq_true, decide_eq_true_eq] at h
  refine ⟨h.1.1, rightKindB_sound h.1.2, ?_⟩
  have h := h.2
  split at h
  · cases h
  · rename_i y hy
    rw [hy, of_decide_eq_true h]

/-- The hypotheses of `C70_reason` are met: two users and the authorities try what cannot be done. -/
example : Reachable Demo.env afterStory ∧ afterStory.now < 2 ^ 64 ∧
    failsWith afterStory (close 100 120) (.custom .rewardsMustBeClaimed) = true ∧
    failsWith afterStory (close 100 121) (.custom .stakeFromOthersMustBeZero) = true ∧
    failsWith afterStory (fill 100 0 (day0 + 20 * DAY)) (.custom .rewardsMustBeGreaterThanZero) = true ∧
    failsWith afterStory (fill 100 5 day0) (.custom .distributionInThePast) = true ∧
    failsWith afterStory (fill 100 5 (day0 + 5 * DAY)) (.custom .mathOverflow) = true ∧
    failsWith afterStory (decrease 100 120 5000) (.custom .decreaseRewardsTooBig) = true ∧
    failsWith afterStory (redelegate 100 120 500 121 121) (.custom .delegatesAreTheSame) = true ∧
    failsWith afterStory (slash 100 120 5 10 (some (day0 + 7 * DAY))) (.custom .noWeightedStakeModifiersAtADate) = true ∧
    failsWith afterStory (deposit 100 120 0 .none 120) (.custom .invalidLockupPeriod) = true ∧
    failsWith afterStory (deposit 100 120 5 .none 120) (.custom .mathOverflow) = true ∧
    failsWith afterStory (.ix [W 100, R 130, W (vaultOf 100 130), SW 102, S 110, R 4, R 2, R 3] (.initializePool 112 111))
      (.custom .alreadyInitialized) = true ∧
    failsWith afterStory (depositBy 100 111 120 5 .flex 120) .invalidArgument = true ∧
    failsWith afterStory (.ix [W 100, W (mine 120 100), S 110, W (mine 121 100)] (.depositMining 5 .flex 120 122))
      (.custom .invalidMining) = true ∧
    failsWith afterStory (extend 100 120 .oneYear .oneYear (2 ^ 64 - 1) 500 0 121) .panic = true :=
  ⟨afterStory_reachable, by decide +kernel, by decide +kernel, by decide +kernel, by decide +kernel, by decide +kernel,
    by decide +kernel, by decide +kernel, by decide +kernel, by decide +kernel, by decide +kernel, by decide +kernel,
    by decide +kernel, by decide +kernel, by decide +kernel, by decide +kernel⟩

/-- Nobody has staked. -/
def noStakes : List Event := [initPool 100, fill 100 10000 (day0 + 10 * DAY)]

example : Reachable Demo.env ((run s0 noStakes).getD s0) ∧
    failsWith ((run s0 noStakes).getD s0) (distribute 100) (.custom .rewardsNoDeposits) = true :=
  ⟨after_reachable (by decide +kernel), by decide +kernel⟩

/-- The hypotheses of `C70_accounts` and `C70_signature` are met: the deposit authority has not signed; the mining is no account
of the program; there are only two accounts. -/
example : RightKind Demo.env afterStory.world [W 100, W (mine 120 100), W 110, W (mine 120 100)] (.withdrawMining 5 120 120) ∧
    slotError afterStory.world (slots Demo.env (.withdrawMining 5 120 120)) [W 100, W (mine 120 100), W 110, W (mine 120 100)] =
      some .missingRequiredSignature ∧
    slotError afterStory.world (slots Demo.env (.withdrawMining 5 120 120)) [W 100, W 130, S 110, W (mine 120 100)] =
      some (.custom .invalidAccountOwner) ∧
    slotError afterStory.world (slots Demo.env (.withdrawMining 5 120 120)) [W 100, W (mine 120 100)] =
      some .notEnoughAccountKeys :=
  ⟨rightKindB_sound (by decide +kernel), by decide +kernel, by decide +kernel, by decide +kernel⟩

/-- The hypotheses of `C71_no_panic` are met; and with the pool in the place of the mining there is a panic. -/
example : RightKind Demo.env afterStory.world [W 100, W (mine 120 100), S 110, W (mine 121 100)]
      (.extendStake .oneYear .oneYear (day0 + 100) 500 0 120 121) ∧
    ¬ NoAddress Demo.env [W 100, W (mine 120 100), S 110, W (mine 121 100)]
      (.extendStake .oneYear .oneYear (day0 + 100) 500 0 120 121) ∧
    ¬ EndOfTime afterStory.now (.extendStake .oneYear .oneYear (day0 + 100) 500 0 120 121) ∧
    (match exec Demo.env afterStory.now afterStory.world [W 100, W 100, S 110, W (mine 121 100)]
      (.extendStake .oneYear .oneYear (day0 + 100) 500 0 120 121) with | .error .panic => true | _ => false) = true :=
  ⟨rightKindB_sound (by decide +kernel), id, by unfold EndOfTime; decide +kernel, by decide +kernel⟩

end Verif
