import Verif.Lemmas.WfLemmas
/-!
A concrete environment and concrete histories, used to show that hypotheses of theorems are met by non-trivial cases and
for counterexamples.
-/

namespace Verif.Demo

open Spec

/-- Derived addresses exist for small keys and bump 255; the three kinds of address ranges do not overlap.  A pool read as
a mining is as the byte layouts say (state/reward_pool.rs:12-46, state/mining.rs:12-40, little endian): the mining's index,
share and unclaimed rewards are bytes 96-128, the pool's mint; stake_from_others, bump and account type are bytes 128-138,
in the pool's index.  Its expiration tree starts at byte 144, with the root in the low four bytes of the pool's total
share: it is empty if these are 0, the only case used. -/
def env : Env where
  programId := 1
  tokenProgram := 2
  systemProgram := 3
  rentSysvar := 4
  nativeMint := 5
  caps := Caps.deployed
  rentMin := fun _ => 10
  miningAddr := fun o p b => if b = 255 ∧ o < 65536 ∧ p < 65536 then some (10000000000 + o * 65536 + p) else none
  vaultAddr := fun p m b => if b = 255 ∧ p < 65536 ∧ m < 65536 then some (50000000000 + p * 65536 + m) else none
  findMining := fun o p => if o < 65536 ∧ p < 65536 then some (10000000000 + o * 65536 + p, 255) else none
  findVault := fun p m => if p < 65536 ∧ m < 65536 then some (50000000000 + p * 65536 + m, 255) else none
  poolAsMining := fun p =>
    { rewardPool := p.depositAuthority, owner := p.distributeAuthority, rewardMint := p.fillAuthority,
      index := p.rewardMint % 2 ^ 128, share := p.rewardMint / 2 ^ 128 % 2 ^ 64, unclaimed := p.rewardMint / 2 ^ 192,
      stakeFromOthers := p.index % 2 ^ 64, bump := p.index / 2 ^ 64 % 256, accountType := p.index / 2 ^ 72 % 256,
      diffs := [] }
  poolSetMining := fun p m =>
    { p with depositAuthority := m.rewardPool, distributeAuthority := m.owner, fillAuthority := m.rewardMint,
             rewardMint := m.index + m.share * 2 ^ 128 + m.unclaimed * 2 ^ 192,
             index := m.stakeFromOthers + m.bump * 2 ^ 64 + m.accountType * 2 ^ 72 + p.index / 2 ^ 80 * 2 ^ 80 }
  miningAsPool := fun m =>
    { Pool.zero with depositAuthority := m.rewardPool, distributeAuthority := m.owner, fillAuthority := m.rewardMint }
  program_ne_token := by decide
  program_ne_system := by decide
  token_ne_system := by decide
  rentMin_pos := by intro; omega
  miningAddr_ne_zero := by intro o p b; split <;> simp
  findMining_spec := by intro o p k b; grind
  findVault_spec := by intro o p k b; grind
  poolAsMining_keys := fun _ => ⟨rfl, rfl, rfl⟩
  poolSetMining_keys := fun _ _ => ⟨rfl, rfl, rfl⟩
  miningAsPool_keys := fun _ => ⟨rfl, rfl, rfl⟩

theorem env_injective : env.PdaInjective where
  vault := by intro p m b p' m' b' k; simp only [env]; grind
  mining := by intro p m b p' m' b' k; simp only [env]; grind
  disjoint := by intro o p b p' m' b' k; simp only [env]; grind

def mine (o p : Key) : Key := 10000000000 + o * 65536 + p
def vaultOf (p m : Key) : Key := 50000000000 + p * 65536 + m

/-- A token account of `owner` with mint 101. -/
def tok (owner amount : Nat) : Account :=
  { owner := 2, lamports := 10, len := 165,
    content := .token { mint := 101, owner := owner, amount := amount, frozen := false, delegate := none,
                        delegatedAmount := 0, native := false } }

/-- Before first use: two empty accounts (100, 200) for pools, a mint (101), a payer (102), a token account of the fill
authority (113) and of two users (130, 131). -/
def world0 : World := fun k =>
  if k = 100 ∨ k = 200 then { owner := 1, lamports := 10, len := POOL_LEN, content := .zero }
  else if k = 101 then { owner := 2, lamports := 10, len := 82, content := .mint }
  else if k = 102 then { owner := 3, lamports := 1000000, len := 0, content := .zero }
  else if k = 113 then tok 112 1000000000
  else if k = 130 then tok 120 0
  else if k = 131 then tok 121 0
  else { owner := 3, lamports := 0, len := 0, content := .zero }

/-- Midnight of day 20000. -/
def day0 : Nat := 1728000000

def s0 : Chain := { now := day0 + 100, world := world0 }

theorem s0_genesis : Genesis env s0 where
  owned := by
    intro k
    simp only [s0, world0, env, tok]
    split
    · rename_i h
      intro _
      refine ⟨rfl, ?_, by grind⟩
      simp only [Env.IsPda]
      rintro (⟨o, p, b, h'⟩ | ⟨o, p, b, h'⟩)
      · split at h' <;> simp at h'; grind
      · split at h' <;> simp at h'; grind
    · (repeat' split) <;> simp
  pda := by
    intro k hk
    have hk' : 10000000000 ≤ k := by
      simp only [Env.IsPda, env] at hk
      rcases hk with ⟨o, p, b, h'⟩ | ⟨o, p, b, h'⟩
      · split at h' <;> simp at h'; grind
      · split at h' <;> simp at h'; grind
    simp only [s0, world0, env]
    grind

/-- Account metas: writable / read-only, signer. -/
def W (k : Key) : AccountInfo := { key := k, isSigner := false, isWritable := true }
def R (k : Key) : AccountInfo := { key := k, isSigner := false, isWritable := false }
def S (k : Key) : AccountInfo := { key := k, isSigner := true, isWritable := false }
def SW (k : Key) : AccountInfo := { key := k, isSigner := true, isWritable := true }

/-- A pool with another deposit authority `a`, and instructions signed by it. -/
def initPoolBy (p a : Key) : Event :=
  .ix [W p, R 101, W (vaultOf p 101), SW 102, S a, R 4, R 2, R 3] (.initializePool 112 111)
def depositBy (p a o : Key) (n : Nat) (l : LockupPeriod) (d : Key) : Event :=
  .ix [W p, W (mine o p), S a, W (mine d p)] (.depositMining n l o d)

/-- Instructions; `p` is the pool, 110 / 111 / 112 are its deposit, distribute and fill authorities. -/
def initPool (p : Key) : Event :=
  .ix [W p, R 101, W (vaultOf p 101), SW 102, S 110, R 4, R 2, R 3] (.initializePool 112 111)
def fill (p : Key) (n e : Nat) : Event := .ix [W p, R 101, W (vaultOf p 101), S 112, W 113, R 2] (.fillVault n e)
def initMining (p o : Key) : Event := .ix [R p, W (mine o p), SW 102, R 3] (.initializeMining o)
def deposit (p o : Key) (a : Nat) (l : LockupPeriod) (d : Key) : Event :=
  .ix [W p, W (mine o p), S 110, W (mine d p)] (.depositMining a l o d)
def withdraw (p o : Key) (a : Nat) (d : Key) : Event :=
  .ix [W p, W (mine o p), S 110, W (mine d p)] (.withdrawMining a o d)
def claim (p o u : Key) : Event :=
  .ix [R p, R 101, W (vaultOf p 101), W (mine o p), S o, S 110, W u, R 2] .claim
def extend (p o : Key) (ol nl : LockupPeriod) (ts b a : Nat) (d : Key) : Event :=
  .ix [W p, W (mine o p), S 110, W (mine d p)] (.extendStake ol nl ts b a o d)
def distribute (p : Key) : Event := .ix [W p, S 111] .distributeRewards
def close (p o : Key) : Event := .ix [W (mine o p), S o, W 102, S 110, R p] .closeMining
def redelegate (p o : Key) (a : Nat) (old new : Key) : Event :=
  .ix [W p, W (mine o p), S 110, S o, W (mine old p), W (mine new p)] (.changeDelegate a new)
def slash (p o : Key) (n m : Nat) (e : Option Nat) : Event := .ix [S 110, W p, W (mine o p)] (.slash o n m e)
def decrease (p o : Key) (n : Nat) : Event := .ix [S 110, R p, W (mine o p)] (.decreaseRewards o n)

/-- Is the account a pool? -/
def isPool : Content → Bool
  | .pool _ => true
  | _ => false

/-- Executable check: the event is possible, clean, and (for an instruction) succeeds. -/
def okEvent (s : Chain) : Event → Bool
  | .ix accs i =>
    accs.all (fun a => !a.isSigner || decide (a.key ≠ 0)) &&
    (match i with
      | .claim => accs[3]?.all (fun a => !isPool (s.world a.key).content)
      | .closeMining => accs[0]?.all (fun a => !isPool (s.world a.key).content)
      | .changeDelegate _ _ => accs[4]?.all (fun a => !isPool (s.world a.key).content)
      | _ => true) &&
    (match exec env s.now s.world accs i with | .ok _ => true | .error _ => false)
  | .tick _ => true
  | .gc k => decide ((s.world k).lamports = 0)
  | .ext _ => false

/-- Run a list of events, `none` if one of them fails the check. -/
def run : Chain → List Event → Option Chain
  | s, [] => some s
  | s, e :: es => if okEvent s e = true then run (s.apply env e) es else none

theorem okEvent_sound {s : Chain} {e : Event} (h : okEvent s e = true) : e.Valid env s ∧ CleanEvent env s e := by
  cases e with
  | ix accs i =>
    simp only [okEvent, Bool.and_eq_true, List.all_eq_true, Bool.or_eq_true, Bool.not_eq_true', decide_eq_true_eq] at h
    obtain ⟨⟨h1, h2⟩, _⟩ := h
    refine ⟨fun a ha hs => ?_, ?_⟩
    · rcases h1 a ha with h | h
      · rw [h] at hs; cases hs
      · exact h
    · have key : ∀ (n : Nat), accs[n]?.all (fun a => !isPool (s.world a.key).content) = true →
          ∀ a, accs[n]? = some a → ∀ q, ¬ PoolAt env s.world a.key q := by
        intro n hn a ha q hq
        rw [ha] at hn
        simp [hq.2, isPool] at hn
      cases i <;> first | exact key _ h2 | trivial
  | tick d => exact ⟨trivial, trivial⟩
  | gc k => exact ⟨by simpa [okEvent, Event.Valid] using h, trivial⟩
  | ext w => simp [okEvent] at h

theorem run_sound {s s' : Chain} {es : List Event} (h : run s es = some s') : RunsWith env (CleanEvent env) s es s' := by
  induction es generalizing s with
  | nil => simp only [run, Option.some.injEq] at h; subst h; exact .nil _
  | cons e es ih =>
    simp only [run] at h
    split at h
    · rename_i he
      obtain ⟨h1, h2⟩ := okEvent_sound he
      exact .cons h1 h2 (ih h)
    · cases h

theorem reachable {s : Chain} {es : List Event} (h : run s0 es = some s) : Reachable env s :=
  ⟨s0, es, s0_genesis, run_sound h⟩

/-- Two stakers, a year-long lock delegated to the second, two distributions. -/
def story : List Event :=
  [initPool 100, initMining 100 120, initMining 100 121, deposit 100 121 1000 .flex 121,
   deposit 100 120 500 .oneYear 121, fill 100 10000 (day0 + 10 * DAY), distribute 100, .tick DAY, distribute 100, .tick 1000]

def afterStory : Chain := (run s0 story).getD s0

theorem story_runs : (run s0 story).isSome = true := by decide +kernel

theorem story_eq : run s0 story = some afterStory := by
  have h := story_runs
  unfold afterStory
  cases hr : run s0 story with
  | none => rw [hr] at h; cases h
  | some x => rfl

theorem afterStory_reachable : Reachable env afterStory := reachable story_eq

end Verif.Demo
