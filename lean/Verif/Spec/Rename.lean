import Verif.Spec.World
/-!
Vocabulary for C90: exchanging all addresses for others.
-/

namespace Verif.Spec

/-- A one-to-one exchange of addresses; only the all-zero address keeps its name. -/
structure Renaming where
  to : Key → Key
  back : Key → Key
  back_to : ∀ k, back (to k) = k
  to_back : ∀ k, to (back k) = k
  zero : to 0 = 0

namespace Renaming

/-- The opposite exchange. -/
def inverse (r : Renaming) : Renaming where
  to := r.back
  back := r.to
  back_to := r.to_back
  to_back := r.back_to
  zero := by have := r.back_to 0; rwa [r.zero] at this

variable (r : Renaming)

def mining (m : Mining) : Mining :=
  { m with rewardPool := r.to m.rewardPool, owner := r.to m.owner, rewardMint := r.to m.rewardMint }

def pool (p : Pool) : Pool :=
  { p with depositAuthority := r.to p.depositAuthority, distributeAuthority := r.to p.distributeAuthority,
           fillAuthority := r.to p.fillAuthority, rewardMint := r.to p.rewardMint }

def token (t : TokenAcc) : TokenAcc := { t with mint := r.to t.mint, owner := r.to t.owner, delegate := t.delegate.map r.to }

def content : Content → Content
  | .pool p => .pool (r.pool p)
  | .mining m => .mining (r.mining m)
  | .token t => .token (r.token t)
  | .zero => .zero
  | .mint => .mint
  | .other => .other

def account (a : Account) : Account := { a with owner := r.to a.owner, content := r.content a.content }

/-- Every account, with the addresses in it exchanged, at its new address. -/
def world (w : World) : World := fun k => r.account (w (r.back k))

def info (a : AccountInfo) : AccountInfo := { a with key := r.to a.key }

def ix : Ix → Ix
  | .initializePool f d => .initializePool (r.to f) (r.to d)
  | .fillVault n t => .fillVault n t
  | .initializeMining o => .initializeMining (r.to o)
  | .depositMining n l o d => .depositMining n l (r.to o) (r.to d)
  | .withdrawMining n o d => .withdrawMining n (r.to o) (r.to d)
  | .claim => .claim
  | .extendStake ol nl ts b a o d => .extendStake ol nl ts b a (r.to o) (r.to d)
  | .distributeRewards => .distributeRewards
  | .closeMining => .closeMining
  | .changeDelegate n d => .changeDelegate n (r.to d)
  | .slash o n m e => .slash (r.to o) n m e
  | .decreaseRewards o n => .decreaseRewards (r.to o) n

def chain (s : Chain) : Chain := ⟨s.now, r.world s.world⟩

def event : Event → Event
  | .ix accs i => .ix (accs.map r.info) (r.ix i)
  | .tick d => .tick d
  | .gc k => .gc (r.to k)
  | .ext w => .ext (r.world w)

theorem to_eq {a b : Key} : r.to a = r.to b ↔ a = b :=
  ⟨fun h => by rw [← r.back_to a, h, r.back_to], fun h => by rw [h]⟩

theorem mining_back (m : Mining) : r.mining (r.inverse.mining m) = m := by
  simp [mining, inverse, r.to_back]

theorem pool_back (p : Pool) : r.pool (r.inverse.pool p) = p := by
  simp [pool, inverse, r.to_back]

/-- The environment with all addresses exchanged: those of the programs, of the sysvar and of the native mint, and those that
are derived from others. -/
def env (e : Env) : Env where
  programId := r.to e.programId
  tokenProgram := r.to e.tokenProgram
  systemProgram := r.to e.systemProgram
  rentSysvar := r.to e.rentSysvar
  nativeMint := r.to e.nativeMint
  caps := e.caps
  rentMin := e.rentMin
  miningAddr := fun o p b => (e.miningAddr (r.back o) (r.back p) b).map r.to
  vaultAddr := fun p m b => (e.vaultAddr (r.back p) (r.back m) b).map r.to
  findMining := fun o p => (e.findMining (r.back o) (r.back p)).map fun x => (r.to x.1, x.2)
  findVault := fun p m => (e.findVault (r.back p) (r.back m)).map fun x => (r.to x.1, x.2)
  poolAsMining := fun p => r.mining (e.poolAsMining (r.inverse.pool p))
  poolSetMining := fun p m => r.pool (e.poolSetMining (r.inverse.pool p) (r.inverse.mining m))
  miningAsPool := fun m => r.pool (e.miningAsPool (r.inverse.mining m))
  program_ne_token := fun h => e.program_ne_token (r.to_eq.mp h)
  program_ne_system := fun h => e.program_ne_system (r.to_eq.mp h)
  token_ne_system := fun h => e.token_ne_system (r.to_eq.mp h)
  rentMin_pos := e.rentMin_pos
  miningAddr_ne_zero := fun o p b h => by
    rw [Option.map_eq_some_iff] at h
    obtain ⟨k, h1, h2⟩ := h
    rw [← r.zero, r.to_eq] at h2
    exact e.miningAddr_ne_zero _ _ _ (h2 ▸ h1)
  findMining_spec := fun o p k b h => by
    rw [Option.map_eq_some_iff] at h
    obtain ⟨x, h1, h2⟩ := h
    cases h2
    rw [e.findMining_spec _ _ _ _ h1]; rfl
  findVault_spec := fun o p k b h => by
    rw [Option.map_eq_some_iff] at h
    obtain ⟨x, h1, h2⟩ := h
    cases h2
    rw [e.findVault_spec _ _ _ _ h1]; rfl
  poolAsMining_keys := fun p => by
    obtain ⟨h1, h2, h3⟩ := e.poolAsMining_keys (r.inverse.pool p)
    simp only [mining, h1, h2, h3]
    exact ⟨r.to_back _, r.to_back _, r.to_back _⟩
  poolSetMining_keys := fun p m => by
    obtain ⟨h1, h2, h3⟩ := e.poolSetMining_keys (r.inverse.pool p) (r.inverse.mining m)
    exact ⟨(congrArg r.to h1).trans (r.to_back _), (congrArg r.to h2).trans (r.to_back _),
      (congrArg r.to h3).trans (r.to_back _)⟩
  miningAsPool_keys := fun m => by
    obtain ⟨h1, h2, h3⟩ := e.miningAsPool_keys (r.inverse.mining m)
    simp only [pool, h1, h2, h3]
    exact ⟨r.to_back _, r.to_back _, r.to_back _⟩

end Renaming

end Verif.Spec
