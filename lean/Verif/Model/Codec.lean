import Verif.Model.Processor
/-!
Instruction data as bytes: the Borsh encoding of `RewardsInstruction` (instruction.rs:13-169, derived `BorshSerialize` and
`BorshDeserialize`, borsh 1.5) and the program's entry point.  A `Pubkey` is an array of 32 bytes; keys are numbers in the
model, read little endian.
-/

namespace Verif

abbrev Bytes := List UInt8

/-- Little-endian bytes of a number, of a given width. -/
def toLE : (width : Nat) → Nat → Bytes
  | 0, _ => []
  | n + 1, v => UInt8.ofNat v :: toLE n (v / 256)

/-- The number given by little-endian bytes. -/
def fromLE : Bytes → Nat
  | [] => 0
  | b :: bs => b.toNat + 256 * fromLE bs

/-- A deserializer consumes a prefix of the bytes or fails. -/
abbrev Reader (α : Type) := Bytes → Option (α × Bytes)

def Reader.pure {α : Type} (a : α) : Reader α := fun bs => some (a, bs)
def Reader.bind {α β : Type} (r : Reader α) (f : α → Reader β) : Reader β := fun bs =>
  match r bs with
  | some (a, rest) => f a rest
  | none => none

instance : Monad Reader where
  pure := Reader.pure
  bind := Reader.bind

/-- Borsh integers: fixed width, little endian; fails if there are too few bytes. -/
def readLE (width : Nat) : Reader Nat := fun bs =>
  if width ≤ bs.length then some (fromLE (bs.take width), bs.drop width) else none

def readU8 : Reader Nat := readLE 1
def readU64 : Reader Nat := readLE 8
def readKey : Reader Key := readLE 32

/-- `LockupPeriod`, utils.rs: a fieldless Borsh enum, one byte, in order of declaration. -/
def LockupPeriod.tag : LockupPeriod → Nat
  | .none => 0
  | .flex => 1
  | .threeMonths => 2
  | .sixMonths => 3
  | .oneYear => 4

def readPeriod : Reader LockupPeriod := do
  match ← readU8 with
  | 0 => pure .none
  | 1 => pure .flex
  | 2 => pure .threeMonths
  | 3 => pure .sixMonths
  | 4 => pure .oneYear
  | _ => fun _ => Option.none

/-- Borsh `Option<u64>`: 0, or 1 and the value. -/
def readOptU64 : Reader (Option Nat) := do
  match ← readU8 with
  | 0 => pure Option.none
  | 1 => do let v ← readU64; pure (some v)
  | _ => fun _ => Option.none

def writeU8 (v : Nat) : Bytes := toLE 1 v
def writeU64 (v : Nat) : Bytes := toLE 8 v
def writeKey (k : Key) : Bytes := toLE 32 k
def writePeriod (l : LockupPeriod) : Bytes := writeU8 l.tag
def writeOptU64 : Option Nat → Bytes
  | none => writeU8 0
  | some v => writeU8 1 ++ writeU64 v

/-- `borsh::to_vec(&RewardsInstruction)`, used by the builders (instruction.rs:172-611, `Instruction::new_with_borsh`): the
variant's number, then its fields in order. -/
def encodeIx : Ix → Bytes
  | .initializePool f d => writeU8 0 ++ writeKey f ++ writeKey d
  | .fillVault r e => writeU8 1 ++ writeU64 r ++ writeU64 e
  | .initializeMining o => writeU8 2 ++ writeKey o
  | .depositMining a l o d => writeU8 3 ++ writeU64 a ++ writePeriod l ++ writeKey o ++ writeKey d
  | .withdrawMining a o d => writeU8 4 ++ writeU64 a ++ writeKey o ++ writeKey d
  | .claim => writeU8 5
  | .extendStake ol nl ts b a o d => writeU8 6 ++ writePeriod ol ++ writePeriod nl ++ writeU64 ts ++ writeU64 b ++
      writeU64 a ++ writeKey o ++ writeKey d
  | .distributeRewards => writeU8 7
  | .closeMining => writeU8 8
  | .changeDelegate a d => writeU8 9 ++ writeU64 a ++ writeKey d
  | .slash o n m e => writeU8 10 ++ writeKey o ++ writeU64 n ++ writeU64 m ++ writeOptU64 e
  | .decreaseRewards o n => writeU8 11 ++ writeKey o ++ writeU64 n

/-- `RewardsInstruction::deserialize`. -/
def readIx : Reader Ix := do
  match ← readU8 with
  | 0 => do let f ← readKey; let d ← readKey; pure (.initializePool f d)
  | 1 => do let r ← readU64; let e ← readU64; pure (.fillVault r e)
  | 2 => do let o ← readKey; pure (.initializeMining o)
  | 3 => do let a ← readU64; let l ← readPeriod; let o ← readKey; let d ← readKey; pure (.depositMining a l o d)
  | 4 => do let a ← readU64; let o ← readKey; let d ← readKey; pure (.withdrawMining a o d)
  | 5 => pure .claim
  | 6 => do
    let ol ← readPeriod; let nl ← readPeriod; let ts ← readU64; let b ← readU64; let a ← readU64
    let o ← readKey; let d ← readKey
    pure (.extendStake ol nl ts b a o d)
  | 7 => pure .distributeRewards
  | 8 => pure .closeMining
  | 9 => do let a ← readU64; let d ← readKey; pure (.changeDelegate a d)
  | 10 => do let o ← readKey; let n ← readU64; let m ← readU64; let e ← readOptU64; pure (.slash o n m e)
  | 11 => do let o ← readKey; let n ← readU64; pure (.decreaseRewards o n)
  | _ => fun _ => none

/-- `RewardsInstruction::try_from_slice`: all bytes must be consumed. -/
def decodeIx (bs : Bytes) : Option Ix :=
  match readIx bs with
  | some (i, []) => some i
  | _ => none

/-- `process_instruction` (instructions/mod.rs:30-150) behind the entry point (entrypoint.rs:8-20);
`invalidInstructionData` stands for the `BorshIoError` of `try_from_slice`. -/
def entrypoint (env : Env) (now : Nat) (w : World) (accs : List AccountInfo) (data : Bytes) :
    Res (World × Option Nat) :=
  match decodeIx data with
  | some i => exec env now w accs i
  | none => .error .invalidInstructionData

end Verif
