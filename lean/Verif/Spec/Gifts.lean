import Verif.Spec.Order
import Verif.Spec.Incentive
import Verif.Spec.Access
/-!
Specification vocabulary for lamports and tokens that are sent to accounts.
-/

namespace Verif.Spec

/-- The content of an account to which `t` tokens have been sent; nothing happens if it is no token account. -/
def addTokens (t : Nat) : Content → Content
  | .token x => .token { x with amount := x.amount + t }
  | c => c

/-- The world after `f k` lamports and `g k` tokens have been sent to every account `k`. -/
def gifted (w : World) (f g : Key → Nat) : World :=
  fun k => { w k with lamports := (w k).lamports + f k, content := addTokens (g k) (w k).content }

/-- The tokens in two token accounts of one mint together. -/
def tokensTogether : Content → Content → Nat
  | .token x, .token y => if x.mint = y.mint then x.amount + y.amount else 0
  | _, _ => 0

/-- Any two of the listed accounts have fewer than 2^64 lamports together, and fewer than 2^64 tokens of one mint.  (On the chain
all accounts together do: the supply of lamports and of every token is a 64-bit number.) -/
def Fits (accs : List AccountInfo) (w : World) : Prop := ∀ a ∈ accs, ∀ b ∈ accs, a.key ≠ b.key →
  (w a.key).lamports + (w b.key).lamports < 2 ^ 64 ∧ tokensTogether (w a.key).content (w b.key).content < 2 ^ 64

/-- The address at which an instruction creates an account: the vault of a new pool, or the new mining. -/
def creates (accs : List AccountInfo) : Ix → Option Key
  | .initializePool .. => accs[2]?.map (·.key)
  | .initializeMining .. => accs[1]?.map (·.key)
  | _ => none

/-- The lamports that were sent, after an instruction: CloseMining pays those of the mining out with the rest of its lamports. -/
def giftsAfter (f : Key → Nat) (accs : List AccountInfo) : Ix → Key → Nat
  | .closeMining => match accs with
    | M :: _ :: T :: _ => fun k => if k = M.key then 0 else if k = T.key then f k + f M.key else f k
    | _ => f
  | _ => f

/-- The same event after gifts. -/
def giftEvent (f g : Key → Nat) : Event → Event
  | .ext w => .ext (gifted w f g)
  | e => e

/-- What happens neither fails nor has to do with the gifts: no account is created or removed at an address to which something was
sent, no mining is closed to which lamports were sent. -/
def Undisturbed (env : Env) (f g : Key → Nat) (s : Chain) : Event → Prop
  | .ix accs i => succeeded env s accs i = true ∧ Fits accs (gifted s.world f g) ∧
      (∀ k, creates accs i = some k → f k = 0 ∧ g k = 0) ∧
      (i = .closeMining → ∀ k, accs[0]?.map (·.key) = some k → f k = 0)
  | .gc k => f k = 0 ∧ g k = 0
  | _ => True

end Verif.Spec
