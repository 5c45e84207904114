import Verif.Model.Builders
import Verif.Spec.Idl
/-!
Specification vocabulary for the instruction builders of the generated clients.
-/

namespace Verif.Spec

def _root_.Verif.JsValue.key : JsValue → Key
  | .address k => k
  | .signer k => k

/-- The input of a JS builder has the declared types: signers where signers are asked for, plain addresses elsewhere, and nothing
missing that has no default. -/
def WellTyped (input : String → Option JsValue) (i : Ix) : Prop :=
  ∀ s ∈ jsSlots i, match input s.name with
    | none => s.default ≠ none
    | some (.signer _) => s.isSigner = true
    | some (.address _) => s.isSigner = false

/-- The accounts given to a JS builder are those of `n` (and the programs of `env`); if no payer is given, Umi's payer is that of
`n`. -/
def JsNames (env : Env) (n : Names) (payer : Key) (input : String → Option JsValue) : Prop :=
  (∀ name v, input name = some v → namedAccount env n name = some v.key) ∧ (input "payer" = none → payer = n.payer)

/-- The same for a Rust builder. -/
def RustNames (env : Env) (n : Names) (set : String → Option Key) : Prop :=
  ∀ name k, set name = some k → namedAccount env n name = some k

/-- The same for a CPI builder, which is given account infos. -/
def CpiNames (env : Env) (n : Names) (set : String → Option AccountInfo) : Prop :=
  ∀ name a, set name = some a → namedAccount env n name = some a.key

/-- The accounts nobody has to name: fixed addresses. -/
def Fixed (name : String) : Prop := name = "rent" ∨ name = "tokenProgram" ∨ name = "systemProgram"

instance (name : String) : Decidable (Fixed name) := by unfold Fixed; infer_instance

end Verif.Spec
