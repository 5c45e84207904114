import Verif.Lemmas.Builders
import Verif.Props.Clients
/-!
C85: the builders of the generated clients assemble what the caller names.
-/

namespace Verif

open Spec

section
variable {env : Env}

/-- C85, JS.  Given the accounts of an instruction by name, with the declared types, a JS builder lists exactly the client's
accounts, in order and with their privileges, whether the payer and the fixed addresses are given or left to their defaults; and it
hands over a signer for every address marked as signer. -/
theorem C85_js_partial {n : Names} {payer : Key} {input : String → Option JsValue} {i : Ix} (ht : WellTyped input i)
    (hn : JsNames env n payer input) :
    jsBuild env payer input i =
      (clientMetas env n i, ((clientMetas env n i).filter (·.isSigner)).map (·.key)) := by
  unfold jsBuild
  rw [sort_slots, js_list ht hn env.programId (fun s h => h), js_metas]

/-- C85, JS.  No account hides an argument of the same name (the builders pass accounts and arguments on in one object). -/
theorem C85_js_no_clash_partial {i : Ix} {s : JsSlot} (hs : s ∈ jsSlots i) : s.name ∉ (ixFields i).map (·.1) := by
  cases i <;> simp only [jsSlots, List.mem_cons, List.not_mem_nil, or_false] at hs <;>
    (rcases hs with rfl | rfl | rfl | rfl | rfl | rfl | rfl | rfl) <;>
    simp [ixFields]

/-- C85, JS.  So an instruction built in JS lacks no privilege, where the client's list is right (see C48). -/
theorem C85_js_runs_partial {now : Nat} {w : World} {n : Names} {payer : Key} {input : String → Option JsValue} {i : Ix}
    (hi : match i with
      | .depositMining .. | .withdrawMining .. | .extendStake .. | .closeMining => False
      | _ => True) (ht : WellTyped input i) (hn : JsNames env n payer input) {accs : List AccountInfo} (h : Grants (jsBuild env payer input i).1 accs) (hm : Merged accs)
    {r : World × Option Nat} :
    exec env now w accs i = .ok r ↔ exec env now w (allPrivileges accs) i = .ok r := by
  rw [C85_js_partial ht hn] at h
  exact C48_clients_partial hi h hm

/-- C85, Rust.  `XBuilder::instruction` lists exactly the client's accounts, followed by the additional ones as they were given; it
panics exactly if an account other than the fixed addresses was not set. -/
theorem C85_rust_partial {n : Names} {set : String → Option Key} (hn : RustNames env n set) {remaining : List AccountInfo}
    {i : Ix} :
    ((∀ s ∈ rustSlots i, ¬ Fixed s.name → (set s.name).isSome = true) →
      rustBuild env set remaining i = some (clientMetas env n i ++ remaining)) ∧
    ((∃ s ∈ rustSlots i, ¬ Fixed s.name ∧ set s.name = none) → rustBuild env set remaining i = none) := by
  unfold rustBuild
  rw [rust_list (i := i) hn (fun s h => h)]
  refine ⟨fun h => by rw [if_pos h, rust_metas]; rfl, fun ⟨s, hs, hf, hv⟩ => ?_⟩
  rw [if_neg]
  · rfl
  · intro h
    have := h s hs hf
    rw [hv] at this
    cases this

/-- C85, cross-program calls.  `XCpiBuilder::invoke_signed` calls the program with exactly the client's accounts, followed by the
additional ones with the flags stored; if the accounts passed carry the privileges, or the caller signs for them by seeds, the
runtime lets the call through.  It panics exactly if an account was not set (here the fixed addresses have to be set as well). -/
theorem C85_cpi_partial {n : Names} {set : String → Option AccountInfo} (hn : CpiNames env n set) {program : AccountInfo}
    {remaining : List Remaining} {i : Ix} :
    ((∀ s ∈ rustSlots i, (set s.name).isSome = true) →
      ∃ infos, cpiBuild program set remaining i = some (clientMetas env n i ++ cpiRemaining remaining, infos) ∧
        ∀ pdas : List Key,
          (∀ s ∈ rustSlots i, ∀ a, set s.name = some a →
            (s.isWritable = true → a.isWritable = true) ∧ (s.isSigner = true → a.isSigner = true ∨ a.key ∈ pdas)) →
          (∀ r ∈ remaining, (r.2.2 = true → r.1.isWritable = true) ∧ (r.2.1 = true → r.1.isSigner = true ∨ r.1.key ∈ pdas)) →
          cpiAllowed (clientMetas env n i ++ cpiRemaining remaining) infos pdas = true) ∧
    ((∃ s ∈ rustSlots i, set s.name = none) → cpiBuild program set remaining i = none) := by
  refine ⟨fun h => ?_, fun ⟨s, hs, hv⟩ => by unfold cpiBuild; rw [cpi_missing hs hv]; rfl⟩
  obtain ⟨fs, h1, h2, h3, h4⟩ := cpi_list hn (i := i) (fun s h => h) h
  refine ⟨program :: fs.map (·.1) ++ remaining.map (·.1), ?_, fun pdas hp hr => ?_⟩
  · unfold cpiBuild
    rw [h1, Option.map_some, h3, rust_metas]
  · rw [← rust_metas, ← h3]
    unfold cpiAllowed
    rw [List.all_eq_true]
    intro m hm
    rw [List.any_eq_true]
    rcases List.mem_append.mp hm with hm | hm
    · obtain ⟨f, hf, rfl⟩ := List.mem_map.mp hm
      have hs : f.2 ∈ rustSlots i := h2 ▸ List.mem_map_of_mem (f := Prod.snd) hf
      obtain ⟨a, b⟩ := hp f.2 hs f.1 (h4 f hf)
      refine ⟨f.1, by simp only [List.cons_append, List.mem_cons, List.mem_append, List.mem_map]; exact .inr (.inl ⟨f, hf, rfl⟩), ?_⟩
      cases hw : f.2.isWritable <;> cases hsg : f.2.isSigner <;> simp_all
    · obtain ⟨r, hmem, rfl⟩ := List.mem_map.mp hm
      obtain ⟨a, b⟩ := hr r hmem
      refine ⟨r.1, by simp only [List.cons_append, List.mem_cons, List.mem_append, List.mem_map]; exact .inr (.inr ⟨r, hmem, rfl⟩), ?_⟩
      cases hw : r.2.2 <;> cases hsg : r.2.1 <;> simp_all

/-- C85, cross-program calls with additional accounts.  Whatever accounts are added one after the other, all of them follow the
client's accounts, in the order in which they were added, and are handed to the runtime; those asked for with equal flags (read
only and not as signer, or writable and as signer) have the privileges asked for.  For the others see
`C85_cpi_remaining_false`. -/
theorem C85_cpi_added_partial {n : Names} {set : String → Option AccountInfo} (hn : CpiNames env n set) {program : AccountInfo}
    {i : Ix} (hset : ∀ s ∈ rustSlots i, (set s.name).isSome = true) (calls : List (AccountInfo × Bool × Bool)) :
    ∃ (added infos : List AccountInfo), cpiBuild program set (calls.foldl (fun l c => addRemaining l c.1 c.2.1 c.2.2) []) i =
        some (clientMetas env n i ++ added, infos) ∧
      added.map (·.key) = calls.map (·.1.key) ∧ (∀ c ∈ calls, c.1 ∈ infos) ∧
      ∀ (j : Nat) (c : AccountInfo × Bool × Bool), calls[j]? = some c → c.2.1 = c.2.2 →
        added[j]? = some { key := c.1.key, isWritable := c.2.1, isSigner := c.2.2 } := by
  have hl : ∀ l : List Remaining, calls.foldl (fun l c => addRemaining l c.1 c.2.1 c.2.2) l = l ++ calls := by
    induction calls with
    | nil => intro l; simp
    | cons c t ih => intro l; rw [List.foldl_cons, ih, addRemaining]; simp
  rw [hl, List.nil_append]
  obtain ⟨fs, h1, -, h3, -⟩ := cpi_list hn (i := i) (fun s h => h) hset
  refine ⟨cpiRemaining calls, program :: fs.map (·.1) ++ calls.map (·.1), ?_, ?_, ?_, ?_⟩
  · unfold cpiBuild
    rw [h1, Option.map_some, h3, rust_metas]
  · simp [cpiRemaining]
  · intro c hc
    exact List.mem_append_right _ (List.mem_map_of_mem hc)
  · intro j c hj he
    rw [cpiRemaining, List.getElem?_map, hj, Option.map_some, he]

end

section Examples
open Demo

/-- C85 is false of the CPI builders: an additional account asked for as writable (and not as signer) is passed on as signer (and
not as writable).  So a call that is allowed without the additional account is refused with it, although the caller has all the
privileges asked for. -/
theorem C85_cpi_remaining_false : ∃ (program x : AccountInfo) (set : String → Option AccountInfo) (i : Ix) (n : Names),
    CpiNames Demo.env n set ∧ (∀ s ∈ rustSlots i, (set s.name).isSome = true) ∧ x.isWritable = true ∧
    (∃ metas infos, cpiBuild program set [] i = some (metas, infos) ∧ cpiAllowed metas infos [] = true) ∧
    ∃ metas infos, cpiBuild program set (addRemaining [] x true false) i = some (metas, infos) ∧
      metas.getLast? = some { key := x.key, isSigner := true, isWritable := false } ∧ cpiAllowed metas infos [] = false := by
  refine ⟨{ key := 7, isSigner := false, isWritable := false }, { key := 9, isSigner := false, isWritable := true },
    fun s => if s = "rewardPool" then some { key := 100, isSigner := false, isWritable := true }
      else if s = "distributeAuthority" then some { key := 111, isSigner := true, isWritable := false } else none,
    .distributeRewards,
    ⟨100, 0, 0, 0, 0, 0, 111, 0, 0, 0, 0, 0, 0, 0, 0⟩, ?_, by decide, by decide, ⟨_, _, rfl, by decide⟩,
    ⟨_, _, rfl, by decide, by decide⟩⟩
  intro name a h
  dsimp only at h
  split at h
  · rename_i e; cases h; subst e; rfl
  · split at h
    · rename_i e; cases h; subst e; rfl
    · cases h

def demoNames : Names :=
  { rewardPool := 100, rewardMint := 101, vault := vaultOf 100 101, payer := 102, depositAuthority := 110, fillAuthority := 112,
    distributeAuthority := 111, source := 113, mining := mine 120 100, miningOwner := 120, userToken := 130,
    delegateMining := mine 121 100, oldDelegateMining := mine 121 100, newDelegateMining := mine 122 100, target := 120 }

/-- A JS call of `claim` that leaves the token program to its default. -/
def claimInput : String → Option JsValue := fun s =>
  if s = "miningOwner" ∨ s = "depositAuthority" then (namedAccount Demo.env demoNames s).map .signer
  else if s = "tokenProgram" ∨ s = "payer" then none else (namedAccount Demo.env demoNames s).map .address

example : WellTyped claimInput .claim ∧ JsNames Demo.env demoNames 102 claimInput ∧
    (jsBuild Demo.env 102 claimInput .claim).2 = [120, 110] := by
  refine ⟨?_, ⟨?_, fun _ => rfl⟩, by decide⟩
  · intro s hs
    simp only [jsSlots, List.mem_cons, List.not_mem_nil, or_false] at hs
    rcases hs with rfl | rfl | rfl | rfl | rfl | rfl | rfl | rfl <;> first | rfl | exact Option.some_ne_none _
  · intro name v h
    unfold claimInput at h
    split at h
    · obtain ⟨k, h1, rfl⟩ := Option.map_eq_some_iff.mp h; exact h1
    · split at h
      · cases h
      · obtain ⟨k, h1, rfl⟩ := Option.map_eq_some_iff.mp h; exact h1

/-- A Rust call of `claim` that does not set the token program, and one that forgets the vault. -/
example : rustBuild Demo.env (fun s => if s = "tokenProgram" then none else namedAccount Demo.env demoNames s) [] .claim =
      some (clientMetas Demo.env demoNames .claim) ∧
    rustBuild Demo.env (fun s => if s = "vault" then none else namedAccount Demo.env demoNames s) [] .claim = none := by
  decide

/-- All accounts of a cross-program call of `claim` set, with all privileges. -/
def claimSet : String → Option AccountInfo := fun s =>
  (namedAccount Demo.env demoNames s).map fun k => { key := k, isSigner := true, isWritable := true }

-- … and two additional accounts, one to be read and one to be written by its owner
example : CpiNames Demo.env demoNames claimSet ∧ (∀ s ∈ rustSlots .claim, (claimSet s.name).isSome = true) ∧
    ((cpiBuild (R 7) claimSet (([(R 9, false, false), (SW 8, true, true)] : List (AccountInfo × Bool × Bool)).foldl
        (fun l c => addRemaining l c.1 c.2.1 c.2.2) []) .claim).map fun x => x.1.drop 8) =
      some [{ key := 9, isSigner := false, isWritable := false }, { key := 8, isSigner := true, isWritable := true }] := by
  refine ⟨?_, by decide, by decide⟩
  intro name a h
  obtain ⟨k, h1, rfl⟩ := Option.map_eq_some_iff.mp h
  exact h1

end Examples

end Verif
