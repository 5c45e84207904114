import Verif.Spec.Builders
/-!
Lemmas about the instruction builders of the generated clients.
-/

namespace Verif

open Spec

/-- The default values are the accounts of these names. -/
theorem js_default {env : Env} {n : Names} {payer : Key} {i : Ix} {s : JsSlot} (hs : s ∈ jsSlots i) {d : SlotDefault}
    (hd : s.default = some d) (hp : s.name = "payer" → payer = n.payer) :
    namedAccount env n s.name = some (jsDefault env payer d).key ∧
      jsDefault env payer d = if s.isSigner = true then .signer (jsDefault env payer d).key
        else .address (jsDefault env payer d).key := by
  cases i <;> simp only [jsSlots, List.mem_cons, List.not_mem_nil, or_false] at hs <;>
    (rcases hs with rfl | rfl | rfl | rfl | rfl | rfl | rfl | rfl) <;> simp_all [jsDefault, namedAccount, JsValue.key] <;>
    subst hd <;> simp_all

theorem js_value {env : Env} {n : Names} {payer : Key} {input : String → Option JsValue} {i : Ix} (ht : WellTyped input i)
    (hn : JsNames env n payer input) {s : JsSlot} (hs : s ∈ jsSlots i) :
    ∃ k, namedAccount env n s.name = some k ∧
      (jsResolve env payer input s).value = some (if s.isSigner = true then .signer k else .address k) := by
  have h := ht s hs
  unfold jsResolve
  cases hv : input s.name with
  | some v =>
    rw [hv] at h
    refine ⟨v.key, hn.1 _ _ hv, ?_⟩
    cases v <;> simp_all [JsValue.key]
  | none =>
    rw [hv] at h
    obtain ⟨d, hd⟩ := Option.ne_none_iff_exists'.mp h
    obtain ⟨a, b⟩ := js_default (env := env) (n := n) (payer := payer) hs hd (fun e => hn.2 (e ▸ hv))
    refine ⟨_, a, ?_⟩
    rw [hd]
    simp only [Option.none_or, Option.map_some]
    rw [← b]

/-- What a slot becomes: the address with the declared privileges. -/
def slotMeta (env : Env) (n : Names) (s : JsSlot) : AccountInfo :=
  { key := (namedAccount env n s.name).getD 0, isSigner := s.isSigner, isWritable := s.isWritable }

theorem js_list {env : Env} {n : Names} {payer : Key} {input : String → Option JsValue} {i : Ix} (ht : WellTyped input i)
    (hn : JsNames env n payer input) (P : Key) {l : List JsSlot} (hl : ∀ s ∈ l, s ∈ jsSlots i) :
    jsMetasAndSigners P (l.map (jsResolve env payer input)) =
      (l.map (slotMeta env n), ((l.map (slotMeta env n)).filter (·.isSigner)).map (·.key)) := by
  induction l with
  | nil => rfl
  | cons s t ih =>
    obtain ⟨k, hk, hv⟩ := js_value ht hn (hl s (by simp))
    simp only [List.map_cons, jsMetasAndSigners, ih fun x hx => hl x (by simp [hx]), hv]
    cases hsg : s.isSigner <;> simp [slotMeta, hk, hsg, jsResolve]

theorem sort_slots (env : Env) (payer : Key) (input : String → Option JsValue) (i : Ix) :
    sortByIndex ((jsSlots i).map (jsResolve env payer input)) = (jsSlots i).map (jsResolve env payer input) := by
  cases i <;> rfl

theorem js_metas (env : Env) (n : Names) (i : Ix) : (jsSlots i).map (slotMeta env n) = clientMetas env n i := by
  cases i <;> rfl

theorem rust_default {env : Env} {n : Names} {i : Ix} {s : RustSlot} (hs : s ∈ rustSlots i) :
    (∀ d, s.default = some d → rustDefault env d = namedAccount env n s.name) ∧ (s.default = none ↔ ¬ Fixed s.name) := by
  cases i <;> simp only [rustSlots, List.mem_cons, List.not_mem_nil, or_false] at hs <;>
    (rcases hs with rfl | rfl | rfl | rfl | rfl | rfl | rfl | rfl) <;>
    first
    | exact ⟨fun d hd => by cases hd; rfl, by decide⟩
    | exact ⟨fun d hd => by (cases hd; done), by decide⟩

theorem rust_named (env : Env) (n : Names) {i : Ix} {s : RustSlot} (hs : s ∈ rustSlots i) : ∃ k, namedAccount env n s.name = some k := by
  cases i <;> simp only [rustSlots, List.mem_cons, List.not_mem_nil, or_false] at hs <;>
    (rcases hs with rfl | rfl | rfl | rfl | rfl | rfl | rfl | rfl) <;> exact ⟨_, rfl⟩

def rustMeta (env : Env) (n : Names) (s : RustSlot) : AccountInfo :=
  { key := (namedAccount env n s.name).getD 0, isSigner := s.isSigner, isWritable := s.isWritable }

theorem rust_metas (env : Env) (n : Names) (i : Ix) : (rustSlots i).map (rustMeta env n) = clientMetas env n i := by
  cases i <;> rfl

theorem rust_list {env : Env} {n : Names} {set : String → Option Key} {i : Ix} (hn : RustNames env n set) {l : List RustSlot}
    (hl : ∀ s ∈ l, s ∈ rustSlots i) :
    rustFields env set l = if ∀ s ∈ l, ¬ Fixed s.name → (set s.name).isSome = true then some (l.map (rustMeta env n)) else none := by
  induction l with
  | nil => rfl
  | cons s t ih =>
    have hs := hl s (by simp)
    obtain ⟨k, hk⟩ := rust_named env n hs
    have hd := rust_default (env := env) (n := n) hs
    simp only [rustFields, ih fun x hx => hl x (by simp [hx]), List.forall_mem_cons]
    cases hv : set s.name with
    | some v =>
      have := hn _ _ hv
      rw [hk, Option.some.injEq] at this
      subst this
      simp only [rustField, hv, Option.some_or, Option.map_some, Option.bind_some, Option.isSome_some, implies_true, true_and]
      split <;> simp [rustMeta, hk]
    | none =>
      cases hdf : s.default with
      | none =>
        have : ¬ Fixed s.name := hd.2.mp hdf
        simp [rustField, hv, hdf, this]
      | some d =>
        have hf : Fixed s.name := by
          refine Classical.byContradiction fun hf => ?_
          rw [hd.2.mpr hf] at hdf
          cases hdf
        simp only [rustField, hv, hdf, hd.1 d hdf, hk, hf, not_true_eq_false, false_implies, true_and, Option.none_or,
          Option.bind_some, Option.map_some]
        split <;> simp [rustMeta, hk]

theorem cpi_list {env : Env} {n : Names} {set : String → Option AccountInfo} {i : Ix} (hn : CpiNames env n set)
    {l : List RustSlot} (hl : ∀ s ∈ l, s ∈ rustSlots i) :
    (∀ s ∈ l, (set s.name).isSome = true) → ∃ fs, cpiFields set l = some fs ∧ fs.map (·.2) = l ∧
      fs.map (fun f => ({ key := f.1.key, isSigner := f.2.isSigner, isWritable := f.2.isWritable } : AccountInfo)) =
        l.map (rustMeta env n) ∧ ∀ f ∈ fs, set f.2.name = some f.1 := by
  induction l with
  | nil => intro _; exact ⟨[], rfl, rfl, rfl, by simp⟩
  | cons s t ih =>
    intro h
    obtain ⟨a, ha⟩ := Option.isSome_iff_exists.mp (h s (by simp))
    obtain ⟨fs, h1, h2, h3, h4⟩ := ih (fun x hx => hl x (by simp [hx])) fun x hx => h x (by simp [hx])
    refine ⟨(a, s) :: fs, ?_, ?_, ?_, ?_⟩
    · simp only [cpiFields, ha, h1, Option.bind_some, Option.map_some]
    · simp [h2]
    · simp [h3, rustMeta, hn _ _ ha]
    · intro f hf
      rcases List.mem_cons.mp hf with rfl | hf
      · exact ha
      · exact h4 f hf

theorem cpi_missing {set : String → Option AccountInfo} {l : List RustSlot} {s : RustSlot} (hs : s ∈ l) (h : set s.name = none) :
    cpiFields set l = none := by
  induction l with
  | nil => simp at hs
  | cons x t ih =>
    rcases List.mem_cons.mp hs with rfl | hs
    · simp [cpiFields, h]
    · simp only [cpiFields, ih hs, Option.map_none]
      cases set x.name <;> rfl

end Verif
