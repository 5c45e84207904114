import Verif.Model.Errors
/-!
C50: error codes are unambiguous.
-/

namespace Verif

/-- C50: distinct errors have distinct codes. -/
theorem C50_distinct {e e' : RewardsErr} (h : e.code = e'.code) : e = e' := by
  cases e <;> cases e' <;> first | rfl | (revert h; decide)

/-- C50: both clients give each code the name the program gives it, and know no other codes. -/
theorem C50_clients (code : Nat) (name : String) :
    (rustClientError code = some name ↔ ∃ e : RewardsErr, e.code = code ∧ e.name = name) ∧
    (jsClientError code = some name ↔ ∃ e : RewardsErr, e.code = code ∧ e.name = name) := by
  by_cases hc : code < 16
  · have key : ∀ c, c < 16 → ∀ s, (rustClientError c = some s ↔ ∃ e : RewardsErr, e.code = c ∧ e.name = s) ∧
        (jsClientError c = some s ↔ ∃ e : RewardsErr, e.code = c ∧ e.name = s) := by
      intro c hc s
      have hname : ∀ e : RewardsErr, rustClientError e.code = some e.name ∧ jsClientError e.code = some e.name := by
        intro e; cases e <;> decide
      have hex : ∃ e : RewardsErr, e.code = c := by
        have : ∀ c < 16, ((errorOrder[c]?).map RewardsErr.code) = some c := by decide
        have h := this c hc
        match he : errorOrder[c]?, h with
        | some e, h => exact ⟨e, by simpa using h⟩
      obtain ⟨e, rfl⟩ := hex
      have := hname e
      constructor
      · rw [this.1]
        constructor
        · intro h; exact ⟨e, rfl, Option.some.inj h⟩
        · rintro ⟨e', h1, h2⟩; rw [C50_distinct h1] at h2; rw [h2]
      · rw [this.2]
        constructor
        · intro h; exact ⟨e, rfl, Option.some.inj h⟩
        · rintro ⟨e', h1, h2⟩; rw [C50_distinct h1] at h2; rw [h2]
    exact key code hc name
  · have hlt : ∀ e : RewardsErr, e.code < 16 := by intro e; cases e <;> decide
    have hno : ¬ ∃ e : RewardsErr, e.code = code ∧ e.name = name := by
      rintro ⟨e, h, _⟩; have := hlt e; omega
    refine ⟨⟨fun h => absurd h ?_, fun h => absurd h hno⟩, ⟨fun h => absurd h ?_, fun h => absurd h hno⟩⟩
    · have : rustClientError code = none := by
        apply List.getElem?_eq_none
        have : rustClientErrors.length = 16 := by decide
        omega
      simp [this]
    · have : jsClientError code = none := by
        have : jsClientErrors.find? (·.1 == code) = none := by
          apply List.find?_eq_none.mpr
          have hall : ∀ x ∈ jsClientErrors, x.1 < 16 := by decide
          intro x hx
          have := hall x hx
          simp; omega
        simp [jsClientError, this]
      simp [this]

/-- The codes are the numbers 0 to 15, in order of declaration. -/
example : errorOrder.map RewardsErr.code = List.range 16 := by decide
example : jsClientError RewardsErr.decreaseRewardsTooBig.code = some "DecreaseRewardsTooBig" := by decide
example : jsClientError 16 = none ∧ rustClientError 16 = none := by decide

/-- Codes tell the errors apart, but messages do not: an impossible conversion is reported with the text about dates. -/
theorem C50_message_false : ¬ ∀ e e' : RewardsErr, e.message = e'.message → e = e' := by
  intro h
  exact absurd (h .distributionInThePast .invalidPrimitiveTypesConversion (by decide)) (by decide)

end Verif
