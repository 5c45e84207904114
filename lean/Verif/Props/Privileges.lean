import Verif.Lemmas.Privileges
import Verif.Lemmas.DemoExec
/-!
C100: exactly the listed accounts, signatures and write privileges are needed, and more make no difference.
-/

namespace Verif

open Spec

section
variable {env : Env}

/-- C100: an instruction succeeds, with a given effect, if and only if it does so with the first accounts of the list (as many as
it takes) and all privileges, and the list has the needed signatures and write privileges: those in `mustSign` have signed, those in
`passedOn` may be written, and so may all accounts that change. -/
theorem C100_exact {now : Nat} {w w' : World} {accs : List AccountInfo} {i : Ix} {ret : Option Nat} :
    exec env now w accs i = .ok (w', ret) ↔
      exec env now w (allPrivileges (accs.take (accountCount i))) i = .ok (w', ret) ∧ Sufficient w w' ret accs i := by
  rw [exec_ok, exec_ok]
  constructor
  · rintro ⟨h1, h2⟩
    obtain ⟨h3, h4⟩ := process_privileges.mp h1
    refine ⟨⟨h3, fun a ha hw => ?_⟩, h4.2.1, h4.2.2, fun a ha hne => ?_⟩
    · simp only [allPrivileges, List.mem_map] at ha
      obtain ⟨b, -, rfl⟩ := ha
      cases hw
    · cases hb : a.isWritable with
      | true => rfl
      | false => exact absurd (h2 a ha hb) hne
  · rintro ⟨⟨h1, -⟩, h2⟩
    have hc := allPrivileges_needs (process_needs h1)
    refine ⟨process_privileges.mpr ⟨h1, Nat.le_trans hc (by rw [List.length_take]; exact Nat.min_le_right _ _), h2.signed,
      h2.writable⟩, fun a ha hw => Classical.byContradiction fun hne => ?_⟩
    rw [h2.changed a ha hne] at hw
    cases hw

theorem grants_at {ms accs : List AccountInfo} (h : Grants ms accs) {n : Nat} {a : AccountInfo} (ha : ms[n]? = some a) :
    ∃ b, accs[n]? = some b ∧ b.key = a.key ∧ (a.isSigner = true → b.isSigner = true) ∧
      (a.isWritable = true → b.isWritable = true) := by
  induction ms generalizing accs n with
  | nil => simp at ha
  | cons m ms ih =>
    obtain ⟨b, bs, rfl, h1, h2, h3, h4⟩ := grants_cons h
    cases n with
    | zero => cases ha; exact ⟨b, rfl, h1, h2, h3⟩
    | succ n => simpa using ih h4 (by simpa using ha)

theorem grants_all {ms accs : List AccountInfo} (h : Grants ms accs) : allPrivileges accs = allPrivileges ms := by
  induction ms generalizing accs with
  | nil => rw [grants_nil h]
  | cons m ms ih =>
    obtain ⟨b, bs, rfl, h1, -, -, h4⟩ := grants_cons h
    simp only [allPrivileges, List.map_cons, h1] at ih ⊢
    rw [ih h4]

/-- C100: further signatures, write privileges and accounts at the end of the list make no difference to an instruction that
succeeds (entries for one address having the same privileges, as the runtime sees to). -/
theorem C100_more {now : Nat} {w w' : World} {accs accs' extra : List AccountInfo} {i : Ix} {ret : Option Nat}
    (h : exec env now w accs i = .ok (w', ret)) (hg : Grants accs accs') (hm : Merged (accs' ++ extra)) :
    exec env now w (accs' ++ extra) i = .ok (w', ret) := by
  obtain ⟨h1, h2⟩ := C100_exact.mp h
  have hp := (exec_ok.mp h).1
  have hc := (process_needs hp).1
  have ht : (accs' ++ extra).take (accountCount i) = accs'.take (accountCount i) :=
    List.take_append_of_le_length (by rw [grants_length hg]; exact hc)
  have he : allPrivileges (accs'.take (accountCount i)) = allPrivileges (accs.take (accountCount i)) := by
    have := grants_all hg
    simp only [allPrivileges, List.map_take] at this ⊢
    rw [this]
  have get : ∀ {n : Nat} {a : AccountInfo}, accs[n]? = some a → ∃ b, (accs' ++ extra)[n]? = some b ∧ b.key = a.key ∧
      (a.isSigner = true → b.isSigner = true) ∧ (a.isWritable = true → b.isWritable = true) := by
    intro n a ha
    obtain ⟨b, hb, hb'⟩ := grants_at hg ha
    refine ⟨b, ?_, hb'⟩
    rw [List.getElem?_append_left]
    · exact hb
    · exact (List.getElem?_eq_some_iff.mp hb).1
  refine C100_exact.mpr ⟨by rw [ht, he]; exact h1, fun n hn => ?_, fun n hn => ?_, fun a ha hne => ?_⟩
  · obtain ⟨a, ha, hs⟩ := h2.signed n hn
    obtain ⟨b, hb, -, hb', -⟩ := get ha
    exact ⟨b, hb, hb' hs⟩
  · obtain ⟨a, ha, hs⟩ := h2.writable n hn
    obtain ⟨b, hb, -, -, hb'⟩ := get ha
    exact ⟨b, hb, hb' hs⟩
  · by_cases hx : ∃ j ∈ changedAt i, ∃ c, accs[j]? = some c ∧ a.key = c.key
    · obtain ⟨j, -, c, hj, hk⟩ := hx
      obtain ⟨b, hb, hbk, -, hb'⟩ := get hj
      have := h2.changed c (List.mem_of_getElem? hj) (by rw [← hk]; exact hne)
      rw [(hm a ha b (List.mem_of_getElem? hb) (by rw [hk, hbk])).2]
      exact hb' this
    · exact absurd (process_apart hp fun j hj c hc hk => hx ⟨j, hj, c, hc, hk⟩) hne

end

section Examples
open Demo

/-- The hypotheses of `C100_more` hold for a deposit with two more accounts, a further signature and further write privileges. -/
example : ∃ w' r, exec Demo.env (afterStory.now) afterStory.world [W 100, W (mine 120 100), S 110, W (mine 120 100)]
      (.depositMining 500 .flex 120 120) = .ok (w', r) ∧
    Grants [W 100, W (mine 120 100), S 110, W (mine 120 100)] [SW 100, W (mine 120 100), SW 110, W (mine 120 100)] ∧
    Merged ([SW 100, W (mine 120 100), SW 110, W (mine 120 100)] ++ [R 7, SW 110]) := by
  obtain ⟨r, h⟩ := exec_of_ok (s := afterStory) (accs := [W 100, W (mine 120 100), S 110, W (mine 120 100)])
    (i := .depositMining 500 .flex 120 120) (by decide +kernel)
  exact ⟨_, r, h, by simp [Grants, W, S, SW], by unfold Merged; decide⟩

/-- `C100_exact`: without the signature of the deposit authority nobody can deposit, whatever else has signed. -/
example {env : Env} {now : Nat} {w : World} {P M A D : AccountInfo} (hA : A.isSigner = false) (a : Nat) (l : LockupPeriod) (o d : Key)
    (w' : World) (r : Option Nat) : exec env now w [P, M, A, D] (.depositMining a l o d) ≠ .ok (w', r) := by
  intro h
  obtain ⟨x, hx, hs⟩ := (C100_exact.mp h).2.signed 2 (by simp [mustSign])
  cases hx
  rw [hA] at hs
  cases hs

end Examples

end Verif
