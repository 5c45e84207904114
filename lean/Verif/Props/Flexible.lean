import Verif.Lemmas.Privileges
import Verif.Lemmas.DemoExec
/-!
C101: a slash without an expiration date is a withdrawal.
-/

namespace Verif

open Spec

section
variable {env : Env}

theorem withdraw_none {now : Nat} {p p' : Pool} {m m' : Mining} {x : Nat} {d : Option Mining}
    (h : p.withdraw now m x none = .ok (p', m', d)) : d = none := by
  simp only [Pool.withdraw, Pool.withDelegate, res_bind_ok, Prod.exists, res_pure_ok, Prod.mk.injEq, Except.ok.injEq] at h
  obtain ⟨_, _, _, _, _, _, _, _, _, _, ⟨_, rfl⟩, _, _, rfl⟩ := h
  rfl

theorem slash_withdraw {now : Nat} {p p' : Pool} {m m' : Mining} {n x : Nat} :
    p.slash now m n x none = .ok (p', m') ↔ p.withdraw now m x none = .ok (p', m', none) := by
  simp only [Pool.slash, res_bind_ok, Prod.exists, res_pure_ok, Prod.mk.injEq]
  constructor
  · rintro ⟨_, _, d, h, rfl, rfl⟩
    cases withdraw_none h
    exact h
  · intro h
    exact ⟨_, _, _, h, rfl, rfl⟩

theorem slash_returns {now : Nat} {w w' : World} {accs : List AccountInfo} {o : Key} {n x : Nat} {e : Option Nat} {ret : Option Nat}
    (h : exec env now w accs (.slash o n x e) = .ok (w', ret)) : ret = none := by
  rw [exec_ok] at h
  obtain ⟨h, -⟩ := h
  simp only [process, res_bind_ok, res_pure_ok, Prod.mk.injEq] at h
  obtain ⟨_, _, _, hr⟩ := h
  exact hr.symm

/-- C101: slashing without an expiration date (flexible stake, or stake whose lock has ended) does exactly what withdrawing the weighted amount
does: it succeeds under the same conditions and leaves the same accounts, whatever the native amount given. -/
theorem C101_slash_is_withdrawal {now : Nat} {w w' : World} {P M A : AccountInfo} {o d : Key} {n x : Nat} :
    exec env now w [A, P, M] (.slash o n x none) = .ok (w', none) ↔
      exec env now w [P, M, A, M] (.withdrawMining x o d) = .ok (w', none) := by
  have key : process env now w [A, P, M] (.slash o n x none) = .ok (w', none) ↔
      process env now w [P, M, A, M] (.withdrawMining x o d) = .ok (w', none) := by
    simp only [process, processSlash, processWithdrawMining, nextWithOwner_bind, nextSigner_ensure, res_bind_ok, res_pure_ok,
      ensure_ok, Prod.exists, Prod.mk.injEq, and_true, loadDelegate, ne_eq, not_true_eq_false, if_false]
    constructor
    · rintro ⟨_, ⟨_, h1, _, h2, _, h3, _, h4, p, m, h5, p', m', h6, rfl⟩, rfl⟩
      exact ⟨_, ⟨(), h2, (), h3, (), h1, (), h3, (), h4, p, m, h5, none, rfl, p', m', none, slash_withdraw.mp h6, rfl⟩, rfl⟩
    · rintro ⟨_, ⟨_, h2, _, h3, _, h1, _, -, _, h4, p, m, h5, _, rfl, p', m', d', h6, rfl⟩, rfl⟩
      cases withdraw_none h6
      exact ⟨_, ⟨(), h1, (), h2, (), h3, (), h4, p, m, h5, p', m', slash_withdraw.mpr h6, rfl⟩, rfl⟩
  rw [exec_ok, exec_ok, key]
  constructor
  · rintro ⟨h1, h2⟩
    refine ⟨h1, fun a ha => h2 a ?_⟩
    simp only [List.mem_cons, List.not_mem_nil, or_false] at ha ⊢
    rcases ha with h | h | h | h <;> simp [h]
  · rintro ⟨h1, h2⟩
    refine ⟨h1, fun a ha => h2 a ?_⟩
    simp only [List.mem_cons, List.not_mem_nil, or_false] at ha ⊢
    rcases ha with h | h | h <;> simp [h]

end

section Examples
open Demo

/-- Both sides hold in a reachable state, in which 300 of 1000 are slashed, and the mining is changed. -/
example : ∃ s w', Reachable Demo.env s ∧
    exec Demo.env s.now s.world [S 110, W 100, W (mine 121 100)] (.slash 121 77 300 none) = .ok (w', none) ∧
    exec Demo.env s.now s.world [W 100, W (mine 121 100), S 110, W (mine 121 100)] (.withdrawMining 300 121 121) = .ok (w', none) ∧
    hasMining s.world (mine 121 100) (fun m => decide (m.share = 1000)) = true ∧
    hasMining w' (mine 121 100) (fun m => decide (m.share = 700)) = true := by
  have hx := exec_of_ok (s := afterStory) (accs := [S 110, W 100, W (mine 121 100)]) (i := .slash 121 77 300 none) (by decide +kernel)
  obtain ⟨ret, hx⟩ := hx
  have hr : ret = none := slash_returns hx
  subst hr
  exact ⟨afterStory, _, after_reachable (es := story) (by decide +kernel), hx, C101_slash_is_withdrawal.mp hx, by decide +kernel,
    by decide +kernel⟩

/-- More than the stake there is can neither be slashed nor withdrawn. -/
example : okEvent afterStory (slash 100 121 0 1001 none) = false ∧ okEvent afterStory (withdraw 100 121 1001 121) = false := by
  decide +kernel

end Examples

end Verif
