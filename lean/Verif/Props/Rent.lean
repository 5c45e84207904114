import Verif.Lemmas.Rent
import Verif.Lemmas.DemoIncentive
/-!
C121: the runtime's rent rule does not get in the way of the program.
-/

namespace Verif

open Spec

section

variable {env : Env}

/-- **C121**.  Every successful instruction satisfies the runtime's rent rule for every account, if the sender takes care of their own
accounts (`RentCare`) and none of the program's accounts named in it pays rent. -/
theorem C121_rule (hmono : ∀ a b, a ≤ b → env.rentMin a ≤ env.rentMin b) {now : Nat} {w w' : World} {accs : List AccountInfo}
    {i : Ix} {ret : Option Nat} (h : exec env now w accs i = .ok (w', ret)) (hc : RentCare env w accs i)
    (hp : ∀ a ∈ accs, (w a.key).owner = env.programId → ¬ RentPaying env (w a.key)) (k : Key) :
    RentRule env (w k) (w' k) := by
  cases balances (exec_ok.mp h).1 with
  | same free h => exact rentRule_of_same (h k).1 (h k).2
  | @transfer _ S D s d mv free src dst sTok dTok le len from' to' frame =>
    have hs := hc.tokens S src s sTok
    have hd := hc.tokens D dst d dTok
    by_cases k2 : k = D.key
    · subst k2
      refine rentRule_of_exempt (Or.inr ?_)
      rw [len, to']; omega
    · by_cases k1 : k = S.key
      · subst k1
        refine rentRule_of_exempt (Or.inr ?_)
        rw [len, from']; omega
      · exact rentRule_of_same (frame k k1 k2) (len k)
  | @create _ Y T n l pays cost ne enough payer pLen pLen' target tLen frame =>
    by_cases k1 : k = Y
    · subst k1
      refine rentRule_of_exempt ?_
      have := hc.payer _ _ pays
      rw [pLen', payer]; omega
    · by_cases k2 : k = T
      · subst k2
        refine rentRule_of_exempt (Or.inr ?_)
        rw [tLen, target, cost]; exact Nat.le_refl _
      · exact rentRule_of_same (frame k k1 k2).1 (frame k k1 k2).2
  | @close M G mining target ne long mOwner mAfter gAfter gLen mLen frame =>
    by_cases k1 : k = M.key
    · subst k1; exact rentRule_of_exempt (Or.inl mAfter)
    · by_cases k2 : k = G.key
      · subst k2
        have hm := hp M mining mOwner
        unfold RentPaying at hm
        by_cases h0 : (w M.key).lamports = 0
        · exact rentRule_of_same (by rw [gAfter, h0]; rfl) gLen
        · refine rentRule_of_exempt (Or.inr ?_)
          rw [gLen, gAfter]
          rcases hc.target rfl G target with h | h
          · have := hmono _ _ (Nat.le_trans h long)
            omega
          · omega
      · rw [frame k k1 k2]; exact rentRule_of_same rfl rfl

/-- C121: the payer's part cannot be dispensed with.  If a pool or mining is created and the payer is left with some lamports, but too few
for an empty account, the rule is violated (so the transaction fails unless the payer gets more lamports before it ends); otherwise it is
not. -/
theorem C121_payer (hmono : ∀ a b, a ≤ b → env.rentMin a ≤ env.rentMin b) {now : Nat} {w w' : World} {accs : List AccountInfo}
    {i : Ix} {ret : Option Nat} (h : exec env now w accs i = .ok (w', ret)) {k : Key} {n : Nat}
    (hk : paysFor env accs i = some (k, n)) :
    n ≤ (w k).lamports ∧ (w' k).lamports = (w k).lamports - n ∧
      (RentRule env (w k) (w' k) ↔ (w k).lamports = n ∨ n + env.rentMin 0 ≤ (w k).lamports) := by
  cases payer_of (exec_ok.mp h).1 hk with
  | intro l h =>
    obtain ⟨rfl, h1, h2, h3, h4⟩ := h
    refine ⟨h1, h2, ?_⟩
    have := hmono 0 l (Nat.zero_le _)
    unfold RentRule RentPaying
    rw [h2, h3, h4]
    omega

/-- C121: likewise for transactions of several instructions (see `runTx`), for which the rule is checked at the end only. -/
theorem C121_transaction (hmono : ∀ a b, a ≤ b → env.rentMin a ≤ env.rentMin b) {now : Nat} {w w' : World}
    {tx : List (List AccountInfo × Ix)} (h : execAll env now w tx = .ok w') (hc : RentCareAll env now w tx)
    (hp : ∀ k, ¬ RentPaying env (w k)) (k : Key) : RentRule env (w k) (w' k) ∧ ¬ RentPaying env (w' k) := by
  suffices ∀ k, ¬ RentPaying env (w' k) from ⟨fun h => absurd h (this k), this k⟩
  clear k
  induction tx generalizing w with
  | nil => cases h; exact hp
  | cons x tx ih =>
    obtain ⟨accs, i⟩ := x
    simp only [execAll, res_bind_ok, Prod.exists] at h
    obtain ⟨w1, ret, h1, h2⟩ := h
    exact ih h2 (hc.2 _ _ h1) fun k hk => hp k (C121_rule hmono h1 hc.1 (fun _ _ _ => hp _) k hk).1

/-- C121: in a history in which everybody else keeps to the rule, no account ever pays rent: pools, minings and vaults neither, which
were created exempt from rent.  So the rule never stops an instruction that is sent with care. -/
theorem C121_history (hmono : ∀ a b, a ≤ b → env.rentMin a ≤ env.rentMin b) {s s' : Chain} {es : List Event}
    (hr : RunsWith env (RentEvent env) s es s') (hp : ∀ k, ¬ RentPaying env (s.world k)) (k : Key) :
    ¬ RentPaying env (s'.world k) := by
  induction hr with
  | nil => exact hp k
  | @cons s s' e es hv hc _ ih =>
    refine ih fun j hj => ?_
    cases e with
    | ix accs i =>
      simp only [Chain.apply] at hj
      cases hx : exec env s.now s.world accs i with
      | error => rw [hx] at hj; exact hp j hj
      | ok r =>
        obtain ⟨w', ret⟩ := r
        rw [hx] at hj
        exact hp j (C121_rule hmono hx hc (fun _ _ _ => hp _) j hj).1
    | tick => exact hp j hj
    | gc q =>
      simp only [Chain.apply] at hj
      by_cases e : j = q
      · subst e; rw [world_set_same] at hj; exact absurd hj.1 (Nat.lt_irrefl 0)
      · rw [world_set_ne _ _ e] at hj; exact hp j hj
    | ext w => exact hp j (hc j hj).1

end

section Examples

open Demo

def rentCareB (w : World) (accs : List AccountInfo) (i : Ix) : Bool :=
  (match paysFor Demo.env accs i with
    | none => true
    | some (k, n) => decide ((w k).lamports = n) || decide (n + Demo.env.rentMin 0 ≤ (w k).lamports)) &&
  accs.all (fun a => match (w a.key).content with
    | .token t => decide (Demo.env.rentMin (w a.key).len + (if t.native = true then t.amount else 0) ≤ (w a.key).lamports)
    | _ => true) &&
  (match i, accs[2]? with
    | .closeMining, some a => decide ((w a.key).len ≤ 1776)
    | _, _ => true)

theorem rentCareB_sound {w : World} {accs : List AccountInfo} {i : Ix} (h : rentCareB w accs i = true) :
    RentCare Demo.env w accs i := by
  simp only [rentCareB, Bool.and_eq_true] at h
  obtain ⟨⟨h1, h2⟩, h3⟩ := h
  refine ⟨?_, ?_, ?_⟩
  · intro k n hk
    rw [hk] at h1
    simpa using h1
  · intro a ha t ht
    have := List.all_eq_true.mp h2 a ha
    rw [ht.2] at this
    exact of_decide_eq_true this
  · rintro rfl a ha
    rw [ha] at h3
    exact Or.inl (of_decide_eq_true h3)

def rentEventB (s : Chain) (e : Event) : Bool :=
  okEvent s e && match e with
    | .ix accs i => rentCareB s.world accs i
    | .tick _ => true
    | _ => false

theorem rentEventB_sound (s : Chain) (e : Event) (h : rentEventB s e = true) : e.Valid Demo.env s ∧ RentEvent Demo.env s e := by
  simp only [rentEventB, Bool.and_eq_true] at h
  refine ⟨(okEvent_sound h.1).1, ?_⟩
  cases e with
  | ix accs i => exact rentCareB_sound h.2
  | tick => trivial
  | gc => exact absurd h.2 (by simp)
  | ext => exact absurd h.2 (by simp)

/-- The whole life of a mining, from its creation to its end. -/
def wholeLife : List Event :=
  [initPool 100, initMining 100 120, fill 100 10000 (day0 + 10 * DAY), deposit 100 120 100 .flex 120, .tick DAY, distribute 100,
    .tick DAY, claim 100 120 130, .tick (5 * DAY), withdraw 100 120 100 120, claim 100 120 130, close 100 120]

theorem nobody_pays (k : Key) : ¬ RentPaying Demo.env (s0.world k) := by
  rintro ⟨h1, h2⟩
  have h2 : (s0.world k).lamports < 10 := h2
  simp only [s0, world0, tok] at h1 h2
  grind

/-- The hypotheses of `C121_history` are met. -/
example : (∀ a b, a ≤ b → Demo.env.rentMin a ≤ Demo.env.rentMin b) ∧
    RunsWith Demo.env (RentEvent Demo.env) s0 wholeLife (endOf s0 wholeLife) ∧ (∀ k, ¬ RentPaying Demo.env (s0.world k)) ∧
    ((endOf s0 (wholeLife.take 11)).world (mine 120 100)).lamports = 10 ∧
    ((endOf s0 wholeLife).world (mine 120 100)).lamports = 0 ∧ ((endOf s0 wholeLife).world 102).lamports = 999990 :=
  ⟨fun _ _ _ => Nat.le_refl _, allPass_sound rentEventB_sound (by decide +kernel), nobody_pays, by decide +kernel,
    by decide +kernel, by decide +kernel⟩

/-- The payer owns 15 lamports only: enough for a mining, but then not for their own account. -/
def poorPayer : World := (endOf s0 [initPool 100]).world.set 102 { owner := 3, lamports := 15, len := 0, content := .zero }

/-- C121: a violation of the rule, as in `C121_payer`. -/
example : ∃ w', exec Demo.env day0 poorPayer [R 100, W (mine 120 100), SW 102, R 3] (.initializeMining 120) = .ok (w', none) ∧
    paysFor Demo.env [R 100, W (mine 120 100), SW 102, R 3] (.initializeMining 120) = some (102, 10) ∧
    ¬ RentRule Demo.env (poorPayer 102) (w' 102) := by
  have h : ((exec Demo.env day0 poorPayer [R 100, W (mine 120 100), SW 102, R 3] (.initializeMining 120)).toOption.map
      fun r => (r.2, (r.1 102).lamports, (r.1 102).len)) = some (none, 5, 0) := by decide +kernel
  cases hx : exec Demo.env day0 poorPayer [R 100, W (mine 120 100), SW 102, R 3] (.initializeMining 120) with
  | error e => rw [hx] at h; cases h
  | ok r =>
    obtain ⟨w', ret⟩ := r
    rw [hx] at h
    simp only [Except.toOption, Option.map_some, Option.some.injEq, Prod.mk.injEq] at h
    obtain ⟨rfl, h1, h2⟩ := h
    refine ⟨w', rfl, rfl, fun hr => ?_⟩
    have h3 : RentPaying Demo.env (w' 102) := ⟨by rw [h1]; decide, by rw [h1]; exact (by decide : 5 < 10)⟩
    have h4 : (poorPayer 102).lamports < 10 := (hr h3).1.2
    exact absurd h4 (by decide +kernel)

/-- The hypotheses of `C121_transaction` are met: two minings are created in one transaction. -/
example : ∃ w', execAll Demo.env day0 (endOf s0 [initPool 100]).world
      [([R 100, W (mine 120 100), SW 102, R 3], .initializeMining 120), ([R 100, W (mine 121 100), SW 102, R 3], .initializeMining 121)] =
      .ok w' ∧
    RentCareAll Demo.env day0 (endOf s0 [initPool 100]).world
      [([R 100, W (mine 120 100), SW 102, R 3], .initializeMining 120), ([R 100, W (mine 121 100), SW 102, R 3], .initializeMining 121)] ∧
    (∀ k, ¬ RentPaying Demo.env ((endOf s0 [initPool 100]).world k)) ∧ (w' 102).lamports = 999970 := by
  have h : ((execAll Demo.env day0 (endOf s0 [initPool 100]).world
      [([R 100, W (mine 120 100), SW 102, R 3], .initializeMining 120),
        ([R 100, W (mine 121 100), SW 102, R 3], .initializeMining 121)]).toOption.map fun w => (w 102).lamports) = some 999970 := by
    decide +kernel
  have h1 : ((exec Demo.env day0 (endOf s0 [initPool 100]).world [R 100, W (mine 120 100), SW 102, R 3]
      (.initializeMining 120)).toOption.map fun r => rentCareB r.1 [R 100, W (mine 121 100), SW 102, R 3] (.initializeMining 121)) =
      some true := by decide +kernel
  cases hx : execAll Demo.env day0 (endOf s0 [initPool 100]).world
      [([R 100, W (mine 120 100), SW 102, R 3], .initializeMining 120),
        ([R 100, W (mine 121 100), SW 102, R 3], .initializeMining 121)] with
  | error e => rw [hx] at h; cases h
  | ok w' =>
    rw [hx] at h
    simp only [Except.toOption, Option.map_some, Option.some.injEq] at h
    refine ⟨w', rfl, ⟨rentCareB_sound (by decide +kernel), fun w1 ret hw => ⟨rentCareB_sound ?_, fun _ _ _ => trivial⟩⟩, ?_, h⟩
    · rw [hw] at h1
      simpa [Except.toOption] using h1
    · exact fun k => C121_history (fun _ _ _ => Nat.le_refl _)
        (allPass_sound (es := [initPool 100]) rentEventB_sound (by decide +kernel)) nobody_pays k

end Examples

end Verif
