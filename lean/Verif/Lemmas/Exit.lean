import Verif.Lemmas.Honest
import Verif.Props.Honest
/-!
Honest histories can be continued by withdrawals.
-/

namespace Verif

open Spec

variable {env : Env}

theorem Spec.LedgerRuns.append {P : Key} {s s' s'' : Chain} {L L' L'' : Ledger} {es es' : List Event}
    (h : LedgerRuns env P s L es s' L') (h' : LedgerRuns env P s' L' es' s'' L'') :
    LedgerRuns env P s L (es ++ es') s'' L'' := by
  induction h with
  | nil => exact h'
  | cons hv hl _ ih => exact .cons hv hl (ih h')

theorem Spec.HonestRun.snoc {P V : Key} {s0 s : Chain} {es : List Event} {L L' : Ledger} {e : Event}
    (h : HonestRun env P V s0 es s L) (hv : e.Valid env s) (hl : LedgerEvent env P s L L' e) (hp : Prompt env P V s e) :
    HonestRun env P V s0 (es ++ [e]) (s.apply env e) L' :=
  ⟨h.ledger.append (.cons hv hl (.nil _ _)), h.prompt.append (.cons hv hp (.nil _))⟩

/-- A successful withdrawal continues an honest history. -/
theorem Spec.HonestRun.withdraw {P V : Key} {s0 s : Chain} {es : List Event} {L rest : Ledger}
    (h : HonestRun env P V s0 es s L) {A : Key} (hA : A ≠ 0) {y : StakeEntry} (hy : L.Perm (y :: rest))
    (hmat : y.Matured s.now) {a : Nat} {o d : Key} (ha : a ≤ y.amount) (hD : ∃ x, Member env s.world P y.delegate x) {w' : World}
    (hx : exec env s.now s.world [⟨P, false, true⟩, ⟨y.mining, false, true⟩, ⟨A, true, true⟩, ⟨y.delegate, false, true⟩]
      (.withdrawMining a o d) = .ok (w', none)) :
    HonestRun env P V s0
      (es ++ [.ix [⟨P, false, true⟩, ⟨y.mining, false, true⟩, ⟨A, true, true⟩, ⟨y.delegate, false, true⟩]
        (.withdrawMining a o d)])
      { s with world := w' } ({ y with amount := y.amount - a } :: rest) := by
  rw [← apply_ix_ok hx]
  refine h.snoc ?_ ⟨trivial, Or.inl ⟨⟨_, hx⟩, .withdraw rfl rfl rfl hy hmat ha⟩⟩ fun _ => ⟨?_, ?_, ?_, nofun⟩
  · intro a ha hs
    simp only [List.mem_cons, List.not_mem_nil, or_false] at ha
    rcases ha with rfl | rfl | rfl | rfl
    · cases hs
    · cases hs
    · exact hA
    · cases hs
  · intro _ h; cases h
  · intro _ M D p hM hD' hne _
    cases hD'
    obtain ⟨x, hx⟩ := hD
    exact ⟨x, hx, nofun⟩
  · intro _ M D _ hD'; cases hD'

/-- The whole of a stake can be withdrawn, and nothing that matters for the other withdrawals changes. -/
theorem exit_step (hi : env.PdaInjective) {P V : Key} {s0 s : Chain} {es : List Event} {L rest : Ledger} (hg : Genesis env s0)
    (hr : HonestRun env P V s0 es s L) (hn : s.now < 2 ^ 64) {p : Pool} (hp : PoolAt env s.world P p)
    (hV : env.findVault P p.rewardMint = some (V, p.bump)) (hB : balance s.world V < 2 ^ 64)
    (hA : p.depositAuthority ≠ 0) {y : StakeEntry} (hy : L.Perm (y :: rest)) (hpos : 0 < y.amount)
    (hmat : y.Matured s.now) :
    ∃ accs o d w' p', HonestRun env P V s0 (es ++ [.ix accs (.withdrawMining y.amount o d)]) { s with world := w' }
      ({ y with amount := 0 } :: rest) ∧ (∀ a ∈ accs, a.isSigner = true → a.key = p.depositAuthority) ∧
      PoolAt env w' P p' ∧ SameConfig p p' ∧ balance w' V ≤ balance s.world V := by
  obtain ⟨-, hb, -⟩ := honest_orderly_at hi hg hr hp
  have hw : Wf env s.now s.world := reachable_wf ⟨s0, es, hg, hr.ledger.clean⟩
  have hyL : y ∈ L := hy.mem_iff.mpr (by simp)
  obtain ⟨⟨m, hm⟩, ⟨x, hx⟩⟩ := hb.known y hyL hpos
  have hex : ∃ w', exec env s.now s.world
      [⟨P, false, true⟩, ⟨y.mining, false, true⟩, ⟨p.depositAuthority, true, true⟩, ⟨y.delegate, false, true⟩]
      (.withdrawMining y.amount m.owner x.owner) = .ok (w', none) := by
    have wr : ∀ a ∈ [(⟨P, false, true⟩ : AccountInfo), ⟨y.mining, false, true⟩, ⟨p.depositAuthority, true, true⟩,
        ⟨y.delegate, false, true⟩], a.isWritable = true := by simp
    by_cases e : y.delegate = y.mining
    · exact C64_withdraw hi hg hr hn (d := none) rfl ⟨rfl, hp, hm, rfl, ⟨rfl, rfl⟩, Or.inl ⟨e, rfl⟩, fun a ha _ => wr a ha⟩
        hV hB hyL rfl rfl (Nat.le_refl _)
    · exact C64_withdraw hi hg hr hn (d := some x) rfl ⟨rfl, hp, hm, rfl, ⟨rfl, rfl⟩, Or.inr ⟨e, x, rfl, hx, rfl⟩,
        fun a ha _ => wr a ha⟩ hV hB hyL rfl rfl (Nat.le_refl _)
  obtain ⟨w', hex⟩ := hex
  have hrun := hr.withdraw hA hy hmat (Nat.le_refl _) ⟨x, hx⟩ hex
  rw [Nat.sub_self] at hrun
  have hs : RealSigners [(⟨P, false, true⟩ : AccountInfo), ⟨y.mining, false, true⟩, ⟨p.depositAuthority, true, true⟩,
      ⟨y.delegate, false, true⟩] := by
    intro a ha h
    simp only [List.mem_cons, List.not_mem_nil, or_false] at ha
    rcases ha with rfl | rfl | rfl | rfl
    · cases h
    · cases h
    · exact hA
    · cases h
  obtain ⟨Q, N, B, E, tl, e, -, hc, -⟩ := C20_withdraw hw hs hex
  cases e
  obtain ⟨p', hp', -, hcf, -⟩ := hc.pools P p hp
  refine ⟨_, _, _, w', p', hrun, ?_, hp', hcf, ?_⟩
  · intro a ha h
    simp only [List.mem_cons, List.not_mem_nil, or_false] at ha
    rcases ha with rfl | rfl | rfl | rfl <;> first | rfl | cases h
  · have z : ∀ {c : Content}, (w' V).content = c → (∀ t, c ≠ .token t) → balance w' V = 0 := by
      intro c h1 h2
      unfold balance
      rw [h1]
      split
      · rename_i t; exact absurd rfl (h2 t)
      · rfl
    by_cases e1 : V = P
    · rw [z (e1 ▸ hp'.2) (fun _ h => by cases h)]; exact Nat.zero_le _
    by_cases e2 : V = y.mining
    · obtain ⟨m', hm', -⟩ := hc.minings _ m hm.1
      rw [z (e2 ▸ hm'.2) (fun _ h => by cases h)]; exact Nat.zero_le _
    by_cases e3 : V = y.delegate
    · obtain ⟨m', hm', -⟩ := hc.minings _ x hx.1
      rw [z (e3 ▸ hm'.2) (fun _ h => by cases h)]; exact Nat.zero_le _
    · exact Nat.le_of_eq (balance_congr (by rw [hc.others V e1 e2 e3]))

end Verif
