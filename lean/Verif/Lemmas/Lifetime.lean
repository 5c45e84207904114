import Verif.Lemmas.Payout
import Verif.Lemmas.DemoOrderly
import Verif.Lemmas.FullHistory
/-!
A pool whose index history is full.
-/

namespace Verif

open Spec

section
variable {env : Env}

/-- A full history stays as it is. -/
theorem PoolChange.full {now : Nat} {w w' : World} {accs : List AccountInfo} {k : Key} {p p' : Pool} {i : Ix}
    (hp : PoolOk now p) (hfull : env.caps.index ≤ p.cumulative.length) (h : PoolChange env now w w' accs k p i p') :
    p'.cumulative = p.cumulative := by
  cases h with
  | same other => rfl
  | stake hi quiet signed => exact quiet.cumulative
  | distribute acc signed amount op same ok' =>
    by_cases hn : NewDay p now
    · obtain ⟨T, h1, h2, h3, h4, rfl⟩ := distribute_new hp hn op
      exact if_neg (by omega)
    · obtain ⟨T, h1, rfl⟩ := distribute_again hp hn op
      rfl
  | fill acc signed nonzero future later endBound bound => rfl

/-- No history is longer than the table. -/
theorem history_length {s : Chain} (hr : Reachable env s) {k : Key} {p : Pool} (hp : PoolAt env s.world k p) :
    p.cumulative.length ≤ env.caps.index := by
  refine reachable_pool (Q := fun p => p.cumulative.length ≤ env.caps.index) ?_ ?_ hr hp
  · intros; exact Nat.zero_le _
  · intro now w w' accs k p p' i hok hq hch
    cases hch with
    | same other => exact hq
    | stake hi quiet signed => rw [quiet.cumulative]; exact hq
    | distribute acc signed amount op same ok' =>
      by_cases hn : NewDay p now
      · obtain ⟨T, h1, h2, h3, h4, rfl⟩ := distribute_new hok hn op
        simp only
        split
        · rw [List.length_append]; simpa using ‹_›
        · exact hq
      · obtain ⟨T, h1, rfl⟩ := distribute_again hok hn op
        exact hq
    | fill acc signed nonzero future later endBound bound => exact hq

theorem full_runs {s s' : Chain} {es : List Event} (hw : Wf env s.now s.world) (hr : CleanRun env s es s') {k : Key}
    {p p' : Pool} (hp : PoolAt env s.world k p) (hl : 0 < (s.world k).lamports)
    (hfull : env.caps.index ≤ p.cumulative.length) (hp' : PoolAt env s'.world k p') : p'.cumulative = p.cumulative := by
  obtain ⟨q, h1, -, h2⟩ := runs_pool hw hr hp hl (fun _ q => q.cumulative = p.cumulative) rfl (by
    rintro s e q q' hw' hv hq i1 hev
    cases hev with
    | same => exact i1
    | ix ok change => exact (change.full (poolAt_good hw' hq).ok (by rw [i1]; exact hfull)).trans i1)
  rw [PoolAt.unique hp' h1]
  exact h2

/-- An instruction for a pool with full history: what the minings are owed grows at most by what the vault gained beyond
the budget, apart from what was taken out of the budget by a distribution. -/
theorem Step.drained {now : Nat} {w w' : World} {accs : List AccountInfo} {i : Ix} {ret : Option Nat}
    (hi : env.PdaInjective) (hw : Wf env now w) {P V : Key} {p p' : Pool} (hp : PoolAt env w P p)
    (hV : env.findVault P p.rewardMint = some (V, p.bump)) (hs : Solvent env now w P V)
    (ho : OrderlyIx env P V now w accs i) (h : Step env now w w' accs i ret) (hp' : PoolAt env w' P p') {B : Int}
    (hb : Bounded (ofMember env w P fun m => owed m p.cumulative) B) :
    Bounded (ofMember env w' P fun m => owed m p.cumulative)
      (B + 10 ^ 16 * (((balance w' V : Int) - p'.tokensAvailable) - ((balance w V : Int) - p.tokensAvailable) -
        distributedFrom accs now P p i)) := by
  obtain ⟨q, h1, h2, -⟩ := h.pool hp
  obtain rfl := PoolAt.unique hp' h1
  have hbud := (h2.budget (poolAt_good hw hp).ok).1
  by_cases hid : i = .distributeRewards
  · subst hid
    cases h with
    | stake _ op => exact op.elim
    | @distribute P' A rest q p1 r accs_eq signed auth good pool pool' amount op same ok' frame shell =>
      have hbal := Shell.balance_eq hw (shell V)
      refine hb.mono (fun k => ?_) ?_
      · rcases ofMember_cases (env := env) (w := w') (P := P) (k := k) (fun m => owed m p.cumulative) with ⟨m, k1, k2⟩ | ⟨k1, k2⟩
        · rw [k2]
          have hne : k ≠ P'.key := by rintro rfl; exact PoolAt.not_mining pool' k1.1
          rw [ofMember_eq (⟨(miningAt_congr (frame k hne)).mp k1.1, k1.2⟩ : Member env w P k m)]
          exact Nat.le_refl _
        · rw [k2]; exact Nat.zero_le _
      · simp only [addedTo] at hbud
        omega
  · have hd : distributedFrom accs now P p i = 0 := by cases i <;> first | rfl | exact absurd rfl hid
    obtain ⟨q, L, k1, k2, k3⟩ := h.turn hi hw hs.vaults hV (hs.books p hp hV).sound ho hp
    obtain rfl := PoolAt.unique hp' k1
    have hm := k2.bounded (g := fun m => owed m p.cumulative) (fun m hf => hf.owed _) hb
    refine hm.mono (fun _ => Nat.le_refl _) ?_
    rw [hd]
    cases k3 with
    | books same funds cover members =>
      have := funds hV
      omega
    | distribute op funds =>
      rw [hd] at hbud
      have e1 : addedTo accs P i = 0 ∨ p.tokensAvailable ≤ p'.tokensAvailable := by omega
      have e2 : p'.tokensAvailable ≤ p.tokensAvailable := by
        by_cases hn : NewDay p now
        · obtain ⟨T, -, -, -, -, rfl⟩ := distribute_new (poolAt_good hw hp).ok hn op
          exact Nat.sub_le _ _
        · obtain ⟨T, -, rfl⟩ := distribute_again (poolAt_good hw hp).ok hn op
          exact Nat.le_refl _
      simp only [gain, List.map_nil, List.sum_nil]
      omega

theorem apply_drained (hi : env.PdaInjective) {s : Chain} {P V : Key} {e : Event} (hv : e.Valid env s)
    (ho : Orderly env P V s e) (hw : Wf env s.now s.world) (hs : Solvent env s.now s.world P V) {p p' : Pool}
    (hp : PoolAt env s.world P p) (hV : env.findVault P p.rewardMint = some (V, p.bump))
    (hp' : PoolAt env (s.apply env e).world P p') {B : Int}
    (hb : Bounded (ofMember env s.world P fun m => owed m p.cumulative) B) :
    Bounded (ofMember env (s.apply env e).world P fun m => owed m p.cumulative)
      (B + 10 ^ 16 * (((balance (s.apply env e).world V : Int) - p'.tokensAvailable) -
        ((balance s.world V : Int) - p.tokensAvailable) - distributedBy env P s e)) := by
  have outside : ∀ {w' : World}, PoolAt env w' P p' → (PoolAt env w' P p' → PoolAt env s.world P p') →
      (∀ k m, Member env w' P k m → Member env s.world P k m) → balance s.world V ≤ balance w' V →
      Bounded (ofMember env w' P fun m => owed m p.cumulative)
        (B + 10 ^ 16 * (((balance w' V : Int) - p'.tokensAvailable) - ((balance s.world V : Int) - p.tokensAvailable) - 0)) := by
    intro w' h1 h2 h3 h4
    rw [PoolAt.unique (h2 h1) hp]
    refine hb.mono (fun k => ?_) (by omega)
    rcases ofMember_cases (env := env) (w := w') (P := P) (k := k) (fun m => owed m p.cumulative) with ⟨m, k1, k2⟩ | ⟨k1, k2⟩
    · rw [k2, ofMember_eq (h3 k m k1)]; exact Nat.le_refl _
    · rw [k2]; exact Nat.zero_le _
  cases e with
  | ix accs i =>
    cases hx : exec env s.now s.world accs i with
    | error e =>
      have e0 : distributedBy env P s (.ix accs i) = 0 := by simp [distributedBy, hp.2, succeeded, hx]
      rw [apply_ix_error hx] at hp' ⊢
      rw [e0]
      exact outside hp' (fun h => h) (fun _ _ h => h) (Nat.le_refl _)
    | ok r =>
      obtain ⟨w', ret⟩ := r
      have e0 : distributedBy env P s (.ix accs i) = distributedFrom accs s.now P p i := by
        simp [distributedBy, hp.2, succeeded, hx]
      rw [apply_ix_ok hx] at hp' ⊢
      rw [e0]
      exact (step_of_exec hw hv ho.1 hx).drained hi hw hp hV hs ho.2 hp' hb
  | tick d => exact outside hp' (fun h => h) (fun _ _ h => h) (Nat.le_refl _)
  | gc j =>
    obtain ⟨h1, h2⟩ := ho
    have e0 : (s.apply env (.gc j)).world j = _ := world_set_same _ _ _
    have e1 : ∀ k, k ≠ j → (s.apply env (.gc j)).world k = s.world k := fun k hk => world_set_ne _ _ hk
    refine outside hp' (poolAt_congr (e1 P (Ne.symm h1))).mp (fun k m hm => ?_)
      (Nat.le_of_eq (balance_congr (by rw [e1 V (Ne.symm h2)])).symm)
    by_cases hk : k = j
    · subst hk; have := hm.1.2; rw [e0] at this; cases this
    · exact ⟨(miningAt_congr (e1 k hk)).mp hm.1, hm.2⟩
  | ext w' =>
    refine outside hp' (fun hp2 => ?_) (fun k m hm => ?_) ho
    · obtain ⟨e1, -, e3, e4⟩ := hv.program_owned P hp.1
      exact ⟨hp.1, e3 ▸ hp2.2⟩
    · by_cases ho : (s.world k).owner = env.programId
      · obtain ⟨e1, -, e3, e4⟩ := hv.program_owned k ho
        exact ⟨⟨ho, e3 ▸ hm.1.2⟩, hm.2⟩
      · have h1 := (hv.new_zero k ho hm.1.1).1
        have h5 : (w' k).content = _ := hm.1.2
        rw [h1] at h5; cases h5

/-- Over an orderly continuation of an orderly history. -/
theorem runs_drained (hi : env.PdaInjective) {P V : Key} (hP0 : P ≠ 0) {s0 s1 s : Chain} {es0 es : List Event}
    (hg : Genesis env s0) (h0 : RunsWith env (Orderly env P V) s0 es0 s1) (hr : RunsWith env (Orderly env P V) s1 es s)
    (hn : s.now < 2 ^ 64) {p p' : Pool} (hp : PoolAt env s1.world P p)
    (hV : env.findVault P p.rewardMint = some (V, p.bump)) (hl : 0 < (s1.world P).lamports)
    (hfull : env.caps.index ≤ p.cumulative.length) (hp' : PoolAt env s.world P p') {B : Int}
    (hb : Bounded (ofMember env s1.world P fun m => owed m p.cumulative) B) :
    Bounded (ofMember env s.world P fun m => owed m p.cumulative)
      (B + 10 ^ 16 * (((balance s.world V : Int) - p'.tokensAvailable) - ((balance s1.world V : Int) - p.tokensAvailable) -
        totalIn env (distributedBy env P) s1 es)) := by
  induction hr generalizing es0 p B with
  | nil s =>
    obtain rfl := PoolAt.unique hp hp'
    exact hb.mono (fun _ => Nat.le_refl _) (by simp only [totalIn]; omega)
  | @cons s s' e es hv hc hr' ih =>
    have hnow : s.now < 2 ^ 64 := Nat.lt_of_le_of_lt (run_now_le (RunsWith.cons hv hc hr')) hn
    obtain ⟨-, hw, -, hs⟩ := runs_solvent hi hP0 hg h0 hnow
    obtain ⟨p1, k1, k2, k3⟩ := apply_pool hw hv hc.clean hp hl
    have hcum : p1.cumulative = p.cumulative := by
      cases k3 with
      | same => rfl
      | ix ok change => exact change.full (poolAt_good hw hp).ok hfull
    have hsame := k3.same_pool
    have h1 := apply_drained hi hv hc hw hs hp hV k1 hb
    have h2 := ih (h0.append (.cons hv hc (.nil _))) hn k1 (by rw [hsame.rewardMint, hsame.bump]; exact hV) k2
      (by rw [hcum]; exact hfull) hp' (by rw [hcum]; exact h1)
    rw [hcum] at h2
    refine h2.mono (fun _ => Nat.le_refl _) ?_
    simp only [totalIn]
    omega

end

namespace Demo

/-- The history of `Long` as a list of events. -/
def longEvents : Nat → List Event
  | 0 => longBase
  | n + 1 => longEvents n ++ [.tick 86400, distribute 100]

theorem distribute_orderly (s : Chain) :
    Orderly env 100 (vaultOf 100 101) s (distribute 100) ∧ Sealed (vaultOf 100 101) s (distribute 100) := by
  refine ⟨⟨trivial, ⟨?_, ?_, ?_, ?_, ?_⟩⟩, ?_⟩
  · intro _ M m p h; cases h
  · intro _ M D p h; cases h
  · intro _ M D h; cases h
  · intro _ D h; cases h
  · intro r e h; cases h
  · intro h; cases h

theorem longBase_runs : RunsWith env (Orderly env 100 (vaultOf 100 101)) s0 longBase sB := by
  have h1 := orderlyRun_eq (P := 100) (V := vaultOf 100 101) (es := longBase) (by decide +kernel)
  have h2 : RunsWith env (CleanEvent env) s0 longBase sB := run_sound (run_eq (by decide +kernel))
  have key : ∀ {C C' : Chain → Event → Prop} {s s' s'' : Chain} {es : List Event}, RunsWith env C s es s' →
      RunsWith env C' s es s'' → s' = s'' := by
    intro C C' s s' s'' es h
    induction h with
    | nil => intro h'; cases h'; rfl
    | cons _ _ _ ih => intro h'; cases h' with | cons _ _ h' => exact ih h'
  rw [key h2 h1]
  exact h1

end Demo

end Verif
