import Verif.Lemmas.SolvencyOps
import Verif.Lemmas.Access
import Verif.Spec.Solvency
/-!
Expirations stay covered by the stake, whatever else is wrong with the books.
-/

namespace Verif

open Spec

variable {env : Env}

theorem Backed.def' {m : Mining} : Backed m ↔ total m.diffs ≤ m.share := Iff.rfl

theorem refresh_backed {now : Nat} {cum : SMap} (hc : History cum) {m m' : Mining} (hm : MiningOk m)
    (hb : Backed m) (h : m.refreshRewards now cum = .ok m') :
    Backed m' ∧ MiningOk m' ∧ total m'.diffs + dueBy m.diffs (midnight now) = total m.diffs ∧
      m'.share + dueBy m.diffs (midnight now) = m.share := by
  obtain ⟨c1, -, -, c4, c5, -⟩ := refresh_current hc hm hb h
  refine ⟨c1.backed, c1.ok, ?_, c5⟩
  rw [c4]
  have := total_after m.diffs (midnight now)
  omega

/-- Delegates. -/
def DelBacked (d : Option Mining) : Prop := ∀ x, d = some x → MiningOk x ∧ Backed x

theorem withSub_backed {now a : Nat} {p p' : Pool} {d d' : Option Mining} (hp : PoolOk now p)
    (hd : DelBacked d) (h : p.withDelegate d (Pool.delegateSub now a) = .ok (p', d')) :
    PoolOk now p' ∧ DelBacked d' := by
  refine ⟨(withSub_same hp (fun x hx => (hd x hx).1) h).1.ok, ?_⟩
  cases d with
  | none => rw [withDelegate_none] at h; rw [h.2]; exact fun _ h => (nomatch h)
  | some x =>
    rw [withDelegate_some] at h
    obtain ⟨x', h, rfl⟩ := h
    obtain ⟨hx, hb⟩ := hd x rfl
    rw [delegateSub_ok] at h
    obtain ⟨ha, _, h, rfl⟩ := h
    obtain ⟨c1, c2, -⟩ := refresh_backed (m := { x with stakeFromOthers := x.stakeFromOthers - a }) hp.history
      ⟨hx.1, hx.2⟩ hb h
    rintro _ ⟨rfl⟩; exact ⟨c2, c1⟩

theorem withAdd_backed {now a : Nat} {p p' : Pool} {d d' : Option Mining} (hp : PoolOk now p)
    (hd : DelBacked d) (h : p.withDelegate d (Pool.delegateAdd now a) = .ok (p', d')) :
    PoolOk now p' ∧ DelBacked d' := by
  refine ⟨(withAdd_same hp (fun x hx => (hd x hx).1) h).1.ok, ?_⟩
  cases d with
  | none => rw [withDelegate_none] at h; rw [h.2]; exact fun _ h => (nomatch h)
  | some x =>
    rw [withDelegate_some] at h
    obtain ⟨x', h, rfl⟩ := h
    obtain ⟨hx, hb⟩ := hd x rfl
    rw [delegateAdd_ok] at h
    obtain ⟨ha, _, h, rfl⟩ := h
    obtain ⟨c1, c2, -⟩ := refresh_backed (m := { x with stakeFromOthers := x.stakeFromOthers + a }) hp.history
      ⟨hx.1, hx.2⟩ hb h
    rintro _ ⟨rfl⟩; exact ⟨c2, c1⟩

theorem deposit_backed {caps : Caps} {now : Nat} {p p' : Pool} {m m' : Mining} {a : Nat} {per : LockupPeriod}
    {d d' : Option Mining} (hp : PoolOk now p) (hm : MiningOk m) (hb : Backed m) (hd : DelBacked d)
    (h : p.deposit caps now m a per d = .ok (p', m', d')) : Backed m' ∧ DelBacked d' := by
  obtain ⟨m1, e, h1, h2, -, -, -, -, -, -, rfl, h9⟩ := deposit_ok (refresh_sorted hp hm) h
  obtain ⟨c1, c2, -⟩ := refresh_backed hp.history hm hb h1
  obtain ⟨n, g1, rfl, g3, g4⟩ := terms_ok h2
  have hal : (midnight now + 86400 * n) % 86400 = 0 := by unfold midnight; omega
  have hq : Quiet now p _ := Quiet.mk' (t := p.totalShare + a * per.multiplier) hp
    (addAt_sorted hp.sorted caps.pool (midnight now + 86400 * n) (a * per.multiplier - a)) (addAt_aligned hp.aligned hal)
  refine ⟨?_, (withAdd_backed hq.ok hd h9).2⟩
  have h3 := total_addAt_le c2.sorted caps.mining (midnight now + 86400 * n) (a * per.multiplier - a)
  unfold Backed at *
  simp only
  omega

theorem withdraw_backed {now : Nat} {p p' : Pool} {m m' : Mining} {a : Nat} {d d' : Option Mining} (hp : PoolOk now p)
    (hm : MiningOk m) (hb : Backed m) (hd : DelBacked d) (ha : Unlocked a m)
    (h : p.withdraw now m a d = .ok (p', m', d')) : Backed m' ∧ DelBacked d' := by
  obtain ⟨m1, h1, h2, h3, rfl, h5⟩ := withdraw_ok hp.sorted h
  obtain ⟨c1, c2, c3, c4⟩ := refresh_backed hp.history hm hb h1
  have hq : Quiet now p _ := Quiet.mk' (t := p.totalShare - a - dueBy p.diffs (bod now)) hp
    (after_sorted hp.sorted (bod now)) (after_aligned hp.aligned)
  refine ⟨?_, (withSub_backed hq.ok hd h5).2⟩
  unfold Backed Unlocked at *
  simp only
  omega

theorem slash_backed {now : Nat} {p p' : Pool} {m m' : Mining} {n mu : Nat} {ex : Option Nat} (hp : PoolOk now p)
    (hm : MiningOk m) (hb : Backed m) (ha : Unlocked (if ex = none then mu else n) m)
    (h : p.slash now m n mu ex = .ok (p', m')) : Backed m' := by
  obtain ⟨m1, h1, h2, h3, h4⟩ := slash_ok hp.sorted (refresh_sorted hp hm) h
  obtain ⟨c1, c2, c3, c4⟩ := refresh_backed hp.history hm hb h1
  unfold Unlocked at ha
  rcases h4 with ⟨rfl, rfl, rfl⟩ | ⟨ts, om, op, rfl, hnm, g1, g2, g3, g4, rfl, rfl⟩
  · rw [if_pos rfl] at ha
    unfold Backed; simp only; omega
  · rw [if_neg (by simp)] at ha
    have h6 := SMap.total_put c2.sorted (bod ts) (om - (mu - n))
    rw [g1] at h6
    simp only [Option.getD_some] at h6
    unfold Backed; simp only
    omega

theorem extend_backed {caps : Caps} {now : Nat} {p p' : Pool} {m m' : Mining} {op np : LockupPeriod} {ts b a : Nat}
    {d d' : Option Mining} (hp : PoolOk now p) (hm : MiningOk m) (hb : Backed m) (hd : DelBacked d) (ha : Unlocked b m)
    (h : p.extend caps now m op np ts b a d = .ok (p', m', d')) : Backed m' ∧ DelBacked d' := by
  obtain ⟨m1, oe, p2, m2, p3, d3, h1, ho, h3, -, h5, h6⟩ := extend_ok (refresh_sorted hp hm) h
  obtain ⟨c1, c2, c3, c4⟩ := refresh_backed hp.history hm hb h1
  unfold Unlocked at ha
  have key : PoolOk now p2 ∧ MiningOk m2 ∧ Backed m2 := by
    rcases h3 with ⟨-, -, h8, ⟨old, g1, g2, rfl⟩, g3, g4, rfl⟩ | ⟨-, h7, h8, rfl, rfl⟩
    · refine ⟨(Quiet.mk' (t := _) hp hp.sorted hp.aligned).ok,
        ⟨SMap.put_sorted c2.sorted .., put_aligned c2.aligned g1⟩, ?_⟩
      have h6 := SMap.total_put c2.sorted oe (old - (b * op.multiplier - b))
      rw [g1] at h6
      simp only [Option.getD_some] at h6
      unfold Backed; simp only
      omega
    · refine ⟨(Quiet.mk' (t := _) hp hp.sorted hp.aligned).ok, ⟨c2.1, c2.2⟩, ?_⟩
      unfold Backed; simp only
      omega
  obtain ⟨k1, k2, k3⟩ := key
  obtain ⟨q1, q2⟩ := withSub_backed k1 hd h5
  exact deposit_backed q1 k2 k3 q2 h6

theorem stakeOp_backed {caps : Caps} {now : Nat} {p p' : Pool} {m m' : Mining} {d d' : Option Mining} {i : Ix}
    (hp : PoolOk now p) (hm : MiningOk m) (hb : Backed m) (hd : DelBacked d) (ho : TakesUnlocked m i)
    (h : StakeOp caps now p m d p' m' d' i) : Backed m' ∧ DelBacked d' := by
  cases i <;> first
    | exact h.elim
    | exact deposit_backed hp hm hb hd h
    | exact withdraw_backed hp hm hb hd ho h
    | exact extend_backed hp hm hb hd ho h
    | (obtain ⟨h, rfl, rfl⟩ := h; exact ⟨slash_backed hp hm hb ho h, hd⟩)

/-- All minings. -/
def AllBacked (env : Env) (w : World) : Prop := ∀ k m, MiningAt env w k m → Backed m

theorem viewed_backed {now : Nat} {w : World} (hw : Wf env now w) (hf : AllBacked env w) {k : Key} {x : Mining}
    (ho : (w k).owner = env.programId) (hn : ∀ q, ¬ PoolAt env w k q) (hv : viewMining env (w k).content = some x) :
    Backed x := by
  rcases (hw k).content ho with e | ⟨q, e, -⟩ | ⟨m, e, -⟩
  · rw [e] at hv
    simp only [viewMining, Option.some.injEq] at hv
    subst hv
    exact Nat.zero_le _
  · exact absurd ⟨ho, e⟩ (hn q)
  · have hx : m = x := by simpa [e, viewMining] using hv
    rw [← hx]; exact hf k m ⟨ho, e⟩

theorem Step.backed {now : Nat} {w w' : World} {accs : List AccountInfo} {i : Ix} {ret : Option Nat}
    (hw : Wf env now w) (hf : AllBacked env w)
    (ho : ∀ M m, miningArg accs i = some M → MiningAt env w M m → TakesUnlocked m i)
    (h : Step env now w w' accs i ret) : AllBacked env w' := by
  have hminings := fun k m' hm => h.newMining (k := k) (m' := m') hm
  have pin : ∀ k p, PoolAt env w k p → PoolOk now p := fun k p hp => (poolAt_good hw hp).ok
  have tok : ∀ k j, (w k).owner = env.programId → (w j).owner = env.tokenProgram → k ≠ j := by
    rintro k j hk hj rfl; exact env.program_ne_token (hk.symm.trans hj)
  have sameMining : ∀ k m', MiningAt env w' k m' → w' k = w k → Backed m' :=
    fun k m' hm e => hf k m' ((miningAt_congr e).mp hm)
  intro k y hy
  cases h with
  | @stake _ P M A D q q' m m' d d' accs_eq op chk del quiet same sfo ok' sameDel eff shell written =>
    obtain ⟨-, a2, -⟩ := accs_eq.pool ⟨_, _, _, _, _, _, _, _, op⟩
    have hd : DelBacked d := by
      rintro x rfl
      refine ⟨(del x rfl).ok, ?_⟩
      rcases eff.delegate with ⟨-, h1, -⟩ | ⟨-, -, h1, x1, x', h2, h3, -⟩
      · cases h1
      · obtain ⟨⟨x2, h4, h5, h6⟩, -⟩ := written x' h3
        cases h4
        exact viewed_backed hw hf h5 h1 h6
    obtain ⟨k2, k3⟩ := stakeOp_backed (pin _ _ eff.pool) chk.miningOk (hf _ _ eff.mining) hd (ho _ _ a2 eff.mining) op
    by_cases e1 : k = M.key
    · subst e1; rw [MiningAt.unique hy eff.mining']; exact k2
    · by_cases e2 : k = D.key
      · subst e2
        rcases eff.delegate with ⟨h1, -⟩ | ⟨-, -, h1, x1, x', h2, h3, -⟩
        · exact absurd h1 e1
        · obtain ⟨-, h4⟩ := written x' h3
          rw [h4 y hy]; exact (k3 x' h3).2
      · by_cases e3 : k = P.key
        · subst e3; exact absurd hy (PoolAt.not_mining eff.pool')
        · exact sameMining k y hy (eff.frame k e3 e1 e2)
  | @redelegate a nd P M A O Old New rest q q' m m' od od' dn dn' accs_eq signed op chk newDel oldOk oldAt ne quiet same sfo
      ok' sameNew sameOld neP eff shell writtenOld writtenNew =>
    have ho : DelBacked od := by
      rintro x rfl
      refine ⟨oldOk x rfl, ?_⟩
      rcases eff.old with ⟨-, h1, -⟩ | ⟨-, h1, x1, x', h2, h3, -⟩
      · cases h1
      · obtain ⟨⟨x2, h4, h5, h6⟩, -⟩ := writtenOld x' h3
        cases h4
        exact viewed_backed hw hf h5 h1 h6
    have hn : DelBacked dn := by
      rintro x rfl
      refine ⟨(newDel x rfl).ok, ?_⟩
      rcases eff.new with ⟨-, h1, -⟩ | ⟨-, h1, x1, x', h2, h3, -⟩
      · cases h1
      · obtain ⟨⟨x2, h4, h5, h6⟩, -⟩ := writtenNew x' h3
        cases h4
        exact viewed_backed hw hf h5 h1 h6
    obtain ⟨g1, p1, g2, g3⟩ := changeDelegate_ok.mp op
    have k2 := (refresh_backed (pin _ _ eff.pool).history chk.miningOk (hf _ _ eff.mining) g1).1
    obtain ⟨j1, j2⟩ := withSub_backed (pin _ _ eff.pool) ho g2
    obtain ⟨-, j3⟩ := withAdd_backed j1 hn g3
    by_cases e1 : k = M.key
    · subst e1; rw [MiningAt.unique hy eff.mining']; exact k2
    · by_cases e2 : k = Old.key
      · subst e2
        rcases eff.old with ⟨h1, -⟩ | ⟨-, h1, x1, x', h2, h3, -⟩
        · exact absurd h1 e1
        · obtain ⟨-, h4⟩ := writtenOld x' h3
          rw [h4 y hy]; exact (j2 x' h3).2
      · by_cases e4 : k = New.key
        · subst e4
          rcases eff.new with ⟨h1, -⟩ | ⟨-, h1, x1, x', h2, h3, -⟩
          · exact absurd h1 e1
          · obtain ⟨-, h4⟩ := writtenNew x' h3
            rw [h4 y hy]; exact (j3 x' h3).2
        · by_cases e3 : k = P.key
          · subst e3; exact absurd hy (PoolAt.not_mining eff.pool')
          · exact sameMining k y hy (eff.frame k e3 e1 e2 e4)
  | @decrease o n A P M rest p m1 m1' accs_eq chk pool op mining mining' same ok' sfo frame shell =>
    by_cases e1 : k = M.key
    · subst e1; rw [MiningAt.unique hy mining']; exact (decrease_earning op).2.1 (hf _ _ mining)
    · exact sameMining k y hy (frame k e1)
  | @claim P T V M O A U K rest p m1 m2 n accs_eq signedO signedA eff =>
    obtain ⟨t, ht, -⟩ := eff.userTok
    by_cases e1 : k = M.key
    · subst e1
      rw [MiningAt.unique hy eff.mining']
      exact (refresh_backed (pin _ _ eff.pool).history eff.miningOk (hf _ _ eff.mining) eff.refreshed).1
    · have e2 : (w k).owner = env.programId := by
        by_cases h2 : n = 0
        · rw [← eff.zero h2 k e1]; exact hy.1
        · obtain ⟨w1, h3, h4⟩ := eff.transfer (by omega)
          rw [← h3 k e1, ← (h4.meta' k).1]; exact hy.1
      exact sameMining k y hy (eff.frame k e1 (tok _ _ e2 eff.vaultTok) (tok _ _ e2 ht.1))
  | @distribute P B rest q q' r accs_eq signed auth good pool pool' amount op same ok' frame shell =>
    exact sameMining k y hy (frame k (by rintro rfl; exact PoolAt.not_mining pool' hy))
  | @fill r e P T V F S K rest q w1 accs_eq signed auth good pool vault nonzero future later endBound bound pool' w1_frame
      transfer frame neS neV shell =>
    obtain ⟨t, t', ht, ht', -⟩ := transfer.srcTok
    obtain ⟨u, u', hu, hu', -⟩ := transfer.dstTok
    refine sameMining k y hy (frame k (by rintro rfl; exact PoolAt.not_mining pool' hy) ?_ ?_)
    · rintro rfl; exact env.program_ne_token (hy.1.symm.trans ht'.1)
    · rintro rfl; exact env.program_ne_token (hy.1.symm.trans hu'.1)
  | @close M O G A P rest p m m1 accs_eq signedO signedA good pool auth mining init miningOk owner refreshed sfo paid target
      closed credited frame ne neG =>
    by_cases e1 : k = M.key
    · subst e1; have := hy.2; rw [closed] at this; cases this
    · refine sameMining k y hy (frame k e1 ?_)
      rintro rfl
      have := hy.1; rw [credited] at this
      exact env.program_ne_system (this.symm.trans target)
  | @initPool f d P T V Y A R K S rest bump accs_eq signedY signedA owned len fresh notPda vault pool' vaultBefore vault'
      payer payer' frame =>
    refine sameMining k y hy (frame k ?_ ?_ ?_)
    · rintro rfl; have := hy.2; rw [pool'] at this; cases this
    · rintro rfl; have := hy.1; rw [vault'] at this; exact env.program_ne_token this.symm
    · rintro rfl; have := hy.1; rw [payer'] at this; exact env.program_ne_system (this.symm.trans payer.2.1)
  | @initMining o P M Y S rest bump accs_eq signedY owned addr before mining' payer payer' frame ne neP =>
    by_cases e1 : k = M.key
    · subst e1
      have := hy.2; rw [mining'] at this; cases this
      exact Nat.zero_le _
    · refine sameMining k y hy (frame k e1 ?_)
      rintro rfl; have := hy.1; rw [payer'] at this; exact env.program_ne_system (this.symm.trans payer.2.1)

/-- One event. -/
theorem apply_backed {s : Chain} (hw : Wf env s.now s.world) (hf : AllBacked env s.world) {e : Event} (hv : e.Valid env s)
    (hc : CleanEvent env s e) (ho : LeavesLocked env s e) : AllBacked env (s.apply env e).world := by
  cases e with
  | ix accs i =>
    cases hx : exec env s.now s.world accs i with
    | error e => rw [apply_ix_error hx]; exact hf
    | ok r =>
      obtain ⟨w', ret⟩ := r
      rw [apply_ix_ok hx]
      exact (step_of_exec hw hv hc hx).backed hw hf ho.2
  | tick d => exact hf
  | gc j =>
    have e0 : (s.apply env (.gc j)).world j = _ := world_set_same _ _ _
    have e1 : ∀ k, k ≠ j → (s.apply env (.gc j)).world k = s.world k := fun k hk => world_set_ne _ _ hk
    intro k m hm
    by_cases hk : k = j
    · subst hk; have := hm.2; rw [e0] at this; cases this
    · exact hf k m ((miningAt_congr (e1 k hk)).mp hm)
  | ext w' =>
    intro k m hm
    by_cases ho : (s.world k).owner = env.programId
    · obtain ⟨e1, -, e3, e4⟩ := hv.program_owned k ho
      exact hf k m ⟨ho, e3 ▸ hm.2⟩
    · have h1 := (hv.new_zero k ho hm.1).1
      have h5 : (w' k).content = _ := hm.2
      rw [h1] at h5; cases h5

theorem Spec.LeavesLocked.clean {s : Chain} {e : Event} (h : LeavesLocked env s e) : CleanEvent env s e := by
  cases e with
  | ix accs i => exact h.1
  | _ => trivial

theorem runs_backed {s0 s : Chain} {es : List Event} (hr : RunsWith env (LeavesLocked env) s0 es s) :
    Reachable env s0 → AllBacked env s0.world → Reachable env s ∧ AllBacked env s.world := by
  induction hr with
  | nil => exact fun h1 h2 => ⟨h1, h2⟩
  | cons hv hc _ ih =>
    exact fun h1 h2 => ih (h1.step hv hc.clean) (apply_backed (reachable_wf h1) h2 hv hc.clean hc)

end Verif
