import Verif.Lemmas.TradeRun
import Verif.Lemmas.Divide
/-!
The delegate of a deposit deposits as well, or deposits both amounts.
-/

namespace Verif

open Spec

variable {env : Env}

/-- What a deposit does. -/
structure Deposited (env : Env) (P M D : Key) (a : Nat) (l : LockupPeriod) (s t : Chain) (p p' : Pool) (m m' : Mining)
    (d d' : Option Mining) : Prop where
  now : t.now = s.now
  op : p.deposit env.caps s.now m a l d = .ok (p', m', d')
  shell : ∀ k, (t.world k).owner = (s.world k).owner ∧ (t.world k).lamports = (s.world k).lamports ∧
    (t.world k).len = (s.world k).len
  eff : StakeEffect env s.world t.world P M D p p' m m' d d'
  poolOk : PoolOk s.now p
  ok : MiningOk m
  delOk : ∀ x, d = some x → MiningOk x
  pda : env.IsPda M

theorem deposits {P M D : Key} {a : Nat} {l : LockupPeriod} {s : Chain} {e : Event} (hw : Wf env s.now s.world)
    (hv : e.Valid env s) (h : Deposits env P M D a l s e) :
    ∃ p p' m m' d d', Deposited env P M D a l s (s.apply env e) p p' m m' d d' := by
  obtain ⟨accs, o, dl, rfl, h1, h2, h3, h4⟩ := h
  unfold succeeded at h1
  split at h1
  · rename_i r hx
    obtain ⟨w', ret⟩ := r
    rw [apply_ix_ok hx]
    have step := step_of_exec hw hv (by exact trivial) hx
    cases step with
    | @stake i P' M' A' D' p0 p' m0 m' d0 d' accs_eq op chk del quiet same sfo ok' sameDel eff shell =>
      obtain ⟨rest', rfl⟩ := accs_eq
      obtain rfl : P'.key = P := Option.some.inj h2
      obtain rfl : M'.key = M := Option.some.inj h3
      obtain rfl : D'.key = D := Option.some.inj h4
      exact ⟨p0, p', m0, m', d0, d', rfl, op, fun k => ⟨(shell k).1, (shell k).2.1, (shell k).2.2.1⟩, eff, chk.good.ok,
        chk.miningOk, fun x hx => (del x hx).ok, Or.inl ⟨_, _, _, chk.addr⟩⟩
  · cases h1

theorem traded {caps : Caps} {now a b : Nat} {l : LockupPeriod} {p p1 p2 q1 q2 : Pool} {m m1 n1 y y1 y2 z2 : Mining}
    (hp : PoolOk now p) (hm : MiningOk m) (hy : MiningOk y) (hu : UpToDate now p.cumulative y)
    (h1 : p.deposit caps now m a l (some y) = .ok (p1, m1, some y1)) (h2 : p1.deposit caps now y1 b .flex none = .ok (p2, y2, none))
    (k1 : p.deposit caps now m a l none = .ok (q1, n1, none)) (k2 : q1.deposit caps now y (a + b) .flex none = .ok (q2, z2, none)) :
    m1 = n1 ∧ p2 = q2 ∧ Instead a y2 z2 := by
  obtain ⟨m2, e, g1, g2, -, -, -, -, -, -, rfl, g3⟩ := deposit_ok (refresh_sorted hp hm) h1
  obtain ⟨m2', e', f1, f2, -, -, -, -, -, -, rfl, f3⟩ := deposit_ok (refresh_sorted hp hm) k1
  rw [g1] at f1; obtain rfl := Except.ok.inj f1
  rw [g2] at f2; obtain rfl := Except.ok.inj f2
  rw [withDelegate_none] at f3
  obtain ⟨rfl, -⟩ := f3
  rw [withDelegate_some] at g3
  obtain ⟨y1', g3, e3⟩ := g3
  obtain rfl := Option.some.inj e3
  rw [delegateAdd_ok] at g3
  obtain ⟨-, -, g4, rfl⟩ := g3
  have hcum : History p.cumulative := hp.history
  have hfix : ({ y with stakeFromOthers := y.stakeFromOthers + a } : Mining).refreshRewards now p.cumulative =
      .ok { y with stakeFromOthers := y.stakeFromOthers + a } := by
    refine refresh_fixed hcum ⟨hy.sorted, hy.aligned⟩ hu.index hu.locks ?_
    have hs : Sorted ({ y with stakeFromOthers := y.stakeFromOthers + a } : Mining).diffs := hy.sorted
    exact ((refresh_iff hcum hs).mp g4).1
  have g4' := g4.symm.trans hfix
  obtain rfl := Except.ok.inj g4'
  have hok : MiningOk { y with stakeFromOthers := y.stakeFromOthers + a } := ⟨hy.sorted, hy.aligned⟩
  have r1 : ∀ z, ({ y with stakeFromOthers := y.stakeFromOthers + a } : Mining).refreshRewards now p.cumulative = .ok z → Sorted z.diffs :=
    refresh_sorted hp hok
  obtain ⟨y2', e2, c1, c2, -, -, -, -, -, -, rfl, c3⟩ := deposit_ok (by exact r1) h2
  obtain ⟨z2', e2', d1, d2, -, -, -, -, -, -, rfl, d3⟩ := deposit_ok (by exact refresh_sorted hp hy) k2
  rw [c2] at d2; obtain rfl := Except.ok.inj d2
  have c1' := c1.symm.trans hfix
  obtain rfl := Except.ok.inj c1'
  have d1' := d1.symm.trans (refresh_fixed hcum hy hu.index hu.locks hu.stake)
  obtain rfl := Except.ok.inj d1'
  rw [withDelegate_none] at c3 d3
  obtain ⟨rfl, -⟩ := c3
  obtain ⟨rfl, -⟩ := d3
  have hf : LockupPeriod.flex.multiplier = 1 := rfl
  simp only [hf, Nat.mul_one, Nat.sub_self]
  refine ⟨trivial, ?_, ?_, rfl, rfl⟩
  · simp only [Pool.mk.injEq, true_and, and_true]
    omega
  · show z2'.share + (a + b) = z2'.share + b + a
    omega

theorem traded_worlds {P M D : Key} {a b : Nat} {l : LockupPeriod} {s : Chain} {e1 e2 f1 f2 : Event} {p : Pool} {y : Mining}
    (hw : Wf env s.now s.world) (hp : PoolAt env s.world P p) (hy : MiningAt env s.world D y)
    (hu : UpToDate s.now p.cumulative y) (hMD : M ≠ D)
    (v1 : e1.Valid env s) (h1 : Deposits env P M D a l s e1) (v2 : e2.Valid env (s.apply env e1))
    (h2 : Deposits env P D D b .flex (s.apply env e1) e2)
    (u1 : f1.Valid env s) (k1 : Deposits env P M M a l s f1) (u2 : f2.Valid env (s.apply env f1))
    (k2 : Deposits env P D D (a + b) .flex (s.apply env f1) f2) :
    env.IsPda D ∧ ((s.apply env e1).apply env e2).now = s.now ∧ ((s.apply env f1).apply env f2).now = s.now ∧
      DelegatedInstead env a D ((s.apply env e1).apply env e2).world ((s.apply env f1).apply env f2).world := by
  have clean : ∀ {P M D : Key} {a : Nat} {l : LockupPeriod} {s : Chain} {e : Event}, Deposits env P M D a l s e → CleanEvent env s e := by
    rintro P M D a l s e ⟨accs, o, d, rfl, -⟩
    exact trivial
  obtain ⟨p0, p1, m, m1, d, d1, c1⟩ := deposits hw v1 h1
  obtain ⟨p1', p2, y1, y2, d2, d2', c2⟩ := deposits (wf_apply hw v1 (clean h1)) v2 h2
  obtain ⟨q0, q1, n, n1, g, g1, c3⟩ := deposits hw u1 k1
  obtain ⟨q1', q2, z1, z2, g2, g2', c4⟩ := deposits (wf_apply hw u1 (clean k1)) u2 k2
  obtain rfl := PoolAt.unique hp c1.eff.pool
  obtain rfl := PoolAt.unique hp c3.eff.pool
  obtain rfl := PoolAt.unique c1.eff.pool' c2.eff.pool
  obtain rfl := PoolAt.unique c3.eff.pool' c4.eff.pool
  obtain rfl := MiningAt.unique c1.eff.mining c3.eff.mining
  have hDP : D ≠ P := c2.eff.ne
  rcases c1.eff.delegate with ⟨hh, -⟩ | ⟨-, -, -, x, x', rfl, rfl, hx⟩
  · exact absurd hh.symm hMD
  obtain ⟨rfl, hx'⟩ := hx y hy
  obtain rfl := MiningAt.unique hx' c2.eff.mining
  rcases c2.eff.delegate with ⟨-, rfl, rfl⟩ | ⟨hh, -⟩
  case inr => exact absurd rfl hh
  rcases c3.eff.delegate with ⟨-, rfl, rfl⟩ | ⟨hh, -⟩
  case inr => exact absurd rfl hh
  rcases c4.eff.delegate with ⟨-, rfl, rfl⟩ | ⟨hh, -⟩
  case inr => exact absurd rfl hh
  have hD : (s.apply env f1).world D = s.world D := c3.eff.frame D hDP hMD.symm hMD.symm
  obtain rfl := MiningAt.unique ((miningAt_congr hD).mpr hy) c4.eff.mining
  have o2 := c2.op
  have o4 := c4.op
  rw [c1.now] at o2
  rw [c3.now] at o4
  obtain ⟨rfl, rfl, hi⟩ := traded c1.poolOk c1.ok (c1.delOk _ rfl) hu c1.op o2 c3.op o4
  have shell : ∀ k, (((s.apply env e1).apply env e2).world k).owner = (((s.apply env f1).apply env f2).world k).owner ∧
      (((s.apply env e1).apply env e2).world k).lamports = (((s.apply env f1).apply env f2).world k).lamports ∧
      (((s.apply env e1).apply env e2).world k).len = (((s.apply env f1).apply env f2).world k).len := by
    intro k
    obtain ⟨a1, a2, a3⟩ := c1.shell k
    obtain ⟨b1, b2, b3⟩ := c2.shell k
    obtain ⟨a1', a2', a3'⟩ := c3.shell k
    obtain ⟨b1', b2', b3'⟩ := c4.shell k
    rw [b1, b2, b3, a1, a2, a3, b1', b2', b3', a1', a2', a3']
    exact ⟨rfl, rfl, rfl⟩
  refine ⟨c2.pda, c2.now.trans c1.now, c4.now.trans c3.now, Or.inr ⟨?_, y2, z2, c2.eff.mining', ?_, hi⟩⟩
  · intro j hj
    obtain ⟨s1, s2, s3⟩ := shell j
    by_cases hjP : j = P
    · subst hjP
      exact account_same s1 s2 s3 (c2.eff.pool'.2.trans c4.eff.pool'.2.symm)
    · rw [c2.eff.frame j hjP hj hj, c4.eff.frame j hjP hj hj]
      by_cases hjM : j = M
      · subst hjM
        obtain ⟨a1, a2, a3⟩ := c1.shell j
        obtain ⟨a1', a2', a3'⟩ := c3.shell j
        exact account_same (a1.trans a1'.symm) (a2.trans a2'.symm) (a3.trans a3'.symm)
          (c1.eff.mining'.2.trans c3.eff.mining'.2.symm)
      · rw [c1.eff.frame j hjP hjM hj, c3.eff.frame j hjP hjM hjM]
  · obtain ⟨s1, s2, s3⟩ := shell D
    exact account_same s1.symm s2.symm s3.symm c4.eff.mining'.2

end Verif
