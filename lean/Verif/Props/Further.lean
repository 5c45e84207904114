import Verif.Props.Prolong
/-!
C119: who extends a stake by more tokens or for longer.
-/

namespace Verif

open Spec

section
variable {env : Env}

/-- A stake of at least as much, for at least as long, weighs at least as much. -/
theorem stakeWeight_atLeast {a a' k k' e e' x : Nat} (hk : 1 ≤ k') (ha : a ≤ a') (hkk : k ≤ k') (he : e ≤ e') :
    stakeWeight a k e x ≤ stakeWeight a' k' e' x := by
  have q1 : a * k ≤ a' * k' := Nat.mul_le_mul ha hkk
  have q2 : a' * 1 ≤ a' * k' := Nat.mul_le_mul_left _ hk
  have q3 : (a : Int) * k = ((a * k : Nat) : Int) := by simp
  have q4 : (a' : Int) * k' = ((a' * k' : Nat) : Int) := by simp
  unfold stakeWeight
  rw [q3, q4]
  split <;> split <;> omega

/-- C119: let a history (orderly for the pool: see `Orderly`) be continued in two ways, which begin with an extension of the same stake,
the second with at least as many tokens added and for at least as long as the first, and then go on with the same events (only what other
programs do may differ), the mining doing nothing.  The extensions may differ in the tokens added only if the stake is not delegated (see
`C119_delegated_false`).  Then the mining is in the end owed at least as much in the second history as in the first, except for
roundings: 1/10^16 token per unit of its stake and distribution.  Missing for the full property: histories that are not orderly (among
them those in which the first extension is of a stake whose lock is running), full tables. -/
theorem C119_more_partial (hi : env.PdaInjective) {s0 s s1 s2 : Chain} {es0 es es' : List Event} {accs rest : List AccountInfo}
    {P M A D : AccountInfo} {V : Key} {a a' b ts : Nat} {old new new' : LockupPeriod} {o d : Key} {w1 w2 : World}
    {r1 r2 : Option Nat} {p p1 p2 : Pool} (hg : Genesis env s0) (hr0 : RunsWith env (Orderly env P.key V) s0 es0 s)
    (hp : PoolAt env s.world P.key p) (hV : env.findVault P.key p.rewardMint = some (V, p.bump))
    (hpl : 0 < (s.world P.key).lamports) (hml : 0 < (s.world M.key).lamports)
    (hs : RealSigners accs) (hacc : accs = P :: M :: A :: D :: rest)
    (h1 : exec env s.now s.world accs (.extendStake old new ts b a o d) = .ok (w1, r1))
    (h2 : exec env s.now s.world accs (.extendStake old new' ts b a' o d) = .ok (w2, r2))
    (hle : AtLeast a new a' new') (hself : D.key = M.key ∨ a = a')
    (hord : Orderly env P.key V s (.ix accs (.extendStake old new ts b a o d)))
    (hm1 : RoomInMining env M.key s new) (hm2 : RoomInMining env M.key s new')
    (hp1 : RoomInPool env P.key s (.ix accs (.extendStake old new ts b a o d)))
    (hp2 : RoomInPool env P.key s (.ix accs (.extendStake old new' ts b a' o d)))
    (hr1 : RunsWith env (fun s e => Orderly env P.key V s e ∧ RoomInPool env P.key s e ∧ Spares M.key e) ⟨s.now, w1⟩ es s1)
    (hr2 : RunsWith env (fun s e => CleanEvent env s e ∧ RoomInPool env P.key s e ∧ Spares M.key e) ⟨s.now, w2⟩ es' s2)
    (hal : Alike env SameEvent ⟨s.now, w1⟩ ⟨s.now, w2⟩ es es') (hn : s1.now < 2 ^ 64)
    (hp1' : PoolAt env s1.world P.key p1) (hp2' : PoolAt env s2.world P.key p2)
    (hroom1 : p1.cumulative.length < env.caps.index) (hroom2 : p2.cumulative.length < env.caps.index) :
    ∃ m1 m2, MiningAt env s1.world M.key m1 ∧ MiningAt env s2.world M.key m2 ∧
      owed m1 p1.cumulative ≤ owed m2 p2.cumulative + totalIn env (takesPart env P.key m2) ⟨s.now, w2⟩ es' := by
  have hre : Reachable env s := ⟨s0, es0, hg, hr0.weaken fun _ _ h => h.clean⟩
  have hw := reachable_wf hre
  obtain ⟨k, n, k1, n1, m, q1, x1, u, u1, hmem, hq1, hx1, hbud1, hcfg1, hap1, hwt1, hsfo1, hcr1, hlam1, -⟩ :=
    extend_changes hw hs hacc h1 hp1 hp
  obtain ⟨k', n', k2, n2, m', q2, x2, u', u2, hmem', hq2, hx2, hbud2, -, hap2, hwt2, hsfo2, hcr2, hlam2, -⟩ :=
    extend_changes hw hs hacc h2 hp2 hp
  obtain rfl := MiningAt.unique hmem.1 hmem'.1
  rw [u] at u'
  cases u'
  obtain ⟨ha, v, z, v', z', t1, t2, hk, hz⟩ := hle
  rw [u1] at t1; cases t1
  rw [u2] at t2; cases t2
  have hwt1 := hwt1 hm1
  have hwt2 := hwt2 hm2
  have hc0 : ∀ x, 0 ≤ stakeWeight (b + a') k2 (midnight s.now + 86400 * n2) x - stakeWeight (b + a) k1 (midnight s.now + 86400 * n1) x := by
    intro x
    have := stakeWeight_atLeast (x := x) (terms_one u2) (Nat.add_le_add_left ha b) hk
      (show midnight s.now + 86400 * n1 ≤ midnight s.now + 86400 * n2 by omega)
    omega
  have hh := (poolAt_good hw hp).ok.history
  have hmo := (miningAt_ok hw hmem.1).1
  have hidx : indexBefore p.cumulative s.now ≤ p.index :=
    Nat.le_trans (indexBefore_le_last hh _) (lastIndex_le (Nat.zero_le _) (poolAt_good hw hp).ok.index)
  have ci1 := credited_index hh hmo hcr1
  have ci2 := credited_index hh hmo hcr2
  have st1 : s.apply env (.ix accs (.extendStake old new ts b a o d)) = ⟨s.now, w1⟩ := apply_ix_ok h1
  have st2 : s.apply env (.ix accs (.extendStake old new' ts b a' o d)) = ⟨s.now, w2⟩ := apply_ix_ok h2
  have hro : RunsWith env (Orderly env P.key V) s0 (es0 ++ [.ix accs (.extendStake old new ts b a o d)]) ⟨s.now, w1⟩ :=
    hr0.append (.cons hs hord (by rw [st1]; exact .nil _))
  have hre2 : Reachable env ⟨s.now, w2⟩ := by rw [← st2]; exact hre.step hs trivial
  have hwt : ∀ x, midnight s.now ≤ x → weightOn x2 x = weightOn x1 x +
      (stakeWeight (b + a') k2 (midnight s.now + 86400 * n2) x - stakeWeight (b + a) k1 (midnight s.now + 86400 * n1) x) := by
    intro x hx
    rw [hwt1 x hx, hwt2 x hx]
    omega
  have hu : owed x1 q1.cumulative ≤ owed x2 q2.cumulative + 0 := by
    rw [hbud1.2.2.2, hbud2.2.2.2]
    refine owed_le_now hh ci2.2 (ci1.2.trans ci2.2.symm) ?_ fun y hy => ?_
    · obtain ⟨y1, g1, g2, -⟩ := hcr1
      obtain ⟨y2, g4, g5, -⟩ := hcr2
      rw [g1] at g4
      cases g4
      rw [g2, g5]
    · have e1 := hwt y hy
      have e2 := hc0 y
      have e3 : x2.stakeFromOthers = x1.stakeFromOthers := hsfo2.trans hsfo1.symm
      simp only [earningOn, weightOn] at *
      omega
  obtain ⟨f1, f2, f3⟩ := compare_more hi (r := 0) hg hro hre2 rfl hq1 hq2
    (by rw [hcfg1.2.2.2.1, hcfg1.2.2.2.2.1]; exact hV) (by rw [hlam1]; exact hpl) (by rw [hlam2]; exact hpl)
    (by rw [hlam1]; exact hml) (by rw [hlam2]; exact hml) hx1 hx2.1
    (SameSchedule.budget ⟨rfl, rfl, rfl⟩ hbud1 hbud2)
    (c := fun x => stakeWeight (b + a') k2 (midnight s.now + 86400 * n2) x - stakeWeight (b + a) k1 (midnight s.now + 86400 * n1) x)
    (fun x hx => by
      have g1 := hap1 x hx
      have g2 := hap2 x hx
      dsimp only at g1 g2 ⊢
      have g3 : (if D.key = M.key then 0 else (a : Int)) = (if D.key = M.key then 0 else (a' : Int)) := by
        rcases hself with h | h
        · rw [if_pos h, if_pos h]
        · rw [h]
      rw [g3] at g1
      omega)
    (fun x _ => hc0 x) hwt (hsfo2.trans hsfo1.symm) (by rw [hbud1.2.2.1, ci1.2]; exact hidx)
    (by rw [hbud2.2.2.1, ci2.2]; exact hidx) hu hr1 hr2 hal hn hp1' hp2' hroom1 hroom2
  exact ⟨x1, x2, f1, f2, f3⟩

/-- C119, for the others: let a history be continued in two ways, which begin with an extension of the same stake (delegated or not, its
lock running or not), the second with at least as many tokens added and for at least as long as the first, and then go on with the same
events (only what other programs do may differ).  A mining that does nothing meanwhile, other than the extended one and its delegate, is
in the end owed at most as much in the second history as in the first.  Missing for the full property: full tables. -/
theorem C119_others_partial {s s1 s2 : Chain} {es es' : List Event} {accs rest : List AccountInfo} {P M A D : AccountInfo}
    {K : Key} {a a' b ts : Nat} {old new new' : LockupPeriod} {o d : Key} {w1 w2 : World} {r1 r2 : Option Nat} {p p1 p2 : Pool}
    {m : Mining} (hre : Reachable env s) (hp : PoolAt env s.world P.key p) (hpl : 0 < (s.world P.key).lamports)
    (hm : MiningAt env s.world K m) (hml : 0 < (s.world K).lamports) (hidx : m.index ≤ p.index)
    (hKM : K ≠ M.key) (hKD : K ≠ D.key) (hs : RealSigners accs) (hacc : accs = P :: M :: A :: D :: rest)
    (h1 : exec env s.now s.world accs (.extendStake old new ts b a o d) = .ok (w1, r1))
    (h2 : exec env s.now s.world accs (.extendStake old new' ts b a' o d) = .ok (w2, r2)) (hle : AtLeast a new a' new')
    (hp1 : RoomInPool env P.key s (.ix accs (.extendStake old new ts b a o d)))
    (hp2 : RoomInPool env P.key s (.ix accs (.extendStake old new' ts b a' o d)))
    (hr1 : RunsWith env (fun s e => CleanEvent env s e ∧ RoomInPool env P.key s e ∧ Spares K e) ⟨s.now, w1⟩ es s1)
    (hr2 : RunsWith env (fun s e => CleanEvent env s e ∧ RoomInPool env P.key s e ∧ Spares K e) ⟨s.now, w2⟩ es' s2)
    (hal : Alike env SameEvent ⟨s.now, w1⟩ ⟨s.now, w2⟩ es es') (hp1' : PoolAt env s1.world P.key p1)
    (hp2' : PoolAt env s2.world P.key p2) (hroom1 : p1.cumulative.length < env.caps.index)
    (hroom2 : p2.cumulative.length < env.caps.index) :
    MiningAt env s1.world K m ∧ MiningAt env s2.world K m ∧ owed m p2.cumulative ≤ owed m p1.cumulative := by
  have hw := reachable_wf hre
  obtain ⟨k, n, k1, n1, m0, q1, x1, u, u1, -, hq1, -, hbud1, -, hap1, -, -, -, hlam1, hfr1⟩ :=
    extend_changes hw hs hacc h1 hp1 hp
  obtain ⟨k', n', k2, n2, m0', q2, x2, u', u2, -, hq2, -, hbud2, -, hap2, -, -, -, hlam2, hfr2⟩ :=
    extend_changes hw hs hacc h2 hp2 hp
  rw [u] at u'
  cases u'
  obtain ⟨ha, v, z, v', z', t1, t2, hk, hz⟩ := hle
  rw [u1] at t1; cases t1
  rw [u2] at t2; cases t2
  have hKP : K ≠ P.key := by
    rintro rfl
    have := hm.2; rw [hp.2] at this; cases this
  have f1 := hfr1 K hKP hKM hKD
  have f2 := hfr2 K hKP hKM hKD
  have st1 : s.apply env (.ix accs (.extendStake old new ts b a o d)) = ⟨s.now, w1⟩ := apply_ix_ok h1
  have st2 : s.apply env (.ix accs (.extendStake old new' ts b a' o d)) = ⟨s.now, w2⟩ := apply_ix_ok h2
  have hre1 : Reachable env ⟨s.now, w1⟩ := by rw [← st1]; exact hre.step hs trivial
  have hre2 : Reachable env ⟨s.now, w2⟩ := by rw [← st2]; exact hre.step hs trivial
  exact compare_others hre1 hre2 rfl hq1 hq2 (by rw [hlam1]; exact hpl) (by rw [hlam2]; exact hpl) (by rw [hlam1]; exact hml)
    (by rw [hlam2]; exact hml) ((miningAt_congr f1).mpr hm) ((miningAt_congr f2).mpr hm)
    (SameSchedule.budget ⟨rfl, rfl, rfl⟩ hbud1 hbud2)
    (c := fun x => stakeWeight (b + a') k2 (midnight s.now + 86400 * n2) x - stakeWeight (b + a) k1 (midnight s.now + 86400 * n1) x +
      if D.key = M.key then 0 else ((a' : Int) - a))
    (fun x hx => by
      have g1 := hap1 x hx
      have g2 := hap2 x hx
      dsimp only at g1 g2 ⊢
      by_cases hD : D.key = M.key
      · simp only [if_pos hD] at g1 g2 ⊢; omega
      · simp only [if_neg hD] at g1 g2 ⊢; omega)
    (fun x _ => by
      have := stakeWeight_atLeast (x := x) (terms_one u2) (Nat.add_le_add_left ha b) hk
        (show midnight s.now + 86400 * n1 ≤ midnight s.now + 86400 * n2 by omega)
      split <;> omega) (by rw [hbud1.2.2.1]; exact hidx) (by rw [hbud2.2.2.1]; exact hidx)
    (by rw [hbud1.2.2.2, hbud2.2.2.2]; exact Nat.le_refl _) hr1 hr2 hal hp1' hp2' hroom1 hroom2

end

/-! ### Concrete cases -/

section Examples
open Demo

/-- `C119_more_partial` applies: user 120 locks 400 flexible tokens, for half a year with 20 more or for a year with 300 more. -/
example : ∃ w1 w2 r1 r2 s1 s2, Genesis Demo.env s0 ∧
    (∃ es0, RunsWith Demo.env (Orderly Demo.env 100 (vaultOf 100 101)) s0 es0 extending) ∧
    exec Demo.env extending.now extending.world extendingAccs (.extendStake .flex .sixMonths (day0 + 100) 400 20 120 120) =
      .ok (w1, r1) ∧
    exec Demo.env extending.now extending.world extendingAccs (.extendStake .flex .oneYear (day0 + 100) 400 300 120 120) =
      .ok (w2, r2) ∧
    AtLeast 20 .sixMonths 300 .oneYear ∧
    Orderly Demo.env 100 (vaultOf 100 101) extending (extend 100 120 .flex .sixMonths (day0 + 100) 400 20 120) ∧
    RoomInMining Demo.env (mine 120 100) extending .sixMonths ∧ RoomInMining Demo.env (mine 120 100) extending .oneYear ∧
    RoomInPool Demo.env 100 extending (extend 100 120 .flex .sixMonths (day0 + 100) 400 20 120) ∧
    RoomInPool Demo.env 100 extending (extend 100 120 .flex .oneYear (day0 + 100) 400 300 120) ∧
    Alike Demo.env SameEvent ⟨extending.now, w1⟩ ⟨extending.now, w2⟩ afterExtending afterExtending ∧
    RunsWith Demo.env (fun s e => Orderly Demo.env 100 (vaultOf 100 101) s e ∧ RoomInPool Demo.env 100 s e ∧
      Spares (mine 120 100) e) ⟨extending.now, w1⟩ afterExtending s1 ∧
    RunsWith Demo.env (fun s e => CleanEvent Demo.env s e ∧ RoomInPool Demo.env 100 s e ∧
      Spares (mine 120 100) e) ⟨extending.now, w2⟩ afterExtending s2 ∧ s1.now < 2 ^ 64 ∧
    0 < (extending.world 100).lamports ∧ 0 < (extending.world (mine 120 100)).lamports ∧
    hasPool extending.world 100 (fun p => decide (Demo.env.findVault 100 p.rewardMint = some (vaultOf 100 101, p.bump))) = true ∧
    hasPool s1.world 100 (fun p => decide (p.cumulative.length < Demo.env.caps.index)) = true ∧
    hasPool s2.world 100 (fun p => decide (p.cumulative.length < Demo.env.caps.index)) = true ∧
    hasPool s1.world 100 (fun p1 => hasPool s2.world 100 (fun p2 => hasMining s1.world (mine 120 100) (fun m1 =>
      hasMining s2.world (mine 120 100) (fun m2 => decide (owed m1 p1.cumulative + 10 ^ 16 < owed m2 p2.cumulative))))) = true := by
  obtain ⟨w1, w2, r1, r2, h1, h2, h3, -, h4, h5⟩ := two_histories (s := extending) (es := afterExtending) (accs := extendingAccs)
    (i := .extendStake .flex .sixMonths (day0 + 100) 400 20 120 120) (j := .extendStake .flex .oneYear (day0 + 100) 400 300 120 120)
    (tidyB_sound (P := 100) (V := vaultOf 100 101) (k := mine 120 100)) (cleanB_sound (P := 100) (k := mine 120 100))
    tidyB_ok cleanB_ok (by decide +kernel) (by decide +kernel) (by decide +kernel) (by decide +kernel)
  exact ⟨w1, w2, r1, r2, _, _, s0_genesis, ⟨_, orderlyRun_eq (es := beforeExtending) (by decide +kernel)⟩, h1, h2,
    ⟨by decide, 4, 180, 6, 365, rfl, rfl, by decide, by decide⟩, (orderlyB_sound (by decide +kernel)).2,
    roomInMiningB_sound (by decide +kernel), roomInMiningB_sound (by decide +kernel), roomInPoolB_sound (by decide +kernel),
    roomInPoolB_sound (by decide +kernel), h3, h4, h5, by decide +kernel, by decide +kernel, by decide +kernel, by decide +kernel,
    by decide +kernel, by decide +kernel, by decide +kernel⟩

/-- `C119_others_partial` applies to user 121 when user 120 extends their running lock, with nothing or 100 tokens more. -/
example : ∃ w1 w2 r1 r2 s1 s2, Reachable Demo.env extending ∧
    exec Demo.env extending.now extending.world extendingAccs (.extendStake .oneYear .oneYear (day0 + 100) 500 0 120 120) =
      .ok (w1, r1) ∧
    exec Demo.env extending.now extending.world extendingAccs (.extendStake .oneYear .oneYear (day0 + 100) 500 100 120 120) =
      .ok (w2, r2) ∧
    AtLeast 0 .oneYear 100 .oneYear ∧
    RoomInPool Demo.env 100 extending (extend 100 120 .oneYear .oneYear (day0 + 100) 500 0 120) ∧
    RoomInPool Demo.env 100 extending (extend 100 120 .oneYear .oneYear (day0 + 100) 500 100 120) ∧
    Alike Demo.env SameEvent ⟨extending.now, w1⟩ ⟨extending.now, w2⟩ afterExtending afterExtending ∧
    RunsWith Demo.env (fun s e => CleanEvent Demo.env s e ∧ RoomInPool Demo.env 100 s e ∧
      Spares (mine 121 100) e) ⟨extending.now, w1⟩ afterExtending s1 ∧
    RunsWith Demo.env (fun s e => CleanEvent Demo.env s e ∧ RoomInPool Demo.env 100 s e ∧
      Spares (mine 121 100) e) ⟨extending.now, w2⟩ afterExtending s2 ∧
    0 < (extending.world 100).lamports ∧ 0 < (extending.world (mine 121 100)).lamports ∧
    hasPool extending.world 100 (fun p => hasMining extending.world (mine 121 100) (fun m => decide (m.index ≤ p.index))) = true ∧
    hasPool s1.world 100 (fun p => decide (p.cumulative.length < Demo.env.caps.index)) = true ∧
    hasPool s2.world 100 (fun p => decide (p.cumulative.length < Demo.env.caps.index)) = true ∧
    hasPool s1.world 100 (fun p1 => hasPool s2.world 100 (fun p2 => hasMining s1.world (mine 121 100) (fun m =>
      decide (owed m p2.cumulative < owed m p1.cumulative)))) = true := by
  obtain ⟨w1, w2, r1, r2, h1, h2, h3, -, h4, h5⟩ := two_histories (s := extending) (es := afterExtending) (accs := extendingAccs)
    (i := .extendStake .oneYear .oneYear (day0 + 100) 500 0 120 120) (j := .extendStake .oneYear .oneYear (day0 + 100) 500 100 120 120)
    (cleanB_sound (P := 100) (k := mine 121 100)) (cleanB_sound (P := 100) (k := mine 121 100))
    cleanB_ok cleanB_ok (by decide +kernel) (by decide +kernel) (by decide +kernel) (by decide +kernel)
  exact ⟨w1, w2, r1, r2, _, _, after_reachable (by decide +kernel), h1, h2,
    ⟨by decide, 6, 365, 6, 365, rfl, rfl, by decide, by decide⟩, roomInPoolB_sound (by decide +kernel),
    roomInPoolB_sound (by decide +kernel), h3, h4, h5, by decide +kernel, by decide +kernel, by decide +kernel, by decide +kernel,
    by decide +kernel, by decide +kernel⟩

/-- C119 is false for delegated stake to which different amounts are added: user 120, the only staker, with 1000 tokens, one of them
delegated, adds 1000 tokens to that one instead of one; the distribution pays them more than 300 tokens less. -/
theorem C119_delegated_false : ∃ s s1 s2 p1 p2 m1 m2, Reachable Demo.env s ∧ AtLeast 1 .flex 1000 .flex ∧
    RunsWith Demo.env (CleanEvent Demo.env) s [extend 100 120 .flex .flex (day0 + 100) 1 1 121, distribute 100] s1 ∧
    RunsWith Demo.env (CleanEvent Demo.env) s [extend 100 120 .flex .flex (day0 + 100) 1 1000 121, distribute 100] s2 ∧
    PoolAt Demo.env s1.world 100 p1 ∧ PoolAt Demo.env s2.world 100 p2 ∧ MiningAt Demo.env s1.world (mine 120 100) m1 ∧
    MiningAt Demo.env s2.world (mine 120 100) m2 ∧ owed m2 p2.cumulative + 10 ^ 16 * 300 < owed m1 p1.cumulative := by
  let s := (run s0 (delegatedBefore ++ [deposit 100 120 1 .flex 121])).getD s0
  let s1 := endOf s [extend 100 120 .flex .flex (day0 + 100) 1 1 121, distribute 100]
  let s2 := endOf s [extend 100 120 .flex .flex (day0 + 100) 1 1000 121, distribute 100]
  have h : hasPool s1.world 100 (fun p1 => hasPool s2.world 100 (fun p2 => hasMining s1.world (mine 120 100) (fun m1 =>
      hasMining s2.world (mine 120 100) (fun m2 =>
        decide (owed m2 p2.cumulative + 10 ^ 16 * 300 < owed m1 p1.cumulative))))) = true := by decide +kernel
  obtain ⟨p1, hp1, h⟩ := hasPool_sound h
  obtain ⟨p2, hp2, h⟩ := hasPool_sound h
  obtain ⟨m1, hm1, h⟩ := hasMining_sound h
  obtain ⟨m2, hm2, h⟩ := hasMining_sound h
  exact ⟨s, s1, s2, p1, p2, m1, m2, after_reachable (by decide +kernel), ⟨by decide, 1, 5, 1, 5, rfl, rfl, by decide, by decide⟩,
    allPass_sound (fun _ _ h => okEvent_sound h) (by decide +kernel),
    allPass_sound (fun _ _ h => okEvent_sound h) (by decide +kernel), hp1, hp2, hm1, hm2, of_decide_eq_true h⟩

/-- User 120, the only staker, has 500 tokens locked for a year. -/
def lockRuns : List Event := [initPool 100, initMining 100 120, deposit 100 120 500 .oneYear 120,
  fill 100 100000 (day0 + 1000 * DAY), .tick DAY]

/-- C119 is false for a stake whose lock is running: the pool takes the old expiration off a second time, so that from the end of the old
lock on its total is too low, the more so in proportion the smaller the stake is.  The only staker, who has 500 tokens locked for a
year, extends them after a day; after the end of the old lock they get over 300 tokens less from a distribution if they have added 100
tokens than if they have added none. -/
theorem C119_running_false : ∃ s s1 s2 p1 p2 m1 m2, Reachable Demo.env s ∧ AtLeast 0 .oneYear 100 .oneYear ∧
    RunsWith Demo.env (CleanEvent Demo.env) s
      [extend 100 120 .oneYear .oneYear (day0 + 100) 500 0 120, .tick (364 * DAY), distribute 100] s1 ∧
    RunsWith Demo.env (CleanEvent Demo.env) s
      [extend 100 120 .oneYear .oneYear (day0 + 100) 500 100 120, .tick (364 * DAY), distribute 100] s2 ∧
    PoolAt Demo.env s1.world 100 p1 ∧ PoolAt Demo.env s2.world 100 p2 ∧ MiningAt Demo.env s1.world (mine 120 100) m1 ∧
    MiningAt Demo.env s2.world (mine 120 100) m2 ∧ owed m2 p2.cumulative + 10 ^ 16 * 300 < owed m1 p1.cumulative := by
  let s := (run s0 lockRuns).getD s0
  let s1 := endOf s [extend 100 120 .oneYear .oneYear (day0 + 100) 500 0 120, .tick (364 * DAY), distribute 100]
  let s2 := endOf s [extend 100 120 .oneYear .oneYear (day0 + 100) 500 100 120, .tick (364 * DAY), distribute 100]
  have h : hasPool s1.world 100 (fun p1 => hasPool s2.world 100 (fun p2 => hasMining s1.world (mine 120 100) (fun m1 =>
      hasMining s2.world (mine 120 100) (fun m2 =>
        decide (owed m2 p2.cumulative + 10 ^ 16 * 300 < owed m1 p1.cumulative))))) = true := by decide +kernel
  obtain ⟨p1, hp1, h⟩ := hasPool_sound h
  obtain ⟨p2, hp2, h⟩ := hasPool_sound h
  obtain ⟨m1, hm1, h⟩ := hasMining_sound h
  obtain ⟨m2, hm2, h⟩ := hasMining_sound h
  exact ⟨s, s1, s2, p1, p2, m1, m2, after_reachable (by decide +kernel), ⟨by decide, 6, 365, 6, 365, rfl, rfl, by decide, by decide⟩,
    allPass_sound (fun _ _ h => okEvent_sound h) (by decide +kernel),
    allPass_sound (fun _ _ h => okEvent_sound h) (by decide +kernel), hp1, hp2, hm1, hm2, of_decide_eq_true h⟩

end Examples

end Verif
