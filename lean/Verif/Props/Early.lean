import Verif.Lemmas.Early
/-!
C98, C99: staking earlier, taking stake out later.
-/

namespace Verif

open Spec

section
variable {env : Env}

/-- C98: let a history (orderly for the pool: see `Orderly`) be continued in two ways with the same events (only what other programs
do may differ).  In the second a deposit (not delegated) is made at once, in the first a deposit for the same mining later, which
weighs no more on any day from then on; otherwise the mining does nothing.  Then the mining is in the end owed at least as much in
the second history as in the first, except for roundings: 1/10^16 token per unit of its stake and distribution, and a token for
each of its expirations that the early deposit processes and one more.  Missing for the full property: delegated stake, histories that
are not orderly, full tables (as for `C86_more_partial`). -/
theorem C98_earlier_partial (hi : env.PdaInjective) {s0 s t1 t2 s1 s2 : Chain} {es0 es es' fs fs' : List Event}
    {accs rest : List AccountInfo} {P M A D : AccountInfo} {V : Key} {a a' : Nat} {l l' : LockupPeriod}
    {o d : Key} {w1 w2 : World} {r1 r2 : Option Nat} {p p1 p2 : Pool} (hg : Genesis env s0)
    (hr0 : RunsWith env (Orderly env P.key V) s0 es0 s)
    (hp : PoolAt env s.world P.key p) (hV : env.findVault P.key p.rewardMint = some (V, p.bump))
    (hpl : 0 < (s.world P.key).lamports) (hml : 0 < (s.world M.key).lamports)
    (hs : RealSigners accs) (hacc : accs = P :: M :: A :: D :: rest) (hself : D.key = M.key)
    -- the first history: the deposit comes after `es`
    (hr1 : RunsWith env (fun s e => Orderly env P.key V s e ∧ RoomInPool env P.key s e ∧ Spares M.key e) s es t1)
    (h1 : exec env t1.now t1.world accs (.depositMining a l o d) = .ok (w1, r1))
    (hord : Orderly env P.key V t1 (.ix accs (.depositMining a l o d)))
    (hroom : RoomInPool env P.key t1 (.ix accs (.depositMining a l o d)))
    (hf1 : RunsWith env (fun s e => Orderly env P.key V s e ∧ RoomInPool env P.key s e ∧ Spares M.key e) ⟨t1.now, w1⟩ fs s1)
    -- the second history: it comes before them
    (h2 : exec env s.now s.world accs (.depositMining a' l' o d) = .ok (w2, r2))
    (hm : RoomInMining env M.key s l') (hroom' : RoomInPool env P.key s (.ix accs (.depositMining a' l' o d)))
    (hr2 : RunsWith env (fun s e => CleanEvent env s e ∧ RoomInPool env P.key s e ∧ Spares M.key e) ⟨s.now, w2⟩ es' t2)
    (hf2 : RunsWith env (fun s e => CleanEvent env s e ∧ RoomInPool env P.key s e ∧ Spares M.key e) t2 fs' s2)
    (hle : Outweighs t1.now a l s.now a' l')
    (hal : Alike env SameEvent s ⟨s.now, w2⟩ es es') (hal' : Alike env SameEvent ⟨t1.now, w1⟩ t2 fs fs')
    (hn : s1.now < 2 ^ 64) (hp1' : PoolAt env s1.world P.key p1) (hp2' : PoolAt env s2.world P.key p2)
    (hroom1 : p1.cumulative.length < env.caps.index) (hroom2 : p2.cumulative.length < env.caps.index) :
    ∃ m m1 m2, MiningAt env s.world M.key m ∧ MiningAt env s1.world M.key m1 ∧ MiningAt env s2.world M.key m2 ∧
      owed m1 p1.cumulative ≤ owed m2 p2.cumulative + totalIn env (takesPart env P.key m2) ⟨s.now, w2⟩ (es' ++ fs') +
        10 ^ 16 * (expiredCount m (midnight s.now) + 1) := by
  have hre : Reachable env s := ⟨s0, es0, hg, hr0.weaken fun _ _ h => h.clean⟩
  have hw := reachable_wf hre
  have hrt : RunsWith env (Orderly env P.key V) s0 (es0 ++ es) t1 := hr0.append (hr1.weaken fun _ _ h => h.1)
  have hret : Reachable env t1 := ⟨s0, _, hg, hrt.weaken fun _ _ h => h.clean⟩
  have hwt := reachable_wf hret
  have st2 : s.apply env (.ix accs (.depositMining a' l' o d)) = ⟨s.now, w2⟩ := apply_ix_ok h2
  have hre2 : Reachable env ⟨s.now, w2⟩ := by rw [← st2]; exact hre.step hs trivial
  have hrt2 : Reachable env t2 := hre2.runs (hr2.weaken fun _ _ h => h.1)
  obtain ⟨k', n', m, q2, m2, u', hmem, hq2, hm2, hbud, hcfg, hap, hwt2, hsfo, hcr, hlam, -⟩ :=
    deposit_changes hw hs hacc h2 hroom' hp
  have hwt2 := hwt2 hm
  have hpl2 : 0 < ((⟨s.now, w2⟩ : Chain).world P.key).lamports := by show 0 < (w2 _).lamports; rw [hlam]; exact hpl
  have hml2 : 0 < ((⟨s.now, w2⟩ : Chain).world M.key).lamports := by show 0 < (w2 _).lamports; rw [hlam]; exact hml
  -- the events in between
  obtain ⟨x1, x2, b1, b2, bl1, bl2, bn, bsch, bap⟩ := runs_apart (hr1.weaken fun _ _ h => ⟨h.1.clean, h.2.1⟩)
    (hr2.weaken fun _ _ h => ⟨h.1, h.2.1⟩) hal rfl hw (reachable_wf hre2) hp hq2 hpl hpl2
    (SameSchedule.budget ⟨rfl, rfl, rfl⟩ ⟨rfl, rfl, rfl, rfl⟩ hbud) hap
  have hnt : s.now ≤ t1.now := run_now_le hr1
  have len2 := runs_history (fun _ _ h => h.1) (reachable_wf hrt2) hf2 b2 bl2 hp2'
  -- the late deposit
  obtain ⟨k, n, m', y1, m1, u, hmem', hy1, hm1, hbud', hcfg', hap', hwt1, hsfo', hcr', hlam', -⟩ :=
    deposit_changes hwt hs hacc h1 hroom b1
  obtain ⟨sp1, sp2⟩ := spared_runs (fun _ _ h => h.2.2) hr1 hmem.1 hml
  obtain ⟨sq1, sq2⟩ := spared_runs (fun _ _ h => h.2.2) hr2 hm2.1 hml2
  obtain rfl := MiningAt.unique hmem'.1 sp1
  have hst := hord.2.stake (by rw [hacc]; rfl) M.key m' x1 (by rw [hacc]; rfl) hmem'.1 b1
  have hwt1 := hwt1 fun z k n hz ht => by rw [MiningAt.unique hz hmem'.1]; exact hst.2 k n ht
  have st1 : t1.apply env (.ix accs (.depositMining a l o d)) = ⟨t1.now, w1⟩ := apply_ix_ok h1
  have hro : RunsWith env (Orderly env P.key V) s0 (es0 ++ es ++ [.ix accs (.depositMining a l o d)]) ⟨t1.now, w1⟩ :=
    hrt.append (.cons hs hord (by rw [st1]; exact .nil _))
  have hre1 : Reachable env ⟨t1.now, w1⟩ := ⟨s0, _, hg, hro.weaken fun _ _ h => h.clean⟩
  have hlamw : ∀ k, ((⟨t1.now, w1⟩ : Chain).world k).lamports = (t1.world k).lamports := hlam'
  have len1 := runs_history (fun _ _ h => h.1.clean) (reachable_wf hre1) hf1 hy1 (by rw [hlamw]; exact bl1) hp1'
  rw [hbud'.2.2.2] at len1
  have hnf : (⟨t1.now, w1⟩ : Chain).now ≤ s1.now := run_now_le hf1
  have hnf : t1.now ≤ s1.now := hnf
  obtain ⟨v1, v2, v3, v4, v5, v6⟩ := C86_stake_partial hi hg hr0 hp hV hpl hml hs hacc h2 hself hm hroom' hr1 hr2 hal
    (by omega) b1 b2 (by omega) (by omega)
  obtain rfl := MiningAt.unique v5 hmem.1
  obtain rfl := MiningAt.unique v4 sq1
  -- the events afterwards
  have hh := (poolAt_good hwt b1).ok.history
  have hmo := (miningAt_ok hwt hmem'.1).1
  have hidx1 : indexBefore x1.cumulative t1.now ≤ x1.index :=
    Nat.le_trans (indexBefore_le_last hh _) (lastIndex_le (Nat.zero_le _) (poolAt_good hwt b1).ok.index)
  have hidx : indexBefore p.cumulative s.now ≤ p.index :=
    Nat.le_trans (indexBefore_le_last (poolAt_good hw hp).ok.history _)
      (lastIndex_le (Nat.zero_le _) (poolAt_good hw hp).ok.index)
  have ci := credited_index (poolAt_good hw hp).ok.history (miningAt_ok hw hmem.1).1 hcr
  have grow2 := runs_history (fun _ _ h => h.1) (reachable_wf hre2) hr2 hq2 hpl2 b2
  have hV1 := runs_config (fun _ _ h => h.1.clean) hw hr1 hp hpl b1
  have ow := (CreditedAs.owed hh hst.1 hmo hcr').1
  have hmid : midnight s.now ≤ midnight t1.now := by simp only [midnight]; omega
  obtain ⟨z1, z2, z3⟩ := compare_more hi (P := P.key) (M := M.key) (V := V)
    (r := totalIn env (takesPart env P.key v2) ⟨s.now, w2⟩ es' + 10 ^ 16 * (expiredCount v1 (midnight s.now) + 1))
    (c := fun x => stakeWeight a' k' (midnight s.now + 86400 * n') x - stakeWeight a k (midnight t1.now + 86400 * n) x) hg hro
    hrt2 bn hy1 b2 (by rw [hcfg'.2.2.2.1, hcfg'.2.2.2.2.1, hV1.1, hV1.2]; exact hV) (by rw [hlamw]; exact bl1) bl2
    (by rw [hlamw]; exact sp2) sq2 hm1 sq1
    (bsch.budget hbud' ⟨rfl, rfl, rfl, rfl⟩)
    (fun x hx => by
      have e1 := bap x hx
      have e2 := hap' x hx
      simp only [if_pos hself] at e1 e2
      dsimp only
      omega)
    (fun x hx => by have := hle k n k' n' u u' x hx; omega)
    (fun x hx => by
      rw [hwt1 x hx, hwt2 x (Nat.le_trans hmid hx)]; omega)
    (by rw [hsfo', hsfo])
    (by rw [hbud'.2.2.1, (credited_index hh hmo hcr').2]; exact hidx1)
    (by rw [hbud.2.2.1] at grow2; rw [ci.2]; omega)
    (by rw [hbud'.2.2.2]; omega) hf1 hf2 hal' hn hp1' hp2' hroom1 hroom2
  refine ⟨v1, m1, v2, v5, z1, z2, Nat.le_trans z3 ?_⟩
  rw [totalIn_append _ hr2]
  generalize 10 ^ 16 * (expiredCount v1 (midnight s.now) + 1) = R
  omega

/-- C98, for the others: let a history be continued in two ways with the same events (only what other programs do may differ).  In
the second a deposit (delegated or not) is made at once, in the first a deposit with the same accounts later, which weighs no more on
any day from then on.  A mining that does nothing meanwhile, other than the one of the deposit and its delegate, is in the end owed
at most as much in the second history as in the first. -/
theorem C98_others_partial {s t1 t2 s1 s2 : Chain} {es es' fs fs' : List Event}
    {accs rest : List AccountInfo} {P M A D : AccountInfo} {K : Key} {a a' : Nat} {l l' : LockupPeriod}
    {o d : Key} {w1 w2 : World} {r1 r2 : Option Nat} {p p1 p2 : Pool} {m : Mining} (hre : Reachable env s)
    (hp : PoolAt env s.world P.key p) (hpl : 0 < (s.world P.key).lamports) (hm : MiningAt env s.world K m)
    (hml : 0 < (s.world K).lamports) (hidx : m.index ≤ p.index) (hKM : K ≠ M.key) (hKD : K ≠ D.key)
    (hs : RealSigners accs) (hacc : accs = P :: M :: A :: D :: rest)
    -- the first history: the deposit comes after `es`
    (hr1 : RunsWith env (fun s e => CleanEvent env s e ∧ RoomInPool env P.key s e ∧ Spares K e) s es t1)
    (h1 : exec env t1.now t1.world accs (.depositMining a l o d) = .ok (w1, r1))
    (hroom : RoomInPool env P.key t1 (.ix accs (.depositMining a l o d)))
    (hf1 : RunsWith env (fun s e => CleanEvent env s e ∧ RoomInPool env P.key s e ∧ Spares K e) ⟨t1.now, w1⟩ fs s1)
    -- the second history: it comes before them
    (h2 : exec env s.now s.world accs (.depositMining a' l' o d) = .ok (w2, r2))
    (hroom' : RoomInPool env P.key s (.ix accs (.depositMining a' l' o d)))
    (hr2 : RunsWith env (fun s e => CleanEvent env s e ∧ RoomInPool env P.key s e ∧ Spares K e) ⟨s.now, w2⟩ es' t2)
    (hf2 : RunsWith env (fun s e => CleanEvent env s e ∧ RoomInPool env P.key s e ∧ Spares K e) t2 fs' s2)
    (hle : Outweighs t1.now a l s.now a' l')
    (hal : Alike env SameEvent s ⟨s.now, w2⟩ es es') (hal' : Alike env SameEvent ⟨t1.now, w1⟩ t2 fs fs')
    (hp1' : PoolAt env s1.world P.key p1) (hp2' : PoolAt env s2.world P.key p2)
    (hroom1 : p1.cumulative.length < env.caps.index) (hroom2 : p2.cumulative.length < env.caps.index) :
    MiningAt env s1.world K m ∧ MiningAt env s2.world K m ∧ owed m p2.cumulative ≤ owed m p1.cumulative := by
  have hw := reachable_wf hre
  have hret : Reachable env t1 := hre.runs (hr1.weaken fun _ _ h => h.1)
  have hwt := reachable_wf hret
  have st2 : s.apply env (.ix accs (.depositMining a' l' o d)) = ⟨s.now, w2⟩ := apply_ix_ok h2
  have hre2 : Reachable env ⟨s.now, w2⟩ := by rw [← st2]; exact hre.step hs trivial
  have hrt2 : Reachable env t2 := hre2.runs (hr2.weaken fun _ _ h => h.1)
  obtain ⟨k', n', -, q2, -, u', -, hq2, -, hbud, -, hap, -, -, -, hlam, hfr⟩ := deposit_changes hw hs hacc h2 hroom' hp
  have hKP : K ≠ P.key := by
    rintro rfl
    have := hm.2; rw [hp.2] at this; cases this
  have hm2 : MiningAt env w2 K m := (miningAt_congr (hfr K hKP hKM hKD)).mpr hm
  have hpl2 : 0 < ((⟨s.now, w2⟩ : Chain).world P.key).lamports := by show 0 < (w2 _).lamports; rw [hlam]; exact hpl
  have hml2 : 0 < ((⟨s.now, w2⟩ : Chain).world K).lamports := by show 0 < (w2 _).lamports; rw [hlam]; exact hml
  obtain ⟨x1, x2, b1, b2, bl1, bl2, bn, bsch, bap⟩ := runs_apart (hr1.weaken fun _ _ h => ⟨h.1, h.2.1⟩)
    (hr2.weaken fun _ _ h => ⟨h.1, h.2.1⟩) hal rfl hw (reachable_wf hre2) hp hq2 hpl hpl2
    (SameSchedule.budget ⟨rfl, rfl, rfl⟩ ⟨rfl, rfl, rfl, rfl⟩ hbud) hap
  have len2 := runs_history (fun _ _ h => h.1) (reachable_wf hrt2) hf2 b2 bl2 hp2'
  obtain ⟨k, n, -, y1, -, u, -, hy1, -, hbud', -, hap', -, -, -, hlam', hfr'⟩ := deposit_changes hwt hs hacc h1 hroom b1
  obtain ⟨sp1, sp2⟩ := spared_runs (fun _ _ h => h.2.2) hr1 hm hml
  obtain ⟨sq1, sq2⟩ := spared_runs (fun _ _ h => h.2.2) hr2 hm2 hml2
  have hm1 : MiningAt env w1 K m := (miningAt_congr (hfr' K hKP hKM hKD)).mpr sp1
  have st1 : t1.apply env (.ix accs (.depositMining a l o d)) = ⟨t1.now, w1⟩ := apply_ix_ok h1
  have hre1 : Reachable env ⟨t1.now, w1⟩ := by rw [← st1]; exact hret.step hs trivial
  have hlamw : ∀ k, ((⟨t1.now, w1⟩ : Chain).world k).lamports = (t1.world k).lamports := hlam'
  have len1 := runs_history (fun _ _ h => h.1) (reachable_wf hre1) hf1 hy1 (by rw [hlamw]; exact bl1) hp1'
  rw [hbud'.2.2.2] at len1
  have grow1 := runs_history (fun _ _ h => h.1) hw hr1 hp hpl b1
  have grow2 := runs_history (fun _ _ h => h.1) (reachable_wf hre2) hr2 hq2 hpl2 b2
  rw [hbud.2.2.1] at grow2
  have hmid : midnight s.now ≤ midnight t1.now := by have : s.now ≤ t1.now := run_now_le hr1; simp only [midnight]; omega
  have hnn : ∀ x, midnight t1.now ≤ x → stakeWeight a k (midnight t1.now + 86400 * n) x ≤
      stakeWeight a' k' (midnight s.now + 86400 * n') x := hle k n k' n' u u'
  have haa : a ≤ a' := by
    have := hnn (midnight t1.now + 86400 * n + 86400 * n') (by omega)
    unfold stakeWeight at this
    rw [if_neg (by omega), if_neg (by omega)] at this
    omega
  obtain ⟨-, -, hu⟩ := C87_stake_partial hre hp hpl hm hml hidx hKM hKD hs hacc h2 hroom' hr1 hr2 hal b1 b2 (by omega) (by omega)
  refine compare_others (c := fun x => (stakeWeight a' k' (midnight s.now + 86400 * n') x + if D.key = M.key then 0 else (a' : Int)) -
      (stakeWeight a k (midnight t1.now + 86400 * n) x + if D.key = M.key then 0 else (a : Int))) hre1 hrt2 bn hy1 b2
    (by rw [hlamw]; exact bl1) bl2 (by rw [hlamw]; exact sp2) sq2 hm1 sq1 (bsch.budget hbud' ⟨rfl, rfl, rfl, rfl⟩)
    (fun x hx => by
      have e1 := bap x hx
      have e2 := hap' x hx
      rw [e1, e2]; dsimp only; omega)
    (fun x hx => by have := hnn x hx; split <;> omega)
    (by rw [hbud'.2.2.1]; omega) (by omega) (by rw [hbud'.2.2.2]; exact hu) hf1 hf2 hal' hp1' hp2' hroom1 hroom2

/-- C99: let a history (orderly for the pool) be continued in two ways with the same events (only what other programs do may differ).
In the first, stake of a mining (not delegated) is withdrawn or slashed at once, in the second later, and then no more on any day from
then on, and not at midnight just after a distribution; otherwise the mining does nothing.  Then the mining is in the end owed at
least as much in the second history as in the first, except for roundings: 1/10^16 token per unit of its stake and distribution, and a
token for each of its expirations that the later withdrawal or slash processes and one more.  Missing for the full property: delegated
stake, histories that are not orderly, full tables (as for `C92_less_partial`). -/
theorem C99_later_partial (hi : env.PdaInjective) {s0 s t1 t2 s1 s2 : Chain} {es0 es es' fs fs' : List Event}
    {accs accs' : List AccountInfo} {i j : Ix} {P M V : Key} {w1 w2 : World} {r1 r2 : Option Nat} {p p1 p2 : Pool}
    (hg : Genesis env s0) (hr0 : RunsWith env (Orderly env P V) s0 es0 s)
    (hp : PoolAt env s.world P p) (hV : env.findVault P p.rewardMint = some (V, p.bump))
    (hpl : 0 < (s.world P).lamports) (hml : 0 < (s.world M).lamports)
    -- the first history: the stake is taken out before `es`
    (hs : RealSigners accs) (hi1 : takesStake i = true) (hiP : poolArg accs i = some P) (hiM : OnlyFrom M (.ix accs i))
    (h1 : exec env s.now s.world accs i = .ok (w1, r1)) (hord : Orderly env P V s (.ix accs i))
    (hr1 : RunsWith env (fun s e => Orderly env P V s e ∧ RoomInPool env P s e ∧ Spares M e) ⟨s.now, w1⟩ es t1)
    (hf1 : RunsWith env (fun s e => Orderly env P V s e ∧ RoomInPool env P s e ∧ Spares M e) t1 fs s1)
    -- the second history: it is taken out after them
    (hr2 : RunsWith env (fun s e => CleanEvent env s e ∧ RoomInPool env P s e ∧ Spares M e) s es' t2)
    (hs' : RealSigners accs') (hj1 : takesStake j = true) (hjP : poolArg accs' j = some P) (hjM : OnlyFrom M (.ix accs' j))
    (h2 : exec env t2.now t2.world accs' j = .ok (w2, r2))
    (hset : ∀ q, PoolAt env t2.world P q → Settled q.cumulative t2.now)
    (hf2 : RunsWith env (fun s e => CleanEvent env s e ∧ RoomInPool env P s e ∧ Spares M e) ⟨t2.now, w2⟩ fs' s2)
    (hle : TakesMore t2.now accs i accs' j)
    (hal : Alike env SameEvent ⟨s.now, w1⟩ s es es') (hal' : Alike env SameEvent t1 ⟨t2.now, w2⟩ fs fs')
    (hn : s1.now < 2 ^ 64) (hp1' : PoolAt env s1.world P p1) (hp2' : PoolAt env s2.world P p2)
    (hroom1 : p1.cumulative.length < env.caps.index) (hroom2 : p2.cumulative.length < env.caps.index) :
    ∃ m m1 m2, MiningAt env s.world M m ∧ MiningAt env s1.world M m1 ∧ MiningAt env s2.world M m2 ∧
      owed m1 p1.cumulative ≤ owed m2 p2.cumulative + totalIn env (takesPart env P m) s es' +
        totalIn env (takesPart env P m2) ⟨t2.now, w2⟩ fs' + 10 ^ 16 * (expiredCount m (midnight t2.now) + 1) := by
  have hre : Reachable env s := ⟨s0, es0, hg, hr0.weaken fun _ _ h => h.clean⟩
  have hw := reachable_wf hre
  have st1 : s.apply env (.ix accs i) = ⟨s.now, w1⟩ := apply_ix_ok h1
  have hro : RunsWith env (Orderly env P V) s0 (es0 ++ [.ix accs i]) ⟨s.now, w1⟩ :=
    hr0.append (.cons hs hord (by rw [st1]; exact .nil _))
  have hro1 := RunsWith.append hro (hr1.weaken fun _ _ h => h.1)
  have hre1 : Reachable env ⟨s.now, w1⟩ := ⟨s0, _, hg, hro.weaken fun _ _ h => h.clean⟩
  have hret1 : Reachable env t1 := hre1.runs (hr1.weaken fun _ _ h => h.1.clean)
  have hret2 : Reachable env t2 := hre.runs (hr2.weaken fun _ _ h => h.1)
  have hwt2 := reachable_wf hret2
  have st2 : t2.apply env (.ix accs' j) = ⟨t2.now, w2⟩ := apply_ix_ok h2
  have hcj : CleanEvent env t2 (.ix accs' j) := by cases j <;> first | exact trivial | cases hj1
  have hre2 : Reachable env ⟨t2.now, w2⟩ := by rw [← st2]; exact hret2.step hs' hcj
  -- the early withdrawal
  obtain ⟨M1, m, g, e1, hm, hg1, ⟨-, ⟨q1, c1, c2, c3, c4⟩, c5⟩, m1, hm1, hsfo1, hw1, hcr1⟩ := taken_exec hw hs hi1 hiP hp h1
  obtain ⟨f1, f2⟩ := hiM
  rw [e1] at f1; cases f1
  have hpl1 : 0 < ((⟨s.now, w1⟩ : Chain).world P).lamports := by rw [c5]; exact hpl
  have hml1 : 0 < ((⟨s.now, w1⟩ : Chain).world M).lamports := by rw [c5]; exact hml
  -- the events in between
  obtain ⟨x1, x2, b1, b2, bl1, bl2, bn, bsch, bap⟩ := runs_apart (δ := g) (hr1.weaken fun _ _ h => ⟨h.1.clean, h.2.1⟩)
    (hr2.weaken fun _ _ h => ⟨h.1, h.2.1⟩) hal rfl (reachable_wf hre1) hw c1 hp hpl1 hpl
    (SameSchedule.budget ⟨rfl, rfl, rfl⟩ c2 ⟨rfl, rfl, rfl, rfl⟩) (fun x hx => by rw [c4 x hx]; omega)
  have len1 := runs_history (fun _ _ h => h.1.clean) (reachable_wf hret1) hf1 b1 bl1 hp1'
  -- the late withdrawal
  obtain ⟨M2, m', g', e2, hm', hg2, ⟨-, ⟨y2, d1, d2, d3, d4⟩, d5⟩, m2, hm2, hsfo2, hw2, hcr2⟩ := taken_exec hwt2 hs' hj1 hjP b2 h2
  obtain ⟨k1, k2⟩ := hjM
  rw [e2] at k1; cases k1
  obtain ⟨sp1, sp2⟩ := spared_runs (fun _ _ h => h.2.2) hr2 hm.1 hml
  obtain ⟨sq1, sq2⟩ := spared_runs (fun _ _ h => h.2.2) hr1 hm1.1 hml1
  obtain rfl := MiningAt.unique hm'.1 sp1
  have len2 := runs_history (fun _ _ h => h.1) (reachable_wf hre2) hf2 d1 (by rw [d5]; exact bl2) hp2'
  rw [d2.2.2.2] at len2
  have hnt : s.now ≤ t2.now := run_now_le hr2
  have hnf : t1.now ≤ s1.now := run_now_le hf1
  obtain ⟨v1, v2, v3, v4, v6⟩ := C92_less_partial hi hg hr0 (e := .tick 0) hp hV hpl hml hs trivial hi1 hiP ⟨e1, f2⟩ h1 rfl
    trivial hord hr1 hr2 hal (by omega) b1 b2 (by omega) (by omega)
  obtain rfl := MiningAt.unique v3 sq1
  obtain rfl := MiningAt.unique v4 sp1
  -- the events afterwards
  have hh := (poolAt_good hwt2 b2).ok.history
  have hmo := (miningAt_ok hwt2 hm'.1).1
  have hhs := (poolAt_good hw hp).ok.history
  have hms := (miningAt_ok hw hm.1).1
  have hidx2 : indexBefore x2.cumulative t2.now ≤ x2.index :=
    Nat.le_trans (indexBefore_le_last hh _) (lastIndex_le (Nat.zero_le _) (poolAt_good hwt2 b2).ok.index)
  have hidx : indexBefore p.cumulative s.now ≤ p.index :=
    Nat.le_trans (indexBefore_le_last hhs _) (lastIndex_le (Nat.zero_le _) (poolAt_good hw hp).ok.index)
  have grow1 := runs_history (fun _ _ h => h.1.clean) (reachable_wf hre1) hr1 c1 hpl1 b1
  rw [c2.2.2.1] at grow1
  have hV1 := runs_config (fun _ _ h => h.1.clean) (reachable_wf hre1) hr1 c1 hpl1 b1
  have ow := (CreditedAs.owed hh (hset _ b2) hmo hcr2).2.1
  have hmid : midnight s.now ≤ midnight t2.now := by simp only [midnight]; omega
  have hgg := hle g g' hg1 hg2
  obtain ⟨z1, z2, z3⟩ := compare_more hi (P := P) (M := M) (V := V)
    (r := totalIn env (takesPart env P v2) s es' + 10 ^ 16 * (expiredCount v2 (midnight t2.now) + 1))
    (c := fun x => g x - g' x) hg hro1 hre2 bn b1 d1 (by rw [hV1.1, hV1.2, c3.2.2.2.1, c3.2.2.2.2.1]; exact hV)
    bl1 (by rw [d5]; exact bl2) sq2 (by rw [d5]; exact sp2) ⟨sq1, hm1.2⟩ hm2.1 (bsch.budget ⟨rfl, rfl, rfl, rfl⟩ d2)
    (fun x hx => by
      have e1 := bap x hx
      have e2 := d4 x (by rw [← bn]; exact hx)
      dsimp only
      omega)
    (fun x hx => by have := hgg x (by rw [← bn]; exact hx); omega)
    (fun x hx => by
      rw [bn] at hx
      have e1 := hw1 x (Nat.le_trans hmid hx)
      have e2 := hw2 x hx
      rw [← hg1.2 f2 x] at e1
      rw [← hg2.2 k2 x] at e2
      omega)
    (by rw [hsfo2, hsfo1])
    (by rw [(credited_index hhs hms hcr1).2]; omega)
    (by rw [d2.2.2.1, (credited_index hh hmo hcr2).2]; exact hidx2)
    (by
      rw [d2.2.2.2]
      generalize 10 ^ 16 * (expiredCount v2 (midnight t2.now) + 1) = R at *
      have v6 : owed v1 x1.cumulative ≤ owed v2 x2.cumulative + totalIn env (takesPart env P v2) s es' := v6
      omega) hf1 hf2 hal' hn hp1' hp2' hroom1 hroom2
  refine ⟨v2, v1, m2, hm.1, z1, z2, Nat.le_trans z3 ?_⟩
  generalize 10 ^ 16 * (expiredCount v2 (midnight t2.now) + 1) = R
  omega

/-- C99, for the others: let a history be continued in two ways with the same events (only what other programs do may differ).  In
the first, stake of a mining (delegated or not) is withdrawn or slashed at once, in the second later, and then no more from the
pool's total on any day from then on.  Another mining that does nothing meanwhile is in the end owed at least as much in the first
history as in the second. -/
theorem C99_others_partial {s t1 t2 s1 s2 : Chain} {es es' fs fs' : List Event}
    {accs accs' : List AccountInfo} {i j : Ix} {P K : Key} {w1 w2 : World} {r1 r2 : Option Nat} {p p1 p2 : Pool} {m : Mining}
    (hre : Reachable env s) (hp : PoolAt env s.world P p) (hpl : 0 < (s.world P).lamports) (hm : MiningAt env s.world K m)
    (hml : 0 < (s.world K).lamports) (hidx : m.index ≤ p.index)
    -- the first history: the stake is taken out before `es`
    (hs : RealSigners accs) (hi1 : takesStake i = true) (hiP : poolArg accs i = some P) (hiK : Spares K (.ix accs i))
    (h1 : exec env s.now s.world accs i = .ok (w1, r1))
    (hr1 : RunsWith env (fun s e => CleanEvent env s e ∧ RoomInPool env P s e ∧ Spares K e) ⟨s.now, w1⟩ es t1)
    (hf1 : RunsWith env (fun s e => CleanEvent env s e ∧ RoomInPool env P s e ∧ Spares K e) t1 fs s1)
    -- the second history: it is taken out after them
    (hr2 : RunsWith env (fun s e => CleanEvent env s e ∧ RoomInPool env P s e ∧ Spares K e) s es' t2)
    (hs' : RealSigners accs') (hj1 : takesStake j = true) (hjP : poolArg accs' j = some P) (hjK : Spares K (.ix accs' j))
    (h2 : exec env t2.now t2.world accs' j = .ok (w2, r2))
    (hf2 : RunsWith env (fun s e => CleanEvent env s e ∧ RoomInPool env P s e ∧ Spares K e) ⟨t2.now, w2⟩ fs' s2)
    (hle : TakesMore t2.now accs i accs' j)
    (hal : Alike env SameEvent ⟨s.now, w1⟩ s es es') (hal' : Alike env SameEvent t1 ⟨t2.now, w2⟩ fs fs')
    (hp1' : PoolAt env s1.world P p1) (hp2' : PoolAt env s2.world P p2)
    (hroom1 : p1.cumulative.length < env.caps.index) (hroom2 : p2.cumulative.length < env.caps.index) :
    MiningAt env s1.world K m ∧ MiningAt env s2.world K m ∧ owed m p2.cumulative ≤ owed m p1.cumulative := by
  have hw := reachable_wf hre
  have st1 : s.apply env (.ix accs i) = ⟨s.now, w1⟩ := apply_ix_ok h1
  have hci : CleanEvent env s (.ix accs i) := by cases i <;> first | exact trivial | cases hi1
  have hre1 : Reachable env ⟨s.now, w1⟩ := by rw [← st1]; exact hre.step hs hci
  have hret1 : Reachable env t1 := hre1.runs (hr1.weaken fun _ _ h => h.1)
  have hret2 : Reachable env t2 := hre.runs (hr2.weaken fun _ _ h => h.1)
  have hwt2 := reachable_wf hret2
  have st2 : t2.apply env (.ix accs' j) = ⟨t2.now, w2⟩ := apply_ix_ok h2
  have hcj : CleanEvent env t2 (.ix accs' j) := by cases j <;> first | exact trivial | cases hj1
  have hre2 : Reachable env ⟨t2.now, w2⟩ := by rw [← st2]; exact hret2.step hs' hcj
  obtain ⟨-, -, g, -, -, hg1, ⟨-, ⟨q1, c1, c2, c3, c4⟩, c5⟩, -⟩ := taken_exec hw hs hi1 hiP hp h1
  have hpl1 : 0 < ((⟨s.now, w1⟩ : Chain).world P).lamports := by rw [c5]; exact hpl
  obtain ⟨sa1, sa2⟩ := spared_apply (s := s) (e := .ix accs i) hs hiK hm hml
  rw [st1] at sa1 sa2
  obtain ⟨x1, x2, b1, b2, bl1, bl2, bn, bsch, bap⟩ := runs_apart (δ := g) (hr1.weaken fun _ _ h => ⟨h.1, h.2.1⟩)
    (hr2.weaken fun _ _ h => ⟨h.1, h.2.1⟩) hal rfl (reachable_wf hre1) hw c1 hp hpl1 hpl
    (SameSchedule.budget ⟨rfl, rfl, rfl⟩ c2 ⟨rfl, rfl, rfl, rfl⟩) (fun x hx => by rw [c4 x hx]; omega)
  have len1 := runs_history (fun _ _ h => h.1) (reachable_wf hret1) hf1 b1 bl1 hp1'
  obtain ⟨-, -, g', -, -, hg2, ⟨-, ⟨y2, d1, d2, d3, d4⟩, d5⟩, -⟩ := taken_exec hwt2 hs' hj1 hjP b2 h2
  have len2 := runs_history (fun _ _ h => h.1) (reachable_wf hre2) hf2 d1 (by rw [d5]; exact bl2) hp2'
  rw [d2.2.2.2] at len2
  obtain ⟨sp1, sp2⟩ := spared_runs (fun _ _ h => h.2.2) hr2 hm hml
  obtain ⟨sq1, sq2⟩ := spared_runs (fun _ _ h => h.2.2) hr1 sa1 sa2
  obtain ⟨sb1, sb2⟩ := spared_apply (s := t2) (e := .ix accs' j) hs' hjK sp1 sp2
  rw [st2] at sb1 sb2
  obtain ⟨-, -, hu⟩ := C93_others_partial hre (e := .tick 0) hp hpl hm hml hidx hs trivial hi1 hiP h1 rfl hiK trivial hr1 hr2 hal
    b1 b2 (by omega) (by omega)
  have grow1 := runs_history (fun _ _ h => h.1) (reachable_wf hre1) hr1 c1 hpl1 b1
  have grow2 := runs_history (fun _ _ h => h.1) hw hr2 hp hpl b2
  rw [c2.2.2.1] at grow1
  have hgg := hle g g' hg1 hg2
  exact compare_others (c := fun x => g x - g' x) hret1 hre2 bn b1 d1 bl1 (by rw [d5]; exact bl2) sq2 sb2 sq1 sb1
    (bsch.budget ⟨rfl, rfl, rfl, rfl⟩ d2)
    (fun x hx => by
      have e1 := bap x hx
      have e2 := d4 x (by rw [← bn]; exact hx)
      dsimp only
      omega)
    (fun x hx => by have := hgg x (by rw [← bn]; exact hx); omega)
    (by omega) (by rw [d2.2.2.1]; omega) (by rw [d2.2.2.2]; exact hu) hf1 hf2 hal' hp1' hp2' hroom1 hroom2

end

section Examples
open Demo

/-- Two histories with the same events: an instruction after the first part of them, or another before it. -/
theorem late_and_early {c c' : Chain → Event → Bool} {C C' : Chain → Event → Prop}
    (hC : ∀ s e, c s e = true → e.Valid Demo.env s ∧ C s e) (hC' : ∀ s e, c' s e = true → e.Valid Demo.env s ∧ C' s e)
    (hok : ∀ s e, c s e = true → okEvent s e = true) (hok' : ∀ s e, c' s e = true → okEvent s e = true) {s : Chain}
    {accs accs' : List AccountInfo} {i j : Ix} {es fs : List Event} (c1 : allPass c s es = true)
    (o1 : okEvent (endOf s es) (.ix accs i) = true) (c2 : allPass c ((endOf s es).apply Demo.env (.ix accs i)) fs = true)
    (o2 : okEvent s (.ix accs' j) = true) (c3 : allPass c' (s.apply Demo.env (.ix accs' j)) es = true)
    (c4 : allPass c' (endOf (s.apply Demo.env (.ix accs' j)) es) fs = true) :
    ∃ w1 r1 w2 r2, exec Demo.env (endOf s es).now (endOf s es).world accs i = .ok (w1, r1) ∧
      exec Demo.env s.now s.world accs' j = .ok (w2, r2) ∧
      RunsWith Demo.env C s es (endOf s es) ∧
      RunsWith Demo.env C ⟨(endOf s es).now, w1⟩ fs (endOf ((endOf s es).apply Demo.env (.ix accs i)) fs) ∧
      RunsWith Demo.env C' ⟨s.now, w2⟩ es (endOf (s.apply Demo.env (.ix accs' j)) es) ∧
      RunsWith Demo.env C' (endOf (s.apply Demo.env (.ix accs' j)) es) fs
        (endOf (endOf (s.apply Demo.env (.ix accs' j)) es) fs) ∧
      Alike Demo.env SameEvent s ⟨s.now, w2⟩ es es ∧
      Alike Demo.env SameEvent ⟨(endOf s es).now, w1⟩ (endOf (s.apply Demo.env (.ix accs' j)) es) fs fs := by
  obtain ⟨r1, h1⟩ := exec_of_ok o1
  obtain ⟨r2, h2⟩ := exec_of_ok o2
  refine ⟨_, r1, _, r2, h1, h2, allPass_sound hC c1, ?_, ?_, allPass_sound hC' c4, ?_, ?_⟩
  · rw [← apply_eta h1]; exact allPass_sound hC c2
  · rw [← apply_eta h2]; exact allPass_sound hC' c3
  · rw [← apply_eta h2]; exact allPass_alike hok hok' c1 c3
  · rw [← apply_eta h1]; exact allPass_alike hok hok' c2 c4

/-- Two days, and what follows. -/
def twoDays : List Event :=
  [.tick DAY, distribute 100, .tick 10, deposit 100 121 700 .threeMonths 121, withdraw 100 121 100 121, .tick DAY]
def thereafter : List Event := [distribute 100, claim 100 121 131, .tick (10 * DAY), distribute 100]

/-- The two histories of a case: user 120 does `late` after two days, or `early` at once. -/
def lateEnd (s : Chain) (late : Event) : Chain := endOf ((endOf s twoDays).apply Demo.env late) thereafter
def earlyEnd (s : Chain) (early : Event) : Chain := endOf (endOf (s.apply Demo.env early) twoDays) thereafter

def comparedB (k : Key) (f : Mining → Pool → Mining → Pool → Bool) (s1 s2 : Chain) : Bool :=
  hasPool s1.world 100 (fun p1 => hasPool s2.world 100 (fun p2 => hasMining s1.world k (fun m1 => hasMining s2.world k (fun m2 =>
    decide (p1.cumulative.length < Demo.env.caps.index) && decide (p2.cumulative.length < Demo.env.caps.index) && f m1 p1 m2 p2))))

/-- All hypotheses of `C98_earlier_partial` hold when user 120 deposits 1000 tokens without a lock-up period after two days or
at once; the early deposit earns more. -/
example : ∃ w1 r1 w2 r2, Genesis Demo.env s0 ∧
    (∃ es0, RunsWith Demo.env (Orderly Demo.env 100 (vaultOf 100 101)) s0 es0 beforeChoice) ∧
    exec Demo.env (endOf beforeChoice twoDays).now (endOf beforeChoice twoDays).world choiceAccs (.depositMining 1000 .flex 120 120) =
      .ok (w1, r1) ∧
    exec Demo.env beforeChoice.now beforeChoice.world choiceAccs (.depositMining 1000 .flex 120 120) = .ok (w2, r2) ∧
    RunsWith Demo.env (fun s e => Orderly Demo.env 100 (vaultOf 100 101) s e ∧ RoomInPool Demo.env 100 s e ∧
      Spares (mine 120 100) e) beforeChoice twoDays (endOf beforeChoice twoDays) ∧
    Orderly Demo.env 100 (vaultOf 100 101) (endOf beforeChoice twoDays) (deposit 100 120 1000 .flex 120) ∧
    RoomInPool Demo.env 100 (endOf beforeChoice twoDays) (deposit 100 120 1000 .flex 120) ∧
    RunsWith Demo.env (fun s e => Orderly Demo.env 100 (vaultOf 100 101) s e ∧ RoomInPool Demo.env 100 s e ∧
      Spares (mine 120 100) e) ⟨(endOf beforeChoice twoDays).now, w1⟩ thereafter
        (lateEnd beforeChoice (deposit 100 120 1000 .flex 120)) ∧
    RoomInMining Demo.env (mine 120 100) beforeChoice .flex ∧
    RoomInPool Demo.env 100 beforeChoice (deposit 100 120 1000 .flex 120) ∧
    RunsWith Demo.env (fun s e => CleanEvent Demo.env s e ∧ RoomInPool Demo.env 100 s e ∧ Spares (mine 120 100) e)
      ⟨beforeChoice.now, w2⟩ twoDays (endOf (beforeChoice.apply Demo.env (deposit 100 120 1000 .flex 120)) twoDays) ∧
    RunsWith Demo.env (fun s e => CleanEvent Demo.env s e ∧ RoomInPool Demo.env 100 s e ∧ Spares (mine 120 100) e)
      (endOf (beforeChoice.apply Demo.env (deposit 100 120 1000 .flex 120)) twoDays) thereafter
      (earlyEnd beforeChoice (deposit 100 120 1000 .flex 120)) ∧
    Outweighs (endOf beforeChoice twoDays).now 1000 .flex beforeChoice.now 1000 .flex ∧
    Alike Demo.env SameEvent beforeChoice ⟨beforeChoice.now, w2⟩ twoDays twoDays ∧
    Alike Demo.env SameEvent ⟨(endOf beforeChoice twoDays).now, w1⟩
      (endOf (beforeChoice.apply Demo.env (deposit 100 120 1000 .flex 120)) twoDays) thereafter thereafter ∧
    (lateEnd beforeChoice (deposit 100 120 1000 .flex 120)).now < 2 ^ 64 ∧
    comparedB (mine 120 100) (fun m1 p1 m2 p2 => decide (owed m1 p1.cumulative + 10 ^ 16 < owed m2 p2.cumulative))
      (lateEnd beforeChoice (deposit 100 120 1000 .flex 120)) (earlyEnd beforeChoice (deposit 100 120 1000 .flex 120)) = true := by
  obtain ⟨w1, r1, w2, r2, h1, h2, h3, h4, h5, h6, h7, h8⟩ := late_and_early (s := beforeChoice) (es := twoDays) (fs := thereafter)
    (accs := choiceAccs) (accs' := choiceAccs) (i := .depositMining 1000 .flex 120 120) (j := .depositMining 1000 .flex 120 120)
    (tidyB_sound (P := 100) (V := vaultOf 100 101) (k := mine 120 100)) (cleanB_sound (P := 100) (k := mine 120 100))
    tidyB_ok cleanB_ok (by decide +kernel) (by decide +kernel) (by decide +kernel) (by decide +kernel) (by decide +kernel)
    (by decide +kernel)
  refine ⟨w1, r1, w2, r2, s0_genesis, ⟨_, orderlyRun_eq (by decide +kernel)⟩, h1, h2, h3, (orderlyB_sound (by decide +kernel)).2,
    roomInPoolB_sound (by decide +kernel), h4, roomInMiningB_sound (by decide +kernel), roomInPoolB_sound (by decide +kernel), h5, h6,
    ?_, h7, h8, by decide +kernel, by decide +kernel⟩
  intro k n k' n' e1 e2 x _
  cases e1; cases e2
  simp [stakeWeight]

/-- A longer period, begun earlier, outweighs a shorter one. -/
example : Outweighs (day0 + 86400 * 80) 900 .threeMonths day0 1000 .sixMonths := by
  intro k n k' n' e1 e2 x hx
  cases e1; cases e2
  simp only [stakeWeight, midnight, day0] at *
  omega

/-- All hypotheses of `C98_others_partial` hold for user 122 when user 120 deposits 5000 tokens on a delegate for a year at once, or
4000 after two days without a lock-up period; the early deposit costs user 122 something. -/
example : ∃ w1 r1 w2 r2, Reachable Demo.env beforeThree ∧
    exec Demo.env (endOf beforeThree twoDays).now (endOf beforeThree twoDays).world choiceAccs' (.depositMining 4000 .flex 120 121) =
      .ok (w1, r1) ∧
    exec Demo.env beforeThree.now beforeThree.world choiceAccs' (.depositMining 5000 .oneYear 120 121) = .ok (w2, r2) ∧
    RunsWith Demo.env (fun s e => CleanEvent Demo.env s e ∧ RoomInPool Demo.env 100 s e ∧ Spares (mine 122 100) e) beforeThree
      twoDays (endOf beforeThree twoDays) ∧
    RoomInPool Demo.env 100 (endOf beforeThree twoDays) (deposit 100 120 4000 .flex 121) ∧
    RunsWith Demo.env (fun s e => CleanEvent Demo.env s e ∧ RoomInPool Demo.env 100 s e ∧ Spares (mine 122 100) e)
      ⟨(endOf beforeThree twoDays).now, w1⟩ thereafter (lateEnd beforeThree (deposit 100 120 4000 .flex 121)) ∧
    RoomInPool Demo.env 100 beforeThree (deposit 100 120 5000 .oneYear 121) ∧
    RunsWith Demo.env (fun s e => CleanEvent Demo.env s e ∧ RoomInPool Demo.env 100 s e ∧ Spares (mine 122 100) e)
      ⟨beforeThree.now, w2⟩ twoDays (endOf (beforeThree.apply Demo.env (deposit 100 120 5000 .oneYear 121)) twoDays) ∧
    RunsWith Demo.env (fun s e => CleanEvent Demo.env s e ∧ RoomInPool Demo.env 100 s e ∧ Spares (mine 122 100) e)
      (endOf (beforeThree.apply Demo.env (deposit 100 120 5000 .oneYear 121)) twoDays) thereafter
      (earlyEnd beforeThree (deposit 100 120 5000 .oneYear 121)) ∧
    Outweighs (endOf beforeThree twoDays).now 4000 .flex beforeThree.now 5000 .oneYear ∧
    Alike Demo.env SameEvent beforeThree ⟨beforeThree.now, w2⟩ twoDays twoDays ∧
    Alike Demo.env SameEvent ⟨(endOf beforeThree twoDays).now, w1⟩
      (endOf (beforeThree.apply Demo.env (deposit 100 120 5000 .oneYear 121)) twoDays) thereafter thereafter ∧
    comparedB (mine 122 100) (fun m1 p1 m2 p2 => decide (m1 = m2 ∧ owed m2 p2.cumulative + 10 ^ 16 < owed m1 p1.cumulative))
      (lateEnd beforeThree (deposit 100 120 4000 .flex 121)) (earlyEnd beforeThree (deposit 100 120 5000 .oneYear 121)) = true := by
  obtain ⟨w1, r1, w2, r2, h1, h2, h3, h4, h5, h6, h7, h8⟩ := late_and_early (s := beforeThree) (es := twoDays) (fs := thereafter)
    (accs := choiceAccs') (accs' := choiceAccs') (i := .depositMining 4000 .flex 120 121) (j := .depositMining 5000 .oneYear 120 121)
    (cleanB_sound (P := 100) (k := mine 122 100)) (cleanB_sound (P := 100) (k := mine 122 100))
    cleanB_ok cleanB_ok (by decide +kernel) (by decide +kernel) (by decide +kernel) (by decide +kernel) (by decide +kernel)
    (by decide +kernel)
  refine ⟨w1, r1, w2, r2, after_reachable (by decide +kernel), h1, h2, h3, roomInPoolB_sound (by decide +kernel), h4,
    roomInPoolB_sound (by decide +kernel), h5, h6, ?_, h7, h8, by decide +kernel⟩
  intro k n k' n' e1 e2 x _
  cases e1; cases e2
  simp only [stakeWeight]
  split <;> split <;> omega

theorem takesMore_of {now : Nat} {accs accs' : List AccountInfo} {i j : Ix} (h3 : ¬ Delegated accs i) (h4 : ¬ Delegated accs' j)
    (h5 : ∀ x, takenOn j x ≤ takenOn i x) : TakesMore now accs i accs' j :=
  fun f g hf hg x _ => by rw [hf.2 h3, hg.2 h4]; exact h5 x

theorem takesMore_delegated {now : Nat} {accs accs' : List AccountInfo} {i j : Ix} (h3 : Delegated accs i) (h4 : Delegated accs' j)
    (h5 : ∀ x, takenOn j x ≤ takenOn i x) : TakesMore now accs i accs' j :=
  fun f g hf hg x _ => by rw [hf.1 h3, hg.1 h4]; have := h5 x; omega

/-- All hypotheses of `C99_later_partial` hold when user 120 withdraws 300 tokens at once, or 200 are slashed after two days; the early
withdrawal costs something. -/
example : ∃ w1 r1 w2 r2, Genesis Demo.env s0 ∧
    (∃ es0, RunsWith Demo.env (Orderly Demo.env 100 (vaultOf 100 101)) s0 es0 beforeChoice) ∧
    exec Demo.env beforeChoice.now beforeChoice.world choiceAccs (.withdrawMining 300 120 120) = .ok (w1, r1) ∧
    OnlyFrom (mine 120 100) (withdraw 100 120 300 120) ∧
    Orderly Demo.env 100 (vaultOf 100 101) beforeChoice (withdraw 100 120 300 120) ∧
    RunsWith Demo.env (fun s e => Orderly Demo.env 100 (vaultOf 100 101) s e ∧ RoomInPool Demo.env 100 s e ∧
      Spares (mine 120 100) e) ⟨beforeChoice.now, w1⟩ twoDays
      (endOf (beforeChoice.apply Demo.env (withdraw 100 120 300 120)) twoDays) ∧
    RunsWith Demo.env (fun s e => Orderly Demo.env 100 (vaultOf 100 101) s e ∧ RoomInPool Demo.env 100 s e ∧
      Spares (mine 120 100) e) (endOf (beforeChoice.apply Demo.env (withdraw 100 120 300 120)) twoDays) thereafter
      (earlyEnd beforeChoice (withdraw 100 120 300 120)) ∧
    RunsWith Demo.env (fun s e => CleanEvent Demo.env s e ∧ RoomInPool Demo.env 100 s e ∧ Spares (mine 120 100) e) beforeChoice
      twoDays (endOf beforeChoice twoDays) ∧
    exec Demo.env (endOf beforeChoice twoDays).now (endOf beforeChoice twoDays).world [S 110, W 100, W (mine 120 100)]
      (.slash 120 200 200 none) = .ok (w2, r2) ∧
    OnlyFrom (mine 120 100) (slash 100 120 200 200 none) ∧
    (∀ q, PoolAt Demo.env (endOf beforeChoice twoDays).world 100 q → Settled q.cumulative (endOf beforeChoice twoDays).now) ∧
    RunsWith Demo.env (fun s e => CleanEvent Demo.env s e ∧ RoomInPool Demo.env 100 s e ∧ Spares (mine 120 100) e)
      ⟨(endOf beforeChoice twoDays).now, w2⟩ thereafter (lateEnd beforeChoice (slash 100 120 200 200 none)) ∧
    TakesMore (endOf beforeChoice twoDays).now choiceAccs (.withdrawMining 300 120 120) [S 110, W 100, W (mine 120 100)]
      (.slash 120 200 200 none) ∧
    Alike Demo.env SameEvent ⟨beforeChoice.now, w1⟩ beforeChoice twoDays twoDays ∧
    Alike Demo.env SameEvent (endOf (beforeChoice.apply Demo.env (withdraw 100 120 300 120)) twoDays)
      ⟨(endOf beforeChoice twoDays).now, w2⟩ thereafter thereafter ∧
    (earlyEnd beforeChoice (withdraw 100 120 300 120)).now < 2 ^ 64 ∧
    comparedB (mine 120 100) (fun m1 p1 m2 p2 => decide (owed m1 p1.cumulative + 10 ^ 16 < owed m2 p2.cumulative))
      (earlyEnd beforeChoice (withdraw 100 120 300 120)) (lateEnd beforeChoice (slash 100 120 200 200 none)) = true := by
  obtain ⟨w2, r2, w1, r1, h1, h2, h3, h4, h5, h6, h7, h8⟩ := late_and_early (s := beforeChoice) (es := twoDays) (fs := thereafter)
    (accs := [S 110, W 100, W (mine 120 100)]) (accs' := choiceAccs) (i := .slash 120 200 200 none)
    (j := .withdrawMining 300 120 120) (cleanB_sound (P := 100) (k := mine 120 100))
    (tidyB_sound (P := 100) (V := vaultOf 100 101) (k := mine 120 100)) cleanB_ok tidyB_ok (by decide +kernel) (by decide +kernel)
    (by decide +kernel) (by decide +kernel) (by decide +kernel) (by decide +kernel)
  refine ⟨w1, r1, w2, r2, s0_genesis, ⟨_, orderlyRun_eq (by decide +kernel)⟩, h2, ⟨rfl, withdraw_undelegated⟩,
    (orderlyB_sound (by decide +kernel)).2, h5, h6, h3, h1, ⟨rfl, slash_undelegated⟩, ?_, h4,
    takesMore_of withdraw_undelegated slash_undelegated fun x => (by show (200 : Int) ≤ 300; decide), h7.symm, h8.symm,
    by decide +kernel, by decide +kernel⟩
  intro q hq
  obtain ⟨q', hq', hb⟩ := hasPool_sound (w := (endOf beforeChoice twoDays).world) (k := 100)
    (f := fun q => q.cumulative.all fun e => decide (e.1 < (endOf beforeChoice twoDays).now)) (by decide +kernel)
  rw [PoolAt.unique hq hq']
  exact fun e he => of_decide_eq_true (List.all_eq_true.mp hb e he)

/-- All hypotheses of `C99_others_partial` hold for user 122 when user 120 takes 600 delegated tokens back at once or 500 after two
days; the early withdrawal is of use to user 122. -/
example : ∃ w1 r1 w2 r2, Reachable Demo.env beforeTaking ∧
    exec Demo.env beforeTaking.now beforeTaking.world choiceAccs' (.withdrawMining 600 120 121) = .ok (w1, r1) ∧
    Spares (mine 122 100) (withdraw 100 120 600 121) ∧
    RunsWith Demo.env (fun s e => CleanEvent Demo.env s e ∧ RoomInPool Demo.env 100 s e ∧ Spares (mine 122 100) e)
      ⟨beforeTaking.now, w1⟩ twoDays (endOf (beforeTaking.apply Demo.env (withdraw 100 120 600 121)) twoDays) ∧
    RunsWith Demo.env (fun s e => CleanEvent Demo.env s e ∧ RoomInPool Demo.env 100 s e ∧ Spares (mine 122 100) e)
      (endOf (beforeTaking.apply Demo.env (withdraw 100 120 600 121)) twoDays) thereafter
      (earlyEnd beforeTaking (withdraw 100 120 600 121)) ∧
    RunsWith Demo.env (fun s e => CleanEvent Demo.env s e ∧ RoomInPool Demo.env 100 s e ∧ Spares (mine 122 100) e) beforeTaking
      twoDays (endOf beforeTaking twoDays) ∧
    exec Demo.env (endOf beforeTaking twoDays).now (endOf beforeTaking twoDays).world choiceAccs' (.withdrawMining 500 120 121) =
      .ok (w2, r2) ∧
    Spares (mine 122 100) (withdraw 100 120 500 121) ∧
    RunsWith Demo.env (fun s e => CleanEvent Demo.env s e ∧ RoomInPool Demo.env 100 s e ∧ Spares (mine 122 100) e)
      ⟨(endOf beforeTaking twoDays).now, w2⟩ thereafter (lateEnd beforeTaking (withdraw 100 120 500 121)) ∧
    TakesMore (endOf beforeTaking twoDays).now choiceAccs' (.withdrawMining 600 120 121) choiceAccs' (.withdrawMining 500 120 121) ∧
    Alike Demo.env SameEvent ⟨beforeTaking.now, w1⟩ beforeTaking twoDays twoDays ∧
    Alike Demo.env SameEvent (endOf (beforeTaking.apply Demo.env (withdraw 100 120 600 121)) twoDays)
      ⟨(endOf beforeTaking twoDays).now, w2⟩ thereafter thereafter ∧
    comparedB (mine 122 100) (fun m1 p1 m2 p2 => decide (m1 = m2 ∧ owed m2 p2.cumulative + 10 ^ 16 < owed m1 p1.cumulative))
      (earlyEnd beforeTaking (withdraw 100 120 600 121)) (lateEnd beforeTaking (withdraw 100 120 500 121)) = true := by
  obtain ⟨w2, r2, w1, r1, h1, h2, h3, h4, h5, h6, h7, h8⟩ := late_and_early (s := beforeTaking) (es := twoDays) (fs := thereafter)
    (accs := choiceAccs') (accs' := choiceAccs') (i := .withdrawMining 500 120 121)
    (j := .withdrawMining 600 120 121) (cleanB_sound (P := 100) (k := mine 122 100)) (cleanB_sound (P := 100) (k := mine 122 100))
    cleanB_ok cleanB_ok (by decide +kernel) (by decide +kernel)
    (by decide +kernel) (by decide +kernel) (by decide +kernel) (by decide +kernel)
  exact ⟨w1, r1, w2, r2, after_reachable (by decide +kernel), h2, sparesOneB_sound (by decide +kernel), h5, h6, h3, h1,
    sparesOneB_sound (by decide +kernel), h4,
    takesMore_delegated ⟨mine 121 100, rfl, by decide⟩ ⟨mine 121 100, rfl, by decide⟩ fun x => (by show (500 : Int) ≤ 600; decide),
    h7.symm, h8.symm, by decide +kernel⟩

/-- C98 is false for delegated deposits (as `C86_more_partial` is, see `C86_delegated_false`): user 120, the only staker, with 1000
tokens, puts 1000 more on a delegate before a distribution instead of after it, and is owed more than 300 tokens less. -/
theorem C98_delegated_false : ∃ s1 s2 p1 p2 m1 m2,
    RunsWith Demo.env (CleanEvent Demo.env) s0 (delegatedBefore ++ [distribute 100, deposit 100 120 1000 .flex 121]) s1 ∧
    RunsWith Demo.env (CleanEvent Demo.env) s0 (delegatedBefore ++ [deposit 100 120 1000 .flex 121, distribute 100]) s2 ∧
    PoolAt Demo.env s1.world 100 p1 ∧ PoolAt Demo.env s2.world 100 p2 ∧ MiningAt Demo.env s1.world (mine 120 100) m1 ∧
    MiningAt Demo.env s2.world (mine 120 100) m2 ∧
    owed m2 p2.cumulative + 10 ^ 16 * 300 < owed m1 p1.cumulative := by
  let s1 := (run s0 (delegatedBefore ++ [distribute 100, deposit 100 120 1000 .flex 121])).getD s0
  let s2 := (run s0 (delegatedBefore ++ [deposit 100 120 1000 .flex 121, distribute 100])).getD s0
  have h : hasPool s1.world 100 (fun p1 => hasPool s2.world 100 (fun p2 => hasMining s1.world (mine 120 100) (fun m1 =>
      hasMining s2.world (mine 120 100) (fun m2 =>
        decide (owed m2 p2.cumulative + 10 ^ 16 * 300 < owed m1 p1.cumulative))))) = true := by decide +kernel
  obtain ⟨p1, hp1, h⟩ := hasPool_sound h
  obtain ⟨p2, hp2, h⟩ := hasPool_sound h
  obtain ⟨m1, hm1, h⟩ := hasMining_sound h
  obtain ⟨m2, hm2, h⟩ := hasMining_sound h
  exact ⟨s1, s2, p1, p2, m1, m2, run_sound (run_eq (by decide +kernel)), run_sound (run_eq (by decide +kernel)), hp1, hp2,
    hm1, hm2, of_decide_eq_true h⟩

/-- C99 is false for delegated stake (as `C92_less_partial` is, see `C92_delegated_false`): user 120, the only staker, with 1000
tokens of their own and 1000 on a delegate, takes the latter back before a distribution instead of after it, and is owed more
than 300 tokens more. -/
theorem C99_delegated_false : ∃ s1 s2 p1 p2 m1 m2,
    RunsWith Demo.env (CleanEvent Demo.env) s0 (delegatedBefore ++ [deposit 100 120 1000 .flex 121, withdraw 100 120 1000 121,
      distribute 100]) s1 ∧
    RunsWith Demo.env (CleanEvent Demo.env) s0 (delegatedBefore ++ [deposit 100 120 1000 .flex 121, distribute 100,
      withdraw 100 120 1000 121]) s2 ∧
    PoolAt Demo.env s1.world 100 p1 ∧ PoolAt Demo.env s2.world 100 p2 ∧ MiningAt Demo.env s1.world (mine 120 100) m1 ∧
    MiningAt Demo.env s2.world (mine 120 100) m2 ∧
    owed m2 p2.cumulative + 10 ^ 16 * 300 < owed m1 p1.cumulative := by
  let s1 := (run s0 (delegatedBefore ++ [deposit 100 120 1000 .flex 121, withdraw 100 120 1000 121, distribute 100])).getD s0
  let s2 := (run s0 (delegatedBefore ++ [deposit 100 120 1000 .flex 121, distribute 100, withdraw 100 120 1000 121])).getD s0
  have h : hasPool s1.world 100 (fun p1 => hasPool s2.world 100 (fun p2 => hasMining s1.world (mine 120 100) (fun m1 =>
      hasMining s2.world (mine 120 100) (fun m2 =>
        decide (owed m2 p2.cumulative + 10 ^ 16 * 300 < owed m1 p1.cumulative))))) = true := by decide +kernel
  obtain ⟨p1, hp1, h⟩ := hasPool_sound h
  obtain ⟨p2, hp2, h⟩ := hasPool_sound h
  obtain ⟨m1, hm1, h⟩ := hasMining_sound h
  obtain ⟨m2, hm2, h⟩ := hasMining_sound h
  exact ⟨s1, s2, p1, p2, m1, m2, run_sound (run_eq (by decide +kernel)), run_sound (run_eq (by decide +kernel)), hp1, hp2,
    hm1, hm2, of_decide_eq_true h⟩

end Examples

end Verif
