import Verif.Lemmas.WorldEffects
import Verif.Lemmas.DemoExec
import Verif.Lemmas.Decrease
/-!
Stake operations: deposit (C17), lost expirations (C18), the None lockup (C19), withdraw (C20), slash (C21),
extend (C22), change of delegate (C23), decrease-rewards penalty (C24).

All statements are about a successful instruction `exec … = .ok` in any well-formed state (every reachable state is
well-formed: `reachable_wf`) with any account list in which no signer is the all-zero address.
-/

namespace Verif

open Spec

variable {env : Env}

/-- C17. A deposit of `a` for a period with multiplier `k` and `n` days, in any well-formed state: on every day from
today on, the depositor's weighted stake and the pool's total grow by `a*k` before the expiry day and by `a` from then
on; the delegate's delegated stake (and once more the pool's total) grows by `a`; nothing else about anybody's stake
changes (about the rewards see C04 and C124).  The conditions `HasRoom` say that the expiration tables of pool and mining are not full (see `C18`). -/
theorem C17_deposit {now : Nat} {w w' : World} {accs : List AccountInfo} {a : Nat} {per : LockupPeriod}
    {owner delegate : Key} {ret : Option Nat} (hw : Wf env now w) (hs : RealSigners accs)
    (h : exec env now w accs (.depositMining a per owner delegate) = .ok (w', ret)) :
    ∃ P M A D rest k n, accs = P :: M :: A :: D :: rest ∧ terms per = some (k, n) ∧
      IsMiningOf env w M.key owner P.key ∧
      StakesChange env now w w' P.key M.key D.key
        (fun p => HasRoom env.caps.pool p.diffs (midnight now + 86400 * n))
        (fun m => HasRoom env.caps.mining (laterThan m.diffs (midnight now)) (midnight now + 86400 * n))
        (fun x => stakeWeight a k (midnight now + 86400 * n) x + if D.key = M.key then 0 else (a : Int))
        (stakeWeight a k (midnight now + 86400 * n)) a := by
  rw [exec_ok] at h
  obtain ⟨h, -⟩ := h
  simp only [process, res_bind_ok, res_pure_ok, Prod.mk.injEq] at h
  obtain ⟨w1, h, rfl, -⟩ := h
  obtain ⟨P, M, A, D, p, m, d, p', m', d', hc, hd, rfl⟩ := processDepositMining_ok h
  obtain ⟨rest, hacc⟩ := hc.accs_eq
  obtain ⟨hg, hm, hdel⟩ := hc.facts hw hs
  obtain ⟨q, s, o, f, sd⟩ := deposit_same hg.ok hm hdel hd
  obtain ⟨-, -, -, he⟩ := stakeCall_world (p' := p') (m' := m') (d' := d') hw hc hs sd
  obtain ⟨k, n, g1, g2, g3, g4, g5⟩ := deposit_effect hg.ok hm hdel hd
  refine ⟨P, M, A, D, rest, k, n, hacc, g1, hc.isMining hw hs, he.change q s f g5 ?_ g4⟩
  intro hr x _
  rw [g3 hr x]
  have := hc.some_iff
  by_cases hk : D.key = M.key
  · rw [if_pos hk, if_neg (by rw [this]; simpa using hk)]; omega
  · rw [if_neg hk, if_pos (this.mpr hk)]; omega

/-- C19. No deposit and no extension with the period None, old or new, succeeds in any state. -/
theorem C19_none_rejected {now : Nat} {w w' : World} {accs : List AccountInfo} {i : Ix} {ret : Option Nat}
    (hw : Wf env now w) (hs : RealSigners accs) (h : exec env now w accs i = .ok (w', ret)) :
    (∀ a o d, i ≠ .depositMining a .none o d) ∧
    (∀ per ts b a o d, i ≠ .extendStake .none per ts b a o d ∧ i ≠ .extendStake per .none ts b a o d) := by
  rw [exec_ok] at h
  obtain ⟨h, -⟩ := h
  constructor
  · rintro a o d rfl
    simp only [process, res_bind_ok, res_pure_ok, Prod.mk.injEq] at h
    obtain ⟨w1, h, rfl, -⟩ := h
    obtain ⟨P, M, A, D, p, m, dd, p', m', d', hc, hd, rfl⟩ := processDepositMining_ok h
    obtain ⟨hg, hm, hdel⟩ := hc.facts hw hs
    obtain ⟨k, n, g1, -⟩ := deposit_effect hg.ok hm hdel hd
    simp [terms] at g1
  · intro per ts b a o d
    constructor
    all_goals
      rintro rfl
      simp only [process, res_bind_ok, res_pure_ok, Prod.mk.injEq] at h
      obtain ⟨w1, h, rfl, -⟩ := h
      obtain ⟨P, M, A, D, p, m, dd, p', m', d', hc, hd, rfl⟩ := processExtendStake_ok h
      obtain ⟨hg, hm, hdel⟩ := hc.facts hw hs
      obtain ⟨k, n, k', n', g1, g2, -⟩ := extend_effect hg.ok hm hdel hd
      first | simp [terms] at g1; done | simp [terms] at g2; done

/-- C20. A withdrawal of `a` lowers the mining's weighted stake and the pool's total on every day from today on by
exactly `a`, the delegate's delegated stake (and once more the pool's total) by `a`; the expirations after today of pool
and mining stay in place; nothing else about anybody's stake changes (about the rewards see C04 and C124). -/
theorem C20_withdraw {now : Nat} {w w' : World} {accs : List AccountInfo} {a : Nat}
    {owner delegate : Key} {ret : Option Nat} (hw : Wf env now w) (hs : RealSigners accs)
    (h : exec env now w accs (.withdrawMining a owner delegate) = .ok (w', ret)) :
    ∃ P M A D rest, accs = P :: M :: A :: D :: rest ∧
      IsMiningOf env w M.key owner P.key ∧
      StakesChange env now w w' P.key M.key D.key (fun _ => True) (fun _ => True)
        (fun _ => - a - if D.key = M.key then 0 else (a : Int)) (fun _ => - a) (- a) ∧
      (∀ p p', PoolAt env w P.key p → PoolAt env w' P.key p' →
        laterThan p'.diffs (midnight now) = laterThan p.diffs (midnight now)) ∧
      (∀ m m', MiningAt env w M.key m → MiningAt env w' M.key m' →
        laterThan m'.diffs (midnight now) = laterThan m.diffs (midnight now)) := by
  rw [exec_ok] at h
  obtain ⟨h, -⟩ := h
  simp only [process, res_bind_ok, res_pure_ok, Prod.mk.injEq] at h
  obtain ⟨w1, h, rfl, -⟩ := h
  obtain ⟨P, M, A, D, p, m, d, p', m', d', hc, hd, rfl⟩ := processWithdrawMining_ok h
  obtain ⟨rest, hacc⟩ := hc.accs_eq
  obtain ⟨hg, hm, hdel⟩ := hc.facts hw hs
  obtain ⟨q, s, o, f, sd⟩ := withdraw_same hg.ok hm hdel hd
  obtain ⟨-, -, -, he⟩ := stakeCall_world (p' := p') (m' := m') (d' := d') hw hc hs sd
  obtain ⟨g1, g2, g3, g4, g5⟩ := withdraw_effect hg.ok hm hdel hd
  refine ⟨P, M, A, D, rest, hacc, hc.isMining hw hs, he.change q s f g5 ?_ ?_, ?_, ?_⟩
  · intro _ x hx
    rw [g1 x hx]
    have := hc.some_iff
    by_cases hk : D.key = M.key
    · rw [if_pos hk, if_neg (by rw [this]; simpa using hk)]; omega
    · rw [if_neg hk, if_pos (this.mpr hk)]; omega
  · intro _ x hx
    rw [g2 x hx]; omega
  · intro p1 p2 h1 h2
    rw [PoolAt.unique h1 he.pool, PoolAt.unique h2 he.pool']; exact g4
  · intro p1 p2 h1 h2
    rw [MiningAt.unique h1 he.mining, MiningAt.unique h2 he.mining']; exact g3

/-- C21. A slash of `n` tokens, weight `mu`, with expiry date: the mining's and the pool's weighted stake go down by `mu`
on every day before the expiry day and by `n` from then on (without date: `mu` on all days); nothing else about
anybody's stake changes (about the rewards see C04 and C124). It only succeeds if `n ≤ mu`, the expiry day is in the future and both pool and mining have an expiration of at least
`mu - n` recorded on it. -/
theorem C21_slash {now : Nat} {w w' : World} {accs : List AccountInfo} {n mu : Nat} {ex : Option Nat}
    {owner : Key} {ret : Option Nat} (hw : Wf env now w) (hs : RealSigners accs)
    (h : exec env now w accs (.slash owner n mu ex) = .ok (w', ret)) :
    ∃ A P M rest, accs = A :: P :: M :: rest ∧ IsMiningOf env w M.key owner P.key ∧
      StakesChange env now w w' P.key M.key M.key (fun _ => True) (fun _ => True)
        (fun x => - slashWeight n mu ex x)
        (fun x => - slashWeight n mu ex x) 0 ∧
      (∀ ts, ex = some ts → n ≤ mu ∧ midnight now < midnight ts ∧
        (∃ p v, PoolAt env w P.key p ∧ (midnight ts, v) ∈ p.diffs ∧ mu - n ≤ v) ∧
        ∃ m v, MiningAt env w M.key m ∧ (midnight ts, v) ∈ m.diffs ∧ mu - n ≤ v) := by
  rw [exec_ok] at h
  obtain ⟨h, -⟩ := h
  simp only [process, res_bind_ok, res_pure_ok, Prod.mk.injEq] at h
  obtain ⟨w1, h, rfl, -⟩ := h
  obtain ⟨A, P, M, rest, p, m, p', m', rfl, hsig, hpo, hmo, hne, hl, hd, rfl⟩ := processSlash_ok h
  have hdep : A.key ≠ 0 := hs A (by simp) hsig
  obtain ⟨hpc, hg⟩ := pool_slot (hw P.key) hpo hl.plen hl.pview hdep (Or.inl hl.auth)
  obtain ⟨hm, hmc, hmi⟩ := mining_slot hw hmo hpo hl
  obtain ⟨q, s, o, f⟩ := slash_same hg.ok hm hd
  obtain ⟨g1, g2, g3⟩ := slash_effect hg.ok hm hd
  have m1 : MiningAt env (putPool w P.key p') M.key m := (miningAt_congr (putPool_ne _ _ hne)).mpr ⟨hmo, hmc⟩
  have he : StakeEffect env w (putMining env (putPool w P.key p') M.key m') P.key M.key M.key p p' m m' none none := by
    refine ⟨⟨hpo, hpc⟩, ⟨hmo, hmc⟩, ?_, putMining_at m1 m', ?_, hne, Or.inl ⟨rfl, rfl, rfl⟩⟩
    · exact (poolAt_congr (putMining_ne _ _ (Ne.symm hne))).mpr (putPool_at hpo _)
    · intro k k1 k2 _
      rw [putMining_ne _ _ k2, putPool_ne _ _ k1]
  refine ⟨A, P, M, rest, rfl, ⟨m, p, ⟨hmo, hmc⟩, ⟨hpo, hpc⟩, hl.owner, hl.pool, hl.addr⟩,
    he.change q s f (del := 0) trivial ?_ ?_, ?_⟩
  · intro _ x hx; rw [g1 x hx]; omega
  · intro _ x hx; rw [g2 x hx]; omega
  · intro ts hts
    obtain ⟨k1, k2, ⟨v, k3, k4⟩, v', k5, k6⟩ := g3 ts hts
    exact ⟨k1, k2, ⟨p, v', ⟨hpo, hpc⟩, k5, k6⟩, m, v, ⟨hmo, hmc⟩, k3, k4⟩

/-- C22, what the code does.  Full claim: the extension removes the old stake (weight `b*k` before its expiry day, `b`
from then on) and adds `b + a` for the new period, for the mining and for the pool.  Proved in full for the mining.  For
the pool the claim holds if the old stake has expired (or was Flex); when it has not, the pool's total on the days from
the old expiry on is lowered by `b*k` instead of `b`: the recorded old expiration is not removed from the pool
(`C22_extend_false`). -/
theorem C22_extend_partial {now : Nat} {w w' : World} {accs : List AccountInfo} {op np : LockupPeriod} {ts b a : Nat}
    {owner delegate : Key} {ret : Option Nat} (hw : Wf env now w) (hs : RealSigners accs)
    (h : exec env now w accs (.extendStake op np ts b a owner delegate) = .ok (w', ret)) :
    ∃ P M A D rest k n k' n', accs = P :: M :: A :: D :: rest ∧ terms op = some (k, n) ∧ terms np = some (k', n') ∧
      IsMiningOf env w M.key owner P.key ∧
      StakesChange env now w w' P.key M.key D.key
        (fun p => HasRoom env.caps.pool p.diffs (midnight now + 86400 * n'))
        (fun m => HasRoom env.caps.mining (laterThan m.diffs (midnight now)) (midnight now + 86400 * n'))
        (fun x => - (if op ≠ .flex ∧ now < midnight ts + 86400 * n then (b * k : Int)
                     else stakeWeight b k (midnight ts + 86400 * n) x)
          + stakeWeight (b + a) k' (midnight now + 86400 * n') x + if D.key = M.key then 0 else (a : Int))
        (fun x => - stakeWeight b k (midnight ts + 86400 * n) x + stakeWeight (b + a) k' (midnight now + 86400 * n') x)
        a ∧
      (op ≠ .flex → now < midnight ts + 86400 * n →
        ∃ m v, MiningAt env w M.key m ∧ (midnight ts + 86400 * n, v) ∈ m.diffs ∧ b * k - b ≤ v) := by
  rw [exec_ok] at h
  obtain ⟨h, -⟩ := h
  simp only [process, res_bind_ok, res_pure_ok, Prod.mk.injEq] at h
  obtain ⟨w1, h, rfl, -⟩ := h
  obtain ⟨P, M, A, D, p, m, d, p', m', d', hc, hd, rfl⟩ := processExtendStake_ok h
  obtain ⟨rest, hacc⟩ := hc.accs_eq
  obtain ⟨hg, hm, hdel⟩ := hc.facts hw hs
  obtain ⟨q, s, o, f, sd⟩ := extend_same hg.ok hm hdel hd
  obtain ⟨-, -, -, he⟩ := stakeCall_world (p' := p') (m' := m') (d' := d') hw hc hs sd
  obtain ⟨k, n, k', n', t1, t2, g1, g2, g3, g4⟩ := extend_effect hg.ok hm hdel hd
  refine ⟨P, M, A, D, rest, k, n, k', n', hacc, t1, t2, hc.isMining hw hs, he.change q s f g4 ?_ ?_, ?_⟩
  · intro hr x hx
    obtain ⟨g5, g6⟩ := g1 hr x hx
    have hsome := hc.some_iff
    have hD : (if d.isSome = true then (a : Int) else 0) = if D.key = M.key then 0 else (a : Int) := by
      by_cases hk : D.key = M.key
      · rw [if_pos hk, if_neg (by rw [hsome]; simpa using hk)]
      · rw [if_neg hk, if_pos (hsome.mpr hk)]
    rw [hD] at g5 g6
    by_cases hcase : op ≠ .flex ∧ now < midnight ts + 86400 * n
    · rw [if_pos hcase]
      by_cases hx2 : x < midnight ts + 86400 * n
      · rw [g5 (Or.inl hx2)]
        have : stakeWeight b k (midnight ts + 86400 * n) x = (b * k : Int) := by unfold stakeWeight; rw [if_pos hx2]
        omega
      · rw [g6 ⟨by omega, hcase.2, hcase.1⟩]; omega
    · rw [if_neg hcase]
      rw [g5 (by
        by_cases hf : op = .flex
        · exact Or.inr (Or.inr hf)
        · exact Or.inr (Or.inl (by
            rcases Nat.lt_or_ge now (midnight ts + 86400 * n) with h1 | h1
            · exact absurd ⟨hf, h1⟩ hcase
            · exact h1)))]
      omega
  · intro hr x hx; rw [g2 hr x hx]; omega
  · intro h1 h2
    obtain ⟨v, h3, h4⟩ := g3 h1 h2
    exact ⟨m, v, he.mining, h3, h4⟩

/-- C23. A change of delegate from `Old` to `New`: the stake delegated to `Old` goes down by exactly `a`, the stake
delegated to `New` goes up by `a` (a delegate equal to the mining itself means "no delegate"), the pool's total changes by
the same differences, nobody's own stake changes, nothing else about stakes changes (about the rewards see C04 and
C124); the two accounts are different, the owner signed.  The hypothesis excludes a pool account in place of the old delegate. -/
theorem C23_change_delegate {now : Nat} {w w' : World} {accs : List AccountInfo} {a : Nat} {nd : Key}
    {ret : Option Nat} (hw : Wf env now w) (hs : RealSigners accs)
    (hclean : NotPoolAsMining env w accs (.changeDelegate a nd))
    (h : exec env now w accs (.changeDelegate a nd) = .ok (w', ret)) :
    ∃ P M A O Old New rest, accs = P :: M :: A :: O :: Old :: New :: rest ∧ Old.key ≠ New.key ∧ O.isSigner = true ∧
      IsMiningOf env w M.key O.key P.key ∧
      (∀ k p, PoolAt env w k p → ∃ p', PoolAt env w' k p' ∧ SameBudget p p' ∧ SameConfig p p' ∧
        (k ≠ P.key → p' = p) ∧ (k = P.key → ∀ x, totalOn p' x = totalOn p x -
          (if Old.key = M.key then 0 else (a : Int)) + (if New.key = M.key then 0 else (a : Int)))) ∧
      (∀ k m, MiningAt env w k m → ∃ m', MiningAt env w' k m' ∧ SameIdentity m m' ∧
        (k ≠ M.key → k ≠ Old.key → k ≠ New.key → m' = m) ∧
        (m'.stakeFromOthers : Int) = m.stakeFromOthers - (if k = Old.key ∧ k ≠ M.key then (a : Int) else 0) +
          (if k = New.key ∧ k ≠ M.key then (a : Int) else 0) ∧
        ∀ x, midnight now ≤ x → weightOn m' x = weightOn m x) ∧
      (∀ k, k ≠ P.key → k ≠ M.key → k ≠ Old.key → k ≠ New.key → w' k = w k) := by
  rw [exec_ok] at h
  obtain ⟨h, -⟩ := h
  simp only [process, res_bind_ok, res_pure_ok, Prod.mk.injEq] at h
  obtain ⟨w1, h, rfl, -⟩ := h
  obtain ⟨P, M, A, O, Old, New, rest, p, m, nD, oD, p', m', nD', oD', rfl, hpo, hmo, hA, hO, hoo, hno, hne, hmp, hl,
    hn, ho, hd, rfl⟩ := processChangeDelegate_ok h
  have hold : ∀ q, ¬ PoolAt env w Old.key q := hclean Old (by simp)
  obtain ⟨hg, hm, hnd, hod, hE⟩ := redelegate_world (p' := p') (m' := m') (nd' := nD') (od' := oD') hw
    (hs A (by simp) hA) hpo hmo hno hoo hne hmp hl hn ho hold
  obtain ⟨q, s, o, f, sn, so⟩ := changeDelegate_same hg.ok hm hnd hod hd
  obtain ⟨g1, g2, g3, g4⟩ := changeDelegate_effect hg.ok hm hnd hod hd
  have he := hE sn so
  refine ⟨P, M, A, O, Old, New, rest, rfl, Ne.symm hne, hO,
    ⟨m, p, he.mining, he.pool, hl.owner, hl.pool, hl.addr⟩, ?_, ?_, he.frame⟩
  · intro k r hr
    by_cases hk : k = P.key
    · subst hk
      obtain rfl := PoolAt.unique hr he.pool
      refine ⟨p', he.pool', (quiet_budget q).1, (quiet_budget q).2, fun e => absurd rfl e, fun _ x => ?_⟩
      rw [g1 x]
      have e1 : (if oD.isSome = true then (a : Int) else 0) = if Old.key = M.key then 0 else (a : Int) := by
        rcases he.old with ⟨k1, k2, _⟩ | ⟨k1, _, y, _, k2, _⟩
        · rw [k2, if_pos k1]; rfl
        · rw [k2, if_neg k1]; rfl
      have e2 : (if nD.isSome = true then (a : Int) else 0) = if New.key = M.key then 0 else (a : Int) := by
        rcases he.new with ⟨k1, k2, _⟩ | ⟨k1, _, y, _, k2, _⟩
        · rw [k2, if_pos k1]; rfl
        · rw [k2, if_neg k1]; rfl
      rw [e1, e2]
    · have kM : k ≠ M.key := by rintro rfl; exact PoolAt.not_mining hr he.mining
      have kO : k ≠ Old.key := by rintro rfl; exact hold r hr
      have kN : k ≠ New.key := by
        rintro rfl
        rcases he.new with ⟨k1, _⟩ | ⟨_, k1, _⟩
        · exact kM k1
        · exact k1 r hr
      exact ⟨r, (poolAt_congr (he.frame k hk kM kO kN)).mpr hr, ⟨rfl, rfl, rfl, rfl⟩, ⟨rfl, rfl, rfl, rfl, rfl, rfl⟩,
        fun _ => rfl, fun e => absurd e hk⟩
  · intro k y hy
    by_cases hk : k = M.key
    · subst hk
      obtain rfl := MiningAt.unique hy he.mining
      exact ⟨m', he.mining', s.identity, fun e => absurd rfl e, by rw [f]; simp, g2⟩
    · by_cases hk2 : k = Old.key
      · subst hk2
        rcases he.old with ⟨k1, _⟩ | ⟨_, _, z, z', k2, k3, k4⟩
        · exact absurd k1 hk
        · obtain ⟨rfl, k5⟩ := k4 y hy
          subst k2 k3
          obtain ⟨u1, u2, u3⟩ := g3
          refine ⟨z', k5, u2.identity, fun _ e => absurd rfl e, ?_, fun x hx => u3 x (by rw [bod_eq_midnight]; exact hx)⟩
          rw [u1]
          simp [hk, Ne.symm hne]
          omega
      · by_cases hk3 : k = New.key
        · subst hk3
          rcases he.new with ⟨k1, _⟩ | ⟨_, _, z, z', k2, k3, k4⟩
          · exact absurd k1 hk
          · obtain ⟨rfl, k5⟩ := k4 y hy
            subst k2 k3
            obtain ⟨u1, u2, u3⟩ := g4
            refine ⟨z', k5, u2.identity, fun _ _ e => absurd rfl e, ?_, fun x hx => u3 x (by rw [bod_eq_midnight]; exact hx)⟩
            rw [u1]
            simp [hk, hk2]
        · have kP : k ≠ P.key := by rintro rfl; exact PoolAt.not_mining he.pool hy
          exact ⟨y, (miningAt_congr (he.frame k kP hk hk2 hk3)).mpr hy, ⟨rfl, rfl, rfl, rfl⟩, fun _ _ _ => rfl,
            by simp [hk2, hk3], fun _ _ => rfl⟩

/-- C24. The penalty of `n`: the mining's weighted stake goes down by exactly `n` (it must be at least `n`), recorded
expirations go down latest first by `min n (their sum)`, every other field of the mining and every other account stays;
`n = 0` changes nothing. -/
theorem C24_decrease {now : Nat} {w w' : World} {accs : List AccountInfo} {n : Nat}
    {owner : Key} {ret : Option Nat} (hw : Wf env now w) (hs : RealSigners accs)
    (h : exec env now w accs (.decreaseRewards owner n) = .ok (w', ret)) :
    ∃ A P M rest m share' diffs', accs = A :: P :: M :: rest ∧ IsMiningOf env w M.key owner P.key ∧
      MiningAt env w M.key m ∧ n ≤ m.share ∧ share' + n = m.share ∧ Penalty n m.diffs diffs' ∧
      MiningAt env w' M.key { m with share := share', diffs := diffs' } ∧ (∀ k, k ≠ M.key → w' k = w k) ∧
      (n = 0 → w' = w) := by
  rw [exec_ok] at h
  obtain ⟨h, -⟩ := h
  simp only [process, res_bind_ok, res_pure_ok, Prod.mk.injEq] at h
  obtain ⟨w1, h, rfl, -⟩ := h
  obtain ⟨A, P, M, rest, p, m, m', rfl, hsig, hpo, hmo, hne, hl, hd, rfl⟩ := processDecreaseRewards_ok h
  have hdep : A.key ≠ 0 := hs A (by simp) hsig
  obtain ⟨hpc, hg⟩ := pool_slot (hw P.key) hpo hl.plen hl.pview hdep (Or.inl hl.auth)
  obtain ⟨hm, hmc, hmi⟩ := mining_slot hw hmo hpo hl
  have hat : MiningAt env w M.key m := ⟨hmo, hmc⟩
  have hsame : ∀ m2, m2 = m → putMining env w M.key m2 = w := by
    rintro m2 rfl
    funext k
    by_cases hk : k = M.key
    · subst hk
      unfold putMining
      rw [world_set_same, storeMining, if_pos]
      rw [hmc]; rfl
    · exact putMining_ne _ _ hk
  rw [decreaseRewards_ok] at hd
  refine ⟨A, P, M, rest, m, m.share - n, (Mining.decreaseLoop n m.diffs.reverse).reverse, rfl,
    ⟨m, p, hat, ⟨hpo, hpc⟩, hl.owner, hl.pool, hl.addr⟩, hat, ?_, ?_, penalty_ok n m.diffs, ?_, ?_, ?_⟩
  · rcases hd with ⟨rfl, _⟩ | ⟨_, h1, _⟩ <;> omega
  · rcases hd with ⟨rfl, _⟩ | ⟨_, h1, _⟩ <;> omega
  · rcases hd with ⟨rfl, rfl⟩ | ⟨_, h1, rfl⟩
    · rw [decreaseLoop_zero]
      simp only [List.reverse_reverse]
      exact putMining_at hat m'
    · exact putMining_at hat _
  · exact fun k hk => putMining_ne _ _ hk
  · rintro rfl
    rcases hd with ⟨_, h1⟩ | ⟨h1, _⟩
    · exact hsame _ h1
    · exact absurd rfl h1

/-! ### The hypotheses are met; the part of C22 that does not hold -/

namespace Demo

example : ∃ w', Succeeds afterStory [W 100, W (mine 120 100), S 110, W (mine 121 100)]
    (.depositMining 70 .sixMonths 120 121) w' := succeeds afterStory_reachable (by decide +kernel)
example : ∃ w', Succeeds afterStory [W 100, W (mine 120 100), S 110, W (mine 121 100)]
    (.withdrawMining 300 120 121) w' := succeeds afterStory_reachable (by decide +kernel)
example : ∃ w', Succeeds afterStory [S 110, W 100, W (mine 120 100)]
    (.slash 120 200 1200 (some (day0 + 365 * DAY + 5))) w' := succeeds afterStory_reachable (by decide +kernel)
example : ∃ w', Succeeds afterStory [W 100, W (mine 120 100), S 110, W (mine 121 100)]
    (.extendStake .oneYear .oneYear (day0 + 100) 500 25 120 121) w' := succeeds afterStory_reachable (by decide +kernel)
example : ∃ w', Succeeds afterStory [W 100, W (mine 120 100), S 110, S 120, W (mine 121 100), W (mine 120 100)]
    (.changeDelegate 400 120) w' := succeeds afterStory_reachable (by decide +kernel)
example : ∃ w', Succeeds afterStory [S 110, R 100, W (mine 120 100)]
    (.decreaseRewards 120 2600) w' := succeeds afterStory_reachable (by decide +kernel)

end Demo

/-- C22 is false for the pool: in a reachable state a stake of 500 locked for a year (weight 3000) is extended before it
expires; on the day after the old expiry the mining's weight changes as it should (by `- 500 + 3000`), the pool's total by
`- 3000 + 3000`. -/
theorem C22_extend_false : ∃ (s : Chain) (accs : List AccountInfo) (w' : World) (ret : Option Nat)
    (p p' : Pool) (m m' : Mining) (x : Nat), Reachable Demo.env s ∧
      exec Demo.env s.now s.world accs (.extendStake .oneYear .oneYear (Demo.day0 + 100) 500 0 120 121) = .ok (w', ret) ∧
      PoolAt Demo.env s.world 100 p ∧ PoolAt Demo.env w' 100 p' ∧
      MiningAt Demo.env s.world (Demo.mine 120 100) m ∧ MiningAt Demo.env w' (Demo.mine 120 100) m' ∧
      x = midnight (Demo.day0 + 100) + 86400 * 365 ∧
      weightOn m' x = weightOn m x - 500 + 3000 ∧ totalOn p' x = totalOn p x - 3000 + 3000 := by
  have hok : Demo.okEvent Demo.afterStory (Demo.extend 100 120 .oneYear .oneYear (Demo.day0 + 100) 500 0 121) = true := by
    decide +kernel
  obtain ⟨ret, hx⟩ := Demo.exec_of_ok hok
  have h : Demo.hasMining Demo.afterStory.world (Demo.mine 120 100) (fun m =>
      Demo.hasMining (Demo.afterStory.apply Demo.env
        (Demo.extend 100 120 .oneYear .oneYear (Demo.day0 + 100) 500 0 121)).world (Demo.mine 120 100) (fun m' =>
      decide (weightOn m' (midnight (Demo.day0 + 100) + 86400 * 365) =
        weightOn m (midnight (Demo.day0 + 100) + 86400 * 365) - 500 + 3000))) = true := by decide +kernel
  have g : Demo.hasPool Demo.afterStory.world 100 (fun m =>
      Demo.hasPool (Demo.afterStory.apply Demo.env
        (Demo.extend 100 120 .oneYear .oneYear (Demo.day0 + 100) 500 0 121)).world 100 (fun m' =>
      decide (totalOn m' (midnight (Demo.day0 + 100) + 86400 * 365) =
        totalOn m (midnight (Demo.day0 + 100) + 86400 * 365) - 3000 + 3000))) = true := by decide +kernel
  obtain ⟨m, h1, h⟩ := Demo.hasMining_sound h
  obtain ⟨m', h2, h⟩ := Demo.hasMining_sound h
  obtain ⟨p, g1, g⟩ := Demo.hasPool_sound g
  obtain ⟨p', g2, g⟩ := Demo.hasPool_sound g
  simp only [decide_eq_true_eq] at h g
  exact ⟨Demo.afterStory, _, _, ret, p, p', m, m', _, Demo.afterStory_reachable, hx, g1, g2, h1, h2, rfl, h, g⟩

end Verif
