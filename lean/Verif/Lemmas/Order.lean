import Verif.Spec.Order
import Verif.Lemmas.Outsider
import Verif.Lemmas.Payout
/-!
Helper lemmas on the order of instructions: the same instruction executed in two states that agree on the minings it is given
and on the history of the pool's index has the same effect.
-/

namespace Verif

open Spec

variable {env : Env}

theorem put_le_length (D : SMap) (k v : Nat) : (D.put k v).length ≤ D.length + 1 := by
  induction D with
  | nil => simp [SMap.put]
  | cons y D ih =>
    obtain ⟨k', v'⟩ := y
    unfold SMap.put
    split
    · simp
    · split
      · simp
      · simp only [List.length_cons]; omega

theorem insert_le_length (cap : Nat) (D : SMap) (k v : Nat) : (D.insert cap k v).length ≤ D.length + 1 := by
  unfold SMap.insert
  repeat' split
  all_goals first
    | exact put_le_length ..
    | omega

theorem withSub_diffs {now a : Nat} {p p' : Pool} {d d' : Option Mining}
    (h : p.withDelegate d (Pool.delegateSub now a) = .ok (p', d')) : p'.diffs = p.diffs := by
  cases d with
  | none => rw [withDelegate_none] at h; rw [h.1]
  | some y =>
    rw [withDelegate_some] at h
    obtain ⟨y', h, -⟩ := h
    rw [delegateSub_ok] at h
    rw [h.2.2.2]

theorem withAdd_diffs {now a : Nat} {p p' : Pool} {d d' : Option Mining}
    (h : p.withDelegate d (Pool.delegateAdd now a) = .ok (p', d')) : p'.diffs = p.diffs := by
  cases d with
  | none => rw [withDelegate_none] at h; rw [h.1]
  | some y =>
    rw [withDelegate_some] at h
    obtain ⟨y', h, -⟩ := h
    rw [delegateAdd_ok] at h
    rw [h.2.2.2]

theorem ok_unique {α : Type} {x : Res α} {a b : α} (h : x = .ok a) (h' : x = .ok b) : a = b := by
  rw [h] at h'; cases h'; rfl

theorem withSub_fixed {now a : Nat} {p p' q q' : Pool} {d d' e' : Option Mining} (hc : q.cumulative = p.cumulative)
    (h : p.withDelegate d (Pool.delegateSub now a) = .ok (p', d'))
    (h' : q.withDelegate d (Pool.delegateSub now a) = .ok (q', e')) : e' = d' ∧ q'.cumulative = p'.cumulative := by
  cases d with
  | none =>
    rw [withDelegate_none] at h h'
    rw [h.2, h'.2, h.1, h'.1]; exact ⟨rfl, hc⟩
  | some y =>
    rw [withDelegate_some] at h h'
    obtain ⟨y', h, rfl⟩ := h
    obtain ⟨z', h', rfl⟩ := h'
    rw [delegateSub_ok] at h h'
    obtain ⟨-, -, h1, rfl⟩ := h
    obtain ⟨-, -, h2, rfl⟩ := h'
    rw [hc] at h2
    rw [ok_unique h1 h2]; exact ⟨rfl, hc⟩

theorem withAdd_fixed {now a : Nat} {p p' q q' : Pool} {d d' e' : Option Mining} (hc : q.cumulative = p.cumulative)
    (h : p.withDelegate d (Pool.delegateAdd now a) = .ok (p', d'))
    (h' : q.withDelegate d (Pool.delegateAdd now a) = .ok (q', e')) : e' = d' ∧ q'.cumulative = p'.cumulative := by
  cases d with
  | none =>
    rw [withDelegate_none] at h h'
    rw [h.2, h'.2, h.1, h'.1]; exact ⟨rfl, hc⟩
  | some y =>
    rw [withDelegate_some] at h h'
    obtain ⟨y', h, rfl⟩ := h
    obtain ⟨z', h', rfl⟩ := h'
    rw [delegateAdd_ok] at h h'
    obtain ⟨-, -, h1, rfl⟩ := h
    obtain ⟨-, -, h2, rfl⟩ := h'
    rw [hc] at h2
    rw [ok_unique h1 h2]; exact ⟨rfl, hc⟩

theorem deposit_fixed {caps : Caps} {now : Nat} {p p' q q' : Pool} {m m' n' : Mining} {a : Nat} {per : LockupPeriod}
    {d d' e' : Option Mining} (hp : PoolOk now p) (hq : PoolOk now q) (hm : MiningOk m) (hc : q.cumulative = p.cumulative)
    (h : p.deposit caps now m a per d = .ok (p', m', d')) (h' : q.deposit caps now m a per d = .ok (q', n', e')) :
    n' = m' ∧ e' = d' := by
  obtain ⟨m1, e, h1, h2, -, -, -, -, -, -, rfl, h9⟩ := deposit_ok (refresh_sorted hp hm) h
  obtain ⟨n1, f, g1, g2, -, -, -, -, -, -, rfl, g9⟩ := deposit_ok (refresh_sorted hq hm) h'
  rw [hc] at g1
  obtain rfl := ok_unique h1 g1
  obtain rfl := ok_unique h2 g2
  refine ⟨rfl, ?_⟩
  exact (withAdd_fixed (by exact hc) h9 g9).1

theorem deposit_length {caps : Caps} {now : Nat} {p p' : Pool} {m m' : Mining} {a : Nat} {per : LockupPeriod}
    {d d' : Option Mining} (hp : PoolOk now p) (hm : MiningOk m) (h : p.deposit caps now m a per d = .ok (p', m', d')) :
    p'.diffs.length ≤ p.diffs.length + 1 := by
  obtain ⟨m1, e, h1, h2, -, -, -, -, -, -, rfl, h9⟩ := deposit_ok (refresh_sorted hp hm) h
  rw [withAdd_diffs h9]
  exact insert_le_length ..

/-- A stake operation determines the staker's and the delegate's new record and the change of the pool's total. -/
theorem StakeOp.fixed {caps : Caps} {now : Nat} {p p' q q' : Pool} {m m' n' : Mining} {d d' e' : Option Mining} {i : Ix}
    (hp : PoolOk now p) (hq : PoolOk now q) (hm : MiningOk m) (hd : ∀ x, d = some x → MiningOk x)
    (hc : q.cumulative = p.cumulative) (h : StakeOp caps now p m d p' m' d' i) (h' : StakeOp caps now q m d q' n' e' i) :
    n' = m' ∧ e' = d' ∧ (p.diffs.length < caps.pool → q.diffs.length < caps.pool → ∀ x, midnight now ≤ x →
      totalOn q' x - totalOn q x = totalOn p' x - totalOn p x) := by
  cases i <;> try exact h.elim
  case depositMining a l o dl =>
    obtain ⟨k, n, h1, -, h2, -, -⟩ := deposit_effect hp hm hd h
    obtain ⟨k', n', g1, -, g2, -, -⟩ := deposit_effect hq hm hd h'
    rw [h1] at g1; cases g1
    obtain ⟨e1, e2⟩ := deposit_fixed hp hq hm hc h h'
    refine ⟨e1, e2, fun r1 r2 x _ => ?_⟩
    rw [h2 (Or.inr r1) x, g2 (Or.inr r2) x]; omega
  case withdrawMining a o dl =>
    obtain ⟨m1, h1, -, -, h4, h5⟩ := withdraw_ok hp.sorted h
    obtain ⟨n1, g1, -, -, g4, g5⟩ := withdraw_ok hq.sorted h'
    rw [hc] at g1
    obtain rfl := ok_unique h1 g1
    refine ⟨by rw [h4, g4], (withSub_fixed (by exact hc) h5 g5).1, fun _ _ x hx => ?_⟩
    rw [(withdraw_effect hp hm hd h).1 x hx, (withdraw_effect hq hm hd h').1 x hx]; omega
  case extendStake ol nl ts b a o dl =>
    obtain ⟨m1, oe, p2, m2, p3, d3, h1, ho, h3, -, h5, h6⟩ := extend_ok (refresh_sorted hp hm) h
    obtain ⟨n1, of, q2, n2, q3, e3, g1, go, g3, -, g5, g6⟩ := extend_ok (refresh_sorted hq hm) h'
    rw [hc] at g1
    obtain rfl := ok_unique h1 g1
    have hoe : of = oe := by
      rcases ho with ⟨a1, a2⟩ | ⟨a1, a2⟩ <;> rcases go with ⟨b1, b2⟩ | ⟨b1, b2⟩
      · rw [a2, b2]
      · exact absurd a1 b1
      · exact absurd b1 a1
      · exact ok_unique b2 a2
    subst hoe
    obtain ⟨s1, o1, f1⟩ := refresh_same hp.history hm h1
    have key : n2 = m2 ∧ q2.cumulative = p2.cumulative ∧ Quiet now p p2 ∧ Quiet now q q2 ∧ MiningOk m2 := by
      rcases h3 with ⟨c1, -, -, ⟨old, c2, -, rfl⟩, -, -, rfl⟩ | ⟨c1, -, -, rfl, rfl⟩ <;>
      rcases g3 with ⟨k1, -, -, ⟨old', k2, -, rfl⟩, -, -, rfl⟩ | ⟨k1, -, -, rfl, rfl⟩
      · rw [c2] at k2; cases k2
        exact ⟨rfl, hc, Quiet.mk'' hp, Quiet.mk'' hq, ⟨SMap.put_sorted o1.1 _ _, put_aligned o1.2 c2⟩⟩
      · exact absurd c1 k1
      · exact absurd k1 c1
      · exact ⟨rfl, hc, Quiet.mk'' hp, Quiet.mk'' hq, ⟨o1.1, o1.2⟩⟩
    obtain ⟨rfl, hc2, y1, y2, o2⟩ := key
    obtain ⟨rfl, hc3⟩ := withSub_fixed hc2 h5 g5
    obtain ⟨z1, -⟩ := withSub_same y1.ok hd h5
    obtain ⟨z2, -⟩ := withSub_same y2.ok hd g5
    obtain ⟨e1, e2⟩ := deposit_fixed z1.ok z2.ok o2 hc3 h6 g6
    refine ⟨e1, e2, fun r1 r2 x hx => ?_⟩
    obtain ⟨k, n, k', n', a1, a2, a3, -⟩ := extend_effect hp hm hd h
    obtain ⟨l, v, l', v', b1, b2, b3, -⟩ := extend_effect hq hm hd h'
    rw [a1] at b1; cases b1
    rw [a2] at b2; cases b2
    obtain ⟨a4, a5⟩ := a3 (Or.inr r1) x hx
    obtain ⟨b4, b5⟩ := b3 (Or.inr r2) x hx
    by_cases hh : x < midnight ts + 86400 * n ∨ midnight ts + 86400 * n ≤ now ∨ ol = .flex
    · rw [a4 hh, b4 hh]; omega
    · have hh2 : midnight ts + 86400 * n ≤ x ∧ now < midnight ts + 86400 * n ∧ ol ≠ .flex := by
        refine ⟨?_, ?_, fun e => hh (Or.inr (Or.inr e))⟩
        · rcases Nat.lt_or_ge x (midnight ts + 86400 * n) with g | g
          · exact absurd (Or.inl g) hh
          · exact g
        · rcases Nat.lt_or_ge now (midnight ts + 86400 * n) with g | g
          · exact g
          · exact absurd (Or.inr (Or.inl g)) hh
      rw [a5 hh2, b5 hh2]; omega
  case slash o n mu ex =>
    obtain ⟨h, rfl, rfl⟩ := h
    obtain ⟨h', -, rfl⟩ := h'
    obtain ⟨a1, -, -⟩ := slash_effect hp hm h
    obtain ⟨b1, -, -⟩ := slash_effect hq hm h'
    obtain ⟨m1, c1, -, -, c4⟩ := slash_ok hp.sorted (refresh_sorted hp hm) h
    obtain ⟨n1, k1, -, -, k4⟩ := slash_ok hq.sorted (refresh_sorted hq hm) h'
    rw [hc] at k1
    obtain rfl := ok_unique c1 k1
    refine ⟨?_, rfl, fun _ _ x hx => by rw [a1 x hx, b1 x hx]; omega⟩
    rcases c4 with ⟨u1, u2, -⟩ | ⟨ts, om, op, u1, -, u2, -, -, -, u3, -⟩ <;>
    rcases k4 with ⟨v1, v2, -⟩ | ⟨ts', om', op', v1, -, v2, -, -, -, v3, -⟩
    · rw [u2, v2]
    · rw [u1] at v1; cases v1
    · rw [u1] at v1; cases v1
    · rw [u1] at v1; cases v1
      rw [u2] at v2; cases v2
      rw [u3, v3]

theorem StakeOp.length {caps : Caps} {now : Nat} {p p' : Pool} {m m' : Mining} {d d' : Option Mining} {i : Ix}
    (hp : PoolOk now p) (hm : MiningOk m) (hd : ∀ x, d = some x → MiningOk x) (h : StakeOp caps now p m d p' m' d' i) :
    p'.diffs.length ≤ p.diffs.length + 1 := by
  cases i <;> try exact h.elim
  case depositMining a l o dl => exact deposit_length hp hm h
  case withdrawMining a o dl =>
    obtain ⟨m1, h1, -, -, h4, h5⟩ := withdraw_ok hp.sorted h
    rw [withSub_diffs h5]
    have := after_length p.diffs (bod now)
    simp only; omega
  case extendStake ol nl ts b a o dl =>
    obtain ⟨m1, oe, p2, m2, p3, d3, h1, ho, h3, -, h5, h6⟩ := extend_ok (refresh_sorted hp hm) h
    obtain ⟨s1, o1, f1⟩ := refresh_same hp.history hm h1
    have key : Quiet now p p2 ∧ MiningOk m2 ∧ p2.diffs = p.diffs := by
      rcases h3 with ⟨-, -, -, ⟨old, g1, -, rfl⟩, -, -, rfl⟩ | ⟨-, -, -, rfl, rfl⟩
      · exact ⟨Quiet.mk'' hp, ⟨SMap.put_sorted o1.1 _ _, put_aligned o1.2 g1⟩, rfl⟩
      · exact ⟨Quiet.mk'' hp, ⟨o1.1, o1.2⟩, rfl⟩
    obtain ⟨q2, o2, e2⟩ := key
    obtain ⟨q3, -⟩ := withSub_same q2.ok hd h5
    have := deposit_length q3.ok o2 h6
    rw [withSub_diffs h5, e2] at this
    exact this
  case slash o n mu ex =>
    obtain ⟨h, rfl, rfl⟩ := h
    obtain ⟨m1, c1, -, -, c4⟩ := slash_ok hp.sorted (refresh_sorted hp hm) h
    have := after_length p.diffs (bod now)
    rcases c4 with ⟨-, -, rfl⟩ | ⟨ts, om, op, -, -, -, -, -, -, -, rfl⟩
    · simp only; omega
    · have h2 := put_le_length (after p.diffs (bod now)) (bod ts) (op - (mu - n))
      simp only; omega

theorem balance_program {w : World} {k : Key} {m : Mining} (h : MiningAt env w k m) : balance w k = 0 := by
  unfold Spec.balance; rw [h.2]

theorem balance_pool {w : World} {k : Key} {p : Pool} (h : PoolAt env w k p) : balance w k = 0 := by
  unfold Spec.balance; rw [h.2]

/-- The account at a key is determined by its shell and its record. -/
theorem account_eq {v v' w w' : World} {k : Key} {m : Mining} (hv : MiningAt env v' k m) (hw : MiningAt env w' k m)
    (h1 : (v' k).lamports = (v k).lamports ∧ (v' k).len = (v k).len)
    (h2 : (w' k).lamports = (w k).lamports ∧ (w' k).len = (w k).len) (he : w k = v k) : w' k = v' k := by
  have a : ∀ x y : Account, x.owner = y.owner → x.lamports = y.lamports → x.len = y.len → x.content = y.content → x = y := by
    rintro ⟨_, _, _, _⟩ ⟨_, _, _, _⟩ rfl rfl rfl rfl; rfl
  refine a _ _ (hw.1.trans hv.1.symm) ?_ ?_ (hw.2.trans hv.2.symm)
  · rw [h2.1, h1.1, he]
  · rw [h2.2, h1.2, he]

theorem ClaimEffect.owners {now : Nat} {w w' : World} {P T V M O A U : Key} {p : Pool} {m m1 : Mining} {n : Nat}
    (h : ClaimEffect env now w w' P T V M O A U p m m1 n) (k : Key) : (w' k).owner = (w k).owner := by
  by_cases e : k = M
  · subst e; exact h.accOwner.1
  · rcases Nat.eq_zero_or_pos n with hz | hp
    · rw [h.zero hz k e]
    · obtain ⟨w1, h1, h2⟩ := h.transfer hp
      rw [(h2.meta' k).1, h1 k e]

/-- What an instruction for a staker leaves alone. -/
theorem Step.staker {now : Nat} {w w' : World} {accs : List AccountInfo} {i : Ix} {ret : Option Nat} {P : Key}
    (h : Step env now w w' accs i ret) (hi : forStaker i = true) (hP : poolArg accs i = some P)
    (hM : ∀ k, Touches accs i k → ∃ m, MiningAt env w k m) :
    ∃ p p', PoolAt env w P p ∧ PoolAt env w' P p' ∧ PoolOk now p ∧ Quiet now p p' ∧ p'.diffs.length ≤ p.diffs.length + 1 ∧
      (∀ k, k ≠ P → ¬ Touches accs i k → (w k).owner ≠ env.tokenProgram → w' k = w k) ∧
      (∀ k, (w' k).owner = (w k).owner) ∧
      ∀ k, Touches accs i k → k ≠ P ∧ (∃ m', MiningAt env w' k m') ∧ (w' k).lamports = (w k).lamports ∧
        (w' k).len = (w k).len := by
  have touched : ∀ k, Touches accs i k → i ≠ .closeMining → (∀ f d, i ≠ .initializePool f d) →
      (∃ m', MiningAt env w' k m') ∧ (w' k).lamports = (w k).lamports ∧ (w' k).len = (w k).len := by
    intro k hk h1 h2
    obtain ⟨m, hm⟩ := hM k hk
    rcases h.mining hm with ⟨m', a, -, b, c⟩ | ⟨a, -⟩ | ⟨f, d, a, -⟩
    · exact ⟨⟨m', a⟩, b, c⟩
    · exact absurd a h1
    · exact absurd a (h2 f d)
  have ne : ∀ p k, PoolAt env w P p → Touches accs i k → k ≠ P := by
    rintro p k hp hk rfl
    obtain ⟨m, hm⟩ := hM k hk
    exact PoolAt.not_mining hp hm
  have hh := touched
  cases h with
  | @stake _ Q M A D p p' m m' d d' accs_eq op chk del quiet same sfo ok' sameDel eff shell written =>
    obtain ⟨h1, h2, h3⟩ := accs_eq.pool ⟨_, _, _, _, _, _, _, _, op⟩
    rw [hP] at h1; cases h1
    refine ⟨p, p', eff.pool, eff.pool', chk.good.ok, quiet,
      op.length chk.good.ok chk.miningOk (fun x hx => (del x hx).ok), ?_, fun k => (shell k).1, ?_⟩
    · intro k k1 k2 _
      refine eff.frame k k1 (fun e => k2 (e ▸ Or.inl h2)) (fun e => ?_)
      by_cases e2 : D.key = M.key
      · exact k2 (e ▸ e2 ▸ Or.inl h2)
      · exact k2 (e ▸ Or.inr (Or.inl (h3 e2)))
    · intro k hk
      refine ⟨ne p k eff.pool hk, hh k hk ?_ ?_⟩
      · rintro rfl; exact op.elim
      · rintro f d rfl; exact op.elim
  | @redelegate a nd Q M A O Old New rest p p' m m' od od' dn dn' accs_eq signed op chk newDel oldOk oldAt ne' quiet same sfo ok'
      sameNew sameOld neP eff shell wo wn =>
    subst accs_eq
    cases hP
    refine ⟨p, p', eff.pool, eff.pool', chk.good.ok, quiet, ?_, ?_, fun k => (shell k).1, ?_⟩
    · rw [changeDelegate_ok] at op
      obtain ⟨-, p1, o1, o2⟩ := op
      rw [withAdd_diffs o2, withSub_diffs o1]; omega
    · intro k k1 k2 _
      exact eff.frame k k1 (fun e => k2 (e ▸ Or.inl rfl)) (fun e => k2 (e ▸ Or.inr (Or.inr rfl)))
        (fun e => k2 (e ▸ Or.inr (Or.inl rfl)))
    · intro k hk
      exact ⟨ne p k eff.pool hk, hh k hk (by intro e; cases e) (by intro _ _ e; cases e)⟩
  | @decrease o n A Q M rest p m m' accs_eq chk pool op mining mining' same ok' sfo frame shell =>
    subst accs_eq
    cases hP
    have hPM : Q.key ≠ M.key := by rintro e; rw [e] at pool; exact PoolAt.not_mining pool mining
    refine ⟨p, p, pool, (poolAt_congr (frame _ hPM)).mpr pool, chk.good.ok, .refl chk.good.ok, by omega, ?_,
      fun k => (shell k).1, ?_⟩
    · intro k _ k2 _
      exact frame k (fun e => k2 (e ▸ Or.inl rfl))
    · intro k hk
      exact ⟨ne p k pool hk, hh k hk (by intro e; cases e) (by intro _ _ e; cases e)⟩
  | @claim Q T V M O A U K rest p m m1 n accs_eq signedO signedA eff =>
    subst accs_eq
    cases hP
    have tokV : Q.key ≠ V.key := by rintro e; have := eff.vaultTok; rw [← e, eff.pool.1] at this; exact env.program_ne_token this
    have tokU : Q.key ≠ U.key := by
      rintro e
      obtain ⟨t, ht, -⟩ := eff.userTok
      have := ht.1; rw [← e, eff.pool.1] at this; exact env.program_ne_token this
    refine ⟨p, p, eff.pool, (poolAt_congr (eff.frame _ (Ne.symm eff.ne) tokV tokU)).mpr eff.pool, eff.good.ok,
      .refl eff.good.ok, by omega, ?_, eff.owners, ?_⟩
    · intro k _ k2 k3
      refine eff.frame k (fun e => k2 (e ▸ Or.inl rfl)) ?_ ?_
      · rintro rfl; exact k3 eff.vaultTok
      · rintro rfl; obtain ⟨t, ht, -⟩ := eff.userTok; exact k3 ht.1
    · intro k hk
      exact ⟨ne p k eff.pool hk, hh k hk (by intro e; cases e) (by intro _ _ e; cases e)⟩
  | _ => cases hi

theorem TokensMoved.diff {w w' : World} {a b : Key} {n : Nat} (h : TokensMoved w w' a b n)
    (hf : ∀ k, k ≠ a → k ≠ b → balance w' k = balance w k) (k : Key) :
    (balance w' k : Int) - balance w k = if a = b then 0 else if k = a then -(n : Int) else if k = b then (n : Int) else 0 := by
  rcases h with ⟨e, h⟩ | ⟨e, h1, h2, h3⟩
  · rw [if_pos e]
    have : balance w' k = balance w k := by
      by_cases e2 : k = a
      · rw [e2]; unfold Spec.balance; rw [h]
      · exact hf k e2 (e ▸ e2)
    omega
  · rw [if_neg e]
    by_cases e2 : k = a
    · rw [if_pos e2, e2, h2]; omega
    · rw [if_neg e2]
      by_cases e3 : k = b
      · rw [if_pos e3, e3, h3]; omega
      · rw [if_neg e3, hf k e2 e3]; omega

/-- The same instruction for a staker, executed in two states. -/
theorem Step.twice {now : Nat} {v v' w w' : World} {accs : List AccountInfo} {i : Ix} {r s : Option Nat} {P : Key} {p q : Pool}
    (hv : Wf env now v) (hw : Wf env now w) (h : Step env now v v' accs i r) (h' : Step env now w w' accs i s)
    (hi : forStaker i = true)
    (hP : poolArg accs i = some P) (hp : PoolAt env v P p) (hq : PoolAt env w P q) (hc : q.cumulative = p.cumulative)
    (hM : ∀ k, Touches accs i k → ∃ m, MiningAt env v k m) (he : ∀ k, Touches accs i k → w k = v k) :
    s = r ∧ (∀ k, Touches accs i k → w' k = v' k) ∧
      (∀ k, (balance w' k : Int) - balance w k = balance v' k - balance v k) ∧
      (p.diffs.length < env.caps.pool → q.diffs.length < env.caps.pool →
        ∀ p' q', PoolAt env v' P p' → PoolAt env w' P q' → ∀ x, midnight now ≤ x →
          totalOn q' x - totalOn q x = totalOn p' x - totalOn p x) := by
  have hM' : ∀ k, Touches accs i k → ∃ m, MiningAt env w k m := fun k hk => by
    obtain ⟨m, hm⟩ := hM k hk
    exact ⟨m, (miningAt_congr (he k hk)).mpr hm⟩
  obtain ⟨-, -, -, -, -, -, -, -, -, l1⟩ := h.staker hi hP hM
  obtain ⟨-, -, -, -, -, -, -, -, -, l2⟩ := h'.staker hi hP hM'
  have same : ∀ k m, Touches accs i k → MiningAt env v' k m → MiningAt env w' k m → w' k = v' k := fun k m hk a b =>
    account_eq a b (l1 k hk).2.2 (l2 k hk).2.2 (he k hk)
  cases h with
  | @stake _ Q M A D p1 p1' m m' d d' accs_eq op chk del quiet same' sfo ok' sameDel eff shell written =>
    obtain ⟨h1, h2, h3⟩ := accs_eq.pool ⟨_, _, _, _, _, _, _, _, op⟩
    rw [hP] at h1; cases h1
    obtain rfl := PoolAt.unique eff.pool hp
    cases h' with
    | @stake _ Q2 M2 A2 D2 p2 p2' m2 m2' d2 d2' accs_eq2 op2 chk2 del2 quiet2 same2 sfo2 ok2 sameDel2 eff2 shell2 written2 =>
      have hacc : Q2 = Q ∧ M2 = M ∧ D2 = D := by
        cases i <;> first
          | exact op.elim
          | (obtain ⟨rest, rfl⟩ := accs_eq; obtain ⟨rest2, e⟩ := accs_eq2; cases e; exact ⟨rfl, rfl, rfl⟩)
          | (obtain ⟨rfl, rest, rfl⟩ := accs_eq; obtain ⟨rfl, rest2, e⟩ := accs_eq2; cases e; exact ⟨rfl, rfl, rfl⟩)
      obtain ⟨rfl, rfl, rfl⟩ := hacc
      obtain rfl := PoolAt.unique eff2.pool hq
      have tM : Touches accs i M2.key := Or.inl h2
      have hm2 : MiningAt env v M2.key m2 := (miningAt_congr (he _ tM)).mp eff2.mining
      obtain rfl := MiningAt.unique hm2 eff.mining
      have hd : d2 = d ∧ (D2.key ≠ M2.key → ∃ x x', d = some x ∧ d' = some x' ∧ MiningAt env v' D2.key x') ∧
          (D2.key ≠ M2.key → ∃ x', d2' = some x' ∧ MiningAt env w' D2.key x') := by
        by_cases e : D2.key = M2.key
        · rcases eff.delegate with ⟨-, a, -⟩ | ⟨a, -⟩
          · rcases eff2.delegate with ⟨-, b, -⟩ | ⟨b, -⟩
            · exact ⟨by rw [a, b], fun x => absurd e x, fun x => absurd e x⟩
            · exact absurd e b
          · exact absurd e a
        · have tD : Touches accs i D2.key := Or.inr (Or.inl (h3 e))
          obtain ⟨y, hy⟩ := hM _ tD
          rcases eff.delegate with ⟨a, -⟩ | ⟨-, -, -, x, x', a1, a2, a3⟩
          · exact absurd a e
          · rcases eff2.delegate with ⟨b, -⟩ | ⟨-, -, -, z, z', b1, b2, b3⟩
            · exact absurd b e
            · obtain ⟨rfl, c1⟩ := a3 y hy
              obtain ⟨rfl, c2⟩ := b3 y ((miningAt_congr (he _ tD)).mpr hy)
              exact ⟨by rw [a1, b1], fun _ => ⟨y, x', a1, a2, c1⟩, fun _ => ⟨z', b2, c2⟩⟩
      obtain ⟨rfl, hd1, hd2⟩ := hd
      obtain ⟨rfl, rfl, ht⟩ := op.fixed chk.good.ok chk2.good.ok chk.miningOk (fun x hx => (del x hx).ok) hc op2
      have sM := same _ _ tM eff.mining' eff2.mining'
      refine ⟨rfl, ?_, ?_, ?_⟩
      · intro k hk
        by_cases e : k = M2.key
        · rw [e]; exact sM
        · have hkD : k = D2.key ∧ D2.key ≠ M2.key := by
            rcases hk with a | a | a
            · rw [h2] at a; cases a; exact absurd rfl e
            · have b : D2.key = k := by
                cases i <;> first
                  | exact op.elim
                  | (obtain ⟨rest, rfl⟩ := accs_eq; cases a; rfl)
                  | (cases a; done)
              exact ⟨b.symm, fun c => e (b ▸ c)⟩
            · cases i <;> first
                | exact op.elim
                | (cases a; done)
          obtain ⟨rfl, e2⟩ := hkD
          obtain ⟨x, x', -, a2, a3⟩ := hd1 e2
          obtain ⟨z', b2, b3⟩ := hd2 e2
          rw [a2] at b2; cases b2
          exact same _ _ hk a3 b3
      · intro k
        rw [Shell.balance_eq hv (shell k), Shell.balance_eq hw (shell2 k)]; omega
      · intro r1 r2 p' q' hp' hq' x hx
        obtain rfl := PoolAt.unique eff.pool' hp'
        obtain rfl := PoolAt.unique eff2.pool' hq'
        exact ht r1 r2 x hx
    | _ => exact op.elim
  | @redelegate a nd Q M A O Old New rest p1 p1' m m' od od' dn dn' accs_eq signed op chk newDel oldOk oldAt ne' quiet same' sfo ok'
      sameNew sameOld neP eff shell wo wn =>
    subst accs_eq
    cases hP
    obtain rfl := PoolAt.unique eff.pool hp
    cases h' with
    | stake _ op => exact op.elim
    | @redelegate _ _ Q2 M2 A2 O2 Old2 New2 rest2 p2 p2' m2 m2' od2 od2' dn2 dn2' accs_eq2 signed2 op2 chk2 newDel2 oldOk2 oldAt2 ne2
        quiet2 same2 sfo2 ok2 sameNew2 sameOld2 neP2 eff2 shell2 wo2 wn2 =>
      cases accs_eq2
      obtain rfl := PoolAt.unique eff2.pool hq
      have tM : Touches (Q :: M :: A :: O :: Old :: New :: rest) (.changeDelegate a nd) M.key := Or.inl rfl
      have tN : Touches (Q :: M :: A :: O :: Old :: New :: rest) (.changeDelegate a nd) New.key := Or.inr (Or.inl rfl)
      have tO : Touches (Q :: M :: A :: O :: Old :: New :: rest) (.changeDelegate a nd) Old.key := Or.inr (Or.inr rfl)
      have hm2 : MiningAt env v M.key m2 := (miningAt_congr (he _ tM)).mp eff2.mining
      obtain rfl := MiningAt.unique hm2 eff.mining
      have moved : ∀ (K : Key) (d d' e e' : Option Mining),
          Touches (Q :: M :: A :: O :: Old :: New :: rest) (.changeDelegate a nd) K →
          OptMoved env v v' M.key K d d' → OptMoved env w w' M.key K e e' → e = d ∧ (K ≠ M.key → ∃ x' z', d' = some x' ∧
            e' = some z' ∧ MiningAt env v' K x' ∧ MiningAt env w' K z') := by
        intro K d d' e e' tK h1 h2
        by_cases c : K = M.key
        · rcases h1 with ⟨-, a, -⟩ | ⟨a, -⟩
          · rcases h2 with ⟨-, b, -⟩ | ⟨b, -⟩
            · exact ⟨by rw [a, b], fun x => absurd c x⟩
            · exact absurd c b
          · exact absurd c a
        · obtain ⟨y, hy⟩ := hM _ tK
          obtain ⟨a1, x', a2, a3⟩ := h1.at c hy
          obtain ⟨b1, z', b2, b3⟩ := h2.at c ((miningAt_congr (he _ tK)).mpr hy)
          exact ⟨by rw [a1, b1], fun _ => ⟨x', z', a2, b2, a3, b3⟩⟩
      obtain ⟨rfl, ho⟩ := moved _ _ _ _ _ tO eff.old eff2.old
      obtain ⟨rfl, hn⟩ := moved _ _ _ _ _ tN eff.new eff2.new
      have t1 := (changeDelegate_effect chk.good.ok chk.miningOk (fun x hx => (newDel x hx).ok) oldOk op).1
      have t2 := (changeDelegate_effect chk2.good.ok chk.miningOk (fun x hx => (newDel x hx).ok) oldOk op2).1
      rw [changeDelegate_ok] at op op2
      obtain ⟨a1, pa, a2, a3⟩ := op
      obtain ⟨b1, pb, b2, b3⟩ := op2
      rw [hc] at b1
      obtain rfl := ok_unique a1 b1
      obtain ⟨rfl, hc2⟩ := withSub_fixed hc a2 b2
      obtain ⟨rfl, -⟩ := withAdd_fixed hc2 a3 b3
      refine ⟨rfl, ?_, ?_, ?_⟩
      · intro k hk
        by_cases e : k = M.key
        · subst e; exact same _ _ tM eff.mining' eff2.mining'
        · rcases hk with c | c | c
          · cases c; exact absurd rfl e
          · cases c
            obtain ⟨x', z', c1, c2, c3, c4⟩ := hn e
            rw [c1] at c2; cases c2
            exact same _ _ tN c3 c4
          · cases c
            obtain ⟨x', z', c1, c2, c3, c4⟩ := ho e
            rw [c1] at c2; cases c2
            exact same _ _ tO c3 c4
      · intro k
        rw [Shell.balance_eq hv (shell k), Shell.balance_eq hw (shell2 k)]; omega
      · intro r1 r2 p' q' hp' hq' x hx
        obtain rfl := PoolAt.unique eff.pool' hp'
        obtain rfl := PoolAt.unique eff2.pool' hq'
        rw [t1 x, t2 x]; omega
  | @decrease o n A Q M rest p1 m m' accs_eq chk pool op mining mining' same' ok' sfo frame shell =>
    subst accs_eq
    cases hP
    obtain rfl := PoolAt.unique pool hp
    cases h' with
    | stake _ op => exact op.elim
    | @decrease _ _ A2 Q2 M2 rest2 p2 m2 m2' accs_eq2 chk2 pool2 op2 mining2 mining2' same2 ok2 sfo2 frame2 shell2 =>
      cases accs_eq2
      obtain rfl := PoolAt.unique pool2 hq
      have tM : Touches (A :: Q :: M :: rest) (.decreaseRewards o n) M.key := Or.inl rfl
      have hm2 : MiningAt env v M.key m2 := (miningAt_congr (he _ tM)).mp mining2
      obtain rfl := MiningAt.unique hm2 mining
      obtain rfl := ok_unique op op2
      have hPM : Q.key ≠ M.key := by rintro e; rw [e] at pool; exact PoolAt.not_mining pool mining
      refine ⟨rfl, ?_, ?_, ?_⟩
      · intro k hk
        rcases hk with c | c | c
        · cases c; exact same _ _ tM mining' mining2'
        · cases c
        · cases c
      · intro k
        rw [Shell.balance_eq hv (shell k), Shell.balance_eq hw (shell2 k)]; omega
      · intro r1 r2 p' q' hp' hq' x hx
        rw [poolAt_congr (frame _ hPM)] at hp'
        rw [poolAt_congr (frame2 _ hPM)] at hq'
        obtain rfl := PoolAt.unique pool hp'
        obtain rfl := PoolAt.unique pool2 hq'
        omega
  | @claim Q T V M O A U K rest p1 m m1 n accs_eq signedO signedA eff =>
    subst accs_eq
    cases hP
    obtain rfl := PoolAt.unique eff.pool hp
    cases h' with
    | stake _ op => exact op.elim
    | @claim Q2 T2 V2 M2 O2 A2 U2 K2 rest2 p2 m2 m21 n2 accs_eq2 signedO2 signedA2 eff2 =>
      cases accs_eq2
      obtain rfl := PoolAt.unique eff2.pool hq
      have tM : Touches (Q :: T :: V :: M :: O :: A :: U :: K :: rest) .claim M.key := Or.inl rfl
      have hm2 : MiningAt env v M.key m2 := (miningAt_congr (he _ tM)).mp eff2.mining
      obtain rfl := MiningAt.unique hm2 eff.mining
      have r2 := eff2.refreshed
      rw [hc] at r2
      obtain rfl := ok_unique eff.refreshed r2
      have hn : n2 = n := by rw [eff.amount, eff2.amount]
      subst hn
      have tokV : Q.key ≠ V.key := by
        rintro e; have := eff.vaultTok; rw [← e, eff.pool.1] at this; exact env.program_ne_token this
      have tokU : Q.key ≠ U.key := by
        rintro e
        obtain ⟨t, ht, -⟩ := eff.userTok
        have := ht.1; rw [← e, eff.pool.1] at this; exact env.program_ne_token this
      have bal : ∀ (x x' : World) (y y' : Mining), MiningAt env x M.key y → MiningAt env x' M.key y' →
          (∀ k, k ≠ M.key → k ≠ V.key → k ≠ U.key → x' k = x k) → ∀ k, k ≠ V.key → k ≠ U.key → balance x' k = balance x k := by
        intro x x' y y' hy hy' hf k k1 k2
        by_cases e : k = M.key
        · rw [e, balance_program hy, balance_program hy']
        · unfold Spec.balance; rw [hf k e k1 k2]
      refine ⟨rfl, ?_, ?_, ?_⟩
      · intro k hk
        rcases hk with c | c | c
        · cases c; exact same _ _ tM eff.mining' eff2.mining'
        · cases c
        · cases c
      · intro k
        rw [TokensMoved.diff eff.moved (bal _ _ _ _ eff.mining eff.mining' eff.frame),
          TokensMoved.diff eff2.moved (bal _ _ _ _ eff2.mining eff2.mining' eff2.frame)]
      · intro r1 r2 p' q' hp' hq' x hx
        rw [poolAt_congr (eff.frame _ (Ne.symm eff.ne) tokV tokU)] at hp'
        rw [poolAt_congr (eff2.frame _ (Ne.symm eff.ne) tokV tokU)] at hq'
        obtain rfl := PoolAt.unique eff.pool hp'
        obtain rfl := PoolAt.unique eff2.pool hq'
        omega
  | _ => cases hi

end Verif
