import Verif.Lemmas.Effects
/-!
Which accounts an instruction changes and how.
-/

namespace Verif

open Spec

variable {env : Env}

theorem putPool_at {w : World} {k : Key} (h : (w k).owner = env.programId) (p : Pool) :
    PoolAt env (putPool w k p) k p := by
  unfold PoolAt putPool
  rw [world_set_same]
  exact ⟨h, rfl⟩

theorem putMining_at {w : World} {k : Key} {m : Mining} (h : MiningAt env w k m) (m' : Mining) :
    MiningAt env (putMining env w k m') k m' := by
  unfold MiningAt putMining at *
  rw [world_set_same]
  unfold storeMining
  split
  · rename_i hv
    rw [h.2] at hv
    simp only [viewMining, Option.some.injEq] at hv
    subst hv; exact h
  · rw [h.2]; exact ⟨h.1, rfl⟩

theorem poolAt_congr {w w' : World} {k : Key} (h : w' k = w k) {p : Pool} : PoolAt env w' k p ↔ PoolAt env w k p := by
  unfold PoolAt; rw [h]

theorem miningAt_congr {w w' : World} {k : Key} (h : w' k = w k) {p : Mining} :
    MiningAt env w' k p ↔ MiningAt env w k p := by
  unfold MiningAt; rw [h]

theorem PoolAt.unique {w : World} {k : Key} {p q : Pool} (h : PoolAt env w k p) (h' : PoolAt env w k q) : p = q := by
  have := h.2.symm.trans h'.2; cases this; rfl

theorem MiningAt.unique {w : World} {k : Key} {p q : Mining} (h : MiningAt env w k p) (h' : MiningAt env w k q) :
    p = q := by
  have := h.2.symm.trans h'.2; cases this; rfl

theorem PoolAt.not_mining {w : World} {k : Key} {p : Pool} {m : Mining} (h : PoolAt env w k p) :
    ¬ MiningAt env w k m := by
  intro h'; have := h.2.symm.trans h'.2; cases this

/-- Accounts involved in a successful stake call and what happened to them. -/
structure StakeEffect (env : Env) (w w' : World) (pk mk dk : Key) (p p' : Pool) (m m' : Mining)
    (d d' : Option Mining) : Prop where
  pool : PoolAt env w pk p
  mining : MiningAt env w mk m
  pool' : PoolAt env w' pk p'
  mining' : MiningAt env w' mk m'
  frame : ∀ k, k ≠ pk → k ≠ mk → k ≠ dk → w' k = w k
  ne : mk ≠ pk
  delegate : (dk = mk ∧ d = none ∧ d' = none) ∨
    (dk ≠ mk ∧ dk ≠ pk ∧ (∀ q, ¬ PoolAt env w dk q) ∧ ∃ x x', d = some x ∧ d' = some x' ∧
      ∀ y, MiningAt env w dk y → y = x ∧ MiningAt env w' dk x')

theorem stakeCall_world {now : Nat} {w : World} (h : Wf env now w) {accs : List AccountInfo} {owner delegate : Key}
    {pool mining dep del : AccountInfo} {p p' : Pool} {m m' : Mining} {d d' : Option Mining}
    (hc : StakeCall env w accs owner delegate pool mining dep del p m d) (hs : RealSigners accs)
    (hr : SameDelegate d d') :
    GoodPool env now pool.key (w pool.key).len p ∧ MiningOk m ∧ (∀ x, d = some x → MiningOk x) ∧
    StakeEffect env w (putDelegate env (putMining env (putPool w pool.key p') mining.key m') del.key d')
      pool.key mining.key del.key p p' m m' d d' := by
  obtain ⟨rest, hacc⟩ := hc.accs_eq
  have hdep : dep.key ≠ 0 := hs dep (by rw [hacc]; simp) hc.signed
  obtain ⟨hpc, hpg⟩ := pool_slot (h pool.key) hc.pool_owned hc.loaded.plen hc.loaded.pview hdep (Or.inl hc.loaded.auth)
  obtain ⟨hmo, hmc, hmi⟩ := mining_slot h hc.mining_owned hc.pool_owned hc.loaded
  have hdo : ∀ x, d = some x → MiningOk x := by
    intro x hx
    rcases hc.delegate with ⟨_, h1⟩ | ⟨_, y, h1, h2⟩
    · rw [h1] at hx; cases hx
    · rw [h1] at hx; cases hx
      exact (delegate_slot h hc.del_owned h2).1
  refine ⟨hpg, hmo, hdo, ?_⟩
  have e1 : putPool w pool.key p' mining.key = w mining.key := putPool_ne _ _ hc.ne
  have m1 : MiningAt env (putPool w pool.key p') mining.key m :=
    (miningAt_congr e1).mpr ⟨hc.mining_owned, hmc⟩
  have m2 := putMining_at m1 m'
  have p2 : PoolAt env (putMining env (putPool w pool.key p') mining.key m') pool.key p' :=
    (poolAt_congr (putMining_ne _ _ (Ne.symm hc.ne))).mpr (putPool_at hc.pool_owned _)
  rcases hc.delegate with ⟨h0, h1⟩ | ⟨hne, y, h1, h2⟩
  · subst h1
    cases d' with
    | some _ => exact hr.elim
    | none =>
      refine ⟨⟨hc.pool_owned, hpc⟩, ⟨hc.mining_owned, hmc⟩, p2, m2, ?_, hc.ne, Or.inl ⟨h0.symm, rfl, rfl⟩⟩
      intro k k1 k2 _
      simp only [putDelegate]
      rw [putMining_ne _ _ k2, putPool_ne _ _ k1]
  · subst h1
    cases d' with
    | none => exact hr.elim
    | some x' =>
      have e2 : putMining env (putPool w pool.key p') mining.key m' del.key = w del.key := by
        rw [putMining_ne _ _ (Ne.symm hne), putPool_ne _ _ h2.ne_pool]
      refine ⟨⟨hc.pool_owned, hpc⟩, ⟨hc.mining_owned, hmc⟩, ?_, ?_, ?_, hc.ne, Or.inr ⟨Ne.symm hne, h2.ne_pool, ?_, y, x', rfl, rfl, ?_⟩⟩
      · exact (poolAt_congr (putMining_ne _ _ (Ne.symm h2.ne_pool))).mpr p2
      · exact (miningAt_congr (putMining_ne _ _ hne)).mpr m2
      · intro k k1 k2 k3
        simp only [putDelegate]
        rw [putMining_ne _ _ k3, putMining_ne _ _ k2, putPool_ne _ _ k1]
      · exact fun q hq => (delegate_slot h hc.del_owned h2).2 q hq.2
      · intro z hz
        refine ⟨?_, putMining_at ((miningAt_congr e2).mpr hz) _⟩
        have := h2.view
        rw [hz.2] at this
        simpa [viewMining] using this

theorem quiet_budget {now : Nat} {p p' : Pool} (h : Quiet now p p') : SameBudget p p' ∧ SameConfig p p' :=
  ⟨⟨h.avail, h.ends, h.index, h.cumulative⟩, h.same.1, h.same.2, h.same.3, h.same.4, h.same.5, h.same.6⟩

theorem SameMining.identity {m m' : Mining} (h : SameMining m m') : SameIdentity m m' := ⟨h.2, h.1, h.4, h.5⟩

/-- The pool part of a stake call, for every pool. -/
theorem StakeEffect.pools {w w' : World} {pk mk dk : Key} {p p' : Pool} {m m' : Mining} {d d' : Option Mining}
    (h : StakeEffect env w w' pk mk dk p p' m m' d d') {k : Key} {q : Pool} (hq : PoolAt env w k q) :
    (k = pk ∧ q = p ∧ PoolAt env w' k p') ∨ (k ≠ pk ∧ PoolAt env w' k q) := by
  by_cases hk : k = pk
  · subst hk; exact Or.inl ⟨rfl, PoolAt.unique hq h.pool, h.pool'⟩
  · refine Or.inr ⟨hk, (poolAt_congr (h.frame k hk ?_ ?_)).mpr hq⟩
    · rintro rfl; exact PoolAt.not_mining hq h.mining
    · rintro rfl
      rcases h.delegate with ⟨h1, _⟩ | ⟨_, _, h1, _⟩
      · rw [h1] at hq; exact PoolAt.not_mining hq h.mining
      · exact h1 q hq

/-- The mining part of a stake call, for every mining. -/
theorem StakeEffect.minings {w w' : World} {pk mk dk : Key} {p p' : Pool} {m m' : Mining} {d d' : Option Mining}
    (h : StakeEffect env w w' pk mk dk p p' m m' d d') {k : Key} {y : Mining} (hy : MiningAt env w k y) :
    (k = mk ∧ y = m ∧ MiningAt env w' k m') ∨
    (k = dk ∧ k ≠ mk ∧ d = some y ∧ ∃ y', d' = some y' ∧ MiningAt env w' k y') ∨
    (k ≠ mk ∧ k ≠ dk ∧ MiningAt env w' k y) := by
  by_cases hk : k = mk
  · subst hk; exact Or.inl ⟨rfl, MiningAt.unique hy h.mining, h.mining'⟩
  · right
    by_cases hk2 : k = dk
    · subst hk2
      rcases h.delegate with ⟨h1, _⟩ | ⟨h0, _, _, x, x', h1, h2, h3⟩
      · exact absurd h1 hk
      · obtain ⟨rfl, h4⟩ := h3 y hy
        exact Or.inl ⟨rfl, hk, h1, x', h2, h4⟩
    · refine Or.inr ⟨hk, hk2, (miningAt_congr (h.frame k ?_ hk hk2)).mpr hy⟩
      rintro rfl; exact PoolAt.not_mining h.pool hy


theorem StakeEffect.change {now : Nat} {w w' : World} {pk mk dk : Key} {p p' : Pool} {m m' : Mining}
    {d d' : Option Mining} (h : StakeEffect env w w' pk mk dk p p' m m' d d') (hq : Quiet now p p')
    (hm : SameMining m m') (hf : m'.stakeFromOthers = m.stakeFromOthers) {del : Int} (hd : DelegateMoved now del d d')
    {poolIf : Pool → Prop} {miningIf : Mining → Prop} {tot own : Nat → Int}
    (ht : poolIf p → ∀ x, midnight now ≤ x → totalOn p' x = totalOn p x + tot x)
    (ho : miningIf m → ∀ x, midnight now ≤ x → weightOn m' x = weightOn m x + own x) :
    StakesChange env now w w' pk mk dk poolIf miningIf tot own del := by
  refine ⟨fun k q hq' => ?_, fun k y hy => ?_, fun k => h.frame k⟩
  · rcases h.pools hq' with ⟨rfl, rfl, h1⟩ | ⟨hk, h1⟩
    · exact ⟨p', h1, (quiet_budget hq).1, (quiet_budget hq).2, fun e => absurd rfl e, fun _ => ht⟩
    · exact ⟨q, h1, ⟨rfl, rfl, rfl, rfl⟩, ⟨rfl, rfl, rfl, rfl, rfl, rfl⟩, fun _ => rfl, fun e => absurd e hk⟩
  · rcases h.minings hy with ⟨rfl, rfl, h1⟩ | ⟨rfl, hk, h1, y', h2, h3⟩ | ⟨hk, hk2, h1⟩
    · exact ⟨m', h1, hm.identity, fun e => absurd rfl e, by rw [hf]; simp, fun _ => ho, fun e => absurd rfl e⟩
    · subst h1 h2
      obtain ⟨g1, g2, g3⟩ := hd
      refine ⟨y', h3, g2.identity, fun _ e => absurd rfl e, by rw [g1]; simp [hk], fun e => absurd e hk, fun _ x hx => ?_⟩
      exact g3 x (by rw [bod_eq_midnight]; exact hx)
    · exact ⟨y, h1, ⟨rfl, rfl, rfl, rfl⟩, fun _ _ => rfl, by simp [hk2], fun e => absurd e hk, fun _ _ _ => rfl⟩

theorem StakeCall.isMining {now : Nat} {w : World} (h : Wf env now w) {accs : List AccountInfo} {owner delegate : Key}
    {pool mining dep del : AccountInfo} {p : Pool} {m : Mining} {d : Option Mining}
    (hc : StakeCall env w accs owner delegate pool mining dep del p m d) (hs : RealSigners accs) :
    IsMiningOf env w mining.key owner pool.key := by
  obtain ⟨rest, hacc⟩ := hc.accs_eq
  have hdep : dep.key ≠ 0 := hs dep (by rw [hacc]; simp) hc.signed
  obtain ⟨hpc, hpg⟩ := pool_slot (h pool.key) hc.pool_owned hc.loaded.plen hc.loaded.pview hdep (Or.inl hc.loaded.auth)
  obtain ⟨hmo, hmc, hmi⟩ := mining_slot h hc.mining_owned hc.pool_owned hc.loaded
  exact ⟨m, p, ⟨hc.mining_owned, hmc⟩, ⟨hc.pool_owned, hpc⟩, hc.loaded.owner, hc.loaded.pool, hc.loaded.addr⟩

theorem StakeCall.some_iff {w : World} {accs : List AccountInfo} {owner delegate : Key}
    {pool mining dep del : AccountInfo} {p : Pool} {m : Mining} {d : Option Mining}
    (hc : StakeCall env w accs owner delegate pool mining dep del p m d) :
    d.isSome = true ↔ del.key ≠ mining.key := by
  rcases hc.delegate with ⟨h0, h1⟩ | ⟨hne, y, h1, h2⟩
  · subst h1; simp [h0]
  · subst h1; simp; exact Ne.symm hne


theorem StakeCall.facts {now : Nat} {w : World} (h : Wf env now w) {accs : List AccountInfo} {owner delegate : Key}
    {pool mining dep del : AccountInfo} {p : Pool} {m : Mining} {d : Option Mining}
    (hc : StakeCall env w accs owner delegate pool mining dep del p m d) (hs : RealSigners accs) :
    GoodPool env now pool.key (w pool.key).len p ∧ MiningOk m ∧ (∀ x, d = some x → MiningOk x) := by
  obtain ⟨h1, h2, h3, -⟩ := stakeCall_world (p' := p) (m' := m) (d' := d) h hc hs
    (by
      rcases hc.delegate with ⟨_, h1⟩ | ⟨_, y, h1, h2⟩
      · rw [h1]; trivial
      · rw [h1]; exact ⟨.refl _, (delegate_slot h hc.del_owned h2).1⟩)
  exact ⟨h1, h2, h3⟩

/-- What happened to an optional delegate account. -/
def OptMoved (env : Env) (w w' : World) (mk dk : Key) (d d' : Option Mining) : Prop :=
  (dk = mk ∧ d = none ∧ d' = none) ∨
    (dk ≠ mk ∧ (∀ q, ¬ PoolAt env w dk q) ∧ ∃ x x', d = some x ∧ d' = some x' ∧
      ∀ y, MiningAt env w dk y → y = x ∧ MiningAt env w' dk x')

/-- Accounts involved in a successful change of delegate and what happened to them. -/
structure RedelegateEffect (env : Env) (w w' : World) (pk mk ok nk : Key) (p p' : Pool) (m m' : Mining)
    (od od' nd nd' : Option Mining) : Prop where
  pool : PoolAt env w pk p
  mining : MiningAt env w mk m
  pool' : PoolAt env w' pk p'
  mining' : MiningAt env w' mk m'
  frame : ∀ k, k ≠ pk → k ≠ mk → k ≠ ok → k ≠ nk → w' k = w k
  old : OptMoved env w w' mk ok od od'
  new : OptMoved env w w' mk nk nd nd'

theorem putDelegate_ne (w : World) {k j : Key} (d : Option Mining) (h : j ≠ k) : putDelegate env w k d j = w j := by
  cases d with
  | none => rfl
  | some m => exact putMining_ne _ _ h

theorem redelegate_world {now : Nat} {w : World} (h : Wf env now w) {owner delegate dep : Key}
    {pool mining oldA newA : AccountInfo} {p p' : Pool} {m m' : Mining} {od od' nd nd' : Option Mining}
    (hdep : dep ≠ 0) (hpo : (w pool.key).owner = env.programId) (hmo : (w mining.key).owner = env.programId)
    (hno : (w newA.key).owner = env.programId) (hoo : (w oldA.key).owner = env.programId)
    (hne : newA.key ≠ oldA.key) (hmp : mining.key ≠ pool.key)
    (hl : PoolAndMining env w owner mining.key pool.key dep p m)
    (hn : (mining.key = newA.key ∧ nd = none) ∨
        (mining.key ≠ newA.key ∧ ∃ x, nd = some x ∧ DelegateOk env w newA.key delegate pool.key x))
    (ho : (mining.key = oldA.key ∧ od = none) ∨ (mining.key ≠ oldA.key ∧ ∃ x, od = some x ∧ oldA.key ≠ pool.key ∧
        MINING_LEN ≤ (w oldA.key).len ∧ viewMining env (w oldA.key).content = some x))
    (hold : ∀ q, ¬ PoolAt env w oldA.key q) :
    GoodPool env now pool.key (w pool.key).len p ∧ MiningOk m ∧ (∀ x, nd = some x → MiningOk x) ∧
    (∀ x, od = some x → MiningOk x) ∧ (SameDelegate nd nd' → SameDelegate od od' →
    RedelegateEffect env w (putDelegate env (putDelegate env (putMining env (putPool w pool.key p') mining.key m')
      oldA.key od') newA.key nd') pool.key mining.key oldA.key newA.key p p' m m' od od' nd nd') := by
  obtain ⟨hpc, hpg⟩ := pool_slot (h pool.key) hpo hl.plen hl.pview hdep (Or.inl hl.auth)
  obtain ⟨hmok, hmc, hmi⟩ := mining_slot h hmo hpo hl
  refine ⟨hpg, hmok, ?_, ?_, ?_⟩
  · rintro x rfl
    rcases hn with ⟨_, h1⟩ | ⟨_, y, h1, h2⟩
    · cases h1
    · cases h1; exact (delegate_slot h hno h2).1
  · rintro x rfl
    rcases ho with ⟨_, h1⟩ | ⟨_, y, h1, h2, h3, h4⟩
    · cases h1
    · cases h1; exact (mining_view (h oldA.key) hoo h4 (fun q hq => hold q ⟨hoo, hq⟩)).1
  · intro hsn hso
    have pn : pool.key ≠ newA.key := by
      rcases hn with ⟨h1, _⟩ | ⟨_, y, h1, h2⟩
      · rw [← h1]; exact Ne.symm hmp
      · exact Ne.symm h2.ne_pool
    have po : pool.key ≠ oldA.key := by
      rcases ho with ⟨h1, _⟩ | ⟨_, y, h1, h2, h3, h4⟩
      · rw [← h1]; exact Ne.symm hmp
      · exact Ne.symm h2
    have m1 : MiningAt env (putPool w pool.key p') mining.key m :=
      (miningAt_congr (putPool_ne _ _ hmp)).mpr ⟨hmo, hmc⟩
    have m2 := putMining_at m1 m'
    refine ⟨⟨hpo, hpc⟩, ⟨hmo, hmc⟩, ?_, ?_, ?_, ?_, ?_⟩
    · rw [poolAt_congr (putDelegate_ne _ _ pn), poolAt_congr (putDelegate_ne _ _ po),
        poolAt_congr (putMining_ne _ _ (Ne.symm hmp))]
      exact putPool_at hpo _
    · have e1 : ∀ w2, MiningAt env w2 mining.key m' → MiningAt env (putDelegate env w2 newA.key nd') mining.key m' := by
        intro w2 h2
        rcases hn with ⟨h1, rfl⟩ | ⟨h1, _⟩
        · cases nd' with
          | none => exact h2
          | some _ => exact hsn.elim
        · exact (miningAt_congr (putDelegate_ne _ _ h1)).mpr h2
      have e2 : ∀ w2, MiningAt env w2 mining.key m' → MiningAt env (putDelegate env w2 oldA.key od') mining.key m' := by
        intro w2 h2
        rcases ho with ⟨h1, rfl⟩ | ⟨h1, _⟩
        · cases od' with
          | none => exact h2
          | some _ => exact hso.elim
        · exact (miningAt_congr (putDelegate_ne _ _ h1)).mpr h2
      exact e1 _ (e2 _ m2)
    · intro k k1 k2 k3 k4
      rw [putDelegate_ne _ _ k4, putDelegate_ne _ _ k3, putMining_ne _ _ k2, putPool_ne _ _ k1]
    · rcases ho with ⟨h1, rfl⟩ | ⟨h1, y, rfl, h2, h3, h4⟩
      · refine Or.inl ⟨h1.symm, rfl, ?_⟩
        cases od' with
        | none => rfl
        | some _ => exact hso.elim
      · cases od' with
        | none => exact hso.elim
        | some y' =>
          refine Or.inr ⟨Ne.symm h1, hold, y, y', rfl, rfl, ?_⟩
          intro z hz
          rw [miningAt_congr (putDelegate_ne _ _ (Ne.symm hne))]
          refine ⟨?_, putMining_at (m := z) ?_ _⟩
          · rw [hz.2] at h4; simpa [viewMining] using h4
          · rw [miningAt_congr (putMining_ne _ _ (Ne.symm h1)), miningAt_congr (putPool_ne _ _ h2)]; exact hz
    · rcases hn with ⟨h1, rfl⟩ | ⟨h1, y, rfl, h2⟩
      · refine Or.inl ⟨h1.symm, rfl, ?_⟩
        cases nd' with
        | none => rfl
        | some _ => exact hsn.elim
      · cases nd' with
        | none => exact hsn.elim
        | some y' =>
          refine Or.inr ⟨Ne.symm h1, fun q hq => (delegate_slot h hno h2).2 q hq.2, y, y', rfl, rfl, ?_⟩
          intro z hz
          refine ⟨?_, putMining_at (m := z) ?_ _⟩
          · have := h2.view
            rw [hz.2] at this; simpa [viewMining] using this
          · rw [miningAt_congr (putDelegate_ne _ _ hne), miningAt_congr (putMining_ne _ _ (Ne.symm h1)),
              miningAt_congr (putPool_ne _ _ h2.ne_pool)]
            exact hz

end Verif
