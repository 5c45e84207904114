import Verif.Lemmas.Split
/-!
Instructions executed one after the other with the same accounts: the state after the first one is ready for the second
one, and what the second one writes replaces what the first one has written.
-/

namespace Verif

open Spec

variable {env : Env}

/-- What the operations on a pool, a mining and up to two delegates write. -/
def writes (env : Env) (w : World) (P M X Y : Key) (r : Pool × Mining × Option Mining × Option Mining) : World :=
  putDelegate env (putDelegate env (putMining env (putPool w P r.1) M r.2.1) X r.2.2.2) Y r.2.2.1

theorem putMining_set {w : World} {k : Key} {x : Mining} (h : MiningAt env w k x) (m : Mining) :
    putMining env w k m = w.set k { w k with content := .mining m } := by
  have hv : viewMining env (w k).content = some x := by rw [h.2]; rfl
  unfold putMining storeMining
  by_cases e : x = m
  · subst e
    rw [if_pos hv, ← h.2]
  · rw [if_neg (fun h => e (Option.some.inj (hv.symm.trans h))), h.2]

theorem miningAt_put {w : World} {k : Key} {x : Mining} (h : MiningAt env w k x) (m : Mining) :
    putMining env w k m k = { w k with content := .mining m } := by rw [putMining_set h, world_set_same]

/-- A delegate slot: nobody, or a mining other than those in `others`. -/
def Slot (env : Env) (w : World) (k : Key) (d : Option Mining) (others : List Key) : Prop :=
  ∀ x, d = some x → k ∉ others ∧ ∃ y, MiningAt env w k y

/-- The accounts of an operation, as far as it matters for what is written. -/
structure Places (env : Env) (w : World) (P M X Y : Key) (od nd : Option Mining) : Prop where
  ne : M ≠ P
  mining : ∃ m, MiningAt env w M m
  old : Slot env w X od [P, M]
  new : Slot env w Y nd [P, M, X]

/-- The content of an account after an operation. -/
def newContent (P M X Y : Key) (r : Pool × Mining × Option Mining × Option Mining) (k : Key) (c : Content) : Content :=
  if k = Y ∧ r.2.2.1.isSome then .mining (r.2.2.1.getD Mining.zero)
  else if k = X ∧ r.2.2.2.isSome then .mining (r.2.2.2.getD Mining.zero)
  else if k = M then .mining r.2.1
  else if k = P then .pool r.1
  else c

theorem writes_at {w : World} {P M X Y : Key} {r : Pool × Mining × Option Mining × Option Mining}
    (h : Places env w P M X Y r.2.2.2 r.2.2.1) (k : Key) :
    writes env w P M X Y r k = { w k with content := newContent P M X Y r k (w k).content } := by
  obtain ⟨p, m, nd, od⟩ := r
  obtain ⟨hMP, ⟨m0, hm⟩, hX, hY⟩ := h
  simp only at hX hY
  have a1 : ∀ j, putPool w P p j = if j = P then { w j with content := .pool p } else w j := by
    intro j
    by_cases e : j = P
    · subst e; rw [if_pos rfl]; unfold putPool storePool; rw [world_set_same]
    · rw [if_neg e, putPool_ne _ _ e]
  have b0 : MiningAt env (putPool w P p) M m0 := by
    unfold MiningAt; rw [putPool_ne _ _ hMP]; exact hm
  have a2 : ∀ j, putMining env (putPool w P p) M m j =
      if j = M then { w j with content := .mining m } else putPool w P p j := by
    intro j
    by_cases e : j = M
    · subst e; rw [if_pos rfl, miningAt_put b0, putPool_ne _ _ hMP]
    · rw [if_neg e, putMining_ne _ _ e]
  have a3 : ∀ j, putDelegate env (putMining env (putPool w P p) M m) X od j =
      if j = X ∧ od.isSome then { w j with content := .mining (od.getD Mining.zero) } else
        putMining env (putPool w P p) M m j := by
    intro j
    cases od with
    | none => simp [putDelegate]
    | some x =>
      obtain ⟨h1, y, hy⟩ := hX x rfl
      simp only [List.mem_cons, List.not_mem_nil, or_false, not_or] at h1
      have b1 : MiningAt env (putMining env (putPool w P p) M m) X y := by
        unfold MiningAt; rw [a2, if_neg h1.2, a1, if_neg h1.1]; exact hy
      by_cases e : j = X
      · subst e
        simp only [putDelegate, Option.isSome_some, and_self, if_true, Option.getD_some]
        rw [miningAt_put b1, a2, if_neg h1.2, a1, if_neg h1.1]
      · rw [if_neg (fun h => e h.1)]
        exact putMining_ne _ _ e
  show putDelegate env (putDelegate env (putMining env (putPool w P p) M m) X od) Y nd k = _
  have a4 : putDelegate env (putDelegate env (putMining env (putPool w P p) M m) X od) Y nd k =
      if k = Y ∧ nd.isSome then { w k with content := .mining (nd.getD Mining.zero) } else
        putDelegate env (putMining env (putPool w P p) M m) X od k := by
    cases nd with
    | none => simp [putDelegate]
    | some x =>
      obtain ⟨h1, y, hy⟩ := hY x rfl
      simp only [List.mem_cons, List.not_mem_nil, or_false, not_or] at h1
      have b1 : putDelegate env (putMining env (putPool w P p) M m) X od Y = w Y := by
        rw [a3, if_neg (fun h => h1.2.2 h.1), a2, if_neg h1.2.1, a1, if_neg h1.1]
      have b2 : MiningAt env (putDelegate env (putMining env (putPool w P p) M m) X od) Y y := by
        unfold MiningAt; rw [b1]; exact hy
      by_cases e : k = Y
      · subst e
        simp only [and_true, Option.isSome_some, if_true, Option.getD_some]
        rw [putDelegate.eq_def]
        simp only
        rw [miningAt_put b2, b1]
      · rw [if_neg (fun h => e h.1)]
        exact putMining_ne _ _ e
  rw [a4, a3, a2, a1]
  unfold newContent
  simp only
  repeat' split
  all_goals rfl

theorem newContent_twice {P M X Y : Key} {r r1 : Pool × Mining × Option Mining × Option Mining}
    (hn : r.2.2.1.isSome = r1.2.2.1.isSome) (ho : r.2.2.2.isSome = r1.2.2.2.isSome) (k : Key) (c : Content) :
    newContent P M X Y r k (newContent P M X Y r1 k c) = newContent P M X Y r k c := by
  unfold newContent
  rw [← hn, ← ho]
  repeat' split
  all_goals first | rfl | contradiction

theorem Places.next {w : World} {P M X Y : Key} {r : Pool × Mining × Option Mining × Option Mining}
    (h : Places env w P M X Y r.2.2.2 r.2.2.1) {od nd : Option Mining} (ho : od.isSome = r.2.2.2.isSome)
    (hn : nd.isSome = r.2.2.1.isSome) : Places env (writes env w P M X Y r) P M X Y od nd := by
  have hat := writes_at h
  obtain ⟨p, m, nd', od'⟩ := r
  have key : ∀ {k : Key} (d : Option Mining), (k = X ∧ od'.isSome = true ∨ k = Y ∧ nd'.isSome = true) →
      ∃ y, MiningAt env (writes env w P M X Y (p, m, nd', od')) k y := by
    intro k d hk
    have hown : (w k).owner = env.programId := by
      rcases hk with ⟨rfl, hs⟩ | ⟨rfl, hs⟩
      · obtain ⟨x, hx⟩ := Option.isSome_iff_exists.mp hs
        exact (h.old x hx).2.choose_spec.1
      · obtain ⟨x, hx⟩ := Option.isSome_iff_exists.mp hs
        exact (h.new x hx).2.choose_spec.1
    unfold MiningAt
    rw [hat]
    unfold newContent
    by_cases e1 : k = Y ∧ nd'.isSome = true
    · exact ⟨_, hown, by rw [if_pos e1]⟩
    · rcases hk with hk | hk
      · exact ⟨_, hown, by rw [if_neg e1, if_pos hk]⟩
      · exact absurd hk e1
  refine ⟨h.ne, ?_, ?_, ?_⟩
  · obtain ⟨m0, h0⟩ := h.mining
    unfold MiningAt
    rw [hat]
    have e1 : ¬ (M = Y ∧ nd'.isSome = true) := by
      rintro ⟨e, hs⟩
      obtain ⟨x, hx⟩ := Option.isSome_iff_exists.mp hs
      exact (h.new x hx).1 (by simp [e])
    have e2 : ¬ (M = X ∧ od'.isSome = true) := by
      rintro ⟨e, hs⟩
      obtain ⟨x, hx⟩ := Option.isSome_iff_exists.mp hs
      exact (h.old x hx).1 (by simp [e])
    exact ⟨m, h0.1, by unfold newContent; rw [if_neg e1, if_neg e2, if_pos rfl]⟩
  · intro x hx
    have hs : od'.isSome = true := by rw [← ho, hx]; rfl
    obtain ⟨z, hz⟩ := Option.isSome_iff_exists.mp hs
    exact ⟨(h.old z hz).1, key od (Or.inl ⟨rfl, hs⟩)⟩
  · intro x hx
    have hs : nd'.isSome = true := by rw [← hn, hx]; rfl
    obtain ⟨z, hz⟩ := Option.isSome_iff_exists.mp hs
    exact ⟨(h.new z hz).1, key nd (Or.inr ⟨rfl, hs⟩)⟩

theorem writes_twice {w : World} {P M X Y : Key} {r r1 : Pool × Mining × Option Mining × Option Mining}
    (h : Places env w P M X Y r1.2.2.2 r1.2.2.1) (hn : r.2.2.1.isSome = r1.2.2.1.isSome)
    (ho : r.2.2.2.isSome = r1.2.2.2.isSome) :
    writes env (writes env w P M X Y r1) P M X Y r = writes env w P M X Y r := by
  have h' : Places env w P M X Y r.2.2.2 r.2.2.1 := by
    refine ⟨h.ne, h.mining, fun x hx => ?_, fun x hx => ?_⟩
    · obtain ⟨z, hz⟩ := Option.isSome_iff_exists.mp (show r1.2.2.2.isSome = true by rw [← ho, hx]; rfl)
      exact h.old z hz
    · obtain ⟨z, hz⟩ := Option.isSome_iff_exists.mp (show r1.2.2.1.isSome = true by rw [← hn, hx]; rfl)
      exact h.new z hz
  funext k
  rw [writes_at (h.next ho hn), writes_at h', writes_at h, newContent_twice hn ho]

/-! ## Stake operations -/

theorem stakeWorld_eq (w : World) (P M D : Key) (p : Pool) (m : Mining) (d : Option Mining) :
    stakeWorld env w P M D p m d = writes env w P M M D (p, m, d, none) := rfl

theorem sameDelegate_isSome {d d' : Option Mining} (h : SameDelegate d d') : d'.isSome = d.isSome := by
  cases d <;> cases d' <;> first | rfl | exact h.elim

theorem Spec.StakeReady.places {w : World} {accs : List AccountInfo} {P M A D : AccountInfo} {rest : List AccountInfo}
    {p : Pool} {m : Mining} {d : Option Mining} {owner delegate : Key}
    (h : StakeReady env w accs P M A D rest p m d owner delegate) {d' : Option Mining} (hd : d'.isSome = d.isSome) :
    Places env w P.key M.key M.key D.key none d' := by
  have hMP : M.key ≠ P.key := by
    intro e; have := h.mining.1; rw [e] at this; exact PoolAt.not_mining h.pool this
  refine ⟨hMP, ⟨m, h.mining.1⟩, nofun, fun x hx => ?_⟩
  rcases h.delegate with ⟨-, rfl⟩ | ⟨e, y, rfl, hy, -⟩
  · rw [hx] at hd; cases hd
  · refine ⟨?_, y, hy.1⟩
    have hDP : D.key ≠ P.key := by
      intro e; have := hy.1; rw [e] at this; exact PoolAt.not_mining h.pool this
    simp only [List.mem_cons, List.not_mem_nil, or_false, not_or]
    exact ⟨hDP, e, e⟩

theorem stakeWorld_twice {w : World} {accs : List AccountInfo} {P M A D : AccountInfo} {rest : List AccountInfo}
    {p p1 p2 : Pool} {m m1 m2 : Mining} {d d1 d2 : Option Mining} {owner delegate : Key}
    (h : StakeReady env w accs P M A D rest p m d owner delegate) (h1 : SameDelegate d d1) (h2 : SameDelegate d1 d2) :
    stakeWorld env (stakeWorld env w P.key M.key D.key p1 m1 d1) P.key M.key D.key p2 m2 d2 =
      stakeWorld env w P.key M.key D.key p2 m2 d2 := by
  rw [stakeWorld_eq, stakeWorld_eq, stakeWorld_eq]
  exact writes_twice (r := (p2, m2, d2, none)) (r1 := (p1, m1, d1, none)) (h.places (sameDelegate_isSome h1))
    (sameDelegate_isSome h2) rfl

theorem Spec.StakeReady.next {w : World} {accs : List AccountInfo} {P M A D : AccountInfo} {rest : List AccountInfo}
    {p p' : Pool} {m m' : Mining} {d d' : Option Mining} {owner delegate : Key}
    (h : StakeReady env w accs P M A D rest p m d owner delegate) (hp : SamePool p p') (hm : SameMining m m')
    (hd : SameDelegate d d') :
    StakeReady env (stakeWorld env w P.key M.key D.key p' m' d') accs P M A D rest p' m' d' owner delegate := by
  have hpl := h.places (sameDelegate_isSome hd)
  have hat : ∀ k, stakeWorld env w P.key M.key D.key p' m' d' k = _ := fun k =>
    (congrFun (stakeWorld_eq w _ _ _ p' m' d') k).trans (writes_at (r := (p', m', d', none)) hpl k)
  have hDn : ∀ x, d' = some x → D.key ≠ P.key ∧ D.key ≠ M.key := by
    intro x hx
    have := (hpl.new x hx).1
    simp only [List.mem_cons, List.not_mem_nil, or_false, not_or] at this
    exact ⟨this.1, this.2.1⟩
  have e1 : ¬ (P.key = D.key ∧ d'.isSome = true) := by
    rintro ⟨e, hs⟩
    obtain ⟨x, hx⟩ := Option.isSome_iff_exists.mp hs
    exact (hDn x hx).1 e.symm
  have e2 : ¬ (M.key = D.key ∧ d'.isSome = true) := by
    rintro ⟨e, hs⟩
    obtain ⟨x, hx⟩ := Option.isSome_iff_exists.mp hs
    exact (hDn x hx).2 e.symm
  have hP : PoolAt env (stakeWorld env w P.key M.key D.key p' m' d') P.key p' := by
    refine ⟨by rw [hat]; exact h.pool.1, ?_⟩
    rw [hat]
    simp only [newContent, Option.isSome_none, Bool.false_eq_true, and_false, if_false]
    rw [if_neg e1, if_neg (Ne.symm hpl.ne)]
    exact if_pos trivial
  have hM : Member env (stakeWorld env w P.key M.key D.key p' m' d') P.key M.key m' := by
    refine ⟨⟨by rw [hat]; exact h.mining.1.1, ?_⟩, by rw [hm.rewardPool]; exact h.mining.2⟩
    rw [hat]
    simp only [newContent, Option.isSome_none, Bool.false_eq_true, and_false, if_false]
    rw [if_neg e2]
    exact if_pos trivial
  refine ⟨h.accs_eq, hP, hM, by rw [hm.owner]; exact h.owner, by rw [hp.depositAuthority]; exact h.authority, ?_, h.writable⟩
  rcases h.delegate with ⟨e, rfl⟩ | ⟨e, y, rfl, hy, ho⟩
  · left
    refine ⟨e, ?_⟩
    cases d' with
    | none => rfl
    | some x => exact hd.elim
  · right
    cases d' with
    | none => exact hd.elim
    | some x =>
      refine ⟨e, x, rfl, ⟨⟨by rw [hat]; exact hy.1.1, ?_⟩, by rw [hd.1.rewardPool]; exact hy.2⟩, by rw [hd.1.owner]; exact ho⟩
      rw [hat]
      simp [newContent]

theorem withdraw_exec_eq {now : Nat} {w : World} (hw : Wf env now w) {accs : List AccountInfo} {P M A D : AccountInfo}
    {rest : List AccountInfo} {p : Pool} {m : Mining} {d : Option Mining} {owner delegate : Key} {a : Nat}
    (h : StakeReady env w accs P M A D rest p m d owner delegate) (w' : World) :
    exec env now w accs (.withdrawMining a owner delegate) = .ok (w', none) ↔
      ∃ r, p.withdraw now m a d = .ok r ∧ w' = stakeWorld env w P.key M.key D.key r.1 r.2.1 r.2.2 := by
  constructor
  · intro hx
    obtain ⟨r, hr⟩ := (withdraw_exec_iff hw h).mp ⟨_, hx⟩
    rw [withdraw_exec hw h hr] at hx
    cases hx
    exact ⟨r, hr, rfl⟩
  · rintro ⟨r, hr, rfl⟩; exact withdraw_exec hw h hr

theorem deposit_exec_eq {now : Nat} {w : World} (hw : Wf env now w) {accs : List AccountInfo} {P M A D : AccountInfo}
    {rest : List AccountInfo} {p : Pool} {m : Mining} {d : Option Mining} {owner delegate : Key} {a : Nat}
    {per : LockupPeriod} (h : StakeReady env w accs P M A D rest p m d owner delegate) (w' : World) :
    exec env now w accs (.depositMining a per owner delegate) = .ok (w', none) ↔
      ∃ r, p.deposit env.caps now m a per d = .ok r ∧ w' = stakeWorld env w P.key M.key D.key r.1 r.2.1 r.2.2 := by
  constructor
  · intro hx
    obtain ⟨r, hr⟩ := (deposit_exec_iff hw h).mp ⟨_, hx⟩
    rw [deposit_exec hw h hr] at hx
    cases hx
    exact ⟨r, hr, rfl⟩
  · rintro ⟨r, hr, rfl⟩; exact deposit_exec hw h hr

/-- Two instructions, each of which replaces what is stored by the result of an operation. -/
theorem two_execs {now : Nat} {w : World} {accs : List AccountInfo} {i i1 i2 : Ix} {R : Type} {x y : Res R} {z : R → Res R}
    {W : World → R → World}
    (hx : ∀ w', exec env now w accs i = .ok (w', none) ↔ ∃ r, x = .ok r ∧ w' = W w r)
    (hy : ∀ w', exec env now w accs i1 = .ok (w', none) ↔ ∃ r, y = .ok r ∧ w' = W w r)
    (hz : ∀ r1, y = .ok r1 → ∀ w', exec env now (W w r1) accs i2 = .ok (w', none) ↔ ∃ r, z r1 = .ok r ∧ w' = W (W w r1) r)
    (hW : ∀ r1 r, y = .ok r1 → z r1 = .ok r → W (W w r1) r = W w r)
    (hs : ∀ r, x = .ok r ↔ ∃ r1, y = .ok r1 ∧ z r1 = .ok r) : SameAsTwo env now w accs i i1 i2 := by
  intro w'
  rw [hx]
  constructor
  · rintro ⟨r, hr, rfl⟩
    obtain ⟨r1, h1, h2⟩ := (hs r).mp hr
    exact ⟨_, (hy _).mpr ⟨r1, h1, rfl⟩, (hz r1 h1 _).mpr ⟨r, h2, (hW r1 r h1 h2).symm⟩⟩
  · rintro ⟨w1, h1, h2⟩
    obtain ⟨r1, g1, rfl⟩ := (hy _).mp h1
    obtain ⟨r, g2, rfl⟩ := (hz r1 g1 _).mp h2
    exact ⟨r, (hs r).mpr ⟨r1, g1, g2⟩, hW r1 r g1 g2⟩

theorem Spec.StakeReady.oks {now : Nat} {w : World} (hw : Wf env now w) {accs : List AccountInfo} {P M A D : AccountInfo}
    {rest : List AccountInfo} {p : Pool} {m : Mining} {d : Option Mining} {owner delegate : Key}
    (h : StakeReady env w accs P M A D rest p m d owner delegate) :
    PoolOk now p ∧ MiningOk m ∧ ∀ x, d = some x → MiningOk x := by
  refine ⟨(poolAt_good hw h.pool).ok, (miningAt_ok hw h.mining.1).1, fun x hx => ?_⟩
  rcases h.delegate with ⟨-, rfl⟩ | ⟨-, y, rfl, hy, -⟩
  · cases hx
  · cases hx; exact (miningAt_ok hw hy.1).1

theorem withdraw_twice {now : Nat} {w : World} (hw : Wf env now w) {accs : List AccountInfo} (hs : RealSigners accs)
    {P M A D : AccountInfo} {rest : List AccountInfo} {p : Pool} {m : Mining} {d : Option Mining} {owner delegate : Key}
    {a b : Nat} (h : StakeReady env w accs P M A D rest p m d owner delegate) (hm : Fine m) (hd : ∀ x, d = some x → Fine x)
    (hu : DelegateUpToDate now p.cumulative d) :
    SameAsTwo env now w accs (.withdrawMining (a + b) owner delegate) (.withdrawMining a owner delegate)
      (.withdrawMining b owner delegate) := by
  obtain ⟨o1, o2, o3⟩ := h.oks hw
  refine two_execs (W := fun w (r : Pool × Mining × Option Mining) => stakeWorld env w P.key M.key D.key r.1 r.2.1 r.2.2) (withdraw_exec_eq hw h)
    (withdraw_exec_eq hw h) (z := fun r1 => r1.1.withdraw now r1.2.1 b r1.2.2) ?_ ?_
    (withdraw_split o1.history o1.sorted hm hd hu)
  · intro r1 h1 w'
    obtain ⟨q, s, -, -, sd⟩ := withdraw_same o1 o2 o3 h1
    exact withdraw_exec_eq (wf_process hw hs (by exact trivial) (exec_none (withdraw_exec hw h h1))) (h.next q.same s sd) w'
  · intro r1 r h1 h2
    obtain ⟨q, s, mo, -, sd⟩ := withdraw_same o1 o2 o3 h1
    obtain ⟨-, -, -, -, sd2⟩ := withdraw_same q.ok mo sd.ok h2
    exact stakeWorld_twice h sd sd2

theorem deposit_twice {now : Nat} {w : World} (hw : Wf env now w) {accs : List AccountInfo} (hs : RealSigners accs)
    {P M A D : AccountInfo} {rest : List AccountInfo} {p : Pool} {m : Mining} {d : Option Mining} {owner delegate : Key}
    {a b k n : Nat} {per : LockupPeriod} (ht : terms per = some (k, n))
    (h : StakeReady env w accs P M A D rest p m d owner delegate) (hm : Fine m) (hd : ∀ x, d = some x → Fine x)
    (hu : DelegateUpToDate now p.cumulative d) (hfit : m.share + m.stakeFromOthers + a * k < 2 ^ 64) :
    SameAsTwo env now w accs (.depositMining (a + b) per owner delegate) (.depositMining a per owner delegate)
      (.depositMining b per owner delegate) := by
  obtain ⟨o1, o2, o3⟩ := h.oks hw
  refine two_execs (W := fun w (r : Pool × Mining × Option Mining) => stakeWorld env w P.key M.key D.key r.1 r.2.1 r.2.2) (deposit_exec_eq hw h)
    (deposit_exec_eq hw h) (z := fun r1 => r1.1.deposit env.caps now r1.2.1 b per r1.2.2) ?_ ?_
    (deposit_split ht o1.history o1.sorted hm hd hu hfit)
  · intro r1 h1 w'
    obtain ⟨q, s, -, -, sd⟩ := deposit_same o1 o2 o3 h1
    exact deposit_exec_eq (wf_process hw hs (by exact trivial) (exec_none (deposit_exec hw h h1))) (h.next q.same s sd) w'
  · intro r1 r h1 h2
    obtain ⟨q, s, mo, -, sd⟩ := deposit_same o1 o2 o3 h1
    obtain ⟨-, -, -, -, sd2⟩ := deposit_same q.ok mo sd.ok h2
    exact stakeWorld_twice h sd sd2

/-! ## Changes of delegate -/

theorem redelegate_exec_eq {now : Nat} {w : World} (hw : Wf env now w) {accs : List AccountInfo} {P M A O X Y : AccountInfo}
    {rest : List AccountInfo} {p : Pool} {m : Mining} {od nd : Option Mining} {delegate : Key} {a : Nat}
    (h : RedelegateReady env w accs P M A O X Y rest p m od nd delegate) (w' : World) :
    exec env now w accs (.changeDelegate a delegate) = .ok (w', none) ↔
      ∃ r, p.changeDelegate now m nd od a = .ok r ∧ w' = writes env w P.key M.key X.key Y.key r := by
  have fwd : ∀ w', exec env now w accs (.changeDelegate a delegate) = .ok (w', none) →
      ∃ r, p.changeDelegate now m nd od a = .ok r ∧ w' = writes env w P.key M.key X.key Y.key r := by
    intro w' hx
    have := exec_none hx
    simp only [process, res_bind_ok, res_pure_ok, Prod.mk.injEq] at this
    obtain ⟨w1, h1, rfl, -⟩ := this
    obtain ⟨_, _, _, _, _, _, _, q, x, n', o', p', m', nd', od', hacc, -, -, -, -, -, -, -, -, hl, hn, ho, h2, rfl⟩ :=
      processChangeDelegate_ok h1
    have := h.accs_eq.symm.trans hacc
    simp only [List.cons.injEq] at this
    obtain ⟨rfl, rfl, rfl, rfl, rfl, rfl, rfl⟩ := this
    obtain rfl := view_pool h.pool hl.pview
    obtain rfl := view_mining h.mining.1 hl.mview
    have en : n' = nd := by
      rcases h.new with ⟨e1, rfl⟩ | ⟨e1, y, rfl, hy, -⟩ <;> rcases hn with ⟨f1, rfl⟩ | ⟨f1, z, rfl, hz⟩
      · rfl
      · exact absurd e1.symm f1
      · exact absurd f1.symm e1
      · rw [view_mining hy.1 hz.view]
    have eo : o' = od := by
      rcases h.old with ⟨e1, rfl⟩ | ⟨e1, y, rfl, hy⟩ <;> rcases ho with ⟨f1, rfl⟩ | ⟨f1, z, rfl, -, -, hz⟩
      · rfl
      · exact absurd e1.symm f1
      · exact absurd f1.symm e1
      · rw [view_mining hy.1 hz]
    subst en eo
    exact ⟨_, h2, rfl⟩
  refine ⟨fwd w', ?_⟩
  rintro ⟨r, hr, rfl⟩
  obtain ⟨w1, h1⟩ := redelegate_exec hw h hr
  obtain ⟨r', hr', rfl⟩ := fwd w1 h1
  rw [hr] at hr'
  cases hr'
  exact h1

theorem Spec.RedelegateReady.places {w : World} {accs : List AccountInfo} {P M A O X Y : AccountInfo}
    {rest : List AccountInfo} {p : Pool} {m : Mining} {od nd : Option Mining} {delegate : Key}
    (h : RedelegateReady env w accs P M A O X Y rest p m od nd delegate) {od' nd' : Option Mining}
    (ho : od'.isSome = od.isSome) (hn : nd'.isSome = nd.isSome) : Places env w P.key M.key X.key Y.key od' nd' := by
  have hnm : ∀ {k x}, Member env w P.key k x → k ≠ P.key := fun hx e => by
    have := hx.1; rw [e] at this; exact PoolAt.not_mining h.pool this
  refine ⟨hnm h.mining, ⟨m, h.mining.1⟩, fun x hx => ?_, fun x hx => ?_⟩
  · rcases h.old with ⟨-, rfl⟩ | ⟨e, y, rfl, hy⟩
    · rw [hx] at ho; cases ho
    · refine ⟨?_, y, hy.1⟩
      simp only [List.mem_cons, List.not_mem_nil, or_false, not_or]
      exact ⟨hnm hy, e⟩
  · rcases h.new with ⟨-, rfl⟩ | ⟨e, y, rfl, hy, -⟩
    · rw [hx] at hn; cases hn
    · refine ⟨?_, y, hy.1⟩
      simp only [List.mem_cons, List.not_mem_nil, or_false, not_or]
      exact ⟨hnm hy, e, h.different⟩

theorem Spec.RedelegateReady.next {w : World} {accs : List AccountInfo} {P M A O X Y : AccountInfo}
    {rest : List AccountInfo} {p p' : Pool} {m m' : Mining} {od nd od' nd' : Option Mining} {delegate : Key}
    (h : RedelegateReady env w accs P M A O X Y rest p m od nd delegate) (hp : SamePool p p') (hm : SameMining m m')
    (ho : SameDelegate od od') (hn : SameDelegate nd nd') :
    RedelegateReady env (writes env w P.key M.key X.key Y.key (p', m', nd', od')) accs P M A O X Y rest p' m' od' nd'
      delegate := by
  have hpl := h.places (sameDelegate_isSome ho) (sameDelegate_isSome hn)
  have hat : ∀ k, writes env w P.key M.key X.key Y.key (p', m', nd', od') k = _ := fun k =>
    writes_at (r := (p', m', nd', od')) hpl k
  have hXn : ∀ x, od' = some x → X.key ≠ P.key ∧ X.key ≠ M.key := by
    intro x hx
    have := (hpl.old x hx).1
    simp only [List.mem_cons, List.not_mem_nil, or_false, not_or] at this
    exact this
  have hYn : ∀ x, nd' = some x → Y.key ≠ P.key ∧ Y.key ≠ M.key := by
    intro x hx
    have := (hpl.new x hx).1
    simp only [List.mem_cons, List.not_mem_nil, or_false, not_or] at this
    exact ⟨this.1, this.2.1⟩
  have n1 : ∀ k : Key, (∀ x, nd' = some x → Y.key ≠ k) → ¬ (k = Y.key ∧ nd'.isSome = true) := by
    rintro k hk ⟨e, hs⟩
    obtain ⟨x, hx⟩ := Option.isSome_iff_exists.mp hs
    exact hk x hx e.symm
  have n2 : ∀ k : Key, (∀ x, od' = some x → X.key ≠ k) → ¬ (k = X.key ∧ od'.isSome = true) := by
    rintro k hk ⟨e, hs⟩
    obtain ⟨x, hx⟩ := Option.isSome_iff_exists.mp hs
    exact hk x hx e.symm
  have hP : PoolAt env (writes env w P.key M.key X.key Y.key (p', m', nd', od')) P.key p' := by
    refine ⟨by rw [hat]; exact h.pool.1, ?_⟩
    rw [hat]
    simp only [newContent]
    rw [if_neg (n1 _ (fun x hx => (hYn x hx).1)), if_neg (n2 _ (fun x hx => (hXn x hx).1)), if_neg (Ne.symm hpl.ne)]
    exact if_pos trivial
  have hM : Member env (writes env w P.key M.key X.key Y.key (p', m', nd', od')) P.key M.key m' := by
    refine ⟨⟨by rw [hat]; exact h.mining.1.1, ?_⟩, by rw [hm.rewardPool]; exact h.mining.2⟩
    rw [hat]
    simp only [newContent]
    rw [if_neg (n1 _ (fun x hx => (hYn x hx).2)), if_neg (n2 _ (fun x hx => (hXn x hx).2))]
    exact if_pos trivial
  refine ⟨h.accs_eq, hP, hM, by rw [hm.owner]; exact h.owner, by rw [hp.depositAuthority]; exact h.authority, h.different,
    ?_, ?_, h.writable⟩
  · rcases h.old with ⟨e, rfl⟩ | ⟨e, y, rfl, hy⟩
    · left
      refine ⟨e, ?_⟩
      cases od' with
      | none => rfl
      | some x => exact ho.elim
    · right
      cases od' with
      | none => exact ho.elim
      | some x =>
        refine ⟨e, x, rfl, ⟨⟨by rw [hat]; exact hy.1.1, ?_⟩, by rw [ho.1.rewardPool]; exact hy.2⟩⟩
        rw [hat]
        simp [newContent, Ne.symm h.different]
  · rcases h.new with ⟨e, rfl⟩ | ⟨e, y, rfl, hy, hown⟩
    · left
      refine ⟨e, ?_⟩
      cases nd' with
      | none => rfl
      | some x => exact hn.elim
    · right
      cases nd' with
      | none => exact hn.elim
      | some x =>
        refine ⟨e, x, rfl, ⟨⟨by rw [hat]; exact hy.1.1, ?_⟩, by rw [hn.1.rewardPool]; exact hy.2⟩, by
          rw [hn.1.owner]; exact hown⟩
        rw [hat]
        simp [newContent]

theorem Spec.RedelegateReady.oks {now : Nat} {w : World} (hw : Wf env now w) {accs : List AccountInfo}
    {P M A O X Y : AccountInfo} {rest : List AccountInfo} {p : Pool} {m : Mining} {od nd : Option Mining} {delegate : Key}
    (h : RedelegateReady env w accs P M A O X Y rest p m od nd delegate) :
    PoolOk now p ∧ MiningOk m ∧ (∀ x, nd = some x → MiningOk x) ∧ ∀ x, od = some x → MiningOk x := by
  refine ⟨(poolAt_good hw h.pool).ok, (miningAt_ok hw h.mining.1).1, fun x hx => ?_, fun x hx => ?_⟩
  · rcases h.new with ⟨-, rfl⟩ | ⟨-, y, rfl, hy, -⟩
    · cases hx
    · cases hx; exact (miningAt_ok hw hy.1).1
  · rcases h.old with ⟨-, rfl⟩ | ⟨-, y, rfl, hy⟩
    · cases hx
    · cases hx; exact (miningAt_ok hw hy.1).1

theorem Spec.RedelegateReady.clean {w : World} {accs : List AccountInfo} {P M A O X Y : AccountInfo}
    {rest : List AccountInfo} {p : Pool} {m : Mining} {od nd : Option Mining} {delegate : Key} {a : Nat}
    (h : RedelegateReady env w accs P M A O X Y rest p m od nd delegate) :
    NotPoolAsMining env w accs (.changeDelegate a delegate) := by
  intro x hx q hq
  rw [h.accs_eq] at hx
  simp only [List.getElem?_cons_succ, List.getElem?_cons_zero, Option.some.injEq] at hx
  subst hx
  rcases h.old with ⟨e, -⟩ | ⟨-, y, -, hy⟩
  · rw [e] at hq; exact PoolAt.not_mining hq h.mining.1
  · exact PoolAt.not_mining hq hy.1

theorem redelegate_twice {now : Nat} {w : World} (hw : Wf env now w) {accs : List AccountInfo} (hs : RealSigners accs)
    {P M A O X Y : AccountInfo} {rest : List AccountInfo} {p : Pool} {m : Mining} {od nd : Option Mining} {delegate : Key}
    {a b : Nat} (h : RedelegateReady env w accs P M A O X Y rest p m od nd delegate) (hm : Fine m)
    (ho : ∀ x, od = some x → Fine x) (hn : ∀ x, nd = some x → Fine x)
    (huo : DelegateUpToDate now p.cumulative od) (hun : DelegateUpToDate now p.cumulative nd)
    (htot : p.totalShare < 2 ^ 64) (hfit : od.isSome = true → a + b ≤ p.totalShare) :
    SameAsTwo env now w accs (.changeDelegate (a + b) delegate) (.changeDelegate a delegate)
      (.changeDelegate b delegate) := by
  obtain ⟨o1, o2, o3, o4⟩ := h.oks hw
  refine two_execs (W := fun w (r : Pool × Mining × Option Mining × Option Mining) =>
      writes env w P.key M.key X.key Y.key r) (redelegate_exec_eq hw h)
    (redelegate_exec_eq hw h) (z := fun r1 => r1.1.changeDelegate now r1.2.1 r1.2.2.1 r1.2.2.2 b) ?_ ?_
    (redelegate_split o1.history hm ho hn huo hun htot hfit)
  · intro r1 h1 w'
    obtain ⟨q, s, -, -, sn, so⟩ := changeDelegate_same o1 o2 o3 o4 h1
    exact redelegate_exec_eq (wf_process hw hs h.clean (exec_none ((redelegate_exec_eq hw h _).mpr ⟨r1, h1, rfl⟩)))
      (h.next q.same s so sn) w'
  · intro r1 r h1 h2
    obtain ⟨q, s, mo, -, sn, so⟩ := changeDelegate_same o1 o2 o3 o4 h1
    obtain ⟨-, -, -, -, sn2, so2⟩ := changeDelegate_same q.ok mo sn.ok so.ok h2
    exact writes_twice (h.places (sameDelegate_isSome so) (sameDelegate_isSome sn)) (sameDelegate_isSome sn2)
      (sameDelegate_isSome so2)

/-! ## Slashing -/

theorem slash_exec_eq {now : Nat} {w : World} (hw : Wf env now w) {accs : List AccountInfo} {A P M : AccountInfo}
    {rest : List AccountInfo} {p : Pool} {m : Mining} {owner : Key} {n mu : Nat} {ex : Option Nat}
    (h : SlashReady env w accs A P M rest p m owner) (w' : World) :
    exec env now w accs (.slash owner n mu ex) = .ok (w', none) ↔
      ∃ r, p.slash now m n mu ex = .ok r ∧ w' = writes env w P.key M.key M.key M.key (r.1, r.2, none, none) := by
  constructor
  · intro hx
    obtain ⟨r, hr⟩ := (slash_exec_iff hw h).mp ⟨_, hx⟩
    rw [slash_exec hw h hr] at hx
    cases hx
    exact ⟨r, hr, rfl⟩
  · rintro ⟨r, hr, rfl⟩; exact slash_exec hw h hr

theorem Spec.SlashReady.places {w : World} {accs : List AccountInfo} {A P M : AccountInfo} {rest : List AccountInfo}
    {p : Pool} {m : Mining} {owner : Key} (h : SlashReady env w accs A P M rest p m owner) :
    Places env w P.key M.key M.key M.key none none := by
  refine ⟨?_, ⟨m, h.mining.1⟩, nofun, nofun⟩
  intro e; have := h.mining.1; rw [e] at this; exact PoolAt.not_mining h.pool this

theorem Spec.SlashReady.next {w : World} {accs : List AccountInfo} {A P M : AccountInfo} {rest : List AccountInfo}
    {p p' : Pool} {m m' : Mining} {owner : Key} (h : SlashReady env w accs A P M rest p m owner) (hp : SamePool p p')
    (hm : SameMining m m') :
    SlashReady env (writes env w P.key M.key M.key M.key (p', m', none, none)) accs A P M rest p' m' owner := by
  have hat := writes_at (r := (p', m', none, none)) h.places
  refine ⟨h.accs_eq, ⟨by rw [hat]; exact h.pool.1, ?_⟩, ⟨⟨by rw [hat]; exact h.mining.1.1, ?_⟩, by
    rw [hm.rewardPool]; exact h.mining.2⟩, by rw [hm.owner]; exact h.owner, by
    rw [hp.depositAuthority]; exact h.authority, h.writable⟩
  · rw [hat]; simp [newContent, Ne.symm h.places.ne]
  · rw [hat]; simp [newContent]

theorem slash_twice {now : Nat} {w : World} (hw : Wf env now w) {accs : List AccountInfo} (hs : RealSigners accs)
    {A P M : AccountInfo} {rest : List AccountInfo} {p : Pool} {m : Mining} {owner : Key} {n1 n2 mu1 mu2 : Nat}
    {ex : Option Nat} (h : SlashReady env w accs A P M rest p m owner) (hm : Fine m) (hle : n1 ≤ mu1 ∧ n2 ≤ mu2) :
    SameAsTwo env now w accs (.slash owner (n1 + n2) (mu1 + mu2) ex) (.slash owner n1 mu1 ex) (.slash owner n2 mu2 ex) := by
  have o1 := (poolAt_good hw h.pool).ok
  have o2 := (miningAt_ok hw h.mining.1).1
  refine two_execs (W := fun w (r : Pool × Mining) => writes env w P.key M.key M.key M.key (r.1, r.2, none, none))
    (slash_exec_eq hw h) (slash_exec_eq hw h) (z := fun r1 => r1.1.slash now r1.2 n2 mu2 ex) ?_ ?_
    (slash_split o1.history o1.sorted hm hle)
  · intro r1 h1 w'
    obtain ⟨q, s, -, -⟩ := slash_same o1 o2 h1
    exact slash_exec_eq (wf_process hw hs (by exact trivial) (exec_none (slash_exec hw h h1))) (h.next q.same s) w'
  · intro r1 r h1 h2
    exact writes_twice (r := (r.1, r.2, none, none)) (r1 := (r1.1, r1.2, none, none)) h.places rfl rfl

/-! ## Penalties -/

theorem decreaseLoop_twice (n1 n2 : Nat) (l : List (Nat × Nat)) :
    Mining.decreaseLoop n2 (Mining.decreaseLoop n1 l) = Mining.decreaseLoop (n1 + n2) l := by
  induction l generalizing n1 n2 with
  | nil => rfl
  | cons e l ih =>
    obtain ⟨d, v⟩ := e
    rw [Mining.decreaseLoop]
    by_cases h1 : v ≥ n1
    · rw [if_pos h1, Mining.decreaseLoop]
      conv => rhs; rw [Mining.decreaseLoop]
      by_cases h2 : v - n1 ≥ n2
      · rw [if_pos h2, if_pos (by omega), Nat.sub_sub]
      · rw [if_neg h2, if_neg (by omega)]
        congr 2; omega
    · rw [if_neg h1, Mining.decreaseLoop]
      conv => rhs; rw [Mining.decreaseLoop]
      rw [if_neg (show ¬ v ≥ n1 + n2 by omega)]
      by_cases h2 : 0 ≥ n2
      · have : n2 = 0 := by omega
        subst this
        rw [if_pos (by omega)]
        rfl
      · rw [if_neg h2, ih]
        congr 2; omega

theorem decrease_solved {m : Mining} {n : Nat} (r : Mining) : m.decreaseRewards n = .ok r ↔
    n ≤ m.share ∧ r = { m with share := m.share - n, diffs := (Mining.decreaseLoop n m.diffs.reverse).reverse } := by
  rw [decreaseRewards_ok]
  constructor
  · rintro (⟨rfl, rfl⟩ | ⟨-, h2, h3⟩)
    · rw [decreaseLoop_zero, List.reverse_reverse]; exact ⟨by omega, rfl⟩
    · exact ⟨h2, h3⟩
  · rintro ⟨h1, h2⟩
    by_cases h : n = 0
    · subst h
      rw [decreaseLoop_zero, List.reverse_reverse] at h2
      exact Or.inl ⟨rfl, h2⟩
    · exact Or.inr ⟨h, h1, h2⟩

theorem decrease_split {m : Mining} {n1 n2 : Nat} (r : Mining) :
    m.decreaseRewards (n1 + n2) = .ok r ↔ ∃ r1, m.decreaseRewards n1 = .ok r1 ∧ r1.decreaseRewards n2 = .ok r := by
  simp only [decrease_solved]
  constructor
  · rintro ⟨h, rfl⟩
    refine ⟨_, ⟨by omega, rfl⟩, by simp only; omega, ?_⟩
    simp only [List.reverse_reverse, decreaseLoop_twice, Nat.sub_sub]
  · rintro ⟨r1, ⟨h1, rfl⟩, h2, rfl⟩
    simp only at h2
    refine ⟨by omega, ?_⟩
    simp only [List.reverse_reverse, decreaseLoop_twice, Nat.sub_sub]

theorem decrease_exec_eq {now : Nat} {w : World} (hw : Wf env now w) {accs : List AccountInfo} {A P M : AccountInfo}
    {rest : List AccountInfo} {p : Pool} {m : Mining} {owner : Key} {n : Nat}
    (h : DecreaseReady env w accs A P M rest p m owner) (w' : World) :
    exec env now w accs (.decreaseRewards owner n) = .ok (w', none) ↔
      ∃ r, m.decreaseRewards n = .ok r ∧ w' = putMining env w M.key r := by
  have fwd : ∀ w', exec env now w accs (.decreaseRewards owner n) = .ok (w', none) →
      ∃ r, m.decreaseRewards n = .ok r ∧ w' = putMining env w M.key r := by
    intro w' hx
    have := exec_none hx
    simp only [process, res_bind_ok, res_pure_ok, Prod.mk.injEq] at this
    obtain ⟨w1, h1, rfl, -⟩ := this
    obtain ⟨_, _, _, _, q, x, m', hacc, -, -, -, -, hl, h2, rfl⟩ := processDecreaseRewards_ok h1
    have := h.accs_eq.symm.trans hacc
    simp only [List.cons.injEq] at this
    obtain ⟨rfl, rfl, rfl, rfl⟩ := this
    obtain rfl := view_mining h.mining.1 hl.mview
    exact ⟨_, h2, rfl⟩
  refine ⟨fwd w', ?_⟩
  rintro ⟨r, hr, rfl⟩
  obtain ⟨w1, h1⟩ := (decrease_exec_iff hw h).mpr ⟨r, hr⟩
  obtain ⟨r', hr', rfl⟩ := fwd w1 h1
  rw [hr] at hr'
  cases hr'
  exact h1

theorem Spec.DecreaseReady.next {w : World} {accs : List AccountInfo} {A P M : AccountInfo} {rest : List AccountInfo}
    {p : Pool} {m m' : Mining} {owner : Key} (h : DecreaseReady env w accs A P M rest p m owner) (hm : SameMining m m') :
    DecreaseReady env (putMining env w M.key m') accs A P M rest p m' owner := by
  have hMP : M.key ≠ P.key := by
    intro e; have := h.mining.1; rw [e] at this; exact PoolAt.not_mining h.pool this
  refine ⟨h.accs_eq, ?_, ⟨putMining_at h.mining.1 m', by rw [hm.rewardPool]; exact h.mining.2⟩, by
    rw [hm.owner]; exact h.owner, h.authority, h.writable⟩
  unfold PoolAt
  rw [putMining_ne _ _ (Ne.symm hMP)]
  exact h.pool

theorem decrease_twice {now : Nat} {w : World} (hw : Wf env now w) {accs : List AccountInfo} (hs : RealSigners accs)
    {A P M : AccountInfo} {rest : List AccountInfo} {p : Pool} {m : Mining} {owner : Key} {n1 n2 : Nat}
    (h : DecreaseReady env w accs A P M rest p m owner) :
    SameAsTwo env now w accs (.decreaseRewards owner (n1 + n2)) (.decreaseRewards owner n1) (.decreaseRewards owner n2) := by
  have o2 := (miningAt_ok hw h.mining.1).1
  refine two_execs (W := fun w (r : Mining) => putMining env w M.key r)
    (decrease_exec_eq hw h) (decrease_exec_eq hw h) (z := fun r1 => r1.decreaseRewards n2) ?_ ?_ decrease_split
  · intro r1 h1 w'
    obtain ⟨s, -, -⟩ := decrease_same o2 h1
    exact decrease_exec_eq (wf_process hw hs (by exact trivial) (exec_none ((decrease_exec_eq hw h _).mpr ⟨r1, h1, rfl⟩)))
      (h.next s) w'
  · intro r1 r h1 h2
    have h1 := h.mining.1
    rw [putMining_set (putMining_at h1 r1), putMining_set h1, putMining_set h1]
    funext k
    by_cases e : k = M.key
    · subst e; simp only [world_set_same]
    · simp only [world_set_ne _ _ e]

/-! ## Filling the vault -/

/-- The state after filling the vault. -/
def filled (w : World) (P S V : Key) (p : Pool) (t u : TokenAcc) (r e : Nat) : World :=
  ((putPool w P { p with distributionEndsAt := midnight e, tokensAvailable := p.tokensAvailable + r }).set S
    { w S with content := .token { t with amount := t.amount - r } }).set V
    { w V with content := .token { u with amount := u.amount + r } }

theorem fill_exec_eq {now : Nat} {w : World} (hw : Wf env now w) {accs : List AccountInfo}
    {P T V F S K : AccountInfo} {rest : List AccountInfo} {p : Pool} {t u : TokenAcc} {r e : Nat} (he : e < 2 ^ 64)
    (h : FillReady env w accs P T V F S K rest p t u) (hSV : S.key ≠ V.key) (w' : World) :
    exec env now w accs (.fillVault r e) = .ok (w', none) ↔
      FillOk now p t r e ∧ w' = filled w P.key S.key V.key p t u r e := by
  have hVP : V.key ≠ P.key := by
    intro e; exact env.program_ne_token ((h.pool.1.symm.trans (by rw [e])).trans h.vault.2.1)
  have hSP : S.key ≠ P.key := by
    intro e; exact env.program_ne_token ((h.pool.1.symm.trans (by rw [e])).trans h.source.1.1)
  have fwd : ∀ w', exec env now w accs (.fillVault r e) = .ok (w', none) → w' = filled w P.key S.key V.key p t u r e := by
    intro w' hx
    have := exec_none hx
    simp only [process, res_bind_ok, res_pure_ok, Prod.mk.injEq] at this
    obtain ⟨w1, h1, rfl, -⟩ := this
    obtain ⟨_, _, _, _, _, _, _, q, hacc, -, -, -, -, -, -, h2, -, hv, -, -, h3, h4, -, h5, ⟨h6, -⟩, h7⟩ :=
      processFillVault_ok h1
    have := h.accs_eq.symm.trans hacc
    simp only [List.cons.injEq] at this
    obtain ⟨rfl, rfl, rfl, rfl, rfl, rfl, rfl⟩ := this
    obtain rfl := view_pool h.pool hv
    rw [bod_eq_midnight] at h7
    obtain ⟨s, d, s', -, -, -, -, hs, -, hd, -, -, hle, -, hta, hfin⟩ := splTransfer_ok h7
    rw [putPool_ne _ _ h6, h.source.1.2] at hs
    rw [putPool_ne _ _ hVP, h.vault.2.2] at hd
    cases hs
    cases hd
    have hs' : s' = t := by
      unfold transferAuth at hta
      rw [if_neg h.source.2.2] at hta
      split at hta
      · cases hta; rfl
      · cases hta
    subst hs'
    rcases hfin with ⟨e, -⟩ | ⟨-, -, mv, hmv, -, -, rfl⟩
    · exact absurd e hSV
    · obtain rfl := hmv h.usable.2.2.1
      unfold filled
      rw [putPool_ne _ _ hSP, putPool_ne _ _ hVP]
      simp only [Nat.sub_zero, Nat.add_zero]
  constructor
  · intro hx
    exact ⟨(fill_exec_iff hw he h).mp ⟨_, hx⟩, fwd w' hx⟩
  · rintro ⟨h1, rfl⟩
    obtain ⟨w1, hx⟩ := (fill_exec_iff hw he h).mpr h1
    rw [← fwd w1 hx]
    exact hx

theorem filled_owner (w : World) (P S V : Key) (p : Pool) (t u : TokenAcc) (r e : Nat) (k : Key) :
    (filled w P S V p t u r e k).owner = (w k).owner ∧ (filled w P S V p t u r e k).lamports = (w k).lamports := by
  unfold filled
  by_cases h1 : k = V
  · subst h1; rw [world_set_same]; exact ⟨rfl, rfl⟩
  · rw [world_set_ne _ _ h1]
    by_cases h2 : k = S
    · subst h2; rw [world_set_same]; exact ⟨rfl, rfl⟩
    · rw [world_set_ne _ _ h2]
      by_cases h3 : k = P
      · subst h3; unfold putPool; rw [world_set_same]; exact ⟨rfl, rfl⟩
      · rw [putPool_ne _ _ h3]; exact ⟨rfl, rfl⟩

theorem filled_len (w : World) (P S V : Key) (p : Pool) (t u : TokenAcc) (r e : Nat) (k : Key) :
    (filled w P S V p t u r e k).len = (w k).len := by
  unfold filled
  by_cases h1 : k = V
  · subst h1; rw [world_set_same]
  · rw [world_set_ne _ _ h1]
    by_cases h2 : k = S
    · subst h2; rw [world_set_same]
    · rw [world_set_ne _ _ h2]
      by_cases h3 : k = P
      · subst h3; unfold putPool; rw [world_set_same]; rfl
      · rw [putPool_ne _ _ h3]

theorem Spec.FillReady.next {w : World} {accs : List AccountInfo} {P T V F S K : AccountInfo} {rest : List AccountInfo}
    {p : Pool} {t u : TokenAcc} {r e : Nat} (h : FillReady env w accs P T V F S K rest p t u) (hSV : S.key ≠ V.key)
    (hr : r ≤ t.amount) :
    FillReady env (filled w P.key S.key V.key p t u r e) accs P T V F S K rest
      { p with distributionEndsAt := midnight e, tokensAvailable := p.tokensAvailable + r }
      { t with amount := t.amount - r } { u with amount := u.amount + r } := by
  have hVP : V.key ≠ P.key := by
    intro e; exact env.program_ne_token ((h.pool.1.symm.trans (by rw [e])).trans h.vault.2.1)
  have hSP : S.key ≠ P.key := by
    intro e; exact env.program_ne_token ((h.pool.1.symm.trans (by rw [e])).trans h.source.1.1)
  have ho := fun k => (filled_owner w P.key S.key V.key p t u r e k).1
  refine ⟨h.accs_eq, ⟨by rw [ho]; exact h.pool.1, ?_⟩, ⟨h.mint.1, by rw [ho]; exact h.mint.2⟩,
    ⟨h.vault.1, by rw [ho]; exact h.vault.2.1, ?_⟩, h.authority,
    by rw [ho, filled_len]; exact h.single, ⟨⟨by rw [ho]; exact h.source.1.1, ?_⟩, h.source.2⟩,
    h.program, ?_, h.writable⟩
  · unfold filled
    rw [world_set_ne _ _ (Ne.symm hVP), world_set_ne _ _ (Ne.symm hSP)]
    unfold putPool
    rw [world_set_same]
    rfl
  · unfold filled; rw [world_set_same]
  · unfold filled; rw [world_set_ne _ _ hSV, world_set_same]
  · obtain ⟨h1, h2, h3, h4, h5, h6⟩ := h.usable
    refine ⟨h1, h2, h3, h4, by simp only; omega, ?_⟩
    rw [(filled_owner ..).2]; exact h6

theorem fill_twice {now : Nat} {w : World} (hw : Wf env now w) {accs : List AccountInfo} (hs : RealSigners accs)
    {P T V F S K : AccountInfo} {rest : List AccountInfo} {p : Pool} {t u : TokenAcc} {a b e : Nat} (he : e < 2 ^ 64)
    (h : FillReady env w accs P T V F S K rest p t u) (hSV : S.key ≠ V.key) (ha : 0 < a) (hb : 0 < b) :
    SameAsTwo env now w accs (.fillVault (a + b) e) (.fillVault a e) (.fillVault b e) := by
  have hVP : V.key ≠ P.key := by
    intro e; exact env.program_ne_token ((h.pool.1.symm.trans (by rw [e])).trans h.vault.2.1)
  have hSP : S.key ≠ P.key := by
    intro e; exact env.program_ne_token ((h.pool.1.symm.trans (by rw [e])).trans h.source.1.1)
  have hsame : a + b ≤ t.amount → filled (filled w P.key S.key V.key p t u a e) P.key S.key V.key
      { p with distributionEndsAt := midnight e, tokensAvailable := p.tokensAvailable + a }
      { t with amount := t.amount - a } { u with amount := u.amount + a } b e =
      filled w P.key S.key V.key p t u (a + b) e := by
    intro _
    funext k
    by_cases h1 : k = V.key
    · subst h1
      simp only [filled, world_set_same, Nat.add_assoc]
    · by_cases h2 : k = S.key
      · subst h2
        simp only [filled, world_set_ne _ _ h1, world_set_same, Nat.sub_sub]
      · by_cases h3 : k = P.key
        · subst h3
          simp only [filled, world_set_ne _ _ h1, world_set_ne _ _ h2, putPool, world_set_same, storePool, Nat.add_assoc]
        · simp only [filled, world_set_ne _ _ h1, world_set_ne _ _ h2, putPool_ne _ _ h3]
  intro w'
  rw [fill_exec_eq hw he h hSV]
  constructor
  · rintro ⟨⟨h1, h2, h3, h4, h5⟩, rfl⟩
    have hx := (fill_exec_eq hw he h hSV (filled w P.key S.key V.key p t u a e)).mpr
      ⟨⟨ha, by omega, h3, h4, by omega⟩, rfl⟩
    refine ⟨_, hx, (fill_exec_eq (wf_process hw hs (by exact trivial) (exec_none hx)) he (h.next hSV (by omega)) hSV _).mpr
      ⟨⟨hb, by simp only; omega, h3, Nat.le_refl _, by simp only; omega⟩, (hsame h2).symm⟩⟩
  · rintro ⟨w1, hx, hy⟩
    obtain ⟨⟨h1, h2, h3, h4, h5⟩, rfl⟩ := (fill_exec_eq hw he h hSV _).mp hx
    obtain ⟨⟨k1, k2, k3, k4, k5⟩, rfl⟩ :=
      (fill_exec_eq (wf_process hw hs (by exact trivial) (exec_none hx)) he (h.next hSV h2) hSV _).mp hy
    simp only at k2 k5
    exact ⟨⟨by omega, by omega, h3, h4, by omega⟩, hsame (by omega)⟩

end Verif
