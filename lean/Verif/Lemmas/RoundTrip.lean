import Verif.Lemmas.SplitExec
/-!
Operations that undo each other.
-/

namespace Verif

open Spec

variable {env : Env}

/-! ## Tables -/

theorem recordedAt_early {D : SMap} {b x : Nat} (h : ∀ e ∈ D, b < e.1) (hx : x ≤ b) : recordedAt D x = 0 := by
  have : (D.filter fun y => decide (y.1 = x)) = [] := by
    apply List.filter_eq_nil_iff.mpr
    intro e he
    have := h e he
    simp; omega
  unfold recordedAt
  rw [this]; rfl

theorem recordedAt_addAt_zero {cap : Nat} {D : SMap} (hD : Sorted D) (e x : Nat) :
    recordedAt (addAt cap D e 0) x = recordedAt D x := by
  rw [recordedAt_get (addAt_sorted hD ..), recordedAt_get hD]
  unfold addAt SMap.insert
  split
  · rw [SMap.get_put]
    split
    · rename_i h; subst h; simp
    · rfl
  · rfl

theorem sameAfter_after {b : Nat} (D : SMap) : SameAfter b D (after D b) := by
  intro x
  split
  · rename_i h; exact recordedAt_after D h
  · exact recordedAt_early (fun _ he => (mem_after.mp he).2) (by omega)

theorem sameAfter_addAt {b cap e : Nat} {D D' : SMap} (hD : Sorted D') (h : SameAfter b D D') :
    SameAfter b D (addAt cap D' e 0) := by
  intro x; rw [recordedAt_addAt_zero hD]; exact h x

theorem dueBy_addAt_late {D : SMap} (h : Sorted D) {cap e v d : Nat} (he : d < e) : dueBy (addAt cap D e v) d = dueBy D d := by
  by_cases hr : Room cap D e
  · rw [dueBy_addAt h hr, if_neg (by omega)]; rfl
  · have h' : addAt cap D e v = D := by unfold addAt SMap.insert; exact if_neg hr
    rw [h']

theorem sameAfter_after_addAt {b cap e : Nat} {D : SMap} (hD : Sorted D) : SameAfter b D (after (addAt cap D e 0) b) := by
  intro x
  split
  · rename_i h; rw [recordedAt_after _ h, recordedAt_addAt_zero hD]
  · exact recordedAt_early (fun _ he => (mem_after.mp he).2) (by omega)

/-! ## Stake -/

theorem terms_flex : terms .flex = some (1, 5) := rfl

theorem map_back {now : Nat} {cum : SMap} {d : Option Mining} (hu : DelegateUpToDate now cum d) (a : Nat) :
    (d.map fun x => settle now cum { x with stakeFromOthers := x.stakeFromOthers + a }).map
      (fun x => settle now cum { x with stakeFromOthers := x.stakeFromOthers - a }) = d := by
  cases d with
  | none => rfl
  | some x =>
    simp only [Option.map_some, settle_stake (hu x rfl)]
    rw [show x.stakeFromOthers + a - a = x.stakeFromOthers by omega]

theorem map_fine {now : Nat} {cum : SMap} {d : Option Mining} (hd : ∀ x, d = some x → Fine x)
    (hu : DelegateUpToDate now cum d) (g : Mining → Nat) :
    ∀ x, d.map (fun x => settle now cum { x with stakeFromOthers := g x }) = some x → Fine x := by
  intro x hx
  cases d with
  | none => cases hx
  | some y =>
    simp only [Option.map_some, settle_stake (hu y rfl), Option.some.injEq] at hx
    subst hx
    exact hd y rfl

/-- Depositing without lock, then withdrawing. -/
theorem deposit_withdraw {caps : Caps} {now a : Nat} {p : Pool} {m : Mining} {d : Option Mining}
    (hc : History p.cumulative) (hp : Sorted p.diffs) (hm : Fine m) (hd : ∀ x, d = some x → Fine x)
    (hu : DelegateUpToDate now p.cumulative d) {r1 : Pool × Mining × Option Mining}
    (h1 : p.deposit caps now m a .flex d = .ok r1) :
    (∀ r, r1.1.withdraw now r1.2.1 a r1.2.2 = .ok r →
      r = ({ p with totalShare := p.totalShare - dueBy p.diffs (midnight now),
                    diffs := after (addAt caps.pool p.diffs (midnight now + 86400 * 5) 0) (midnight now) },
        { settle now p.cumulative m with
            diffs := addAt caps.mining (after m.diffs (midnight now)) (midnight now + 86400 * 5) 0 }, d)) ∧
      (dueBy p.diffs (midnight now) ≤ p.totalShare → m.share + m.stakeFromOthers + a < 2 ^ 64 →
        ∃ r, r1.1.withdraw now r1.2.1 a r1.2.2 = .ok r) := by
  obtain ⟨k1, rfl⟩ := (deposit_solved terms_flex hc hp hm hd r1).mp h1
  have hz : a * 1 - a = 0 := by omega
  have hsm : Sorted (after m.diffs (midnight now)) := after_sorted hm.1 _
  have hlate : midnight now < midnight now + 86400 * 5 := by omega
  have hmm : ∀ y ∈ (deposited caps now p m d a 1 5).2.1.diffs, midnight now < y.1 :=
    mem_addAt (fun _ he => (mem_after.mp he).2) hlate
  have hf1 : Fine (deposited caps now p m d a 1 5).2.1 := ⟨addAt_sorted hsm .., k1.refresh.rewards⟩
  have hpd : Sorted (deposited caps now p m d a 1 5).1.diffs := addAt_sorted hp ..
  have hdue : dueBy (deposited caps now p m d a 1 5).1.diffs (midnight now) = dueBy p.diffs (midnight now) :=
    dueBy_addAt_late hp hlate
  have hset : settle now p.cumulative (deposited caps now p m d a 1 5).2.1 = (deposited caps now p m d a 1 5).2.1 :=
    settle_same rfl hmm
  have hfull := fun r => withdraw_solved (now := now) (a := a) (p := (deposited caps now p m d a 1 5).1) (by exact hc) hpd hf1
    (map_fine hd hu fun x => x.stakeFromOthers + a) r
  constructor
  · intro r hr
    obtain ⟨-, rfl⟩ := (hfull r).mp hr
    refine Prod.ext ?_ (Prod.ext ?_ ?_)
    · simp only [withdrawn]
      rw [hdue]
      simp only [deposited, orZero_map, hz, Pool.mk.injEq, true_and, and_true]
      omega
    · simp only [withdrawn]
      have : (deposited caps now p m d a 1 5).1.cumulative = p.cumulative := rfl
      rw [this, hset]
      simp only [deposited, settle, hz, Mining.mk.injEq, true_and, and_true]
      omega
    · exact map_back hu a
  · intro hle hfit
    refine ⟨_, (hfull _).mpr ⟨⟨?_, ?_, ?_, ?_⟩, rfl⟩⟩
    · have := k1.refresh.stake
      exact refreshable_some k1.refresh rfl hmm (by simp only [deposited, settle]; omega) rfl
    · rw [dueBy_eq_zero hmm]
      simp only [deposited, settle]; omega
    · rw [hdue]; simp only [deposited]; omega
    · rw [hdue]
      intro x hx
      cases d with
      | none => cases hx
      | some y =>
        have hy := hu y rfl
        have hg := (canGive_upToDate hy (hd y rfl)).mp k1.delegate
        simp only [deposited, Option.map_some, settle_stake hy, Option.some.injEq] at hx
        subst hx
        have hs := hy.stake
        refine ⟨by simp only; omega, by simp only [deposited, orZero, Option.isSome_some, if_true]; omega, ?_⟩
        refine (refreshable_settled (m := { y with stakeFromOthers := y.stakeFromOthers + a - a }) hy.1 hy.2).mpr ⟨?_, (hd y rfl).2⟩
        simp only; omega

/-- Withdrawing, then depositing without lock. -/
theorem withdraw_deposit {caps : Caps} {now a : Nat} {p : Pool} {m : Mining} {d : Option Mining}
    (hc : History p.cumulative) (hp : Sorted p.diffs) (hm : Fine m) (hd : ∀ x, d = some x → Fine x)
    (hu : DelegateUpToDate now p.cumulative d) {r1 r : Pool × Mining × Option Mining}
    (h1 : p.withdraw now m a d = .ok r1) (h2 : r1.1.deposit caps now r1.2.1 a .flex r1.2.2 = .ok r) :
      r = ({ p with totalShare := p.totalShare - dueBy p.diffs (midnight now),
                    diffs := addAt caps.pool (after p.diffs (midnight now)) (midnight now + 86400 * 5) 0 },
        { settle now p.cumulative m with
            diffs := addAt caps.mining (after m.diffs (midnight now)) (midnight now + 86400 * 5) 0 }, d) := by
  obtain ⟨k1, rfl⟩ := (withdraw_solved hc hp hm hd r1).mp h1
  have hz : a * 1 - a = 0 := by omega
  have hsm : Sorted (after m.diffs (midnight now)) := after_sorted hm.1 _
  have hmm : ∀ y ∈ (withdrawn now p m d a).2.1.diffs, midnight now < y.1 := fun _ he => (mem_after.mp he).2
  have hset : settle now p.cumulative (withdrawn now p m d a).2.1 = (withdrawn now p m d a).2.1 :=
    settle_same rfl hmm
  obtain ⟨-, rfl⟩ := (deposit_solved (caps := caps) (now := now) (a := a) (p := (withdrawn now p m d a).1) terms_flex (by exact hc)
    (after_sorted hp _) ⟨hsm, k1.refresh.rewards⟩ (map_fine hd hu fun x => x.stakeFromOthers - a) r).mp h2
  have hown := k1.own
  have hpool := k1.pool
  refine Prod.ext ?_ (Prod.ext ?_ ?_)
  · simp only [deposited]
    simp only [withdrawn, orZero_map, hz, Pool.mk.injEq, true_and, and_true]
    cases d with
    | none => simp only [orZero]; simp; omega
    | some y =>
      have hg := (canTake_upToDate (hu y rfl) (hd y rfl)).mp k1.delegate
      simp only [orZero, Option.isSome_some, if_true]; omega
  · simp only [deposited]
    have : (withdrawn now p m d a).1.cumulative = p.cumulative := rfl
    rw [this, hset]
    simp only [withdrawn, settle, hz, Mining.mk.injEq, true_and, and_true]
    omega
  · cases d with
    | none => rfl
    | some y =>
      have hy := hu y rfl
      have hg := (canTake_upToDate hy (hd y rfl)).mp k1.delegate
      simp only [deposited, withdrawn, Option.map_some, settle_stake hy]
      rw [show y.stakeFromOthers - a + a = y.stakeFromOthers by omega]

/-! ## A locked deposit that is slashed -/

theorem sameAfter_slashed {b cap e v : Nat} {D : SMap} (hD : Sorted D) (he : b < e) (hm : midnight e = e)
    (hr : ∃ y ∈ addAt cap D e v, y.1 = e) : SameAfter b D (lessAt (after (addAt cap D e v) b) (some e) v) := by
  have hroom : D.contains e = true ∨ D.length < cap := by
    by_cases h : D.contains e = true ∨ D.length < cap
    · exact h
    · exfalso
      have h' : addAt cap D e v = D := by unfold addAt SMap.insert; exact if_neg h
      rw [h'] at hr
      exact h (Or.inl (SMap.contains_iff.mpr hr))
  have hS := addAt_sorted hD cap e v
  have hA := after_sorted hS b
  have hL : Sorted (lessAt (after (addAt cap D e v) b) (some e) v) := SMap.put_sorted hA ..
  have hget : SMap.get (addAt cap D e v) e = some ((D.get e).getD 0 + v) := by
    unfold addAt SMap.insert
    rw [if_pos hroom, SMap.get_put, if_pos rfl]
  have hother : ∀ x, x ≠ e → SMap.get (addAt cap D e v) x = D.get x := by
    intro x hx
    unfold addAt SMap.insert
    rw [if_pos hroom, SMap.get_put, if_neg hx]
  intro x
  rw [recordedAt_get hL]
  simp only [lessAt, hm, SMap.get_put]
  by_cases hx : x = e
  · subst hx
    rw [if_pos rfl, if_pos he, get_after hS he, hget, recordedAt_get hD]
    simp
  · rw [if_neg hx]
    split
    · rename_i h
      rw [get_after hS h, hother x hx, recordedAt_get hD]
    · rename_i h
      rw [← recordedAt_get hA]
      exact recordedAt_early (fun _ he => (mem_after.mp he).2) (by omega)

/-- Depositing for a lockup period, then slashing the stake. -/
theorem deposit_slash {caps : Caps} {now a k n : Nat} {per : LockupPeriod} {p : Pool} {m : Mining} (ht : terms per = some (k, n))
    (hc : History p.cumulative) (hp : Sorted p.diffs) (hm : Fine m) {r1 : Pool × Mining × Option Mining}
    (h1 : p.deposit caps now m a per none = .ok r1) {r : Pool × Mining}
    (h2 : r1.1.slash now r1.2.1 a (a * k) (some (midnight now + 86400 * n)) = .ok r) :
    ∃ l l', r = ({ p with totalShare := p.totalShare - dueBy p.diffs (midnight now), diffs := l },
        { settle now p.cumulative m with diffs := l' }) ∧
      SameAfter (midnight now) p.diffs l ∧ SameAfter (midnight now) m.diffs l' := by
  obtain ⟨k0, n0⟩ : 1 ≤ k ∧ 1 ≤ n := by
    cases per <;> simp only [terms, Option.some.injEq, Prod.mk.injEq, reduceCtorEq] at ht <;> omega
  obtain ⟨k1, rfl⟩ := (deposit_solved ht hc hp hm (fun _ h => by cases h) r1).mp h1
  generalize hE : midnight now + 86400 * n = e at h2
  have hlate : midnight now < e := by omega
  have hme : midnight e = e := by subst hE; unfold midnight; omega
  have hsm : Sorted (after m.diffs (midnight now)) := after_sorted hm.1 _
  have hmd : (deposited caps now p m none a k n).2.1.diffs =
      addAt caps.mining (after m.diffs (midnight now)) e (a * k - a) := by
    subst hE; rfl
  have hpd : (deposited caps now p m none a k n).1.diffs = addAt caps.pool p.diffs e (a * k - a) := by
    subst hE; rfl
  have hmm : ∀ y ∈ (deposited caps now p m none a k n).2.1.diffs, midnight now < y.1 := by
    rw [hmd]; exact mem_addAt (fun _ he => (mem_after.mp he).2) hlate
  have hf1 : Fine (deposited caps now p m none a k n).2.1 := ⟨by rw [hmd]; exact addAt_sorted hsm .., k1.refresh.rewards⟩
  obtain ⟨k2, rfl⟩ := (slash_solved (now := now) (p := (deposited caps now p m none a k n).1) (by exact hc)
    (by rw [hpd]; exact addAt_sorted hp ..) hf1 r).mp h2
  obtain ⟨-, -, ⟨v1, hv1, -⟩, v2, hv2, -⟩ := k2.locked e rfl
  rw [hme, hmd] at hv1
  rw [hme, hpd] at hv2
  have hset : settle now p.cumulative (deposited caps now p m none a k n).2.1 = (deposited caps now p m none a k n).2.1 :=
    settle_same rfl hmm
  have hcum : (deposited caps now p m none a k n).1.cumulative = p.cumulative := rfl
  have hdue : dueBy (deposited caps now p m none a k n).1.diffs (midnight now) = dueBy p.diffs (midnight now) := by
    rw [hpd]; exact dueBy_addAt_late hp hlate
  have hA : after (addAt caps.mining (after m.diffs (midnight now)) e (a * k - a)) (midnight now) =
      addAt caps.mining (after m.diffs (midnight now)) e (a * k - a) := by
    rw [← hmd]
    unfold after
    rw [List.filter_eq_self]
    intro y hy
    simpa using hmm y hy
  have hmid := sameAfter_slashed (b := midnight now) (cap := caps.mining) hsm hlate hme ⟨_, hv1, rfl⟩
  rw [hA] at hmid
  refine ⟨_, _, ?_, sameAfter_slashed (b := midnight now) (cap := caps.pool) hp hlate hme ⟨_, hv2, rfl⟩,
    fun x => (hmid x).trans ?_⟩
  · simp only [slashed]
    rw [hcum, hset, hdue, hmd, hpd]
    simp only [deposited, settle, orZero, Prod.mk.injEq, Pool.mk.injEq, Mining.mk.injEq, true_and, and_true]
    simp
  · split
    · rename_i h; exact recordedAt_after _ h
    · rfl

/-! ## A change of delegate that is undone -/

theorem redelegate_back {now a : Nat} {p : Pool} {m : Mining} {od nd : Option Mining} (hc : History p.cumulative)
    (hm : Fine m) (ho : ∀ x, od = some x → Fine x) (hn : ∀ x, nd = some x → Fine x) (hum : UpToDate now p.cumulative m)
    (huo : DelegateUpToDate now p.cumulative od) (hun : DelegateUpToDate now p.cumulative nd)
    (htot : p.totalShare < 2 ^ 64) {r1 : Pool × Mining × Option Mining × Option Mining}
    (h1 : p.changeDelegate now m nd od a = .ok r1) :
    r1.1.changeDelegate now r1.2.1 r1.2.2.2 r1.2.2.1 a = .ok (p, m, od, nd) := by
  obtain ⟨k1, rfl⟩ := (redelegate_solved hc hm ho hn r1).mp h1
  have hset : settle now p.cumulative m = m := settle_same hum.1 hum.2
  have e1 : (redelegated now p m od nd a).2.1 = m := hset
  rw [e1]
  have hle : od.isSome = true → a ≤ p.totalShare := by
    intro h
    obtain ⟨x, rfl⟩ := Option.isSome_iff_exists.mp h
    exact ((canTake_upToDate (huo x rfl) (ho x rfl)).mp k1.take).2
  have hsome : ∀ (d : Option Mining) (g : Mining → Mining), (d.map g).isSome = d.isSome := by intro d g; cases d <;> rfl
  refine (redelegate_solved (p := (redelegated now p m od nd a).1) (by exact hc) hm (map_fine hn hun _) (map_fine ho huo _) _).mpr
    ⟨⟨k1.refresh, ?_, ?_⟩, ?_⟩
  · show CanTake now p.cumulative (p.totalShare - orZero od a + orZero nd a) a
      (nd.map fun x => settle now p.cumulative { x with stakeFromOthers := x.stakeFromOthers + a })
    cases nd with
    | none => exact nofun
    | some y =>
      have hy := hun y rfl
      have hs := hy.stake
      rw [Option.map_some, settle_stake hy]
      intro x hx
      cases hx
      refine ⟨by simp only; omega, by simp only [orZero, Option.isSome_some, if_true]; omega, ?_⟩
      refine (refreshable_settled (m := { y with stakeFromOthers := y.stakeFromOthers + a - a }) hy.1 hy.2).mpr ⟨?_, (hn y rfl).2⟩
      simp only; omega
  · show CanGive now p.cumulative (if (nd.map fun x => settle now p.cumulative { x with
        stakeFromOthers := x.stakeFromOthers + a }).isSome = true then p.totalShare - orZero od a + orZero nd a - a else
        p.totalShare - orZero od a + orZero nd a) a
      (od.map fun x => settle now p.cumulative { x with stakeFromOthers := x.stakeFromOthers - a })
    rw [hsome]
    cases od with
    | none => exact nofun
    | some x =>
      have hx := huo x rfl
      have hs := hx.stake
      have ht := (canTake_upToDate hx (ho x rfl)).mp k1.take
      rw [Option.map_some, settle_stake hx]
      intro z hz
      cases hz
      refine ⟨by simp only; omega, ?_, ?_⟩
      · cases nd <;> simp only [orZero, Option.isSome_some, Option.isSome_none, if_true] <;> simp <;> omega
      · refine (refreshable_settled (m := { x with stakeFromOthers := x.stakeFromOthers - a + a }) hx.1 hx.2).mpr ⟨?_, (ho x rfl).2⟩
        simp only; omega
  · refine Prod.ext ?_ (Prod.ext hset.symm (Prod.ext ?_ ?_))
    · simp only [redelegated, orZero_map]
      cases od with
      | none => cases nd <;> simp only [orZero, Option.isSome_some, Option.isSome_none, if_true] <;> simp
      | some x =>
        have := hle rfl
        cases nd <;> simp only [orZero, Option.isSome_some, Option.isSome_none, if_true] <;> simp <;>
          rw [show p.totalShare - a + a = p.totalShare by omega]
    · cases od with
      | none => rfl
      | some x =>
        have hx := huo x rfl
        have ht := (canTake_upToDate hx (ho x rfl)).mp k1.take
        simp only [redelegated, Option.map_some, settle_stake hx]
        rw [show x.stakeFromOthers - a + a = x.stakeFromOthers by omega]
    · exact (map_back hun a).symm

/-! ## Instructions -/

theorem newContent_stake {P M D : Key} (p : Pool) (m : Mining) (d : Option Mining) (k : Key) (c : Content) :
    newContent P M M D (p, m, d, none) k c =
      if k = D ∧ d.isSome then .mining (d.getD Mining.zero) else if k = M then .mining m else if k = P then .pool p else c := by
  simp [newContent]

/-- The result of a stake operation that leaves the delegate as it was. -/
theorem onlyUpToDate {now : Nat} {w : World} {accs : List AccountInfo} {P M A D : AccountInfo} {rest : List AccountInfo}
    {p : Pool} {m : Mining} {d : Option Mining} {owner delegate : Key}
    (h : StakeReady env w accs P M A D rest p m d owner delegate) {l l' : SMap} (hl : SameAfter (midnight now) p.diffs l)
    (hl' : SameAfter (midnight now) m.diffs l') :
    OnlyUpToDate env now w (stakeWorld env w P.key M.key D.key
      { p with totalShare := p.totalShare - dueBy p.diffs (midnight now), diffs := l }
      { settle now p.cumulative m with diffs := l' } d) P.key M.key p m := by
  have hpl := h.places (d' := d) rfl
  have hat : ∀ k, stakeWorld env w P.key M.key D.key
      { p with totalShare := p.totalShare - dueBy p.diffs (midnight now), diffs := l }
      { settle now p.cumulative m with diffs := l' } d k = _ := fun k =>
    (congrFun (stakeWorld_eq w _ _ _ _ _ d) k).trans (writes_at (r := (_, _, d, none)) hpl k)
  have hDn : ∀ x, d = some x → D.key ≠ P.key ∧ D.key ≠ M.key := by
    intro x hx
    have := (hpl.new x hx).1
    simp only [List.mem_cons, List.not_mem_nil, or_false, not_or] at this
    exact ⟨this.1, this.2.1⟩
  have n1 : ∀ k : Key, (∀ x, d = some x → D.key ≠ k) → ¬ (k = D.key ∧ d.isSome = true) := by
    rintro k hk ⟨e, hs⟩
    obtain ⟨x, hx⟩ := Option.isSome_iff_exists.mp hs
    exact hk x hx e.symm
  refine ⟨⟨l, ⟨by rw [hat]; exact h.pool.1, ?_⟩, hl⟩, ⟨l', ⟨by rw [hat]; exact h.mining.1.1, ?_⟩, hl'⟩, ?_, ?_⟩
  · rw [hat]
    simp only [newContent_stake]
    rw [if_neg (n1 _ (fun x hx => (hDn x hx).1)), if_neg (Ne.symm hpl.ne)]
    exact if_pos trivial
  · rw [hat]
    simp only [newContent_stake]
    rw [if_neg (n1 _ (fun x hx => (hDn x hx).2))]
    exact if_pos trivial
  · intro k hP hM
    rw [hat]
    simp only [newContent_stake]
    rw [if_neg hM, if_neg hP]
    split
    · rename_i hk
      obtain ⟨rfl, hs⟩ := hk
      obtain ⟨x, rfl⟩ := Option.isSome_iff_exists.mp hs
      rcases h.delegate with ⟨-, e⟩ | ⟨-, y, e, hy, -⟩
      · cases e
      · cases e
        rw [Option.getD_some, ← hy.1.2]
    · rfl
  · intro k; rw [hat]; exact ⟨rfl, rfl, rfl⟩

theorem deposit_withdraw_exec {now : Nat} {w w1 w2 : World} (hw : Wf env now w) {accs : List AccountInfo}
    (hs : RealSigners accs) {P M A D : AccountInfo} {rest : List AccountInfo} {p : Pool} {m : Mining} {d : Option Mining}
    {owner delegate : Key} {a : Nat} (h : StakeReady env w accs P M A D rest p m d owner delegate) (hm : Fine m)
    (hd : ∀ x, d = some x → Fine x) (hu : DelegateUpToDate now p.cumulative d)
    (h1 : exec env now w accs (.depositMining a .flex owner delegate) = .ok (w1, none)) :
    (exec env now w1 accs (.withdrawMining a owner delegate) = .ok (w2, none) →
      OnlyUpToDate env now w w2 P.key M.key p m) ∧
    (dueBy p.diffs (midnight now) ≤ p.totalShare → m.share + m.stakeFromOthers + a < 2 ^ 64 →
      ∃ w2, exec env now w1 accs (.withdrawMining a owner delegate) = .ok (w2, none)) := by
  obtain ⟨o1, o2, o3⟩ := h.oks hw
  have hw1 := wf_process hw hs (by exact trivial) (exec_none h1)
  obtain ⟨r1, k1, rfl⟩ := (deposit_exec_eq hw h _).mp h1
  obtain ⟨q, s, mo, -, sd⟩ := deposit_same o1 o2 o3 k1
  obtain ⟨g1, g2⟩ := deposit_withdraw o1.history o1.sorted hm hd hu k1
  have hn := h.next q.same s sd
  constructor
  · intro h2
    obtain ⟨r, k2, rfl⟩ := (withdraw_exec_eq hw1 hn _).mp h2
    obtain ⟨-, -, -, -, sd2⟩ := withdraw_same q.ok mo sd.ok k2
    rw [stakeWorld_twice h sd sd2, g1 r k2]
    exact onlyUpToDate h (sameAfter_after_addAt o1.sorted) (sameAfter_addAt (after_sorted hm.1 _) (sameAfter_after _))
  · intro a1 a2
    obtain ⟨r, k2⟩ := g2 a1 a2
    exact ⟨_, withdraw_exec hw1 hn k2⟩

theorem withdraw_deposit_exec {now : Nat} {w w1 w2 : World} (hw : Wf env now w) {accs : List AccountInfo}
    (hs : RealSigners accs) {P M A D : AccountInfo} {rest : List AccountInfo} {p : Pool} {m : Mining} {d : Option Mining}
    {owner delegate : Key} {a : Nat} (h : StakeReady env w accs P M A D rest p m d owner delegate) (hm : Fine m)
    (hd : ∀ x, d = some x → Fine x) (hu : DelegateUpToDate now p.cumulative d)
    (h1 : exec env now w accs (.withdrawMining a owner delegate) = .ok (w1, none))
    (h2 : exec env now w1 accs (.depositMining a .flex owner delegate) = .ok (w2, none)) :
    OnlyUpToDate env now w w2 P.key M.key p m := by
  obtain ⟨o1, o2, o3⟩ := h.oks hw
  have hw1 := wf_process hw hs (by exact trivial) (exec_none h1)
  obtain ⟨r1, k1, rfl⟩ := (withdraw_exec_eq hw h _).mp h1
  obtain ⟨q, s, mo, -, sd⟩ := withdraw_same o1 o2 o3 k1
  obtain ⟨r, k2, rfl⟩ := (deposit_exec_eq hw1 (h.next q.same s sd) _).mp h2
  obtain ⟨-, -, -, -, sd2⟩ := deposit_same q.ok mo sd.ok k2
  rw [stakeWorld_twice h sd sd2, withdraw_deposit o1.history o1.sorted hm hd hu k1 k2]
  exact onlyUpToDate h (sameAfter_addAt (after_sorted o1.sorted _) (sameAfter_after _))
    (sameAfter_addAt (after_sorted hm.1 _) (sameAfter_after _))

theorem deposit_slash_exec {now : Nat} {w w1 w2 : World} (hw : Wf env now w) {accs accs' : List AccountInfo}
    (hs : RealSigners accs) {P M A D A' : AccountInfo} {rest rest' : List AccountInfo} {p : Pool} {m : Mining}
    {owner delegate : Key} {a k n : Nat} {per : LockupPeriod} (ht : terms per = some (k, n))
    (h : StakeReady env w accs P M A D rest p m none owner delegate)
    (h' : SlashReady env w accs' A' P M rest' p m owner) (hm : Fine m)
    (h1 : exec env now w accs (.depositMining a per owner delegate) = .ok (w1, none))
    (h2 : exec env now w1 accs' (.slash owner a (a * k) (some (midnight now + 86400 * n))) = .ok (w2, none)) :
    OnlyUpToDate env now w w2 P.key M.key p m := by
  obtain ⟨o1, o2, o3⟩ := h.oks hw
  have hw1 := wf_process hw hs (by exact trivial) (exec_none h1)
  obtain ⟨⟨p1, m1, d1⟩, k1, rfl⟩ := (deposit_exec_eq hw h _).mp h1
  obtain ⟨q, s, mo, -, sd⟩ := deposit_same o1 o2 o3 k1
  have hd1 : d1 = none := by
    cases d1 with
    | none => rfl
    | some x => exact sd.elim
  subst hd1
  obtain ⟨r, k2, rfl⟩ := (slash_exec_eq hw1 (by exact h'.next q.same s) _).mp h2
  obtain ⟨l, l', rfl, hl, hl'⟩ := deposit_slash ht o1.history o1.sorted hm k1 k2
  have e : writes env (stakeWorld env w P.key M.key D.key p1 m1 none) P.key M.key M.key M.key
      ({ p with totalShare := p.totalShare - dueBy p.diffs (midnight now), diffs := l },
        { settle now p.cumulative m with diffs := l' }, none, none) =
      stakeWorld env w P.key M.key D.key { p with totalShare := p.totalShare - dueBy p.diffs (midnight now), diffs := l }
        { settle now p.cumulative m with diffs := l' } none :=
    writes_twice (Y := M.key) (r := (_, _, none, none)) (r1 := (p1, m1, none, none)) h'.places rfl rfl
  show OnlyUpToDate env now w (writes env (stakeWorld env w P.key M.key D.key p1 m1 none) P.key M.key M.key M.key
      ({ p with totalShare := p.totalShare - dueBy p.diffs (midnight now), diffs := l },
        { settle now p.cumulative m with diffs := l' }, none, none)) P.key M.key p m
  rw [e]
  exact onlyUpToDate h hl hl'

theorem redelegate_back_exec {now : Nat} {w w1 : World} (hw : Wf env now w) {accs accs' : List AccountInfo}
    (hs : RealSigners accs) {P M A O X Y : AccountInfo} {rest rest' : List AccountInfo} {p : Pool} {m : Mining}
    {od nd : Option Mining} {delegate delegate' : Key} {a : Nat}
    (h : RedelegateReady env w accs P M A O X Y rest p m od nd delegate)
    (h' : RedelegateReady env w accs' P M A O Y X rest' p m nd od delegate') (hm : Fine m)
    (ho : ∀ x, od = some x → Fine x) (hn : ∀ x, nd = some x → Fine x) (hum : UpToDate now p.cumulative m)
    (huo : DelegateUpToDate now p.cumulative od) (hun : DelegateUpToDate now p.cumulative nd)
    (htot : p.totalShare < 2 ^ 64) (h1 : exec env now w accs (.changeDelegate a delegate) = .ok (w1, none)) :
    exec env now w1 accs' (.changeDelegate a delegate') = .ok (w, none) := by
  obtain ⟨o1, o2, o3, o4⟩ := h.oks hw
  have hw1 := wf_process hw hs h.clean (exec_none h1)
  obtain ⟨⟨p1, m1, nd1, od1⟩, k1, rfl⟩ := (redelegate_exec_eq hw h _).mp h1
  obtain ⟨q, s, -, -, sn, so⟩ := changeDelegate_same o1 o2 o3 o4 k1
  have hnx := h.next q.same s so sn
  have hready : RedelegateReady env (writes env w P.key M.key X.key Y.key (p1, m1, nd1, od1)) accs' P M A O Y X rest' p1 m1
      nd1 od1 delegate' := by
    refine ⟨h'.accs_eq, hnx.pool, hnx.mining, hnx.owner, hnx.authority, h'.different, ?_, ?_, h'.writable⟩
    · rcases hnx.new with h | ⟨e, x, hx, hx2, -⟩
      · exact Or.inl h
      · exact Or.inr ⟨e, x, hx, hx2⟩
    · rcases hnx.old with h | ⟨e, x, rfl, hx2⟩
      · exact Or.inl h
      · refine Or.inr ⟨e, x, rfl, hx2, ?_⟩
        rcases h'.new with ⟨e', -⟩ | ⟨-, y, rfl, -, hown⟩
        · exact absurd e' e
        · rw [so.1.owner]; exact hown
  refine (redelegate_exec_eq hw1 hready _).mpr
    ⟨_, redelegate_back o1.history hm ho hn hum huo hun htot k1, ?_⟩
  have hp1 := h.places (sameDelegate_isSome so) (sameDelegate_isSome sn)
  have hp2 : Places env (writes env w P.key M.key X.key Y.key (p1, m1, nd1, od1)) P.key M.key Y.key X.key nd od :=
    hready.places (sameDelegate_isSome sn).symm (sameDelegate_isSome so).symm
  funext k
  rw [writes_at (r := (p, m, od, nd)) hp2, writes_at (r := (p1, m1, nd1, od1)) hp1]
  have hc : newContent P.key M.key Y.key X.key (p, m, od, nd) k
      (newContent P.key M.key X.key Y.key (p1, m1, nd1, od1) k (w k).content) = (w k).content := by
    have e1 := sameDelegate_isSome sn
    have e2 := sameDelegate_isSome so
    unfold newContent
    simp only [e1, e2]
    by_cases c1 : k = X.key ∧ od.isSome = true
    · rw [if_pos c1]
      obtain ⟨rfl, hs⟩ := c1
      obtain ⟨x, rfl⟩ := Option.isSome_iff_exists.mp hs
      rcases h.old with ⟨-, e⟩ | ⟨-, y, e, hy⟩
      · cases e
      · cases e; exact hy.1.2.symm
    · rw [if_neg c1]
      by_cases c2 : k = Y.key ∧ nd.isSome = true
      · rw [if_pos c2]
        obtain ⟨rfl, hs⟩ := c2
        obtain ⟨x, rfl⟩ := Option.isSome_iff_exists.mp hs
        rcases h.new with ⟨-, e⟩ | ⟨-, y, e, hy, -⟩
        · cases e
        · cases e; exact hy.1.2.symm
      · rw [if_neg c2, if_neg c2, if_neg c1]
        by_cases c3 : k = M.key
        · subst c3; rw [if_pos rfl]; exact h.mining.1.2.symm
        · rw [if_neg c3, if_neg c3]
          by_cases c4 : k = P.key
          · subst c4; rw [if_pos rfl]; exact h.pool.2.symm
          · rw [if_neg c4, if_neg c4]
  rw [hc]

end Verif
