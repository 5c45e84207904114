import Verif.Lemmas.ExactExec
import Verif.Spec.Split
/-!
Operations in full: when they succeed and what they result in; and what follows for operations split in two.
-/

namespace Verif

open Spec

theorem solved {α : Type} {x : Res α} {Ok : Prop} {f : α} (h : (∃ r, x = .ok r) ↔ Ok) (hf : ∀ r, x = .ok r → r = f) (r : α) :
    x = .ok r ↔ Ok ∧ r = f := by
  constructor
  · intro hr; exact ⟨h.mp ⟨r, hr⟩, hf r hr⟩
  · rintro ⟨ho, rfl⟩; obtain ⟨r', hr⟩ := h.mpr ho; rw [← hf r' hr]; exact hr

theorem two_steps {α β : Type} {x : Res α} {y : Res β} {z : β → Res α} {Ok Ok1 Ok2 : Prop} {f f2 : α} {f1 : β}
    (hx : ∀ r, x = .ok r ↔ Ok ∧ r = f) (hy : ∀ r, y = .ok r ↔ Ok1 ∧ r = f1)
    (hz : Ok1 → ∀ r, z f1 = .ok r ↔ Ok2 ∧ r = f2) (key : Ok ↔ Ok1 ∧ Ok2) (res : Ok → f = f2) (r : α) :
    x = .ok r ↔ ∃ r1, y = .ok r1 ∧ z r1 = .ok r := by
  constructor
  · intro h
    obtain ⟨h1, rfl⟩ := (hx r).mp h
    obtain ⟨h2, h3⟩ := key.mp h1
    exact ⟨f1, (hy f1).mpr ⟨h2, rfl⟩, (hz h2 _).mpr ⟨h3, res h1⟩⟩
  · rintro ⟨r1, h1, h2⟩
    obtain ⟨h3, rfl⟩ := (hy r1).mp h1
    obtain ⟨h4, rfl⟩ := (hz h3 r).mp h2
    have h5 := key.mpr ⟨h3, h4⟩
    exact (hx _).mpr ⟨h5, (res h5).symm⟩

def orZero (d : Option Mining) (a : Nat) : Nat := if d.isSome then a else 0

theorem settle_same {now : Nat} {cum : SMap} {m : Mining} (hi : m.index = indexBefore cum now)
    (hd : ∀ e ∈ m.diffs, midnight now < e.1) : settle now cum m = m := by
  have hcr : ∀ {D : SMap} (sh : Nat), (∀ e ∈ D, midnight now < e.1) → credit cum now D sh (indexBefore cum now) = 0 := by
    intro D sh h
    cases D with
    | nil => simp [credit]
    | cons a rest =>
      have := h a List.mem_cons_self
      rw [show a = (a.1, a.2) from rfl, credit, if_neg (by omega)]
      simp
  have hdue : due now cum m = m.unclaimed := by unfold due; rw [hi, hcr _ hd]; rfl
  have h2 : after m.diffs (midnight now) = m.diffs := by
    unfold after; exact List.filter_eq_self.mpr fun e he => by simpa using hd e he
  unfold settle
  rw [dueBy_eq_zero hd, hdue, h2, ← hi]
  rfl

/-! ## Withdrawing -/

def withdrawn (now : Nat) (p : Pool) (m : Mining) (d : Option Mining) (a : Nat) : Pool × Mining × Option Mining :=
  ({ p with totalShare := p.totalShare - a - dueBy p.diffs (midnight now) - orZero d a, diffs := after p.diffs (midnight now) },
    { settle now p.cumulative m with share := (settle now p.cumulative m).share - a },
    d.map fun x => settle now p.cumulative { x with stakeFromOthers := x.stakeFromOthers - a })

theorem withdraw_solved {now a : Nat} {p : Pool} {m : Mining} {d : Option Mining} (hc : History p.cumulative)
    (hp : Sorted p.diffs) (hm : Fine m) (hd : ∀ x, d = some x → Fine x) (r : Pool × Mining × Option Mining) :
    p.withdraw now m a d = .ok r ↔ WithdrawOk now p m d a ∧ r = withdrawn now p m d a := by
  refine solved (withdraw_exact hc hp hm hd) ?_ r
  rintro ⟨p', m', d'⟩ h
  obtain ⟨m1, h1, h2, h3, rfl, h4⟩ := withdraw_ok hp h
  obtain ⟨r1, rfl⟩ := (refresh_settle hc hm).mp h1
  obtain ⟨-, rfl, rfl⟩ := (take_exact (by exact hc) hd).mp h4
  rw [bod_eq_midnight]
  rfl

/-! ## Depositing -/

def deposited (caps : Caps) (now : Nat) (p : Pool) (m : Mining) (d : Option Mining) (a k n : Nat) :
    Pool × Mining × Option Mining :=
  ({ p with totalShare := p.totalShare + a * k + orZero d a,
            diffs := addAt caps.pool p.diffs (midnight now + 86400 * n) (a * k - a) },
    { settle now p.cumulative m with
        share := (settle now p.cumulative m).share + a * k,
        diffs := addAt caps.mining (settle now p.cumulative m).diffs (midnight now + 86400 * n) (a * k - a) },
    d.map fun x => settle now p.cumulative { x with stakeFromOthers := x.stakeFromOthers + a })

theorem deposit_solved {caps : Caps} {now a : Nat} {per : LockupPeriod} {k n : Nat} (ht : terms per = some (k, n)) {p : Pool}
    {m : Mining} {d : Option Mining} (hc : History p.cumulative) (hp : Sorted p.diffs) (hm : Fine m)
    (hd : ∀ x, d = some x → Fine x) (r : Pool × Mining × Option Mining) :
    p.deposit caps now m a per d = .ok r ↔ DepositOk now p m d a k n ∧ r = deposited caps now p m d a k n := by
  refine solved (Iff.trans (deposit_exact hc hp hm hd) ⟨?_, fun h => ⟨k, n, ht, h⟩⟩) ?_ r
  · rintro ⟨k', n', h1, h2⟩
    rw [ht] at h1; cases h1; exact h2
  rintro ⟨p', m', d'⟩ h
  have hm' : ∀ m1, m.refreshRewards now p.cumulative = .ok m1 → Sorted m1.diffs := by
    intro m1 h; obtain ⟨-, rfl⟩ := (refresh_settle hc hm).mp h; exact after_sorted hm.1 _
  obtain ⟨m1, e, h1, h2, -, -, -, -, -, -, rfl, h8⟩ := deposit_ok hm' h
  obtain ⟨k', n', t1, hk, -, -, -, rfl⟩ := terms_end.mp h2
  rw [ht] at t1; cases t1
  obtain ⟨r1, rfl⟩ := (refresh_settle hc hm).mp h1
  obtain ⟨-, rfl, rfl⟩ := (give_exact (by exact hc) hd).mp h8
  rw [hk]
  rfl

/-! ## Changing the delegate -/

def redelegated (now : Nat) (p : Pool) (m : Mining) (od nd : Option Mining) (a : Nat) :
    Pool × Mining × Option Mining × Option Mining :=
  ({ p with totalShare := p.totalShare - orZero od a + orZero nd a }, settle now p.cumulative m,
    nd.map (fun x => settle now p.cumulative { x with stakeFromOthers := x.stakeFromOthers + a }),
    od.map fun x => settle now p.cumulative { x with stakeFromOthers := x.stakeFromOthers - a })

theorem redelegate_solved {now a : Nat} {p : Pool} {m : Mining} {od nd : Option Mining} (hc : History p.cumulative)
    (hm : Fine m) (ho : ∀ x, od = some x → Fine x) (hn : ∀ x, nd = some x → Fine x)
    (r : Pool × Mining × Option Mining × Option Mining) :
    p.changeDelegate now m nd od a = .ok r ↔ RedelegateOk now p m od nd a ∧ r = redelegated now p m od nd a := by
  refine solved (redelegate_exact hc hm ho hn) ?_ r
  rintro ⟨p', m', nd', od'⟩ h
  obtain ⟨h1, p1, h2, h3⟩ := changeDelegate_ok.mp h
  obtain ⟨r1, rfl⟩ := (refresh_settle hc hm).mp h1
  obtain ⟨-, rfl, rfl⟩ := (take_exact hc ho).mp h2
  obtain ⟨-, rfl, rfl⟩ := (give_exact (by exact hc) hn).mp h3
  rfl

/-! ## Slashing -/

/-- `v` less at the entry for the day of `ex`, if there is a date. -/
def lessAt (D : SMap) (ex : Option Nat) (v : Nat) : SMap :=
  match ex with
  | none => D
  | some ts => D.put (midnight ts) ((D.get (midnight ts)).getD 0 - v)

def slashed (now : Nat) (p : Pool) (m : Mining) (n mu : Nat) (ex : Option Nat) : Pool × Mining :=
  ({ p with totalShare := p.totalShare - mu - dueBy p.diffs (midnight now),
            diffs := lessAt (after p.diffs (midnight now)) ex (mu - n) },
    { settle now p.cumulative m with
        share := (settle now p.cumulative m).share - mu, diffs := lessAt (settle now p.cumulative m).diffs ex (mu - n) })

theorem slash_solved {now n mu : Nat} {ex : Option Nat} {p : Pool} {m : Mining} (hc : History p.cumulative)
    (hp : Sorted p.diffs) (hm : Fine m) (r : Pool × Mining) :
    p.slash now m n mu ex = .ok r ↔ SlashOk now p m n mu ex ∧ r = slashed now p m n mu ex := by
  refine solved (slash_exact hc hp hm) ?_ r
  rintro ⟨p', m'⟩ h
  have hm' : ∀ m1, m.refreshRewards now p.cumulative = .ok m1 → Sorted m1.diffs := by
    intro m1 h; obtain ⟨-, rfl⟩ := (refresh_settle hc hm).mp h; exact after_sorted hm.1 _
  obtain ⟨m1, h1, h2, h3, h4⟩ := slash_ok hp hm' h
  obtain ⟨r1, rfl⟩ := (refresh_settle hc hm).mp h1
  rcases h4 with ⟨rfl, rfl, rfl⟩ | ⟨ts, om, op, rfl, -, h6, h7, -, -, rfl, rfl⟩
  · rw [bod_eq_midnight]; rfl
  · simp only [bod_eq_midnight] at h6 h7 ⊢
    simp only [slashed, lessAt, h6, h7, Option.getD_some]

/-! ## Tables -/

theorem put_put {D : SMap} (k v v' : Nat) : (D.put k v).put k v' = D.put k v' := by
  induction D with
  | nil => simp [SMap.put]
  | cons a D ih =>
    obtain ⟨k', x⟩ := a
    rw [SMap.put, SMap.put]
    by_cases h1 : k < k'
    · simp [h1, SMap.put]
    · by_cases h2 : k = k'
      · simp [h2, SMap.put]
      · rw [if_neg h1, if_neg h2, if_neg h1, if_neg h2, SMap.put, if_neg h1, if_neg h2, ih]

theorem addAt_twice (cap : Nat) (D : SMap) (e x y : Nat) : addAt cap (addAt cap D e x) e y = addAt cap D e (x + y) := by
  unfold addAt SMap.insert
  by_cases h : D.contains e = true ∨ D.length < cap
  · rw [if_pos h, if_pos h]
    have h1 : SMap.get (D.put e ((D.get e).getD 0 + x)) e = some ((D.get e).getD 0 + x) := by
      rw [SMap.get_put, if_pos rfl]
    rw [if_pos (Or.inl (by unfold SMap.contains; rw [h1]; rfl)), h1, put_put, Option.getD_some, Nat.add_assoc]
  · rw [if_neg h, if_neg h, if_neg h]

theorem recordedAt_addAt_le {cap : Nat} {D : SMap} (hD : Sorted D) (e x : Nat) :
    recordedAt (addAt cap D e x) e = recordedAt D e + x ∨ recordedAt (addAt cap D e x) e = 0 ∧ recordedAt D e = 0 := by
  by_cases h : Room cap D e
  · exact Or.inl (recordedAt_addAt hD h x).1
  · right
    have h' : addAt cap D e x = D := by unfold addAt SMap.insert; exact if_neg h
    have h2 : SMap.get D e = none := by
      unfold Room SMap.contains at h
      cases hg : SMap.get D e with
      | none => rfl
      | some v => rw [hg] at h; exact absurd (Or.inl rfl) h
    rw [h', recordedAt_get hD, h2]; exact ⟨rfl, rfl⟩

theorem mem_addAt {cap : Nat} {D : SMap} {e x b : Nat} (h : ∀ y ∈ D, b < y.1) (he : b < e) :
    ∀ y ∈ addAt cap D e x, b < y.1 := by
  intro y hy
  unfold addAt SMap.insert at hy
  split at hy
  · rcases SMap.mem_put hy with rfl | hy
    · exact he
    · exact h y hy
  · exact h y hy

theorem dueBy_after_self (D : SMap) (b : Nat) : dueBy (after D b) b = 0 := dueBy_eq_zero fun _ he => (mem_after.mp he).2

theorem after_after_self (D : SMap) (b : Nat) : after (after D b) b = after D b := by
  unfold after; rw [List.filter_filter]; congr 1; funext e; simp

theorem lessAt_lessAt (D : SMap) (ex : Option Nat) (x y : Nat) : lessAt (lessAt D ex x) ex y = lessAt D ex (x + y) := by
  cases ex with
  | none => rfl
  | some ts =>
    simp only [lessAt, SMap.get_put, if_true, put_put, Option.getD_some]
    rw [Nat.sub_sub]

/-! ## Delegates that are up to date -/

/-- The delegate, if there is one, is up to date. -/
def DelegateUpToDate (now : Nat) (cum : SMap) (d : Option Mining) : Prop := ∀ x, d = some x → UpToDate now cum x

theorem canTake_upToDate {now : Nat} {cum : SMap} {tot a : Nat} {x : Mining} (h : UpToDate now cum x) (hx : Fine x) :
    CanTake now cum tot a (some x) ↔ a ≤ x.stakeFromOthers ∧ a ≤ tot := by
  simp only [CanTake, Option.some.injEq, forall_eq']
  rw [refreshable_settled (m := { x with stakeFromOthers := x.stakeFromOthers - a }) h.1 h.2]
  have h1 := h.stake
  have h2 := hx.2
  simp only
  omega

theorem canGive_upToDate {now : Nat} {cum : SMap} {tot a : Nat} {x : Mining} (h : UpToDate now cum x) (hx : Fine x) :
    CanGive now cum tot a (some x) ↔ tot + a < 2 ^ 64 ∧ x.share + (x.stakeFromOthers + a) < 2 ^ 64 := by
  simp only [CanGive, Option.some.injEq, forall_eq']
  rw [refreshable_settled (m := { x with stakeFromOthers := x.stakeFromOthers + a }) h.1 h.2]
  have h2 := hx.2
  simp only
  omega

theorem settle_stake {now : Nat} {cum : SMap} {x : Mining} (h : UpToDate now cum x) (v : Nat) :
    settle now cum { x with stakeFromOthers := v } = { x with stakeFromOthers := v } :=
  settle_same (m := { x with stakeFromOthers := v }) h.1 h.2

theorem refreshable_some {now : Nat} {cum : SMap} {m x : Mining} (h : Refreshable now cum m) (hi : x.index = indexBefore cum now)
    (hd : ∀ e ∈ x.diffs, midnight now < e.1) (hs : x.share + x.stakeFromOthers < 2 ^ 64) (hu : x.unclaimed = due now cum m) :
    Refreshable now cum x := (refreshable_settled hi hd).mpr ⟨hs, by rw [hu]; exact h.rewards⟩

/-! ## Splitting -/

theorem withdraw_split {now a b : Nat} {p : Pool} {m : Mining} {d : Option Mining} (hc : History p.cumulative)
    (hp : Sorted p.diffs) (hm : Fine m) (hd : ∀ x, d = some x → Fine x) (hu : DelegateUpToDate now p.cumulative d)
    (r : Pool × Mining × Option Mining) :
    p.withdraw now m (a + b) d = .ok r ↔
      ∃ r1, p.withdraw now m a d = .ok r1 ∧ r1.1.withdraw now r1.2.1 b r1.2.2 = .ok r := by
  have hsp : Sorted (after p.diffs (midnight now)) := after_sorted hp _
  have hsm : Sorted (after m.diffs (midnight now)) := after_sorted hm.1 _
  have hmm : ∀ e ∈ after m.diffs (midnight now), midnight now < e.1 := fun _ he => (mem_after.mp he).2
  have hm1 : WithdrawOk now p m d a → Fine (withdrawn now p m d a).2.1 := fun h => ⟨hsm, h.refresh.rewards⟩
  have hd1 : WithdrawOk now p m d a → ∀ x, (withdrawn now p m d a).2.2 = some x → Fine x := by
    intro _ x hx
    cases d with
    | none => cases hx
    | some y =>
      simp only [withdrawn, Option.map_some, settle_stake (hu y rfl), Option.some.injEq] at hx
      subst hx
      exact hd y rfl
  have key : WithdrawOk now p m d (a + b) ↔ WithdrawOk now p m d a ∧
      WithdrawOk now (withdrawn now p m d a).1 (withdrawn now p m d a).2.1 (withdrawn now p m d a).2.2 b := by
    have hz := dueBy_after_self m.diffs (midnight now)
    have hz' := dueBy_after_self p.diffs (midnight now)
    have href : Refreshable now p.cumulative m → Refreshable now p.cumulative (withdrawn now p m d a).2.1 := by
      intro h; have := h.stake
      exact refreshable_some h rfl hmm (by simp only [withdrawn, settle]; omega) rfl
    cases d with
    | none =>
      constructor
      · rintro ⟨h1, h2, h3, h4⟩
        refine ⟨⟨h1, by omega, by omega, nofun⟩, href h1, ?_, ?_, nofun⟩
        · simp only [withdrawn, settle]; omega
        · simp only [withdrawn, orZero]; simp; omega
      · rintro ⟨⟨h1, h2, h3, -⟩, -, h5, h6, -⟩
        simp only [withdrawn, settle] at h5
        simp only [withdrawn, orZero, hz'] at h6
        simp at h6
        exact ⟨h1, by omega, by omega, nofun⟩
    | some x =>
      have hx := hu x rfl
      have hfx : Fine { x with stakeFromOthers := x.stakeFromOthers - a } := hd x rfl
      have hux : UpToDate now p.cumulative { x with stakeFromOthers := x.stakeFromOthers - a } :=
        ⟨hx.1, hx.2, by have := hx.stake; simp only; omega⟩
      have e1 : (withdrawn now p m (some x) a).2.2 = some { x with stakeFromOthers := x.stakeFromOthers - a } := by
        simp only [withdrawn, Option.map_some, settle_stake hx]
      rw [e1]
      constructor
      · rintro ⟨h1, h2, h3, h4⟩
        rw [canTake_upToDate hx (hd x rfl)] at h4
        refine ⟨⟨h1, by omega, by omega, ?_⟩, href h1, ?_, ?_, ?_⟩
        · rw [canTake_upToDate hx (hd x rfl)]; omega
        · simp only [withdrawn, settle]; omega
        · simp only [withdrawn, orZero, Option.isSome_some, if_true]; omega
        · show CanTake now p.cumulative _ _ _
          rw [canTake_upToDate hux hfx]
          simp only [withdrawn, orZero, Option.isSome_some, if_true]; omega
      · rintro ⟨⟨h1, h2, h3, h4⟩, -, h5, h6, h7⟩
        rw [canTake_upToDate hx (hd x rfl)] at h4
        have h7 : CanTake now p.cumulative _ _ _ := h7
        rw [canTake_upToDate hux hfx] at h7
        simp only [withdrawn, orZero, Option.isSome_some, if_true] at h6 h7
        simp only [withdrawn, settle] at h5
        refine ⟨h1, by omega, by omega, ?_⟩
        rw [canTake_upToDate hx (hd x rfl)]; omega
  refine two_steps (z := fun r1 => Pool.withdraw now r1.1 r1.2.1 b r1.2.2) (withdraw_solved hc hp hm hd)
    (withdraw_solved hc hp hm hd) (fun h => withdraw_solved (by exact hc) hsp (hm1 h) (hd1 h)) key ?_ r
  rintro ⟨h1, h2, h3, h4⟩
  simp only [withdrawn]
  rw [settle_same (m := { settle now p.cumulative m with share := (settle now p.cumulative m).share - a }) rfl hmm,
    after_after_self, dueBy_after_self]
  cases d with
  | none => simp only [orZero, settle]; simp [Nat.sub_sub, Nat.add_comm, Nat.add_left_comm, Nat.add_assoc]
  | some x =>
    have hx := hu x rfl
    rw [canTake_upToDate hx (hd x rfl)] at h4
    simp only [orZero, settle_stake hx, Option.map_some, Option.isSome_some, if_true, Nat.sub_sub]
    refine Prod.ext ?_ (Prod.ext ?_ rfl)
    · simp only [Pool.mk.injEq, true_and, and_true]; omega
    · rfl

theorem deposit_split {caps : Caps} {now a b : Nat} {per : LockupPeriod} {p : Pool} {m : Mining} {d : Option Mining} {k n : Nat}
    (ht : terms per = some (k, n)) (hc : History p.cumulative) (hp : Sorted p.diffs) (hm : Fine m)
    (hd : ∀ x, d = some x → Fine x) (hu : DelegateUpToDate now p.cumulative d)
    (hfit : m.share + m.stakeFromOthers + a * k < 2 ^ 64) (r : Pool × Mining × Option Mining) :
    p.deposit caps now m (a + b) per d = .ok r ↔
      ∃ r1, p.deposit caps now m a per d = .ok r1 ∧ r1.1.deposit caps now r1.2.1 b per r1.2.2 = .ok r := by
  obtain ⟨k1, n1⟩ : 1 ≤ k ∧ 1 ≤ n := by
    cases per <;> simp only [terms, Option.some.injEq, Prod.mk.injEq, reduceCtorEq] at ht <;> omega
  generalize hE : midnight now + 86400 * n = e
  have hme : midnight now < e := by omega
  have hsm : Sorted (after m.diffs (midnight now)) := after_sorted hm.1 _
  have hmm : ∀ y ∈ addAt caps.mining (after m.diffs (midnight now)) e (a * k - a), midnight now < y.1 :=
    mem_addAt (fun _ he => (mem_after.mp he).2) hme
  have hA : a ≤ a * k := Nat.le_mul_of_pos_right a (by omega)
  have hB : b ≤ b * k := Nat.le_mul_of_pos_right b (by omega)
  have hAB : (a + b) * k = a * k + b * k := Nat.add_mul ..
  have hdep : ∀ a, (deposited caps now p m d a k n).2.1.diffs = addAt caps.mining (after m.diffs (midnight now)) e (a * k - a) := by
    intro a; simp only [deposited, settle]; rw [hE]
  have hpd : ∀ a, (deposited caps now p m d a k n).1.diffs = addAt caps.pool p.diffs e (a * k - a) := by
    intro a; simp only [deposited]; rw [hE]
  have hm1 : DepositOk now p m d a k n → Fine (deposited caps now p m d a k n).2.1 := fun h =>
    ⟨by rw [hdep]; exact addAt_sorted hsm .., h.refresh.rewards⟩
  have hd1 : DepositOk now p m d a k n → ∀ x, (deposited caps now p m d a k n).2.2 = some x → Fine x := by
    intro _ x hx
    cases d with
    | none => cases hx
    | some y =>
      simp only [deposited, Option.map_some, settle_stake (hu y rfl), Option.some.injEq] at hx
      subst hx
      exact hd y rfl
  have hgm := get_after hm.1 hme
  have recm : recordedAt (after m.diffs (midnight now)) e = recordedAt m.diffs e := by
    rw [recordedAt_get hsm, recordedAt_get hm.1, hgm]
  have hr1 := recordedAt_addAt_le (cap := caps.mining) hsm e (a * k - a)
  have hr2 := recordedAt_addAt_le (cap := caps.pool) hp e (a * k - a)
  rw [recm] at hr1
  have hz1 : dueBy (addAt caps.mining (after m.diffs (midnight now)) e (a * k - a)) (midnight now) = 0 := dueBy_eq_zero hmm
  have key : DepositOk now p m d (a + b) k n ↔ DepositOk now p m d a k n ∧
      DepositOk now (deposited caps now p m d a k n).1 (deposited caps now p m d a k n).2.1
        (deposited caps now p m d a k n).2.2 b k n := by
    have href : Refreshable now p.cumulative m → Refreshable now p.cumulative (deposited caps now p m d a k n).2.1 := by
      intro h; have := h.stake
      exact refreshable_some h rfl (by rw [hdep]; exact hmm) (by simp only [deposited, settle]; omega) rfl
    cases d with
    | none =>
      constructor
      · rintro ⟨h1, h2, h3, h4, h5, h6, -⟩
        rw [hE] at h5 h6
        refine ⟨⟨h1, h2, by omega, by omega, by rw [hE]; omega, by rw [hE]; omega, nofun⟩, href h1, h2, ?_, ?_, ?_, ?_, nofun⟩
        · rw [hdep, hz1]; simp only [deposited, settle]; omega
        · simp only [deposited, orZero]; simp; omega
        · rw [hdep, hE]; omega
        · rw [hpd, hE]; omega
      · rintro ⟨⟨h1, h2, h3, h4, h5, h6, -⟩, -, -, h7, h8, h9, h10, -⟩
        rw [hE] at h5 h6
        rw [hdep, hz1] at h7
        rw [hdep, hE] at h9
        rw [hpd, hE] at h10
        simp only [deposited, settle] at h7
        simp only [deposited, orZero] at h8
        simp at h8
        exact ⟨h1, h2, by omega, by omega, by rw [hE]; omega, by rw [hE]; omega, nofun⟩
    | some x =>
      have hx := hu x rfl
      have hfx : Fine { x with stakeFromOthers := x.stakeFromOthers + a } := hd x rfl
      have e1 : (deposited caps now p m (some x) a k n).2.2 = some { x with stakeFromOthers := x.stakeFromOthers + a } := by
        simp only [deposited, Option.map_some, settle_stake hx]
      rw [e1]
      constructor
      · rintro ⟨h1, h2, h3, h4, h5, h6, h7⟩
        rw [hE] at h5 h6
        rw [canGive_upToDate hx (hd x rfl)] at h7
        refine ⟨⟨h1, h2, by omega, by omega, by rw [hE]; omega, by rw [hE]; omega, ?_⟩, href h1, h2, ?_, ?_, ?_, ?_, ?_⟩
        · rw [canGive_upToDate hx (hd x rfl)]; omega
        · rw [hdep, hz1]; simp only [deposited, settle]; omega
        · simp only [deposited, orZero, Option.isSome_some, if_true]; omega
        · rw [hdep, hE]; omega
        · rw [hpd, hE]; omega
        · show CanGive now p.cumulative _ _ _
          have hux : UpToDate now p.cumulative { x with stakeFromOthers := x.stakeFromOthers + a } :=
            ⟨hx.1, hx.2, by simp only; omega⟩
          rw [canGive_upToDate hux hfx]
          simp only [deposited, orZero, Option.isSome_some, if_true]; omega
      · rintro ⟨⟨h1, h2, h3, h4, h5, h6, h11⟩, -, -, h7, h8, h9, h10, h12⟩
        rw [canGive_upToDate hx (hd x rfl)] at h11
        have h12 : CanGive now p.cumulative _ _ _ := h12
        have hux : UpToDate now p.cumulative { x with stakeFromOthers := x.stakeFromOthers + a } :=
          ⟨hx.1, hx.2, by simp only; omega⟩
        rw [canGive_upToDate hux hfx] at h12
        rw [hE] at h5 h6
        rw [hdep, hz1] at h7
        rw [hdep, hE] at h9
        rw [hpd, hE] at h10
        simp only [deposited, settle] at h7
        simp only [deposited, orZero, Option.isSome_some, if_true] at h8 h12
        refine ⟨h1, h2, by omega, by omega, by rw [hE]; omega, by rw [hE]; omega, ?_⟩
        rw [canGive_upToDate hx (hd x rfl)]; omega
  refine two_steps (z := fun r1 => Pool.deposit caps now r1.1 r1.2.1 b per r1.2.2) (deposit_solved ht hc hp hm hd)
    (deposit_solved ht hc hp hm hd)
    (fun h => deposit_solved ht (by exact hc) (by rw [hpd]; exact addAt_sorted hp ..) (hm1 h) (hd1 h)) key ?_ r
  rintro ⟨h1, h2, h3, h4, h5, h6, h7⟩
  have hs1 : settle now p.cumulative (deposited caps now p m d a k n).2.1 = (deposited caps now p m d a k n).2.1 :=
    settle_same rfl (by rw [hdep]; exact hmm)
  have h8 : (a + b) * k - (a + b) = a * k - a + (b * k - b) := by omega
  have e1 : (deposited caps now (deposited caps now p m d a k n).1 (deposited caps now p m d a k n).2.1
      (deposited caps now p m d a k n).2.2 b k n).1 = (deposited caps now p m d (a + b) k n).1 := by
    simp only [deposited]
    rw [addAt_twice, h8]
    have hO : orZero d (a + b) = orZero d a + orZero d b := by cases d <;> simp [orZero]
    have hO' : ∀ g : Mining → Mining, orZero (d.map g) b = orZero d b := by intro g; cases d <;> rfl
    rw [hO, hO']
    simp only [Pool.mk.injEq, true_and, and_true]
    omega
  have e2 : (deposited caps now (deposited caps now p m d a k n).1 (deposited caps now p m d a k n).2.1
      (deposited caps now p m d a k n).2.2 b k n).2.1 = (deposited caps now p m d (a + b) k n).2.1 := by
    simp only [deposited] at hs1 ⊢
    rw [hs1]
    simp only
    rw [addAt_twice, h8, hAB, Nat.add_assoc]
  have e3 : (deposited caps now (deposited caps now p m d a k n).1 (deposited caps now p m d a k n).2.1
      (deposited caps now p m d a k n).2.2 b k n).2.2 = (deposited caps now p m d (a + b) k n).2.2 := by
    cases d with
    | none => rfl
    | some x => simp only [deposited, Option.map_some, settle_stake (hu x rfl), Nat.add_assoc]
  exact (Prod.ext e1 (Prod.ext e2 e3)).symm

theorem upToDate_fewer {now : Nat} {cum : SMap} {x : Mining} (h : UpToDate now cum x) (a : Nat) :
    UpToDate now cum { x with stakeFromOthers := x.stakeFromOthers - a } :=
  ⟨h.1, h.2, by have := h.stake; simp only; omega⟩

theorem orZero_add (d : Option Mining) (a b : Nat) : orZero d (a + b) = orZero d a + orZero d b := by
  cases d <;> simp [orZero]

theorem orZero_map (d : Option Mining) (g : Mining → Mining) (b : Nat) : orZero (d.map g) b = orZero d b := by cases d <;> rfl

theorem canTake_split {now : Nat} {cum : SMap} {tot a b : Nat} {d : Option Mining} (hd : ∀ x, d = some x → Fine x)
    (hu : DelegateUpToDate now cum d) (tot' : Nat) (ht : d.isSome = true → (b ≤ tot' ∧ a ≤ tot ↔ a + b ≤ tot)) :
    CanTake now cum tot (a + b) d ↔ CanTake now cum tot a d ∧
      CanTake now cum tot' b (d.map fun x => settle now cum { x with stakeFromOthers := x.stakeFromOthers - a }) := by
  cases d with
  | none => simp [CanTake]
  | some x =>
    have hx := hu x rfl
    have hfx : Fine { x with stakeFromOthers := x.stakeFromOthers - a } := hd x rfl
    have ht := ht rfl
    rw [Option.map_some, settle_stake hx, canTake_upToDate hx (hd x rfl), canTake_upToDate hx (hd x rfl),
      canTake_upToDate (upToDate_fewer hx a) hfx]
    simp only
    omega

theorem canGive_split {now : Nat} {cum : SMap} {tot tot1 tot2 a b : Nat} {d : Option Mining} (hd : ∀ x, d = some x → Fine x)
    (hu : DelegateUpToDate now cum d)
    (ht : d.isSome = true → (tot + (a + b) < 2 ^ 64 ↔ tot1 + a < 2 ^ 64 ∧ tot2 + b < 2 ^ 64)) :
    CanGive now cum tot (a + b) d ↔ CanGive now cum tot1 a d ∧
      CanGive now cum tot2 b (d.map fun x => settle now cum { x with stakeFromOthers := x.stakeFromOthers + a }) := by
  cases d with
  | none => simp [CanGive]
  | some x =>
    have hx := hu x rfl
    have hfx : Fine { x with stakeFromOthers := x.stakeFromOthers + a } := hd x rfl
    have ht := ht rfl
    rw [Option.map_some, settle_stake hx, canGive_upToDate hx (hd x rfl), canGive_upToDate hx (hd x rfl)]
    by_cases h : x.share + (x.stakeFromOthers + a) < 2 ^ 64
    · have hux : UpToDate now cum { x with stakeFromOthers := x.stakeFromOthers + a } := ⟨hx.1, hx.2, h⟩
      rw [canGive_upToDate hux hfx]
      simp only
      omega
    · constructor
      · omega
      · rintro ⟨⟨h1, h2⟩, -⟩; omega

theorem redelegate_split {now a b : Nat} {p : Pool} {m : Mining} {od nd : Option Mining} (hc : History p.cumulative)
    (hm : Fine m) (ho : ∀ x, od = some x → Fine x) (hn : ∀ x, nd = some x → Fine x)
    (huo : DelegateUpToDate now p.cumulative od) (hun : DelegateUpToDate now p.cumulative nd)
    (htot : p.totalShare < 2 ^ 64) (hfit : od.isSome = true → a + b ≤ p.totalShare)
    (r : Pool × Mining × Option Mining × Option Mining) :
    p.changeDelegate now m nd od (a + b) = .ok r ↔
      ∃ r1, p.changeDelegate now m nd od a = .ok r1 ∧ r1.1.changeDelegate now r1.2.1 r1.2.2.1 r1.2.2.2 b = .ok r := by
  have hsm : Sorted (after m.diffs (midnight now)) := after_sorted hm.1 _
  have hmm : ∀ e ∈ after m.diffs (midnight now), midnight now < e.1 := fun _ he => (mem_after.mp he).2
  have hm1 : RedelegateOk now p m od nd a → Fine (redelegated now p m od nd a).2.1 := fun h => ⟨hsm, h.refresh.rewards⟩
  have hfine : ∀ {d : Option Mining} (g : Mining → Nat), (∀ x, d = some x → Fine x) → DelegateUpToDate now p.cumulative d →
      ∀ x, d.map (fun x => settle now p.cumulative { x with stakeFromOthers := g x }) = some x → Fine x := by
    intro d g hd hu x hx
    cases d with
    | none => cases hx
    | some y =>
      simp only [Option.map_some, settle_stake (hu y rfl), Option.some.injEq] at hx
      subst hx
      exact hd y rfl
  have hif : ∀ (d : Option Mining) (t c : Nat), (if d.isSome = true then t - c else t) = t - orZero d c := by
    intro d t c; cases d <;> rfl
  have key : RedelegateOk now p m od nd (a + b) ↔ RedelegateOk now p m od nd a ∧
      RedelegateOk now (redelegated now p m od nd a).1 (redelegated now p m od nd a).2.1 (redelegated now p m od nd a).2.2.2
        (redelegated now p m od nd a).2.2.1 b := by
    have hz := dueBy_after_self m.diffs (midnight now)
    have href : Refreshable now p.cumulative m → Refreshable now p.cumulative (redelegated now p m od nd a).2.1 := by
      intro h; have := h.stake
      exact refreshable_some h rfl hmm (by simp only [redelegated, settle]; omega) rfl
    have htake := canTake_split (tot := p.totalShare) (a := a) (b := b) ho huo (p.totalShare - orZero od a + orZero nd a) (by
      intro h; have := hfit h
      have : orZero od a = a := by unfold orZero; rw [if_pos h]
      rw [this]; omega)
    have hgive := canGive_split (tot := p.totalShare - orZero od (a + b)) (tot1 := p.totalShare - orZero od a)
      (tot2 := p.totalShare - orZero od a + orZero nd a - orZero od b) (a := a) (b := b) hn hun (by
      intro h
      have h1 : orZero nd a = a := by unfold orZero; rw [if_pos h]
      rw [h1]
      by_cases h2 : od.isSome = true
      · have := hfit h2
        have h3 : ∀ c, orZero od c = c := by intro c; unfold orZero; rw [if_pos h2]
        simp only [h3]; omega
      · have h3 : ∀ c, orZero od c = 0 := by intro c; unfold orZero; rw [if_neg h2]
        simp only [h3]; omega)
    have hi : (od.map fun x => settle now p.cumulative { x with stakeFromOthers := x.stakeFromOthers - a }).isSome = od.isSome := by
      cases od <;> rfl
    constructor
    · rintro ⟨h1, h2, h3⟩
      rw [hif] at h3
      obtain ⟨t1, t2⟩ := htake.mp h2
      obtain ⟨g1, g2⟩ := hgive.mp h3
      refine ⟨⟨h1, t1, by rw [hif]; exact g1⟩, href h1, t2, ?_⟩
      rw [hif]
      simp only [redelegated, orZero_map]
      exact g2
    · rintro ⟨⟨h1, h2, h3⟩, -, h4, h5⟩
      rw [hif] at h3 h5
      simp only [redelegated, orZero_map] at h4 h5
      exact ⟨h1, htake.mpr ⟨h2, h4⟩, by rw [hif]; exact hgive.mpr ⟨h3, h5⟩⟩
  refine two_steps (z := fun r1 => Pool.changeDelegate now r1.1 r1.2.1 r1.2.2.1 r1.2.2.2 b) (redelegate_solved hc hm ho hn)
    (redelegate_solved hc hm ho hn)
    (fun h => redelegate_solved (by exact hc) (hm1 h) (hfine _ ho huo) (hfine _ hn hun)) key ?_ r
  rintro ⟨h1, h2, h3⟩
  have e1 : p.totalShare - orZero od (a + b) + orZero nd (a + b) =
      p.totalShare - orZero od a + orZero nd a - orZero od b + orZero nd b := by
    rw [orZero_add, orZero_add]
    by_cases h2 : od.isSome = true
    · have := hfit h2
      have h3 : ∀ c, orZero od c = c := by intro c; unfold orZero; rw [if_pos h2]
      simp only [h3]; omega
    · have h3 : ∀ c, orZero od c = 0 := by intro c; unfold orZero; rw [if_neg h2]
      simp only [h3]; omega
  have e2 : ∀ {d : Option Mining}, DelegateUpToDate now p.cumulative d →
      (d.map fun x => settle now p.cumulative { x with stakeFromOthers := x.stakeFromOthers + (a + b) }) =
      (d.map fun x => settle now p.cumulative { x with stakeFromOthers := x.stakeFromOthers + a }).map
        fun x => settle now p.cumulative { x with stakeFromOthers := x.stakeFromOthers + b } := by
    intro d hu
    cases d with
    | none => rfl
    | some x =>
      simp only [Option.map_some, settle_stake (hu x rfl), Nat.add_assoc]
  have e3 : ∀ {d : Option Mining}, DelegateUpToDate now p.cumulative d →
      (d.map fun x => settle now p.cumulative { x with stakeFromOthers := x.stakeFromOthers - (a + b) }) =
      (d.map fun x => settle now p.cumulative { x with stakeFromOthers := x.stakeFromOthers - a }).map
        fun x => settle now p.cumulative { x with stakeFromOthers := x.stakeFromOthers - b } := by
    intro d hu
    cases d with
    | none => rfl
    | some x =>
      simp only [Option.map_some, settle_stake (hu x rfl), Nat.sub_sub]
  have e4 : settle now p.cumulative (settle now p.cumulative m) = settle now p.cumulative m := settle_same rfl hmm
  simp only [redelegated, orZero_map]
  rw [e1, e2 hun, e3 huo, e4]

theorem slash_split {now n1 n2 mu1 mu2 : Nat} {ex : Option Nat} {p : Pool} {m : Mining} (hc : History p.cumulative)
    (hp : Sorted p.diffs) (hm : Fine m) (hle : n1 ≤ mu1 ∧ n2 ≤ mu2) (r : Pool × Mining) :
    p.slash now m (n1 + n2) (mu1 + mu2) ex = .ok r ↔
      ∃ r1, p.slash now m n1 mu1 ex = .ok r1 ∧ r1.1.slash now r1.2 n2 mu2 ex = .ok r := by
  obtain ⟨le1, le2⟩ := hle
  have hsp : Sorted (after p.diffs (midnight now)) := after_sorted hp _
  have hsm : Sorted (after m.diffs (midnight now)) := after_sorted hm.1 _
  have hless : ∀ {D : SMap} (v : Nat), Sorted D → Sorted (lessAt D ex v) := by
    intro D v h
    cases ex with
    | none => exact h
    | some ts => exact SMap.put_sorted h ..
  have hfut : ∀ {D : SMap} (v : Nat), (∀ ts, ex = some ts → midnight now < midnight ts) →
      ∀ e ∈ lessAt (after D (midnight now)) ex v, midnight now < e.1 := by
    intro D v h e he
    cases ex with
    | none => exact (mem_after.mp he).2
    | some ts =>
      rcases SMap.mem_put he with rfl | he
      · exact h ts rfl
      · exact (mem_after.mp he).2
  have hm1 : SlashOk now p m n1 mu1 ex → Fine (slashed now p m n1 mu1 ex).2 := fun h =>
    ⟨hless _ hsm, h.withdraw.refresh.rewards⟩
  have hsame : (∀ ts, ex = some ts → midnight now < midnight ts) →
      settle now p.cumulative (slashed now p m n1 mu1 ex).2 = (slashed now p m n1 mu1 ex).2 := fun h =>
    settle_same rfl (hfut _ h)
  have hmem : ∀ {D : SMap} {ts : Nat}, Sorted D → midnight now < midnight ts →
      ((∃ v, (midnight ts, v) ∈ D ∧ mu1 + mu2 - (n1 + n2) ≤ v) ↔ (∃ v, (midnight ts, v) ∈ D ∧ mu1 - n1 ≤ v) ∧
        ∃ v, (midnight ts, v) ∈ lessAt (after D (midnight now)) (some ts) (mu1 - n1) ∧ mu2 - n2 ≤ v) := by
    intro D ts hD hts
    have hg := get_after hD hts
    have e1 : ∀ v, (midnight ts, v) ∈ D ↔ SMap.get D (midnight ts) = some v := fun v =>
      ⟨SMap.get_of_mem hD, SMap.get_some_mem⟩
    have e2 : ∀ v, (midnight ts, v) ∈ lessAt (after D (midnight now)) (some ts) (mu1 - n1) ↔
        (SMap.get D (midnight ts)).getD 0 - (mu1 - n1) = v := by
      intro v
      have hS : Sorted (lessAt (after D (midnight now)) (some ts) (mu1 - n1)) := SMap.put_sorted (after_sorted hD _) ..
      have h2 : SMap.get (lessAt (after D (midnight now)) (some ts) (mu1 - n1)) (midnight ts) =
          some ((SMap.get D (midnight ts)).getD 0 - (mu1 - n1)) := by
        simp only [lessAt, SMap.get_put, if_true, hg]
      constructor
      · intro h
        have := SMap.get_of_mem hS h
        rw [h2] at this; cases this; rfl
      · rintro rfl
        exact SMap.get_some_mem h2
    simp only [e1, e2]
    cases SMap.get D (midnight ts) with
    | none => simp
    | some v => simp; omega
  have key : SlashOk now p m (n1 + n2) (mu1 + mu2) ex ↔ SlashOk now p m n1 mu1 ex ∧
      SlashOk now (slashed now p m n1 mu1 ex).1 (slashed now p m n1 mu1 ex).2 n2 mu2 ex := by
    have hzm : (∀ ts, ex = some ts → midnight now < midnight ts) →
        dueBy (lessAt (after m.diffs (midnight now)) ex (mu1 - n1)) (midnight now) = 0 := fun h => dueBy_eq_zero (hfut _ h)
    have hzp : (∀ ts, ex = some ts → midnight now < midnight ts) →
        dueBy (lessAt (after p.diffs (midnight now)) ex (mu1 - n1)) (midnight now) = 0 := fun h => dueBy_eq_zero (hfut _ h)
    have href : (∀ ts, ex = some ts → midnight now < midnight ts) → Refreshable now p.cumulative m →
        Refreshable now p.cumulative (slashed now p m n1 mu1 ex).2 := by
      intro hf h; have := h.stake
      exact refreshable_some h rfl (hfut _ hf) (by simp only [slashed, settle]; omega) rfl
    constructor
    · rintro ⟨⟨h1, h2, h3, -⟩, h5⟩
      have hf : ∀ ts, ex = some ts → midnight now < midnight ts := fun ts h => (h5 ts h).2.1
      refine ⟨⟨⟨h1, by omega, by omega, nofun⟩, ?_⟩, ⟨href hf h1, ?_, ?_, nofun⟩, ?_⟩
      · rintro ts rfl
        obtain ⟨-, k2, k3, k4⟩ := h5 ts rfl
        exact ⟨le1, k2, ((hmem hm.1 k2).mp k3).1, ((hmem hp k2).mp k4).1⟩
      · show dueBy (lessAt (after m.diffs (midnight now)) ex (mu1 - n1)) _ + _ ≤ _
        rw [hzm hf]; simp only [slashed, settle]; omega
      · show dueBy (lessAt (after p.diffs (midnight now)) ex (mu1 - n1)) _ + _ ≤ _
        rw [hzp hf]; simp only [slashed]; omega
      · rintro ts rfl
        obtain ⟨-, k2, k3, k4⟩ := h5 ts rfl
        exact ⟨le2, k2, ((hmem hm.1 k2).mp k3).2, ((hmem hp k2).mp k4).2⟩
    · rintro ⟨⟨⟨h1, h2, h3, -⟩, h4⟩, ⟨-, h6, h7, -⟩, h8⟩
      have hf : ∀ ts, ex = some ts → midnight now < midnight ts := fun ts h => (h4 ts h).2.1
      have h6 : dueBy (lessAt (after m.diffs (midnight now)) ex (mu1 - n1)) _ + _ ≤ _ := h6
      have h7 : dueBy (lessAt (after p.diffs (midnight now)) ex (mu1 - n1)) _ + _ ≤ _ := h7
      rw [hzm hf] at h6
      rw [hzp hf] at h7
      simp only [slashed, settle] at h6 h7
      refine ⟨⟨h1, by omega, by omega, nofun⟩, ?_⟩
      rintro ts rfl
      obtain ⟨-, k2, k3, k4⟩ := h4 ts rfl
      obtain ⟨-, -, k5, k6⟩ := h8 ts rfl
      exact ⟨by omega, k2, (hmem hm.1 k2).mpr ⟨k3, k5⟩, (hmem hp k2).mpr ⟨k4, k6⟩⟩
  refine two_steps (z := fun r1 => Pool.slash now r1.1 r1.2 n2 mu2 ex) (slash_solved hc hp hm) (slash_solved hc hp hm)
    (fun h => slash_solved (by exact hc) (hless _ hsp) (hm1 h)) key ?_ r
  rintro ⟨⟨h1, h2, h3, -⟩, h4⟩
  have hf : ∀ ts, ex = some ts → midnight now < midnight ts := fun ts h => (h4 ts h).2.1
  have hs := hsame hf
  have ha : after (lessAt (after p.diffs (midnight now)) ex (mu1 - n1)) (midnight now) =
      lessAt (after p.diffs (midnight now)) ex (mu1 - n1) := by
    unfold after
    rw [List.filter_eq_self]
    intro e he
    have := hfut (D := p.diffs) (mu1 - n1) hf e he
    simp; omega
  have hz : dueBy (lessAt (after p.diffs (midnight now)) ex (mu1 - n1)) (midnight now) = 0 := dueBy_eq_zero (hfut _ hf)
  have hsub : mu1 + mu2 - (n1 + n2) = mu1 - n1 + (mu2 - n2) := by omega
  simp only [slashed] at hs ⊢
  rw [hs, ha, hz, hsub]
  simp only [lessAt_lessAt, Nat.sub_sub, Nat.add_zero, Prod.mk.injEq, Pool.mk.injEq, true_and, and_true]
  omega

end Verif
