import Verif.Spec.Tables
import Verif.Lemmas.Distribution
/-!
The dates in a pool's table of expirations (C128).
-/

namespace Verif

open Spec

variable {env : Env}

/-- All dates of a table have a property. -/
def AllDates (G : Nat → Prop) (l : List (Nat × Nat)) : Prop := ∀ e ∈ l, G e.1

/-- So do the dates on which a lock that begins now can expire. -/
def NewDates (G : Nat → Prop) (now : Nat) : Prop := ∀ (l : LockupPeriod) (e : Nat), l.endTimestamp now = .ok e → G e

theorem AllDates.addAt {G : Nat → Prop} {l : SMap} (h : AllDates G l) {cap k v : Nat} (hk : G k) :
    AllDates G (addAt cap l k v) := by
  intro e he
  rcases insert_mem e he with rfl | he
  · exact hk
  · exact h e he

theorem AllDates.after {G : Nat → Prop} {l : List (Nat × Nat)} (h : AllDates G l) (d : Nat) : AllDates G (after l d) :=
  fun e he => h e (mem_after.mp he).1

theorem withSub_keeps {now a : Nat} {p p' : Pool} {d d' : Option Mining}
    (h : p.withDelegate d (Pool.delegateSub now a) = .ok (p', d')) : ∃ t, p' = { p with totalShare := t } := by
  cases d with
  | none => rw [withDelegate_none] at h; obtain ⟨rfl, -⟩ := h; exact ⟨p'.totalShare, rfl⟩
  | some x =>
    rw [withDelegate_some] at h
    obtain ⟨y, h, -⟩ := h
    rw [delegateSub_ok] at h
    exact ⟨_, h.2.2.2⟩

theorem withAdd_keeps {now a : Nat} {p p' : Pool} {d d' : Option Mining}
    (h : p.withDelegate d (Pool.delegateAdd now a) = .ok (p', d')) : ∃ t, p' = { p with totalShare := t } := by
  cases d with
  | none => rw [withDelegate_none] at h; obtain ⟨rfl, -⟩ := h; exact ⟨p'.totalShare, rfl⟩
  | some x =>
    rw [withDelegate_some] at h
    obtain ⟨y, h, -⟩ := h
    rw [delegateAdd_ok] at h
    exact ⟨_, h.2.2.2⟩

theorem deposit_dates {G : Nat → Prop} {caps : Caps} {now : Nat} {p p' : Pool} {m m' : Mining} {a : Nat} {per : LockupPeriod}
    {d d' : Option Mining} (hp : PoolOk now p) (hm : MiningOk m) (hG : AllDates G p.diffs) (hn : NewDates G now)
    (h : p.deposit caps now m a per d = .ok (p', m', d')) : AllDates G p'.diffs := by
  obtain ⟨m1, e, -, h2, -, -, -, -, -, -, -, h10⟩ := deposit_ok (refresh_sorted hp hm) h
  obtain ⟨t, rfl⟩ := withAdd_keeps h10
  exact hG.addAt (hn _ _ h2)

theorem withdraw_sweeps {now : Nat} {p p' : Pool} {m m' : Mining} {a : Nat} {d d' : Option Mining} (hp : PoolOk now p)
    (h : p.withdraw now m a d = .ok (p', m', d')) : p'.diffs = after p.diffs (bod now) := by
  obtain ⟨m1, -, -, -, -, h5⟩ := withdraw_ok hp.sorted h
  obtain ⟨t, rfl⟩ := withSub_keeps h5
  rfl

theorem slash_sweeps {G : Nat → Prop} {now : Nat} {p p' : Pool} {m m' : Mining} {n mu : Nat} {ex : Option Nat}
    (hp : PoolOk now p) (hm : MiningOk m) (hG : AllDates G (after p.diffs (bod now)))
    (h : p.slash now m n mu ex = .ok (p', m')) : AllDates G p'.diffs := by
  obtain ⟨m1, -, -, -, h4⟩ := slash_ok hp.sorted (refresh_sorted hp hm) h
  rcases h4 with ⟨-, -, rfl⟩ | ⟨ts, om, op, -, -, -, k3, -, -, -, rfl⟩
  · exact hG
  · intro e he
    rcases SMap.mem_put he with rfl | he
    · exact hG (bod ts, op) (SMap.get_some_mem k3)
    · exact hG e he

theorem extend_dates {G : Nat → Prop} {caps : Caps} {now : Nat} {p p' : Pool} {m m' : Mining} {op np : LockupPeriod}
    {ts b a : Nat} {d d' : Option Mining} (hp : PoolOk now p) (hm : MiningOk m) (hG : AllDates G p.diffs)
    (hn : NewDates G now) (h : p.extend caps now m op np ts b a d = .ok (p', m', d')) : AllDates G p'.diffs := by
  obtain ⟨m1, oe, p2, m2, p3, d3, h1, -, h3, -, h5, h6⟩ := extend_ok (refresh_sorted hp hm) h
  have g1 := (refresh_same hp.history hm h1).2.1
  have hpm : (∃ t, p2 = { p with totalShare := t }) ∧ MiningOk m2 := by
    rcases h3 with ⟨_, _, _, ⟨old, k1, k2, rfl⟩, k3, k4, rfl⟩ | ⟨_, k3, k4, rfl, rfl⟩
    · exact ⟨⟨_, rfl⟩, ⟨SMap.put_sorted g1.sorted _ _, put_aligned g1.aligned k1⟩⟩
    · exact ⟨⟨_, rfl⟩, ⟨g1.1, g1.2⟩⟩
  obtain ⟨⟨t, rfl⟩, hm2⟩ := hpm
  obtain ⟨t', rfl⟩ := withSub_keeps h5
  exact deposit_dates (hp.withDiffs (t := t') (D := p.diffs) hp.sorted hp.aligned) hm2 hG hn h6

theorem stakeOp_dates {G : Nat → Prop} {caps : Caps} {now : Nat} {p p' : Pool} {m m' : Mining} {d d' : Option Mining} {i : Ix}
    (hp : PoolOk now p) (hm : MiningOk m) (hG : AllDates G p.diffs) (hn : NewDates G now)
    (h : StakeOp caps now p m d p' m' d' i) : AllDates G p'.diffs := by
  cases i <;> first
    | exact h.elim
    | exact deposit_dates hp hm hG hn h
    | (rw [withdraw_sweeps hp h]; exact hG.after _)
    | exact extend_dates hp hm hG hn h
    | exact slash_sweeps hp hm (hG.after _) h.1

theorem distribute_sweeps {caps : Caps} {now r : Nat} {p p' : Pool} (hp : PoolOk now p)
    (h : p.distribute caps now r = .ok p') : p'.diffs = after p.diffs (bod now) := by
  rw [distribute_ok hp.sorted] at h
  obtain ⟨-, -, ⟨-, rfl⟩ | ⟨-, -, -, -, -, rfl⟩⟩ := h <;> rfl

/-- An instruction adds no other dates to a pool's table than those of locks that begin now. -/
theorem Step.poolDates {now : Nat} {w w' : World} {accs : List AccountInfo} {i : Ix} {ret : Option Nat}
    (h : Step env now w w' accs i ret) (hw : Wf env now w) {k : Key} {p p' : Pool} (hp : PoolAt env w k p)
    (hp' : PoolAt env w' k p') {G : Nat → Prop} (hG : AllDates G p.diffs) (hn : NewDates G now) : AllDates G p'.diffs := by
  obtain ⟨q, h1, h2, -⟩ := h.pool hp
  obtain rfl := PoolAt.unique hp' h1
  have hok := (poolAt_good hw hp).ok
  cases h2 with
  | same => exact hG
  | distribute _ _ _ op => rw [distribute_sweeps hok op]; exact hG.after _
  | fill => exact hG
  | stake hi quiet signed =>
    cases h with
    | @stake _ P M A D q q' m m' d d' accs_eq op chk del quiet same sfo ok' sameDel eff shell =>
      rcases eff.pools hp with ⟨rfl, rfl, h3⟩ | ⟨_, h3⟩
      · rw [PoolAt.unique hp' h3]
        exact stakeOp_dates hok chk.miningOk hG hn op
      · rw [PoolAt.unique hp' h3]; exact hG
    | @redelegate a nd P M A O Old New rest q q' m m' od od' dn dn' accs_eq signed op chk newDel oldOk oldAt ne quiet same sfo
        ok' sameNew sameOld neP eff shell writtenOld writtenNew =>
      by_cases e1 : k = P.key
      · subst e1
        obtain rfl := PoolAt.unique hp eff.pool
        rw [PoolAt.unique hp' eff.pool']
        obtain ⟨-, p1, g2, g3⟩ := changeDelegate_ok.mp op
        obtain ⟨t, rfl⟩ := withSub_keeps g2
        obtain ⟨t', rfl⟩ := withAdd_keeps g3
        exact hG
      · have hsame : w' k = w k := by
          refine eff.frame k e1 ?_ ?_ ?_
          · rintro rfl; exact PoolAt.not_mining hp eff.mining
          · rintro rfl
            rcases eff.old with ⟨h3, -⟩ | ⟨-, h3, -⟩
            · rw [h3] at hp; exact PoolAt.not_mining hp eff.mining
            · exact h3 _ hp
          · rintro rfl
            rcases eff.new with ⟨h3, -⟩ | ⟨-, h3, -⟩
            · rw [h3] at hp; exact PoolAt.not_mining hp eff.mining
            · exact h3 _ hp
        rw [PoolAt.unique ((poolAt_congr hsame).mp hp') hp]; exact hG
    | _ => cases hi

theorem apply_dates {s : Chain} (hw : Wf env s.now s.world) {e : Event} (hv : e.Valid env s) (hc : CleanEvent env s e)
    {k : Key} {p' : Pool} (hp' : PoolAt env (s.apply env e).world k p') {G : Nat → Prop}
    (hG : ∀ p, PoolAt env s.world k p → AllDates G p.diffs) (hn : NewDates G s.now) : AllDates G p'.diffs := by
  rcases apply_pool_back hw hv hc hp' with ⟨p, hp, hev⟩ | ⟨bump, d, f, t, a, rfl, -⟩
  · cases hev with
    | same => exact hG _ hp
    | @ix accs i w' ret _ ok change =>
      rw [apply_ix_ok ok] at hp'
      exact (step_of_exec hw hv hc ok).poolDates hw hp hp' (hG _ hp) hn
  · intro x hx; simp [Pool.init, Pool.zero] at hx

theorem days_bounds {l : LockupPeriod} {n : Nat} (h : l.days = .ok n) : 0 < n ∧ n ≤ 365 := by
  cases l <;> simp [LockupPeriod.days] at h <;> subst h <;> decide

theorem newDate_bounds {l : LockupPeriod} {t e : Nat} (h : l.endTimestamp t = .ok e) :
    midnight t < e ∧ e ≤ midnight t + 86400 * 365 := by
  obtain ⟨n, h1, -, rfl⟩ := endTimestamp_ok.mp h
  obtain ⟨h2, h3⟩ := days_bounds h1
  rw [bod_eq_midnight]; unfold DAY; omega

/-- No pool has an expiration recorded for later than 365 days from today. -/
theorem reachable_dates {s : Chain} (h : Reachable env s) :
    ∀ k p, PoolAt env s.world k p → AllDates (fun x => x ≤ midnight s.now + 86400 * 365) p.diffs := by
  refine reachable_induction (Q := fun s => ∀ k p, PoolAt env s.world k p →
    AllDates (fun x => x ≤ midnight s.now + 86400 * 365) p.diffs) ?_ ?_ h
  · intro s hg k p hp
    have := (hg.owned k hp.1).1
    rw [hp.2] at this; cases this
  · intro s e hw hv hc ih k p hp x hx
    have h1 := apply_dates hw hv hc hp (ih k) (fun _ _ h => (newDate_bounds h).2) x hx
    have h2 : s.now ≤ (s.apply env e).now := run_now_le (.cons (C := fun _ _ => True) hv trivial (.nil _))
    have h3 := midnight_mono h2
    simp only at h1 ⊢
    omega

/-- A table swept once has no dates up to that day afterwards. -/
theorem runs_dates {s s' : Chain} {es : List Event} (hw : Wf env s.now s.world) (hr : RunsWith env (CleanEvent env) s es s')
    {k : Key} {D : Nat} (hD : D ≤ midnight s.now)
    (h0 : ∀ p, PoolAt env s.world k p → AllDates (fun x => D < x) p.diffs) :
    ∀ p, PoolAt env s'.world k p → AllDates (fun x => D < x) p.diffs := by
  induction hr with
  | nil s => exact h0
  | @cons s s' e es hv hc _ ih =>
    have h2 : s.now ≤ (s.apply env e).now := run_now_le (.cons (C := fun _ _ => True) hv trivial (.nil _))
    refine ih (wf_apply hw hv hc) (Nat.le_trans hD (midnight_mono h2)) fun p hp => ?_
    exact apply_dates hw hv hc hp h0 fun l x h => Nat.lt_of_le_of_lt hD (newDate_bounds h).1

/-- Distributing, withdrawing and slashing leave nothing overdue. -/
theorem Step.sweeps {now : Nat} {w w' : World} {accs : List AccountInfo} {i : Ix} {ret : Option Nat}
    (h : Step env now w w' accs i ret) (hw : Wf env now w) {k : Key} {p' : Pool} (hi : Sweeps accs k i)
    (hp' : PoolAt env w' k p') : NothingOverdue now p' := by
  have swept : ∀ {p : Pool}, AllDates (fun x => midnight now < x) (after p.diffs (bod now)) := fun {p} e he => by
    rw [← bod_eq_midnight]; exact (mem_after.mp he).2
  cases h with
  | @stake i P M A D q q' m m' d d' accs_eq op chk del quiet same sfo ok' sameDel eff shell =>
    have hok := (poolAt_good hw eff.pool).ok
    cases i <;> try first | exact hi.elim | exact op.elim
    case withdrawMining =>
      obtain ⟨rest, rfl⟩ := accs_eq
      obtain rfl : P.key = k := by simpa [Sweeps, FirstIs] using hi
      rw [PoolAt.unique hp' eff.pool']
      intro e he
      rw [withdraw_sweeps hok op] at he
      exact swept e he
    case slash =>
      obtain ⟨-, rest, rfl⟩ := accs_eq
      obtain ⟨_, _, _, e1, rfl⟩ := hi
      cases e1
      rw [PoolAt.unique hp' eff.pool']
      exact slash_sweeps hok chk.miningOk swept op.1
  | @distribute P B rest q q' r accs_eq signed auth good pool pool' amount op same ok' frame shell =>
    subst accs_eq
    obtain rfl : P.key = k := by simpa [Sweeps, FirstIs] using hi
    rw [PoolAt.unique hp' pool']
    intro e he
    rw [distribute_sweeps (poolAt_good hw pool).ok op] at he
    exact swept e he
  | _ => exact hi.elim

/-- Dates at midnight, all different, after day `a` and not after day `b`. -/
theorem dates_count {l : List (Nat × Nat)} {a b : Nat} (hs : Sorted l) (ha : ∀ e ∈ l, e.1 % 86400 = 0)
    (h1 : ∀ e ∈ l, 86400 * a < e.1) (h2 : ∀ e ∈ l, e.1 ≤ 86400 * b) : l.length ≤ b - a := by
  induction l generalizing a with
  | nil => exact Nat.zero_le _
  | cons x t ih =>
    rw [sorted_cons] at hs
    have x0 := ha x List.mem_cons_self
    have x1 := h1 x List.mem_cons_self
    have x2 := h2 x List.mem_cons_self
    have := ih (a := x.1 / 86400) hs.2 (fun e he => ha e (List.mem_cons_of_mem _ he))
      (fun e he => by have := hs.1 e he; omega) (fun e he => h2 e (List.mem_cons_of_mem _ he))
    rw [List.length_cons]
    omega

/-- If one of the days is missing, there is one date less. -/
theorem dates_missing {l : List (Nat × Nat)} {a b c : Nat} (hs : Sorted l) (ha : ∀ e ∈ l, e.1 % 86400 = 0)
    (h1 : ∀ e ∈ l, 86400 * a < e.1) (h2 : ∀ e ∈ l, e.1 ≤ 86400 * b) (hc : a < c) (hb : c ≤ b)
    (hn : ∀ e ∈ l, e.1 ≠ 86400 * c) : l.length + 1 ≤ b - a := by
  induction l generalizing a with
  | nil => simp; omega
  | cons x t ih =>
    rw [sorted_cons] at hs
    have x0 := ha x List.mem_cons_self
    have x1 := h1 x List.mem_cons_self
    have x2 := h2 x List.mem_cons_self
    have x3 := hn x List.mem_cons_self
    rw [List.length_cons]
    by_cases hlt : c < x.1 / 86400
    · have := dates_count (a := x.1 / 86400) (b := b) hs.2 (fun e he => ha e (List.mem_cons_of_mem _ he))
        (fun e he => by have := hs.1 e he; omega) (fun e he => h2 e (List.mem_cons_of_mem _ he))
      omega
    · have := ih (a := x.1 / 86400) hs.2 (fun e he => ha e (List.mem_cons_of_mem _ he))
        (fun e he => by have := hs.1 e he; omega) (fun e he => h2 e (List.mem_cons_of_mem _ he)) (by omega)
        (fun e he => hn e (List.mem_cons_of_mem _ he))
      omega

end Verif
