import Verif.Lemmas.Extend
import Verif.Spec.Delegate
/-!
The same instruction with different delegates.
-/

namespace Verif

open Spec

variable {env : Env}

theorem orZero_delegated (d : Option Mining) (a : Nat) : orZero d a = delegated d a := rfl

theorem takenOut_det {now : Nat} {m m1 m2 : Mining} {op : LockupPeriod} {ts b w1 w2 : Nat}
    (h1 : TakenOut now m op ts b w1 m1) (h2 : TakenOut now m op ts b w2 m2) : w1 = w2 ∧ m1 = m2 := by
  cases h1 with
  | flat h =>
    cases h2 with
    | flat => exact ⟨rfl, rfl⟩
    | locked g1 g2 g3 =>
      rcases h with h | ⟨oe, -, e, h⟩
      · exact absurd h g1
      · rw [g2] at e; cases e; omega
  | locked g1 g2 g3 g4 =>
    cases h2 with
    | flat h =>
      rcases h with h | ⟨oe, -, e, h⟩
      · exact absurd h g1
      · rw [g2] at e; cases e; omega
    | locked k1 k2 k3 k4 =>
      rw [g2] at k2; cases k2
      rw [g4] at k4; cases k4
      exact ⟨rfl, rfl⟩

/-- What the result of an operation with delegate `d1` and the result of the same operation with delegate `d2` have in
common. -/
def Alike (r1 r2 : Pool × Mining × Option Mining) (x1 x2 : Nat) : Prop :=
  r2.2.1 = r1.2.1 ∧ r2.1 = { r1.1 with totalShare := r2.1.totalShare } ∧ r1.1.totalShare + x2 = r2.1.totalShare + x1

theorem deposit_alike {caps : Caps} {now a : Nat} {per : LockupPeriod} {p : Pool} {m : Mining} {d1 d2 : Option Mining}
    (hc : History p.cumulative) (hp : Sorted p.diffs) (hm : Fine m) (hd1 : ∀ x, d1 = some x → Fine x)
    (hd2 : ∀ x, d2 = some x → Fine x) {r1 r2 : Pool × Mining × Option Mining}
    (h1 : p.deposit caps now m a per d1 = .ok r1) (h2 : p.deposit caps now m a per d2 = .ok r2) :
    Alike r1 r2 (delegated d1 a) (delegated d2 a) := by
  obtain ⟨k, n, ht, -⟩ := (deposit_exact hc hp hm hd1).mp ⟨_, h1⟩
  obtain ⟨-, rfl⟩ := (deposit_solved ht hc hp hm hd1 _).mp h1
  obtain ⟨-, rfl⟩ := (deposit_solved ht hc hp hm hd2 _).mp h2
  refine ⟨rfl, rfl, ?_⟩
  simp only [deposited, orZero_delegated]
  omega

theorem withdraw_alike {now a : Nat} {p : Pool} {m : Mining} {d1 d2 : Option Mining}
    (hc : History p.cumulative) (hp : Sorted p.diffs) (hm : Fine m) (hd1 : ∀ x, d1 = some x → Fine x)
    (hd2 : ∀ x, d2 = some x → Fine x) {r1 r2 : Pool × Mining × Option Mining}
    (h1 : p.withdraw now m a d1 = .ok r1) (h2 : p.withdraw now m a d2 = .ok r2) :
    Alike r1 r2 (delegated d2 a) (delegated d1 a) := by
  obtain ⟨o1, rfl⟩ := (withdraw_solved hc hp hm hd1 _).mp h1
  obtain ⟨o2, rfl⟩ := (withdraw_solved hc hp hm hd2 _).mp h2
  refine ⟨rfl, rfl, ?_⟩
  have key : ∀ {d}, WithdrawOk now p m d a → delegated d a ≤ p.totalShare - a - dueBy p.diffs (midnight now) := by
    intro d h
    cases d with
    | none => exact Nat.zero_le _
    | some x => exact (h.delegate x rfl).2.1
  have := key o1
  have := key o2
  simp only [withdrawn, orZero_delegated]
  omega

theorem extend_alike {caps : Caps} {now : Nat} {op np : LockupPeriod} {ts b a : Nat} {p : Pool} {m : Mining}
    {d1 d2 : Option Mining} (hc : History p.cumulative) (hp : Sorted p.diffs) (hm : Fine m)
    (hd1 : ∀ x, d1 = some x → Fine x) (hd2 : ∀ x, d2 = some x → Fine x) {r1 r2 : Pool × Mining × Option Mining}
    (h1 : p.extend caps now m op np ts b a d1 = .ok r1) (h2 : p.extend caps now m op np ts b a d2 = .ok r2) :
    Alike r1 r2 (delegated d1 a) (delegated d2 a) := by
  have hs : ∀ m1, m.refreshRewards now p.cumulative = .ok m1 → Sorted m1.diffs := by
    intro m1 h
    obtain ⟨-, rfl⟩ := (refresh_settle hc hm).mp h
    exact after_sorted hm.1 _
  obtain ⟨m1, wt, m2, p3, d3, a1, a2, -, -, -, a6, a7⟩ := extend_parts hs h1
  obtain ⟨m1', wt', m2', p3', d3', b1, b2, -, -, -, b6, b7⟩ := extend_parts hs h2
  rw [a1] at b1; cases b1
  obtain ⟨rfl, rfl⟩ := takenOut_det a2 b2
  obtain ⟨r0, rfl⟩ := (refresh_settle hc hm).mp a1
  obtain ⟨c1, rfl, rfl⟩ := (take_exact (by exact hc) hd1).mp a6
  obtain ⟨c2, rfl, rfl⟩ := (take_exact (by exact hc) hd2).mp b6
  simp only at c1 c2
  have hf : Fine m2 := by
    obtain ⟨-, -, -, -, -, -, g5, g6, -⟩ := takenOut_unlocks hm a2 (Nat.lt_succ_self _)
    exact ⟨g6, by rw [g5]; exact r0.rewards⟩
  have hd3 : ∀ {tot} {d : Option Mining} (hd : ∀ x, d = some x → Fine x), CanTake now p.cumulative tot b d →
      ∀ y, (d.map fun x => settle now p.cumulative { x with stakeFromOthers := x.stakeFromOthers - b }) = some y → Fine y := by
    intro tot d hd ht y hy
    cases d with
    | none => cases hy
    | some x => cases hy; exact settle_fine (hd x rfl) (ht x rfl).2.2
  obtain ⟨k, n, ht, -⟩ := (deposit_exact (by exact hc) (by exact hp) hf (hd3 hd1 c1)).mp ⟨_, a7⟩
  obtain ⟨-, rfl⟩ := (deposit_solved ht (by exact hc) (by exact hp) hf (hd3 hd1 c1) _).mp a7
  obtain ⟨-, rfl⟩ := (deposit_solved ht (by exact hc) (by exact hp) hf (hd3 hd2 c2) _).mp b7
  refine ⟨rfl, rfl, ?_⟩
  have key : ∀ {d}, CanTake now p.cumulative (p.totalShare - wt) b d → delegated d b ≤ p.totalShare - wt := by
    intro d h
    cases d with
    | none => exact Nat.zero_le _
    | some x => exact (h x rfl).2.1
  have e1 := key c1
  have e2 := key c2
  simp only [deposited, orZero_delegated]
  cases d1 <;> cases d2 <;>
    simp only [delegated, Option.map_none, Option.map_some, Option.isSome_none, Option.isSome_some, Bool.false_eq_true,
      if_false, if_true] at e1 e2 ⊢ <;> omega

/-! ## Instructions -/

theorem stakeWorld_alike {w : World} {accs1 accs2 : List AccountInfo} {P M A1 A2 D1 D2 : AccountInfo}
    {rest1 rest2 : List AccountInfo} {p : Pool} {m : Mining} {d1 d2 : Option Mining} {owner e1 e2 : Key}
    (h1 : StakeReady env w accs1 P M A1 D1 rest1 p m d1 owner e1) (h2 : StakeReady env w accs2 P M A2 D2 rest2 p m d2 owner e2)
    {r1 r2 : Pool × Mining × Option Mining} (s1 : SameDelegate d1 r1.2.2) (s2 : SameDelegate d2 r2.2.2) {x1 x2 : Nat}
    (hr : Alike r1 r2 x1 x2) : SameForStaker env (stakeWorld env w P.key M.key D1.key r1.1 r1.2.1 r1.2.2)
      (stakeWorld env w P.key M.key D2.key r2.1 r2.2.1 r2.2.2) P.key M.key D1.key D2.key x1 x2 := by
  obtain ⟨p1, m1, d1'⟩ := r1
  obtain ⟨p2, m2, d2'⟩ := r2
  obtain ⟨g1, g2, g3⟩ := hr
  simp only at g1 g2 g3 s1 s2
  have q1 := h1.places (sameDelegate_isSome s1)
  have q2 := h2.places (sameDelegate_isSome s2)
  have t1 : ∀ k, stakeWorld env w P.key M.key D1.key p1 m1 d1' k = _ := fun k =>
    (congrFun (stakeWorld_eq w _ _ _ p1 m1 d1') k).trans (writes_at (r := (p1, m1, d1', none)) q1 k)
  have t2 : ∀ k, stakeWorld env w P.key M.key D2.key p2 m2 d2' k = _ := fun k =>
    (congrFun (stakeWorld_eq w _ _ _ p2 m2 d2') k).trans (writes_at (r := (p2, m2, d2', none)) q2 k)
  have c : ∀ {D : Key} {d : Option Mining} (q : Places env w P.key M.key M.key D none d),
      ¬ (M.key = D ∧ d.isSome = true) ∧ ¬ (P.key = D ∧ d.isSome = true) := by
    intro D d q
    constructor
    · rintro ⟨e, hs⟩
      obtain ⟨x, hx⟩ := Option.isSome_iff_exists.mp hs
      exact (q.new x hx).1 (by simp [e])
    · rintro ⟨e, hs⟩
      obtain ⟨x, hx⟩ := Option.isSome_iff_exists.mp hs
      exact (q.new x hx).1 (by simp [e])
  have hPM : P.key ≠ M.key := fun e => q1.ne e.symm
  refine ⟨?_, ⟨p1, p2.totalShare, ⟨?_, ?_⟩, ⟨?_, ?_⟩, g3⟩, fun k k1 k2 k3 => ?_⟩
  · show stakeWorld env w P.key M.key D2.key p2 m2 d2' M.key = stakeWorld env w P.key M.key D1.key p1 m1 d1' M.key
    rw [t1, t2]
    unfold newContent
    simp only
    rw [if_neg (c q1).1, if_neg (c q2).1, g1]
    simp
  · rw [t1]; exact h1.pool.1
  · rw [t1]
    simp only [newContent]
    rw [if_neg (c q1).2]
    simp [hPM]
  · rw [t2]; exact h1.pool.1
  · rw [t2]
    simp only [newContent]
    rw [if_neg (c q2).2]
    simp only [Option.isSome_none, Bool.false_eq_true, and_false, if_false, hPM, if_true]
    rw [← g2]
  · show stakeWorld env w P.key M.key D2.key p2 m2 d2' k = stakeWorld env w P.key M.key D1.key p1 m1 d1' k
    rw [t1, t2]
    simp [newContent, k1, k2, k3, g1]

end Verif
