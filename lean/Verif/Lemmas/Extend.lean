import Verif.Lemmas.RoundTrip
import Verif.Spec.Extend
/-!
Extending a stake compared with withdrawing (or slashing) it and depositing it again.
-/

namespace Verif

open Spec

variable {env : Env}

theorem terms_facts {per : LockupPeriod} {k n : Nat} (h : terms per = some (k, n)) : per.multiplier = k ∧ 1 ≤ k ∧ 1 ≤ n := by
  cases per <;> simp [terms] at h <;> obtain ⟨rfl, rfl⟩ := h <;> simp [LockupPeriod.multiplier]

theorem terms_ends {per : LockupPeriod} {k n ts : Nat} (h : terms per = some (k, n)) (hf : midnight ts + 86400 * n < 2 ^ 64) :
    per.endTimestamp ts = .ok (midnight ts + 86400 * n) := by
  obtain ⟨h1, h2, h3⟩ := terms_facts h
  exact terms_end.mpr ⟨_, _, h, h1, h2, h3, hf, rfl⟩

theorem extend_parts {caps : Caps} {now : Nat} {p : Pool} {m : Mining} {op np : LockupPeriod} {ts b a : Nat}
    {d : Option Mining} {r : Pool × Mining × Option Mining}
    (hm : ∀ m1, m.refreshRewards now p.cumulative = .ok m1 → Sorted m1.diffs)
    (h : p.extend caps now m op np ts b a d = .ok r) :
    ∃ m1 wt m2 p3 d3, m.refreshRewards now p.cumulative = .ok m1 ∧ TakenOut now m1 op ts b wt m2 ∧ wt ≤ m1.share ∧
      wt ≤ p.totalShare ∧ b + a < 2 ^ 64 ∧
      Pool.withDelegate { p with totalShare := p.totalShare - wt } d (Pool.delegateSub now b) = .ok (p3, d3) ∧
      p3.deposit caps now m2 (b + a) np d3 = .ok r := by
  obtain ⟨p', m', d'⟩ := r
  obtain ⟨m1, oe, p2, m2, p3, d3, h1, h2, h3, h4, h5, h6⟩ := extend_ok hm h
  rcases h3 with ⟨g1, g2, g3, ⟨old, g4, g5, rfl⟩, g6, g7, rfl⟩ | ⟨g1, g2, g3, rfl, rfl⟩
  · rcases h2 with ⟨-, rfl⟩ | ⟨e1, e2⟩
    · omega
    · exact ⟨m1, _, _, p3, d3, h1, .locked e1 e2 g1 g4 g5, g6, g7, h4, h5, h6⟩
  · refine ⟨m1, _, _, p3, d3, h1, .flat ?_, g2, g3, h4, h5, h6⟩
    rcases h2 with ⟨e, -⟩ | ⟨e1, e2⟩
    · exact Or.inl e
    · exact Or.inr ⟨oe, e1, e2, by omega⟩

theorem takenOut_free {now : Nat} {m m2 : Mining} {op : LockupPeriod} {ts b wt : Nat} (hfree : TokensFree now op ts) :
    TakenOut now m op ts b wt m2 ↔ wt = b ∧ m2 = { m with share := m.share - b } := by
  have hend : op = .flex ∨ ∃ oe, op ≠ .flex ∧ op.endTimestamp ts = .ok oe ∧ oe ≤ now := by
    rcases hfree with h | ⟨k, n, h1, h2, h3⟩
    · exact Or.inl h
    · by_cases e : op = .flex
      · exact Or.inl e
      · exact Or.inr ⟨_, e, terms_ends h1 h2, h3⟩
  constructor
  · intro h
    cases h with
    | flat h => exact ⟨rfl, rfl⟩
    | locked h1 h2 h3 =>
      rcases hend with h | ⟨oe, -, g1, g2⟩
      · exact absurd h h1
      · rw [h2] at g1; cases g1; omega
  · rintro ⟨rfl, rfl⟩; exact .flat hend

theorem poolUpToDate_after {now : Nat} {p : Pool} (h : PoolUpToDate now p) :
    dueBy p.diffs (midnight now) = 0 ∧ after p.diffs (midnight now) = p.diffs := by
  refine ⟨dueBy_eq_zero h, ?_⟩
  unfold after
  exact List.filter_eq_self.mpr fun e he => by have := h e he; simpa using this

theorem extend_free {caps : Caps} {now : Nat} {p : Pool} {m : Mining} {op np : LockupPeriod} {ts b a : Nat}
    {d : Option Mining} (hc : History p.cumulative) (hp : Sorted p.diffs) (hm : Fine m) (hd : ∀ x, d = some x → Fine x)
    (hup : PoolUpToDate now p) (hfree : TokensFree now op ts) (r : Pool × Mining × Option Mining) :
    p.extend caps now m op np ts b a d = .ok r ↔
      ∃ r1, p.withdraw now m b d = .ok r1 ∧ r1.1.deposit caps now r1.2.1 (b + a) np r1.2.2 = .ok r := by
  have hm' : ∀ m1, m.refreshRewards now p.cumulative = .ok m1 → Sorted m1.diffs ∧ m1.share < 2 ^ 64 := by
    intro m1 h
    obtain ⟨h1, rfl⟩ := (refresh_settle hc hm).mp h
    have := h1.stake
    exact ⟨after_sorted hm.1 _, by simp only [settle]; omega⟩
  obtain ⟨u1, u2⟩ := poolUpToDate_after hup
  -- withdrawing, in the parts of extending
  have hwd : ∀ {m1 : Mining} {p3 : Pool} {d3 : Option Mining}, m.refreshRewards now p.cumulative = .ok m1 → b ≤ m1.share →
      b ≤ p.totalShare →
      Pool.withDelegate { p with totalShare := p.totalShare - b } d (Pool.delegateSub now b) = .ok (p3, d3) →
      p.withdraw now m b d = .ok (p3, { m1 with share := m1.share - b }, d3) := by
    intro m1 p3 d3 h1 h3 h4 h6
    obtain ⟨r1, rfl⟩ := (refresh_settle hc hm).mp h1
    obtain ⟨h8, rfl, rfl⟩ := (take_exact (by exact hc) hd).mp h6
    have := r1.backed
    simp only [settle] at h3 h8
    refine (withdraw_solved hc hp hm hd _).mpr ⟨⟨r1, by omega, by omega, by rw [u1]; exact h8⟩, ?_⟩
    simp only [withdrawn, u1, u2, orZero, Nat.sub_zero]
  constructor
  · intro h
    obtain ⟨m1, wt, m2, p3, d3, h1, h2, h3, h4, -, h6, h7⟩ := extend_parts (fun m1 h => (hm' m1 h).1) h
    obtain ⟨rfl, rfl⟩ := (takenOut_free hfree).mp h2
    exact ⟨_, hwd h1 h3 h4 h6, h7⟩
  · rintro ⟨⟨p3, m2, d3⟩, h1, h2⟩
    obtain ⟨m1, g1, g2, g3, rfl, g4⟩ := withdraw_ok hp h1
    rw [bod_eq_midnight, u1, u2] at g4
    rw [bod_eq_midnight, u1] at g3
    simp only [Nat.sub_zero] at g4
    have hba : b + a < 2 ^ 64 := by
      obtain ⟨w1, w2⟩ := (withdraw_solved hc hp hm hd _).mp h1
      simp only [withdrawn, Prod.mk.injEq] at w2
      obtain ⟨rfl, e2, -⟩ := w2
      have hf : Fine { m1 with share := m1.share - b } := by rw [e2]; exact settle_fine hm w1.refresh
      obtain ⟨pp, mm, dd⟩ := r
      obtain ⟨-, e, -, h3, -, h4, -⟩ := deposit_ok
        (fun m1 h => by obtain ⟨-, rfl⟩ := (refresh_settle (by exact hc) hf).mp h; exact after_sorted hf.1 _) h2
      obtain ⟨k, n, -, h5, h6, -⟩ := terms_end.mp h3
      rw [h5] at h4
      calc b + a = (b + a) * 1 := (Nat.mul_one _).symm
        _ ≤ (b + a) * k := Nat.mul_le_mul_left _ h6
        _ < _ := h4
    obtain ⟨r', h5⟩ := (extend_iff hm').mpr ⟨m1, b, _, p3, d3, g1, (takenOut_free hfree).mpr ⟨rfl, rfl⟩, g2, by omega, hba,
      g4, r, h2⟩
    obtain ⟨m1', wt, m2, p3', d3', k1, k2, -, -, -, k6, k7⟩ := extend_parts (fun m1 h => (hm' m1 h).1) h5
    obtain ⟨rfl, rfl⟩ := (takenOut_free hfree).mp k2
    rw [g1] at k1; cases k1
    rw [g4] at k6; cases k6
    simp only at h2
    rw [h2] at k7; cases k7
    exact h5

/-! ## A lock that is still running -/

/-- Adding to one entry of a table and having had less in an existing one do not interfere. -/
theorem recordedAt_addAt_put {cap : Nat} {D : SMap} (hD : Sorted D) {k v c : Nat} (hk : D.get k = some v) (hc : c ≤ v)
    (e x y : Nat) : recordedAt (addAt cap D e x) y =
      recordedAt (addAt cap (D.put k (v - c)) e x) y + if y = k then c else 0 := by
  have hD' : Sorted (D.put k (v - c)) := SMap.put_sorted hD ..
  have hcon : D.contains k = true := by unfold SMap.contains; rw [hk]; rfl
  have hl : (D.put k (v - c)).length = D.length := by rw [put_length hD, if_pos hcon]
  have h1 : ∀ x, (D.put k (v - c)).contains x = D.contains x := by
    intro x
    unfold SMap.contains
    rw [SMap.get_put]
    split
    · rename_i e; subst e; rw [hk]; rfl
    · rfl
  rw [recordedAt_get (addAt_sorted hD ..), recordedAt_get (addAt_sorted hD' ..)]
  unfold addAt SMap.insert
  rw [h1, hl]
  by_cases hr : D.contains e = true ∨ D.length < cap
  · rw [if_pos hr, if_pos hr]
    simp only [SMap.get_put]
    by_cases e1 : y = e
    · subst e1
      by_cases e2 : y = k
      · subst e2; simp [hk]; omega
      · simp [e2]
    · by_cases e2 : y = k
      · subst e2; simp [hk, e1]; omega
      · simp [e1, e2]
  · rw [if_neg hr, if_neg hr, SMap.get_put]
    split
    · rename_i e2; subst e2; simp [hk]; omega
    · simp

theorem recordedAt_put_le {D : SMap} (hD : Sorted D) {k v c : Nat} (hk : D.get k = some v) (y : Nat) :
    recordedAt (D.put k (v - c)) y ≤ recordedAt D y := by
  rw [recordedAt_get (SMap.put_sorted hD ..), recordedAt_get hD, SMap.get_put]
  split
  · rename_i e; subst e; simp [hk]
  · exact Nat.le_refl _

theorem extend_running {caps : Caps} {now : Nat} {p pe : Pool} {m me : Mining} {op np : LockupPeriod} {ts b a k n v : Nat}
    {de : Option Mining} (hc : History p.cumulative) (hp : Sorted p.diffs) (hm : Fine m) (hup : PoolUpToDate now p)
    (ht : terms op = some (k, n)) (hop : op ≠ .flex) (hfut : now < midnight ts + 86400 * n)
    (hv : (midnight ts + 86400 * n, v) ∈ p.diffs) (hle : b * k - b ≤ v)
    (h : p.extend caps now m op np ts b a none = .ok (pe, me, de)) :
    ∃ p1 m1 p2, p.slash now m b (b * k) (some (midnight ts + 86400 * n)) = .ok (p1, m1) ∧
      p1.deposit caps now m1 (b + a) np none = .ok (p2, me, none) ∧ de = none ∧ pe = { p2 with diffs := pe.diffs } ∧
      ∀ y, recordedAt pe.diffs y = recordedAt p2.diffs y + if y = midnight ts + 86400 * n then b * k - b else 0 := by
  obtain ⟨u1, u2⟩ := poolUpToDate_after hup
  obtain ⟨hk, k1, n1⟩ := terms_facts ht
  have hkb : b ≤ b * k := by
    calc b = b * 1 := (Nat.mul_one _).symm
      _ ≤ _ := Nat.mul_le_mul_left _ k1
  have hmid : midnight (midnight ts + 86400 * n) = midnight ts + 86400 * n := by unfold midnight; omega
  have hlt : midnight now < midnight ts + 86400 * n := by unfold midnight at *; omega
  obtain ⟨m1, wt, m2, p3, d3, h1, h2, h3, h4, h5, h6, h7⟩ := extend_parts
    (fun m1 h => by obtain ⟨-, rfl⟩ := (refresh_settle hc hm).mp h; exact after_sorted hm.1 _) h
  obtain ⟨r1, rfl⟩ := (refresh_settle hc hm).mp h1
  cases h6
  cases h2 with
  | flat hf =>
    rcases hf with hf | ⟨oe, -, g1, g2⟩
    · exact absurd hf hop
    · obtain ⟨k', n', t1, -, -, -, -, rfl⟩ := terms_end.mp g1
      rw [ht] at t1; cases t1; omega
  | @locked oe ov g0 g1 g2 g3 g4 =>
    obtain ⟨k', n', t1, -, -, -, -, rfl⟩ := terms_end.mp g1
    rw [ht] at t1; cases t1
    rw [hk] at g4 h3 h4 h7
    have hb := r1.backed
    simp only [settle] at h3 g3 g4
    have hget : SMap.get p.diffs (midnight ts + 86400 * n) = some v := (mem_get hp).mp hv
    have hcon : p.diffs.contains (midnight ts + 86400 * n) = true := by unfold SMap.contains; rw [hget]; rfl
    have hrec : recordedAt p.diffs (midnight ts + 86400 * n) = v := by rw [recordedAt_get hp, hget]; rfl
    have hsl : p.slash now m b (b * k) (some (midnight ts + 86400 * n)) = .ok (slashed now p m b (b * k) (some (midnight ts + 86400 * n))) := by
      refine (slash_solved hc hp hm _).mpr ⟨⟨⟨r1, by omega, by omega, by intro x hx; cases hx⟩, ?_⟩, rfl⟩
      rintro _ ⟨⟩
      rw [hmid]
      exact ⟨hkb, hlt, ⟨ov, (mem_after.mp ((mem_get (after_sorted hm.1 _)).mpr g3)).1, g4⟩, v, hv, hle⟩
    have e1 : (slashed now p m b (b * k) (some (midnight ts + 86400 * n))).1 =
        { p with totalShare := p.totalShare - b * k, diffs := p.diffs.put (midnight ts + 86400 * n) (v - (b * k - b)) } := by
      simp only [slashed, u1, u2, lessAt, hmid, hget, Option.getD_some, Nat.sub_zero]
    have e2 : (slashed now p m b (b * k) (some (midnight ts + 86400 * n))).2 =
        { settle now p.cumulative m with
            diffs := (settle now p.cumulative m).diffs.put (midnight ts + 86400 * n) (ov - (b * k - b)),
            share := (settle now p.cumulative m).share - b * k } := by
      simp only [slashed, lessAt, hmid, settle, g3, Option.getD_some]
    have hs1 : Sorted (p.diffs.put (midnight ts + 86400 * n) (v - (b * k - b))) := SMap.put_sorted hp ..
    have hf2 : Fine { settle now p.cumulative m with
            diffs := (settle now p.cumulative m).diffs.put (midnight ts + 86400 * n) (ov - (b * k - b)),
            share := (settle now p.cumulative m).share - b * k } :=
      ⟨SMap.put_sorted (after_sorted hm.1 _) .., r1.rewards⟩
    have hsl' : p.slash now m b (b * k) (some (midnight ts + 86400 * n)) = .ok (_, _) :=
      hsl.trans (congrArg _ (Prod.ext e1 e2))
    generalize ({ settle now p.cumulative m with
            diffs := (settle now p.cumulative m).diffs.put (midnight ts + 86400 * n) (ov - (b * k - b)),
            share := (settle now p.cumulative m).share - b * k } : Mining) = X at h7 hsl' hf2
    obtain ⟨k2, n2, ht2, hok⟩ := (deposit_exact (by exact hc) (by exact hp) hf2 (by intro x hx; cases hx)).mp ⟨_, h7⟩
    have hres := ((deposit_solved ht2 (by exact hc) (by exact hp) hf2 (by intro x hx; cases hx) _).mp h7).2
    simp only [deposited, orZero, Option.isSome_none, Bool.false_eq_true, if_false, Nat.add_zero, Option.map_none,
      Prod.mk.injEq] at hres
    obtain ⟨rfl, rfl, rfl⟩ := hres
    have hpt := hok.poolTable
    have hle2 := recordedAt_put_le hp (c := b * k - b) hget (midnight now + 86400 * n2)
    refine ⟨_, X, _, hsl', (deposit_solved ht2 (by exact hc) (by exact hs1) hf2 (by intro x hx; cases hx) _).mpr
      ⟨⟨hok.refresh, hok.date, hok.own, hok.pool, hok.ownTable, ?_, by intro x hx; cases hx⟩, rfl⟩, rfl, rfl, ?_⟩
    · simp only at hpt ⊢; omega
    · intro y
      exact recordedAt_addAt_put hp hget hle _ _ _

/-! ## Instructions -/

theorem extend_exec_eq {now : Nat} {w : World} (hw : Wf env now w) {accs : List AccountInfo} {P M A D : AccountInfo}
    {rest : List AccountInfo} {p : Pool} {m : Mining} {d : Option Mining} {owner delegate : Key} {op np : LockupPeriod}
    {ts b a : Nat} (h : StakeReady env w accs P M A D rest p m d owner delegate) (w' : World) :
    exec env now w accs (.extendStake op np ts b a owner delegate) = .ok (w', none) ↔
      ∃ r, p.extend env.caps now m op np ts b a d = .ok r ∧ w' = stakeWorld env w P.key M.key D.key r.1 r.2.1 r.2.2 := by
  constructor
  · intro hx
    obtain ⟨r, hr⟩ := (extend_exec_iff hw h).mp ⟨_, hx⟩
    rw [extend_exec hw h hr] at hx
    cases hx
    exact ⟨r, hr, rfl⟩
  · rintro ⟨r, hr, rfl⟩; exact extend_exec hw h hr

theorem extend_free_exec {now : Nat} {w : World} (hw : Wf env now w) {accs : List AccountInfo} (hs : RealSigners accs)
    {P M A D : AccountInfo} {rest : List AccountInfo} {p : Pool} {m : Mining} {d : Option Mining} {owner delegate : Key}
    {op np : LockupPeriod} {ts b a : Nat} (h : StakeReady env w accs P M A D rest p m d owner delegate) (hm : Fine m)
    (hd : ∀ x, d = some x → Fine x) (hup : PoolUpToDate now p) (hfree : TokensFree now op ts) :
    SameAsTwo env now w accs (.extendStake op np ts b a owner delegate) (.withdrawMining b owner delegate)
      (.depositMining (b + a) np owner delegate) := by
  obtain ⟨o1, o2, o3⟩ := h.oks hw
  refine two_execs (W := fun w (r : Pool × Mining × Option Mining) => stakeWorld env w P.key M.key D.key r.1 r.2.1 r.2.2)
    (extend_exec_eq hw h) (withdraw_exec_eq hw h) (z := fun r1 => r1.1.deposit env.caps now r1.2.1 (b + a) np r1.2.2) ?_ ?_
    (extend_free o1.history o1.sorted hm hd hup hfree)
  · intro r1 h1 w'
    obtain ⟨q, s, -, -, sd⟩ := withdraw_same o1 o2 o3 h1
    exact deposit_exec_eq (wf_process hw hs (by exact trivial) (exec_none (withdraw_exec hw h h1))) (h.next q.same s sd) w'
  · intro r1 r h1 h2
    obtain ⟨q, s, mo, -, sd⟩ := withdraw_same o1 o2 o3 h1
    obtain ⟨-, -, -, -, sd2⟩ := deposit_same q.ok mo sd.ok h2
    exact stakeWorld_twice h sd sd2

theorem extend_running_exec {now : Nat} {w we : World} (hw : Wf env now w) {accs accs' : List AccountInfo}
    (hs : RealSigners accs') {P M A D A' : AccountInfo} {rest rest' : List AccountInfo} {p : Pool} {m : Mining}
    {owner delegate : Key} {op np : LockupPeriod} {ts b a k n v : Nat}
    (h : StakeReady env w accs P M A D rest p m none owner delegate)
    (h' : SlashReady env w accs' A' P M rest' p m owner) (hm : Fine m) (hup : PoolUpToDate now p)
    (ht : terms op = some (k, n)) (hop : op ≠ .flex) (hfut : now < midnight ts + 86400 * n)
    (hv : (midnight ts + 86400 * n, v) ∈ p.diffs) (hle : b * k - b ≤ v)
    (hx : exec env now w accs (.extendStake op np ts b a owner delegate) = .ok (we, none)) :
    ∃ w1 w2, exec env now w accs' (.slash owner b (b * k) (some (midnight ts + 86400 * n))) = .ok (w1, none) ∧
      exec env now w1 accs (.depositMining (b + a) np owner delegate) = .ok (w2, none) ∧
      OnlyMoreExpires env w2 we P.key (midnight ts + 86400 * n) (b * k - b) := by
  obtain ⟨o1, o2, o3⟩ := h.oks hw
  obtain ⟨⟨pe, me, de⟩, k1, rfl⟩ := (extend_exec_eq hw h _).mp hx
  obtain ⟨p1, m1, p2, g1, g2, rfl, g3, g4⟩ := extend_running o1.history o1.sorted hm hup ht hop hfut hv hle k1
  obtain ⟨q, s, mo, -⟩ := slash_same o1 o2 g1
  have hs1 : exec env now w accs' (.slash owner b (b * k) (some (midnight ts + 86400 * n))) =
      .ok (stakeWorld env w P.key M.key D.key p1 m1 none, none) := slash_exec hw h' g1
  have hw1 := wf_process hw hs (by exact trivial) (exec_none hs1)
  have hn := h.next q.same s (d' := none) (by exact trivial)
  refine ⟨_, _, hs1, deposit_exec hw1 hn g2, ?_⟩
  rw [stakeWorld_twice h (d1 := none) (d2 := none) (by exact trivial) (by exact trivial)]
  have hat : ∀ x y k, stakeWorld env w P.key M.key D.key x y none k = _ := fun x y k =>
    (congrFun (stakeWorld_eq w _ _ _ x y none) k).trans (writes_at (r := (x, y, none, none)) (h.places (d' := none) rfl) k)
  have hPM : P.key ≠ M.key := fun e => (h.places (d' := none) rfl).ne e.symm
  have hc : ∀ x y, newContent P.key M.key M.key D.key (x, y, none, none) P.key (w P.key).content = .pool x := by
    intro x y
    simp [newContent, hPM]
  refine ⟨fun k hk => ?_, ?_, p2, pe.diffs, ⟨?_, ?_⟩, ⟨?_, ?_⟩, g4⟩
  · simp only [hat]
    simp [newContent, hk]
  · simp only [hat]; exact ⟨trivial, trivial, trivial⟩
  · rw [hat]; exact h.pool.1
  · rw [hat]; exact hc _ _
  · rw [hat]; exact h.pool.1
  · rw [hat]; exact (hc _ _).trans (congrArg _ g3)

end Verif
