import Verif.Lemmas.PoolOps
import Verif.Spec.World
/-!
Every method keeps the tables tidy and the identifying fields unchanged.
-/

namespace Verif

open Spec

theorem bod_eq_midnight (t : Nat) : bod t = midnight t := by
  unfold bod midnight DAY; omega

theorem midnight_mono {a b : Nat} (h : a ≤ b) : midnight a ≤ midnight b := by
  rw [← bod_eq_midnight, ← bod_eq_midnight]; exact bod_mono h

/-- The identifying fields of a mining agree. -/
structure SameMining (m m' : Mining) : Prop where
  rewardPool : m'.rewardPool = m.rewardPool
  owner : m'.owner = m.owner
  rewardMint : m'.rewardMint = m.rewardMint
  bump : m'.bump = m.bump
  accountType : m'.accountType = m.accountType

/-- The configuration of a pool agrees. -/
structure SamePool (p p' : Pool) : Prop where
  depositAuthority : p'.depositAuthority = p.depositAuthority
  distributeAuthority : p'.distributeAuthority = p.distributeAuthority
  fillAuthority : p'.fillAuthority = p.fillAuthority
  rewardMint : p'.rewardMint = p.rewardMint
  bump : p'.bump = p.bump
  accountType : p'.accountType = p.accountType

theorem SameMining.refl (m : Mining) : SameMining m m := ⟨rfl, rfl, rfl, rfl, rfl⟩
theorem SamePool.refl (p : Pool) : SamePool p p := ⟨rfl, rfl, rfl, rfl, rfl, rfl⟩

theorem SameMining.trans {a b c : Mining} (h : SameMining a b) (h' : SameMining b c) : SameMining a c :=
  ⟨h'.1.trans h.1, h'.2.trans h.2, h'.3.trans h.3, h'.4.trans h.4, h'.5.trans h.5⟩
theorem SamePool.trans {a b c : Pool} (h : SamePool a b) (h' : SamePool b c) : SamePool a c :=
  ⟨h'.1.trans h.1, h'.2.trans h.2, h'.3.trans h.3, h'.4.trans h.4, h'.5.trans h.5, h'.6.trans h.6⟩

theorem end_aligned {per : LockupPeriod} {now e : Nat} (h : per.endTimestamp now = .ok e) : e % DAY = 0 := by
  rw [endTimestamp_ok] at h
  obtain ⟨n, _, _, rfl⟩ := h
  have := bod_mod now
  unfold DAY at *
  omega

theorem addAt_aligned {D : SMap} {cap k v : Nat} (h : ∀ e ∈ D, e.1 % DAY = 0) (hk : k % DAY = 0) :
    ∀ e ∈ addAt cap D k v, e.1 % DAY = 0 := by
  intro e he
  unfold addAt SMap.insert at he
  split at he
  · rcases SMap.mem_put he with he | he
    · rw [he]; exact hk
    · exact h e he
  · exact h e he

theorem after_aligned {D : SMap} {b : Nat} (h : ∀ e ∈ D, e.1 % DAY = 0) : ∀ e ∈ after D b, e.1 % DAY = 0 :=
  fun e he => h e (mem_after.mp he).1

theorem put_aligned {D : SMap} {k v old : Nat} (h : ∀ e ∈ D, e.1 % DAY = 0) (hk : SMap.get D k = some old) :
    ∀ e ∈ SMap.put D k v, e.1 % DAY = 0 := by
  intro e he
  rcases SMap.mem_put he with he | he
  · rw [he]; exact h (k, old) (SMap.get_some_mem hk)
  · exact h e he

theorem refresh_same {now : Nat} {cum : SMap} (hc : History cum) {m m' : Mining} (hm : MiningOk m)
    (h : m.refreshRewards now cum = .ok m') :
    SameMining m m' ∧ MiningOk m' ∧ m'.stakeFromOthers = m.stakeFromOthers := by
  obtain ⟨c, rfl, _⟩ := refresh_ok hc hm.sorted h
  exact ⟨⟨rfl, rfl, rfl, rfl, rfl⟩, ⟨after_sorted hm.sorted _, after_aligned hm.aligned⟩, rfl⟩

theorem refresh_sorted {now : Nat} {p : Pool} (hp : PoolOk now p) {m : Mining} (hm : MiningOk m) :
    ∀ m1, m.refreshRewards now p.cumulative = .ok m1 → Sorted m1.diffs :=
  fun _ h => (refresh_same hp.history hm h).2.1.sorted

/-- Preserved by a change of stake totals and expirations only. -/
theorem Spec.PoolOk.withDiffs {now : Nat} {p : Pool} (hp : PoolOk now p) {t : Nat} {D : SMap} (hs : Sorted D)
    (ha : ∀ e ∈ D, e.1 % DAY = 0) : PoolOk now { p with totalShare := t, diffs := D } :=
  ⟨hs, ha, hp.history, hp.past, hp.index, hp.ends, hp.initialized⟩

/-- What every stake operation leaves unchanged in the pool. -/
structure Quiet (now : Nat) (p p' : Pool) : Prop where
  same : SamePool p p'
  ok : PoolOk now p'
  cumulative : p'.cumulative = p.cumulative
  index : p'.index = p.index
  ends : p'.distributionEndsAt = p.distributionEndsAt
  avail : p'.tokensAvailable = p.tokensAvailable

theorem Quiet.refl {now : Nat} {p : Pool} (hp : PoolOk now p) : Quiet now p p := ⟨.refl p, hp, rfl, rfl, rfl, rfl⟩

theorem Quiet.trans {now : Nat} {a b c : Pool} (h : Quiet now a b) (h' : Quiet now b c) : Quiet now a c :=
  ⟨h.same.trans h'.same, h'.ok, h'.cumulative.trans h.cumulative, h'.index.trans h.index, h'.ends.trans h.ends,
    h'.avail.trans h.avail⟩

theorem Quiet.mk' {now : Nat} {p : Pool} (hp : PoolOk now p) {t : Nat} {D : SMap} (hs : Sorted D)
    (ha : ∀ e ∈ D, e.1 % DAY = 0) : Quiet now p { p with totalShare := t, diffs := D } :=
  ⟨⟨rfl, rfl, rfl, rfl, rfl, rfl⟩, hp.withDiffs hs ha, rfl, rfl, rfl, rfl⟩

theorem Quiet.mk'' {now : Nat} {p : Pool} (hp : PoolOk now p) {t : Nat} : Quiet now p { p with totalShare := t } :=
  Quiet.mk' hp hp.sorted hp.aligned

/-- A delegate before and after. -/
def SameDelegate : Option Mining → Option Mining → Prop
  | none, none => True
  | some d, some d' => SameMining d d' ∧ MiningOk d'
  | _, _ => False

theorem withSub_same {now a : Nat} {p p' : Pool} {d d' : Option Mining} (hp : PoolOk now p)
    (hd : ∀ x, d = some x → MiningOk x) (h : p.withDelegate d (Pool.delegateSub now a) = .ok (p', d')) :
    Quiet now p p' ∧ SameDelegate d d' := by
  cases d with
  | none =>
    rw [withDelegate_none] at h
    obtain ⟨rfl, rfl⟩ := h
    exact ⟨Quiet.refl hp, trivial⟩
  | some x =>
    rw [withDelegate_some] at h
    obtain ⟨x', h, rfl⟩ := h
    rw [delegateSub_ok] at h
    obtain ⟨_, _, h3, rfl⟩ := h
    have hx := hd x rfl
    have := refresh_same (m := { x with stakeFromOthers := x.stakeFromOthers - a }) hp.history ⟨hx.1, hx.2⟩ h3
    exact ⟨Quiet.mk'' hp, ⟨this.1.1, this.1.2, this.1.3, this.1.4, this.1.5⟩, this.2.1⟩

theorem withAdd_same {now a : Nat} {p p' : Pool} {d d' : Option Mining} (hp : PoolOk now p)
    (hd : ∀ x, d = some x → MiningOk x) (h : p.withDelegate d (Pool.delegateAdd now a) = .ok (p', d')) :
    Quiet now p p' ∧ SameDelegate d d' := by
  cases d with
  | none =>
    rw [withDelegate_none] at h
    obtain ⟨rfl, rfl⟩ := h
    exact ⟨Quiet.refl hp, trivial⟩
  | some x =>
    rw [withDelegate_some] at h
    obtain ⟨x', h, rfl⟩ := h
    rw [delegateAdd_ok] at h
    obtain ⟨_, _, h3, rfl⟩ := h
    have hx := hd x rfl
    have := refresh_same (m := { x with stakeFromOthers := x.stakeFromOthers + a }) hp.history ⟨hx.1, hx.2⟩ h3
    exact ⟨Quiet.mk'' hp, ⟨this.1.1, this.1.2, this.1.3, this.1.4, this.1.5⟩, this.2.1⟩

theorem deposit_same {caps : Caps} {now : Nat} {p p' : Pool} {m m' : Mining} {a : Nat} {per : LockupPeriod}
    {d d' : Option Mining} (hp : PoolOk now p) (hm : MiningOk m) (hd : ∀ x, d = some x → MiningOk x)
    (h : p.deposit caps now m a per d = .ok (p', m', d')) :
    Quiet now p p' ∧ SameMining m m' ∧ MiningOk m' ∧ m'.stakeFromOthers = m.stakeFromOthers ∧ SameDelegate d d' := by
  obtain ⟨m1, e, h1, h2, -, -, -, -, -, -, rfl, h9⟩ := deposit_ok (refresh_sorted hp hm) h
  obtain ⟨s1, o1, f1⟩ := refresh_same hp.history hm h1
  have hq : Quiet now p _ := Quiet.mk' (t := p.totalShare + a * per.multiplier) hp
    (addAt_sorted hp.sorted caps.pool e (a * per.multiplier - a)) (addAt_aligned hp.aligned (end_aligned h2))
  obtain ⟨q2, d2⟩ := withAdd_same hq.ok hd h9
  exact ⟨hq.trans q2, ⟨s1.1, s1.2, s1.3, s1.4, s1.5⟩,
    ⟨addAt_sorted o1.sorted _ _ _, addAt_aligned o1.aligned (end_aligned h2)⟩, f1, d2⟩

theorem withdraw_same {now : Nat} {p p' : Pool} {m m' : Mining} {a : Nat}
    {d d' : Option Mining} (hp : PoolOk now p) (hm : MiningOk m) (hd : ∀ x, d = some x → MiningOk x)
    (h : p.withdraw now m a d = .ok (p', m', d')) :
    Quiet now p p' ∧ SameMining m m' ∧ MiningOk m' ∧ m'.stakeFromOthers = m.stakeFromOthers ∧ SameDelegate d d' := by
  obtain ⟨m1, h1, -, -, rfl, h5⟩ := withdraw_ok hp.sorted h
  obtain ⟨s1, o1, f1⟩ := refresh_same hp.history hm h1
  have hq : Quiet now p _ := Quiet.mk' (t := p.totalShare - a - dueBy p.diffs (bod now)) hp
    (after_sorted hp.sorted (bod now)) (after_aligned hp.aligned)
  obtain ⟨q2, d2⟩ := withSub_same hq.ok hd h5
  exact ⟨hq.trans q2, ⟨s1.1, s1.2, s1.3, s1.4, s1.5⟩, ⟨o1.1, o1.2⟩, f1, d2⟩

theorem slash_same {now : Nat} {p p' : Pool} {m m' : Mining} {n mu : Nat} {ex : Option Nat}
    (hp : PoolOk now p) (hm : MiningOk m) (h : p.slash now m n mu ex = .ok (p', m')) :
    Quiet now p p' ∧ SameMining m m' ∧ MiningOk m' ∧ m'.stakeFromOthers = m.stakeFromOthers := by
  obtain ⟨m1, h1, -, -, h4⟩ := slash_ok hp.sorted (refresh_sorted hp hm) h
  obtain ⟨s1, o1, f1⟩ := refresh_same hp.history hm h1
  rcases h4 with ⟨-, rfl, rfl⟩ | ⟨ts, om, op, -, -, g1, g2, -, -, rfl, rfl⟩
  · exact ⟨Quiet.mk' hp (after_sorted hp.sorted _) (after_aligned hp.aligned), ⟨s1.1, s1.2, s1.3, s1.4, s1.5⟩,
      ⟨o1.1, o1.2⟩, f1⟩
  · exact ⟨Quiet.mk' hp (SMap.put_sorted (after_sorted hp.sorted _) _ _) (put_aligned (after_aligned hp.aligned) g2),
      ⟨s1.1, s1.2, s1.3, s1.4, s1.5⟩, ⟨SMap.put_sorted o1.1 _ _, put_aligned o1.2 g1⟩, f1⟩

theorem SameDelegate.ok {d d' : Option Mining} (h : SameDelegate d d') : ∀ x, d' = some x → MiningOk x := by
  intro x hx
  subst hx
  cases d with
  | none => exact h.elim
  | some y => exact h.2

theorem SameDelegate.trans {a b c : Option Mining} (h : SameDelegate a b) (h' : SameDelegate b c) : SameDelegate a c := by
  cases a <;> cases b <;> cases c <;> simp_all [SameDelegate]
  exact h.1.trans h'.1

theorem extend_same {caps : Caps} {now : Nat} {p p' : Pool} {m m' : Mining} {op np : LockupPeriod} {ts b a : Nat}
    {d d' : Option Mining} (hp : PoolOk now p) (hm : MiningOk m) (hd : ∀ x, d = some x → MiningOk x)
    (h : p.extend caps now m op np ts b a d = .ok (p', m', d')) :
    Quiet now p p' ∧ SameMining m m' ∧ MiningOk m' ∧ m'.stakeFromOthers = m.stakeFromOthers ∧ SameDelegate d d' := by
  obtain ⟨m1, oe, p2, m2, p3, d3, h1, -, h3, -, h5, h6⟩ := extend_ok (refresh_sorted hp hm) h
  obtain ⟨s1, o1, f1⟩ := refresh_same hp.history hm h1
  have key : Quiet now p p2 ∧ SameMining m1 m2 ∧ MiningOk m2 ∧ m2.stakeFromOthers = m1.stakeFromOthers := by
    rcases h3 with ⟨-, -, -, ⟨old, g1, -, rfl⟩, -, -, rfl⟩ | ⟨-, -, -, rfl, rfl⟩
    · exact ⟨Quiet.mk'' hp, ⟨rfl, rfl, rfl, rfl, rfl⟩, ⟨SMap.put_sorted o1.1 _ _, put_aligned o1.2 g1⟩, rfl⟩
    · exact ⟨Quiet.mk'' hp, ⟨rfl, rfl, rfl, rfl, rfl⟩, ⟨o1.1, o1.2⟩, rfl⟩
  obtain ⟨q2, s2, o2, f2⟩ := key
  obtain ⟨q3, d3'⟩ := withSub_same q2.ok hd h5
  obtain ⟨q4, s4, o4, f4, d4⟩ := deposit_same q3.ok o2 d3'.ok h6
  exact ⟨(q2.trans q3).trans q4, (s1.trans s2).trans s4, o4, by rw [f4, f2, f1], d3'.trans d4⟩

theorem changeDelegate_same {now : Nat} {p p' : Pool} {m m' : Mining} {nd od nd' od' : Option Mining} {a : Nat}
    (hp : PoolOk now p) (hm : MiningOk m) (hn : ∀ x, nd = some x → MiningOk x) (ho : ∀ x, od = some x → MiningOk x)
    (h : p.changeDelegate now m nd od a = .ok (p', m', nd', od')) :
    Quiet now p p' ∧ SameMining m m' ∧ MiningOk m' ∧ m'.stakeFromOthers = m.stakeFromOthers ∧ SameDelegate nd nd' ∧
      SameDelegate od od' := by
  rw [changeDelegate_ok] at h
  obtain ⟨h1, p1, h2, h3⟩ := h
  obtain ⟨s1, o1, f1⟩ := refresh_same hp.history hm h1
  obtain ⟨q2, d2⟩ := withSub_same hp ho h2
  obtain ⟨q3, d3⟩ := withAdd_same q2.ok hn h3
  exact ⟨q2.trans q3, s1, o1, f1, d3, d2⟩

theorem decreaseLoop_keys (n : Nat) (l : List (Nat × Nat)) : (Mining.decreaseLoop n l).map (·.1) = l.map (·.1) := by
  induction l generalizing n with
  | nil => rfl
  | cons a l ih =>
    obtain ⟨d, v⟩ := a
    unfold Mining.decreaseLoop
    split
    · rfl
    · simp [ih]

theorem sorted_iff_keys {l : List (Nat × Nat)} : Sorted l ↔ (l.map (·.1)).Pairwise (· < ·) := by
  unfold Sorted; rw [List.pairwise_map]

theorem decrease_keys (n : Nat) (l : List (Nat × Nat)) :
    ((Mining.decreaseLoop n l.reverse).reverse).map (·.1) = l.map (·.1) := by
  rw [List.map_reverse, decreaseLoop_keys, List.map_reverse, List.reverse_reverse]

theorem decreaseRewards_ok {m m' : Mining} {n : Nat} :
    m.decreaseRewards n = .ok m' ↔ n = 0 ∧ m' = m ∨ n ≠ 0 ∧ n ≤ m.share ∧
      m' = { m with share := m.share - n, diffs := (Mining.decreaseLoop n m.diffs.reverse).reverse } := by
  unfold Mining.decreaseRewards
  by_cases h : n = 0
  · simp [h, eq_comm]
  · rw [if_neg h]
    simp only [res_bind_ok, ensure_ok, safeSub_ok, res_pure_ok]
    constructor
    · rintro ⟨_, h1, _, ⟨h2, rfl⟩, rfl⟩; exact Or.inr ⟨h, h2, rfl⟩
    · rintro (⟨h', _⟩ | ⟨_, h1, rfl⟩)
      · exact absurd h' h
      · exact ⟨(), by omega, _, ⟨h1, rfl⟩, rfl⟩

theorem decrease_same {m m' : Mining} {n : Nat} (hm : MiningOk m) (h : m.decreaseRewards n = .ok m') :
    SameMining m m' ∧ MiningOk m' ∧ m'.stakeFromOthers = m.stakeFromOthers := by
  rw [decreaseRewards_ok] at h
  rcases h with ⟨_, rfl⟩ | ⟨_, _, rfl⟩
  · exact ⟨.refl _, hm, rfl⟩
  · refine ⟨⟨rfl, rfl, rfl, rfl, rfl⟩, ⟨?_, ?_⟩, rfl⟩
    · show Sorted (Mining.decreaseLoop n m.diffs.reverse).reverse
      rw [sorted_iff_keys, decrease_keys, ← sorted_iff_keys]
      exact hm.sorted
    · intro e he
      have h1 : e.1 ∈ ((Mining.decreaseLoop n m.diffs.reverse).reverse).map (·.1) := List.mem_map_of_mem he
      rw [decrease_keys] at h1
      obtain ⟨x, hx, hx2⟩ := List.mem_map.mp h1
      rw [← hx2]
      exact hm.aligned x hx

theorem insert_mem {cap : Nat} {D : SMap} {k v : Nat} : ∀ e ∈ SMap.insert cap D k v, e = (k, v) ∨ e ∈ D := by
  intro e he
  unfold SMap.insert at he
  split at he
  · exact SMap.mem_put he
  · exact Or.inr he

/-- Adding a last entry. -/
theorem put_last {D : SMap} {k v : Nat} (h : ∀ e ∈ D, e.1 < k) : SMap.put D k v = D ++ [(k, v)] := by
  induction D with
  | nil => rfl
  | cons a D ih =>
    obtain ⟨k', v'⟩ := a
    have h1 := h (k', v') (by simp)
    simp only at h1
    unfold SMap.put
    rw [if_neg (by omega), if_neg (by omega), ih (fun e he => h e (by simp [he]))]
    rfl

/-- The index history after a distribution on a new day. -/
theorem insert_last {cap : Nat} {D : SMap} {k v : Nat} (h : ∀ e ∈ D, e.1 < k) :
    SMap.insert cap D k v = if D.length < cap then D ++ [(k, v)] else D := by
  have hc : SMap.contains D k = false := by
    rw [Bool.eq_false_iff, ne_eq, SMap.contains_iff]
    rintro ⟨e, he, hk⟩
    have := h e he
    omega
  unfold SMap.insert
  rw [hc]
  simp only [Bool.false_eq_true, false_or]
  split
  · exact put_last h
  · rfl

theorem distribute_same {caps : Caps} {now r : Nat} {p p' : Pool} (hp : PoolOk now p)
    (h : p.distribute caps now r = .ok p') : SamePool p p' ∧ PoolOk now p' := by
  rw [distribute_ok hp.sorted] at h
  obtain ⟨_, _, ⟨_, rfl⟩ | ⟨hc, _, _, _, _, rfl⟩⟩ := h
  · have := Quiet.mk' (t := p.totalShare - dueBy p.diffs (bod now)) hp (after_sorted hp.sorted (bod now))
      (after_aligned hp.aligned)
    exact ⟨this.same, this.ok⟩
  · refine ⟨⟨rfl, rfl, rfl, rfl, rfl, rfl⟩, ?_⟩
    have hlt : ∀ e ∈ p.cumulative, e.1 < bod now := by
      intro e he
      have h1 := hp.past e he
      rw [← bod_eq_midnight] at h1
      rcases Nat.lt_or_eq_of_le h1 with h2 | h2
      · exact h2
      · exact absurd (SMap.contains_iff.mpr ⟨e, he, h2⟩) hc
    refine ⟨after_sorted hp.sorted _, after_aligned hp.aligned, ⟨?_, ?_, ?_⟩, ?_, ?_, hp.ends, hp.initialized⟩
    · exact insert_sorted hp.history.sorted _ _ _
    · simp only
      rw [insert_last hlt]
      split
      · refine List.pairwise_append.mpr ⟨hp.history.mono, by simp, ?_⟩
        intro a ha b hb
        simp only [List.mem_singleton] at hb
        subst hb
        exact Nat.le_trans (hp.index a ha) (Nat.le_add_right _ _)
      · exact hp.history.mono
    · intro e he
      rcases insert_mem e he with he | he
      · rw [he]; exact bod_mod now
      · exact hp.history.aligned e he
    · intro e he
      rcases insert_mem e he with he | he
      · rw [he]; exact Nat.le_of_eq (bod_eq_midnight now)
      · exact hp.past e he
    · intro e he
      rcases insert_mem e he with he | he
      · rw [he]; exact Nat.le_refl _
      · exact Nat.le_trans (hp.index e he) (Nat.le_add_right _ _)

end Verif
